import Verif.AD.Tape
import Mathlib.Analysis.SpecialFunctions.Arcosh
import Mathlib.Analysis.SpecialFunctions.Artanh
import Mathlib.Analysis.SpecialFunctions.Arsinh
import Mathlib.Analysis.SpecialFunctions.Trigonometric.ArctanDeriv
import Mathlib.Analysis.SpecialFunctions.Trigonometric.InverseDeriv
import Mathlib.Analysis.SpecialFunctions.Pow.Deriv
import Mathlib.Analysis.SpecialFunctions.Sqrt
import Mathlib.MeasureTheory.Integral.IntervalIntegral.FundThmCalculus
import Mathlib.Analysis.SpecialFunctions.ExpDeriv

/-!
# The scalar type ℝ

The `<cmath>` functions are interpreted by the real functions of the same name, and
the derivatives the sweeps rely on are proved.
-/
set_option linter.all false
namespace Verif.AD
open Real

/-- `erf` by its defining integral. -/
noncomputable def rerf (x : ℝ) : ℝ := 2 / √π * ∫ t in (0:ℝ)..x, Real.exp (-t * t)

/-- Real cube root. -/
noncomputable def rcbrt (x : ℝ) : ℝ := SignType.sign x * |x| ^ (1 / 3 : ℝ)

/-- ℝ as scalar type.  `nan` and `inf` are not real numbers; they only occur in
results of operations outside their domain, about which nothing is claimed. -/
noncomputable instance instElemReal : Elem ℝ where
  exp := Real.exp
  log := Real.log
  sqrt := Real.sqrt
  cbrt := rcbrt
  sin := Real.sin
  cos := Real.cos
  atan := Real.arctan
  asin := Real.arcsin
  acos := Real.arccos
  asinh := Real.arsinh
  acosh := Real.arcosh
  atanh := Real.artanh
  erf := rerf
  erfc := fun x => 1 - rerf x
  pow := fun x y => x ^ y
  ceil := fun x => (⌈x⌉ : ℤ)
  floor := fun x => (⌊x⌋ : ℤ)
  fabs := fun x => |x|
  nan := 0
  inf := 0
  idx := fun x => ⌊|x|⌋₊
  ofLoc := fun n => n

noncomputable instance instScalarReal : Scalar ℝ :=
  { (inferInstance : Field ℝ), (inferInstance : LinearOrder ℝ),
    (inferInstance : IsStrictOrderedRing ℝ), instElemReal with }

theorem hasDerivAt_rerf (x : ℝ) : HasDerivAt rerf (2 / √π * Real.exp (-x * x)) x := by
  unfold rerf
  refine HasDerivAt.const_mul _ ?_
  have hc : Continuous fun t : ℝ => Real.exp (-t * t) := by fun_prop
  exact intervalIntegral.integral_hasDerivAt_right (hc.intervalIntegrable _ _)
    hc.stronglyMeasurable.stronglyMeasurableAtFilter hc.continuousAt

theorem hasDerivAt_rcbrt {x : ℝ} (hx : x ≠ 0) :
    HasDerivAt rcbrt (1 / (3 * rcbrt x * rcbrt x)) x := by
  rcases lt_or_gt_of_ne hx with h | h
  · have h1 : HasDerivAt (fun y : ℝ => - (-y) ^ (1 / 3 : ℝ)) (1 / (3 * rcbrt x * rcbrt x)) x := by
      have h2 : HasDerivAt (fun y : ℝ => (-y) ^ (1 / 3 : ℝ)) (-1 * (1 / 3 : ℝ) * (-x) ^ ((1 / 3 : ℝ) - 1)) x :=
        (hasDerivAt_neg x).rpow_const (Or.inl (by linarith))
      have h3 := h2.neg
      refine h3.congr_deriv ?_
      unfold rcbrt
      rw [sign_neg h, abs_of_neg h]
      simp only [SignType.coe_neg_one]
      have hp : 0 < -x := by linarith
      have e : (-x) ^ ((1 / 3 : ℝ) - 1) = ((-x) ^ (1 / 3 : ℝ) * (-x) ^ (1 / 3 : ℝ))⁻¹ := by
        rw [← Real.rpow_add hp, ← Real.rpow_neg hp.le]
        norm_num
      rw [e]
      have hne : (-x) ^ (1 / 3 : ℝ) ≠ 0 := (Real.rpow_pos_of_pos hp _).ne'
      field_simp
    refine h1.congr_of_eventuallyEq ?_
    filter_upwards [Iio_mem_nhds h] with y hy
    unfold rcbrt
    rw [sign_neg hy, abs_of_neg hy]
    simp
  · have h1 : HasDerivAt (fun y : ℝ => y ^ (1 / 3 : ℝ)) (1 / (3 * rcbrt x * rcbrt x)) x := by
      have h2 := Real.hasDerivAt_rpow_const (x := x) (p := 1 / 3) (Or.inl hx)
      refine h2.congr_deriv ?_
      unfold rcbrt
      rw [sign_pos h, abs_of_pos h]
      have e : x ^ ((1 / 3 : ℝ) - 1) = (x ^ (1 / 3 : ℝ) * x ^ (1 / 3 : ℝ))⁻¹ := by
        rw [← Real.rpow_add h, ← Real.rpow_neg h.le]
        norm_num
      rw [e]
      have hne : x ^ (1 / 3 : ℝ) ≠ 0 := (Real.rpow_pos_of_pos h _).ne'
      simp only [SignType.coe_one]
      field_simp
    refine h1.congr_of_eventuallyEq ?_
    filter_upwards [Ioi_mem_nhds h] with y hy
    unfold rcbrt
    rw [sign_pos hy, abs_of_pos hy]
    simp

theorem hasDerivAt_artanh' {x : ℝ} (h1 : -1 < x) (h2 : x < 1) :
    HasDerivAt Real.artanh (1 / (1 - x * x)) x := by
  have hp : 0 < (1 + x) / (1 - x) := div_pos (by linarith) (by linarith)
  have e1 : HasDerivAt (fun y : ℝ => (1 + y) / (1 - y)) (2 / (1 - x) ^ 2) x := by
    have a1 : HasDerivAt (fun y : ℝ => 1 + y) 1 x := by simpa using (hasDerivAt_id x).const_add 1
    have a2 : HasDerivAt (fun y : ℝ => 1 - y) (-1) x := by simpa using (hasDerivAt_id x).const_sub 1
    refine (a1.div a2 (by linarith)).congr_deriv ?_
    ring
  have e2 := (e1.sqrt hp.ne').log (Real.sqrt_pos.2 hp).ne'
  unfold Real.artanh
  refine e2.congr_deriv ?_
  have : √((1 + x) / (1 - x)) * √((1 + x) / (1 - x)) = (1 + x) / (1 - x) := Real.mul_self_sqrt hp.le
  rw [div_div, mul_assoc, this]
  have n1 : (1 - x) ≠ 0 := by linarith
  have n2 : (1 + x) ≠ 0 := by linarith
  have n3 : 1 - x * x ≠ 0 := by
    have : 1 - x * x = (1 - x) * (1 + x) := by ring
    rw [this]; exact mul_ne_zero n1 n2
  rw [show (1 - x * x) = (1 - x) * (1 + x) by ring]
  field_simp

/-- The derivative the recorder stores beside a `Quad` operation (adouble.cpp:3500-4300):
the argument must lie in the open domain. -/
noncomputable def quadDer (q : Quad) (x : ℝ) : ℝ :=
  match q with
  | .atan => 1 / (1 + x * x)
  | .asin => 1 / √(1 - x * x)
  | .acos => - 1 / √(1 - x * x)
  | .asinh => 1 / √(1 + x * x)
  | .acosh => 1 / √(x * x - 1)
  | .atanh => 1 / (1 - x * x)
  | .erf => 2 / √π * Real.exp (-x * x)
  | .erfc => - 2 / √π * Real.exp (-x * x)

/-- The open set on which a `Quad` function is differentiable. -/
def quadDom (q : Quad) (x : ℝ) : Prop :=
  match q with
  | .asin | .acos | .atanh => -1 < x ∧ x < 1
  | .acosh => 1 < x
  | _ => True

theorem hasDerivAt_quad {q : Quad} {x : ℝ} (h : quadDom q x) :
    HasDerivAt (q.fn : ℝ → ℝ) (quadDer q x) x := by
  cases q <;> simp only [quadDom] at h <;> simp only [Quad.fn, quadDer]
  · have := Real.hasDerivAt_arctan x
    rwa [pow_two] at this
  · have := Real.hasDerivAt_arcsin (x := x) (by linarith [h.1]) (by linarith [h.2])
    rwa [pow_two] at this
  · have := Real.hasDerivAt_arccos (x := x) (by linarith [h.1]) (by linarith [h.2])
    rw [pow_two] at this
    exact this.congr_deriv (by ring)
  · have := Real.hasDerivAt_arsinh x
    rw [pow_two] at this
    exact this.congr_deriv (by rw [one_div])
  · have := Real.hasDerivAt_arcosh (x := x) h
    rw [pow_two] at this
    exact this.congr_deriv (by rw [one_div])
  · exact hasDerivAt_artanh' h.1 h.2
  · exact hasDerivAt_rerf x
  · have := (hasDerivAt_rerf x).const_sub 1
    exact this.congr_deriv (by ring)

end Verif.AD
