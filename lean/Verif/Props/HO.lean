import Verif.AD.HosRun
import Verif.Props.AD

/-! # C17: Taylor coefficients -/
set_option linter.all false
namespace Verif.Props.HO
open Verif.AD Verif.Props.AD Elem Filter Topology ContDiff

variable {cfg : RCfg ℝ} {stock : List (Nat × List ℝ)} {s s' : Rec ℝ} {p : Prog ℝ} {N : Nat}

/-- C17 (partial: `keep ≤ degree + 1`; not for programs calling `cbrt`, see `C17_cbrt`; not where
`pow` is called at base 0, see `C17_pow_at_zero`; not where `asin`, `acos`, `acosh`, `atanh` of a
temporary has result ±1).  For every traced program, every point `x0` on the recorded path, all
Taylor coefficients `X` and every degree `k`, such that near `t = 0` the program's elementary
functions are smooth along the curve `x(t) = x0 + X₁ t + … + X_k t^k`: `hos_forward` succeeds, and
row `j` of its result holds the Taylor coefficients `0 … k` at `t = 0` of the `j`-th output along
the curve. -/
theorem C17_hos_forward_partial (h : Traced cfg stock s p s' N) (par : Nat → ℝ) {n k keep : Nat}
    (hkk : keep ≤ k + 1) (x0 : Fin n → ℝ) (X : Fin n → Nat → ℝ) {e0 : SE ℝ}
    (hspec : p.spec (ext x0) par s.se = some (e0, p.path cfg s))
    (hsm : ∀ᶠ t in 𝓝 0, p.smooth .ho (ext (curve k x0 X t)) par s.se) :
    ∃ H, hosRun ⟨ext x0, extX X, par, k, keep⟩ (s'.tape N) HS.init = .ok H ∧ H.y.length = e0.ys.length ∧
      ∀ j (hj : j < H.y.length),
        ContDiffAt ℝ ∞ (fun t => p.out (ext (curve k x0 X t)) par s.se j) 0 ∧
        ∀ d, d ≤ k → H.y[j] d = iteratedDeriv d (fun t => p.out (ext (curve k x0 X t)) par s.se j) 0 / d.factorial := by
  have hc := curve_zero k x0 X
  obtain ⟨S', H, h1, h2, h3, h4, h5⟩ := recorded_jets h.alloc p h.start h.recorded (fun _ => 0) par hkk
    (curve k x0 X) (curve_cont k x0 X) (extX X) (by rw [hc]; exact curve_jet k x0 X) (by rw [hc]; exact hspec) hsm N
  rw [hc] at h2 h3
  refine ⟨H, h2, h5, fun j hj => ?_⟩
  have hjet := (h3.yj j hj).congr (h4 j)
  exact ⟨hjet.smooth, fun d hd => (hjet.coef d hd).symm⟩

/-- The hypotheses hold for the demo program (degree 3, keep 4, a curve that is not a line). -/
example : ∃ s', Traced demoCfg [] demoStart demo s' (s'.hw + 1) ∧
    (∃ e, demo.spec (ext (fun _ : Fin 2 => 1)) (fun _ => 0) demoStart.se = some (e, demo.path demoCfg demoStart)) ∧
    ∀ᶠ t in 𝓝 0, demo.smooth .ho (ext (curve 3 (fun _ : Fin 2 => 1) (fun i j => (i : ℝ) + j) t)) (fun _ => 0) demoStart.se := by
  obtain ⟨e, h1, h2, h3⟩ := demo_spec demoCfg.x demoCfg.par (by
    simp only [demoCfg]; positivity)
  obtain ⟨s', h4, h5⟩ := traced_exists (stock := []) demo_alloc demo_start
    (by simp [demo, Prog.noFminLL, Stmt.notFminLL]) h1
  refine ⟨s', h4, ?_, ?_⟩
  · obtain ⟨e', g1, _⟩ := demo_spec (ext (fun _ : Fin 2 => 1)) (fun _ => 0) (by simp [ext]; positivity)
    exact ⟨e', by rw [h5]; exact g1⟩
  · have hj := fun i => (curve_jet 3 (fun _ : Fin 2 => (1:ℝ)) (fun i j => (i : ℝ) + j) i)
    have hc : ContinuousAt (fun t => ext (curve 3 (fun _ : Fin 2 => (1:ℝ)) (fun i j => (i : ℝ) + j) t) 0 *
        ext (curve 3 (fun _ : Fin 2 => (1:ℝ)) (fun i j => (i : ℝ) + j) t) 1 +
        ext (curve 3 (fun _ : Fin 2 => (1:ℝ)) (fun i j => (i : ℝ) + j) t) 0 *
          Real.exp (ext (curve 3 (fun _ : Fin 2 => (1:ℝ)) (fun i j => (i : ℝ) + j) t) 0)) 0 :=
      ((hj 0).smooth.continuousAt.mul (hj 1).smooth.continuousAt).add
        ((hj 0).smooth.continuousAt.mul (hj 0).smooth.exp.continuousAt)
    filter_upwards [continuousAt_const.eventually_lt hc (by
      rw [curve_zero]; simp [ext]; positivity)] with t ht
    exact demo_smooth .ho _ _ ht

/-- C17 fails for `pow(x, 2)` at `x = 0`: along `x(t) = t` the second-order coefficient of `x²` is 1, but
`hos_forward` does not write it (uni5_for.cpp:3399-3414), so that the result is whatever the row
contained, here 0. -/
theorem C17_pow_at_zero :
    ∃ H, hosRun (⟨fun _ => 0, fun _ j => if j = 0 then 1 else 0, fun _ => 0, 2, 0⟩ : HCfg ℝ)
        [.assignInd 0, .powOp 0 1 2, .assignDep 1] HS.init = .ok H ∧
      H.y.length = 1 ∧ (∀ r ∈ H.y, r 2 = 0) ∧
      iteratedDeriv 2 (fun t : ℝ => (Elem.pow t 2 : ℝ)) 0 / (2 : ℕ).factorial = 1 := by
  have e : (fun t : ℝ => (Elem.pow t 2 : ℝ)) = fun t => t ^ 2 := by
    funext t; exact Real.rpow_two t
  have h2 := tc_pow 2 2
  rw [if_pos rfl] at h2
  rw [e]
  have h3 : ∃ H, hosRun (⟨fun _ => 0, fun _ j => if j = 0 then 1 else 0, fun _ => 0, 2, 0⟩ : HCfg ℝ)
      [.assignInd 0, .powOp 0 1 2, .assignDep 1] HS.init = .ok H ∧ H.y.length = 1 ∧ ∀ r ∈ H.y, r 2 = 0 := by
    simp only [hosRun, hosStep, HS.init, HS.set, HS.push, HS.setC, forUp, powZeroLoop, List.range_succ, List.range_zero,
      List.nil_append, List.cons_append, List.foldl_cons, List.foldl_nil, upd_apply]
    norm_num [HS.row, updC]
  obtain ⟨H, g1, g2, g3⟩ := h3
  exact ⟨H, g1, g2, g3, h2⟩

/-- C17 fails for every program calling `cbrt`: `hos_forward` is not implemented for it
(uni5_for.cpp:3635), at every point. -/
theorem C17_cbrt (x : Nat → ℝ) (X : Nat → Nat → ℝ) (par : Nat → ℝ) (k keep : Nat) (os : List (Base ℝ)) :
    hosRun ⟨x, X, par, k, keep⟩ (.assignInd 0 :: .cbrtOp 0 1 :: os) HS.init = .error .notImplemented := rfl

end Verif.Props.HO
