import Verif.AD.SmoothRun

/-!
Which first and second partial derivatives of a function vanish at a point: rules for sums, products and
compositions.
-/
set_option linter.all false
namespace Verif.Sparse
open Verif.AD Elem Filter Topology ContDiff

section
variable {E : Type*} [NormedAddCommGroup E] [NormedSpace ℝ E]

/-- Second derivative in the directions `u`, `v`. -/
noncomputable def d2 (f : E → ℝ) (x0 u v : E) : ℝ := fderiv ℝ (fun x => fderiv ℝ f x v) x0 u

variable {f g : E → ℝ} {x0 u v : E}

theorem ev_diff (hf : ContDiffAt ℝ ∞ f x0) : ∀ᶠ x in 𝓝 x0, DifferentiableAt ℝ f x := by
  have h1 : ContDiffAt ℝ 1 f x0 := hf.of_le (by exact_mod_cast le_top)
  filter_upwards [h1.eventually (by simp)] with x hx
  exact hx.differentiableAt (by simp)

theorem sm_dir (hf : ContDiffAt ℝ ∞ f x0) (v : E) : ContDiffAt ℝ ∞ (fun x => fderiv ℝ f x v) x0 :=
  (hf.fderiv_right (m := ∞) (by simp)).clm_apply contDiffAt_const

theorem diff_dir (hf : ContDiffAt ℝ ∞ f x0) (v : E) : DifferentiableAt ℝ (fun x => fderiv ℝ f x v) x0 :=
  (sm_dir hf v).differentiableAt (by simp)

theorem diff_at (hf : ContDiffAt ℝ ∞ f x0) : DifferentiableAt ℝ f x0 := hf.differentiableAt (by simp)

theorem d2_eq (hf : ContDiffAt ℝ ∞ f x0) : d2 f x0 u v = fderiv ℝ (fderiv ℝ f) x0 u v := by
  have h1 : DifferentiableAt ℝ (fderiv ℝ f) x0 := (hf.fderiv_right (m := ∞) (by simp)).differentiableAt (by simp)
  unfold d2
  rw [fderiv_clm_apply h1 (differentiableAt_const v)]
  simp

theorem d2_congr (h : f =ᶠ[𝓝 x0] g) : d2 f x0 u v = d2 g x0 u v := by
  unfold d2
  have : (fun x => fderiv ℝ f x v) =ᶠ[𝓝 x0] fun x => fderiv ℝ g x v := by
    filter_upwards [h.eventuallyEq_nhds] with x hx
    rw [hx.fderiv_eq]
  rw [this.fderiv_eq]

theorem d2_const (c : ℝ) : d2 (fun _ : E => c) x0 u v = 0 := by
  unfold d2; simp

theorem d2_add (hf : ContDiffAt ℝ ∞ f x0) (hg : ContDiffAt ℝ ∞ g x0) :
    d2 (fun x => f x + g x) x0 u v = d2 f x0 u v + d2 g x0 u v := by
  unfold d2
  have : (fun x => fderiv ℝ (fun x => f x + g x) x v) =ᶠ[𝓝 x0] fun x => fderiv ℝ f x v + fderiv ℝ g x v := by
    filter_upwards [ev_diff hf, ev_diff hg] with x h1 h2
    rw [fderiv_fun_add h1 h2]; rfl
  rw [this.fderiv_eq, fderiv_fun_add (diff_dir hf v) (diff_dir hg v)]
  rfl

theorem d2_mul (hf : ContDiffAt ℝ ∞ f x0) (hg : ContDiffAt ℝ ∞ g x0) :
    d2 (fun x => f x * g x) x0 u v = f x0 * d2 g x0 u v + g x0 * d2 f x0 u v +
      (fderiv ℝ f x0 u * fderiv ℝ g x0 v + fderiv ℝ g x0 u * fderiv ℝ f x0 v) := by
  unfold d2
  have : (fun x => fderiv ℝ (fun x => f x * g x) x v) =ᶠ[𝓝 x0]
      fun x => f x * fderiv ℝ g x v + g x * fderiv ℝ f x v := by
    filter_upwards [ev_diff hf, ev_diff hg] with x h1 h2
    rw [fderiv_fun_mul h1 h2]; simp
  rw [this.fderiv_eq, fderiv_fun_add ((diff_at hf).fun_mul (diff_dir hg v)) ((diff_at hg).fun_mul (diff_dir hf v)),
    fderiv_fun_mul (diff_at hf) (diff_dir hg v), fderiv_fun_mul (diff_at hg) (diff_dir hf v)]
  simp
  ring

theorem d1_comp {φ : ℝ → ℝ} (hf : DifferentiableAt ℝ f x0) (hφ : DifferentiableAt ℝ φ (f x0)) :
    fderiv ℝ (fun x => φ (f x)) x0 v = deriv φ (f x0) * fderiv ℝ f x0 v := by
  have := (hφ.hasDerivAt.comp_hasFDerivAt x0 hf.hasFDerivAt).fderiv
  rw [show (fun x => φ (f x)) = φ ∘ f from rfl, this]
  simp

theorem d2_comp {φ : ℝ → ℝ} (hf : ContDiffAt ℝ ∞ f x0) (hφ : ContDiffAt ℝ ∞ φ (f x0)) :
    d2 (fun x => φ (f x)) x0 u v = deriv φ (f x0) * d2 f x0 u v +
      deriv (deriv φ) (f x0) * (fderiv ℝ f x0 u * fderiv ℝ f x0 v) := by
  unfold d2
  have h1 : ∀ᶠ y in 𝓝 (f x0), DifferentiableAt ℝ φ y := ev_diff hφ
  have h2 : ∀ᶠ x in 𝓝 x0, DifferentiableAt ℝ φ (f x) := (diff_at hf).continuousAt.eventually h1
  have h3 : ContDiffAt ℝ ∞ (deriv φ) (f x0) := by
    have := sm_dir hφ (1 : ℝ)
    exact this.congr_of_eventuallyEq (.of_forall fun x => by simp)
  have : (fun x => fderiv ℝ (fun x => φ (f x)) x v) =ᶠ[𝓝 x0] fun x => deriv φ (f x) * fderiv ℝ f x v := by
    filter_upwards [ev_diff hf, h2] with x k1 k2
    exact d1_comp k1 k2
  have h4 : DifferentiableAt ℝ (fun x => deriv φ (f x)) x0 := (h3.differentiableAt (by simp)).comp x0 (diff_at hf)
  rw [this.fderiv_eq, fderiv_fun_mul h4 (diff_dir hf v)]
  simp only [ContinuousLinearMap.add_apply, ContinuousLinearMap.smul_apply, smul_eq_mul]
  rw [d1_comp (diff_at hf) (h3.differentiableAt (by simp))]
  ring
end

/-- `f` is smooth at `x0`; its partial derivative there vanishes for the variables outside `P`, and its second
partial derivative for the pairs outside `R`. -/
structure Sp {n : Nat} (x0 : Fin n → ℝ) (f : (Fin n → ℝ) → ℝ) (P : Nat → Prop) (R : Nat → Nat → Prop) : Prop where
  sm : ContDiffAt ℝ ∞ f x0
  one : ∀ i : Fin n, ¬ P i → fderiv ℝ f x0 (Pi.single i 1) = 0
  two : ∀ i j : Fin n, ¬ R i j → d2 f x0 (Pi.single i 1) (Pi.single j 1) = 0

namespace Sp
variable {n : Nat} {x0 : Fin n → ℝ} {f g : (Fin n → ℝ) → ℝ} {P Q : Nat → Prop} {R R' : Nat → Nat → Prop}

theorem mono (h : Sp x0 f P R) (hP : ∀ i, P i → Q i) (hR : ∀ i j, R i j → R' i j) : Sp x0 f Q R' :=
  ⟨h.sm, fun i hi => h.one i fun hp => hi (hP i hp), fun i j hij => h.two i j fun hp => hij (hR i j hp)⟩

theorem congr (h : Sp x0 f P R) (he : g =ᶠ[𝓝 x0] f) : Sp x0 g P R :=
  ⟨h.sm.congr_of_eventuallyEq he, fun i hi => by rw [he.fderiv_eq]; exact h.one i hi,
    fun i j hij => by rw [d2_congr he]; exact h.two i j hij⟩

theorem const (c : ℝ) : Sp x0 (fun _ => c) P R :=
  ⟨contDiffAt_const, fun i _ => by simp, fun i j _ => d2_const c⟩

theorem coord (i : Fin n) (hi : P i) : Sp x0 (fun x => x i) P R := by
  have h1 : ∀ x : Fin n → ℝ, fderiv ℝ (fun x : Fin n → ℝ => x i) x = ContinuousLinearMap.proj i := fun x =>
    (ContinuousLinearMap.proj (R := ℝ) (φ := fun _ : Fin n => ℝ) i).fderiv
  refine ⟨contDiffAt_apply _ _ _ _, fun k hk => ?_, fun k j _ => ?_⟩
  · rw [h1]
    have : i ≠ k := fun h => hk (h ▸ hi)
    simp [Pi.single_eq_of_ne this]
  · unfold d2; simp [h1]

theorem add (hf : Sp x0 f P R) (hg : Sp x0 g P R) : Sp x0 (fun x => f x + g x) P R :=
  ⟨hf.sm.add hg.sm,
    fun i hi => by
      rw [fderiv_fun_add (diff_at hf.sm) (diff_at hg.sm)]
      simp [hf.one i hi, hg.one i hi],
    fun i j hij => by rw [d2_add hf.sm hg.sm, hf.two i j hij, hg.two i j hij, add_zero]⟩

theorem mul (hf : Sp x0 f P R) (hg : Sp x0 g Q R) (h1 : ∀ i j, P i → Q j → R i j) (h2 : ∀ i j, Q i → P j → R i j) :
    Sp x0 (fun x => f x * g x) (fun i => P i ∨ Q i) R :=
  ⟨hf.sm.mul hg.sm,
    fun i hi => by
      rw [not_or] at hi
      rw [fderiv_fun_mul (diff_at hf.sm) (diff_at hg.sm)]
      simp [hf.one i hi.1, hg.one i hi.2],
    fun i j hij => by
      rw [d2_mul hf.sm hg.sm, hf.two i j hij, hg.two i j hij]
      have a1 : fderiv ℝ f x0 (Pi.single i 1) * fderiv ℝ g x0 (Pi.single j 1) = 0 := by
        by_cases hp : P i
        · rw [hg.one j fun hq => hij (h1 i j hp hq), mul_zero]
        · rw [hf.one i hp, zero_mul]
      have a2 : fderiv ℝ g x0 (Pi.single i 1) * fderiv ℝ f x0 (Pi.single j 1) = 0 := by
        by_cases hp : Q i
        · rw [hf.one j fun hq => hij (h2 i j hp hq), mul_zero]
        · rw [hg.one i hp, zero_mul]
      rw [a1, a2]; ring⟩

theorem comp {φ : ℝ → ℝ} (hf : Sp x0 f P R) (hφ : ContDiffAt ℝ ∞ φ (f x0)) (h1 : ∀ i j, P i → P j → R i j) :
    Sp x0 (fun x => φ (f x)) P R :=
  ⟨hφ.comp x0 hf.sm,
    fun i hi => by rw [d1_comp (diff_at hf.sm) (diff_at hφ), hf.one i hi, mul_zero],
    fun i j hij => by
      rw [d2_comp hf.sm hφ, hf.two i j hij]
      have a1 : fderiv ℝ f x0 (Pi.single i 1) * fderiv ℝ f x0 (Pi.single j 1) = 0 := by
        by_cases hp : P i
        · rw [hf.one j fun hq => hij (h1 i j hp hq), mul_zero]
        · rw [hf.one i hp, zero_mul]
      rw [a1]; ring⟩

theorem cmul (hf : Sp x0 f P R) (c : ℝ) : Sp x0 (fun x => f x * c) P R :=
  ((hf.mul (Sp.const (P := fun _ => False) c) (fun _ _ _ h => h.elim) (fun _ _ h _ => h.elim))).mono
    (fun i h => h.elim id False.elim) (fun _ _ h => h)

theorem neg (hf : Sp x0 f P R) : Sp x0 (fun x => - f x) P R := by
  have := hf.cmul (-1)
  simpa using this

theorem sub (hf : Sp x0 f P R) (hg : Sp x0 g P R) : Sp x0 (fun x => f x - g x) P R := by
  simpa only [sub_eq_add_neg] using hf.add hg.neg

theorem div (hf : Sp x0 f P R) (hg : Sp x0 g Q R) (h0 : g x0 ≠ 0) (h1 : ∀ i j, P i → Q j → R i j)
    (h2 : ∀ i j, Q i → P j → R i j) (h3 : ∀ i j, Q i → Q j → R i j) :
    Sp x0 (fun x => f x / g x) (fun i => P i ∨ Q i) R := by
  simpa only [div_eq_mul_inv] using hf.mul (hg.comp (φ := fun y => y⁻¹) (contDiffAt_inv ℝ h0) h3) h1 h2

end Sp
end Verif.Sparse
