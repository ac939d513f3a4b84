import Verif.Drivers.LieMath
import Verif.AD.HosRun
import Mathlib.Analysis.Calculus.MeanValue

/-! # Taylor coefficients of `F` along a curve and along a curve that agrees with it up to order `a` -/
set_option linter.all false
namespace Verif.Drivers
open Verif.AD Filter Topology ContDiff Asymptotics

section
variable {f g : ℝ → ℝ}

/-- A smooth function whose first `m` coefficients vanish is `O(t^m)`. -/
theorem bigO_of_tc (m : Nat) : ∀ {f : ℝ → ℝ}, ContDiffAt ℝ ∞ f 0 → (∀ i < m, tc f i = 0) → f =O[𝓝 0] fun t => t ^ m := by
  induction m with
  | zero =>
    intro f hf _
    simpa using hf.continuousAt.isBigO_one ℝ
  | succ m ih =>
    intro f hf h
    have h1 : deriv f =O[𝓝 0] fun t => t ^ m := ih (smooth_deriv hf) fun i hi => by rw [tc_deriv, h (i + 1) (by omega), mul_zero]
    obtain ⟨C, hC⟩ := h1.bound
    have hd := ev_diff hf
    obtain ⟨ε, he, hball⟩ := Metric.eventually_nhds_iff_ball.1 (hC.and hd)
    refine IsBigO.of_bound C ?_
    filter_upwards [Metric.ball_mem_nhds (0:ℝ) he] with t ht
    have f0 : f 0 = 0 := by rw [← tc_zero (f := f)]; exact h 0 (by omega)
    have hseg : ∀ x ∈ segment ℝ 0 t, x ∈ Metric.ball (0:ℝ) ε ∧ |x| ≤ |t| := by
      intro x hx
      refine ⟨(convex_ball (0:ℝ) ε).segment_subset (Metric.mem_ball_self he) ht hx, ?_⟩
      have := norm_sub_le_of_mem_segment hx
      simpa using this
    have := (convex_segment (0:ℝ) t).norm_image_sub_le_of_norm_hasDerivWithin_le (f := f) (f' := deriv f) (C := C * |t| ^ m) (x := 0) (y := t)
      (fun x hx => (hball x (hseg x hx).1).2.hasDerivWithinAt)
      (fun x hx => by
        have h2 := (hball x (hseg x hx).1).1
        have hC0 : 0 ≤ C ∨ C < 0 := le_or_gt 0 C
        rw [Real.norm_eq_abs] at h2 ⊢
        simp only [norm_pow, Real.norm_eq_abs] at h2
        rcases hC0 with hC0 | hC0
        · exact h2.trans (mul_le_mul_of_nonneg_left (pow_le_pow_left₀ (abs_nonneg _) (hseg x hx).2 m) hC0)
        · have h3 := (hball 0 (Metric.mem_ball_self he)).1
          have h4 : 0 ≤ |deriv f x| := abs_nonneg _
          have h5 : 0 ≤ |x| ^ m := pow_nonneg (abs_nonneg _) _
          by_cases hxm : |x| ^ m = 0
          · have hm : m ≠ 0 := by rintro rfl; simp at hxm
            have hx0 : x = 0 := by simpa [hm] using hxm
            rw [hxm, mul_zero] at h2
            have : 0 ≤ C * |t| ^ m := by
              by_cases htm : |t| ^ m = 0
              · rw [htm, mul_zero]
              · exfalso
                have h6 := (hball t ht).1
                simp only [norm_pow, Real.norm_eq_abs] at h6
                have h7 : 0 < |t| ^ m := lt_of_le_of_ne (pow_nonneg (abs_nonneg _) _) (Ne.symm htm)
                have := abs_nonneg (deriv f t)
                nlinarith
            linarith
          · exfalso
            have h7 : 0 < |x| ^ m := lt_of_le_of_ne h5 (Ne.symm hxm)
            nlinarith)
      (left_mem_segment ℝ 0 t) (right_mem_segment ℝ 0 t)
    rw [f0, sub_zero, sub_zero] at this
    simp only [Real.norm_eq_abs, abs_pow] at this ⊢
    rw [pow_succ]
    linarith

theorem pow_not_bigO {c : ℝ} {i : Nat} (h : (fun t : ℝ => c * t ^ i) =O[𝓝 0] fun t => t ^ (i + 1)) : c = 0 := by
  by_contra hc
  obtain ⟨C, hC0, hC⟩ := h.exists_pos
  obtain ⟨ε, he, hb⟩ := Metric.eventually_nhds_iff_ball.1 hC.bound
  obtain ⟨t, h0, h1, h2⟩ : ∃ t : ℝ, 0 < t ∧ t < ε ∧ C * t < |c| := by
    have hc' : 0 < |c| := abs_pos.2 hc
    refine ⟨min (ε / 2) (|c| / (2 * C)), lt_min (by linarith) (by positivity), lt_of_le_of_lt (min_le_left _ _) (by linarith), ?_⟩
    calc C * min (ε / 2) (|c| / (2 * C)) ≤ C * (|c| / (2 * C)) := mul_le_mul_of_nonneg_left (min_le_right _ _) hC0.le
      _ = |c| / 2 := by field_simp
      _ < |c| := by linarith
  have := hb t (by simpa [abs_of_pos h0] using h1)
  simp only [Real.norm_eq_abs, abs_mul, abs_pow, abs_of_pos h0, pow_succ] at this
  have hp : 0 < t ^ i := pow_pos h0 i
  have : |c| * t ^ i ≤ (C * t) * t ^ i := by linarith
  have := le_of_mul_le_mul_right this hp
  linarith

theorem tc_cmul (c : ℝ) {f : ℝ → ℝ} (hf : ContDiffAt ℝ ∞ f 0) (k : Nat) : tc (fun t => c * f t) k = c * tc f k := by
  unfold tc
  rw [show (fun t => c * f t) = c • f from rfl, iteratedDeriv_const_smul (nsmooth hf k)]
  simp [mul_div_assoc]

/-- A smooth function that is `O(t^m)` has no coefficients of order less than `m`. -/
theorem tc_of_bigO {m : Nat} (hf : ContDiffAt ℝ ∞ f 0) (h : f =O[𝓝 0] fun t => t ^ m) : ∀ i < m, tc f i = 0 := by
  intro i
  induction i using Nat.strong_induction_on with
  | _ i ih =>
    intro hi
    have hp : ContDiffAt ℝ ∞ (fun t : ℝ => t ^ i) 0 := contDiffAt_id.pow i
    have hp' : ContDiffAt ℝ ∞ (fun t : ℝ => tc f i * t ^ i) 0 := contDiffAt_const.mul hp
    have h1 := bigO_of_tc (i + 1) (hf.sub hp') fun j hj => by
      have e := tc_sub hf hp' j
      rw [tc_cmul _ hp, tc_pow] at e
      refine (show tc (fun t => f t - tc f i * t ^ i) j = 0 from ?_)
      rw [e]
      by_cases hji : j = i
      · subst hji; simp
      · rw [ih j (by omega) (by omega), if_neg hji]; simp
    have h2 : f =O[𝓝 0] fun t : ℝ => t ^ (i + 1) := by
      refine h.trans (IsBigO.of_bound 1 ?_)
      filter_upwards [Metric.ball_mem_nhds (0:ℝ) one_pos] with t ht
      simp only [Real.norm_eq_abs, abs_pow, one_mul]
      have : |t| < 1 := by simpa using ht
      exact pow_le_pow_of_le_one (abs_nonneg _) this.le (by omega)
    apply pow_not_bigO (i := i)
    have := h2.sub h1
    simpa using this

end

section
variable {n : Nat}

theorem smooth_pi {ξ : ℝ → Fin n → ℝ} (hξ : ContDiffAt ℝ ∞ ξ 0) (i : Fin n) : ContDiffAt ℝ ∞ (fun t => ξ t i) 0 := contDiffAt_pi.1 hξ i

/-- The second curve agrees with the first one up to order `a`: the coefficients of `g` along it up to order `2 a`. -/
theorem tc_perturb {g : (Fin n → ℝ) → ℝ} {x0 : Fin n → ℝ} (hg : SmG g x0) {ξ η : ℝ → Fin n → ℝ} (hξ : ContDiffAt ℝ ∞ ξ 0) (hη : ContDiffAt ℝ ∞ η 0)
    (h0 : ξ 0 = x0) (h1 : η 0 = x0) {a : Nat} (hd : ∀ i, ∀ k < a, tc (fun t => η t i) k = tc (fun t => ξ t i) k) {l : Nat} (hl : l < 2 * a) :
    tc (fun t => g (η t)) l = tc (fun t => g (ξ t)) l +
      ∑ j : Fin n, tc (fun t => fderiv ℝ g (ξ t) (Pi.single j 1) * (η t j - ξ t j)) l := by
  have sξ := hg.comp_smooth hξ h0
  have sη := hg.comp_smooth hη h1
  have sd : ∀ j : Fin n, ContDiffAt ℝ ∞ (fun t => η t j - ξ t j) 0 := fun j => (smooth_pi hη j).sub (smooth_pi hξ j)
  have sp : ∀ j : Fin n, ContDiffAt ℝ ∞ (fun t => fderiv ℝ g (ξ t) (Pi.single j 1) * (η t j - ξ t j)) 0 := fun j =>
    ((hg.part (Pi.single j 1)).comp_smooth hξ h0).mul (sd j)
  have ss : ContDiffAt ℝ ∞ (fun t => ∑ j : Fin n, fderiv ℝ g (ξ t) (Pi.single j 1) * (η t j - ξ t j)) 0 := ContDiffAt.sum fun j _ => sp j
  have es : ∀ k, tc (fun t => ∑ j : Fin n, fderiv ℝ g (ξ t) (Pi.single j 1) * (η t j - ξ t j)) k =
      ∑ j : Fin n, tc (fun t => fderiv ℝ g (ξ t) (Pi.single j 1) * (η t j - ξ t j)) k := by
    intro k
    unfold tc
    rw [iteratedDeriv_fun_sum (fun j _ => nsmooth (sp j) k), Finset.sum_div]
  rw [← es, ← tc_add sξ ss]
  rw [← sub_eq_zero, ← tc_sub sη (sξ.add ss)]
  refine tc_of_bigO (m := 2 * a) (sη.sub (sξ.add ss)) ?_ l hl
  -- the difference of the curves
  have hδ : (fun t => η t - ξ t) =O[𝓝 0] fun t : ℝ => t ^ a := by
    rw [isBigO_pi]
    intro j
    exact bigO_of_tc a (sd j) fun k hk => by
      show tc (fun t => η t j - ξ t j) k = 0
      rw [tc_sub (smooth_pi hη j) (smooth_pi hξ j), hd j k hk, sub_self]
  -- the derivative is Lipschitz
  have h2 : ContDiffAt ℝ 1 (fderiv ℝ g) x0 := (hg.self_of_nhds.fderiv_right (m := ∞) (by simp)).of_le (by exact_mod_cast le_top)
  obtain ⟨K, U, hU, hK⟩ := h2.exists_lipschitzOnWith
  have hdiff : ∀ᶠ x in 𝓝 x0, DifferentiableAt ℝ g x := hg.mono fun x hx => hx.differentiableAt (by simp)
  obtain ⟨ε, he, hball⟩ := Metric.eventually_nhds_iff_ball.1 (hdiff.and hU)
  have hξc : ∀ᶠ t in 𝓝 (0:ℝ), ξ t ∈ Metric.ball x0 ε := hξ.continuousAt.eventually (by rw [h0]; exact Metric.ball_mem_nhds _ he)
  have hηc : ∀ᶠ t in 𝓝 (0:ℝ), η t ∈ Metric.ball x0 ε := hη.continuousAt.eventually (by rw [h1]; exact Metric.ball_mem_nhds _ he)
  have hq : (fun t => g (η t) - (g (ξ t) + ∑ j : Fin n, fderiv ℝ g (ξ t) (Pi.single j 1) * (η t j - ξ t j))) =O[𝓝 0]
      fun t => ‖η t - ξ t‖ ^ 2 := by
    refine IsBigO.of_bound K ?_
    filter_upwards [hξc, hηc] with t ht1 ht2
    have e : ∑ j : Fin n, fderiv ℝ g (ξ t) (Pi.single j 1) * (η t j - ξ t j) = fderiv ℝ g (ξ t) (η t - ξ t) := by
      have : η t - ξ t = ∑ j : Fin n, (η t j - ξ t j) • (Pi.single j (1:ℝ) : Fin n → ℝ) := by
        funext j; simp [Finset.sum_apply, Pi.single_apply]
      conv_rhs => rw [this]
      rw [map_sum]
      refine Finset.sum_congr rfl fun j _ => ?_
      rw [map_smul, smul_eq_mul, mul_comm]
    rw [e]
    have hseg : segment ℝ (ξ t) (η t) ⊆ Metric.ball x0 ε := (convex_ball x0 ε).segment_subset ht1 ht2
    have := (convex_segment (ξ t) (η t)).norm_image_sub_le_of_norm_hasFDerivWithin_le' (f := g) (f' := fderiv ℝ g) (φ := fderiv ℝ g (ξ t))
      (C := K * ‖η t - ξ t‖) (x := ξ t) (y := η t)
      (fun x hx => (hball x (hseg hx)).1.hasFDerivAt.hasFDerivWithinAt)
      (fun x hx => by
        have h3 := hK.dist_le_mul x (hball x (hseg hx)).2 (ξ t) (hball _ ht1).2
        rw [dist_eq_norm, dist_eq_norm] at h3
        refine h3.trans (mul_le_mul_of_nonneg_left ?_ K.2)
        exact norm_sub_le_of_mem_segment hx)
      (left_mem_segment ℝ _ _) (right_mem_segment ℝ _ _)
    rw [← sub_sub, norm_pow, norm_norm]
    calc _ ≤ _ := this
      _ = _ := by ring
  refine hq.trans ?_
  have := hδ.norm_left.pow 2
  simpa [← pow_mul, mul_comm a 2] using this

end
end Verif.Drivers
