import Mathlib.Analysis.Calculus.IteratedDeriv.Lemmas
import Mathlib.Analysis.SpecialFunctions.ExpDeriv
import Mathlib.Algebra.BigOperators.Field
import Mathlib.Analysis.SpecialFunctions.Log.Deriv
import Mathlib.Analysis.SpecialFunctions.Sqrt
import Mathlib.Analysis.SpecialFunctions.Pow.Deriv
import Mathlib.Analysis.SpecialFunctions.Trigonometric.Deriv

/-!
# Taylor coefficients of smooth functions of one real variable

Specification side of the higher-order sweeps; nothing here refers to the code.
-/
set_option linter.all false
namespace Verif.AD
open Filter Topology ContDiff Finset

/-- The Taylor coefficient of order `n` of `f` at 0. -/
noncomputable def tc (f : ℝ → ℝ) (n : Nat) : ℝ := iteratedDeriv n f 0 / n.factorial

/-- `c 0, …, c k` are the Taylor coefficients of the smooth function `f` at 0. -/
structure Jet (k : Nat) (f : ℝ → ℝ) (c : Nat → ℝ) : Prop where
  smooth : ContDiffAt ℝ ∞ f 0
  coef : ∀ n, n ≤ k → tc f n = c n

variable {f g w u : ℝ → ℝ} {a b c d : Nat → ℝ} {k n : Nat}

theorem nsmooth (h : ContDiffAt ℝ ∞ f 0) (n : Nat) : ContDiffAt ℝ n f 0 := contDiffAt_infty.1 h n

@[simp] theorem tc_zero : tc f 0 = f 0 := by simp [tc]

theorem tc_congr (h : f =ᶠ[𝓝 0] g) (n : Nat) : tc f n = tc g n := by
  unfold tc; rw [h.iteratedDeriv_eq]

theorem tc_const (x : ℝ) (n : Nat) : tc (fun _ => x) n = if n = 0 then x else 0 := by
  unfold tc; rw [iteratedDeriv_const]; split_ifs with h
  · subst h; simp
  · simp

theorem tc_add (hf : ContDiffAt ℝ ∞ f 0) (hg : ContDiffAt ℝ ∞ g 0) (n : Nat) :
    tc (fun t => f t + g t) n = tc f n + tc g n := by
  unfold tc; rw [iteratedDeriv_fun_add (nsmooth hf n) (nsmooth hg n), add_div]

theorem tc_sub (hf : ContDiffAt ℝ ∞ f 0) (hg : ContDiffAt ℝ ∞ g 0) (n : Nat) :
    tc (fun t => f t - g t) n = tc f n - tc g n := by
  unfold tc; rw [iteratedDeriv_fun_sub (nsmooth hf n) (nsmooth hg n), sub_div]

theorem tc_neg (n : Nat) : tc (fun t => - f t) n = - tc f n := by
  unfold tc; rw [iteratedDeriv_fun_neg, neg_div]

theorem tc_mul (hf : ContDiffAt ℝ ∞ f 0) (hg : ContDiffAt ℝ ∞ g 0) (n : Nat) :
    tc (fun t => f t * g t) n = ∑ i ∈ range (n + 1), tc f i * tc g (n - i) := by
  unfold tc
  rw [iteratedDeriv_fun_mul (nsmooth hf n) (nsmooth hg n), Finset.sum_div]
  refine Finset.sum_congr rfl fun i hi => ?_
  have hi : i ≤ n := by have := Finset.mem_range.1 hi; omega
  have h1 : ((n.choose i : ℕ) : ℝ) * i.factorial * (n - i).factorial = n.factorial := by
    exact_mod_cast Nat.choose_mul_factorial_mul_factorial hi
  have h2 : (i.factorial : ℝ) ≠ 0 := by exact_mod_cast i.factorial_ne_zero
  have h3 : ((n - i).factorial : ℝ) ≠ 0 := by exact_mod_cast (n - i).factorial_ne_zero
  have h4 : (n.factorial : ℝ) ≠ 0 := by exact_mod_cast n.factorial_ne_zero
  rw [div_mul_div_comm, div_eq_div_iff h4 (mul_ne_zero h2 h3), ← h1]
  ring

theorem tc_deriv (n : Nat) : tc (deriv f) n = (n + 1) * tc f (n + 1) := by
  unfold tc
  rw [iteratedDeriv_succ', Nat.factorial_succ]
  have h4 : (n.factorial : ℝ) ≠ 0 := by exact_mod_cast n.factorial_ne_zero
  push_cast
  field_simp

theorem smooth_deriv (hf : ContDiffAt ℝ ∞ f 0) : ContDiffAt ℝ ∞ (deriv f) 0 := by
  have h : deriv f = fun x => fderiv ℝ f x 1 := by funext x; exact (fderiv_apply_one_eq_deriv).symm
  rw [h]
  have := hf.fderiv_right (m := ∞) (by simp)
  exact this.clm_apply contDiffAt_const

theorem ev_diff (hf : ContDiffAt ℝ ∞ f 0) : ∀ᶠ t in 𝓝 (0:ℝ), HasDerivAt f (deriv f t) t := by
  have h1 : ContDiffAt ℝ 1 f 0 := nsmooth hf 1
  have := h1.eventually (by simp)
  filter_upwards [this] with t ht
  exact (ht.differentiableAt (by simp)).hasDerivAt

/-- A function whose derivative is smooth is smooth. -/
theorem smooth_of_deriv {f' : ℝ → ℝ} (h : ∀ᶠ t in 𝓝 (0:ℝ), HasDerivAt f (f' t) t)
    (h' : ContDiffAt ℝ ∞ f' 0) : ContDiffAt ℝ ∞ f 0 := by
  rw [contDiffAt_infty]
  intro n
  have : ContDiffAt ℝ (n + 1) f 0 := by
    rw [contDiffAt_succ_iff_hasFDerivAt]
    refine ⟨fun t => ContinuousLinearMap.toSpanSingleton ℝ (f' t), ?_, ?_⟩
    · obtain ⟨U, hU, hU'⟩ := h.exists_mem
      exact ⟨U, hU, fun t ht => (hU' t ht).hasFDerivAt⟩
    · have e : (fun t => ContinuousLinearMap.toSpanSingleton ℝ (f' t)) =
          fun t => f' t • ContinuousLinearMap.toSpanSingleton ℝ (1:ℝ) := by
        funext t; ext; simp
      rw [e]
      exact (nsmooth h' n).smul contDiffAt_const
  exact this.of_le (by exact_mod_cast Nat.le_succ n)

/-- Coefficients of `w` when `w' = p u'`. -/
theorem tc_of_deriv {p : ℝ → ℝ} (hu : ContDiffAt ℝ ∞ u 0) (hp : ContDiffAt ℝ ∞ p 0)
    (h : ∀ᶠ t in 𝓝 (0:ℝ), HasDerivAt w (p t * deriv u t) t) (i : Nat) :
    (i + 1) * tc w (i + 1) = p 0 * ((i + 1) * tc u (i + 1)) +
      ∑ j ∈ range i, tc p (j + 1) * (((i - 1 - j : ℕ) + 1) * tc u (i - 1 - j + 1)) := by
  rw [← tc_deriv]
  have e : deriv w =ᶠ[𝓝 0] fun t => p t * deriv u t := by
    filter_upwards [h] with t ht; exact ht.deriv
  rw [tc_congr e, tc_mul hp (smooth_deriv hu), Finset.sum_range_succ', add_comm]
  congr 1
  · rw [tc_deriv, tc_zero]; simp
  · refine Finset.sum_congr rfl fun j hj => ?_
    have hj : j < i := Finset.mem_range.1 hj
    rw [tc_deriv, show i - (j + 1) = i - 1 - j by omega]

/-! ### Recurrences -/

theorem tc_mul_succ (hf : ContDiffAt ℝ ∞ f 0) (hg : ContDiffAt ℝ ∞ g 0) (i : Nat) :
    tc (fun t => f t * g t) (i + 1) = f 0 * tc g (i + 1) + tc f (i + 1) * g 0 +
      ∑ j ∈ range i, tc f (j + 1) * tc g (i - 1 - j + 1) := by
  rw [tc_mul hf hg, Finset.sum_range_succ, Finset.sum_range_succ']
  simp only [tc_zero, Nat.sub_zero, Nat.sub_self]
  have : ∀ j ∈ range i, tc f (j + 1) * tc g (i + 1 - (j + 1)) = tc f (j + 1) * tc g (i - 1 - j + 1) := by
    intro j hj
    have hj : j < i := Finset.mem_range.1 hj
    rw [show i + 1 - (j + 1) = i - 1 - j + 1 by omega]
  rw [Finset.sum_congr rfl this]
  ring

theorem reflect (F : Nat → Nat → ℝ) (i : Nat) :
    ∑ j ∈ range i, F j (i - 1 - j) = ∑ j ∈ range i, F (i - 1 - j) j := by
  rw [← Finset.sum_range_reflect]
  refine Finset.sum_congr rfl fun j hj => ?_
  have hj : j < i := Finset.mem_range.1 hj
  rw [show i - 1 - (i - 1 - j) = j by omega]

theorem smooth_div (hf : ContDiffAt ℝ ∞ f 0) (hg : ContDiffAt ℝ ∞ g 0) (h0 : g 0 ≠ 0) :
    ContDiffAt ℝ ∞ (fun t => f t / g t) 0 := hf.div hg h0

theorem ev_ne (hg : ContDiffAt ℝ ∞ g 0) (h0 : g 0 ≠ 0) : ∀ᶠ t in 𝓝 (0:ℝ), g t ≠ 0 :=
  hg.continuousAt.eventually_ne h0

/-- uni5_for.cpp:2303-2313 -/
theorem tc_div (hf : ContDiffAt ℝ ∞ f 0) (hg : ContDiffAt ℝ ∞ g 0) (h0 : g 0 ≠ 0) (i : Nat) :
    tc (fun t => f t / g t) (i + 1) = tc f (i + 1) * (1 / g 0) + f 0 / g 0 * (- tc g (i + 1) * (1 / g 0)) +
      ∑ j ∈ range i, tc (fun t => f t / g t) (j + 1) * (- tc g (i - 1 - j + 1) * (1 / g 0)) := by
  have e : f =ᶠ[𝓝 0] fun t => f t / g t * g t := by
    filter_upwards [ev_ne hg h0] with t ht
    rw [div_mul_cancel₀ _ ht]
  have h := tc_mul_succ (smooth_div hf hg h0) hg i
  rw [← tc_congr e] at h
  have h2 : ∑ j ∈ range i, tc (fun t => f t / g t) (j + 1) * (- tc g (i - 1 - j + 1) * (1 / g 0)) =
      - (1 / g 0) * ∑ j ∈ range i, tc (fun t => f t / g t) (j + 1) * tc g (i - 1 - j + 1) := by
    rw [Finset.mul_sum]
    exact Finset.sum_congr rfl fun j _ => by ring
  rw [h2, h]
  field_simp
  ring

theorem tc_exp (hu : ContDiffAt ℝ ∞ u 0) (i : Nat) :
    tc (fun t => Real.exp (u t)) (i + 1) = (Real.exp (u 0) * tc u (i + 1) * (i + 1) +
      ∑ j ∈ range i, tc (fun t => Real.exp (u t)) (j + 1) * (((i - 1 - j : ℕ) + 1) * tc u (i - 1 - j + 1)))
      / (i + 1) := by
  have h := tc_of_deriv (w := fun t => Real.exp (u t)) hu hu.exp
    (by filter_upwards [ev_diff hu] with t ht; exact ht.exp) i
  have h1 : ((i : ℝ) + 1) ≠ 0 := by positivity
  rw [eq_div_iff h1, mul_comm, h]
  ring

theorem tc_sin (hu : ContDiffAt ℝ ∞ u 0) (i : Nat) :
    tc (fun t => Real.sin (u t)) (i + 1) = (Real.cos (u 0) * tc u (i + 1) * (i + 1) +
      ∑ j ∈ range i, tc (fun t => Real.cos (u t)) (j + 1) * (((i - 1 - j : ℕ) + 1) * tc u (i - 1 - j + 1)))
      / (i + 1) := by
  have h := tc_of_deriv (w := fun t => Real.sin (u t)) hu hu.cos
    (by filter_upwards [ev_diff hu] with t ht; exact ht.sin) i
  have h1 : ((i : ℝ) + 1) ≠ 0 := by positivity
  rw [eq_div_iff h1, mul_comm, h]
  ring

theorem tc_cos (hu : ContDiffAt ℝ ∞ u 0) (i : Nat) :
    tc (fun t => Real.cos (u t)) (i + 1) = (- Real.sin (u 0) * tc u (i + 1) * (i + 1) -
      ∑ j ∈ range i, tc (fun t => Real.sin (u t)) (j + 1) * (((i - 1 - j : ℕ) + 1) * tc u (i - 1 - j + 1)))
      / (i + 1) := by
  have h := tc_of_deriv (w := fun t => Real.cos (u t)) (p := fun t => - Real.sin (u t)) hu hu.sin.neg
    (by filter_upwards [ev_diff hu] with t ht; exact ht.cos) i
  have h1 : ((i : ℝ) + 1) ≠ 0 := by positivity
  rw [eq_div_iff h1, mul_comm, h]
  simp only [tc_neg, neg_mul, Finset.sum_neg_distrib]
  ring

/-- uni5_for.cpp:2696-2708 for a function with `w' = p u'`. -/
theorem tc_quad {p : ℝ → ℝ} (hu : ContDiffAt ℝ ∞ u 0) (hp : ContDiffAt ℝ ∞ p 0)
    (h : ∀ᶠ t in 𝓝 (0:ℝ), HasDerivAt w (p t * deriv u t) t) (i : Nat) :
    tc w (i + 1) = (p 0 * tc u (i + 1) * (i + 1) +
      ∑ j ∈ range i, tc p (j + 1) * (((i - 1 - j : ℕ) + 1) * tc u (i - 1 - j + 1))) / (i + 1) := by
  have h := tc_of_deriv hu hp h i
  have h1 : ((i : ℝ) + 1) ≠ 0 := by positivity
  rw [eq_div_iff h1, mul_comm, h]
  ring

theorem smooth_quad {p : ℝ → ℝ} (hu : ContDiffAt ℝ ∞ u 0) (hp : ContDiffAt ℝ ∞ p 0)
    (h : ∀ᶠ t in 𝓝 (0:ℝ), HasDerivAt w (p t * deriv u t) t) : ContDiffAt ℝ ∞ w 0 :=
  smooth_of_deriv h (hp.mul (smooth_deriv hu))

theorem smooth_log (hu : ContDiffAt ℝ ∞ u 0) (h0 : u 0 ≠ 0) :
    ContDiffAt ℝ ∞ (fun t => Real.log (u t)) 0 := hu.log h0

/-- Coefficients of `w` when `u w' = q`. -/
theorem tc_mul_deriv (hu : ContDiffAt ℝ ∞ u 0) (hw : ContDiffAt ℝ ∞ w 0) (i : Nat) :
    tc (fun t => u t * deriv w t) i = u 0 * ((i + 1) * tc w (i + 1)) +
      ∑ j ∈ range i, tc u (i - 1 - j + 1) * ((j + 1) * tc w (j + 1)) := by
  rw [tc_mul hu (smooth_deriv hw), Finset.sum_range_succ', add_comm]
  congr 1
  · rw [tc_deriv, tc_zero]; simp
  · have : ∀ j ∈ range i, tc u (j + 1) * tc (deriv w) (i - (j + 1)) =
        (fun a b => tc u (a + 1) * ((b + 1) * tc w (b + 1))) j (i - 1 - j) := by
      intro j hj
      have hj : j < i := Finset.mem_range.1 hj
      simp only [tc_deriv]
      rw [show i - (j + 1) = i - 1 - j by omega]
    rw [Finset.sum_congr rfl this, reflect (fun a b => tc u (a + 1) * ((b + 1) * tc w (b + 1)))]

/-- uni5_for.cpp:3331-3340 -/
theorem tc_log (hu : ContDiffAt ℝ ∞ u 0) (h0 : u 0 ≠ 0) (i : Nat) :
    tc (fun t => Real.log (u t)) (i + 1) = (tc u (i + 1) * (1 / u 0) * (i + 1) -
      ∑ j ∈ range i, tc u (i - 1 - j + 1) * (1 / u 0) * tc (fun t => Real.log (u t)) (j + 1) * (j + 1))
      / (i + 1) := by
  have h := tc_mul_deriv hu (smooth_log hu h0) i
  have e : (fun t => u t * deriv (fun t => Real.log (u t)) t) =ᶠ[𝓝 0] deriv u := by
    filter_upwards [ev_diff hu, ev_ne hu h0] with t ht hn
    rw [(ht.log hn).deriv]
    field_simp
  rw [tc_congr e, tc_deriv] at h
  have h1 : ((i : ℝ) + 1) ≠ 0 := by positivity
  have h2 : ∑ j ∈ range i, tc u (i - 1 - j + 1) * (1 / u 0) * tc (fun t => Real.log (u t)) (j + 1) * (j + 1) =
      (1 / u 0) * ∑ j ∈ range i, tc u (i - 1 - j + 1) * ((j + 1) * tc (fun t => Real.log (u t)) (j + 1)) := by
    rw [Finset.mul_sum]
    exact Finset.sum_congr rfl fun j _ => by ring
  rw [eq_div_iff h1, h2]
  have : tc u (i + 1) * (1 / u 0) * (i + 1) = (1 / u 0) * ((i + 1) * tc u (i + 1)) := by ring
  rw [this, h]
  field_simp
  ring

theorem smooth_rpow (x : ℝ) (hu : ContDiffAt ℝ ∞ u 0) (h0 : u 0 ≠ 0) :
    ContDiffAt ℝ ∞ (fun t => u t ^ x) 0 :=
  (Real.contDiffAt_rpow_const_of_ne h0).comp (0:ℝ) hu

/-- uni5_for.cpp:3469-3484 -/
theorem tc_rpow (x : ℝ) (hu : ContDiffAt ℝ ∞ u 0) (h0 : u 0 ≠ 0) (i : Nat) :
    tc (fun t => u t ^ x) (i + 1) = (u 0 ^ x * tc u (i + 1) * x * (1 / u 0) * (i + 1) +
      ∑ j ∈ range i, tc (fun t => u t ^ x) (j + 1) * (tc u (i - 1 - j + 1) * (1 / u 0)) *
        (x * i - 1 - j * (x + 1))) / (i + 1) := by
  have hw := smooth_rpow x hu h0
  have h := tc_mul_deriv hu hw i
  have e : (fun t => u t * deriv (fun t => u t ^ x) t) =ᶠ[𝓝 0] fun t => (x * u t ^ x) * deriv u t := by
    filter_upwards [ev_diff hu, ev_ne hu h0] with t ht hn
    have hd : HasDerivAt (fun t => u t ^ x) (deriv u t * x * u t ^ (x - 1)) t := ht.rpow_const (.inl hn)
    rw [hd.deriv, Real.rpow_sub_one hn]
    field_simp
  have hx : ContDiffAt ℝ ∞ (fun t => x * u t ^ x) 0 := contDiffAt_const.mul hw
  have hxc : ∀ n, tc (fun t => x * u t ^ x) n = x * tc (fun t => u t ^ x) n := by
    intro n; unfold tc
    rw [iteratedDeriv_const_mul_field, mul_div_assoc]
  rw [tc_congr e, tc_mul hx (smooth_deriv hu), Finset.sum_range_succ'] at h
  simp only [hxc, tc_deriv, tc_zero, Nat.sub_zero] at h
  have h3 : ∀ j ∈ range i, x * tc (fun t => u t ^ x) (j + 1) *
      (((i - (j + 1) : ℕ) + 1) * tc u (i - (j + 1) + 1)) =
      x * (i - j) * (tc (fun t => u t ^ x) (j + 1) * tc u (i - 1 - j + 1)) := by
    intro j hj
    have hj : j < i := Finset.mem_range.1 hj
    have : (((i - (j + 1) : ℕ) : ℝ) + 1) = i - j := by
      rw [Nat.cast_sub (by omega)]; push_cast; ring
    rw [this, show i - (j + 1) = i - 1 - j by omega]
    ring
  rw [Finset.sum_congr rfl h3] at h
  have h1 : ((i : ℝ) + 1) ≠ 0 := by positivity
  rw [eq_div_iff h1]
  have h4 : ∑ j ∈ range i, tc (fun t => u t ^ x) (j + 1) * (tc u (i - 1 - j + 1) * (1 / u 0)) *
        (x * i - 1 - j * (x + 1)) =
      (1 / u 0) * (∑ j ∈ range i, x * (i - j) * (tc (fun t => u t ^ x) (j + 1) * tc u (i - 1 - j + 1)) -
        ∑ j ∈ range i, tc u (i - 1 - j + 1) * ((j + 1) * tc (fun t => u t ^ x) (j + 1))) := by
    rw [← Finset.sum_sub_distrib, Finset.mul_sum]
    exact Finset.sum_congr rfl fun j _ => by ring
  rw [h4]
  have h5 : ∑ j ∈ range i, x * (i - j) * (tc (fun t => u t ^ x) (j + 1) * tc u (i - 1 - j + 1)) =
      u 0 * ((i + 1) * tc (fun t => u t ^ x) (i + 1)) +
      ∑ j ∈ range i, tc u (i - 1 - j + 1) * ((j + 1) * tc (fun t => u t ^ x) (j + 1)) -
      x * u 0 ^ x * ((i + 1) * tc u (i + 1)) := by rw [← h]; ring
  rw [h5]
  field_simp
  ring

theorem smooth_sqrt (hu : ContDiffAt ℝ ∞ u 0) (h0 : 0 < u 0) :
    ContDiffAt ℝ ∞ (fun t => Real.sqrt (u t)) 0 := hu.sqrt h0.ne'

/-- The half sum used at uni5_for.cpp:3559-3564. -/
theorem half_sum (a : Nat → ℝ) (i : Nat) :
    ∑ j ∈ range i, a j * a (i - 1 - j) =
      2 * ∑ j ∈ range (i / 2), a j * a (i - 1 - j) + (if i % 2 = 1 then a (i / 2) * a (i - 1 - i / 2) else 0) := by
  rcases Nat.even_or_odd' i with ⟨m, rfl | rfl⟩
  · have h1 : 2 * m / 2 = m := by omega
    have h2 : ¬ (2 * m % 2 = 1) := by omega
    rw [h1, if_neg h2, two_mul m, Finset.sum_range_add, add_zero, two_mul]
    congr 1
    rw [← Finset.sum_range_reflect]
    refine Finset.sum_congr rfl fun j hj => ?_
    have hj : j < m := Finset.mem_range.1 hj
    rw [show m + m - 1 - (m + (m - 1 - j)) = j by omega, show m + m - 1 - j = m + (m - 1 - j) by omega]
    ring
  · have h1 : (2 * m + 1) / 2 = m := by omega
    have h2 : (2 * m + 1) % 2 = 1 := by omega
    rw [h1, if_pos h2, show 2 * m + 1 = m + (1 + m) by omega, Finset.sum_range_add, Finset.sum_range_add,
      Finset.sum_range_one, two_mul]
    have : ∑ x ∈ range m, a (m + (1 + x)) * a (m + (1 + m) - 1 - (m + (1 + x))) =
        ∑ x ∈ range m, a x * a (m + (1 + m) - 1 - x) := by
      rw [← Finset.sum_range_reflect]
      refine Finset.sum_congr rfl fun j hj => ?_
      have hj : j < m := Finset.mem_range.1 hj
      rw [show m + (1 + m) - 1 - (m + (1 + (m - 1 - j))) = j by omega,
        show m + (1 + m) - 1 - j = m + (1 + (m - 1 - j)) by omega]
      ring
    rw [this]
    simp only [add_zero]
    ring

/-- uni5_for.cpp:3546-3566 -/
theorem tc_sqrt (hu : ContDiffAt ℝ ∞ u 0) (h0 : 0 < u 0) (i : Nat) :
    tc (fun t => Real.sqrt (u t)) (i + 1) = 1 / 2 / Real.sqrt (u 0) * tc u (i + 1) -
      1 / 2 / Real.sqrt (u 0) *
      ∑ j ∈ range i, tc (fun t => Real.sqrt (u t)) (j + 1) * tc (fun t => Real.sqrt (u t)) (i - 1 - j + 1) := by
  have hw := smooth_sqrt hu h0
  have e : u =ᶠ[𝓝 0] fun t => Real.sqrt (u t) * Real.sqrt (u t) := by
    filter_upwards [continuousAt_const.eventually_lt hu.continuousAt h0] with t ht
    rw [Real.mul_self_sqrt ht.le]
  have h := tc_mul_succ hw hw i
  rw [← tc_congr e] at h
  have hne : Real.sqrt (u 0) ≠ 0 := (Real.sqrt_pos.2 h0).ne'
  rw [h]
  field_simp
  ring

namespace Jet
theorem zero (h : Jet k f a) : f 0 = a 0 := by rw [← h.coef 0 (Nat.zero_le _), tc_zero]

theorem congr (h : Jet k f a) (e : g =ᶠ[𝓝 0] f) : Jet k g a :=
  ⟨h.smooth.congr_of_eventuallyEq e, fun n hn => by rw [tc_congr e, h.coef n hn]⟩

theorem coefs (h : Jet k f a) (e : ∀ n, n ≤ k → b n = a n) : Jet k f b :=
  ⟨h.smooth, fun n hn => by rw [e n hn, h.coef n hn]⟩

theorem mono {m : Nat} (h : Jet k f a) (hm : m ≤ k) : Jet m f a :=
  ⟨h.smooth, fun n hn => h.coef n (by omega)⟩

theorem const (x : ℝ) : Jet k (fun _ => x) (fun n => if n = 0 then x else 0) :=
  ⟨contDiffAt_const, fun n _ => tc_const x n⟩

theorem add (hf : Jet k f a) (hg : Jet k g b) : Jet k (fun t => f t + g t) (fun n => a n + b n) :=
  ⟨hf.smooth.add hg.smooth, fun n hn => by rw [tc_add hf.smooth hg.smooth, hf.coef n hn, hg.coef n hn]⟩

theorem sub (hf : Jet k f a) (hg : Jet k g b) : Jet k (fun t => f t - g t) (fun n => a n - b n) :=
  ⟨hf.smooth.sub hg.smooth, fun n hn => by rw [tc_sub hf.smooth hg.smooth, hf.coef n hn, hg.coef n hn]⟩

theorem neg (hf : Jet k f a) : Jet k (fun t => - f t) (fun n => - a n) :=
  ⟨hf.smooth.neg, fun n hn => by rw [tc_neg, hf.coef n hn]⟩

theorem mul (hf : Jet k f a) (hg : Jet k g b) :
    Jet k (fun t => f t * g t) (fun n => ∑ i ∈ range (n + 1), a i * b (n - i)) :=
  ⟨hf.smooth.mul hg.smooth, fun n hn => by
    rw [tc_mul hf.smooth hg.smooth]
    refine Finset.sum_congr rfl fun i hi => ?_
    have hi : i < n + 1 := Finset.mem_range.1 hi
    rw [hf.coef i (by omega), hg.coef (n - i) (by omega)]⟩

theorem mulConst (hf : Jet k f a) (x : ℝ) : Jet k (fun t => f t * x) (fun n => a n * x) :=
  ⟨hf.smooth.mul contDiffAt_const, fun n hn => by
    unfold tc; rw [iteratedDeriv_mul_const_field, mul_div_right_comm]
    rw [← hf.coef n hn, tc]⟩

/-- The true jet. -/
theorem of (h : ContDiffAt ℝ ∞ f 0) : Jet k f (tc f) := ⟨h, fun _ _ => rfl⟩
end Jet

end Verif.AD
