import Verif.Traceless.Spec
import Mathlib.Analysis.SpecialFunctions.Pow.Deriv
import Mathlib.Analysis.SpecialFunctions.Complex.LogDeriv
import Mathlib.Analysis.Calculus.Deriv.Abs
/-! # Traceless mode: each operation -/
set_option linter.all false
noncomputable section
namespace Verif.TL
open Verif.AD (rerf rcbrt hasDerivAt_rerf hasDerivAt_rcbrt hasDerivAt_artanh')

theorem put_same (r : Row) (i v) : put r i v i = v := by simp [put]
theorem put_ne (r : Row) {i j : ℕ} (v) (h : j ≠ i) : put r i v j = r j := by simp [put, h]
theorem puts_same (s : Store) (o i v) : puts s o i v o i = v := by simp [puts, put]
theorem puts_apply (s : Store) (o i v o' j) :
    puts s o i v o' j = if o' = o ∧ j = i then v else s o' j := by
  by_cases h : o' = o <;> by_cases h2 : j = i <;> simp [puts, put, h, h2]

theorem foldI (g : ℕ → Row → ℝ) (lo : ℕ)
    (hg : ∀ i r r', lo ≤ i → (∀ k, k < lo ∨ k = i → r k = r' k) → g i r = g i r') :
    ∀ (m st : ℕ), lo ≤ st → ∀ (r : Row) j,
      (List.range' st m).foldl (fun r i => put r i (g i r)) r j =
        if st ≤ j ∧ j < st + m then g j r else r j
  | 0, st, _, r, j => by
    have : ¬ (st ≤ j ∧ j < st) := by omega
    simp [this]
  | m + 1, st, hst, r, j => by
    rw [List.range'_succ, List.foldl_cons, foldI g lo hg m (st + 1) (by omega)]
    by_cases h : st = j
    · subst h
      rw [if_neg (by omega), put_same, if_pos (by omega)]
    · by_cases h2 : st + 1 ≤ j ∧ j < st + 1 + m
      · rw [if_pos h2, if_pos (by omega)]
        refine hg j _ _ (by omega) fun k hk => put_ne _ _ (by omega)
      · rw [if_neg h2, if_neg (by omega), put_ne _ _ (by omega)]

theorem forI_apply {g : ℕ → Row → ℝ} {lo p : ℕ} (r : Row) (j : ℕ)
    (hg : ∀ i r r', lo ≤ i → (∀ k, k < lo ∨ k = i → r k = r' k) → g i r = g i r') :
    forI lo p g r j = if lo ≤ j ∧ j ≤ p then g j r else r j := by
  unfold forI
  rw [foldI g lo hg _ _ le_rfl]
  congr 1
  apply propext; omega

/-- The loops whose right-hand side reads other objects only. -/
theorem forI_c (g : ℕ → ℝ) (lo p : ℕ) (r : Row) (j : ℕ) :
    forI lo p (fun i _ => g i) r j = if lo ≤ j ∧ j ≤ p then g j else r j :=
  forI_apply r j fun _ _ _ _ _ => rfl

/-- The loops that also read the value of the object being computed. -/
theorem forI_z (g : ℕ → ℝ → ℝ) (p : ℕ) (r : Row) (j : ℕ) :
    forI 1 p (fun i r => g i (r 0)) r j = if 1 ≤ j ∧ j ≤ p then g j (r 0) else r j :=
  forI_apply r j fun i r r' _ h => by rw [h 0 (by omega)]

theorem foldS (o : ℕ) (g : ℕ → Store → ℝ) (lo : ℕ)
    (hg : ∀ i s s', lo ≤ i → (∀ o' k, k < lo ∨ k = i → s o' k = s' o' k) → g i s = g i s') :
    ∀ (m st : ℕ), lo ≤ st → ∀ (s : Store) o' j,
      (List.range' st m).foldl (fun s i => puts s o i (g i s)) s o' j =
        if o' = o ∧ st ≤ j ∧ j < st + m then g j s else s o' j
  | 0, st, _, s, o', j => by
    have : ¬ (st ≤ j ∧ j < st) := by omega
    simp [this]
  | m + 1, st, hst, s, o', j => by
    rw [List.range'_succ, List.foldl_cons, foldS o g lo hg m (st + 1) (by omega)]
    by_cases ho : o' = o
    · subst ho
      by_cases h : st = j
      · subst h
        rw [if_neg (by omega), puts_same, if_pos (by omega)]
      · by_cases h2 : st + 1 ≤ j ∧ j < st + 1 + m
        · rw [if_pos ⟨rfl, h2⟩, if_pos (by omega)]
          refine hg j _ _ (by omega) fun o2 k hk => ?_
          rw [puts_apply, if_neg (by omega)]
        · rw [if_neg (by omega), if_neg (by omega), puts_apply, if_neg (by omega)]
    · rw [if_neg (by tauto), if_neg (by tauto), puts_apply, if_neg (by tauto)]

theorem forS_apply {o : ℕ} {g : ℕ → Store → ℝ} {lo p : ℕ} (s : Store) (o' j : ℕ)
    (hg : ∀ i s s', lo ≤ i → (∀ o' k, k < lo ∨ k = i → s o' k = s' o' k) → g i s = g i s') :
    forS lo p o g s o' j = if o' = o ∧ lo ≤ j ∧ j ≤ p then g j s else s o' j := by
  unfold forS
  rw [foldS o g lo hg _ _ le_rfl]
  congr 1
  apply propext; omega

/-! ### Unary functions -/

theorem dPowA_zero (c : Cfg) (v : ℝ) (a : Row) : dPowA c v a 0 = v ^ a 0 := by
  simp [dPowA, forI_c, put]
theorem mulA_zero (c : Cfg) (a b : Row) : mulA c a b 0 = a 0 * b 0 := by
  simp [mulA, forI_c, put]
theorem dPowA_i (c : Cfg) (v : ℝ) (a : Row) {i} (h : 1 ≤ i ∧ i ≤ c.p) :
    dPowA c v a i = v ^ a 0 * Real.log v * a i := by
  simp [dPowA, forI_c, put, h]
theorem mulA_i (c : Cfg) (a b : Row) {i} (h : 1 ≤ i ∧ i ≤ c.p) :
    mulA c a b i = a i * b 0 + a 0 * b i := by
  simp [mulA, forI_c, put, h]

theorem forI_exp (a : Row) (p : ℕ) (r : Row) (j : ℕ) :
    forI 1 p (fun i r => r 0 * a i) r j = if 1 ≤ j ∧ j ≤ p then r 0 * a j else r j :=
  forI_z (fun i z => z * a i) p r j
theorem forI_sqrt (c : Cfg) (a : Row) (p : ℕ) (r : Row) (j : ℕ) :
    forI 1 p (fun i r => if a 0 > 0 then a i / (r 0 * 2)
        else if a 0 = 0 ∧ a i ≠ 0 then (if a i < 0 then -1 else 1) * c.inf else c.nan) r j =
      if 1 ≤ j ∧ j ≤ p then (if a 0 > 0 then a j / (r 0 * 2)
        else if a 0 = 0 ∧ a j ≠ 0 then (if a j < 0 then -1 else 1) * c.inf else c.nan) else r j :=
  forI_z (fun i z => if a 0 > 0 then a i / (z * 2)
        else if a 0 = 0 ∧ a i ≠ 0 then (if a i < 0 then -1 else 1) * c.inf else c.nan) p r j
theorem forI_cbrt (c : Cfg) (a : Row) (p : ℕ) (r : Row) (j : ℕ) :
    forI 1 p (fun i r => if a 0 ≠ 0 then a i / (r 0 * r 0 * 3)
        else if a 0 = 0 ∧ a i ≠ 0 then (if a i < 0 then -1 else 1) * c.inf else c.nan) r j =
      if 1 ≤ j ∧ j ≤ p then (if a 0 ≠ 0 then a j / (r 0 * r 0 * 3)
        else if a 0 = 0 ∧ a j ≠ 0 then (if a j < 0 then -1 else 1) * c.inf else c.nan) else r j :=
  forI_z (fun i z => if a 0 ≠ 0 then a i / (z * z * 3)
        else if a 0 = 0 ∧ a i ≠ 0 then (if a i < 0 then -1 else 1) * c.inf else c.nan) p r j

theorem max_of_sub {x y : ℝ} : (x - y < 0 → max x y = y) ∧ (¬ x - y < 0 → max x y = x) :=
  ⟨fun h => max_eq_right (by linarith), fun h => max_eq_left (by linarith)⟩
theorem min_of_sub {x y : ℝ} : (x - y < 0 → min x y = x) ∧ (¬ x - y < 0 → min x y = y) :=
  ⟨fun h => min_eq_left (by linarith), fun h => min_eq_right (by linarith)⟩

/-- The value of the result, at every argument. -/
theorem Un.run_zero (c : Cfg) (f : Un) (a : Row) : f.run c a 0 = f.val (a 0) := by
  cases f <;> simp only [Un.run, Un.val]
  case ldexpD v => simp [forI_c]
  case dLdexp v => simp [forI_c, dPowA_zero]
  case dPow v => exact dPowA_zero c v a
  case log10 => simp [forI_c, put, Real.logb]
  case atan => split_ifs <;> simp [forI_c, put]
  case fabs => split_ifs <;> simp [forI_c, put]
  case fmaxD v =>
    split_ifs with h h2
    · simp [forI_c, put, max_of_sub.1 h]
    · simp [forI_c, put, max_of_sub.2 h]
    · simp [forI_c, put, max_of_sub.2 h]
  case dFmax v =>
    split_ifs with h h2
    · simp [forI_c, put, max_of_sub.1 h]
    · simp [forI_c, put, max_of_sub.2 h]
    · simp [forI_c, put, max_of_sub.2 h]
  case fminD v =>
    split_ifs with h h2
    · simp [forI_c, put, min_of_sub.1 h]
    · simp [forI_c, put, min_of_sub.2 h]
    · simp [forI_c, put, min_of_sub.2 h]
  case dFmin v =>
    split_ifs with h h2
    · simp [forI_c, put, min_of_sub.1 h]
    · simp [forI_c, put, min_of_sub.2 h]
    · simp [forI_c, put, min_of_sub.2 h]
  case exp => simp [forI_exp, put]
  case sqrt => rw [forI_sqrt, if_neg (by omega), put_same]
  case cbrt => rw [forI_cbrt, if_neg (by omega), put_same]
  all_goals simp [forI_c, put, ctorC, ctorA]

/-- The value of the result, at every argument. -/
theorem Bin.run_zero (c : Cfg) (f : Bin) (a b : Row) : f.run c a b 0 = f.val (a 0) (b 0) := by
  cases f <;> simp only [Bin.run, Bin.val]
  case mul => exact mulA_zero c a b
  case ldexp => rw [mulA_zero, dPowA_zero]
  case atan2 => split_ifs <;> simp [forI_c, put]
  case fmax =>
    split_ifs with h h2
    · simp [forI_c, put, max_of_sub.1 h]
    · simp [forI_c, put, max_of_sub.2 h]
    · simp [forI_c, put, max_of_sub.2 h]
  case fmin =>
    split_ifs with h h2
    · simp [forI_c, put, min_of_sub.1 h]
    · simp [forI_c, put, min_of_sub.2 h]
    · simp [forI_c, put, min_of_sub.2 h]
  all_goals simp [forI_c, put]

theorem hasDerivAt_of_const {f : ℝ → ℝ} {x k : ℝ} {s : Set ℝ} (hs : s ∈ nhds x)
    (h : ∀ y ∈ s, f y = k) : HasDerivAt f 0 x :=
  (hasDerivAt_const x k).congr_of_eventuallyEq (Filter.mem_of_superset hs h)

theorem hasDerivAt_of_id {f : ℝ → ℝ} {x : ℝ} {s : Set ℝ} (hs : s ∈ nhds x)
    (h : ∀ y ∈ s, f y = y) : HasDerivAt f 1 x :=
  (hasDerivAt_id x).congr_of_eventuallyEq (Filter.mem_of_superset hs h)

theorem hasDerivAt_floor {x : ℝ} (h : ∀ k : ℤ, x ≠ k) :
    HasDerivAt (fun y : ℝ => ((⌊y⌋ : ℤ) : ℝ)) 0 x := by
  refine hasDerivAt_of_const (k := (⌊x⌋ : ℤ))
    (Ioo_mem_nhds (lt_of_le_of_ne (Int.floor_le x) (Ne.symm (h _))) (Int.lt_floor_add_one x)) ?_
  intro y hy
  have : ⌊y⌋ = ⌊x⌋ := Int.floor_eq_iff.2 ⟨hy.1.le, hy.2⟩
  rw [this]

theorem hasDerivAt_ceil {x : ℝ} (h : ∀ k : ℤ, x ≠ k) :
    HasDerivAt (fun y : ℝ => ((⌈y⌉ : ℤ) : ℝ)) 0 x := by
  have h1 : x < (⌈x⌉ : ℤ) := lt_of_le_of_ne (Int.le_ceil x) (h _)
  have h2 : ((⌈x⌉ : ℤ) : ℝ) - 1 < x := by linarith [Int.ceil_lt_add_one x]
  refine hasDerivAt_of_const (k := (⌈x⌉ : ℤ)) (Ioo_mem_nhds h2 h1) ?_
  intro y hy
  have : ⌈y⌉ = ⌈x⌉ := Int.ceil_eq_iff.2 ⟨hy.1, hy.2.le⟩
  rw [this]

/-- At a point of differentiability the code multiplies the derivatives of the argument with
the derivative of the function. -/
theorem Un.run_deriv (c : Cfg) (f : Un) (a : Row) (h : f.dom false (a 0)) :
    ∃ d : ℝ, HasDerivAt f.val d (a 0) ∧ ∀ i, 1 ≤ i ∧ i ≤ c.p → f.run c a i = d * a i := by
  cases f <;> simp only [Un.dom, Bool.false_eq_true, or_false] at h <;> simp only [Un.run]
  case neg => exact ⟨-1, hasDerivAt_neg _, fun i hi => by rw [forI_c, if_pos (by omega)]; ring⟩
  case pos => exact ⟨1, hasDerivAt_id _, fun i hi => by
    rw [ctorC, forI_c, if_pos (by omega)]; ring⟩
  case addD v => exact ⟨1, (hasDerivAt_id _).add_const v, fun i hi => by
    rw [ctorA, forI_c, if_pos (by omega), Nat.sub_add_cancel hi.1]; ring⟩
  case dAdd v => exact ⟨1, (hasDerivAt_id _).const_add v, fun i hi => by
    rw [ctorA, forI_c, if_pos (by omega), Nat.sub_add_cancel hi.1]; ring⟩
  case subD v => exact ⟨1, (hasDerivAt_id _).sub_const v, fun i hi => by
    rw [ctorA, forI_c, if_pos (by omega), Nat.sub_add_cancel hi.1]; ring⟩
  case dSub v => exact ⟨-1, (hasDerivAt_id _).const_sub v, fun i hi => by
    rw [forI_c, if_pos (by omega)]; ring⟩
  case mulD v => exact ⟨v, ((hasDerivAt_id (a 0)).mul_const v).congr_deriv (one_mul v), fun i hi => by
    rw [forI_c, if_pos (by omega)]; ring⟩
  case dMul v => exact ⟨v, ((hasDerivAt_id (a 0)).const_mul v).congr_deriv (mul_one v), fun i hi => by
    rw [forI_c, if_pos (by omega)]⟩
  case divD v => exact ⟨1 / v, (hasDerivAt_id (a 0)).div_const v, fun i hi => by
    rw [forI_c, if_pos (by omega)]; ring⟩
  case dDiv v =>
    refine ⟨-v / (a 0 * a 0), ?_, fun i hi => by rw [forI_c, if_pos (by omega)]; ring⟩
    refine ((hasDerivAt_const (a 0) v).div (hasDerivAt_id (a 0)) h).congr_deriv ?_
    simp [pow_two]
  case tan =>
    refine ⟨1 / Real.cos (a 0) ^ 2, Real.hasDerivAt_tan h, fun i hi => ?_⟩
    rw [forI_c, if_pos (by omega)]; ring
  case exp =>
    refine ⟨_, Real.hasDerivAt_exp _, fun i hi => ?_⟩
    rw [forI_exp, if_pos (by omega), put_same]
  case log =>
    refine ⟨_, Real.hasDerivAt_log h.ne', fun i hi => ?_⟩
    rw [forI_c, if_pos (by omega), if_pos h]; ring
  case sqrt =>
    refine ⟨_, Real.hasDerivAt_sqrt h.ne', fun i hi => ?_⟩
    rw [forI_sqrt, if_pos (by omega), if_pos h, put_same]; ring
  case cbrt =>
    refine ⟨_, hasDerivAt_rcbrt h, fun i hi => ?_⟩
    rw [forI_cbrt, if_pos (by omega), if_pos h, put_same]; ring
  case sin =>
    refine ⟨_, Real.hasDerivAt_sin _, fun i hi => ?_⟩
    rw [forI_c, if_pos (by omega)]
  case cos =>
    refine ⟨_, Real.hasDerivAt_cos _, fun i hi => ?_⟩
    rw [forI_c, if_pos (by omega)]
  case asin =>
    refine ⟨_, Real.hasDerivAt_arcsin (x := a 0) (by linarith [h.1]) (by linarith [h.2]), fun i hi => ?_⟩
    rw [forI_c, if_pos (by omega)]; ring
  case acos =>
    refine ⟨_, Real.hasDerivAt_arccos (x := a 0) (by linarith [h.1]) (by linarith [h.2]), fun i hi => ?_⟩
    rw [forI_c, if_pos (by omega), div_neg]; ring
  case atan =>
    refine ⟨_, Real.hasDerivAt_arctan _, fun i hi => ?_⟩
    have h0 : (1 : ℝ) / (1 + a 0 * a 0) ≠ 0 := by
      have : (0:ℝ) < 1 + a 0 * a 0 := by nlinarith [mul_self_nonneg (a 0)]
      positivity
    rw [if_pos h0, forI_c, if_pos (by omega)]; ring
  case powD v =>
    refine ⟨_, Real.hasDerivAt_rpow_const ?_, fun i hi => ?_⟩
    · rcases h with h | ⟨h, _⟩ | ⟨k, h1, rfl⟩
      · exact Or.inl h.ne'
      · exact Or.inl h
      · exact Or.inr (by exact_mod_cast h1)
    · rw [forI_c, if_pos (by omega)]
  case dPow v =>
    refine ⟨_, (hasDerivAt_id (a 0)).const_rpow h, fun i hi => ?_⟩
    rw [dPowA_i _ _ _ hi]; simp only [id, mul_one]; ring
  case log10 =>
    refine ⟨_, (Real.hasDerivAt_log h.ne').div_const (Real.log 10), fun i hi => ?_⟩
    rw [forI_c, if_pos (by omega)]; ring
  case sinh =>
    refine ⟨_, Real.hasDerivAt_sinh _, fun i hi => ?_⟩
    rw [forI_c, if_pos (by omega)]; ring
  case cosh =>
    refine ⟨_, Real.hasDerivAt_cosh _, fun i hi => ?_⟩
    rw [forI_c, if_pos (by omega)]; ring
  case tanh =>
    have hc := (Real.cosh_pos (a 0)).ne'
    refine ⟨1 / (Real.cosh (a 0) * Real.cosh (a 0)), ?_, fun i hi => ?_⟩
    · have := (Real.hasDerivAt_sinh (a 0)).div (Real.hasDerivAt_cosh (a 0)) hc
      have e : (Un.tanh).val = fun x => Real.sinh x / Real.cosh x := by
        funext x; exact Real.tanh_eq_sinh_div_cosh x
      rw [e]
      refine this.congr_deriv ?_
      have := Real.cosh_sq (a 0)
      field_simp
      nlinarith
    · rw [forI_c, if_pos (by omega)]; ring
  case asinh =>
    refine ⟨_, Real.hasDerivAt_arsinh _, fun i hi => ?_⟩
    rw [forI_c, if_pos (by omega), add_comm, pow_two]; ring
  case acosh =>
    refine ⟨_, Real.hasDerivAt_arcosh h, fun i hi => ?_⟩
    rw [forI_c, if_pos (by omega), pow_two]; ring
  case atanh =>
    refine ⟨_, hasDerivAt_artanh' h.1 h.2, fun i hi => ?_⟩
    rw [forI_c, if_pos (by omega)]; ring
  case fabs =>
    rcases lt_or_gt_of_ne h with h1 | h1
    · refine ⟨-1, _root_.hasDerivAt_abs_neg h1, fun i hi => ?_⟩
      rw [if_pos h1, if_pos (by norm_num), forI_c, if_pos (by omega)]; ring
    · refine ⟨1, _root_.hasDerivAt_abs_pos h1, fun i hi => ?_⟩
      rw [if_neg (not_lt.2 h1.le), if_pos h1, if_pos (by norm_num), forI_c, if_pos (by omega)]; ring
  case ceil => exact ⟨0, hasDerivAt_ceil h, fun i hi => by rw [forI_c, if_pos (by omega)]; ring⟩
  case floor => exact ⟨0, hasDerivAt_floor h, fun i hi => by rw [forI_c, if_pos (by omega)]; ring⟩
  case fmaxD v =>
    rcases lt_or_gt_of_ne h with h1 | h1
    · refine ⟨0, hasDerivAt_of_const (Iio_mem_nhds h1) (fun y hy => max_eq_right (le_of_lt hy)), fun i hi => ?_⟩
      rw [if_pos (by linarith), forI_c, if_pos (by omega)]; ring
    · refine ⟨1, hasDerivAt_of_id (Ioi_mem_nhds h1) (fun y hy => max_eq_left (le_of_lt hy)), fun i hi => ?_⟩
      rw [if_neg (by linarith), if_pos (by linarith), forI_c, if_pos (by omega)]; ring
  case dFmax v =>
    rcases lt_or_gt_of_ne h with h1 | h1
    · refine ⟨0, hasDerivAt_of_const (Iio_mem_nhds h1) (fun y hy => max_eq_left (le_of_lt hy)), fun i hi => ?_⟩
      rw [if_neg (by linarith), if_pos (by linarith), forI_c, if_pos (by omega)]; ring
    · refine ⟨1, hasDerivAt_of_id (Ioi_mem_nhds h1) (fun y hy => max_eq_right (le_of_lt hy)), fun i hi => ?_⟩
      rw [if_pos (by linarith), forI_c, if_pos (by omega)]; ring
  case fminD v =>
    rcases lt_or_gt_of_ne h with h1 | h1
    · refine ⟨1, hasDerivAt_of_id (Iio_mem_nhds h1) (fun y hy => min_eq_left (le_of_lt hy)), fun i hi => ?_⟩
      rw [if_pos (by linarith), forI_c, if_pos (by omega)]; ring
    · refine ⟨0, hasDerivAt_of_const (Ioi_mem_nhds h1) (fun y hy => min_eq_right (le_of_lt hy)), fun i hi => ?_⟩
      rw [if_neg (by linarith), if_pos (by linarith), forI_c, if_pos (by omega)]; ring
  case dFmin v =>
    rcases lt_or_gt_of_ne h with h1 | h1
    · refine ⟨1, hasDerivAt_of_id (Iio_mem_nhds h1) (fun y hy => min_eq_right (le_of_lt hy)), fun i hi => ?_⟩
      rw [if_neg (by linarith), if_pos (by linarith), forI_c, if_pos (by omega)]; ring
    · refine ⟨0, hasDerivAt_of_const (Ioi_mem_nhds h1) (fun y hy => min_eq_left (le_of_lt hy)), fun i hi => ?_⟩
      rw [if_pos (by linarith), forI_c, if_pos (by omega)]; ring
  case ldexpD v => exact ⟨2 ^ v, ((hasDerivAt_id (a 0)).mul_const ((2:ℝ) ^ v)).congr_deriv (one_mul _), fun i hi => by
    rw [forI_c, if_pos (by omega)]; ring⟩
  case dLdexp v =>
    refine ⟨_, ((hasDerivAt_id (a 0)).const_rpow (by norm_num : (0:ℝ) < 2)).const_mul v, fun i hi => ?_⟩
    rw [forI_c, if_pos (by omega), dPowA_i _ _ _ hi]; simp; ring
  case erf =>
    refine ⟨_, hasDerivAt_rerf _, fun i hi => ?_⟩
    rw [forI_c, if_pos (by omega), Real.arccos_neg_one]
  case erfc =>
    refine ⟨_, (hasDerivAt_rerf _).const_sub 1, fun i hi => ?_⟩
    rw [forI_c, if_pos (by omega), Real.arccos_neg_one]; ring

open ContinuousLinearMap in
/-- The linear map `(u, v) ↦ d₁ u + d₂ v`. -/
def lin2 (d₁ d₂ : ℝ) : ℝ × ℝ →L[ℝ] ℝ := d₁ • fst ℝ ℝ ℝ + d₂ • snd ℝ ℝ ℝ

theorem lin2_apply (d₁ d₂ u v : ℝ) : lin2 d₁ d₂ (u, v) = d₁ * u + d₂ * v := by
  simp [lin2]

theorem hasFDerivAt_atan2 {x y : ℝ} (h : 0 < y ∨ x ≠ 0) :
    HasFDerivAt (fun q : ℝ × ℝ => Complex.arg ⟨q.2, q.1⟩)
      (lin2 (y / (x * x + y * y)) (- x / (x * x + y * y))) (x, y) := by
  have hz : (⟨y, x⟩ : ℂ) ∈ Complex.slitPlane := by
    rw [Complex.mem_slitPlane_iff]; simpa using h
  let A : ℝ × ℝ →L[ℝ] ℂ :=
    (ContinuousLinearMap.snd ℝ ℝ ℝ).smulRight (1:ℂ) + (ContinuousLinearMap.fst ℝ ℝ ℝ).smulRight Complex.I
  have eA : ∀ q : ℝ × ℝ, A q = ⟨q.2, q.1⟩ := by
    intro q
    apply Complex.ext <;> simp [A]
  have h1 : HasFDerivAt A A (x, y) := A.hasFDerivAt
  have h2 : HasFDerivAt Complex.log (((1 : ℂ →L[ℂ] ℂ).smulRight ((⟨y, x⟩ : ℂ)⁻¹)).restrictScalars ℝ) (A (x, y)) := by
    rw [eA]
    exact ((Complex.hasDerivAt_log hz).hasFDerivAt).restrictScalars ℝ
  have h3 := (Complex.imCLM.hasFDerivAt (x := Complex.log (A (x, y)))).comp (x, y) (h2.comp (x, y) h1)
  have e1 : (fun q : ℝ × ℝ => Complex.arg ⟨q.2, q.1⟩) = (Complex.imCLM ∘ Complex.log ∘ A) := by
    funext q
    simp [eA, Complex.log_im]
  rw [e1]
  refine h3.congr_fderiv ?_
  ext
  · simp [lin2, A, Complex.normSq_apply, Complex.inv_re]
    ring
  · simp [lin2, A, Complex.normSq_apply, Complex.inv_im]
    ring

theorem hasFDerivAt_of_fst {f : ℝ × ℝ → ℝ} {q : ℝ × ℝ} {s : Set (ℝ × ℝ)} (hs : s ∈ nhds q)
    (h : ∀ y ∈ s, f y = y.1) : HasFDerivAt f (lin2 1 0) q := by
  have : HasFDerivAt (fun y : ℝ × ℝ => y.1) (lin2 1 0) q := by
    refine hasFDerivAt_fst.congr_fderiv ?_
    ext <;> simp [lin2]
  exact this.congr_of_eventuallyEq (Filter.mem_of_superset hs h)

theorem hasFDerivAt_of_snd {f : ℝ × ℝ → ℝ} {q : ℝ × ℝ} {s : Set (ℝ × ℝ)} (hs : s ∈ nhds q)
    (h : ∀ y ∈ s, f y = y.2) : HasFDerivAt f (lin2 0 1) q := by
  have : HasFDerivAt (fun y : ℝ × ℝ => y.2) (lin2 0 1) q := by
    refine hasFDerivAt_snd.congr_fderiv ?_
    ext <;> simp [lin2]
  exact this.congr_of_eventuallyEq (Filter.mem_of_superset hs h)

theorem fst_lt_snd_nhds {x y : ℝ} (h : x < y) : {q : ℝ × ℝ | q.1 < q.2} ∈ nhds (x, y) :=
  (isOpen_lt continuous_fst continuous_snd).mem_nhds h
theorem snd_lt_fst_nhds {x y : ℝ} (h : y < x) : {q : ℝ × ℝ | q.2 < q.1} ∈ nhds (x, y) :=
  (isOpen_lt continuous_snd continuous_fst).mem_nhds h

/-- The same for the binary functions. -/
theorem Bin.run_deriv (c : Cfg) (f : Bin) (a b : Row) (h : f.dom false (a 0) (b 0)) :
    ∃ d₁ d₂ : ℝ, HasFDerivAt (fun q : ℝ × ℝ => f.val q.1 q.2) (lin2 d₁ d₂) (a 0, b 0) ∧
      ∀ i, 1 ≤ i ∧ i ≤ c.p → f.run c a b i = d₁ * a i + d₂ * b i := by
  cases f <;> simp only [Bin.dom, Bool.false_eq_true, or_false] at h <;> simp only [Bin.run]
  case add =>
    refine ⟨1, 1, ?_, fun i hi => by rw [forI_c, if_pos (by omega)]; ring⟩
    refine (hasFDerivAt_fst.add hasFDerivAt_snd).congr_fderiv ?_
    ext <;> simp [lin2]
  case sub =>
    refine ⟨1, -1, ?_, fun i hi => by rw [forI_c, if_pos (by omega)]; ring⟩
    refine (hasFDerivAt_fst.sub hasFDerivAt_snd).congr_fderiv ?_
    ext <;> simp [lin2]
  case mul =>
    refine ⟨b 0, a 0, ?_, fun i hi => by rw [mulA_i _ _ _ hi]; ring⟩
    refine (hasFDerivAt_fst.mul hasFDerivAt_snd).congr_fderiv ?_
    ext <;> simp [lin2]
  case div =>
    refine ⟨1 / b 0, - a 0 / (b 0 * b 0), ?_, fun i hi => ?_⟩
    · have h3 : HasFDerivAt (fun q : ℝ × ℝ => (q.2)⁻¹) (lin2 0 (-(b 0 ^ 2)⁻¹)) (a 0, b 0) := by
        have := (hasDerivAt_inv h).comp_hasFDerivAt ((a 0, b 0) : ℝ × ℝ)
          (hasFDerivAt_snd (𝕜 := ℝ) (E := ℝ) (F := ℝ) (p := (a 0, b 0)))
        refine HasFDerivAt.congr_fderiv this ?_
        ext <;> simp [lin2]
      have h4 := (hasFDerivAt_fst (𝕜 := ℝ) (E := ℝ) (F := ℝ) (p := (a 0, b 0))).mul h3
      have e : (fun q : ℝ × ℝ => Bin.val .div q.1 q.2) = fun q : ℝ × ℝ => q.1 * (q.2)⁻¹ := by
        funext q; exact div_eq_mul_inv _ _
      rw [e]
      refine h4.congr_fderiv ?_
      ext <;> simp [lin2, pow_two, div_eq_mul_inv]
    · rw [forI_c, if_pos (by omega)]; field_simp; ring
  case atan2 =>
    refine ⟨_, _, hasFDerivAt_atan2 h.2, fun i hi => ?_⟩
    have hb : b 0 * b 0 ≠ 0 := mul_ne_zero h.1 h.1
    have hs : a 0 * a 0 + b 0 * b 0 ≠ 0 := by
      have h1 : 0 < b 0 * b 0 := lt_of_le_of_ne (mul_self_nonneg _) (Ne.symm hb)
      have := mul_self_nonneg (a 0)
      linarith
    rw [if_pos (div_ne_zero hb hs), forI_c, if_pos (by omega)]
    have hb1 := h.1
    generalize a 0 * a 0 + b 0 * b 0 = S at *
    field_simp
    ring
  case pow =>
    refine ⟨b 0 * a 0 ^ (b 0 - 1), Real.log (a 0) * a 0 ^ b 0, ?_, fun i hi => ?_⟩
    · refine (Real.hasStrictFDerivAt_rpow_of_pos (a 0, b 0) h).hasFDerivAt.congr_fderiv ?_
      ext <;> simp [lin2]
      ring
    · rw [forI_c, if_pos (by omega), put_same]
  case fmax =>
    rcases lt_or_gt_of_ne h with h1 | h1
    · refine ⟨0, 1, hasFDerivAt_of_snd (fst_lt_snd_nhds h1) (fun y hy => max_eq_right (le_of_lt hy)), fun i hi => ?_⟩
      rw [if_pos (by linarith), forI_c, if_pos (by omega)]; ring
    · refine ⟨1, 0, hasFDerivAt_of_fst (snd_lt_fst_nhds h1) (fun y hy => max_eq_left (le_of_lt hy)), fun i hi => ?_⟩
      rw [if_neg (by linarith), if_pos (by linarith), forI_c, if_pos (by omega)]; ring
  case fmin =>
    rcases lt_or_gt_of_ne h with h1 | h1
    · refine ⟨1, 0, hasFDerivAt_of_fst (fst_lt_snd_nhds h1) (fun y hy => min_eq_left (le_of_lt hy)), fun i hi => ?_⟩
      rw [if_pos (by linarith), forI_c, if_pos (by omega)]; ring
    · refine ⟨0, 1, hasFDerivAt_of_snd (snd_lt_fst_nhds h1) (fun y hy => min_eq_right (le_of_lt hy)), fun i hi => ?_⟩
      rw [if_neg (by linarith), if_pos (by linarith), forI_c, if_pos (by omega)]; ring
  case ldexp =>
    have h2 : HasDerivAt (fun y : ℝ => (2:ℝ) ^ y) (Real.log 2 * 2 ^ b 0) (b 0) := by
      simpa using (hasDerivAt_id (b 0)).const_rpow (by norm_num : (0:ℝ) < 2)
    have h3 : HasFDerivAt (fun q : ℝ × ℝ => (2:ℝ) ^ q.2) (lin2 0 (Real.log 2 * 2 ^ b 0)) (a 0, b 0) := by
      have := h2.comp_hasFDerivAt ((a 0, b 0) : ℝ × ℝ)
        (hasFDerivAt_snd (𝕜 := ℝ) (E := ℝ) (F := ℝ) (p := (a 0, b 0)))
      refine HasFDerivAt.congr_fderiv this ?_
      ext <;> simp [lin2]
    refine ⟨2 ^ b 0, a 0 * (Real.log 2 * 2 ^ b 0), ?_, fun i hi => ?_⟩
    · refine ((hasFDerivAt_fst (𝕜 := ℝ) (E := ℝ) (F := ℝ) (p := (a 0, b 0))).mul h3).congr_fderiv ?_
      ext <;> simp [lin2]
    · rw [mulA_i _ _ _ hi, dPowA_i _ _ _ hi, dPowA_zero]; ring

end Verif.TL
