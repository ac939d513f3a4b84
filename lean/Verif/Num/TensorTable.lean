import Verif.Num.TensorEnum
import Mathlib.LinearAlgebra.Matrix.Determinant.Basic
import Mathlib.Tactic.LinearCombination

/-! # The table built by `coeff` contains the interpolation coefficients -/
set_option linter.all false
namespace Verif.Num.TensorCoef
open Simplex

/-! ### The loop over `k` -/

/-- Mixed-radix value of the first `n` entries. -/
def kr (im : Nat → Nat) : Nat → (Nat → Nat) → Nat
  | 0, _ => 0
  | i + 1, k => kr im i k * (im i + 1) + k i

def prodC (im : Nat → Nat) (n : Nat) (k : Nat → Nat) : ℚ := ∏ l ∈ Finset.range n, ((im l).choose (k l) : ℚ)
def vol (im : Nat → Nat) (n : Nat) : Nat := ∏ l ∈ Finset.range n, (im l + 1)

theorem kr_congr {im k k' : Nat → Nat} {n : Nat} (h : ∀ l, l < n → k l = k' l) : kr im n k = kr im n k' := by
  induction n with
  | zero => rfl
  | succ n ih => rw [kr, kr, ih fun l hl => h l (by omega), h n (by omega)]

theorem prodC_ne {im k : Nat → Nat} {n : Nat} (h : ∀ l, l < n → k l ≤ im l) : prodC im n k ≠ 0 := by
  refine Finset.prod_ne_zero_iff.mpr fun l hl => ?_
  have := Nat.choose_pos (h l (Finset.mem_range.mp hl))
  positivity

theorem bump_spec (im : Nat → Nat) : ∀ (n : Nat) (k : KS), (∀ l, l < n → k.km l ≤ im l) → ∑ l ∈ Finset.range n, k.km l ≤ k.ok →
    (∀ l, n ≤ l → (bump im n k).1.km l = k.km l) ∧ (∀ l, l < n → (bump im n k).1.km l ≤ im l) ∧
    (bump im n k).1.ok + ∑ l ∈ Finset.range n, k.km l = k.ok + ∑ l ∈ Finset.range n, (bump im n k).1.km l ∧
    (bump im n k).1.bz * prodC im n k.km = k.bz * prodC im n (bump im n k).1.km ∧
    ((bump im n k).2 = true → kr im n (bump im n k).1.km = kr im n k.km + 1) ∧
    ((bump im n k).2 = false → (∀ l, l < n → (bump im n k).1.km l = 0) ∧ kr im n k.km + 1 = vol im n) := by
  intro n
  induction n with
  | zero => intro k _ _; simp [bump, kr, vol]
  | succ n ih =>
    intro k hk hok
    rw [Finset.sum_range_succ] at hok
    by_cases hlt : k.km n < im n
    · simp only [bump, hlt, if_true]
      have hs : ∀ l, l < n → put k.km n (k.km n + 1) l = k.km l := fun l hl => by simp [put, Nat.ne_of_lt hl]
      have hn : put k.km n (k.km n + 1) n = k.km n + 1 := by simp [put]
      refine ⟨fun l hl => ?_, fun l hl => ?_, ?_, ?_, fun _ => ?_, fun h => by cases h⟩
      · simp [put]; omega
      · rcases Nat.lt_succ_iff_lt_or_eq.mp hl with h | rfl
        · rw [hs l h]; exact hk l (by omega)
        · rw [hn]; omega
      · have hsum : ∑ l ∈ Finset.range n, put k.km n (k.km n + 1) l = ∑ l ∈ Finset.range n, k.km l :=
          Finset.sum_congr rfl fun l hl => hs l (Finset.mem_range.mp hl)
        rw [Finset.sum_range_succ, Finset.sum_range_succ, hn, hsum]
        omega
      · have e1 : prodC im n (put k.km n (k.km n + 1)) = prodC im n k.km :=
          Finset.prod_congr rfl fun l hl => by rw [hs l (Finset.mem_range.mp hl)]
        have e2 : ∀ f, prodC im (n + 1) f = prodC im n f * ((im n).choose (f n) : ℚ) := fun f => Finset.prod_range_succ _ _
        rw [e2, e2, e1, hn]
        have h3 : (((im n).choose (k.km n + 1) * (k.km n + 1) : Nat) : ℚ) = (((im n).choose (k.km n) * (im n - k.km n) : Nat) : ℚ) := by
          exact_mod_cast Nat.choose_succ_right_eq (im n) (k.km n)
        have h4 : ((im n - k.km n : Nat) : ℚ) = (im n : ℚ) - (k.km n : ℚ) := by push_cast [Nat.le_of_lt hlt]; ring
        push_cast at h3
        rw [h4] at h3
        have h5 : ((k.km n : ℚ) + 1) ≠ 0 := by positivity
        push_cast
        field_simp
        linear_combination (- k.bz * prodC im n k.km) * h3
      · rw [kr, kr, hn, kr_congr hs]; omega
    · have hle := hk n (by omega)
      have heq : k.km n = im n := by omega
      simp only [bump, hlt, if_false]
      set k1 : KS := { k with km := put k.km n 0, ok := k.ok - k.km n } with hk1
      have hs : ∀ l, l < n → k1.km l = k.km l := fun l hl => by simp [hk1, put, Nat.ne_of_lt hl]
      have hn : k1.km n = 0 := by simp [hk1, put]
      have hsum : ∑ l ∈ Finset.range n, k1.km l = ∑ l ∈ Finset.range n, k.km l := Finset.sum_congr rfl fun l hl => hs l (Finset.mem_range.mp hl)
      obtain ⟨g1, g2, g3, g4, g5, g6⟩ := ih k1 (fun l hl => by rw [hs l hl]; exact hk l (by omega)) (by
        rw [hsum]; simp only [hk1]; omega)
      have gn : (bump im n k1).1.km n = 0 := by rw [g1 n le_rfl, hn]
      have e2 : ∀ f, prodC im (n + 1) f = prodC im n f * ((im n).choose (f n) : ℚ) := fun f => Finset.prod_range_succ _ _
      have e1 : prodC im n k1.km = prodC im n k.km := Finset.prod_congr rfl fun l hl => by rw [hs l (Finset.mem_range.mp hl)]
      have hkr : kr im n k1.km = kr im n k.km := kr_congr hs
      refine ⟨fun l hl => ?_, fun l hl => ?_, ?_, ?_, fun h => ?_, fun h => ?_⟩
      · rw [g1 l (by omega)]; simp [hk1, put]; omega
      · rcases Nat.lt_succ_iff_lt_or_eq.mp hl with h | rfl
        · exact g2 l h
        · rw [gn]; omega
      · rw [Finset.sum_range_succ, Finset.sum_range_succ, gn]
        rw [hsum] at g3
        simp only [hk1] at g3 ⊢
        omega
      · rw [e2, e2, gn, heq]
        rw [e1] at g4
        simp only [Nat.choose_self, Nat.choose_zero_right, Nat.cast_one, mul_one]
        exact g4
      · rw [kr, kr, gn, g5 h, hkr, heq]; ring
      · obtain ⟨h1, h2⟩ := g6 h
        refine ⟨fun l hl => ?_, ?_⟩
        · rcases Nat.lt_succ_iff_lt_or_eq.mp hl with h | rfl
          · exact h1 l h
          · exact gn
        · rw [kr, heq, vol, Finset.prod_range_succ, ← vol, ← h2, hkr]; ring

structure KInv (p : Nat) (im : Nat → Nat) (k : KS) : Prop where
  le : ∀ l, l < p → k.km l ≤ im l
  out : ∀ l, p ≤ l → k.km l = 0
  ok : k.ok = ∑ l ∈ Finset.range p, k.km l
  bz : k.bz = prodC im p k.km

def kseq (p : Nat) (im : Nat → Nat) : Nat → KS
  | 0 => ⟨fun _ => 0, 0, 1⟩
  | t + 1 => (bump im p (kseq p im t)).1

theorem bump_inv {p : Nat} {im : Nat → Nat} {k : KS} (h : KInv p im k) : KInv p im (bump im p k).1 := by
  obtain ⟨g1, g2, g3, g4, _, _⟩ := bump_spec im p k h.le (by rw [h.ok])
  refine ⟨g2, fun l hl => by rw [g1 l hl, h.out l hl], ?_, ?_⟩
  · rw [h.ok] at g3; omega
  · rw [h.bz] at g4
    have := prodC_ne h.le
    apply mul_right_cancel₀ this
    rw [g4]; ring

theorem kr_lt {im k : Nat → Nat} {n : Nat} (h : ∀ l, l < n → k l ≤ im l) : kr im n k < vol im n := by
  induction n with
  | zero => simp [kr, vol]
  | succ n ih =>
    have h1 := ih fun l hl => h l (by omega)
    have h2 := h n (by omega)
    rw [kr, vol, Finset.prod_range_succ, ← vol]
    nlinarith

theorem kseq_facts (p : Nat) (im : Nat → Nat) : ∀ t, t < vol im p → KInv p im (kseq p im t) ∧ kr im p (kseq p im t).km = t ∧
    (bump im p (kseq p im t)).2 = decide (t + 1 < vol im p) := by
  have step : ∀ t k, KInv p im k → kr im p k.km = t → (bump im p k).2 = decide (t + 1 < vol im p) := by
    intro t k hk hr
    obtain ⟨_, g2, _, _, g5, g6⟩ := bump_spec im p k hk.le (by rw [hk.ok])
    cases hb : (bump im p k).2 with
    | true =>
      have := kr_lt g2
      rw [g5 hb, hr] at this
      simp [this]
    | false =>
      have := (g6 hb).2
      simp; omega
  intro t
  induction t with
  | zero =>
    intro _
    have h0 : KInv p im (kseq p im 0) := ⟨fun l _ => by simp [kseq], fun l _ => rfl, by simp [kseq], by simp [kseq, prodC]⟩
    have hr : kr im p (kseq p im 0).km = 0 := by
      have : ∀ n, kr im n (fun _ => 0) = 0 := by
        intro n; induction n with
        | zero => rfl
        | succ n ih => simp [kr, ih]
      exact this p
    exact ⟨h0, hr, step 0 _ h0 hr⟩
  | succ t ih =>
    intro ht
    obtain ⟨h1, h2, h3⟩ := ih (by omega)
    have hb : (bump im p (kseq p im t)).2 = true := by rw [h3]; simpa using ht
    obtain ⟨_, _, _, _, g5, _⟩ := bump_spec im p _ h1.le (by rw [h1.ok])
    have h4 : KInv p im (kseq p im (t + 1)) := bump_inv h1
    have h5 : kr im p (kseq p im (t + 1)).km = t + 1 := by
      have := g5 hb
      rw [h2] at this; exact this
    exact ⟨h4, h5, step _ _ h4 h5⟩

theorem kwalk_eq (p d : Nat) (jm im : Nat → Nat) (oi : Nat) : ∀ (f t : Nat) (sum : ℚ), t < vol im p → vol im p ≤ t + f →
    ∃ k', kwalk p d jm im oi f (kseq p im t) sum = .ok (k', sum + ∑ i ∈ Finset.Ico (t + 1) (vol im p),
      summand p d jm (kseq p im i).km oi (kseq p im i).ok (kseq p im i).bz) ∧ k'.km = (fun _ => 0) ∧ k'.ok = 0 := by
  intro f
  induction f with
  | zero => intro t sum h1 h2; omega
  | succ f ih =>
    intro t sum h1 h2
    obtain ⟨hk, hr, hb⟩ := kseq_facts p im t h1
    rw [kwalk]
    simp only [hb]
    by_cases hlt : t + 1 < vol im p
    · simp only [hlt, decide_true, if_true]
      obtain ⟨k', h3, h4⟩ := ih (t + 1) (sum + summand p d jm (kseq p im (t + 1)).km oi (kseq p im (t + 1)).ok (kseq p im (t + 1)).bz) hlt (by omega)
      refine ⟨k', ?_, h4⟩
      rw [Finset.sum_eq_sum_Ico_succ_bot hlt, ← add_assoc]
      exact h3
    · simp only [hlt, decide_false]
      obtain ⟨g1, _, g3, _, _, g6⟩ := bump_spec im p _ hk.le (by rw [hk.ok])
      have hb' : (bump im p (kseq p im t)).2 = false := by rw [hb]; simpa using hlt
      have hz : (bump im p (kseq p im t)).1.km = fun _ => 0 := by
        funext l
        by_cases hl : l < p
        · exact (g6 hb').1 l hl
        · rw [g1 l (by omega), hk.out l (by omega)]
      refine ⟨_, ?_, hz, ?_⟩
      · rw [Finset.Ico_eq_empty (by omega)]; simp
      · rw [hz, hk.ok] at g3
        simpa using g3

theorem dbinomi_eq (a : ℚ) (b : Nat) : dbinomi a b = dbin a b := by
  induction b with
  | zero => rfl
  | succ b ih =>
    unfold dbinomi at ih ⊢
    rw [List.range'_1_concat, List.foldl_append, ih]
    simp only [List.foldl_cons, List.foldl_nil, dbin]
    rw [show 1 + b = b + 1 by omega]

theorem summand_eq {p d : Nat} {jm im : Nat → Nat} {k : KS} (hk : KInv p im k) :
    summand p d jm k.km (∑ l ∈ Finset.range p, im l) k.ok k.bz = term d (res p im) (res p jm) (res p k.km) := by
  have e1 : ∀ (n : Nat) (q r : ℚ), (List.range n).foldl (fun (r : ℚ) _ => r * q) r = r * q ^ n := by
    intro n q r
    induction n with
    | zero => simp
    | succ n ih => rw [List.range_succ, List.foldl_append, ih]; simp [pow_succ]; ring
  have e2 : ∀ (n : Nat) (g : Nat → ℚ) (r : ℚ), (List.range n).foldl (fun (r : ℚ) i => r * g i) r = r * ∏ i ∈ Finset.range n, g i := by
    intro n g r
    induction n with
    | zero => simp
    | succ n ih => rw [List.range_succ, List.foldl_append, ih, Finset.prod_range_succ]; simp; ring
  unfold summand term W
  simp only
  rw [e1, e2, hk.bz, prodC, Finset.prod_range, Finset.prod_range]
  have s1 : ∑ l, res p im l = ∑ l ∈ Finset.range p, im l := (Finset.sum_range _).symm
  have s2 : ∑ l, res p k.km l = k.ok := by rw [hk.ok]; exact (Finset.sum_range _).symm
  rw [s1, s2]
  simp only [dbinomi_eq, res]
  have s3 : (if ((∑ l ∈ Finset.range p, im l) + k.ok) % 2 = 1 then 1 * ((k.ok : ℚ) / d) ^ (∑ l ∈ Finset.range p, im l) * -1
      else 1 * ((k.ok : ℚ) / d) ^ (∑ l ∈ Finset.range p, im l)) =
      (-1) ^ (∑ l ∈ Finset.range p, im l + k.ok) * ((k.ok : ℚ) / d) ^ (∑ l ∈ Finset.range p, im l) := by
    split
    · next h => rw [Odd.neg_one_pow (Nat.odd_iff.mpr h)]; ring
    · next h => rw [Even.neg_one_pow (Nat.even_iff.mpr (by omega))]
  rw [s3]
  ring

theorem kr_inj {im k k' : Nat → Nat} {n : Nat} (h : ∀ l, l < n → k l ≤ im l) (h' : ∀ l, l < n → k' l ≤ im l) (he : kr im n k = kr im n k') :
    ∀ l, l < n → k l = k' l := by
  induction n with
  | zero => intro l hl; omega
  | succ n ih =>
    rw [kr, kr] at he
    have a1 := h n (by omega)
    have a2 := h' n (by omega)
    have b1 : kr im n k = kr im n k' := by
      have h1 := congrArg (· / (im n + 1)) he
      simp only [Nat.mul_comm _ (im n + 1), Nat.mul_add_div (Nat.succ_pos _)] at h1
      rw [Nat.div_eq_of_lt (show k n < im n + 1 by omega), Nat.div_eq_of_lt (show k' n < im n + 1 by omega)] at h1
      simpa using h1
    rw [b1] at he
    intro l hl
    rcases Nat.lt_succ_iff_lt_or_eq.mp hl with h3 | rfl
    · exact ih (fun l hl => h l (by omega)) (fun l hl => h' l (by omega)) b1 l h3
    · omega

theorem card_box (p : Nat) (im : Nat → Nat) : (box (res p im)).card = vol im p := by
  rw [box, Fintype.card_piFinset, vol, Finset.prod_range]
  exact Finset.prod_congr rfl fun l _ => by simp [res]

theorem kseq_image (p : Nat) (im : Nat → Nat) : (Finset.range (vol im p)).image (fun t => res p (kseq p im t).km) = box (res p im) := by
  refine Finset.eq_of_subset_of_card_le ?_ ?_
  · intro j hj
    obtain ⟨t, ht, rfl⟩ := Finset.mem_image.mp hj
    rw [mem_box]
    intro l
    exact (kseq_facts p im t (Finset.mem_range.mp ht)).1.le l l.2
  · rw [card_box, Finset.card_image_of_injOn, Finset.card_range]
    intro t ht t' ht' h
    rw [← (kseq_facts p im t (Finset.mem_range.mp ht)).2.1, ← (kseq_facts p im t' (Finset.mem_range.mp ht')).2.1]
    exact kr_congr fun l hl => congrFun h ⟨l, hl⟩

theorem ksum_eq {p d : Nat} {jm im : Nat → Nat} :
    ∑ i ∈ Finset.Ico 1 (vol im p), summand p d jm (kseq p im i).km (∑ l ∈ Finset.range p, im l) (kseq p im i).ok (kseq p im i).bz =
      cOf d (res p im) (res p jm) := by
  have h1 : ∀ i ∈ Finset.Ico 1 (vol im p), summand p d jm (kseq p im i).km (∑ l ∈ Finset.range p, im l) (kseq p im i).ok (kseq p im i).bz =
      term d (res p im) (res p jm) (res p (kseq p im i).km) := by
    intro i hi
    exact summand_eq (kseq_facts p im i (Finset.mem_Ico.mp hi).2).1
  rw [Finset.sum_congr rfl h1, cOf]
  have inj : ∀ t, t < vol im p → ∀ t', t' < vol im p → res p (kseq p im t).km = res p (kseq p im t').km → t = t' := by
    intro t ht t' ht' h
    rw [← (kseq_facts p im t ht).2.1, ← (kseq_facts p im t' ht').2.1]
    exact kr_congr fun l hl => congrFun h ⟨l, hl⟩
  have hpos : 0 < vol im p := Finset.prod_pos fun _ _ => Nat.succ_pos _
  have h2 : (box (res p im)).erase 0 = (Finset.Ico 1 (vol im p)).image fun t => res p (kseq p im t).km := by
    rw [← kseq_image]
    ext j
    simp only [Finset.mem_erase, Finset.mem_image, Finset.mem_range, Finset.mem_Ico]
    constructor
    · rintro ⟨h0, t, ht, rfl⟩
      refine ⟨t, ⟨?_, ht⟩, rfl⟩
      rcases Nat.eq_zero_or_pos t with rfl | h
      · exact absurd rfl h0
      · exact h
    · rintro ⟨t, ⟨h1, ht⟩, rfl⟩
      refine ⟨fun h0 => ?_, t, ht, rfl⟩
      have := inj t ht 0 hpos (by rw [h0]; rfl)
      omega
  rw [h2, Finset.sum_image]
  intro t ht t' ht' h
  exact inj t (Finset.mem_Ico.mp ht).2 t' (Finset.mem_Ico.mp ht').2 h

theorem dbin_zero (b : Nat) (hb : 0 < b) : dbin 0 b = 0 := by
  obtain ⟨b, rfl⟩ : ∃ c, b = c + 1 := ⟨b - 1, by omega⟩
  have := dbin_absorb 0 b
  rw [zero_mul] at this
  have h : ((b : ℚ) + 1) ≠ 0 := by positivity
  exact (mul_eq_zero.mp this).resolve_left h

/-- The multi-indices the code does not try have coefficient 0. -/
theorem cOf_zero {p d : Nat} {i j : Fin p → Nat} (l : Fin p) (hj : 0 < j l) (hi : i l = 0) : cOf d i j = 0 := by
  refine Finset.sum_eq_zero fun k hk => ?_
  have hk0 : k l = 0 := by
    have := (mem_box.mp (Finset.mem_of_mem_erase hk)) l
    omega
  unfold term
  have hW : W (fun l => (d : ℚ) * (k l : ℚ) / (∑ l, k l : ℕ)) j = 0 := by
    refine Finset.prod_eq_zero (Finset.mem_univ l) ?_
    simp only [hk0]
    simpa using dbin_zero (j l) hj
  rw [hW, mul_zero]

/-- For every direction some coefficient is not 0. -/
theorem cOf_exists {p d : Nat} (hd : 0 < d) (j : Fin p → Nat) (hj : j ∈ A p d) : ∃ i ∈ A p d, cOf d i j ≠ 0 := by
  by_contra hc
  push Not at hc
  let C : Matrix (A p d) (A p d) ℚ := fun i j => cOf d i.1 j.1
  let M : Matrix (A p d) (A p d) ℚ := fun j a => ∏ l, (j.1 l : ℚ) ^ a.1 l
  have h1 : C * M = Matrix.diagonal fun i => ∏ l, ((i.1 l).factorial : ℚ) := by
    ext i a
    have hi := mem_A.mp i.2
    have ha := mem_A.mp a.2
    rw [Matrix.mul_apply, Matrix.diagonal_apply]
    have := cOf_monomial hd i.1 a.1 (by omega) (by omega) (by omega)
    rw [← Finset.sum_coe_sort] at this
    rw [show ∑ x, C i x * M x a = ∑ x : A p d, cOf d i.1 x.1 * ∏ l, ((x.1 l : ℕ) : ℚ) ^ a.1 l from rfl, this]
    by_cases h : i = a
    · subst h; simp
    · rw [if_neg h, if_neg (fun h' => h (Subtype.ext h'.symm))]
  have h2 := congrArg Matrix.det h1
  rw [Matrix.det_mul, Matrix.det_diagonal, Matrix.det_eq_zero_of_column_eq_zero ⟨j, hj⟩ (fun i => hc i.1 i.2), zero_mul] at h2
  refine absurd h2.symm (Finset.prod_ne_zero_iff.mpr fun i _ => Finset.prod_ne_zero_iff.mpr fun l _ => ?_)
  have := Nat.factorial_pos (i.1 l)
  positivity

/-! ### Addresses -/

/-- The descending index list of a multi-index, built as `address` goes. -/
def desc (im : Nat → Nat) (z : Nat) : Nat → List Nat
  | 0 => List.replicate z 0
  | u + 1 => List.replicate (im u) (u + 1) ++ desc im z u

theorem desc_length (im : Nat → Nat) (z p : Nat) : (desc im z p).length = z + ∑ l ∈ Finset.range p, im l := by
  induction p with
  | zero => simp [desc]
  | succ p ih => rw [desc, List.length_append, ih, Finset.sum_range_succ]; simp; omega

theorem desc_le (im : Nat → Nat) (z p : Nat) : ∀ v ∈ desc im z p, v ≤ p := by
  induction p with
  | zero => intro v hv; have := List.eq_of_mem_replicate hv; omega
  | succ p ih =>
    intro v hv
    rcases List.mem_append.mp hv with h | h
    · have := List.eq_of_mem_replicate h; omega
    · have := ih v h; omega

theorem desc_sorted (im : Nat → Nat) (z p : Nat) : (desc im z p).Pairwise (· ≥ ·) := by
  induction p with
  | zero => exact List.pairwise_replicate.mpr (Or.inr le_rfl)
  | succ p ih =>
    rw [desc, List.pairwise_append]
    refine ⟨List.pairwise_replicate.mpr (Or.inr le_rfl), ih, fun a ha b hb => ?_⟩
    have h1 := List.eq_of_mem_replicate ha
    have h2 := desc_le im z p b hb
    show b ≤ a
    omega

theorem desc_count (im : Nat → Nat) (z p v : Nat) : (desc im z p).count (v + 1) = if v < p then im v else 0 := by
  induction p with
  | zero => simp [desc, List.count_replicate]
  | succ p ih =>
    rw [desc, List.count_append, ih, List.count_replicate]
    by_cases h : v = p
    · subst h; simp
    · have : ¬ (p + 1 = v + 1) := by omega
      simp only [beq_iff_eq, this, if_false]
      split_ifs <;> omega

theorem sum_choose (u j n : Nat) : ((j + n : Nat) : Int) * ((u + j + n).choose (j + n) : Int) - ((u + j).choose j : Int) * (j : Int) =
    (1 + (u : Int)) * ∑ k ∈ Finset.range n, ((u + j + k).choose (j + k) : Int) := by
  induction n with
  | zero => simp; ring
  | succ n ih =>
    rw [Finset.sum_range_succ, mul_add, ← ih]
    have h := Nat.add_one_mul_choose_eq (u + j + n) (j + n)
    have h' : (((u + j + n) : Nat) + 1 : Int) * ((u + j + n).choose (j + n) : Int) =
        ((u + j + n + 1).choose (j + n + 1) : Int) * (((j + n) : Nat) + 1 : Int) := by exact_mod_cast h
    rw [show u + j + (n + 1) = u + j + n + 1 by omega, show j + (n + 1) = j + n + 1 by omega]
    push_cast at h' ⊢
    linear_combination -h'

theorem rank_replicate (u n : Nat) (L : List Nat) : (Tensor.rank (List.replicate n (u + 1) ++ L) : Int) =
    Tensor.rank L + ∑ k ∈ Finset.range n, ((u + (L.length + 1) + k).choose (L.length + 1 + k) : Int) := by
  induction n with
  | zero => simp
  | succ n ih =>
    rw [List.replicate_succ, List.cons_append, Tensor.rank, Finset.sum_range_succ, ← add_assoc, ← ih]
    push_cast
    rw [add_comm]
    congr 3
    · simp; omega
    · simp; omega

theorem address_rank {p d : Nat} {im : Nat → Nat} {oi : Nat} : address p d im oi = Tensor.rank (desc im (d - oi) p) := by
  have key : ∀ q, (List.range q).foldl (fun (s : Int × Nat) (u : Nat) =>
      if im u ≠ 0 then
        let j := s.2
        let i := u + j
        let n := im u
        (s.1 + Int.tdiv (((j + n : Nat) : Int) * Tensor.binomi (i + n) (j + n) - Tensor.binomi i j * (j : Int)) (1 + (i : Int) - (j : Int)), j + n)
      else s) ((0 : Int), d - oi + 1) = ((Tensor.rank (desc im (d - oi) q) : Int), (desc im (d - oi) q).length + 1) := by
    intro q
    induction q with
    | zero =>
      have : ∀ z, Tensor.rank (List.replicate z 0) = 0 := by
        intro z; induction z with
        | zero => rfl
        | succ z ih => rw [List.replicate_succ, Tensor.rank, ih]; simp
      simp [desc, this]
    | succ q ih =>
      rw [List.range_succ, List.foldl_append, ih]
      simp only [List.foldl_cons, List.foldl_nil]
      by_cases h0 : im q = 0
      · simp [h0, desc]
      · rw [if_pos h0]
        have e : (1 + ((q + ((desc im (d - oi) q).length + 1) : Nat) : Int) - (((desc im (d - oi) q).length + 1 : Nat) : Int)) = 1 + (q : Int) := by
          push_cast; ring
        rw [e, Tensor.binomi_eq, Tensor.binomi_eq, sum_choose, Int.mul_tdiv_cancel_left _ (by omega), desc, rank_replicate]
        simp; omega
  unfold address
  rw [key]
  simp

/-- Different multi-indices have different addresses. -/
theorem address_inj {p d : Nat} {im im' : Nat → Nat} {o o' : Nat} (h : Comp p o im) (h' : Comp p o' im') (ho : o ≤ d) (ho' : o' ≤ d)
    (he : address p d im o = address p d im' o') : res p im = res p im' := by
  rw [address_rank, address_rank] at he
  have := Tensor.rank_inj (desc_sorted im (d - o) p) (desc_sorted im' (d - o') p) (by
    rw [desc_length, desc_length, h.sum, h'.sum]; omega) he
  funext l
  have hc := congrArg (List.count ((l : Nat) + 1)) this
  rw [desc_count, desc_count, if_pos l.2, if_pos l.2] at hc
  exact hc

theorem address_lt {p d : Nat} {im : Nat → Nat} {o : Nat} (h : Comp p o im) (ho : o ≤ d) : address p d im o < (p + d).choose d := by
  rw [address_rank]
  have := Tensor.rank_lt (desc_sorted im (d - o) p) (desc_le im (d - o) p)
  rwa [desc_length, h.sum, show d - o + o = d by omega] at this

/-- The address is the one `tensor_address` computes. -/
theorem address_multi {p d : Nat} {im : Nat → Nat} {o : Nat} (h : Comp p o im) (ho : o ≤ d) {multi : List Nat} (hn : Tensor.NzDesc multi)
    (hl : multi.length = d) (hp : ∀ v ∈ multi, v ≤ p) (hc : ∀ v, v < p → multi.count (v + 1) = im v) :
    Tensor.tensorAddress multi = address p d im o := by
  have hz : (desc im (d - o) p).length = d := by rw [desc_length, h.sum]; omega
  rw [address_rank, ← Tensor.address_rank (desc_sorted im (d - o) p), Tensor.address_rk hn, Tensor.address_rk (Tensor.desc_nz (desc_sorted im (d - o) p)),
    ← Tensor.rk_filter, ← Tensor.rk_filter _ (desc im (d - o) p), hl, hz]
  congr 2
  refine List.Perm.eq_of_pairwise (fun a b _ _ h1 h2 => le_antisymm h2 h1) hn (Tensor.desc_nz (desc_sorted im (d - o) p)) ?_
  rw [List.perm_iff_count]
  intro v
  cases v with
  | zero =>
    rw [List.count_eq_zero_of_not_mem, List.count_eq_zero_of_not_mem] <;> simp
  | succ v =>
    rw [List.count_filter (by simp), List.count_filter (by simp), desc_count]
    split
    · next hv => exact hc v hv
    · next hv =>
      refine List.count_eq_zero_of_not_mem fun hm => ?_
      have := hp _ hm
      omega

/-! ### The table -/

/-- What the loop over `im` appends for the `t`-th multi-index of order `oi`. -/
def itemOf (p d : Nat) (jm : Nat → Nat) (oi : Nat) (im : Nat → Nat) : List Item :=
  if cOf d (res p im) (res p jm) ≠ 0 then [⟨address p d im oi, oi, cOf d (res p im) (res p jm)⟩] else []

/-- The list of direction `jm`. -/
def itemsOf (p d : Nat) (jm : Nat → Nat) : List Item :=
  (List.range' 1 d).flatMap fun oi => (List.range (num p oi)).flatMap fun t => itemOf p d jm oi (seqM p oi t)

theorem imBody_eq {p d : Nat} {jm im : Nat → Nat} {oi : Nat} (hc : Comp p oi im) (ho : oi ≤ d) (L : List Item) :
    imBody p d jm oi im (fun _ => 0, 0, L) = .ok (fun _ => 0, 0, L ++ itemOf p d jm oi im) := by
  unfold imBody itemOf
  by_cases hv : ∀ i ∈ List.range p, ¬ (jm i > 0 ∧ im i = 0)
  · rw [if_pos hv]
    have hvol : vol im p ≤ (d + 1) ^ p := by
      have : ∀ l ∈ Finset.range p, im l + 1 ≤ d + 1 := by
        intro l hl
        have := Finset.single_le_sum (f := im) (fun _ _ => Nat.zero_le _) hl
        rw [hc.sum] at this
        omega
      calc vol im p ≤ ∏ l ∈ Finset.range p, (d + 1) := Finset.prod_le_prod' this
        _ = _ := by simp
    have hpos : 0 < vol im p := Finset.prod_pos fun _ _ => Nat.succ_pos _
    obtain ⟨k', h1, h2, h3⟩ := kwalk_eq p d jm im oi ((d + 1) ^ p) 0 0 hpos (by omega)
    rw [show (⟨fun _ => 0, 0, 1⟩ : KS) = kseq p im 0 from rfl, h1]
    simp only [bind, Except.bind, h2, h3, zero_add]
    rw [← hc.sum, ksum_eq, hc.sum]
    split <;> simp_all
  · rw [if_neg hv]
    push Not at hv
    obtain ⟨l, hl, h1, h2⟩ := hv
    have hl := List.mem_range.mp hl
    have := cOf_zero (d := d) (i := res p im) (j := res p jm) ⟨l, hl⟩ h1 h2
    simp [bind, Except.bind, this]

theorem foldlM_append {α σ : Type} {f : σ → α → Except Err σ} {g : α → List Item} {mk : List Item → σ}
    (L : List α) (h : ∀ a ∈ L, ∀ I, f (mk I) a = .ok (mk (I ++ g a))) (I : List Item) :
    L.foldlM f (mk I) = .ok (mk (I ++ L.flatMap g)) := by
  induction L generalizing I with
  | nil => simp [pure, Except.pure]
  | cons a L ih =>
    rw [List.foldlM_cons, h a (by simp)]
    simp only [bind, Except.bind]
    rw [ih (fun b hb => h b (by simp [hb]))]
    simp

/-- `im` between two orders: only the first and the last entry may be nonzero. -/
def Rest (p : Nat) (im : Nat → Nat) : Prop := ∀ o, put (put im (p - 1) 0) 0 o = first o

theorem last_rest {p o : Nat} (hp : 1 ≤ p) : Rest p (seqM p o (num p o - 1)) := by
  have hpos := num_pos (o := o) hp
  obtain ⟨h1, _, h3, _⟩ := seq_facts (o := o) hp (num p o - 1) (by omega)
  have hl := h3.mpr (by omega)
  intro o'
  funext l
  simp only [put_apply, first]
  split_ifs with h4 h5
  · rfl
  · rfl
  · rcases hl with hl | hl
    · by_cases hlp : l < p - 1
      · have hs := h1.sum
        have hsp := Finset.sum_range_succ (fun i => seqM p o (num p o - 1) i) (p - 1)
        rw [show p - 1 + 1 = p by omega, hs] at hsp
        have : seqM p o (num p o - 1) (p - 1) = o := hl
        have h0 : ∑ i ∈ Finset.range (p - 1), seqM p o (num p o - 1) i = 0 := by omega
        exact (Finset.sum_eq_zero_iff.mp h0) l (Finset.mem_range.mpr hlp)
      · exact h1.out l (by omega)
    · exact h1.out l (by omega)

theorem jmBody_eq {p d : Nat} (hp : 1 ≤ p) (hd : 1 ≤ d) {jm : Nat → Nat} (hj : Comp p d jm) {im : Nat → Nat} (hr : Rest p im)
    (T : List (List Item)) :
    ∃ im', Rest p im' ∧ jmBody p d jm (im, fun _ => 0, 0, T) = .ok (im', fun _ => 0, 0, T ++ [itemsOf p d jm]) := by
  have key : ∀ (n s : Nat) (im : Nat → Nat) (I : List Item), Rest p im → s + n ≤ d + 1 → ∃ im', Rest p im' ∧
      (List.range' s n).foldlM (fun (s : (Nat → Nat) × (Nat → Nat) × Nat × List Item) oi => do
        let im := put (put s.1 (p - 1) 0) 0 oi
        let (im, q) ← walk p oi (imBody p d jm oi) ((p + oi - 1).choose oi) im s.2
        .ok (im, q)) (im, fun _ => 0, 0, I) =
      .ok (im', fun _ => 0, 0, I ++ (List.range' s n).flatMap fun oi => (List.range (num p oi)).flatMap fun t => itemOf p d jm oi (seqM p oi t)) := by
    intro n
    induction n with
    | zero => intro s im I hr _; exact ⟨im, hr, by simp [pure, Except.pure]⟩
    | succ n ih =>
      intro s im I hr hs
      have h1 := walk_eq (o := s) hp (imBody p d jm s) (num p s) 0 (fun _ => 0, 0, I) (by omega) (num_pos hp)
      have h2 := foldlM_append (σ := (Nat → Nat) × Nat × List Item) (f := fun q t => imBody p d jm s (seqM p s t) q) (g := fun t => itemOf p d jm s (seqM p s t))
        (mk := fun I => (fun _ => 0, 0, I)) (List.range' 0 (num p s)) (fun t ht I => by
          have ht : t < num p s := by simpa using ht
          exact imBody_eq (seq_facts hp t ht).1 (by omega) I) I
      rw [h2] at h1
      obtain ⟨im', h3, h4⟩ := ih (s + 1) (seqM p s (num p s - 1)) (I ++ (List.range' 0 (num p s)).flatMap fun t => itemOf p d jm s (seqM p s t))
        (last_rest hp) (by omega)
      refine ⟨im', h3, ?_⟩
      rw [List.range'_succ, List.foldlM_cons]
      simp only [hr s]
      rw [show first s = seqM p s 0 from rfl, show (p + s - 1).choose s = num p s from rfl, h1]
      simp only [bind, Except.bind, Except.map]
      simp only [bind, Except.bind] at h4
      rw [h4]
      simp [List.range_eq_range']
  obtain ⟨im', h1, h2⟩ := key d 1 im [] hr (by omega)
  refine ⟨im', h1, ?_⟩
  unfold jmBody
  rw [h2]
  simp only [bind, Except.bind, List.nil_append]
  rw [if_neg]
  · rfl
  · obtain ⟨i, hi, hne⟩ := cOf_exists (p := p) (by omega) (res p jm) (res_mem hj)
    rw [← seq_image hp] at hi
    obtain ⟨t, ht, rfl⟩ := Finset.mem_image.mp hi
    have ht := Finset.mem_range.mp ht
    intro hnil
    have : itemOf p d jm d (seqM p d t) = [] := by
      have h3 := List.flatMap_eq_nil_iff.mp hnil d (by simp; omega)
      exact List.flatMap_eq_nil_iff.mp h3 t (by simpa using ht)
    unfold itemOf at this
    rw [if_pos hne] at this
    cases this

/-- `coeff` succeeds and returns the interpolation coefficients. -/
theorem coeff_eq {p d : Nat} (hp : 1 ≤ p) (hd : 1 ≤ d) :
    coeff p d = .ok ((List.range (num p d)).map fun t => itemsOf p d (seqM p d t)) := by
  unfold coeff
  have hn : (Tensor.binomi (p + d - 1) d).toNat = num p d := by rw [Tensor.binomi_eq]; simp [num]
  rw [hn, show put (fun _ => 0) 0 d = seqM p d 0 from rfl, walk_eq hp _ (num p d) 0 _ (by omega) (num_pos hp)]
  have key : ∀ n, n ≤ num p d → ∃ im', Rest p im' ∧ (List.range n).foldlM (fun s t => jmBody p d (seqM p d t) s) (fun _ => 0, fun _ => 0, 0, []) =
      .ok (im', fun _ => 0, 0, (List.range n).map fun t => itemsOf p d (seqM p d t)) := by
    intro n
    induction n with
    | zero => intro _; exact ⟨fun _ => 0, fun o => by funext l; simp [put_apply, first], by simp [pure, Except.pure]⟩
    | succ n ih =>
      intro hn
      obtain ⟨im', h1, h2⟩ := ih (by omega)
      obtain ⟨im'', h3, h4⟩ := jmBody_eq hp hd (seq_facts hp n (by omega)).1 h1 ((List.range n).map fun t => itemsOf p d (seqM p d t))
      refine ⟨im'', h3, ?_⟩
      rw [List.range_succ, List.foldlM_append, h2]
      simp only [bind, Except.bind, List.foldlM_cons, h4, List.foldlM_nil, pure, Except.pure]
      simp
  obtain ⟨im', h1, h2⟩ := key (num p d) le_rfl
  rw [← List.range_eq_range', h2]
  rfl

end Verif.Num.TensorCoef
