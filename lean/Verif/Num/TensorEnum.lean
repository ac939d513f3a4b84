import Verif.Num.TensorCoef
import Verif.Num.Simplex
import Mathlib.Data.Sym.Card
import Mathlib.Data.Nat.Choose.Sum

/-! # The enumeration of multi-indices in `coeff` -/
set_option linter.all false
namespace Verif.Num.TensorCoef
open Simplex

theorem put_apply (f : Nat → Nat) (k v i : Nat) : put f k v i = if i = k then v else f i := rfl

/-- A multi-index of order `o` in `p` directions. -/
structure Comp (p o : Nat) (m : Nat → Nat) : Prop where
  sum : ∑ i ∈ Finset.range p, m i = o
  out : ∀ i, p ≤ i → m i = 0

/-- Sum of the last `q + 1` entries. -/
def suf (p : Nat) (m : Nat → Nat) (q : Nat) : Nat := ∑ i ∈ Finset.range (q + 1), m (p - 1 - i)

/-- Position in the enumeration. -/
def crank (p : Nat) (m : Nat → Nat) : Nat := ∑ q ∈ Finset.range (p - 1), (suf p m q + q).choose (q + 1)

theorem hockey (e Q : Nat) : ∑ q ∈ Finset.range Q, (e + q).choose (q + 1) + 1 = (e + Q).choose Q := by
  induction Q with
  | zero => simp
  | succ Q ih =>
    rw [Finset.sum_range_succ, add_right_comm, ih, show e + (Q + 1) = e + Q + 1 by omega, Nat.choose_succ_succ]

theorem findNz_some {m : Nat → Nat} {i r : Nat} (h : findNz m i = some r) : r ≤ i ∧ m r ≠ 0 ∧ ∀ x, r < x → x ≤ i → m x = 0 := by
  induction i with
  | zero =>
    unfold findNz at h
    split at h
    · cases h
    · cases h; exact ⟨le_rfl, by assumption, fun x h1 h2 => by omega⟩
  | succ i ih =>
    unfold findNz at h
    split at h
    · next h0 =>
      obtain ⟨h1, h2, h3⟩ := ih h
      refine ⟨by omega, h2, fun x hx hx' => ?_⟩
      rcases Nat.eq_or_lt_of_le hx' with rfl | hlt
      · exact h0
      · exact h3 x hx (by omega)
    · cases h; exact ⟨le_rfl, by assumption, fun x h1 h2 => by omega⟩

theorem findNz_none {m : Nat → Nat} {i : Nat} (h : findNz m i = none) : ∀ x, x ≤ i → m x = 0 := by
  induction i with
  | zero =>
    unfold findNz at h
    split at h
    · intro x hx; obtain rfl : x = 0 := by omega
      assumption
    · cases h
  | succ i ih =>
    unfold findNz at h
    split at h
    · next h0 =>
      intro x hx
      rcases Nat.eq_or_lt_of_le hx with rfl | hlt
      · exact h0
      · exact ih h x (by omega)
    · cases h

/-- Explicit form of `next`. -/
theorem next_eq {p o : Nat} {m : Nat → Nat} (hp : 2 ≤ p) (hc : Comp p o m) (hl : m (p - 1) ≠ o) :
    ∃ r, r + 2 ≤ p ∧ m r ≠ 0 ∧ (∀ x, r < x → x + 1 < p → m x = 0) ∧
      next p m = .ok fun x => if x < r then m x else if x = r then m r - 1 else if x = r + 1 then m (p - 1) + 1 else 0 := by
  cases h : findNz m (p - 2) with
  | none =>
    exfalso
    apply hl
    have := findNz_none h
    have hs := hc.sum
    rw [show p = (p - 1) + 1 by omega, Finset.sum_range_succ, Finset.sum_eq_zero (fun i hi => this i (by
      have := Finset.mem_range.mp hi; omega))] at hs
    simpa using hs
  | some r =>
    obtain ⟨h1, h2, h3⟩ := findNz_some h
    refine ⟨r, by omega, h2, fun x hx hx' => h3 x hx (by omega), ?_⟩
    unfold next
    rw [h]
    simp only
    congr 1
    funext x
    have h4 := hc.out
    by_cases hr : r = p - 2
    · simp only [hr, ne_eq, not_true_eq_false, if_false, put_apply]
      split_ifs <;> first | rfl | omega | (subst_vars; omega) | skip
      all_goals first | (exfalso; omega) | (exact h4 x (by omega)) | (congr 1) | skip
    · simp only [hr, ne_eq, not_false_eq_true, if_true, put_apply]
      split_ifs <;> first | rfl | omega | (subst_vars; omega) | skip
      all_goals first | (exfalso; omega) | (exact h4 x (by omega)) | skip
      by_cases hx : x < p
      · exact h3 x (by omega) (by omega)
      · exact h4 x (by omega)

theorem suf_le {p o : Nat} {m : Nat → Nat} (hc : Comp p o m) {q : Nat} (hq : q < p) : suf p m q ≤ o := by
  rw [← hc.sum, suf, ← Finset.sum_range_reflect m p]
  exact Finset.sum_le_sum_of_subset (Finset.range_mono (show q + 1 ≤ p by omega))

theorem crank_le {p o : Nat} {m : Nat → Nat} (hp : 1 ≤ p) (hc : Comp p o m) : crank p m + 1 ≤ (o + (p - 1)).choose (p - 1) := by
  rw [← hockey]
  refine Nat.add_le_add_right (Finset.sum_le_sum fun q hq => ?_) 1
  have := Finset.mem_range.mp hq
  exact Nat.choose_le_choose _ (Nat.add_le_add_right (suf_le hc (by omega)) _)

theorem crank_lt {p o : Nat} {m : Nat → Nat} (hp : 2 ≤ p) (hc : Comp p o m) (hl : m (p - 1) ≠ o) :
    crank p m + 1 < (o + (p - 1)).choose (p - 1) := by
  rw [← hockey]
  refine Nat.add_lt_add_right (Finset.sum_lt_sum (fun q hq => ?_) ⟨0, Finset.mem_range.mpr (by omega), ?_⟩) 1
  · have := Finset.mem_range.mp hq
    exact Nat.choose_le_choose _ (Nat.add_le_add_right (suf_le hc (by omega)) _)
  · have := suf_le hc (q := 0) (by omega)
    simp only [suf, zero_add, Finset.sum_range_one, Nat.sub_zero, add_zero, Nat.choose_one_right] at this ⊢
    omega

theorem crank_last {p o : Nat} {m : Nat → Nat} (hp : 1 ≤ p) (hc : Comp p o m) (hl : m (p - 1) = o) :
    crank p m + 1 = (o + (p - 1)).choose (p - 1) := by
  rw [← hockey]
  congr 1
  refine Finset.sum_congr rfl fun q hq => ?_
  have hq := Finset.mem_range.mp hq
  congr 2
  refine le_antisymm (suf_le hc (by omega)) ?_
  rw [suf, Finset.sum_range_succ', ← hl]
  simp

theorem next_crank {p o : Nat} {m : Nat → Nat} (hp : 2 ≤ p) (hc : Comp p o m) (hl : m (p - 1) ≠ o) :
    ∃ m', next p m = .ok m' ∧ Comp p o m' ∧ crank p m' = crank p m + 1 := by
  obtain ⟨r, h1, h2, h3, h4⟩ := next_eq hp hc hl
  refine ⟨_, h4, ?_⟩
  set e := m (p - 1)
  set m' : Nat → Nat := fun x => if x < r then m x else if x = r then m r - 1 else if x = r + 1 then e + 1 else 0 with hm'
  obtain ⟨Q, hQ⟩ : ∃ Q, p = r + 2 + Q := ⟨p - r - 2, by omega⟩
  -- suffix sums
  have s1 : ∀ q, q < Q + 1 → suf p m q = e := by
    intro q hq
    rw [suf, Finset.sum_range_succ', Finset.sum_eq_zero (fun i hi => ?_)]
    · simp [e]
    · have := Finset.mem_range.mp hi
      exact h3 _ (by omega) (by omega)
  have s2 : ∀ q, q < Q → suf p m' q = 0 := by
    intro q hq
    refine Finset.sum_eq_zero fun i hi => ?_
    have := Finset.mem_range.mp hi
    simp only [hm']
    split_ifs <;> omega
  have s3 : suf p m' Q = e + 1 := by
    rw [suf, Finset.sum_range_succ, Finset.sum_eq_zero (fun i hi => ?_)]
    · simp only [hm']; split_ifs <;> omega
    · have := Finset.mem_range.mp hi
      simp only [hm']
      split_ifs <;> omega
  have s4 : ∀ q, Q + 1 ≤ q → q < p → suf p m' q = suf p m q := by
    intro q hq
    induction q, hq using Nat.le_induction with
    | base =>
      intro _
      have a1 : suf p m (Q + 1) = suf p m Q + m (p - 1 - (Q + 1)) := Finset.sum_range_succ _ _
      have a2 : suf p m' (Q + 1) = suf p m' Q + m' (p - 1 - (Q + 1)) := Finset.sum_range_succ _ _
      rw [a1, a2, s3, s1 Q (by omega), show p - 1 - (Q + 1) = r by omega]
      simp only [hm', lt_irrefl, if_false, if_true]
      omega
    | succ q hq ih =>
      intro hlt
      have a1 : suf p m (q + 1) = suf p m q + m (p - 1 - (q + 1)) := Finset.sum_range_succ _ _
      have a2 : suf p m' (q + 1) = suf p m' q + m' (p - 1 - (q + 1)) := Finset.sum_range_succ _ _
      rw [a1, a2, ih (by omega)]
      congr 1
      simp only [hm']
      rw [if_pos (by omega)]
  have tot : ∀ f : Nat → Nat, ∑ i ∈ Finset.range p, f i = suf p f (p - 1) := by
    intro f
    rw [suf, show p - 1 + 1 = p by omega, Finset.sum_range_reflect]
  refine ⟨⟨?_, ?_⟩, ?_⟩
  · rw [tot, s4 (p - 1) (by omega) (by omega), ← tot, hc.sum]
  · intro i hi
    simp only [hm']
    rw [if_neg (by omega), if_neg (by omega), if_neg (by omega)]
  · have split : ∀ f : Nat → Nat, crank p f = ∑ q ∈ Finset.range Q, (suf p f q + q).choose (q + 1) + (suf p f Q + Q).choose (Q + 1) +
        ∑ q ∈ Finset.range (p - 1 - (Q + 1)), (suf p f (Q + 1 + q) + (Q + 1 + q)).choose (Q + 1 + q + 1) := by
      intro f
      rw [crank, show p - 1 = (Q + 1) + (p - 1 - (Q + 1)) by omega, Finset.sum_range_add, Finset.sum_range_succ]
      simp
    rw [split, split]
    have b1 : ∑ q ∈ Finset.range (p - 1 - (Q + 1)), (suf p m' (Q + 1 + q) + (Q + 1 + q)).choose (Q + 1 + q + 1) =
        ∑ q ∈ Finset.range (p - 1 - (Q + 1)), (suf p m (Q + 1 + q) + (Q + 1 + q)).choose (Q + 1 + q + 1) := by
      refine Finset.sum_congr rfl fun q hq => ?_
      have := Finset.mem_range.mp hq
      rw [s4 _ (by omega) (by omega)]
    have b2 : ∑ q ∈ Finset.range Q, (suf p m' q + q).choose (q + 1) = 0 := by
      refine Finset.sum_eq_zero fun q hq => ?_
      rw [s2 q (Finset.mem_range.mp hq), zero_add]
      exact Nat.choose_eq_zero_of_lt (by omega)
    have b3 : ∑ q ∈ Finset.range Q, (suf p m q + q).choose (q + 1) = ∑ q ∈ Finset.range Q, (e + q).choose (q + 1) := by
      refine Finset.sum_congr rfl fun q hq => ?_
      rw [s1 q (by have := Finset.mem_range.mp hq; omega)]
    rw [b1, b2, b3, s3, s1 Q (by omega)]
    have := hockey e (Q + 1)
    rw [Finset.sum_range_succ] at this
    rw [show e + 1 + Q = e + (Q + 1) by omega]
    omega

/-- The sequence of multi-indices. -/
def nx (p : Nat) (m : Nat → Nat) : Nat → Nat := match next p m with | .ok m' => m' | .error _ => m

def first (o : Nat) : Nat → Nat := put (fun _ => 0) 0 o

def seqM (p o : Nat) : Nat → Nat → Nat
  | 0 => first o
  | t + 1 => nx p (seqM p o t)

/-- Number of multi-indices. -/
def num (p o : Nat) : Nat := (p + o - 1).choose o

theorem num_eq {p o : Nat} (hp : 1 ≤ p) : num p o = (o + (p - 1)).choose (p - 1) := by
  rw [num, show p + o - 1 = o + (p - 1) by omega, Nat.choose_symm_add]

theorem first_comp {p : Nat} (hp : 1 ≤ p) (o : Nat) : Comp p o (first o) := by
  refine ⟨?_, fun i hi => ?_⟩
  · rw [Finset.sum_eq_single 0]
    · simp [first, put]
    · intro b _ hb; simp [first, put, hb]
    · intro h; simp at h; omega
  · simp only [first, put_apply]; rw [if_neg (by omega)]

theorem first_crank {p : Nat} (o : Nat) : crank p (first o) = 0 := by
  refine Finset.sum_eq_zero fun q hq => ?_
  have hq := Finset.mem_range.mp hq
  have : suf p (first o) q = 0 := by
    refine Finset.sum_eq_zero fun i hi => ?_
    have := Finset.mem_range.mp hi
    simp only [first, put_apply]
    rw [if_neg (by omega)]
  rw [this, zero_add]
  exact Nat.choose_eq_zero_of_lt (by omega)

/-- `m[p-1] == o || p == 1` -/
def isLast (p o : Nat) (m : Nat → Nat) : Prop := m (p - 1) = o ∨ p = 1

theorem seq_facts {p o : Nat} (hp : 1 ≤ p) : ∀ t, t < num p o → Comp p o (seqM p o t) ∧ crank p (seqM p o t) = t ∧
    (isLast p o (seqM p o t) ↔ t + 1 = num p o) ∧ (t + 1 < num p o → next p (seqM p o t) = .ok (seqM p o (t + 1))) := by
  have fin : ∀ t m, Comp p o m → crank p m = t → t < num p o → (isLast p o m ↔ t + 1 = num p o) := by
    intro t m hc hr ht
    rw [num_eq hp] at ht ⊢
    by_cases h : m (p - 1) = o
    · have := crank_last hp hc h
      exact ⟨fun _ => by omega, fun _ => Or.inl h⟩
    · by_cases h1 : p = 1
      · subst h1
        simp only [Nat.sub_self, Nat.add_zero, Nat.choose_zero_right] at ht ⊢
        exact ⟨fun _ => by omega, fun _ => Or.inr rfl⟩
      · have := crank_lt (by omega) hc h
        constructor
        · rintro (h' | h') <;> contradiction
        · intro h'; omega
  have nxt : ∀ t m, Comp p o m → crank p m = t → t + 1 < num p o → ∃ m', next p m = .ok m' ∧ Comp p o m' ∧ crank p m' = t + 1 := by
    intro t m hc hr ht
    have hnl : ¬ isLast p o m := fun h => by have := (fin t m hc hr (by omega)).mp h; omega
    simp only [isLast, not_or] at hnl
    obtain ⟨m', h1, h2, h3⟩ := next_crank (by omega) hc hnl.1
    exact ⟨m', h1, h2, by rw [h3, hr]⟩
  have main : ∀ t, t < num p o → Comp p o (seqM p o t) ∧ crank p (seqM p o t) = t := by
    intro t
    induction t with
    | zero => intro _; exact ⟨first_comp hp o, first_crank o⟩
    | succ t ih =>
      intro ht
      obtain ⟨h1, h2⟩ := ih (by omega)
      obtain ⟨m', h3, h4, h5⟩ := nxt t _ h1 h2 ht
      have : seqM p o (t + 1) = m' := by simp only [seqM, nx, h3]
      rw [this]
      exact ⟨h4, h5⟩
  intro t ht
  obtain ⟨h1, h2⟩ := main t ht
  refine ⟨h1, h2, fin t _ h1 h2 ht, fun h => ?_⟩
  obtain ⟨m', h3, h4, h5⟩ := nxt t _ h1 h2 h
  have : seqM p o (t + 1) = m' := by simp only [seqM, nx, h3]
  rw [this]; exact h3

theorem num_pos {p o : Nat} (hp : 1 ≤ p) : 0 < num p o := Nat.choose_pos (by omega)

/-- The loops visit the sequence. -/
theorem walk_eq {σ : Type} {p o : Nat} (hp : 1 ≤ p) (body : (Nat → Nat) → σ → Except Err σ) :
    ∀ (f t : Nat) (s : σ), t + f = num p o → 0 < f →
      walk p o body f (seqM p o t) s =
        ((List.range' t f).foldlM (fun s t => body (seqM p o t) s) s).map fun s => (seqM p o (num p o - 1), s) := by
  intro f
  induction f with
  | zero => intro t s _ h; omega
  | succ f ih =>
    intro t s ht _
    obtain ⟨_, _, h3, h4⟩ := seq_facts (o := o) hp t (by omega)
    unfold isLast at h3
    rw [walk, List.range'_succ, List.foldlM_cons]
    cases hb : body (seqM p o t) s with
    | error e => rfl
    | ok s' =>
      simp only [bind, Except.bind]
      by_cases hf : f = 0
      · subst hf
        rw [if_pos (h3.mpr (by omega))]
        simp only [List.range'_zero, List.foldlM_nil, Except.map, pure, Except.pure]
        rw [show num p o - 1 = t by omega]
      · rw [if_neg (fun h => by have := h3.mp h; omega), h4 (by omega)]
        exact ih (t + 1) s' (by omega) (by omega)

/-- The entries of an array. -/
def res (p : Nat) (m : Nat → Nat) : Fin p → Nat := fun l => m l

theorem res_mem {p o : Nat} {m : Nat → Nat} (hc : Comp p o m) : res p m ∈ A p o := by
  rw [mem_A, ← hc.sum, Finset.sum_range]
  rfl

theorem card_A (p o : Nat) : (A p o).card = num p o := by
  rw [A, ← Finset.map_sym_eq_piAntidiag, Finset.card_map, Finset.sym_univ, Finset.card_univ, Sym.card_sym_eq_choose, Fintype.card_fin, num]

theorem suf_res {p : Nat} {m m' : Nat → Nat} (hp : 1 ≤ p) (h : res p m = res p m') {q : Nat} : suf p m q = suf p m' q := by
  refine Finset.sum_congr rfl fun i _ => ?_
  exact congrFun h ⟨p - 1 - i, by omega⟩

theorem seq_image {p o : Nat} (hp : 1 ≤ p) : (Finset.range (num p o)).image (fun t => res p (seqM p o t)) = A p o := by
  refine Finset.eq_of_subset_of_card_le ?_ ?_
  · intro j hj
    obtain ⟨t, ht, rfl⟩ := Finset.mem_image.mp hj
    exact res_mem (seq_facts hp t (Finset.mem_range.mp ht)).1
  · rw [card_A, Finset.card_image_of_injOn, Finset.card_range]
    intro t ht t' ht' h
    rw [← (seq_facts hp t (Finset.mem_range.mp ht)).2.1, ← (seq_facts hp t' (Finset.mem_range.mp ht')).2.1]
    refine Finset.sum_congr rfl fun q _ => ?_
    rw [suf_res hp h]

theorem seq_inj {p o : Nat} (hp : 1 ≤ p) {t t' : Nat} (ht : t < num p o) (ht' : t' < num p o) (h : res p (seqM p o t) = res p (seqM p o t')) :
    t = t' := by
  rw [← (seq_facts hp t ht).2.1, ← (seq_facts hp t' ht').2.1]
  refine Finset.sum_congr rfl fun q _ => ?_
  rw [suf_res hp h]

/-- Every multi-index is visited exactly once. -/
theorem seq_sum {M : Type} [AddCommMonoid M] {p o : Nat} (hp : 1 ≤ p) (f : (Fin p → Nat) → M) :
    ∑ t ∈ Finset.range (num p o), f (res p (seqM p o t)) = ∑ j ∈ A p o, f j := by
  rw [← seq_image hp, Finset.sum_image]
  intro t ht t' ht' h
  exact seq_inj hp (Finset.mem_range.mp ht) (Finset.mem_range.mp ht') h

end Verif.Num.TensorCoef
