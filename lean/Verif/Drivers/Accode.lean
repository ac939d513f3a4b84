import Verif.Drivers.Ode
import Mathlib.Algebra.BigOperators.Ring.Finset
import Mathlib.Algebra.BigOperators.Intervals
import Mathlib.Tactic.Ring
import Mathlib.Tactic.Linarith

/-! `accodec` computes the solution of the recurrence stated in its comment. -/
set_option linter.all false
namespace Verif.Drivers
open Finset

variable {K : Type} [Field K]

/-- The right-hand side of the recurrence for cell `(i, j)` of level `k`: `τ/(k+1) (A_k + ∑_{q<k} A_q B_{k-1-q})`. -/
def recur (n : Nat) (tau : K) (A B : Nat → Nat → Nat → K) (k i j : Nat) : K :=
  tau / (1 + (k : K)) * (A i j k + ∑ q ∈ range k, ∑ p ∈ range n, A i p q * B p j (k - 1 - q))

theorem recur_congr {n : Nat} {tau : K} {A B B' : Nat → Nat → Nat → K} {k i j : Nat}
    (h : ∀ a b c, c < k → B a b c = B' a b c) : recur n tau A B k i j = recur n tau A B' k i j := by
  unfold recur
  congr 2
  refine sum_congr rfl fun q hq => sum_congr rfl fun p hp => ?_
  have := mem_range.1 hq
  rw [h _ _ _ (by omega)]

theorem foldl_sum {α : Type} (L : List α) (f : α → K) (x : K) : L.foldl (fun s a => s + f a) x = x + (L.map f).sum := by
  induction L generalizing x with
  | nil => simp
  | cons a L ih => simp [ih, add_assoc]

theorem range_sum (n : Nat) (f : Nat → K) : ((List.range n).map f).sum = ∑ q ∈ range n, f q := by
  induction n with
  | zero => simp
  | succ n ih => rw [List.range_succ, List.map_append, List.sum_append, ih, sum_range_succ]; simp

theorem upd3_ne {B : Nat → Nat → Nat → K} {i j k a b c : Nat} {v : K} (h : ¬ (a = i ∧ b = j ∧ c = k)) : upd3 B i j k v a b c = B a b c := if_neg h
theorem upd3_eq {B : Nat → Nat → Nat → K} {i j k : Nat} {v : K} : upd3 B i j k v i j k = v := if_pos ⟨rfl, rfl, rfl⟩

theorem dense_fold {n : Nat} {tau : K} {A : Nat → Nat → Nat → K} {k i j : Nat} (B : Nat → Nat → Nat → K) (m : Nat) :
    ∃ B', (List.range m).foldl (fun (sb : K × (Nat → Nat → Nat → K)) p =>
        let sum := (List.range k).foldl (fun sum q => sum + A i p q * sb.2 p j (k - 1 - q)) sb.1
        (sum, upd3 sb.2 i j k (sum * (tau / (1 + (k : K)))))) (A i j k, B) =
      (A i j k + ∑ q ∈ range k, ∑ p ∈ range m, A i p q * B p j (k - 1 - q), B') ∧
      (∀ a b c, ¬ (a = i ∧ b = j ∧ c = k) → B' a b c = B a b c) ∧
      (0 < m → B' i j k = tau / (1 + (k : K)) * (A i j k + ∑ q ∈ range k, ∑ p ∈ range m, A i p q * B p j (k - 1 - q))) := by
  induction m with
  | zero => exact ⟨B, by simp, fun _ _ _ _ => rfl, fun h => by omega⟩
  | succ m ih =>
    obtain ⟨B', h1, h2, h3⟩ := ih
    rw [List.range_succ, List.foldl_append, h1]
    have e : (List.range k).foldl (fun sum q => sum + A i m q * B' m j (k - 1 - q))
        (A i j k + ∑ q ∈ range k, ∑ p ∈ range m, A i p q * B p j (k - 1 - q)) =
        A i j k + ∑ q ∈ range k, ∑ p ∈ range (m + 1), A i p q * B p j (k - 1 - q) := by
      rw [foldl_sum, range_sum]
      simp only [sum_range_succ, sum_add_distrib]
      rw [add_assoc]
      congr 2
      refine sum_congr rfl fun q hq => ?_
      have := mem_range.1 hq
      rw [h2 _ _ _ (by omega)]
    refine ⟨upd3 B' i j k ((A i j k + ∑ q ∈ range k, ∑ p ∈ range (m + 1), A i p q * B p j (k - 1 - q)) * (tau / (1 + (k : K)))),
      by simp only [List.foldl_cons, List.foldl_nil, e], fun a b c h => ?_, fun _ => ?_⟩
    · rw [upd3_ne h, h2 _ _ _ h]
    · rw [upd3_eq, mul_comm]

/-- What a body that writes only cell `(i, j)` of level `k` does in the two inner loops. -/
theorem cells {n k : Nat} {f : Nat → Nat → (Nat → Nat → Nat → K) → Nat → Nat → Nat → K} {val : Nat → Nat → K} {B0 : Nat → Nat → Nat → K}
    (hf : ∀ i < n, ∀ j < n, ∀ B, (∀ a b c, c ≠ k → B a b c = B0 a b c) →
      (∀ a b c, ¬ (a = i ∧ b = j ∧ c = k) → f i j B a b c = B a b c) ∧ f i j B i j k = val i j) :
    (∀ a b c, c ≠ k → (List.range n).foldl (fun B i => (List.range n).foldl (fun B j => f i j B) B) B0 a b c = B0 a b c) ∧
    ∀ i < n, ∀ j < n, (List.range n).foldl (fun B i => (List.range n).foldl (fun B j => f i j B) B) B0 i j k = val i j := by
  have inner : ∀ i < n, ∀ m ≤ n, ∀ B, (∀ a b c, c ≠ k → B a b c = B0 a b c) →
      (∀ a b c, ¬ (a = i ∧ c = k) → (List.range m).foldl (fun B j => f i j B) B a b c = B a b c) ∧
      ∀ j < m, (List.range m).foldl (fun B j => f i j B) B i j k = val i j := by
    intro i hi m
    induction m with
    | zero => exact fun _ B hB => ⟨fun _ _ _ _ => rfl, fun j hj => by omega⟩
    | succ m ih =>
      intro hm B hB
      obtain ⟨h1, h2⟩ := ih (by omega) B hB
      rw [List.range_succ, List.foldl_append]
      simp only [List.foldl_cons, List.foldl_nil]
      obtain ⟨g1, g2⟩ := hf i hi m (by omega) _ (fun a b c hc => (h1 a b c (by tauto)).trans (hB a b c hc))
      refine ⟨fun a b c h => by rw [g1 a b c (by tauto), h1 a b c h], fun j hj => ?_⟩
      by_cases hjm : j = m
      · rw [hjm]; exact g2
      · rw [g1 i j k (by omega)]; exact h2 j (by omega)
  have outer : ∀ m ≤ n, (∀ a b c, c ≠ k → (List.range m).foldl (fun B i => (List.range n).foldl (fun B j => f i j B) B) B0 a b c = B0 a b c) ∧
      ∀ i < m, ∀ j < n, (List.range m).foldl (fun B i => (List.range n).foldl (fun B j => f i j B) B) B0 i j k = val i j := by
    intro m
    induction m with
    | zero => exact fun _ => ⟨fun _ _ _ _ => rfl, fun i hi => by omega⟩
    | succ m ih =>
      intro hm
      obtain ⟨h1, h2⟩ := ih (by omega)
      rw [List.range_succ, List.foldl_append]
      simp only [List.foldl_cons, List.foldl_nil]
      obtain ⟨g1, g2⟩ := inner m (by omega) n (le_refl _) _ h1
      refine ⟨fun a b c h => by rw [g1 a b c (by tauto), h1 a b c h], fun i hi j hj => ?_⟩
      by_cases him : i = m
      · rw [him]; exact g2 j hj
      · rw [g1 i j k (by omega)]; exact h2 i (by omega) j hj
  exact outer n (le_refl _)

/-- Without pattern, into a different array. -/
theorem accDense_recur (n : Nat) (tau : K) (deg : Nat) (A B0 : Nat → Nat → Nat → K) :
    ∀ k ≤ deg, ∀ i < n, ∀ j < n, accDense n tau deg (fun _ => A) B0 i j k = recur n tau A (accDense n tau deg (fun _ => A) B0) k i j := by
  have key : ∀ d, ∀ k < d, ∀ i < n, ∀ j < n,
      (List.range d).foldl (fun B k => (List.range n).foldl (fun B i => (List.range n).foldl (fun B j =>
        denseCell n tau (fun _ => A) k i j B) B) B) B0 i j k =
      recur n tau A ((List.range d).foldl (fun B k => (List.range n).foldl (fun B i => (List.range n).foldl (fun B j =>
        denseCell n tau (fun _ => A) k i j B) B) B) B0) k i j := by
    intro d
    induction d with
    | zero => exact fun k hk => by omega
    | succ d ih =>
      intro k hk i hi j hj
      rw [List.range_succ, List.foldl_append]
      simp only [List.foldl_cons, List.foldl_nil]
      set B1 := (List.range d).foldl (fun B k => (List.range n).foldl (fun B i => (List.range n).foldl (fun B j =>
        denseCell n tau (fun _ => A) k i j B) B) B) B0
      obtain ⟨h1, h2⟩ := cells (n := n) (k := d) (f := fun i j B => denseCell n tau (fun _ => A) d i j B) (val := fun i j => recur n tau A B1 d i j) (B0 := B1) (by
        intro i hi j hj B hB
        obtain ⟨B', e1, e2, e3⟩ := dense_fold (n := n) (tau := tau) (A := A) (k := d) (i := i) (j := j) B n
        have : denseCell n tau (fun _ => A) d i j B = B' := by
          unfold denseCell; exact congrArg Prod.snd e1
        rw [this]
        refine ⟨e2, (e3 (by omega)).trans ?_⟩
        exact recur_congr (n := n) (tau := tau) (A := A) (fun a b c hc => hB a b c (by omega)))
      by_cases hkd : k = d
      · subst hkd
        rw [h2 i hi j hj]
        exact recur_congr fun a b c hc => (h1 a b c (by omega)).symm
      · rw [h1 i j k hkd, ih k (by omega) i hi j hj]
        exact recur_congr fun a b c hc => (h1 a b c (by omega)).symm
  intro k hk i hi j hj
  exact key (deg + 1) k (by omega) i hi j hj

/-! ### With pattern -/

/-- The pattern describes the input tensor: `nz ≤ 0`: the entry vanishes at all levels, `nz = 1`: at all levels
but the first (odedrivers.cpp:140-142); it has no negative entries, as after `reverse`. -/
structure Pattern (n : Nat) (A : Nat → Nat → Nat → K) (nz : Nat → Nat → Int) : Prop where
  pos : ∀ i < n, ∀ j < n, 0 ≤ nz i j
  zero : ∀ i < n, ∀ j < n, nz i j = 0 → ∀ k, A i j k = 0
  one : ∀ i < n, ∀ j < n, nz i j = 1 → ∀ k, 0 < k → A i j k = 0

/-- State of the loops at level `k` when the cells in `D` have been processed. -/
structure Inv (n : Nat) (tau : K) (A : Nat → Nat → Nat → K) (nz0 : Nat → Nat → Int) (k : Nat) (D : Nat → Nat → Prop) (S : AC K) : Prop where
  keep : ∀ i < n, ∀ j < n, 0 < nz0 i j → S.nz i j = nz0 i j
  le : ∀ i < n, ∀ j < n, nz0 i j = 0 → S.nz i j ≤ 0 ∧ - S.nz i j ≤ k + 1 ∧ (¬ D i j → - S.nz i j ≤ k) ∧
    ∀ c : Nat, (c : Int) < - S.nz i j → (c < k ∨ c = k ∧ D i j) ∧ S.B i j c = 0
  wit : ∀ i < n, ∀ j < n, nz0 i j = 0 → (- S.nz i j < k ∨ D i j ∧ - S.nz i j = k) →
    ∃ p < n, 0 < nz0 i p ∧ (0 < nz0 p j ∨ nz0 p j = 0 ∧ - S.nz p j < - S.nz i j)
  eqn : ∀ i < n, ∀ j < n, ∀ c, (c < k ∨ c = k ∧ D i j) → S.B i j c = recur n tau A S.B c i j

theorem sparseP_sum {n : Nat} {tau : K} {A : Nat → Nat → Nat → K} {nz0 : Nat → Nat → Int} {k : Nat} {D : Nat → Nat → Prop} {S : AC K}
    (hp : Pattern n A nz0) (h : Inv n tau A nz0 k D S) {i j : Nat} (hi : i < n) (hj : j < n) (si : K × Bool) (p : Nat) (hpn : p < n) :
    sparseP (fun _ => A) S k i j si p = (si.1 + ∑ q ∈ range k, A i p q * S.B p j (k - 1 - q),
      si.2 || decide (0 < nz0 i p ∧ (0 < nz0 p j ∧ 0 < k ∨ nz0 p j = 0 ∧ - S.nz p j < k))) := by
  have hip := hp.pos i hi p hpn
  have hpj := hp.pos p hpn j hj
  have hnz1 : 0 < S.nz i p ↔ 0 < nz0 i p := by
    constructor
    · intro h1
      by_contra h2
      have := (h.le i hi p hpn (by omega)).1
      omega
    · intro h1; rw [h.keep i hi p hpn h1]; exact h1
  -- the effective start
  obtain ⟨e, he, he0, hez, hcond⟩ : ∃ e : Nat, (if S.nz p j > 0 then 0 else S.nz p j) = - (e : Int) ∧
      (nz0 p j = 0 → (e : Int) = - S.nz p j) ∧ (∀ c < e, c < k → S.B p j c = 0) ∧ (0 < nz0 p j → e = 0) := by
    rcases lt_or_eq_of_le hpj with h1 | h1
    · refine ⟨0, ?_, fun h2 => by omega, fun c hc => by omega, fun _ => rfl⟩
      rw [h.keep p hpn j hj h1, if_pos h1]; simp
    · obtain ⟨a1, a2, a3, a4⟩ := h.le p hpn j hj h1.symm
      refine ⟨(- S.nz p j).toNat, ?_, fun _ => by omega, fun c hc hck => (a4 c (by omega)).2, fun h2 => by omega⟩
      rw [if_neg (by omega)]; omega
  simp only [sparseP, he, neg_neg]
  have hde : decide (0 < nz0 i p ∧ (0 < nz0 p j ∧ 0 < k ∨ nz0 p j = 0 ∧ - S.nz p j < k)) = decide (S.nz i p > 0 ∧ (k : Int) > e) := by
    congr 1
    refine propext ⟨fun hh => ⟨hnz1.2 hh.1, ?_⟩, fun hh => ⟨hnz1.1 hh.1, ?_⟩⟩
    · rcases hh.2 with h1 | h1
      · have := hcond h1.1; omega
      · have := he0 h1.1; omega
    · rcases lt_or_eq_of_le hpj with h1 | h1
      · left; have := hh.2; omega
      · right; have := he0 h1.symm; have := hh.2; omega
  rw [hde]
  by_cases hc : S.nz i p > 0 ∧ (k : Int) > e
  · simp only [hc, and_self, if_true, decide_true, Bool.or_true, gt_iff_lt]
    congr 1
    obtain ⟨k', rfl⟩ : ∃ k', k = k' + 1 := ⟨k - 1, by have := hc.2; omega⟩
    rw [sum_range_succ']
    simp only [Nat.add_sub_cancel, Nat.sub_zero]
    split_ifs with h1
    · rw [foldl_sum, range_sum, show (((k' + 1 : Nat) : Int) - 1 + - (e : Int)).toNat = k' - e by omega, add_assoc, add_comm (A i p 0 * _)]
      congr 2
      have hek : e ≤ k' := by have := hc.2; omega
      obtain ⟨g, rfl⟩ := Nat.exists_eq_add_of_le hek
      rw [Nat.add_sub_cancel_left]
      rw [← sum_subset (s₁ := range g) (s₂ := range (e + g)) (fun q hq => by simp at hq ⊢; omega)]
      · refine sum_congr rfl fun q hq => ?_
        rw [show e + g + 1 - 2 - q = e + g - (q + 1) by omega]
      · intro q hq hq'
        simp at hq hq'
        rw [hez _ (by omega) (by omega), mul_zero]
    · have hone : nz0 i p = 1 := by
        have := h.keep i hi p hpn (hnz1.1 hc.1)
        have := hc.1; omega
      rw [add_comm (∑ q ∈ _, _), ← add_assoc, sum_eq_zero fun q hq => by rw [hp.one i hi p hpn hone _ (by omega), zero_mul], add_zero]
  · rw [if_neg hc, decide_eq_false hc, Bool.or_false]
    rw [sum_eq_zero, add_zero]
    intro q hq
    have hq := mem_range.1 hq
    by_cases h1 : S.nz i p > 0
    · rw [hez _ (by omega) (by omega), mul_zero]
    · rw [hp.zero i hi p hpn (by have := hnz1.2; omega), zero_mul]

theorem sparse_fold {n : Nat} {tau : K} {A : Nat → Nat → Nat → K} {nz0 : Nat → Nat → Int} {k : Nat} {D : Nat → Nat → Prop} {S : AC K}
    (hp : Pattern n A nz0) (h : Inv n tau A nz0 k D S) {i j : Nat} (hi : i < n) (hj : j < n) (si : K × Bool) (m : Nat) (hm : m ≤ n) :
    ((List.range m).foldl (sparseP (fun _ => A) S k i j) si).1 = si.1 + ∑ q ∈ range k, ∑ p ∈ range m, A i p q * S.B p j (k - 1 - q) ∧
    (((List.range m).foldl (sparseP (fun _ => A) S k i j) si).2 = true ↔
      si.2 = true ∨ ∃ p < m, 0 < nz0 i p ∧ (0 < nz0 p j ∧ 0 < k ∨ nz0 p j = 0 ∧ - S.nz p j < k)) := by
  induction m with
  | zero => simp
  | succ m ih =>
    obtain ⟨h1, h2⟩ := ih (by omega)
    rw [List.range_succ, List.foldl_append]
    simp only [List.foldl_cons, List.foldl_nil]
    rw [sparseP_sum hp h hi hj _ m (by omega)]
    constructor
    · rw [h1]
      simp only [sum_range_succ _ m, sum_add_distrib]
      ring1
    · simp only [Bool.or_eq_true, h2, decide_eq_true_eq]
      constructor
      · rintro ((h3 | ⟨p, h3, h4⟩) | h3)
        · exact .inl h3
        · exact .inr ⟨p, by omega, h4⟩
        · exact .inr ⟨m, by omega, h3⟩
      · rintro (h3 | ⟨p, h3, h4⟩)
        · exact .inl (.inl h3)
        · by_cases hpm : p = m
          · subst hpm; exact .inr h4
          · exact .inl (.inr ⟨p, by omega, h4⟩)

theorem Inv.congr {n : Nat} {tau : K} {A : Nat → Nat → Nat → K} {nz0 : Nat → Nat → Int} {k : Nat} {D D' : Nat → Nat → Prop} {S : AC K}
    (h : Inv n tau A nz0 k D S) (e : ∀ i < n, ∀ j < n, (D i j ↔ D' i j)) : Inv n tau A nz0 k D' S := by
  refine ⟨h.keep, fun i hi j hj h0 => ?_, fun i hi j hj h0 => ?_, fun i hi j hj c => ?_⟩
  · have := h.le i hi j hj h0; rw [e i hi j hj] at this; exact this
  · have := h.wit i hi j hj h0; rw [e i hi j hj] at this; exact this
  · have := h.eqn i hi j hj c; rw [e i hi j hj] at this; exact this

set_option maxHeartbeats 800000 in
theorem sparse_cell {n : Nat} {tau : K} {A : Nat → Nat → Nat → K} {nz0 : Nat → Nat → Int} {k : Nat} {D : Nat → Nat → Prop} {S : AC K}
    (hp : Pattern n A nz0) (h : Inv n tau A nz0 k D S) {i j : Nat} (hi : i < n) (hj : j < n) (hD : ¬ D i j) :
    Inv n tau A nz0 k (fun a b => D a b ∨ (a = i ∧ b = j)) (sparseCell n tau (fun _ => A) k i j S) := by
  have hij := hp.pos i hi j hj
  have hbr : ¬ ((k : Int) < - S.nz i j) := by
    rcases lt_or_eq_of_le hij with h1 | h1
    · rw [h.keep i hi j hj h1]; omega
    · have := (h.le i hi j hj h1.symm).2.2.1 hD; omega
  obtain ⟨f1, f2⟩ := sparse_fold hp h hi hj (A i j k, decide (S.nz i j > 0)) n (le_refl _)
  simp only [sparseCell, hbr, if_false]
  set si := (List.range n).foldl (sparseP (fun _ => A) S k i j) (A i j k, decide (S.nz i j > 0)) with hsi
  have hrec : ∀ v a b c, c ≤ k → recur n tau A (upd3 S.B i j k v) c a b = recur n tau A S.B c a b := fun v a b c hc =>
    recur_congr fun a b c' hc' => upd3_ne (by omega)
  have hval : tau / (1 + (k : K)) * si.1 = recur n tau A S.B k i j := by rw [f1]; rfl
  have eqn' : ∀ v, v = recur n tau A S.B k i j → ∀ a < n, ∀ b < n, ∀ c, (c < k ∨ c = k ∧ (D a b ∨ a = i ∧ b = j)) →
      upd3 S.B i j k v a b c = recur n tau A (upd3 S.B i j k v) c a b := by
    intro v hv a ha b hb c hc
    rw [hrec _ _ _ _ (by omega)]
    by_cases hcell : a = i ∧ b = j ∧ c = k
    · obtain ⟨rfl, rfl, rfl⟩ := hcell; rw [upd3_eq, hv]
    · rw [upd3_ne hcell]; exact h.eqn a ha b hb c (by tauto)
  by_cases hs : si.2 = true
  · rw [if_pos hs]
    have hs' := f2.1 hs
    refine ⟨h.keep, fun a ha b hb h0 => ?_, fun a ha b hb h0 hx => ?_, eqn' _ (by rw [mul_comm]; exact hval)⟩
    · obtain ⟨l1, l2, l3, l4⟩ := h.le a ha b hb h0
      refine ⟨l1, l2, fun hn => l3 (by tauto), fun c hc => ?_⟩
      obtain ⟨m1, m2⟩ := l4 c hc
      refine ⟨by tauto, ?_⟩
      rw [show (AC.mk (upd3 S.B i j k (si.1 * (tau / (1 + (k : K))))) S.nz).B a b c = upd3 S.B i j k (si.1 * (tau / (1 + (k : K)))) a b c from rfl]
      rw [upd3_ne]; · exact m2
      rintro ⟨rfl, rfl, rfl⟩
      tauto
    · by_cases hcell : (a = i ∧ b = j) ∧ ¬ (- S.nz a b < k)
      · obtain ⟨⟨rfl, rfl⟩, hlt⟩ := hcell
        have heq : - S.nz a b = k := by have := (h.le a ha b hb h0).2.2.1 hD; simp only at *; omega
        rcases hs' with h1 | ⟨p, hpn, h1, h2⟩
        · simp at h1; have := (h.le a ha b hb h0).1; omega
        · refine ⟨p, hpn, h1, ?_⟩
          rcases h2 with h2 | h2
          · exact .inl h2.1
          · right; refine ⟨h2.1, ?_⟩; show - S.nz p b < - S.nz a b; omega
      · refine h.wit a ha b hb h0 ?_
        clear_value si
        clear hs hs' f1 f2 eqn' hval hrec
        rcases hx with hx | ⟨hx | hx, hx'⟩
        · exact .inl hx
        · exact .inr ⟨hx, hx'⟩
        · refine .inl ?_
          by_contra hc
          exact hcell ⟨hx, hc⟩
  · rw [if_neg hs]
    have hno : ¬ (S.nz i j > 0) ∧ ∀ p < n, 0 < nz0 i p → ¬ (0 < nz0 p j ∧ 0 < k ∨ nz0 p j = 0 ∧ - S.nz p j < k) := by
      rw [f2] at hs
      push_neg at hs
      simp only [decide_eq_true_eq, ne_eq] at hs
      refine ⟨hs.1, fun p hpn h1 h2 => ?_⟩
      have := hs.2 p hpn h1
      rcases h2 with h2 | h2
      · have := this.1 h2.1; omega
      · have := this.2 h2.1; omega
    have h0 : nz0 i j = 0 := by
      by_contra hne
      have := h.keep i hi j hj (by omega)
      have := hno.1; omega
    obtain ⟨l1, l2, l3, l4⟩ := h.le i hi j hj h0
    have heq : - S.nz i j = k := by
      by_contra hne
      obtain ⟨p, hpn, w1, w2⟩ := h.wit i hi j hj h0 (.inl (by have := l3 hD; omega))
      refine hno.2 p hpn w1 ?_
      have := l3 hD
      rcases w2 with w2 | w2
      · left; exact ⟨w2, by omega⟩
      · right; exact ⟨w2.1, by omega⟩
    have hz : recur n tau A S.B k i j = 0 := by
      unfold recur
      rw [hp.zero i hi j hj h0, zero_add, sum_eq_zero, mul_zero]
      intro q hq
      refine sum_eq_zero fun p hpn => ?_
      have hq := mem_range.1 hq
      have hpn := mem_range.1 hpn
      have hip := hp.pos i hi p hpn
      rcases lt_or_eq_of_le hip with h1 | h1
      · have hx := hno.2 p hpn h1
        have hpj := hp.pos p hpn j hj
        have h2 : nz0 p j = 0 := by
          by_contra h3; exact hx (.inl ⟨by omega, by omega⟩)
        have h3 : ¬ (- S.nz p j < k) := fun h4 => hx (.inr ⟨h2, h4⟩)
        rw [((h.le p hpn j hj h2).2.2.2 (k - 1 - q) (by omega)).2, mul_zero]
      · rw [hp.zero i hi p hpn h1.symm, zero_mul]
    have hnz : ∀ a b, ¬ (a = i ∧ b = j) → updN S.nz i j (S.nz i j - 1) a b = S.nz a b := fun a b hn => if_neg hn
    have hnz' : updN S.nz i j (S.nz i j - 1) i j = S.nz i j - 1 := if_pos ⟨rfl, rfl⟩
    refine ⟨fun a ha b hb hpos => ?_, fun a ha b hb ha0 => ?_, fun a ha b hb ha0 hx => ?_, eqn' 0 hz.symm⟩
    · show updN _ _ _ _ a b = _
      rw [hnz]; · exact h.keep a ha b hb hpos
      rintro ⟨rfl, rfl⟩; omega
    · show updN _ _ _ _ a b ≤ 0 ∧ - updN _ _ _ _ a b ≤ _ ∧ (_ → - updN _ _ _ _ a b ≤ _) ∧ ∀ c : Nat, _ < - updN _ _ _ _ a b → _ ∧ upd3 _ _ _ _ _ a b c = 0
      by_cases hcell : a = i ∧ b = j
      · obtain ⟨rfl, rfl⟩ := hcell
        rw [hnz']
        refine ⟨by omega, by omega, fun hn => absurd (.inr ⟨rfl, rfl⟩) hn, fun c hc => ?_⟩
        by_cases hck : c = k
        · subst hck; exact ⟨.inr ⟨rfl, .inr ⟨rfl, rfl⟩⟩, upd3_eq⟩
        · rw [upd3_ne (by tauto)]
          obtain ⟨m1, m2⟩ := l4 c (by omega)
          exact ⟨by tauto, m2⟩
      · rw [hnz a b hcell]
        obtain ⟨l1, l2, l3, l4⟩ := h.le a ha b hb ha0
        refine ⟨l1, l2, fun hn => l3 (by tauto), fun c hc => ?_⟩
        obtain ⟨m1, m2⟩ := l4 c hc
        rw [upd3_ne (by tauto)]
        exact ⟨by tauto, m2⟩
    · have hx' : - updN S.nz i j (S.nz i j - 1) a b < k ∨ (D a b ∨ a = i ∧ b = j) ∧ - updN S.nz i j (S.nz i j - 1) a b = k := hx
      show ∃ p < n, 0 < nz0 a p ∧ (0 < nz0 p b ∨ nz0 p b = 0 ∧ - updN S.nz i j (S.nz i j - 1) p b < - updN S.nz i j (S.nz i j - 1) a b)
      by_cases hcell : a = i ∧ b = j
      · obtain ⟨rfl, rfl⟩ := hcell
        rw [hnz'] at hx'; omega
      · rw [hnz a b hcell] at hx' ⊢
        obtain ⟨p, hpn, w1, w2⟩ := h.wit a ha b hb ha0 (by tauto)
        refine ⟨p, hpn, w1, ?_⟩
        rcases w2 with w2 | ⟨w2, w3⟩
        · exact .inl w2
        · refine .inr ⟨w2, ?_⟩
          rw [hnz]; · exact w3
          rintro ⟨rfl, rfl⟩; omega

theorem sparse_level {n : Nat} {tau : K} {A : Nat → Nat → Nat → K} {nz0 : Nat → Nat → Int} {k : Nat} {S : AC K}
    (hp : Pattern n A nz0) (h : Inv n tau A nz0 k (fun _ _ => False) S) :
    Inv n tau A nz0 k (fun _ _ => True) ((List.range n).foldl (fun S i => (List.range n).foldl (fun S j => sparseCell n tau (fun _ => A) k i j S) S) S) := by
  have inner : ∀ i < n, ∀ S, Inv n tau A nz0 k (fun a _ => a < i) S → ∀ m ≤ n,
      Inv n tau A nz0 k (fun a b => a < i ∨ a = i ∧ b < m) ((List.range m).foldl (fun S j => sparseCell n tau (fun _ => A) k i j S) S) := by
    intro i hi S hS m
    induction m with
    | zero => exact fun _ => hS.congr fun a ha b hb => by omega
    | succ m ih =>
      intro hm
      rw [List.range_succ, List.foldl_append]
      exact (sparse_cell hp (ih (by omega)) hi (by omega) (by omega)).congr fun a ha b hb => by omega
  have outer : ∀ m ≤ n, Inv n tau A nz0 k (fun a _ => a < m) ((List.range m).foldl (fun S i => (List.range n).foldl (fun S j => sparseCell n tau (fun _ => A) k i j S) S) S) := by
    intro m
    induction m with
    | zero => exact fun _ => h.congr fun a ha b hb => by simp
    | succ m ih =>
      intro hm
      rw [List.range_succ, List.foldl_append]
      exact (inner m (by omega) _ (ih (by omega)) n (le_refl _)).congr fun a ha b hb => by omega
  exact (outer n (le_refl _)).congr fun a ha b hb => by simp [ha]

theorem sparse_inv {n : Nat} {tau : K} {A B0 : Nat → Nat → Nat → K} {nz0 : Nat → Nat → Int} (hp : Pattern n A nz0) (d : Nat) :
    Inv n tau A nz0 d (fun _ _ => False) ((List.range d).foldl (fun S k => (List.range n).foldl (fun S i => (List.range n).foldl (fun S j =>
      sparseCell n tau (fun _ => A) k i j S) S) S) ⟨B0, nz0⟩) := by
  induction d with
  | zero =>
    refine ⟨fun i hi j hj h => rfl, fun i hi j hj h => ?_, fun i hi j hj h hx => ?_, fun i hi j hj c hc => by simp at hc⟩
    · simp only [List.range_zero, List.foldl_nil, h]
      exact ⟨by omega, by omega, fun _ => by omega, fun c hc => by simp at hc; omega⟩
    · simp only [List.range_zero, List.foldl_nil, h] at hx; simp at hx
  | succ d ih =>
    rw [List.range_succ, List.foldl_append]
    have h := sparse_level hp ih
    simp only [List.foldl_cons, List.foldl_nil]
    refine ⟨h.keep, fun i hi j hj h0 => ?_, fun i hi j hj h0 hx => h.wit i hi j hj h0 ?_, fun i hi j hj c hc => h.eqn i hi j hj c (by simp at hc ⊢; omega)⟩
    · obtain ⟨l1, l2, l3, l4⟩ := h.le i hi j hj h0
      refine ⟨l1, by omega, fun _ => by omega, fun c hc => ?_⟩
      obtain ⟨m1, m2⟩ := l4 c hc
      exact ⟨by omega, m2⟩
    · simp only [false_and, or_false] at hx
      simp only [true_and]
      omega

/-- With a pattern that describes the input, into a different array. -/
theorem accSparse_recur (n : Nat) (tau : K) (deg : Nat) (A B0 : Nat → Nat → Nat → K) (nz0 : Nat → Nat → Int) (hp : Pattern n A nz0) :
    (∀ k ≤ deg, ∀ i < n, ∀ j < n, (accSparse n tau deg (fun _ => A) ⟨B0, nz0⟩).B i j k =
      recur n tau A (accSparse n tau deg (fun _ => A) ⟨B0, nz0⟩).B k i j) ∧
    (∀ i < n, ∀ j < n, ∀ k : Nat, (k : Int) < - (accSparse n tau deg (fun _ => A) ⟨B0, nz0⟩).nz i j → (accSparse n tau deg (fun _ => A) ⟨B0, nz0⟩).B i j k = 0) := by
  have h := sparse_inv (tau := tau) (B0 := B0) hp (deg + 1)
  refine ⟨fun k hk i hi j hj => h.eqn i hi j hj k (.inl (by omega)), fun i hi j hj k hk => ?_⟩
  have hij := hp.pos i hi j hj
  rcases lt_or_eq_of_le hij with h1 | h1
  · have := h.keep i hi j hj h1
    unfold accSparse at hk
    rw [this] at hk; omega
  · exact ((h.le i hi j hj h1.symm).2.2.2 k hk).2

end Verif.Drivers
