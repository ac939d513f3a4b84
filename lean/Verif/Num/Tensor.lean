import Mathlib.Data.Nat.Choose.Sum
import Mathlib.Data.Nat.Choose.Basic
import Mathlib.Data.List.Sort
import Mathlib.Algebra.Order.Round
import Mathlib.Data.Rat.Floor
import Mathlib.Tactic.Ring
import Mathlib.Tactic.FieldSimp
import Mathlib.Tactic.Linarith

/-!
# `drivers/taylor.cpp`: addressing of compressed symmetric tensors
-/
set_option linter.all false
namespace Verif.Num.Tensor

/-- `binomi`: drivers/taylor.cpp:117-131.  The `long double` accumulator is an exact rational. -/
def binomi (n k : Nat) : Int :=
  if k > n then 0
  else
    let k := if k > n / 2 then n - k else k
    round ((List.range' 1 k).foldl (fun (acc : ℚ) i => acc * ((n - k + i : Nat) : ℚ) / (i : ℚ)) 1)

/-- taylor.cpp:285-290, 298-300: `max = 0; for (j = 0; j < d; j++) if (a[j] > max) max = a[j];` -/
def maxOf (d : Nat) (a : Nat → Nat) : Nat :=
  (List.range d).foldl (fun m j => if a j > m then a j else m) 0

/-- Local variables of `tensor_address`. -/
structure St where
  im : Int → Nat
  my : Nat → Nat
  max : Nat
  ind : Int

/-- Body of the loop taylor.cpp:293-302. -/
def body (d : Nat) (s : St) (i : Nat) : St :=
  if s.my i = s.max then
    let im := fun k => if k = s.ind then s.my i else s.im k
    let my := fun k => if k = i then 0 else s.my k
    { im := im, my := my, ind := s.ind - 1, max := maxOf d my }
  else s

/-- State after the loops taylor.cpp:285-302 (the malloc'ed `im` is zeroed by the first loop). -/
def sorted (multi : List Nat) : St :=
  let d := multi.length
  let my : Nat → Nat := fun i => multi.getD i 0
  (List.range d).foldl (body d) { im := fun _ => 0, my := my, max := maxOf d my, ind := (d : Int) - 1 }

/-- `tensor_address(d, multi)`: taylor.cpp:277-310, with `d` the length of the list.  Indices are
non-negative; `add` does not overflow. -/
def tensorAddress (multi : List Nat) : Int :=
  let s := sorted multi
  (List.range multi.length).foldl (fun (add : Int) (i : Nat) => add + binomi (s.im (i : Int) + i) (i + 1)) 0

/-- What `tensorpoint` allocates: a pointer into the tensor array or a block of pointers. -/
inductive Ptr where
  | data (base : Nat)
  | block (p : List Ptr)

mutual
/-- `tensorpoint(n, d)`: taylor.cpp:59-73; the state is the global `tensoriglob`.  `d` is the
argument minus one. -/
def tensorpoint (n : Nat) : Nat → Nat → Ptr × Nat
  | 0, g => (.data g, g + (n + 1))
  | d + 1, g =>
    let r := tensorpoints (n + 1) d g
    (.block r.1, r.2)
termination_by d => (d, 0)
/-- The loop `for (i = 0; i <= n; i++) t[i] = tensorpoint(i, d-1)`. -/
def tensorpoints : Nat → Nat → Nat → List Ptr × Nat
  | 0, _, g => ([], g)
  | k + 1, d, g =>
    let r := tensorpoints k d g
    let q := tensorpoint k d r.2
    (r.1 ++ [q.1], q.2)
termination_by k d => (d, k + 1)
end

/-- `tensorentry[j1][j2]…[jd]`: successive dereferencing; `none` is an access out of bounds of a
pointer block (the last, data, level is not checked). -/
def deref : Ptr → List Nat → Option Nat
  | .data b, [j] => some (b + j)
  | .block p, j :: js => match p[j]? with
    | some q => deref q js
    | none => none
  | _, _ => none

/-! ## Specification -/

/-- Position in Knuth's tetrahedral order of a non-increasing multi-index. -/
def rank : List Nat → Nat
  | [] => 0
  | j :: js => (j + js.length).choose (js.length + 1) + rank js

/-- The nonzero entries are non-increasing (zeros may stand anywhere). -/
def NzDesc (multi : List Nat) : Prop := (multi.filter (· ≠ 0)).Pairwise (· ≥ ·)

/-! ## Proofs -/

theorem acc_choose (m : Nat) (k : Nat) :
    (List.range' 1 k).foldl (fun (acc : ℚ) i => acc * ((m + i : Nat) : ℚ) / (i : ℚ)) 1 = ((m + k).choose k : ℚ) := by
  induction k with
  | zero => simp
  | succ k ih =>
    rw [List.range'_concat, List.foldl_append, ih]
    simp only [List.foldl_cons, List.foldl_nil, Nat.one_mul]
    rw [Nat.add_comm 1 k, div_eq_iff (by positivity)]
    have := Nat.add_one_mul_choose_eq (m + k) k
    rw [show m + (k + 1) = m + k + 1 by omega]
    have h2 := congrArg (Nat.cast (R := ℚ)) this
    push_cast at h2 ⊢
    linarith

theorem binomi_eq (n k : Nat) : binomi n k = (n.choose k : Int) := by
  unfold binomi
  split
  · rw [Nat.choose_eq_zero_of_lt (by omega)]; rfl
  · simp only
    have h : ∀ k', k' ≤ n → round ((List.range' 1 k').foldl (fun (acc : ℚ) i => acc * ((n - k' + i : Nat) : ℚ) / (i : ℚ)) 1)
        = (n.choose k' : Int) := by
      intro k' hk
      rw [acc_choose (n - k') k', Nat.sub_add_cancel hk]
      exact_mod_cast round_natCast (n.choose k')
    split
    · rw [h _ (by omega), Nat.choose_symm (by omega)]
    · exact h _ (by omega)

theorem foldl_max_ge (f : Nat → Nat) (L : List Nat) (m : Nat) :
    m ≤ L.foldl (fun m j => if f j > m then f j else m) m ∧
    ∀ j ∈ L, f j ≤ L.foldl (fun m j => if f j > m then f j else m) m := by
  induction L generalizing m with
  | nil => simp
  | cons a L ih =>
    rw [List.foldl_cons]
    obtain ⟨h1, h2⟩ := ih (if f a > m then f a else m)
    refine ⟨le_trans ?_ h1, ?_⟩
    · split <;> omega
    · intro j hj
      rcases List.mem_cons.1 hj with rfl | hj
      · refine le_trans ?_ h1
        split <;> omega
      · exact h2 j hj

theorem foldl_max_mem (f : Nat → Nat) (L : List Nat) (m : Nat) :
    L.foldl (fun m j => if f j > m then f j else m) m = m ∨
    ∃ j ∈ L, f j = L.foldl (fun m j => if f j > m then f j else m) m := by
  induction L generalizing m with
  | nil => simp
  | cons a L ih =>
    rw [List.foldl_cons]
    rcases ih (if f a > m then f a else m) with h | ⟨j, hj, h⟩
    · rw [h]
      split
      · exact Or.inr ⟨a, by simp, rfl⟩
      · exact Or.inl rfl
    · exact Or.inr ⟨j, List.mem_cons_of_mem _ hj, h⟩

theorem maxOf_eq {d : Nat} {a : Nat → Nat} {m : Nat} (h1 : ∀ j < d, a j ≤ m) (h2 : m = 0 ∨ ∃ j < d, a j = m) :
    maxOf d a = m := by
  unfold maxOf
  obtain ⟨g0, g1⟩ := foldl_max_ge a (List.range d) 0
  apply le_antisymm
  · rcases foldl_max_mem a (List.range d) 0 with h | ⟨j, hj, h⟩
    · rw [h]; exact Nat.zero_le _
    · rw [← h]; exact h1 j (List.mem_range.1 hj)
  · rcases h2 with rfl | ⟨j, hj, rfl⟩
    · exact Nat.zero_le _
    · exact g1 j (List.mem_range.2 hj)

theorem maxOf_ge {d : Nat} {a : Nat → Nat} {j : Nat} (h : j < d) : a j ≤ maxOf d a :=
  (foldl_max_ge a (List.range d) 0).2 j (List.mem_range.2 h)

theorem maxOf_mem (d : Nat) (a : Nat → Nat) : maxOf d a = 0 ∨ ∃ j < d, a j = maxOf d a := by
  rcases foldl_max_mem a (List.range d) 0 with h | ⟨j, hj, h⟩
  · exact Or.inl h
  · exact Or.inr ⟨j, List.mem_range.1 hj, h⟩

/-- Sum the address is built from. -/
def rk : Nat → List Nat → Nat
  | _, [] => 0
  | n, x :: xs => if x = 0 then rk n xs else (x + (n - 1)).choose n + rk (n - 1) xs

def addr (d : Nat) (im : Int → Nat) : Nat := ∑ i ∈ Finset.range d, (im (i : Int) + i).choose (i + 1)

theorem foldl_addr (d : Nat) (im : Int → Nat) :
    (List.range d).foldl (fun (add : Int) (i : Nat) => add + binomi (im (i : Int) + i) (i + 1)) 0 = (addr d im : Int) := by
  unfold addr
  induction d with
  | zero => simp
  | succ d ih =>
    rw [List.range_succ, List.foldl_append, ih, Finset.sum_range_succ]
    simp only [List.foldl_cons, List.foldl_nil, binomi_eq]
    push_cast
    rfl

theorem addr_set {d n : Nat} (hn : n < d) (im : Int → Nat) (x : Nat) (h0 : im (n : Int) = 0) :
    addr d (fun k => if k = (n : Int) then x else im k) = addr d im + (x + n).choose (n + 1) := by
  unfold addr
  rw [← Finset.add_sum_erase _ _ (Finset.mem_range.2 hn), ← Finset.add_sum_erase (Finset.range d) (fun i => (im (i : Int) + i).choose (i + 1)) (Finset.mem_range.2 hn)]
  simp only [h0, if_true, Nat.zero_add, Nat.choose_succ_self]
  rw [Nat.add_comm]
  congr 1
  refine Finset.sum_congr rfl fun k hk => ?_
  have : k ≠ n := (Finset.mem_erase.1 hk).1
  rw [if_neg (by exact_mod_cast this)]

theorem NzDesc.tail {x : Nat} {xs : List Nat} (h : NzDesc (x :: xs)) : NzDesc xs := by
  unfold NzDesc at h ⊢
  rw [List.filter_cons] at h
  split at h
  · exact (List.pairwise_cons.1 h).2
  · exact h

theorem NzDesc.head {x : Nat} {xs : List Nat} (h : NzDesc (x :: xs)) (hx : x ≠ 0) : ∀ y ∈ xs, y ≤ x := by
  unfold NzDesc at h
  rw [List.filter_cons, if_pos (by simpa using hx)] at h
  intro y hy
  by_cases h0 : y = 0
  · omega
  · exact (List.pairwise_cons.1 h).1 y (List.mem_filter.2 ⟨hy, by simpa using h0⟩)

/-- State reached after the entries before `k`; the remaining ones are `post`. -/
structure At (multi : List Nat) (k : Nat) (s : St) (n : Nat) : Prop where
  ind : s.ind = (n : Int) - 1
  room : multi.length - k ≤ n
  le : n ≤ multi.length
  zero : ∀ i : Nat, i < n → s.im (i : Int) = 0
  my : ∀ j, j < multi.length → s.my j = if j < k then 0 else multi.getD j 0
  max : s.max = maxOf multi.length s.my

theorem loop (multi : List Nat) (m : Nat) : ∀ (k : Nat) (s : St) (n : Nat), k + m = multi.length →
    NzDesc (multi.drop k) → At multi k s n →
    addr multi.length ((List.range' k m).foldl (body multi.length) s).im
      = addr multi.length s.im + rk n (multi.drop k) := by
  induction m with
  | zero =>
    intro k s n hk _ _
    rw [List.drop_eq_nil_of_le (by omega)]
    simp [rk]
  | succ m ih =>
    intro k s n hk hd hs
    have hkl : k < multi.length := by omega
    have hdrop : multi.drop k = multi[k] :: multi.drop (k + 1) := List.drop_eq_getElem_cons hkl
    have hg : multi.getD k 0 = multi[k] := by simp [List.getD, hkl]
    rw [hdrop] at hd ⊢
    rw [List.range'_succ, List.foldl_cons]
    have hmyk : s.my k = multi[k] := by rw [hs.my k hkl, if_neg (by omega), hg]
    have hn : 0 < n := by have := hs.room; omega
    have hind : s.ind = ((n - 1 : Nat) : Int) := by rw [hs.ind]; omega
    rw [body]
    by_cases hx : multi[k] = 0
    · -- a zero entry: either skipped, or everything left is zero
      rw [rk, if_pos hx]
      by_cases hm : s.max = 0
      · rw [if_pos (by rw [hmyk, hx, hm])]
        have hall : ∀ j, j < multi.length → s.my j = 0 := fun j hj => by
          have := maxOf_ge (a := s.my) hj
          rw [← hs.max, hm] at this
          omega
        have hset : (fun q => if q = s.ind then s.my k else s.im q) = s.im := by
          funext q
          split
          · rename_i h; rw [hmyk, hx, h, hind, hs.zero _ (by omega)]
          · rfl
        have hmy : ∀ q, q < multi.length → (if q = k then 0 else s.my q) = 0 := fun q hq => by
          split
          · rfl
          · exact hall q hq
        simp only [hset]
        rw [ih (k + 1) (St.mk s.im (fun q => if q = k then 0 else s.my q)
              (maxOf multi.length fun q => if q = k then 0 else s.my q) (s.ind - 1)) (n - 1) (by omega) hd.tail
          ⟨by simp only [hs.ind]; omega, by have := hs.room; omega,
          by have := hs.le; omega, fun i hi => hs.zero i (by omega), ?_, rfl⟩]
        · -- both remaining sums are zero
          have hz : ∀ y ∈ multi.drop (k + 1), y = 0 := by
            intro y hy
            obtain ⟨q, hq, rfl⟩ := List.getElem_of_mem hy
            rw [List.length_drop] at hq
            rw [List.getElem_drop]
            have := hall (k + 1 + q) (by omega)
            rw [hs.my _ (by omega), if_neg (by omega)] at this
            simpa [List.getD, show k + 1 + q < multi.length by omega] using this
          have : ∀ (L : List Nat), (∀ y ∈ L, y = 0) → ∀ n, rk n L = 0 := by
            intro L
            induction L with
            | nil => intro _ n; rfl
            | cons a L ih => intro h n; rw [rk, if_pos (h a (by simp)), ih (fun y hy => h y (by simp [hy]))]
          rw [this _ hz, this _ hz]
        · intro j hj
          simp only
          rw [hmy j hj]
          split
          · rfl
          · have := hall j hj
            rw [hs.my j hj] at this
            split at this <;> omega
      · rw [if_neg (by rw [hmyk, hx]; omega)]
        refine ih (k + 1) s n (by omega) hd.tail ⟨hs.ind, by have := hs.room; omega, hs.le, hs.zero, ?_, hs.max⟩
        intro j hj
        rw [hs.my j hj]
        by_cases hjk : j = k
        · subst hjk; rw [if_neg (by omega), if_pos (by omega), hg, hx]
        · by_cases h : j < k
          · rw [if_pos h, if_pos (by omega)]
          · rw [if_neg h, if_neg (by omega)]
    · -- a nonzero entry is the maximum of what is left
      rw [rk, if_neg hx]
      have hmax : s.max = multi[k] := by
        rw [hs.max]
        refine maxOf_eq (fun j hj => ?_) (Or.inr ⟨k, hkl, hmyk⟩)
        rw [hs.my j hj]
        split
        · exact Nat.zero_le _
        · by_cases hjk : j = k
          · subst hjk; rw [hg]
          · refine hd.head hx _ ?_
            have : multi.getD j 0 = multi[j] := by simp [List.getD, hj]
            rw [this, List.mem_iff_getElem]
            exact ⟨j - (k + 1), by rw [List.length_drop]; omega, by rw [List.getElem_drop]; congr 1; omega⟩
      rw [if_pos (by rw [hmyk, hmax])]
      simp only [hmyk, hind]
      rw [ih (k + 1) _ (n - 1) (by omega) hd.tail ⟨by simp only, by have := hs.room; omega, by have := hs.le; omega,
        ?_, ?_, rfl⟩]
      · simp only
        rw [addr_set (by have := hs.le; omega) _ _ (hs.zero _ (by omega)), show n - 1 + 1 = n by omega]
        omega
      · intro i hi
        simp only
        rw [if_neg (by omega), hs.zero i (by omega)]
      · intro j hj
        simp only
        rw [hs.my j hj]
        by_cases hjk : j = k
        · subst hjk; simp
        · rw [if_neg hjk]
          by_cases h : j < k
          · rw [if_pos h, if_pos (by omega)]
          · rw [if_neg h, if_neg (by omega)]

theorem rk_filter (n : Nat) (L : List Nat) : rk n (L.filter (· ≠ 0)) = rk n L := by
  induction L generalizing n with
  | nil => rfl
  | cons x xs ih =>
    rw [List.filter_cons]
    by_cases hx : x = 0
    · rw [if_neg (by simp [hx]), rk, if_pos hx, ih]
    · rw [if_pos (by simpa using hx), rk, rk, if_neg hx, if_neg hx, ih]

theorem address_rk {multi : List Nat} (h : NzDesc multi) : tensorAddress multi = (rk multi.length multi : Int) := by
  unfold tensorAddress
  simp only
  rw [foldl_addr]
  have := loop multi multi.length 0
    { im := fun _ => 0, my := fun i => multi.getD i 0, max := maxOf multi.length (fun i => multi.getD i 0), ind := (multi.length : Int) - 1 }
    multi.length (by omega) (by simpa using h)
    ⟨rfl, by omega, le_rfl, fun _ _ => rfl, fun j _ => by simp, rfl⟩
  rw [List.drop_zero] at this
  unfold sorted
  simp only
  rw [List.range_eq_range', this]
  have : addr multi.length (fun _ => 0) = 0 := by
    unfold addr
    refine Finset.sum_eq_zero fun i _ => ?_
    simp
  rw [this]
  simp

theorem rk_rank {L : List Nat} (h : L.Pairwise (· ≥ ·)) : rk L.length L = rank L := by
  induction L with
  | nil => rfl
  | cons x xs ih =>
    obtain ⟨h1, h2⟩ := List.pairwise_cons.1 h
    rw [rank, List.length_cons, rk]
    split
    · rename_i hx
      subst hx
      have hz : ∀ y ∈ xs, y = 0 := fun y hy => by have := h1 y hy; omega
      have g1 : ∀ (L : List Nat), (∀ y ∈ L, y = 0) → ∀ n, rk n L = 0 := by
        intro L
        induction L with
        | nil => intro _ n; rfl
        | cons a L ih => intro h n; rw [rk, if_pos (h a (by simp)), ih (fun y hy => h y (by simp [hy]))]
      rw [g1 xs hz, ← ih h2, g1 xs hz]
      simp
    · rw [Nat.add_sub_cancel, ih h2]

theorem desc_nz {L : List Nat} (h : L.Pairwise (· ≥ ·)) : NzDesc L := h.sublist List.filter_sublist

theorem address_rank {L : List Nat} (h : L.Pairwise (· ≥ ·)) : tensorAddress L = (rank L : Int) := by
  rw [address_rk (desc_nz h), rk_rank h]

theorem address_perm {L L' : List Nat} (h : NzDesc L) (h' : NzDesc L') (hp : L.Perm L') :
    tensorAddress L = tensorAddress L' := by
  rw [address_rk h, address_rk h', ← rk_filter, ← rk_filter _ L', hp.length_eq]
  rw [(hp.filter (· ≠ 0)).eq_of_pairwise (fun a b _ _ h1 h2 => le_antisymm h2 h1) h h']

theorem rank_lt {p : Nat} {L : List Nat} (h : L.Pairwise (· ≥ ·)) (hp : ∀ j ∈ L, j ≤ p) :
    rank L < (p + L.length).choose L.length := by
  induction L generalizing p with
  | nil => simp [rank]
  | cons x xs ih =>
    obtain ⟨h1, h2⟩ := List.pairwise_cons.1 h
    have := ih (p := x) h2 h1
    have hx := hp x (by simp)
    rw [rank, List.length_cons]
    have e : (x + xs.length + 1).choose (xs.length + 1) = (x + xs.length).choose xs.length + (x + xs.length).choose (xs.length + 1) :=
      Nat.choose_succ_succ _ _
    have m : (x + xs.length + 1).choose (xs.length + 1) ≤ (p + (xs.length + 1)).choose (xs.length + 1) :=
      Nat.choose_le_choose _ (by omega)
    omega

theorem rank_inj {L L' : List Nat} (h : L.Pairwise (· ≥ ·)) (h' : L'.Pairwise (· ≥ ·)) (hl : L.length = L'.length)
    (he : rank L = rank L') : L = L' := by
  induction L generalizing L' with
  | nil => cases L' with
    | nil => rfl
    | cons _ _ => simp at hl
  | cons x xs ih => cases L' with
    | nil => simp at hl
    | cons y ys =>
      obtain ⟨h1, h2⟩ := List.pairwise_cons.1 h
      obtain ⟨g1, g2⟩ := List.pairwise_cons.1 h'
      have hl' : xs.length = ys.length := by simpa using hl
      have a1 := rank_lt (p := x) h2 h1
      have a2 := rank_lt (p := y) g2 g1
      rw [rank, rank, ← hl'] at he
      rw [← hl'] at a2
      have mono : ∀ u v : Nat, u < v → (u + xs.length).choose xs.length + (u + xs.length).choose (xs.length + 1)
          ≤ (v + xs.length).choose (xs.length + 1) := by
        intro u v huv
        rw [← Nat.choose_succ_succ]
        exact Nat.choose_le_choose _ (by omega)
      have hxy : x = y := by
        rcases Nat.lt_trichotomy x y with h | h | h
        · have := mono x y h; omega
        · exact h
        · have := mono y x h; omega
      subst hxy
      rw [ih h2 g2 hl' (by omega)]

theorem rank_surj (d : Nat) : ∀ (p r : Nat), r < (p + d).choose d →
    ∃ L : List Nat, L.length = d ∧ L.Pairwise (· ≥ ·) ∧ (∀ j ∈ L, j ≤ p) ∧ rank L = r := by
  induction d with
  | zero =>
    intro p r h
    rw [Nat.add_zero, Nat.choose_zero_right] at h
    exact ⟨[], rfl, List.Pairwise.nil, by simp, by simp [rank]; omega⟩
  | succ d ihd =>
    intro p
    induction p with
    | zero =>
      intro r h
      rw [Nat.zero_add, Nat.choose_self] at h
      obtain ⟨L, h1, h2, h3, h4⟩ := ihd 0 r (by rw [Nat.zero_add, Nat.choose_self]; exact h)
      refine ⟨0 :: L, by simp [h1], List.pairwise_cons.2 ⟨h3, h2⟩, ?_, ?_⟩
      · intro j hj
        rcases List.mem_cons.1 hj with rfl | hj
        · exact le_rfl
        · exact h3 j hj
      · rw [rank, h4]; simp
    | succ p ihp =>
      intro r h
      by_cases hr : r < (p + (d + 1)).choose (d + 1)
      · obtain ⟨L, h1, h2, h3, h4⟩ := ihp r hr
        exact ⟨L, h1, h2, fun j hj => le_trans (h3 j hj) (Nat.le_succ p), h4⟩
      · have e : (p + 1 + (d + 1)).choose (d + 1) = (p + 1 + d).choose d + (p + 1 + d).choose (d + 1) := by
          rw [show p + 1 + (d + 1) = (p + 1 + d) + 1 by omega]; exact Nat.choose_succ_succ _ _
        rw [show p + (d + 1) = p + 1 + d by omega] at hr
        obtain ⟨L, h1, h2, h3, h4⟩ := ihd (p + 1) (r - (p + 1 + d).choose (d + 1)) (by omega)
        refine ⟨(p + 1) :: L, by simp [h1], List.pairwise_cons.2 ⟨h3, h2⟩, ?_, ?_⟩
        · intro j hj
          rcases List.mem_cons.1 hj with rfl | hj
          · exact le_rfl
          · exact h3 j hj
        · rw [rank, h4, h1]; omega

/-! ### The pointer structure -/

theorem points_size (d : Nat) : (∀ n g, (tensorpoint n d g).2 = g + (n + (d + 1)).choose (d + 1)) →
    ∀ k g, (tensorpoints k d g).2 = g + (k + (d + 1)).choose (d + 2) := by
  intro h k
  induction k with
  | zero => intro g; rw [tensorpoints, Nat.zero_add, Nat.choose_eq_zero_of_lt (by omega)]; rfl
  | succ k ih =>
    intro g
    rw [tensorpoints]
    simp only
    rw [h, ih, show k + 1 + (d + 1) = (k + (d + 1)) + 1 by omega, show d + 2 = (d + 1) + 1 by omega, Nat.choose_succ_succ, Nat.succ_eq_add_one]
    omega

theorem point_size (d : Nat) : ∀ n g, (tensorpoint n d g).2 = g + (n + (d + 1)).choose (d + 1) := by
  induction d with
  | zero => intro n g; simp [tensorpoint]
  | succ d ih =>
    intro n g
    rw [tensorpoint]
    simp only
    rw [points_size d ih]
    congr 2
    omega

theorem points_get (d k : Nat) : ∀ g, (tensorpoints k d g).1.length = k ∧ ∀ j < k,
    (tensorpoints k d g).1[j]? = some (tensorpoint j d (g + (j + (d + 1)).choose (d + 2))).1 := by
  induction k with
  | zero => intro g; simp [tensorpoints]
  | succ k ih =>
    intro g
    obtain ⟨h1, h2⟩ := ih g
    rw [tensorpoints]
    simp only
    refine ⟨by simp [h1], fun j hj => ?_⟩
    by_cases hjk : j < k
    · rw [List.getElem?_append_left (by omega)]; exact h2 j hjk
    · have : j = k := by omega
      subst this
      rw [List.getElem?_append_right (by omega), h1, points_size d (point_size d)]
      simp

theorem deref_rank (d : Nat) : ∀ (n g : Nat) (L : List Nat), L.length = d + 1 → L.Pairwise (· ≥ ·) → (∀ j ∈ L, j ≤ n) →
    deref (tensorpoint n d g).1 L = some (g + rank L) := by
  induction d with
  | zero =>
    intro n g L hl _ _
    obtain ⟨j, rfl⟩ := List.length_eq_one_iff.1 hl
    simp [tensorpoint, deref, rank]
  | succ d ih =>
    intro n g L hl hd hn
    cases L with
    | nil => simp at hl
    | cons x xs =>
      obtain ⟨h1, h2⟩ := List.pairwise_cons.1 hd
      have hl' : xs.length = d + 1 := by simpa using hl
      rw [tensorpoint]
      simp only [deref]
      rw [(points_get d (n + 1) g).2 x (by have := hn x (by simp); omega)]
      simp only
      rw [ih x _ xs hl' h2 h1, rank, hl', show d + 1 + 1 = d + 2 by omega]
      congr 1
      omega

end Verif.Num.Tensor
