import Mathlib.Algebra.BigOperators.Fin
import Mathlib.Data.Real.Basic
/-!
# Recovering a sparse Jacobian from the compressed one

Model of `/repo/ADOL-C/src/valuetape/sparseinfos.cpp` 103-171.  The colouring itself is computed by
the external library ColPack; its contract is stated as `ColumnColouring` / `RowColouring`.
A pattern is a list of rows, each the number of entries followed by the entries
(compressed row storage, `uint **JP`).
-/
set_option linter.all false
namespace Verif.Sparse

/-- An entry of a `SparseMatrix`: row, column, value (sparsematrix.h, `CoordinateFormatTripled`). -/
abbrev Entry (K : Type) := ℕ × ℕ × K

/-- `nnzIn_` (sparsedrivers.h:728-732, sparsedrivers.cpp:127-131): counted entry by entry. -/
def nnz (JP : List (List ℕ)) : ℕ :=
  (List.range JP.length).foldl (fun k i => (List.range' 1 ((JP[i]?.getD []).headD 0)).foldl (fun k _ => k + 1) k) 0

/-- The two nested loops of the recovery (sparseinfos.cpp:124-134, 154-164): entry number `count` of the matrix is
overwritten and `count` increased. -/
def recoverLoop {K : Type} (JP : List (List ℕ)) (val : ℕ → ℕ → K) (M : List (Entry K)) : List (Entry K) × ℕ :=
  (List.range JP.length).foldl (fun st i =>
    (List.range' 1 ((JP[i]?.getD []).headD 0)).foldl (fun (st : List (Entry K) × ℕ) j =>
      (st.1.set st.2 (i, ((JP[i]?.getD [])[j]?).getD 0, val i (((JP[i]?.getD [])[j]?).getD 0)), st.2 + 1)) st) (M, 0)

/-- `recoverColFormatUserMem` (sparseinfos.cpp:142-165): value `B[i][colour of the column]`. -/
def recoverColUserMem {K : Type} (JP : List (List ℕ)) (right : ℕ → ℕ) (B : ℕ → ℕ → K) (M : List (Entry K)) :
    List (Entry K) := (recoverLoop JP (fun i j => B i (right j)) M).1

/-- `recoverRowFormatUserMem` (sparseinfos.cpp:112-135): value `B[colour of the row][column]`. -/
def recoverRowUserMem {K : Type} (JP : List (List ℕ)) (left : ℕ → ℕ) (B : ℕ → ℕ → K) (M : List (Entry K)) :
    List (Entry K) := (recoverLoop JP (fun i j => B (left i) j) M).1

/-- `sparseJac.resize(nnzIn_)`. -/
def resize {K : Type} (M : List (Entry K)) (n : ℕ) (z : K) : List (Entry K) :=
  M.take n ++ List.replicate (n - M.length) (0, 0, z)

/-- `recoverColFormat` (sparseinfos.cpp:167-170). -/
def recoverCol {K : Type} (JP : List (List ℕ)) (right : ℕ → ℕ) (B : ℕ → ℕ → K) (z : K) (M : List (Entry K)) :
    List (Entry K) := recoverColUserMem JP right B (resize M (nnz JP) z)

/-- `recoverRowFormat` (sparseinfos.cpp:137-140). -/
def recoverRow {K : Type} (JP : List (List ℕ)) (left : ℕ → ℕ) (B : ℕ → ℕ → K) (z : K) (M : List (Entry K)) :
    List (Entry K) := recoverRowUserMem JP left B (resize M (nnz JP) z)

/-- A row of the compressed storage: the count, then that many entries. -/
def RowWf (r : List ℕ) : Prop := ∃ t, r = t.length :: t

/-- ColPack's `COLUMN_PARTIAL_DISTANCE_TWO`: columns with entries in a common row have different colours; the
colours are `0 … p-1`. -/
structure ColumnColouring (JP : List (List ℕ)) (n : ℕ) (right : ℕ → ℕ) (p : ℕ) : Prop where
  lt : ∀ j, j < n → right j < p
  proper : ∀ r ∈ JP, ∀ j ∈ r.tail, ∀ k ∈ r.tail, j ≠ k → right j ≠ right k

/-- ColPack's `ROW_PARTIAL_DISTANCE_TWO`: rows with an entry in a common column have different colours. -/
structure RowColouring (JP : List (List ℕ)) (left : ℕ → ℕ) (p : ℕ) : Prop where
  lt : ∀ i, i < JP.length → left i < p
  proper : ∀ i k, i < JP.length → k < JP.length → i ≠ k →
    ∀ j, j ∈ (JP[i]?.getD []).tail → j ∈ (JP[k]?.getD []).tail → left i ≠ left k

/-- The columns of row `i` of the pattern. -/
def patRow (JP : List (List ℕ)) (i : ℕ) : List ℕ := (JP[i]?.getD []).tail

/-- The entries in the order of the pattern. -/
def entries {K : Type} (JP : List (List ℕ)) (val : ℕ → ℕ → K) : List (Entry K) :=
  (List.range JP.length).flatMap fun i => (patRow JP i).map fun j => (i, j, val i j)

variable {K : Type}

theorem foldl_write (L : List (Entry K)) : ∀ (M : List (Entry K)) (c : ℕ), c + L.length ≤ M.length →
    L.foldl (fun (st : List (Entry K) × ℕ) e => (st.1.set st.2 e, st.2 + 1)) (M, c) =
      (M.take c ++ L ++ M.drop (c + L.length), c + L.length) := by
  induction L with
  | nil => intro M c h; simp
  | cons e L ih =>
    intro M c h
    simp only [List.length_cons] at h
    rw [List.foldl_cons, ih _ _ (by simp; omega)]
    have e1 : (M.set c e).take (c + 1) = M.take c ++ [e] := by
      rw [List.take_add_one, List.take_set_of_le (Nat.le_refl c), List.getElem?_set_self (by omega)]
      simp
    have e2 : (M.set c e).drop (c + 1 + L.length) = M.drop (c + 1 + L.length) := by
      rw [List.drop_set_of_lt (by omega)]
    rw [e1, e2]
    simp [Nat.add_assoc, Nat.add_comm 1]

theorem foldl_flatMap' {α β γ : Type} (g : γ → β → γ) (f : α → List β) (L : List α) : ∀ st : γ,
    L.foldl (fun st i => (f i).foldl g st) st = (L.flatMap f).foldl g st := by
  induction L with
  | nil => intro st; rfl
  | cons a L ih => intro st; rw [List.foldl_cons, ih, List.flatMap_cons, List.foldl_append]

theorem rows_of_wf {JP : List (List ℕ)} (h : ∀ r ∈ JP, RowWf r) (i : ℕ) (hi : i < JP.length) :
    (List.range' 1 ((JP[i]?.getD []).headD 0)).map (fun j => ((JP[i]?.getD [])[j]?).getD 0) = patRow JP i := by
  obtain ⟨t, ht⟩ := h JP[i] (List.getElem_mem hi)
  simp only [patRow, List.getElem?_eq_getElem hi, Option.getD_some, ht, List.headD_cons, List.tail_cons]
  apply List.ext_getElem
  · simp
  · intro k h1 h2
    simp at h1
    simp [Nat.add_comm 1 k, List.getElem?_eq_getElem h1]

theorem recoverLoop_eq {JP : List (List ℕ)} (h : ∀ r ∈ JP, RowWf r) (val : ℕ → ℕ → K) (M : List (Entry K))
    (hM : (entries JP val).length ≤ M.length) :
    (recoverLoop JP val M).1 = entries JP val ++ M.drop (entries JP val).length := by
  have e : recoverLoop JP val M =
      (entries JP val).foldl (fun (st : List (Entry K) × ℕ) e => (st.1.set st.2 e, st.2 + 1)) (M, 0) := by
    unfold recoverLoop entries
    rw [← foldl_flatMap']
    apply List.foldl_ext
    intro st i hi
    rw [List.mem_range] at hi
    rw [← rows_of_wf h i hi, List.map_map, List.foldl_map]
    rfl
  rw [e, foldl_write _ _ _ (by simpa using hM)]
  simp

theorem nnz_eq {JP : List (List ℕ)} (h : ∀ r ∈ JP, RowWf r) (val : ℕ → ℕ → K) :
    nnz JP = (entries JP val).length := by
  have c : ∀ (L : List ℕ) (k : ℕ), L.foldl (fun k _ => k + 1) k = k + L.length := by
    intro L; induction L with
    | nil => intro k; rfl
    | cons a L ih => intro k; rw [List.foldl_cons, ih]; simp [Nat.add_assoc, Nat.add_comm 1]
  unfold nnz entries
  rw [foldl_flatMap' (fun (k : ℕ) (_ : ℕ) => k + 1), c, Nat.zero_add]
  rw [List.length_flatMap, List.length_flatMap]
  congr 1
  apply List.map_congr_left
  intro i hi
  rw [List.mem_range] at hi
  rw [List.length_map, ← rows_of_wf h i hi, List.length_map]

theorem resize_length (M : List (Entry K)) (n : ℕ) (z : K) : (resize M n z).length = n := by
  simp [resize]; omega

theorem recoverCol_eq {JP : List (List ℕ)} (h : ∀ r ∈ JP, RowWf r) (right : ℕ → ℕ) (B : ℕ → ℕ → K) (z : K)
    (M : List (Entry K)) : recoverCol JP right B z M = entries JP fun i j => B i (right j) := by
  unfold recoverCol recoverColUserMem
  have hl : (resize M (nnz JP) z).length = (entries JP fun i j => B i (right j)).length := by
    rw [resize_length, nnz_eq h]
  rw [recoverLoop_eq h _ _ (by rw [hl]), List.drop_eq_nil_of_le (by rw [hl]), List.append_nil]

theorem recoverRow_eq {JP : List (List ℕ)} (h : ∀ r ∈ JP, RowWf r) (left : ℕ → ℕ) (B : ℕ → ℕ → K) (z : K)
    (M : List (Entry K)) : recoverRow JP left B z M = entries JP fun i j => B (left i) j := by
  unfold recoverRow recoverRowUserMem
  have hl : (resize M (nnz JP) z).length = (entries JP fun i j => B (left i) j).length := by
    rw [resize_length, nnz_eq h]
  rw [recoverLoop_eq h _ _ (by rw [hl]), List.drop_eq_nil_of_le (by rw [hl]), List.append_nil]

theorem mem_entries {JP : List (List ℕ)} {val : ℕ → ℕ → K} {e : Entry K} :
    e ∈ entries JP val ↔ e.1 < JP.length ∧ e.2.1 ∈ patRow JP e.1 ∧ e.2.2 = val e.1 e.2.1 := by
  obtain ⟨i, j, v⟩ := e
  simp only [entries, List.mem_flatMap, List.mem_range, List.mem_map, Prod.mk.injEq]
  constructor
  · rintro ⟨i', h1, j', h2, rfl, rfl, rfl⟩; exact ⟨h1, h2, rfl⟩
  · rintro ⟨h1, h2, h3⟩; exact ⟨i, h1, j, h2, rfl, rfl, h3.symm⟩

/-- The entries are ordered by row and, when the rows are, by column within a row; so every position occurs at
most once. -/
theorem entries_sorted {JP : List (List ℕ)} (hs : ∀ r ∈ JP, r.tail.Pairwise (· < ·)) (val : ℕ → ℕ → K) :
    (entries JP val).Pairwise fun e e' => e.1 < e'.1 ∨ (e.1 = e'.1 ∧ e.2.1 < e'.2.1) := by
  unfold entries
  rw [List.pairwise_flatMap]
  constructor
  · intro i hi
    rw [List.mem_range] at hi
    rw [List.pairwise_map]
    have : (patRow JP i).Pairwise (· < ·) := by
      have := hs JP[i] (List.getElem_mem hi)
      simpa [patRow, List.getElem?_eq_getElem hi] using this
    exact this.imp fun h => Or.inr ⟨rfl, h⟩
  · refine List.pairwise_lt_range.imp fun h => ?_
    intro x hx y hy
    rw [List.mem_map] at hx hy
    obtain ⟨_, _, rfl⟩ := hx
    obtain ⟨_, _, rfl⟩ := hy
    exact Or.inl h

end Verif.Sparse
