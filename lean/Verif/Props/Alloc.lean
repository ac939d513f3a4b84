import Verif.Drivers.Alloc
import Verif.Drivers.Fortran
import Verif.Drivers.Ode

/-!
# C59: the arrays of the allocation helpers; the ODE calls of the Fortran interface

Reading guide.  `A.addr i j` is the address of `A[i][j]` in bytes from the start of the allocated block of `A.size` bytes; an entry occupies 8 bytes.
-/
set_option linter.all false
namespace Verif.Props.Alloc
open Verif.Alloc

/-- Two entries do not overlap. -/
def Apart (a b : ℕ) : Prop := a + 8 ≤ b ∨ b + 8 ≤ a

theorem apart_of_index {t q q' : ℕ} (h : q ≠ q') : Apart (t + 8 * q) (t + 8 * q') := by unfold Apart; omega

theorem index2_ne {n i j i' j' : ℕ} (hj : j < n) (hj' : j' < n) (h : ¬ (i = i' ∧ j = j')) : i * n + j ≠ i' * n + j' := by
  intro he
  apply h
  have h1 : (i * n + j) / n = i := by rw [Nat.mul_comm, Nat.mul_add_div (by omega), Nat.div_eq_of_lt hj, Nat.add_zero]
  have h2 : (i' * n + j') / n = i' := by rw [Nat.mul_comm, Nat.mul_add_div (by omega), Nat.div_eq_of_lt hj', Nat.add_zero]
  have h3 : i = i' := by rw [← h1, ← h2, he]
  subst h3
  exact ⟨rfl, by omega⟩

theorem index2_lt {m n i j : ℕ} (hi : i < m) (hj : j < n) : i * n + j < m * n := by
  have : (i + 1) * n ≤ m * n := Nat.mul_le_mul_right _ hi
  rw [Nat.succ_mul] at this; omega

/-- C59 (partial: not if the number of bytes overflows `size_t`, see `C59_myalloc2_overflow`).  `myalloc2(m, n)`: every entry lies inside the block and
behind the table of row pointers (which starts the block), entries do not overlap, and the block is exactly filled. -/
theorem C59_myalloc2_partial (m n : ℕ) (hm : 0 < m) (hn : 0 < n) (hsz : m * n * 8 + m * 8 < 2 ^ 64) :
    ∃ A, myalloc2 m n = some A ∧
      (∀ i < m, ∀ j < n, 8 * m ≤ A.addr i j ∧ A.addr i j + 8 ≤ A.size ∧ A.addr i j % 8 = 0) ∧
      (∀ i < m, ∀ j < n, ∀ i' < m, ∀ j' < n, ¬ (i = i' ∧ j = j') → Apart (A.addr i j) (A.addr i' j')) ∧
      A.size = (m + m * n) * 8 ∧ (populateDpp 0 m n).2 = A.size := by
  have e : ∀ i < m, ∀ j, (⟨sizeT (m * n * 8 + m * 8), (populateDpp 0 m n).1⟩ : Arr2).addr i j = 8 * m + 8 * (i * n + j) := by
    intro i hi j
    simp only [Arr2.addr, populateDpp, fill_eq, if_pos hi]; ring
  refine ⟨_, if_pos ⟨hm, hn⟩, fun i hi j hj => ?_, fun i hi j hj i' hi' j' hj' hne => ?_, ?_, ?_⟩
  · rw [e i hi j]
    have := index2_lt hi hj
    simp only [sizeT, Nat.mod_eq_of_lt hsz]
    omega
  · rw [e i hi, e i' hi']
    exact apart_of_index (index2_ne hj hj' hne)
  · simp only [sizeT, Nat.mod_eq_of_lt hsz]; ring
  · simp only [sizeT, Nat.mod_eq_of_lt hsz, populateDpp, fill_eq]; ring

/-- A dimension 0 gives the null pointer. -/
theorem C59_myalloc2_null (m n : ℕ) (h : m = 0 ∨ n = 0) : myalloc2 m n = none := if_neg (by omega)

/-- C59 (partial: without overflow).  `myalloc3(m, n, p)`: the same with the two tables in front. -/
theorem C59_myalloc3_partial (m n p : ℕ) (hm : 0 < m) (hn : 0 < n) (hp : 0 < p) (hsz : m * n * p * 8 + m * n * 8 + m * 8 < 2 ^ 64) :
    ∃ A, myalloc3 m n p = some A ∧
      (∀ i < m, A.tab i = 8 * (m + i * n)) ∧
      (∀ i < m, ∀ j < n, ∀ k < p, 8 * (m + m * n) ≤ A.addr i j k ∧ A.addr i j k + 8 ≤ A.size ∧ A.addr i j k % 8 = 0) ∧
      (∀ i < m, ∀ j < n, ∀ k < p, ∀ i' < m, ∀ j' < n, ∀ k' < p, ¬ (i = i' ∧ j = j' ∧ k = k') → Apart (A.addr i j k) (A.addr i' j' k')) ∧
      A.size = (m + m * n + m * n * p) * 8 ∧ (populateDppp 0 m n p).2.2 = A.size := by
  have e : ∀ i < m, ∀ j < n, ∀ k, (⟨sizeT (m * n * p * 8 + m * n * 8 + m * 8), (populateDppp 0 m n p).1, (populateDppp 0 m n p).2.1⟩ : Arr3).addr i j k =
      8 * (m + m * n) + 8 * ((i * n + j) * p + k) := by
    intro i hi j hj k
    simp only [Arr3.addr, populateDppp, fill_eq, fill2_eq, if_pos (show i < m ∧ j < n from ⟨hi, hj⟩)]; ring
  refine ⟨_, if_pos ⟨hm, hn, hp⟩, fun i hi => ?_, fun i hi j hj k hk => ?_, fun i hi j hj k hk i' hi' j' hj' k' hk' hne => ?_, ?_, ?_⟩
  · simp only [populateDppp, fill_eq, if_pos hi]; ring
  · rw [e i hi j hj k]
    have := index2_lt (index2_lt hi hj) hk
    simp only [sizeT, Nat.mod_eq_of_lt hsz]
    omega
  · rw [e i hi j hj, e i' hi' j' hj']
    refine apart_of_index (index2_ne hk hk' fun h => ?_)
    by_cases h2 : i = i' ∧ j = j'
    · exact hne ⟨h2.1, h2.2, h.2⟩
    · exact index2_ne hj hj' h2 h.1
  · simp only [sizeT, Nat.mod_eq_of_lt hsz]; ring
  · simp only [sizeT, Nat.mod_eq_of_lt hsz, populateDppp, fill_eq, fill2_eq]; ring

theorem myalloc2_first (m n : ℕ) (hm : 0 < m) (hn : 0 < n) :
    ∃ A, myalloc2 m n = some A ∧ A.size = sizeT (m * n * 8 + m * 8) ∧ A.addr 0 0 = 8 * m := by
  refine ⟨_, if_pos ⟨hm, hn⟩, rfl, ?_⟩
  simp only [Arr2.addr, populateDpp, fill_eq, if_pos hm]; ring

/-- C59 fails if the number of bytes overflows: `myalloc2(2^61, 7)` asks for 0 bytes, gets them, and its first row already lies outside. -/
theorem C59_myalloc2_overflow : ∃ A, myalloc2 (2 ^ 61) 7 = some A ∧ A.size = 0 ∧ A.addr 0 0 = 2 ^ 64 := by
  obtain ⟨A, h1, h2, h3⟩ := myalloc2_first (2 ^ 61) 7 (by positivity) (by norm_num)
  refine ⟨A, h1, ?_, ?_⟩
  · rw [h2, sizeT]; norm_num
  · rw [h3]; norm_num

/-! ## The identity -/

theorem idUp_eq (n : ℕ) (a : ℕ) (c : ℕ → ℤ) : idUp n (a, c) = (a + (n - 1), fun x => if a < x ∧ x ≤ a + (n - 1) then 0 else c x) := by
  unfold idUp
  generalize n - 1 = q
  induction q with
  | zero => refine Prod.ext rfl (funext fun x => ?_); simp only [List.range_zero, List.foldl_nil]; rw [if_neg (by omega)]
  | succ q ih =>
    rw [List.range_succ, List.foldl_append, ih]
    refine Prod.ext (by simp; omega) (funext fun x => ?_)
    simp only [List.foldl_cons, List.foldl_nil]
    by_cases h : x = a + q + 1
    · rw [if_pos h, if_pos (by omega)]
    · rw [if_neg h]
      by_cases h2 : a < x ∧ x ≤ a + q
      · rw [if_pos h2, if_pos (by omega)]
      · rw [if_neg h2, if_neg (by omega)]

theorem idDown_eq (q a : ℕ) (hq : q ≤ a) (p : ℕ → ℕ) (c : ℕ → ℤ) :
    (List.range q).foldl (fun (s : ℕ × IdB) q => (s.1 - 1, (⟨fun a => if a = q + 1 then s.1 - 1 else s.2.ptr a, fun a => if a = s.1 - 1 then 0 else s.2.cell a⟩ : IdB))) (a, ⟨p, c⟩) =
      (a - q, ⟨fun i => if 0 < i ∧ i ≤ q then a - i else p i, fun x => if a - q ≤ x ∧ x < a then 0 else c x⟩) := by
  induction q with
  | zero =>
    refine Prod.ext rfl ?_
    simp only [List.range_zero, List.foldl_nil]
    congr 1
    · funext i; rw [if_neg (by omega)]
    · funext i; rw [if_neg (by omega)]
  | succ q ih =>
    rw [List.range_succ, List.foldl_append, ih (by omega)]
    simp only [List.foldl_cons, List.foldl_nil]
    refine Prod.ext (by simp; omega) ?_
    simp only [IdB.mk.injEq]
    constructor
    · funext i
      by_cases h : i = q + 1
      · subst h; rw [if_pos rfl, if_pos (by omega)]; omega
      · rw [if_neg h]
        by_cases h2 : 0 < i ∧ i ≤ q
        · rw [if_pos h2, if_pos (show 0 < i ∧ i ≤ q + 1 by omega)]
        · rw [if_neg h2, if_neg (show ¬ (0 < i ∧ i ≤ q + 1) by omega)]
    · funext x
      by_cases h : x = a - q - 1
      · rw [if_pos h, if_pos (by omega)]
      · rw [if_neg h]
        by_cases h2 : a - q ≤ x ∧ x < a
        · rw [if_pos h2, if_pos (show a - (q + 1) ≤ x ∧ x < a by omega)]
        · rw [if_neg h2, if_neg (show ¬ (a - (q + 1) ≤ x ∧ x < a) by omega)]

/-- C59: `myallocI2(n)`, for every `n ≥ 1`: all entries `I[i][j]` lie in the block of `2n - 1` cells and `I` is the identity.  The last row pointer is the start of the
block: what `myfreeI2(n, I)` frees. -/
theorem C59_myallocI2 (n : ℕ) (hn : 0 < n) :
    (∀ i < n, ∀ j < n, (myallocI2 n).ptr i + j < 2 * n - 1 ∧ (myallocI2 n).cell ((myallocI2 n).ptr i + j) = if i = j then 1 else 0) ∧
    (myallocI2 n).ptr (n - 1) = 0 := by
  have e : myallocI2 n = ⟨fun i => if 0 < i ∧ i ≤ n - 1 then n - 1 - i else if i = 0 then n - 1 else 0,
      fun x => if n - 1 - (n - 1) ≤ x ∧ x < n - 1 then 0 else if n - 1 < x ∧ x ≤ n - 1 + (n - 1) then 0 else if x = n - 1 then 1 else 0⟩ := by
    simp only [myallocI2, idUp_eq, idDown, Nat.add_sub_cancel]
    rw [idDown_eq (n - 1) (n - 1) le_rfl]
  rw [e]
  have hp : ∀ i < n, (if 0 < i ∧ i ≤ n - 1 then n - 1 - i else if i = 0 then n - 1 else 0) = n - 1 - i := by
    intro i hi; split_ifs <;> omega
  refine ⟨fun i hi j hj => ?_, ?_⟩
  · simp only [hp i hi]
    refine ⟨by omega, ?_⟩
    by_cases hij : i = j
    · subst hij; rw [if_neg (by omega), if_neg (by omega), if_pos (by omega), if_pos rfl]
    · rw [if_neg hij]
      by_cases h1 : n - 1 - (n - 1) ≤ n - 1 - i + j ∧ n - 1 - i + j < n - 1
      · rw [if_pos h1]
      · rw [if_neg h1, if_pos (by omega)]
  · simp only []; split_ifs <;> omega

/-- The rows of `myallocI2` share their memory: writing 5 to `I[0][1]` changes `I[1][2]`, for every `n ≥ 3`. -/
theorem C59_identity_shared (n : ℕ) (hn : 3 ≤ n) : (myallocI2 n).ptr 0 + 1 = (myallocI2 n).ptr 1 + 2 := by
  simp only [myallocI2, idUp_eq, idDown, Nat.add_sub_cancel]
  rw [idDown_eq (n - 1) (n - 1) le_rfl]
  simp only []
  split_ifs <;> omega

/-! ## `forodec_` and `accodec_` -/

/-- The entries `accodec` writes, `nonzero = 0` (odedrivers.cpp:183-236): for `k = 0 … deg` all `B[i][j][k]`. -/
def accWrites (n deg : ℕ) : List (ℕ × ℕ × ℕ) :=
  (List.range (deg + 1)).flatMap fun k => (List.range n).flatMap fun i => (List.range n).map fun j => (i, j, k)

/-- What happens to memory in `accodec_` (odedriversf.cpp:57-79): the array `B` is allocated with `deg` instead of `deg + 1` entries per row.  For every
dimension and every degree `accodec` writes through the null pointer (`deg = 0`) or behind the end of the block. -/
theorem C57_accodec_overrun (n deg : ℕ) (hn : 0 < n) (hsz : n * n * deg * 8 + n * n * 8 + n * 8 < 2 ^ 64) :
    ∃ c ∈ accWrites n deg, match myalloc3 n n deg with
      | none => True
      | some A => A.size < A.addr c.1 c.2.1 c.2.2 + 8 := by
  refine ⟨(n - 1, n - 1, deg), ?_, ?_⟩
  · simp only [accWrites, List.mem_flatMap, List.mem_range, List.mem_map]
    exact ⟨deg, by omega, n - 1, by omega, n - 1, by omega, rfl⟩
  · rcases Nat.eq_zero_or_pos deg with rfl | hd
    · rw [show myalloc3 n n 0 = none from if_neg (by omega)]; trivial
    · rw [show myalloc3 n n deg = some _ from if_pos ⟨hn, hn, hd⟩]
      simp only [sizeT, Nat.mod_eq_of_lt hsz, Arr3.addr, populateDppp, fill_eq, fill2_eq]
      rw [if_pos ⟨by omega, by omega⟩]
      have : (n - 1) * n + (n - 1) = n * n - 1 := by
        obtain ⟨q, rfl⟩ : ∃ q, n = q + 1 := ⟨n - 1, by omega⟩
        simp only [Nat.add_sub_cancel]
        have : (q + 1) * (q + 1) = q * (q + 1) + (q + 1) := Nat.succ_mul _ _
        omega
      rw [this]
      have h1 : 0 < n * n := Nat.mul_pos hn hn
      have : (n * n - 1) * (8 * deg) + 8 * deg = n * n * deg * 8 := by
        obtain ⟨q, hq⟩ : ∃ q, n * n = q + 1 := ⟨n * n - 1, by omega⟩
        rw [hq, Nat.add_sub_cancel]; ring
      have e2 : n * (8 * n) = n * n * 8 := by ring
      omega

/-- … and the entry `B[i][j][deg]` is the entry `B[i][j+1][0]`. -/
theorem C57_accodec_alias (n deg : ℕ) (hd : 0 < deg) (i j : ℕ) (hi : i < n) (hj : j + 1 < n) :
    ∃ A, myalloc3 n n deg = some A ∧ A.addr i j deg = A.addr i (j + 1) 0 := by
  refine ⟨_, if_pos ⟨by omega, by omega, hd⟩, ?_⟩
  simp only [Arr3.addr, populateDppp, fill_eq, fill2_eq]
  rw [if_pos ⟨hi, by omega⟩, if_pos ⟨hi, hj⟩]; ring

/-- `forodec_` and `accodec_` end with `free(*Y)` and `free(**A)` (odedriversf.cpp:48, 72): these are not starts of allocated blocks. -/
theorem C57_forodec_free (n deg : ℕ) (hn : 0 < n) : ∃ Y, myalloc2 n (deg + 1) = some Y ∧ Y.row 0 ≠ 0 := by
  refine ⟨_, if_pos ⟨hn, by omega⟩, ?_⟩
  simp only [populateDpp, fill_eq, if_pos hn]; omega

section forodec
open Verif.AD Verif.Drivers
variable {K : Type} [Scalar K]

/-- `forodec_` (odedriversf.cpp:31-51) up to its calls of `free`: only `Y[i][0]` is copied in, all of `Y` is copied out. -/
def forodecF (t : Tape K) (tau : K) (dol deg : ℕ) (fy : ℕ → K) : Except DErr (ℕ → K) := do
  let r ← forodec t tau dol deg fun i k => if i < t.n ∧ k = 0 then fy i else 0
  .ok (pack2 t.n (deg + 1) r.1 fy)

/-- The coefficients `1 … dol` the caller has passed are lost: with `dol = deg ≥ 1` the call replaces all of them by zeros. -/
theorem C57_forodec_lost (t : Tape K) (tau : K) (deg : ℕ) (hd : 0 < deg) (fy : ℕ → K) :
    ∃ fy', forodecF t tau deg deg fy = .ok fy' ∧ ∀ i < t.n, fy' i = fy i ∧ ∀ k, 1 ≤ k → k ≤ deg → fy' (k * t.n + i) = 0 := by
  have h : ∃ r, forodec t tau deg deg (fun i k => if i < t.n ∧ k = 0 then fy i else 0) = .ok r ∧
      ∀ i < t.n, r.1 i 0 = fy i ∧ ∀ k, 1 ≤ k → k ≤ deg → r.1 i k = 0 := by
    have hd' : deg ≠ 0 := by omega
    refine ⟨_, by simp [forodec, hd']; rfl, fun i hi => ⟨?_, fun k hk1 hk2 => ?_⟩⟩
    · simp [shiftR, hi]
    · have h1 : k ≠ 0 := by omega
      simp [shiftR, shiftL, h1]
      try omega
  obtain ⟨r, h1, h2⟩ := h
  refine ⟨_, by rw [forodecF, h1]; rfl, fun i hi => ?_⟩
  have e : ∀ k, k ≤ deg → pack2 t.n (deg + 1) r.1 fy (k * t.n + i) = r.1 i k := by
    intro k hk
    have hlt : k * t.n + i < t.n * (deg + 1) := by rw [Nat.mul_comm t.n]; exact index2_lt (by omega) hi
    rw [pack2_eq, if_pos hlt, Nat.mul_comm k, Nat.mul_add_mod, Nat.mod_eq_of_lt hi, Nat.mul_add_div (by omega), Nat.div_eq_of_lt hi, Nat.add_zero]
  refine ⟨?_, fun k hk1 hk2 => ?_⟩
  · have := e 0 (by omega)
    rw [Nat.zero_mul, Nat.zero_add] at this
    rw [this, (h2 i hi).1]
  · rw [e k hk2, (h2 i hi).2 k hk1 hk2]
end forodec

/-- The hypotheses can be met. -/
example : (0:ℕ) < 3 ∧ (0:ℕ) < 4 ∧ 3 * 4 * 5 * 8 + 3 * 4 * 8 + 3 * 8 < 2 ^ 64 := by norm_num

end Verif.Props.Alloc
