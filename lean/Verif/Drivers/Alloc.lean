import Mathlib.Tactic.Ring
import Mathlib.Tactic.NormNum
import Mathlib.Tactic.Linarith

/-!
# The allocation helpers (`ADOL-C/src/adalloc.cpp`)

Addresses are counted in bytes from the start of the block the call allocates; a `double` and a pointer take 8 bytes (LP64).  The size passed to
`calloc` is computed in `size_t`, that is modulo `2^64`.  Simplified: `calloc` succeeds.
-/
set_option linter.all false
namespace Verif.Alloc

/-- `size_t` arithmetic. -/
def sizeT (x : ℕ) : ℕ := x % 2 ^ 64

/-- One loop `for (i < n) { p[i] = tmp; tmp += step; }`: the table and the final pointer. -/
def fill (n step tmp : ℕ) : (ℕ → ℕ) × ℕ :=
  (List.range n).foldl (fun (s : (ℕ → ℕ) × ℕ) i => (fun a => if a = i then s.2 else s.1 a, s.2 + step)) (fun _ => 0, tmp)

/-- `populate_dpp(&A, memory, n, m)` (adalloc.cpp:36-52): the row pointers and the returned end pointer. -/
def populateDpp (mem n m : ℕ) : (ℕ → ℕ) × ℕ := fill n (8 * m) (mem + 8 * n)

/-- `populate_dppp(&A, memory, n, m, p)` (adalloc.cpp:54-79): the first table, the second (`A[i][j]`), the end pointer. -/
def populateDppp (mem n m p : ℕ) : (ℕ → ℕ) × (ℕ → ℕ → ℕ) × ℕ :=
  let t1 := fill n (8 * m) (mem + 8 * n)
  let t2 := (List.range n).foldl (fun (s : (ℕ → ℕ → ℕ) × ℕ) i => (List.range m).foldl (fun (s : (ℕ → ℕ → ℕ) × ℕ) j =>
    (fun a b => if a = i ∧ b = j then s.2 else s.1 a b, s.2 + 8 * p)) s) (fun _ _ => 0, t1.2)
  (t1.1, t2.1, t2.2)

/-- An allocated matrix: the number of bytes asked for and the row pointers. -/
structure Arr2 where
  size : ℕ
  row : ℕ → ℕ
/-- The address of `A[i][j]`. -/
def Arr2.addr (A : Arr2) (i j : ℕ) : ℕ := A.row i + 8 * j

/-- An allocated tensor: the number of bytes, the table of tables and the row pointers. -/
structure Arr3 where
  size : ℕ
  tab : ℕ → ℕ
  row : ℕ → ℕ → ℕ
/-- The address of `A[i][j][k]`. -/
def Arr3.addr (A : Arr3) (i j k : ℕ) : ℕ := A.row i j + 8 * k

/-- `myalloc2(m, n)` (adalloc.cpp:112-126); `none`: the null pointer. -/
def myalloc2 (m n : ℕ) : Option Arr2 :=
  if m > 0 ∧ n > 0 then some ⟨sizeT (m * n * 8 + m * 8), (populateDpp 0 m n).1⟩ else none

/-- `myalloc3(m, n, p)` (adalloc.cpp:129-149) -/
def myalloc3 (m n p : ℕ) : Option Arr3 :=
  if m > 0 ∧ n > 0 ∧ p > 0 then
    some ⟨sizeT (m * n * p * 8 + m * n * 8 + m * 8), (populateDppp 0 m n p).1, (populateDppp 0 m n p).2.1⟩ else none

/-- The block of `myallocI2(n)` (adalloc.cpp:169-192), in cells: the pointers `I[i]` and the contents, for `n ≥ 1`.  Contents 2: not initialised by the
loops (there is none); the block from `calloc` is zero. -/
structure IdB where
  ptr : ℕ → ℕ
  cell : ℕ → ℤ

/-- The first loop: `*(++Idum) = 0.0` for `i = 1 … n-1` (186-187). -/
def idUp (n : ℕ) (s : ℕ × (ℕ → ℤ)) : ℕ × (ℕ → ℤ) :=
  (List.range (n - 1)).foldl (fun s _ => (s.1 + 1, fun a => if a = s.1 + 1 then 0 else s.2 a)) s
/-- The second loop: `I[i] = --Idum; *Idum = 0.0` for `i = 1 … n-1` (189-192). -/
def idDown (n : ℕ) (s : ℕ × IdB) : ℕ × IdB :=
  (List.range (n - 1)).foldl (fun s q => (s.1 - 1, ⟨fun a => if a = q + 1 then s.1 - 1 else s.2.ptr a, fun a => if a = s.1 - 1 then 0 else s.2.cell a⟩)) s

/-- `myallocI2(n)`, `n ≥ 1`. -/
def myallocI2 (n : ℕ) : IdB :=
  let start := n - 1
  let up := idUp n (start, fun a => if a = start then 1 else 0)
  (idDown n (up.1 - (n - 1), ⟨fun a => if a = 0 then start else 0, up.2⟩)).2

/-! ### What they compute -/

theorem fill_eq (n step tmp : ℕ) : fill n step tmp = (fun i => if i < n then tmp + i * step else 0, tmp + n * step) := by
  unfold fill
  induction n with
  | zero => simp
  | succ n ih =>
    rw [List.range_succ, List.foldl_append, ih]
    refine Prod.ext ?_ (by simp; ring)
    funext i
    simp only [List.foldl_cons, List.foldl_nil]
    by_cases h : i = n
    · subst h; simp
    · rw [if_neg h]
      by_cases h2 : i < n
      · rw [if_pos h2, if_pos (by omega)]
      · rw [if_neg h2, if_neg (by omega)]

theorem fill2_eq (n m p tmp : ℕ) :
    (List.range n).foldl (fun (s : (ℕ → ℕ → ℕ) × ℕ) i => (List.range m).foldl (fun (s : (ℕ → ℕ → ℕ) × ℕ) j =>
      (fun a b => if a = i ∧ b = j then s.2 else s.1 a b, s.2 + 8 * p)) s) (fun _ _ => 0, tmp) =
    (fun i j => if i < n ∧ j < m then tmp + (i * m + j) * (8 * p) else 0, tmp + n * m * (8 * p)) := by
  have inner : ∀ m i (t : ℕ → ℕ → ℕ) (q : ℕ), (List.range m).foldl (fun (s : (ℕ → ℕ → ℕ) × ℕ) j =>
      (fun a b => if a = i ∧ b = j then s.2 else s.1 a b, s.2 + 8 * p)) (t, q) =
      (fun a b => if a = i ∧ b < m then q + b * (8 * p) else t a b, q + m * (8 * p)) := by
    intro m i t q
    induction m with
    | zero => simp
    | succ m ih =>
      rw [List.range_succ, List.foldl_append, ih]
      refine Prod.ext ?_ (by simp; ring)
      funext a b
      simp only [List.foldl_cons, List.foldl_nil]
      by_cases h : a = i ∧ b = m
      · obtain ⟨rfl, rfl⟩ := h; simp
      · rw [if_neg h]
        by_cases h2 : a = i ∧ b < m
        · rw [if_pos h2, if_pos (by omega)]
        · rw [if_neg h2, if_neg (by omega)]
  induction n with
  | zero => simp
  | succ n ih =>
    rw [List.range_succ, List.foldl_append, ih]
    simp only [List.foldl_cons, List.foldl_nil, inner]
    refine Prod.ext ?_ (by simp; ring)
    funext a b
    simp only []
    by_cases h : a = n ∧ b < m
    · obtain ⟨rfl, h⟩ := h
      rw [if_pos ⟨rfl, h⟩, if_pos ⟨Nat.lt_succ_self _, h⟩]; ring
    · rw [if_neg h]
      by_cases h2 : a < n ∧ b < m
      · rw [if_pos h2, if_pos (by omega)]
      · rw [if_neg h2, if_neg (by omega)]

end Verif.Alloc
