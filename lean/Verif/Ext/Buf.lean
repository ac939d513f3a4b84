import Verif.Drivers.Alloc

/-!
# The working buffers of the second version of external functions (`ADOL-C/src/externfcts2.cpp`)

`update_ext_fct_memory` keeps one block per record with ten arrays of rows: `x, y, xp, yp, up, zp` (rows of `double`) and `Xp, Yp, Up, Zp` (rows of
pointers).  Addresses are counted in bytes from the start of the block, a `double` and a pointer take 8 bytes (LP64), the size passed to `malloc` is
computed modulo `2^64`.  Simplified: `malloc` succeeds and does not return a null pointer for size 0.
-/
set_option linter.all false
namespace Verif.Ext2
open Verif.Alloc

/-- The sizes of one call of `call_ext_fct` (externfcts2.cpp:82-84): `nin` input blocks of `insz[i]` variables, `nout` output blocks of `outsz[i]`. -/
structure Shape where
  nin : ℕ
  nout : ℕ
  insz : ℕ → ℕ
  outsz : ℕ → ℕ

/-- `for (i < n) m = (m < sz[i]) ? sz[i] : m;` (externfcts2.cpp:41-44) -/
def maxOf (n : ℕ) (sz : ℕ → ℕ) : ℕ := (List.range n).foldl (fun m i => if m < sz i then sz i else m) 0

/-- The four sizes the function compares: `nin`, `nout`, `m_isz`, `m_osz` (externfcts2.cpp:40-44) and `max_nin` … `max_outsz` (externfcts2.h:184). -/
structure Dim where
  nin : ℕ
  nout : ℕ
  isz : ℕ
  osz : ℕ

def Shape.dim (c : Shape) : Dim := ⟨c.nin, c.nout, maxOf c.nin c.insz, maxOf c.nout c.outsz⟩

/-- One array in the block: the address of its pointer table, the number of entries of the table, the entries (a row's address). -/
structure Arr where
  tab : ℕ
  n : ℕ
  row : ℕ → ℕ

/-- `populate_dpp` / `populate_dppp_nodata` (adalloc.cpp:36-52, 80-97), called one after the other, each at the end of the previous. -/
def layout : List (ℕ × ℕ) → ℕ → List Arr × ℕ
  | [], mem => ([], mem)
  | (n, m) :: ds, mem =>
    let p := populateDpp mem n m
    let r := layout ds p.2
    (⟨mem, n, p.1⟩ :: r.1, r.2)

/-- The arrays in the order of the calls (externfcts2.cpp:64-73): x, y, xp, yp, up, zp, Xp, Yp, Up, Zp. -/
def order (d : Dim) : List (ℕ × ℕ) :=
  [(d.nin, d.isz), (d.nout, d.osz), (d.nin, d.isz), (d.nout, d.osz), (d.nout, d.osz), (d.nin, d.isz),
   (d.nin, d.isz), (d.nout, d.osz), (d.nout, d.osz), (d.nin, d.isz)]

/-- `totalmem` (externfcts2.cpp:51-59), in 8-byte words. -/
def words (d : Dim) : ℕ :=
  let q := d.nout * d.osz
  (3 * d.nin * d.isz + 3 * d.nout * d.osz) +
  (3 * d.nin + 3 * d.nout + d.nin * d.isz + d.nout * d.osz + q * d.nout + q * d.nin) +
  (d.nin + d.nout + 2 * q)

/-- The block `allmem` and the ten arrays in it. -/
structure Block where
  size : ℕ
  arr : List Arr

/-- The allocation (externfcts2.cpp:60-73) -/
def alloc (d : Dim) : Block := ⟨sizeT (words d * 8), (layout (order d) 0).1⟩

/-- The fields of a record that the function reads and writes. -/
structure Rec where
  mx : Dim
  buf : Option Block
  user : Bool

/-- A new record (externfcts2.h:118-184); `user_allocated_mem` as the user sets it. -/
def Rec.new (user : Bool) : Rec := ⟨⟨0, 0, 0, 0⟩, none, user⟩

/-- `(a < b) ? b : a` -/
def upto (a b : ℕ) : ℕ := if a < b then b else a

/-- The condition of the `if` (externfcts2.cpp:45-49) -/
def stale (r : Rec) (d : Dim) : Bool :=
  r.buf.isNone || decide (r.mx.nin < d.nin) || decide (r.mx.nout < d.nout) || decide (r.mx.isz < d.isz) || decide (r.mx.osz < d.osz)

/-- `update_ext_fct_memory` (externfcts2.cpp:38-79) -/
def update (r : Rec) (d : Dim) : Rec :=
  { r with buf := if stale r d then some (alloc d) else r.buf
           mx := ⟨upto r.mx.nin d.nin, upto r.mx.nout d.nout, upto r.mx.isz d.isz, upto r.mx.osz d.osz⟩ }

/-- What a call does to the buffers (externfcts2.cpp:121-122) -/
def call (r : Rec) (c : Shape) : Rec := if r.user then r else update r c.dim

/-- The record after a sequence of calls while taping. -/
def calls (r : Rec) (cs : List Shape) : Rec := cs.foldl call r

/-! ## Specification -/

/-- The arrays by name. -/
inductive Name where
  | x | y | xp | yp | up | zp | Xp | Yp | Up | Zp
  deriving DecidableEq

/-- Position in the block. -/
def Name.pos : Name → ℕ
  | .x => 0 | .y => 1 | .xp => 2 | .yp => 3 | .up => 4 | .zp => 5 | .Xp => 6 | .Yp => 7 | .Up => 8 | .Zp => 9

/-- Arrays shaped like the inputs; the others are shaped like the outputs. -/
def Name.isIn : Name → Bool
  | .x | .xp | .zp | .Xp | .Zp => true
  | _ => false

/-- The entries of an array that a call with these sizes uses: `A[i][j]` for every variable `j` of every block `i`. -/
def Used (c : Shape) (a : Name) (i j : ℕ) : Prop :=
  if a.isIn then i < c.nin ∧ j < c.insz i else i < c.nout ∧ j < c.outsz i

/-- The address of `A[i][j]`, if entry `i` of the table exists. -/
def Block.addr (b : Block) (a : Name) (i j : ℕ) : Option ℕ :=
  match b.arr[a.pos]? with
  | none => none
  | some A => if i < A.n then some (A.row i + 8 * j) else none

/-- The address of the table entry `A[i]`. -/
def Block.ptr (b : Block) (a : Name) (i : ℕ) : Option ℕ :=
  match b.arr[a.pos]? with
  | none => none
  | some A => if i < A.n then some (A.tab + 8 * i) else none

/-- The entries of the arrays in `S` that a call uses lie in the block, are pairwise different cells, and are not cells of a pointer table, which itself
lies in the block. -/
structure Room (b : Block) (c : Shape) (S : Name → Prop) : Prop where
  inside : ∀ a, S a → ∀ i j, Used c a i j → ∃ p q, b.ptr a i = some p ∧ p + 8 ≤ b.size ∧ b.addr a i j = some q ∧ q + 8 ≤ b.size
  apart : ∀ a a', S a → S a' → ∀ i j i' j', Used c a i j → Used c a' i' j' → ∀ q q', b.addr a i j = some q → b.addr a' i' j' = some q' →
    (a, i, j) ≠ (a', i', j') → q + 8 ≤ q' ∨ q' + 8 ≤ q
  tables : ∀ a a', S a → ∀ i j i', Used c a i j → ∀ q p, b.addr a i j = some q → b.ptr a' i' = some p → q + 8 ≤ p ∨ p + 8 ≤ q

end Verif.Ext2
