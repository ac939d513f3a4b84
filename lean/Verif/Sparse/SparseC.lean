import Verif.Sparse.SparseJac
import Verif.Sparse.SparseHess
/-!
# The C interface of the sparse drivers

Model of `/repo/ADOL-C/src/sparse/sparsedrivers_c.cpp`.  Arrays are blocks with an identity and contents, so that one can
say which array a pointer of the caller designates after the call and which arrays have been deleted.  Not modelled: the
conversion of sizes to `int`, arrays the caller has not obtained from `new[]`, and three pointers that are not distinct.
-/
set_option linter.all false
namespace Verif.Sparse
open Verif.AD Verif.Drivers

/-- `parseSM` (sparsedrivers_c.cpp:19-22): is it `BitPattern`? -/
def parseSM (o : ℕ → ℤ) : Bool := decide (o 0 = 1)

/-- `parseJacCFM` (24-26): is it `Tight`? -/
def parseJacCFM (o : ℕ → ℤ) : Bool := decide (o 1 = 1)

/-- `parseHessCFM` (28-40). -/
def parseHessCFM (o : ℤ) : HMode :=
  if o = 0 then .safe else if o = 1 then .tight else if o = 2 then .oldSafe else if o = 3 then .oldTight else .safe

/-- `parseBPPD` (42-52). -/
def parseBPPD (o : ℕ → ℤ) : Dir := if o 2 = 1 then .forward else if o 2 = 2 then .reverse else .auto

/-- `parseCM` (54-60). -/
def parseCM (o : ℕ → ℤ) : CMode := if o 3 = 1 then .row else .column

/-- `parseRM` (62-68). -/
def parseRM (o : ℕ → ℤ) : RMode := if o 1 = 1 then .direct else .indirect

variable {K : Type} [Scalar K]

/-- `jac_pat` (sparsedrivers_c.cpp:157-199): the dispatch to the templates. -/
def jacPatC (o : ℕ → ℤ) (t : Tape K) (x : ℕ → K) (q : Junk K) : Except (Option ℤ) (List (Option (List ℕ))) :=
  if parseSM o = false then
    if parseJacCFM o then jacPat (.index true) t x q else jacPat (.index false) t x q
  else
    if parseJacCFM o then
      if parseBPPD o = .forward then jacPat (.bits true .forward) t x q
      else if parseBPPD o = .reverse then jacPat (.bits true .reverse) t x q
      else jacPat (.bits true .auto) t x q
    else
      if parseBPPD o = .forward then jacPat (.bits false .forward) t x q
      else if parseBPPD o = .reverse then jacPat (.bits false .reverse) t x q
      else jacPat (.bits false .auto) t x q

/-- `hess_pat` (sparsedrivers_c.cpp:201-215). -/
def hessPatC (o : ℕ → ℤ) (t : Tape K) (x : ℕ → K) : Except (Option ℤ) (List (List ℕ)) :=
  match parseHessCFM (o 0) with
  | .safe => hessPat .safe t x
  | .tight => hessPat .tight t x
  | .oldSafe => hessPat .oldSafe t x
  | .oldTight => hessPat .oldTight t x

/-- A block from `new[]`. -/
structure Buf (α : Type) where
  id : ℕ
  data : List α

/-- An argument of type `T **`: null, or the address of a pointer that is null (`none`) or designates a block. -/
inductive PP (α : Type) where
  | null
  | ptr (b : Option (Buf α))

/-- `p != nullptr && *p != nullptr`. -/
def PP.set {α : Type} : PP α → Bool
  | .ptr (some _) => true
  | _ => false

/-- `freeBuffer` (sparsedrivers_c.cpp:113-118): the blocks it deletes. -/
def PP.freed {α : Type} : PP α → List ℕ
  | .ptr (some b) => [b.id]
  | _ => []

/-- `*p = new T[n]` and the loop that fills the block: `none` if `p` is null. -/
def PP.renew {α : Type} (p : PP α) (id : ℕ) (L : List α) : Option (PP α) :=
  match p with
  | .null => none
  | .ptr _ => some (.ptr (some ⟨id, L⟩))

/-- The loop fills the caller's block: `none` if it is too short or if there is none. -/
def PP.fill {α : Type} (p : PP α) (L : List α) : Option (PP α) :=
  match p with
  | .ptr (some b) => if L.length ≤ b.data.length then some (.ptr (some ⟨b.id, L ++ b.data.drop L.length⟩)) else none
  | _ => none

/-- What the caller sees: the number behind `nnz` (`none`: a null pointer), the three arrays, and the deleted blocks. -/
structure CArgs (K : Type) where
  nnz : Option ℤ
  rind : PP ℕ
  cind : PP ℕ
  values : PP K
  deleted : List ℕ

/-- `hasUserMemory` (sparsedrivers_c.cpp:245-247). -/
def CArgs.user (a : CArgs K) : Bool := a.rind.set && a.cind.set && a.values.set

/-- `writeJacToBuffers` (sparsedrivers_c.cpp:120-153).  `next`: the allocator's next identity.  `none`: undefined behaviour (`*nnz` or
`*rind` through a null pointer, blocks that are too short).  The result `false` (142-145) cannot occur: all pointers are
non-null there. -/
def writeJac (M : List (Entry K)) (next : ℕ) (a : CArgs K) : Option (CArgs K) :=
  let req := a.nnz.getD 0
  if a.user = true ∧ req = M.length then do
    let r ← a.rind.fill (M.map (·.1))
    let c ← a.cind.fill (M.map (·.2.1))
    let v ← a.values.fill (M.map (·.2.2))
    some ⟨a.nnz.map fun _ => (M.length : ℤ), r, c, v, a.deleted⟩
  else do
    let _ ← a.nnz
    let r ← a.rind.renew next (M.map (·.1))
    let c ← a.cind.renew (next + 1) (M.map (·.2.1))
    let v ← a.values.renew (next + 2) (M.map (·.2.2))
    some ⟨some (M.length : ℤ), r, c, v, a.deleted ++ a.rind.freed ++ a.cind.freed ++ a.values.freed⟩

/-- How a call of the C interface ends. -/
inductive CRes (K : Type) where
  | ret (code : ℤ) (J : SJ) (a : CArgs K)
  | undef

/-- The dispatch of the C function `sparse_jac` (sparsedrivers_c.cpp:250-336): the templates' parameters. -/
def dispatchJac (o : ℕ → ℤ) : Method × CMode :=
  if parseSM o = false then
    if parseCM o = .row then
      if parseJacCFM o then (.index true, .row) else (.index false, .row)
    else
      if parseJacCFM o then (.index true, .column) else (.index false, .column)
  else
    if parseCM o = .row then
      if parseJacCFM o then
        if parseBPPD o = .forward then (.bits true .forward, .row)
        else if parseBPPD o = .reverse then (.bits true .reverse, .row)
        else (.bits true .auto, .row)
      else
        if parseBPPD o = .forward then (.bits false .forward, .row)
        else if parseBPPD o = .reverse then (.bits false .reverse, .row)
        else (.bits false .auto, .row)
    else
      if parseJacCFM o then
        if parseBPPD o = .forward then (.bits true .forward, .column)
        else if parseBPPD o = .reverse then (.bits true .reverse, .column)
        else (.bits true .auto, .column)
      else
        if parseBPPD o = .forward then (.bits false .forward, .column)
        else if parseBPPD o = .reverse then (.bits false .reverse, .column)
        else (.bits false .auto, .column)

/-- The C function `sparse_jac` (sparsedrivers_c.cpp:235-345): the C++ function with an empty matrix and automatic memory. -/
def sparseJacC (cp : Colouring) (o : ℕ → ℤ) (t : Tape K) (rep : Bool) (x : ℕ → K) (q : Junk K) (J : SJ) (next : ℕ) (a : CArgs K) :
    CRes K :=
  match sparseJac cp (dispatchJac o).1 (dispatchJac o).2 false t rep x q J [] with
  | .undef => .undef
  | .ret c J' M =>
    if c < 0 then .ret c J' a
    else
      match writeJac M next a with
      | none => .undef
      | some a' => .ret c J' a'

/-- The C function `sparse_hess` (sparsedrivers_c.cpp:347-390). -/
def sparseHessC (cp : HColPack K) (o : ℕ → ℤ) (t : Tape K) (rep : Bool) (x : ℕ → K) (rrc : ℤ) (J : SH) (nnz : ℤ)
    (mem : Option (List (Entry K))) : HOut K :=
  match parseHessCFM (o 0) with
  | .tight =>
    if parseRM o = .direct then sparseHess cp .tight .direct t rep x rrc J nnz mem
    else sparseHess cp .tight .indirect t rep x rrc J nnz mem
  | .safe =>
    if parseRM o = .direct then sparseHess cp .safe .direct t rep x rrc J nnz mem
    else sparseHess cp .safe .indirect t rep x rrc J nnz mem
  | .oldTight =>
    if parseRM o = .direct then sparseHess cp .oldTight .direct t rep x rrc J nnz mem
    else sparseHess cp .oldTight .indirect t rep x rrc J nnz mem
  | .oldSafe =>
    if parseRM o = .direct then sparseHess cp .oldSafe .direct t rep x rrc J nnz mem
    else sparseHess cp .oldSafe .indirect t rep x rrc J nnz mem

end Verif.Sparse
