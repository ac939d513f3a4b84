import Verif.Sparse.Recover
import Verif.Sparse.FwdTightDriver
import Verif.Sparse.RevDriver
import Verif.Props.SparseIdx
import Verif.Drivers.Model
/-!
# `sparse_jac`

Model of `/repo/ADOL-C/include/adolc/sparse/sparsedrivers.h` 713-752, 795-819, 845-866, 933-960, 1045-1073.
ColPack is a parameter.  Memory management is not modelled.
-/
set_option linter.all false
namespace Verif.Sparse
open Verif.AD Verif.Drivers Verif.Props.Sparse

/-- `CompressionMode` (sparseinfos.h). -/
inductive CMode where
  | row | column
  deriving DecidableEq, Repr

/-- `BitPatternPropagationDirection`. -/
inductive Dir where
  | auto | forward | reverse
  deriving DecidableEq, Repr

/-- The template parameters `SM`, `CFM`, `BPPD`. -/
inductive Method where
  | index (tight : Bool)
  | bits (tight : Bool) (dir : Dir)
  deriving DecidableEq, Repr

/-- ColPack: `GenerateSeedJacobian` with `ROW_PARTIAL_DISTANCE_TWO` or `COLUMN_PARTIAL_DISTANCE_TWO`, from the pattern and
the number of columns to the colours and their number. -/
abbrev Colouring := CMode → List (List ℕ) → ℕ → (ℕ → ℕ) × ℕ

/-- ColPack's contract. -/
def Colouring.Proper (cp : Colouring) : Prop :=
  ∀ JP n, RowColouring JP (cp .row JP n).1 (cp .row JP n).2 ∧
    ((∀ r ∈ JP, ∀ j ∈ r.tail, j < n) → ColumnColouring JP n (cp .column JP n).1 (cp .column JP n).2)

/-- What the tape keeps (`SparseJacInfos`, sparseinfos.h): the rows `JP_` (`none` is a null pointer), the coloured graph and
the seed (`none`: `Seed_ == nullptr`), `nnzIn_`, `seedRows_`, `seedClms_`. -/
structure SJ where
  JP : List (Option (List ℕ))
  graph : Option (CMode × (ℕ → ℕ) × ℕ)
  nnz : ℕ
  rows : ℕ
  clms : ℕ

/-- A fresh tape. -/
def SJ.init : SJ := ⟨[], none, 0, 0, 0⟩

/-- Contents of uninitialised memory a call may see, and the code of `fov_reverse`. -/
structure Junk (K : Type) where
  /-- the value buffer behind the recorded values (`jac_pat`, tight, forward) -/
  G : ℕ → K
  /-- `jacobianBitPattern_` -/
  R0 : ℕ → ℕ → Word
  /-- `B_` where a sweep that ends early has not written it -/
  B0 : ℕ → ℕ → K
  /-- what `fov_reverse` returns -/
  rrc : ℤ

/-- How a call ends: with a code, the tape's data and the caller's matrix; or with undefined behaviour, an exception, or in a
way that is not modelled. -/
inductive SOut (K : Type) where
  | ret (code : ℤ) (J : SJ) (M : List (Entry K))
  | undef

variable {K : Type} [Scalar K]

/-- The direction chosen by `bit_vector_propagation` (sparsedrivers.h:494-509). -/
def isFwd (m n : ℕ) (dir : Dir) : Bool := decide (dir = .forward ∨ (dir = .auto ∧ m ≥ n / 2))

/-- `jac_pat<SM, CFM, BPPD>` (sparsedrivers.h:491-567).  `.error (some c)`: returns the negative code `c`; `.error none`: it
throws, crashes, or is not modelled (a bit pattern sweep that ends early). -/
def jacPat (mth : Method) (t : Tape K) (x : ℕ → K) (q : Junk K) : Except (Option ℤ) (List (Option (List ℕ))) :=
  match mth with
  | .index false =>
    match jacPatIdxSafe t.ops with
    | .ok rows => .ok (rows.map some)
    | .error .genQuad => .error (some (-2))
    | .error _ => .error none
  | .index true =>
    match jacPatIdxTight x t.par t.ops with
    | .ok rows => .ok (rows.map some)
    | .error .genQuad => .error (some (-2))
    | .error (.stop .branchSwitch) => .error (some (-1))
    | .error (.stop .quadChanged) => .error (some (-2))
    | .error _ => .error none
  | .bits tight dir =>
    match isFwd t.m t.n dir, tight with
    | true, true =>
      match jacPatFwdTight t.m t.n ⟨x, t.par, false⟩ q.G t.ops with
      | .ok rows => .ok rows
      | .error _ => .error none
    | true, false =>
      match jacPatFwdSafe t.m t.n t.ops with
      | .ok rows => .ok rows
      | .error _ => .error none
    | false, true =>
      match jacPatRevTight t.m t.n q.R0 ⟨x, t.par, true⟩ t.ops with
      | .ok rows => .ok rows
      | .error _ => .error none
    | false, false =>
      match jacPatRevSafe t.m t.n q.R0 t.ops with
      | .ok rows => .ok rows
      | .error _ => .error none

/-- The rows, `none` if one of them is a null pointer (which the callers dereference). -/
def allRows : List (Option (List ℕ)) → Option (List (List ℕ))
  | [] => some []
  | none :: _ => none
  | some r :: rs => (allRows rs).map (r :: ·)

/-- `buildJacPatternAndSeed` (sparsedrivers.h:713-752): `.ok J'` the new data, `.error (some (c, J'))` a negative code.
Simplified: after a pattern sweep that returns a negative code all rows are null (in the code: those of the
dependents behind the operation where it stopped). -/
def buildPattern (cp : Colouring) (mth : Method) (cm : CMode) (t : Tape K) (x : ℕ → K) (q : Junk K) (J : SJ) :
    Except (Option (ℤ × SJ)) SJ :=
  match jacPat mth t x q with
  | .error none => .error none
  | .error (some c) => .error (some (c, { J with JP := List.replicate t.m none }))
  | .ok rows =>
    match allRows rows with
    -- line 730: `JP_[i][0]`
    | none => .error none
    | some JP =>
      let g := cp cm JP t.n
      .ok ⟨rows, some (cm, g.1, g.2), nnz JP, if cm = .row then g.2 else t.m, if cm = .row then t.n else g.2⟩

/-- The seed: in row mode `Seed_[c][i]`, in column mode `Seed_[i][c]`, is 1 if row (column) `i` has colour `c`. -/
def colourSeed (col : ℕ → ℕ) (i c : ℕ) : K := if col i = c then 1 else 0

/-- In column mode there are `indep` rows; rows behind them are not read. -/
def columnSeed (n : ℕ) (col : ℕ → ℕ) (i c : ℕ) : K := if i < n then colourSeed col i c else 0

/-- `recover<CM, MH>` (sparsedrivers.h:845-866). -/
def recoverJ (cm : CMode) (manual : Bool) (JP : List (List ℕ)) (col : ℕ → ℕ) (B : ℕ → ℕ → K) (M : List (Entry K)) :
    List (Entry K) :=
  match cm, manual with
  | .row, true => recoverRowUserMem JP col B M
  | .column, true => recoverColUserMem JP col B M
  | .row, false => recoverRow JP col B 0 M
  | .column, false => recoverCol JP col B 0 M

/-- `computeSparseJac<CM, MH>` (sparsedrivers.h:933-960).  The colours and seed of the other compression mode have another
shape: undefined behaviour.  So is a null row (sparseinfos.cpp:126, 156). -/
def computeSparseJac (cm : CMode) (manual : Bool) (t : Tape K) (x : ℕ → K) (q : Junk K) (J : SJ) (M : List (Entry K)) :
    SOut K :=
  match J.graph with
  | none => .undef
  | some (cm', col, _) =>
    if cm' ≠ cm then .undef
    else
      match cm with
      | .row =>
        match zosRun ⟨x, t.par, true⟩ t.ops ZS.init with
        | .error e => .ret e.code J M
        | .ok z =>
          match fovRevRun J.rows (fun c i => colourSeed col i c) t.ops (VRS.init t.n t.m z.stk) with
          | .error _ => .undef
          | .ok w =>
            match allRows J.JP with
            | none => .undef
            | some JP => .ret (mindec z.rc q.rrc) J (recoverJ .row manual JP col w.bar M)
      | .column =>
        match allRows J.JP with
        | none => .undef
        | some JP =>
          match fovRun ⟨x, t.par, false⟩ J.clms (columnSeed t.n col) t.ops VS.init with
          | .error e => .ret e.code J (recoverJ .column manual JP col q.B0 M)
          | .ok w => .ret w.rc J (recoverJ .column manual JP col (fun i c => (w.dy[i]?.getD [])[c]?.getD 0) M)

/-- `sparse_jac<SM, CM, CFM, BPPD, MH>` (sparsedrivers.h:1051-1073). -/
def sparseJac (cp : Colouring) (mth : Method) (cm : CMode) (manual : Bool) (t : Tape K) (rep : Bool) (x : ℕ → K)
    (q : Junk K) (J : SJ) (M : List (Entry K)) : SOut K :=
  let go (J : SJ) : SOut K :=
    -- `validateManualStorage` (808-819)
    if manual = true ∧ M.length ≠ J.nnz then .ret (-3) J M
    else computeSparseJac cm manual t x q J M
  if rep then
    -- `ensureSparseJacCacheInitialized` (796-806)
    if J.graph = none ∨ J.rows = 0 ∨ J.clms = 0 then .ret (-3) J M else go J
  else
    match buildPattern cp mth cm t x q J with
    | .error none => .undef
    | .error (some (c, J')) => .ret c J' M
    | .ok J' => go J'

end Verif.Sparse
