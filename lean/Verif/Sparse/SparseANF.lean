import Verif.Sparse.SparseJac
import Verif.AD.AbsMain
/-!
# The sparse abs-normal form

Model of `sparse_jac(tag, depen, indep, numSwitches, repeat, basepoint, SparseANF&)`
(/repo/ADOL-C/include/adolc/sparse/sparsedrivers.h 590-598, 717-840, 862-872, 944-983, 1078-1105; sparsematrix.h 192-321;
/repo/ADOL-C/src/valuetape/sparseinfos.cpp 172-275) and of `indopro_forward_absnormal` (/repo/ADOL-C/src/uni5_for.cpp
with `_INDOPRO_`, `_NTIGHT_` and `_ABS_NORM_`).  ColPack is a parameter.
-/
set_option linter.all false
namespace Verif.Sparse
open Verif.AD Verif.Drivers

variable {K : Type} [Scalar K]

/-! ## The pattern -/

/-- Variables of `indopro_forward_absnormal`: those of `indopro_forward_safe`, `switchnum`, and the rows
`crs[depcheck + switchnum]` written so far. -/
structure AIS where
  i : IS
  sw : Nat
  Z : List (List Nat)

/-- At the start of the sweep (uni5_for.cpp:964-966, 1182-1189). -/
def AIS.init : AIS := ⟨IS.init, 0, []⟩

/-- The `case`s of `indopro_forward_absnormal`: only `abs_val` differs (uni5_for.cpp:3905-3923, 3990-3992): the row of the
switching variable is the domain of the argument, the domain of the result is the column of the switching variable. -/
def anStep (n : Nat) (o : Base K) (s : AIS) : Except IErr AIS :=
  match o with
  | .absVal a r _ =>
    .ok ⟨{ s.i with dom := upd s.i.dom r [n + s.sw] }, s.sw + 1, s.Z ++ [(s.i.dom a).length :: s.i.dom a]⟩
  | o =>
    match idStep none o s.i with
    | .error e => .error e
    | .ok i => .ok { s with i := i }

/-- The loop of `indopro_forward_absnormal`. -/
def anRun (n : Nat) : List (Base K) → AIS → Except IErr AIS
  | [], s => .ok s
  | o :: os, s =>
    match anStep n o s with
    | .error e => .error e
    | .ok s' => anRun n os s'

/-- `jac_pat<PiecewiseLinear>` (sparsedrivers.h:590-598): rows `[y ; z]`, columns `[x ; |z|]`. -/
def jacPatANF (n : Nat) (ops : List (Base K)) : Except IErr (List (List Nat)) :=
  (anRun n ops AIS.init).map fun s => s.i.Y ++ s.Z

/-! ## The result -/

/-- `SparseANF` (sparsematrix.h:244-321); `dims` is `shape`: what `resize` was last called with. -/
structure SANF (K : Type) where
  dims : Nat × Nat × Nat × Nat
  Y : List (Entry K)
  J : List (Entry K)
  Z : List (Entry K)
  L : List (Entry K)
  y : List K
  z : List K
  cy : List K
  cz : List K

/-- `SparseANF::resize` (sparsematrix.h:314-320). -/
def SANF.resize (A : SANF K) (d : Nat × Nat × Nat × Nat) : SANF K :=
  { A with dims := d, Y := Sparse.resize A.Y d.1 0, J := Sparse.resize A.J d.2.1 0,
           Z := Sparse.resize A.Z d.2.2.1 0, L := Sparse.resize A.L d.2.2.2 0 }

/-- `SparseANFBlock`. -/
inductive Block where
  | Y | J | Z | L
  deriving DecidableEq, Repr

/-- `classifySparseANFBlock` (sparsematrix.h:195-211). -/
def classify (m n : Nat) (i j : Nat) : Block :=
  if i < m then if j < n then .Y else .J else if j < n then .Z else .L

/-- The two nested loops over the pattern of `countSparseANFEntries` and `fillSparseANF`. -/
def overPattern {S : Type} (JP : List (List Nat)) (g : S → Nat → Nat → S) (s : S) : S :=
  (List.range JP.length).foldl (fun s i =>
    (List.range' 1 ((JP[i]?.getD []).headD 0)).foldl (fun s j => g s i (((JP[i]?.getD [])[j]?).getD 0)) s) s

/-- `countSparseANFEntries` (sparsedrivers.h:777-805, sparseinfos.cpp:178-204). -/
def countANF (JP : List (List Nat)) (m n : Nat) : Nat × Nat × Nat × Nat :=
  overPattern JP (fun (d : Nat × Nat × Nat × Nat) i j =>
    match classify m n i j with
    | .Y => (d.1 + 1, d.2.1, d.2.2.1, d.2.2.2)
    | .J => (d.1, d.2.1 + 1, d.2.2.1, d.2.2.2)
    | .Z => (d.1, d.2.1, d.2.2.1 + 1, d.2.2.2)
    | .L => (d.1, d.2.1, d.2.2.1, d.2.2.2 + 1)) (0, 0, 0, 0)

/-- `fillSparseANF` (sparseinfos.cpp:206-240): blocks and offsets. -/
def fillANF (JP : List (List Nat)) (B : Nat → Nat → K) (left : Nat → Nat) (m n : Nat) (A : SANF K) : SANF K :=
  (overPattern JP (fun (s : SANF K × (Nat × Nat × Nat × Nat)) i j =>
    match classify m n i j with
    | .Y => ({ s.1 with Y := s.1.Y.set s.2.1 (i, j, B (left i) j) }, (s.2.1 + 1, s.2.2.1, s.2.2.2.1, s.2.2.2.2))
    | .J => ({ s.1 with J := s.1.J.set s.2.2.1 (i, j - n, B (left i) j) }, (s.2.1, s.2.2.1 + 1, s.2.2.2.1, s.2.2.2.2))
    | .Z => ({ s.1 with Z := s.1.Z.set s.2.2.2.1 (i - m, j, B (left i) j) }, (s.2.1, s.2.2.1, s.2.2.2.1 + 1, s.2.2.2.2))
    | .L => ({ s.1 with L := s.1.L.set s.2.2.2.2 (i - m, j - n, B (left i) j) }, (s.2.1, s.2.2.1, s.2.2.2.1, s.2.2.2.2 + 1)))
    (A, (0, 0, 0, 0))).1

/-- The loop of `updateCy` and `updateCz` (sparsematrix.h:294-308). -/
def updateC (E : List (Entry K)) (z c : List K) : List K :=
  E.foldl (fun c e => c.set e.1 (c[e.1]?.getD 0 - e.2.2 * Elem.fabs (z[e.2.1]?.getD 0))) c

/-! ## The call -/

/-- How a call ends. -/
inductive AOut (K : Type) where
  | ret (code : ℤ) (J : SJ) (A : SANF K)
  /-- the tape does not have these counts, or was not recorded with `enableMinMaxUsingAbs` (uni5_for.cpp:1097-1122) -/
  | throws (J : SJ)
  /-- undefined behaviour, another exception -/
  | undef

/-- Uninitialised memory a call may see (`y` and `z` after `zos_pl_forward` has stopped), and what `fov_pl_reverse`
returns. -/
structure AJunk (K : Type) where
  y : List K
  z : List K
  rrc : ℤ

/-- The arguments of the call fit the trace, recorded with (`mm`) or without `enableMinMaxUsingAbs`. -/
def anfCounts (ops : List (Base K)) (mm : Bool) (m n q : Nat) : Prop :=
  n = numInd ops ∧ m = numDep ops ∧ mm = true ∧ q = numSw ops

instance (ops : List (Base K)) (mm : Bool) (m n q : Nat) : Decidable (anfCounts ops mm m n q) := by
  unfold anfCounts; infer_instance

/-- `buildJacPatternAndSeed<PiecewiseLinear>` (sparsedrivers.h:726-752).  Simplified: after a sweep that stops all rows are
null. -/
def buildANF (cp : Colouring) (ops : List (Base K)) (mm : Bool) (m n q : Nat) (J : SJ) : Except (SANF K → AOut K) SJ :=
  let J0 : SJ := { J with JP := List.replicate (m + q) none }
  if ¬ anfCounts ops mm m n q then .error fun _ => .throws J0
  else
    match jacPatANF n ops with
    | .error .genQuad => .error (.ret (-2) J0)
    | .error _ => .error fun _ => .undef
    | .ok JP =>
      let g := cp .row JP (n + q)
      .ok ⟨JP.map some, some (.row, g.1, g.2), nnz JP, g.2, n + q⟩

/-- `recover<MH>` (sparsedrivers.h:862-872, sparseinfos.cpp:249-275). -/
def recoverA (manual : Bool) (JP : List (List Nat)) (col : Nat → Nat) (B : Nat → Nat → K) (m n : Nat) (A : SANF K) : SANF K :=
  fillANF JP B col m n (if manual then A else A.resize (countANF JP m n))

/-- `computeSparseJac<MH>` for the abs-normal form (sparsedrivers.h:944-983).  Undefined behaviour: data left by
`sparse_jac` for a `SparseMatrix` (the assertion in line 949; column compression), a null row, in manual mode blocks that are
shorter than `dims` says. -/
def computeANF (manual : Bool) (ops : List (Base K)) (par : Nat → K) (mm : Bool) (m n q : Nat) (x : Nat → K)
    (w : AJunk K) (J : SJ) (A : SANF K) : AOut K :=
  match J.graph, allRows J.JP with
  | some (.row, col, _), some JP =>
    if J.clms ≠ n + q ∨ JP.length ≠ m + q ∨ m = 0 then .undef
    else if manual = true ∧ ¬ (A.dims = (A.Y.length, A.J.length, A.Z.length, A.L.length)) then .undef
    else if ¬ anfCounts ops mm m n q then .throws J
    else
      match zosPlRun ⟨x, par, true⟩ ops ⟨ZS.init, []⟩ with
      | .error e => .ret e.code J { A with y := w.y, z := w.z }
      | .ok f =>
        match fovPlRevRun J.rows (fun c j => colourSeed col j c) (fun c k => colourSeed col (m + k) c) ops
            ⟨VRS.init n m f.z.stk, q, fun _ _ => 0⟩ with
        | .error _ => .undef
        | .ok r =>
          let A := recoverA manual JP col (fun c j => if j < n then r.r.bar c j else r.sbar c (j - n)) m n
            { A with y := f.z.y, z := f.sw }
          .ret (mindec f.z.rc w.rrc) J { A with cy := updateC A.J A.z A.y, cz := updateC A.L A.z A.z }
  | _, _ => .undef

/-- `sparse_jac<PiecewiseLinear, MH>` (sparsedrivers.h:1078-1105). -/
def sparseANF (cp : Colouring) (manual : Bool) (ops : List (Base K)) (par : Nat → K) (mm : Bool) (m n q : Nat) (rep : Bool)
    (x : Nat → K) (w : AJunk K) (J : SJ) (A : SANF K) : AOut K :=
  let go (J : SJ) : AOut K :=
    match allRows J.JP with
    | none => .undef
    | some JP =>
      -- `validateManualStorage` (807-824)
      if manual = true ∧ A.dims ≠ countANF JP m n then .ret (-3) J A
      else computeANF manual ops par mm m n q x w J A
  if rep then
    -- `ensureSparseJacCacheInitialized` (754-764)
    if J.graph = none ∨ J.rows = 0 ∨ J.clms = 0 then .ret (-3) J A else go J
  else
    match buildANF cp ops mm m n q J with
    | .error g => g A
    | .ok J' => go J'

end Verif.Sparse
