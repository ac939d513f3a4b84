import Verif.Traceless.Indo
import Verif.Sparse.Recover
/-!
# `ADOLC_get_sparse_jacobian`

Model of `/repo/ADOL-C/src/sparse/sparsedrivers.cpp` 96-175.  The user's function is a program `p` over
`n` independents (objects `0 … n-1`) and `m` dependents (objects `n … n+m-1`), instantiated for
`adtl_indo::adouble` and for `adtl::adouble`.  The function's return value and its failure, and memory
management, are not modelled.
-/
set_option linter.all false
noncomputable section
namespace Verif.TL
open Verif.Sparse

/-- ColPack (`initColoring`, `generateSeedJac("COLUMN_PARTIAL_DISTANCE_TWO")`, sparsedrivers.cpp:135-136): from a
pattern and the number of columns, the colours of the columns and their number. -/
abbrev ColPack := List (List ℕ) → ℕ → (ℕ → ℕ) × ℕ

/-- What the driver keeps in the global `sJInfos` (sparsedrivers.cpp:93): `JP_`, the colours (in `pimpl_`), the
number of colours `seedClms_`. -/
structure JInfos where
  JP : List (List ℕ)
  col : ℕ → ℕ
  p : ℕ

/-- ColPack's seed matrix: `Seed_[i][c]` is 1 if column `i` has colour `c`, else 0. -/
def seedOf (col : ℕ → ℕ) (i c : ℕ) : ℝ := if col i = c then 1 else 0

/-- Lines 107-121: `x`, `y` are default constructed, `x[i] = basepoints[i]`, patterns are initialised, the function is
called. -/
def indoPattern (p : Prog) (n m : ℕ) (x : ℕ → ℝ) : List (List ℕ) :=
  let s : IStore := fun _ => ⟨0, []⟩
  let s := (List.range n).foldl (fun s i => (Stmt.setD i (x i)).irun s) s
  getPattern (p.irun (initPattern n 0 s)) n m

/-- The objects before the call of the second instance (lines 147-155): default constructed, then for each `i`
`x[i] = basepoints[i]` and `x[i].setADValue(jj, Seed_[i][jj])` for `jj < seedClms_`; `none` when `setADValue` throws. -/
def adtlStart (c : Cfg) (J : JInfos) (n : ℕ) (x : ℕ → ℝ) : Option Store :=
  (List.range n).foldl (fun s i => s.bind fun s =>
    (List.range J.p).foldl (fun s jj => s.bind fun s => setADValue c s i jj (seedOf J.col i jj))
      (some ((Stmt.setD i (x i)).run c s))) (some fun o => ctor0 (c.mem o))

/-- `B_[i][jj] = y[i].getADValue(jj)` (lines 159-161), 0 standing for what the allocation contains beyond. -/
def compressed (c : Cfg) (s : Store) (n i jj : ℕ) : ℝ := (getADValue c s (n + i) jj).getD 0

/-- Lines 140-169: the numeric part, with the stored pattern and colours. -/
def adtlPart (c : Cfg) (p : Prog) (J : JInfos) (n : ℕ) (x : ℕ → ℝ) (M : List (Entry ℝ)) : Option (List (Entry ℝ)) :=
  (adtlStart c J n x).map fun s => recoverCol J.JP J.col (compressed c (p.run c s) n) 0 M

/-- `ADOLC_get_sparse_jacobian(fun, fun_indo, n, m, repeat, basepoints, sparseJac)`.  `mem c` supplies the
uninitialised memory for a number of directions. -/
def getSparseJacobian (cp : ColPack) (cfg : ℕ → Cfg) (p : Prog) (n m : ℕ) (repeat_ : Bool) (x : ℕ → ℝ)
    (J : JInfos) (M : List (Entry ℝ)) : Option (JInfos × List (Entry ℝ)) :=
  let J := if repeat_ then J else
    let JP := indoPattern p n m x
    ⟨JP, (cp JP n).1, (cp JP n).2⟩
  -- setNumDir(seedClms_)
  (adtlPart (cfg J.p) p J n x M).map fun M => (J, M)

end Verif.TL
