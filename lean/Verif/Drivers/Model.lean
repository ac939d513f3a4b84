import Verif.AD.ForwardVec
import Verif.AD.ReverseVec
import Verif.AD.HigherOrder
import Verif.AD.HoRev
import Verif.AD.HigherVec
import Verif.AD.HoRevVec

/-!
# The easy-to-use drivers (`ADOL-C/src/drivers/drivers.cpp`)

Each driver is the composition of sweeps its C++ body calls.  Not modelled: the argument checks of the
sweeps (the counts `m`, `n` passed are those of the trace; see `Verif/Session`), the temporary arrays for
results that are not returned, and the return codes except in `vecJac`.  A sweep that stops early makes the
driver return its negative code: `.error`.
-/
namespace Verif.Drivers
open Verif.AD

variable {K : Type} [Scalar K]

/-- A finished trace: its operations, the current parameter values, the numbers of independents and dependents. -/
structure Tape (K : Type) where
  ops : List (Base K)
  par : Nat → K
  n : Nat
  m : Nat

/-- How a driver fails: in its forward or in its reverse sweep. -/
inductive DErr where
  | fwd (e : Stop)
  | rev (e : RStop)
  | hrev (e : HRStop)
  | hfwd (e : HStop)

def fwd {α : Type} : Except Stop α → Except DErr α
  | .ok a => .ok a
  | .error e => .error (.fwd e)
def rev {α : Type} : Except RStop α → Except DErr α
  | .ok a => .ok a
  | .error e => .error (.rev e)

def hfwd {α : Type} : Except HStop α → Except DErr α
  | .ok a => .ok a
  | .error e => .error (.hfwd e)
def hrev {α : Type} : Except HRStop α → Except DErr α
  | .ok a => .ok a
  | .error e => .error (.hrev e)

/-- `zos_forward(tag, m, n, keep, x, y)` -/
def Tape.zos (t : Tape K) (keep : Bool) (x : Nat → K) : Except DErr (ZS K) := fwd (zosRun ⟨x, t.par, keep⟩ t.ops ZS.init)

/-- The memory block of `myallocI2(n)`: `2n-1` cells, a 1 in the middle (adalloc.cpp:169-192). -/
def identCell (n k : Nat) : K := if k = n - 1 then 1 else 0
/-- `I[i][j]` of `myallocI2(n)`, `i < n`: row `i` starts `i` cells before the middle (adalloc.cpp:181, 187-190).
Rows from `n` on do not exist and are not read. -/
def ident (n i j : Nat) : K := if i < n then identCell n (n - 1 - i + j) else 0

/-- `function` (drivers.cpp:31-37) -/
def function (t : Tape K) (x : Nat → K) : Except DErr (List K) := do
  let z ← t.zos false x
  .ok z.y

/-- `gradient` (drivers.cpp:42-52) -/
def gradient (t : Tape K) (x : Nat → K) : Except DErr (Nat → K) := do
  let z ← t.zos true x
  let r ← rev (revRun (fun _ => 1) t.ops (RS.init t.n t.m z.stk))
  .ok r.bar

/-- `vec_jac` (drivers.cpp:57-73).  `kept` is the value stack an earlier sweep has left (used if `repeat`
is set); `rrc` is the code `fos_reverse` returns.  Returns the code and the row. -/
def vecJac (t : Tape K) (rep : Bool) (kept : List K) (rrc : Int) (x u : Nat → K) : Except DErr (Int × (Nat → K)) := do
  let (rc, stk) ← if rep then (.ok (-1, kept) : Except DErr (Int × List K)) else do
    let z ← t.zos true x
    .ok (z.rc, z.stk)
  let r ← rev (revRun u t.ops (RS.init t.n t.m stk))
  .ok (if rrc < rc then rrc else rc, r.bar)

/-- `jacobian` (drivers.cpp:79-103) -/
def jacobian (t : Tape K) (x : Nat → K) : Except DErr (Nat → Nat → K) :=
  if t.n / 2 < t.m then do
    let w ← fwd (fovRun ⟨x, t.par, false⟩ t.n (ident t.n) t.ops VS.init)
    .ok fun j i => (w.dy[j]?.getD [])[i]?.getD 0
  else do
    let z ← t.zos true x
    let w ← rev (fovRevRun t.m (ident t.m) t.ops (VRS.init t.n t.m z.stk))
    .ok w.bar

/-- The calls of `fov_offset_forward` that `large_jacobian(…, runns, …)` makes: the pairs `(offset, dirs)`
(drivers.cpp:112-125).  `int` arithmetic, without overflow. -/
def chunks (n : Nat) (runns : Int) : List (Int × Int) :=
  let r : Int := if runns > n then n else runns
  let r : Int := if r < 1 then 1 else r
  let dirs : Int := Int.tdiv n r
  let dirs : Int := if Int.tmod n r ≠ 0 then dirs + 1 else dirs
  let last : Int := n - (r - 1) * dirs
  (List.range (r - 1).toNat).map (fun i : Nat => ((i : Int) * dirs, dirs)) ++ [((n : Int) - last, last)]

/-- `large_jacobian` (drivers.cpp:109-131): `fov_offset_forward` with `p = dirs` reads `I[i][l + offset]` and
writes `J[j][l + offset]` (uni5_for.cpp:99-100).  Simplified: stops at the first failing sweep (the code
ignores all but the last return code; all sweeps are at the same point). -/
def largeJacobian (t : Tape K) (runns : Int) (x : Nat → K) (J : Nat → Nat → K) : Except DErr (Nat → Nat → K) :=
  (chunks t.n runns).foldlM (fun J (od : Int × Int) => do
    let w ← fwd (fovRun ⟨x, t.par, false⟩ od.2.toNat (fun i l => ident t.n i (l + od.1.toNat)) t.ops VS.init)
    .ok fun j i => if j < t.m ∧ od.1.toNat ≤ i ∧ i < od.1.toNat + od.2.toNat then (w.dy[j]?.getD [])[i - od.1.toNat]?.getD 0 else J j i) J

/-- `jac_vec` (drivers.cpp:136-147) -/
def jacVec (t : Tape K) (x v : Nat → K) : Except DErr (List K) := do
  let f ← fwd (fosRun ⟨x, t.par, false⟩ v t.ops FS.init)
  .ok f.dy

/-- `lagra_hess_vec` (drivers.cpp:273-299): `fos_forward` with `keep = 2`, `hos_reverse` of degree 1,
`result[i] = X[i][1]` -/
def lagraHessVec (t : Tape K) (x v u : Nat → K) : Except DErr (Nat → K) := do
  let f ← fwd (fosRun ⟨x, t.par, true⟩ v t.ops FS.init)
  let r ← hrev (hosRevRun 2 (lagr u) t.ops (HRS.init t.n t.m f.rows))
  .ok fun i => r.Z i 1

/-- `hess_vec` (drivers.cpp:152-156) -/
def hessVec (t : Tape K) (x v : Nat → K) : Except DErr (Nat → K) := lagraHessVec t x v fun _ => 1

/-- `hessian` (drivers.cpp:204-229); `H` is what the caller's array contains before.  The state of the loop
is the vector `v` and the array. -/
def hessian (t : Tape K) (x : Nat → K) (H : Nat → Nat → K) : Except DErr (Nat → Nat → K) := do
  let vh ← (List.range t.n).foldlM (fun (vh : (Nat → K) × (Nat → Nat → K)) i => do
    let v := upd vh.1 i 1
    let w ← hessVec t x v
    .ok (upd v i 0, fun a b => if a = i ∧ b ≤ i then w b else vh.2 a b)) ((fun _ => 0), H)
  .ok vh.2

/-- The rows of the value stack written by `hov_wk_forward` (the value once, then for every direction the coefficients:
uni5_for.cpp `write_taylors`, valuetape.cpp) as `get_taylors_p` hands them to `hos_ov_reverse`: every direction gets the value. -/
def ovRows (stk : List (K × (Nat → Nat → K))) : List (Nat → Nat → K) := stk.map fun r d i => if i = 0 then r.1 else r.2 d (i - 1)

/-- `hov_wk_forward(tag, 1, n, 1, 2, q, x, X, …)` with `X[i][l][0] = V[i][l]`, then `hos_ov_reverse(tag, 1, n, 1, q, (1, 0), Z)`: the common part of
`hess_mat` and `hessian2` (drivers.cpp:174-182, 241-251); the result is `Z`. -/
def hessOv (t : Tape K) (q : Nat) (x : Nat → K) (V : Nat → Nat → K) : Except DErr (Nat → Nat → Nat → K) := do
  let s ← hfwd (hovRun ⟨x, fun i l _ => V i l, t.par, 1, q, 2⟩ t.ops HVS.init)
  let r ← hrev (hvrRun ⟨true, 2, q, fun _ => lagr fun _ => 1⟩ t.ops (RVS.init t.n t.m (ovRows s.stk)))
  .ok r.Z

/-- `hess_mat` (drivers.cpp:157-195); `W0` is what the caller's array contains before. -/
def hessMat (t : Tape K) (q : Nat) (x : Nat → K) (V W0 : Nat → Nat → K) : Except DErr (Nat → Nat → K) := do
  let Z ← hessOv t q x V
  .ok fun j i => if j < t.n ∧ i < q then Z i j 1 else W0 j i

/-- `hessian2` (drivers.cpp:228-262); rows of `X` from `n` on do not exist and are not read. -/
def hessian2 (t : Tape K) (x : Nat → K) (H0 : Nat → Nat → K) : Except DErr (Nat → Nat → K) := do
  let Z ← hessOv t t.n x fun i j => if i < t.n ∧ i = j then 1 else 0
  .ok fun i j => if i < t.n ∧ j ≤ i then Z i j 1 else H0 i j

end Verif.Drivers
