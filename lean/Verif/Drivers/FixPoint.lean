import Verif.Drivers.Model

/-!
# Fixed point iterations (`ADOL-C/src/fixpoint.cpp`)

The callbacks `iteration`, `fp_zos_forward`, `fp_fos_forward`, `fp_fos_reverse` of the external function that `fp_iteration`
registers.  Norms are arbitrary functions, memory obtained with `new` has arbitrary contents (`U0`).  A sweep on the sub-tape that
stops ends the callback (the code ignores its return code and goes on); every reverse sweep on it finds the same value stack.  The outer trace (`call_ext_fct`) is C35's.
-/
set_option linter.all false
namespace Verif.Drivers
open Verif.AD

section fix
variable {K : Type} [Scalar K]

/-- `fpi_data` (fixpoint.cpp:30-41), with the dimensions of the call; `dbl xu i` is the `i`-th result of `double_func(xu, xu + dim_x, …)`. -/
structure Fpi (K : Type) where
  nx : Nat
  nu : Nat
  dbl : (Nat → K) → Nat → K
  sub : Tape K
  norm : (Nat → K) → K
  normD : (Nat → K) → K
  eps : K
  epsD : K
  nMax : Nat
  nMaxD : Nat

/-- `for (i = 0; i < n; i++) a[i] = y[i];` -/
def setX (n : Nat) (y a : Nat → K) (i : Nat) : K := if i < n then y i else a i

/-- The loop of `iteration` (fixpoint.cpp:52-68) and of `fp_zos_forward` (fixpoint.cpp:89-104), `fuel` passes from pass `k` on:
returned pass (`none` is -1), `xu`, `x_fix`. -/
def fpLoop (c : Fpi K) : Nat → Nat → (Nat → K) → (Nat → K) → Option Nat × (Nat → K) × (Nat → K)
  | 0, _, xu, xf => (none, xu, xf)
  | fuel + 1, k, xu, xf =>
    let xu := setX c.nx xf xu
    let xf := setX c.nx (c.dbl xu) xf
    let xu := setX c.nx (fun i => xf i - xu i) xu
    if c.norm xu < c.eps then (some k, xu, xf) else fpLoop c fuel (k + 1) xu xf

/-- `iteration` (fixpoint.cpp:45-69), `fp_zos_forward` (71-105); `xf0` is what `x_fix` contained. -/
def fpZos (c : Fpi K) (xu xf0 : Nat → K) : Option Nat × (Nat → K) × (Nat → K) :=
  fpLoop c c.nMax 1 xu (setX c.nx xu xf0)

/-- What `fp_fos_forward` works on; `kept` is the value stack of the sub-tape. -/
structure FpSt (K : Type) where
  xu : Nat → K
  xuD : Nat → K
  xf : Nat → K
  xfD : Nat → K
  kept : List K

/-- The body of the loop of `fp_fos_forward` (fixpoint.cpp:125-145) in pass `k`. -/
def fpFosBody (c : Fpi K) (keep : Bool) (k : Nat) (s : FpSt K) : Except DErr (FpSt K) := do
  let xu := if 1 < k then setX c.nx s.xf s.xu else s.xu
  let xuD := if 1 < k then setX c.nx s.xfD s.xuD else s.xuD
  let f ← fwd (fosRun ⟨xu, c.sub.par, keep⟩ xuD c.sub.ops FS.init)
  let xf := setX c.nx (fun i => f.y[i]?.getD 0) s.xf
  let xfD := setX c.nx (fun i => f.dy[i]?.getD 0) s.xfD
  .ok ⟨setX c.nx (fun i => xf i - xu i) xu, setX c.nx (fun i => xfD i - xuD i) xuD, xf, xfD, if keep then f.stk else s.kept⟩

/-- The loop of `fp_fos_forward` (fixpoint.cpp:124-152). -/
def fpFosLoop (c : Fpi K) (keep : Bool) : Nat → Nat → FpSt K → Except DErr (Option Nat × FpSt K)
  | 0, _, s => .ok (none, s)
  | fuel + 1, k, s => do
    let s ← fpFosBody c keep k s
    if c.norm s.xu < c.eps ∧ c.normD s.xuD < c.epsD then .ok (some k, s) else fpFosLoop c keep fuel (k + 1) s

/-- `fp_fos_forward` (fixpoint.cpp:107-153): the loop runs while `k < N_max_deriv || k < N_max`. -/
def fpFos (c : Fpi K) (keep : Bool) (s : FpSt K) : Except DErr (Option Nat × FpSt K) :=
  fpFosLoop c keep (max c.nMax c.nMaxD - 1) 1 s

/-- The loop of `fp_fos_reverse` (fixpoint.cpp:175-202): returned pass and `U`. -/
def fpRevLoop (c : Fpi K) (kept : List K) (xbar : Nat → K) : Nat → Nat → (Nat → K) → Except DErr (Option Nat × (Nat → K))
  | 0, _, U => .ok (none, U)
  | fuel + 1, k, U => do
    let xi := fun i => if i < c.nx then U i else 0
    let r ← rev (revRun xi c.sub.ops (RS.init (c.nx + c.nu) c.nx kept))
    let U := fun i => if i < c.nx then r.bar i + xbar i else r.bar i
    let d := fun i => if i < c.nx then U i - xi i else 0
    if c.normD d < c.epsD then .ok (some k, U) else fpRevLoop c kept xbar fuel (k + 1) U

/-- `fp_fos_reverse` (fixpoint.cpp:155-209): returned pass and `xu_bar`. -/
def fpRev (c : Fpi K) (kept : List K) (xbar U0 xubar : Nat → K) : Except DErr (Option Nat × (Nat → K)) := do
  let r ← fpRevLoop c kept xbar (c.nMaxD - 1) 1 U0
  .ok (r.1, fun i => if c.nx ≤ i ∧ i < c.nx + c.nu then xubar i + r.2 i else xubar i)

/-- `fpi_stack` with the index of the external function in its tape (fixpoint.cpp:43): `emplace_back` (225-236) … -/
def fpRegister {α : Type} (stack : List (Nat × α)) (edfIndex : Nat) (d : α) : List (Nat × α) := stack ++ [(edfIndex, d)]
/-- … and the search of the callbacks (fixpoint.cpp:79-84, 118-122, 165-169). -/
def fpFind {α : Type} (stack : List (Nat × α)) (edfIndex : Nat) : Option α := (stack.find? fun v => v.1 = edfIndex).map Prod.snd
end fix
end Verif.Drivers
