import Verif.Drivers.Model
import Verif.Num.LU
import Verif.AD.RealInst

/-! # `jac_solv` (drivers/taylor.cpp:433-497) -/
set_option linter.all false
namespace Verif.Drivers
open Verif.AD Verif.Num.LU

section
variable {K : Type} [Field K] [LinearOrder K]

/-- What a tape keeps between two calls of `jac_solv` (`jacSolv_nax`, `_xold`, `_modeold`, `_J`, `_ri`, `_ci`;
valuetape.h, taylor.cpp:441-459). -/
structure JSState (K : Type) where
  nax : Nat
  xold : Nat → K
  modeold : Nat
  S : St K

/-- A new tape. -/
def JSState.init : JSState K := ⟨0, fun _ => 0, 0, ⟨fun _ _ => 0, fun _ => 0, fun _ => 0⟩⟩

/-- The point has changed (taylor.cpp:460-464). -/
def newX (n : Nat) (x : Nat → K) (c : JSState K) : Bool := (List.range n).any fun i => x i != c.xold i

/-- The arrays are allocated for `n` variables (taylor.cpp:441-459; `myalloc1` clears, the index arrays are set before
they are read) and the point is stored (taylor.cpp:460-464). -/
def prepare (n : Nat) (x : Nat → K) (c : JSState K) : JSState K :=
  let c : JSState K := if n ≠ c.nax then ⟨n, fun _ => 0, 0, ⟨fun _ _ => 0, fun _ => 0, fun _ => 0⟩⟩ else c
  { c with xold := fun i => if i < n then x i else c.xold i }

/-- The body of `jac_solv` (taylor.cpp:433-497), where `ev x` performs `zos_forward` with `keep = 1` and `fov_reverse` with
the identity: it returns the smaller of their codes and the matrix.  The result: the arrays kept, the code and the new `b`.
Simplified: where a sweep fails, this stops with the sweep's error (the code goes on with an incomplete matrix and
returns the negative code at the end). -/
def jacSolvCore {ε : Type} (n : Nat) (ev : (Nat → K) → Except ε (Int × (Nat → Nat → K))) (x b : Nat → K) (mode : Nat) (c0 : JSState K) :
    JSState K × Except ε (Int × (Nat → K)) :=
  let c := prepare n x c0
  let new := newX n x (if n ≠ c0.nax then { c with xold := fun _ => 0 } else c0)
  match mode with
  | 0 =>
    match ev x with
    | .error e => (c, .error e)
    | .ok (rc, J) => ({ c with S := { c.S with J := J } }, .ok (min 3 rc, b))
  | 1 =>
    match ev x with
    | .error e => (c, .error e)
    | .ok (rc, J) =>
      let f := factor n J
      if f.2 < 0 then ({ c with S := f.1 }, .ok (-3, b))
      else ({ c with S := f.1, modeold := 1 }, .ok (min 3 rc, b))
  | 2 =>
    if c.modeold < 1 ∨ new = true then
      match ev x with
      | .error e => (c, .error e)
      | .ok (rc, J) =>
        let f := factor n J
        if f.2 < 0 then ({ c with S := f.1 }, .ok (-3, b))
        else ({ c with S := f.1, modeold := 2 }, .ok (min 3 rc, solve n f.1 b))
    else ({ c with modeold := 2 }, .ok (3, solve n c.S b))
  | _ => (c, .ok (3, b))

end

/-- The two sweeps of `jac_solv` (taylor.cpp:467-468); `rrc` is the code `fov_reverse` returns. -/
noncomputable def evJac (t : Tape ℝ) (rrc : Int) (x : Nat → ℝ) : Except DErr (Int × (Nat → Nat → ℝ)) := do
  let z ← t.zos true x
  let w ← rev (fovRevRun t.n (ident t.n) t.ops (VRS.init t.n t.n z.stk))
  .ok (min z.rc rrc, w.bar)

/-- `jac_solv(tag, n, x, b, mode)` with `n` = the numbers of independents and of dependents of the trace. -/
noncomputable def jacSolv (t : Tape ℝ) (rrc : Int) (x b : Nat → ℝ) (mode : Nat) (c : JSState ℝ) : JSState ℝ × Except DErr (Int × (Nat → ℝ)) :=
  jacSolvCore t.n (evJac t rrc) x b mode c

end Verif.Drivers
