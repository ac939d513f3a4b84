import Verif.AD.RecordDeriv
import Verif.AD.ReverseVec

/-!
# Piecewise smooth functions: `zos_pl_forward`, `fos_pl_forward`, `fos_pl_reverse`,
`fov_pl_reverse` (`uni5_for.cpp`, `fo_rev.cpp` with `_ABS_NORM_`), `fos_pl_sig_reverse`
(`_ABS_NORM_SIG_`) and `abs_normal` (`drivers/psdrivers.cpp`)

All cases of the switches except `abs_val` are those of the sweeps without `_ABS_NORM_`.
-/
set_option linter.all false
namespace Verif.AD
open Elem

variable {K : Type} [Scalar K]

/-! ## Specification: the switching function -/

/-- Meaning of a call when the results of `fabs` are prescribed: the `k`-th `fabs` evaluated
returns `w k`, and its argument is appended to `zs`. -/
def Stmt.swSpec (x w par : Nat → K) (s : Stmt K) (e : SE K) (zs : List K) : Option (SE K × List K) :=
  match s with
  | .un .fabs a d =>
    if (e.vars d).isSome then (e.vars a).map fun v => (e.set d (w zs.length), zs ++ [v]) else none
  | s => (s.spec x par e).map fun e' => (e', zs)

/-- Meaning of a program when the results of `fabs` are prescribed: final values and outputs, the
arguments of `fabs` and the outcomes of the comparisons. -/
def Prog.swSpec (x w par : Nat → K) : Prog K → SE K → List K → Option (SE K × List K × List Bool)
  | .done, e, zs => some (e, zs, [])
  | .stmt s k, e, zs => (s.swSpec x w par e zs).bind fun r => k.swSpec x w par r.1 r.2
  | .branch c a t f, e, zs =>
    (e.vars a).bind fun v =>
      if c.holds v then (t.swSpec x w par e zs).map fun p => (p.1, p.2.1, true :: p.2.2)
      else (f.swSpec x w par e zs).map fun p => (p.1, p.2.1, false :: p.2.2)

/-- The arguments of the calls of `fabs` a call evaluates. -/
def Stmt.switches (s : Stmt K) (e : SE K) : List K :=
  match s with
  | .un .fabs a _ => match e.vars a with | some v => [v] | none => []
  | _ => []

/-- The arguments of the calls of `fabs` a program evaluates (on plain numbers), in order. -/
def Prog.switches (x par : Nat → K) : Prog K → SE K → List K
  | .done, _ => []
  | .stmt s k, e =>
    s.switches e ++ match s.spec x par e with | some e' => k.switches x par e' | none => []
  | .branch c a t f, e =>
    match e.vars a with
    | some v => if c.holds v then t.switches x par e else f.switches x par e
    | none => []

/-! ## The sweeps -/

/-- `zos_pl_forward`: the variables of `zos_forward` and `swargs` (`switchnum` is its length). -/
structure PlZ (K : Type) where
  z : ZS K
  sw : List K

/-- uni5_for.cpp:3893-3895 and 3990-3992 (`swargs[switchnum] = dp_T0[arg]`, before `res` is
written; `++switchnum`). -/
def zosPlStep (c : Cfg K) (o : Base K) (s : PlZ K) : Except Stop (PlZ K) :=
  match zosStep c o s.z with
  | .error e => .error e
  | .ok z' => .ok ⟨z', match o with | .absVal a _ _ => s.sw ++ [s.z.T a] | _ => s.sw⟩

/-- The loop of `zos_pl_forward`. -/
def zosPlRun (c : Cfg K) : List (Base K) → PlZ K → Except Stop (PlZ K)
  | [], s => .ok s
  | o :: os, s =>
    match zosPlStep c o s with
    | .error e => .error e
    | .ok s' => zosPlRun c os s'

/-- `fos_pl_forward`: also `swtaylors`. -/
structure PlF (K : Type) where
  f : FS K
  sw : List K
  swT : List K

/-- uni5_for.cpp:3872-3992: `swtaylors[switchnum] = *Targ`,
`*Tres = fabs(dp_T0[arg] + *Targ) - fabs(dp_T0[arg])`, `dp_T0[res] = fabs(dp_T0[arg])`. -/
def fosPlStep (c : Cfg K) (v : Nat → K) (o : Base K) (s : PlF K) : Except Stop (PlF K) :=
  match o with
  | .absVal a r k =>
    let f := s.f.push c r
    let f :=
      if f.T a < 0 then f.dec (k ≠ 0) 2
      else if f.T a > 0 then f.dec (k = 0) 2
      else f
    let sw := s.sw ++ [f.T a]
    let swT := s.swT ++ [f.dT a]
    let f := f.setD r (fabs (f.T a + f.dT a) - fabs (f.T a))
    .ok ⟨f.set r (fabs (f.T a)), sw, swT⟩
  | o =>
    match fosStep c v o s.f with
    | .error e => .error e
    | .ok f' => .ok ⟨f', s.sw, s.swT⟩

/-- The loop of `fos_pl_forward`. -/
def fosPlRun (c : Cfg K) (v : Nat → K) : List (Base K) → PlF K → Except Stop (PlF K)
  | [], s => .ok s
  | o :: os, s =>
    match fosPlStep c v o s with
    | .error e => .error e
    | .ok s' => fosPlRun c v os s'

/-- `fos_pl_reverse`: the variables of `fos_reverse`, `switchnum + 1` and `resultsSwitch`. -/
structure PRS (K : Type) where
  r : RS K
  sw : Nat
  sbar : Nat → K

/-- fo_rev.cpp:1594-1617, 1629 (`us` is `lagrangeSwitch`). -/
def plRevStep (u us : Nat → K) (o : Base K) (s : PRS K) : Except RStop (PRS K) :=
  match o with
  | .absVal a r _ =>
    match s.r.pop r with
    | .error e => .error e
    | .ok t =>
      let sbar := upd s.sbar (s.sw - 1) (t.A r)
      let t := t.setA r 0
      let t := t.addA a (us (s.sw - 1))
      .ok ⟨t, s.sw - 1, sbar⟩
  | o =>
    match revStep u o s.r with
    | .error e => .error e
    | .ok t => .ok ⟨t, s.sw, s.sbar⟩

/-- The loop of `fos_pl_reverse`. -/
def plRevRun (u us : Nat → K) : List (Base K) → PRS K → Except RStop (PRS K)
  | [], s => .ok s
  | o :: os, s =>
    match plRevRun u us os s with
    | .error e => .error e
    | .ok s' => plRevStep u us o s'

/-- `fov_pl_reverse`; `sbar row k` is `resultsSwitch[row][k]`. -/
structure VPRS (K : Type) where
  r : VRS K
  sw : Nat
  sbar : Nat → Nat → K

/-- fo_rev.cpp:1594-1604, 1616-1629: two loops over the rows. -/
def fovPlRevStep (p : Nat) (U Us : Nat → Nat → K) (o : Base K) (s : VPRS K) : Except RStop (VPRS K) :=
  match o with
  | .absVal a r _ =>
    match s.r.pop r with
    | .error e => .error e
    | .ok t =>
      let q := (List.range p).foldl (fun (q : VRS K × (Nat → Nat → K)) row =>
        (q.1.setA r row 0, fun l k => if l = row ∧ k = s.sw - 1 then q.1.A r row else q.2 l k)) (t, s.sbar)
      let t := q.1.up p fun row t => t.addA a row (Us row (s.sw - 1))
      .ok ⟨t, s.sw - 1, q.2⟩
  | o =>
    match fovRevStep p U o s.r with
    | .error e => .error e
    | .ok t => .ok ⟨t, s.sw, s.sbar⟩

/-- The loop of `fov_pl_reverse`. -/
def fovPlRevRun (p : Nat) (U Us : Nat → Nat → K) : List (Base K) → VPRS K → Except RStop (VPRS K)
  | [], s => .ok s
  | o :: os, s =>
    match fovPlRevRun p U Us os s with
    | .error e => .error e
    | .ok s' => fovPlRevStep p U Us o s'

/-- `fos_pl_sig_reverse`, fo_rev.cpp:1631-1634 (`sg` is `siggrad`): `*Ares = 0.0` comes first. -/
def plSigRevStep (u sg : Nat → K) (o : Base K) (s : RS K × Nat) : Except RStop (RS K × Nat) :=
  match o with
  | .absVal a r _ =>
    match s.1.pop r with
    | .error e => .error e
    | .ok t =>
      let t := t.setA r 0
      let t := t.addA a (sg (s.2 - 1) * t.A r)
      .ok (t, s.2 - 1)
  | o =>
    match revStep u o s.1 with
    | .error e => .error e
    | .ok t => .ok (t, s.2)

/-- The loop of `fos_pl_sig_reverse`. -/
def plSigRevRun (u sg : Nat → K) : List (Base K) → RS K × Nat → Except RStop (RS K × Nat)
  | [], s => .ok s
  | o :: os, s =>
    match plSigRevRun u sg os s with
    | .error e => .error e
    | .ok s' => plSigRevStep u sg o s'

/-! ## The driver -/

/-- Number of `abs_val` operations: `NUM_SWITCHES`, counted while recording if the trace was
written with `enableMinMaxUsingAbs` (adouble.cpp:4561, `increment_numSwitches`). -/
def numSw (ops : List (Base K)) : Nat := ops.countP fun o => match o with | .absVal _ _ _ => true | _ => false

/-- Why `abs_normal` does not deliver. -/
inductive ANErr where
  /-- `SWITCHES_MISMATCH` -/
  | switches
  /-- `REVERSE_COUNTS_MISMATCH` -/
  | counts
  /-- `NO_MINMAX`: the trace was not written with `enableMinMaxUsingAbs` -/
  | noMinMax
  /-- `zos_pl_forward` stopped; the driver ignores its return code and starts the reverse sweep on
  whatever is on the value stack (what happens then is not modelled) -/
  | stopped
  /-- value stack empty -/
  | stack
  deriving DecidableEq, Repr

/-- `y`, `z`, and the matrices as functions of the indices. -/
structure ANF (K : Type) where
  y : List K
  z : List K
  Y : Nat → Nat → K
  J : Nat → Nat → K
  Z : Nat → Nat → K
  L : Nat → Nat → K

/-- `abs_normal` (psdrivers.cpp:34-88); the trace was written with (`mm`) or without `enableMinMaxUsingAbs`.  Rows `0..m-1` of the results of
`fov_pl_reverse` are `Y`, `J`, rows `m..m+s-1` are `Z`, `L`. -/
def absNormal (ops : List (Base K)) (par : Nat → K) (mm : Bool) (m n swchk : Nat) (x : Nat → K) :
    Except ANErr (ANF K) :=
  let s := if mm then numSw ops else 0
  if s ≠ swchk then .error .switches
  else if ¬ (n = numInd ops ∧ m = numDep ops) then .error .counts
  else if ¬ mm then .error .noMinMax
  else
    match zosPlRun ⟨x, par, true⟩ ops ⟨ZS.init, []⟩ with
    | .error _ => .error .stopped
    | .ok f =>
      let lagrange : Nat → Nat → K := fun row j => if row < m ∧ j = row then 1 else 0
      let lagrangeSwitch : Nat → Nat → K := fun row k => if m ≤ row ∧ k = row - m then 1 else 0
      match fovPlRevRun (m + s) lagrange lagrangeSwitch ops ⟨VRS.init n m f.z.stk, s, fun _ _ => 0⟩ with
      | .error _ => .error .stack
      | .ok r => .ok ⟨f.z.y, f.sw, fun j i => r.r.bar j i, fun j k => r.sbar j k,
          fun k i => r.r.bar (m + k) i, fun k l => r.sbar (m + k) l⟩

end Verif.AD
