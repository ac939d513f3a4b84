import Mathlib.Data.Nat.Choose.Basic
import Mathlib.Algebra.BigOperators.Group.Finset.Basic
/-!
# The checkpoint scheduler: revolve.cpp, revolve.h

C `int`s are `Int`s; the products and sums that decide what the scheduler does are checked against
the range of a 32-bit `int`, `none` is an overflow or an access outside `ch`.  The statistics
`takeshots` and `commands` (only printed) are omitted.
-/
set_option linter.all false
namespace Verif.Rev

/-- The value, if representable as `int`. -/
def ck (x : Int) : Option Int := if -2147483648 ≤ x ∧ x ≤ 2147483647 then some x else none

/-- `ADOLC_CHECKUP`, `ADOLC_REPSUP`: internal/usrparms.h:62-63. -/
def checkup : Int := 1000
def repsup : Int := 1000

/-- `struct revolve_nums`: revolve.h:20-32, a global variable. -/
structure Nums where
  advances : Int
  turn : Int
  reps : Int
  range : Int
  ch : Nat → Int
  oldsnaps : Int
  oldfine : Int

/-- The in/out arguments `*check`, `*capo`, `*fine`, `*info`. -/
structure Args where
  check : Int
  capo : Int
  fine : Int
  info : Int
deriving DecidableEq

/-- `enum revolve_action`: revolve.h:36-44. -/
inductive Act | advance | takeshot | restore | firsturn | youturn | terminate | error
deriving DecidableEq

/-- `rev_num.ch[i]`. -/
def Nums.chAt (g : Nums) (i : Int) : Option Int := if 0 ≤ i ∧ i < checkup then some (g.ch i.toNat) else none

def Nums.setCh (g : Nums) (i : Nat) (v : Int) : Nums := { g with ch := fun j => if j = i then v else g.ch j }

/-- The loop revolve.cpp:385-390 (the same as 205-210): smallest `reps` whose `range` covers `l` steps. -/
def rangeLoop (ds l : Int) : Nat → Int → Int → Option (Int × Int)
  | 0, _, _ => none
  | fuel + 1, reps, range =>
    if range < l then do
      let p ← ck (range * (reps + 1 + ds))
      rangeLoop ds l fuel (reps + 1) (p.tdiv (reps + 1))
    else some (reps, range)

/-- An operand that is computed only on condition `b`. -/
def ckIf (b : Bool) (x : Int) : Option Int := if b then ck x else some 0

/-- The new `*capo` when advancing: revolve.cpp:402-471.  `l = *fine - *capo`; the result is relative
to `*capo` (the code computes `*fine - x` where this has `l - x`), `if (*capo == oldcapo)` included. -/
def split (ds l reps range : Int) : Option Int :=
  (ck (range * reps)).bind fun p1 =>
  let bino1 := p1.tdiv (ds + reps)
  (ckIf (ds > 1) (bino1 * ds)).bind fun p2 =>
  let bino2 := if ds > 1 then p2.tdiv (ds + reps - 1) else 1
  (ckIf (ds > 2) (bino2 * (ds - 1))).bind fun p3 =>
  let bino3 := if ds = 1 then 0 else if ds > 2 then p3.tdiv (ds + reps - 2) else 1
  (ck (bino2 * (reps - 1))).bind fun p4 =>
  let bino4 := p4.tdiv ds
  (ckIf (ds > 3) (bino3 * (ds - 2))).bind fun p5 =>
  let bino5 := if ds < 3 then 0 else if ds > 3 then p5.tdiv reps else 1
  (ck (bino1 * ds)).bind fun p6 =>
  let bino6 := p6.tdiv reps
  (ck (bino1 + bino3)).bind fun s13 =>
  (ckIf (¬ l ≤ s13) (bino1 + bino2)).bind fun s12 =>
  (ckIf (¬ l ≤ s13 ∧ ¬ l < s12) (bino1 + bino2 + bino5)).bind fun s125 =>
  let a := if l ≤ s13 then bino4
    else if l < s12 then l - bino2 - bino3
    else if l ≤ s125 then bino1 - bino3
    else l - bino6
  some (if a = 0 then 1 else a)

/-- `numforw(steps, snaps)`: revolve.cpp:193-219. -/
def numforw (steps snaps : Int) : Option Int :=
  if snaps < 1 then some (-1)
  else if snaps > checkup then some (-1)
  else do
    let (reps, range) ← rangeLoop snaps steps (steps.toNat + 1) 0 1
    if reps > repsup then return -1
    let p ← ck (reps * steps)
    let q ← ck (range * reps)
    ck (p - q.tdiv (snaps + 1))

/-- Is the top checkpoint at `*capo`?  (`rev_num.ch[*check] == *capo`; `false` for `*check == -1`.) -/
def atTop (g : Nums) (x : Args) : Option Bool :=
  if x.check = -1 then some false else (g.chAt x.check).map fun c => decide (c = x.capo)

/-- `case 0`: revolve.cpp:311-324. -/
def revolve0 (g : Nums) (x : Args) : Option (Act × Nums × Args) :=
  if x.check = -1 ∨ x.capo = g.ch 0 then some (.terminate, g, { x with check := x.check - 1 })
  else (g.chAt x.check).map fun c => (.restore, { g with oldfine := x.fine }, { x with capo := c })

/-- `case 1`: revolve.cpp:325-336. -/
def revolve1 (g : Nums) (x : Args) : Option (Act × Nums × Args) :=
  (atTop g x).map fun here =>
    let x := { x with fine := x.fine - 1, check := if here then x.check - 1 else x.check }
    if g.turn = 0 then (.firsturn, { g with turn := 1, oldfine := x.fine }, x)
    else (.youturn, { g with oldfine := x.fine }, x)

/-- Taking a checkpoint: revolve.cpp:338-373 (`x.check` already incremented). -/
def takeshot (g : Nums) (x : Args) (snaps : Int) : Option (Act × Nums × Args) :=
  if x.check ≥ checkup then some (.error, g, { x with info := 10 })
  else if x.check + 1 > snaps then some (.error, g, { x with info := 11 })
  else
    let g := g.setCh x.check.toNat x.capo
    if x.check = 0 then
      let g := { g with advances := 0, oldsnaps := snaps }
      if snaps > checkup then some (.error, g, { x with info := 14 })
      else if x.info > 0 then (numforw (x.fine - x.capo) snaps).map fun num =>
        if num = -1 then (.error, g, { x with info := 12 }) else (.takeshot, { g with oldfine := x.fine }, x)
      else some (.takeshot, { g with oldfine := x.fine }, x)
    else some (.takeshot, { g with oldfine := x.fine }, x)

/-- Advancing from the top checkpoint: revolve.cpp:374-474. -/
def advance (g : Nums) (x : Args) (snaps : Int) : Option (Act × Nums × Args) :=
  if g.oldfine < x.fine ∧ snaps = x.check + 1 then some (.error, g, { x with info := 13 })
  else if snaps - x.check < 1 then some (.error, g, { x with info := 11 })
  else (rangeLoop (snaps - x.check) (x.fine - x.capo) ((x.fine - x.capo).toNat + 1) 0 1).bind fun rr =>
    let g := { g with reps := rr.1, range := rr.2 }
    if rr.1 > repsup then some (.error, g, { x with info := 15 })
    else if snaps ≠ g.oldsnaps ∧ snaps > checkup then some (.error, g, { x with info := 14 })
    else (split (snaps - x.check) (x.fine - x.capo) rr.1 rr.2).bind fun a =>
      (ck (g.advances + a)).map fun adv =>
        (.advance, { g with advances := adv, oldfine := x.fine }, { x with capo := x.capo + a })

/-- `revolve(check, capo, fine, snaps, info)`: revolve.cpp:293-477. -/
def revolve (g : Nums) (x : Args) (snaps : Int) : Option (Act × Nums × Args) :=
  if x.check < -1 ∨ x.capo > x.fine then some (.error, g, { x with info := 9 })
  else
    let g := if x.check = -1 ∧ x.capo < x.fine then { g.setCh 0 (x.capo - 1) with turn := 0 } else g
    if x.fine - x.capo = 0 then revolve0 g x
    else if x.fine - x.capo = 1 then revolve1 g x
    else (atTop g x).bind fun here =>
      if here then advance g x snaps else takeshot g { x with check := x.check + 1 } snaps

end Verif.Rev
