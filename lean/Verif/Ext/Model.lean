import Verif.AD.RevRun
import Mathlib.Algebra.BigOperators.Group.List.Lemmas
import Mathlib.Algebra.BigOperators.Group.List.Basic

/-!
# External functions: `externfcts.cpp`, `externfcts2.cpp` and their cases in the sweeps

The user's callbacks are arbitrary functions.  A trace mixes operations of `Verif.AD` and calls.
-/
set_option linter.all false
namespace Verif.Ext
open Verif.AD

variable {K : Type}

/-- `ext_diff_fct` / `ext_diff_fct_v2`: the callbacks a user registers (externfcts.h:128-245,
externfcts2.h).  `fn x y` is `function` and `zos_forward` (return code, new `x`, new `y`),
`fos x dx y dy` is `fos_forward`, `rev u z x y` the new `z` of `fos_reverse`.  Callbacks for
vector and higher order modes are not modelled. -/
structure Edf (K : Type) where
  fn : List K → List K → Int × List K × List K
  fos : List K → List K → List K → List K → Int × (List K × List K) × (List K × List K)
  rev : List K → List K → List K → List K → List K
  xChanges : Bool
  yPrior : Bool

/-- A call: the record used, and the variables it is called with, as groups (first location,
number).  `call_ext_fct(edfct, n, xa, m, ya)` has one group each (externfcts.cpp:115),
`call_ext_fct(edfct, iArrLen, iArr, nin, nout, insz, x, outsz, y)` has `nin` and `nout`
groups (externfcts2.cpp:82). -/
structure Call where
  i : Nat
  iArr : List Nat
  xs : List (Nat × Nat)
  ys : List (Nat × Nat)
  deriving DecidableEq, Repr

/-- The locations of the variables of a list of groups, in order. -/
def locsOf (g : List (Nat × Nat)) : List Nat := g.flatMap fun p => (List.range p.2).map (p.1 + ·)

/-! ## What is put on the location tape -/

/-- `call_ext_fct`, first version: externfcts.cpp:60-72 (index, n, m). -/
def enc1 (c : Call) : List Nat := [c.i, (locsOf c.xs).length, (locsOf c.ys).length]

/-- `call_ext_fct` with an integer array: externfcts.cpp:146-160. -/
def encI (c : Call) : List Nat := c.iArr.length :: c.iArr ++ [c.iArr.length] ++ enc1 c

/-- `call_ext_fct`, second version: externfcts2.cpp:90-115. -/
def enc2 (c : Call) : List Nat :=
  [c.i, c.iArr.length] ++ c.iArr ++ [c.iArr.length, c.xs.length, c.ys.length] ++
    c.xs.flatMap (fun p => [p.2, p.1]) ++ c.ys.flatMap (fun p => [p.2, p.1]) ++ [c.xs.length, c.ys.length]

/-- `n` entries from the front. -/
def takeF : Nat → List Nat → Option (List Nat × List Nat)
  | 0, l => some ([], l)
  | n + 1, a :: l => (takeF n l).map fun r => (a :: r.1, r.2)
  | _ + 1, [] => none

/-- `n` pairs (size, location) from the front: uni5_for.cpp:5609-5616. -/
def pairsF : Nat → List Nat → Option (List (Nat × Nat) × List Nat)
  | 0, l => some ([], l)
  | n + 1, sz :: lo :: l => (pairsF n l).map fun r => ((lo, sz) :: r.1, r.2)
  | _ + 1, _ => none

/-- `n` entries read backwards into positions `n-1 … 0`: fo_rev.cpp:2806, 2718. -/
def takeR : Nat → List Nat → List Nat → Option (List Nat × List Nat)
  | 0, acc, l => some (acc, l)
  | n + 1, acc, a :: l => takeR n (a :: acc) l
  | _ + 1, _, [] => none

/-- `n` pairs (location, size) read backwards: fo_rev.cpp:2794-2801. -/
def pairsR : Nat → List (Nat × Nat) → List Nat → Option (List (Nat × Nat) × List Nat)
  | 0, acc, l => some (acc, l)
  | n + 1, acc, lo :: sz :: l => pairsR n ((lo, sz) :: acc) l
  | _ + 1, _, _ => none

/-- Forward reading of `ext_diff`: uni5_for.cpp:5513-5516.  Result: index, n, m, rest. -/
def decF1 : List Nat → Option ((Nat × Nat × Nat) × List Nat)
  | i :: n :: m :: l => some ((i, n, m), l)
  | _ => none

/-- Backward reading of `ext_diff` (the list is the tape read backwards): fo_rev.cpp:2632-2634. -/
def decR1 : List Nat → Option ((Nat × Nat × Nat) × List Nat)
  | m :: n :: i :: l => some ((i, n, m), l)
  | _ => none

/-- Forward reading of `ext_diff_iArr`: uni5_for.cpp:5552-5560. -/
def decFI : List Nat → Option ((List Nat × Nat × Nat × Nat) × List Nat)
  | k :: l =>
    match takeF k l with
    | some (a, _ :: l) => (decF1 l).map fun r => ((a, r.1), r.2)
    | _ => none
  | _ => none

/-- Backward reading of `ext_diff_iArr`: fo_rev.cpp:2712-2720. -/
def decRI (l : List Nat) : Option ((List Nat × Nat × Nat × Nat) × List Nat) :=
  match decR1 l with
  | some (r, k :: l) =>
    match takeR k [] l with
    | some (a, _ :: l) => some ((a, r), l)
    | _ => none
  | _ => none

/-- Forward reading of `ext_diff_v2`: uni5_for.cpp:5594-5620. -/
def decF2 : List Nat → Option (Call × List Nat)
  | i :: k :: l =>
    match takeF k l with
    | some (a, _ :: nin :: nout :: l) =>
      match pairsF nin l with
      | some (xs, l) =>
        match pairsF nout l with
        | some (ys, _ :: _ :: l) => some (⟨i, a, xs, ys⟩, l)
        | _ => none
      | _ => none
    | _ => none
  | _ => none

/-- Backward reading of `ext_diff_v2`: fo_rev.cpp:2786-2810. -/
def decR2 : List Nat → Option (Call × List Nat)
  | nout :: nin :: l =>
    match pairsR nout [] l with
    | some (ys, l) =>
      match pairsR nin [] l with
      | some (xs, _ :: _ :: k :: l) =>
        match takeR k [] l with
        | some (a, _ :: i :: l) => some (⟨i, a, xs, ys⟩, l)
        | _ => none
      | _ => none
    | _ => none
  | _ => none

/-! ## Recording -/

/-- A statement of a program with external functions: an operation, a call of a record of the
first version (with or without integer array), a call of a record of the second version. -/
inductive Stm (K : Type) where
  | base (o : Base K)
  | v1 (c : Call)
  | iarr (c : Call)
  | v2 (c : Call)

/-- An operation on the tape with the locations read for it. -/
inductive Op (K : Type) where
  | base (o : Base K)
  | ext (i n m : Nat)
  | extI (iArr : List Nat) (i n m : Nat)
  | ext2 (c : Call)

/-- The records of the first version: `firstIndLocation`, `firstDepLocation`
(externfcts.h:140-150). -/
abbrev Tbl := Nat → Nat × Nat

/-- First location of the first group (`xa->loc()`). -/
def first (g : List (Nat × Nat)) : Nat := (g.head?.map Prod.fst).getD 0

/-- `call_ext_fct_commonPrior`: externfcts.cpp:60-105; `edfct->firstIndLocation = xa->loc()`. -/
def setFirst (t : Tbl) (c : Call) : Tbl := fun j => if j = c.i then (first c.xs, first c.ys) else t j

/-- Recording a program: the operations on the tape and the records afterwards. -/
def record : List (Stm K) → Tbl → List (Op K) × Tbl
  | [], t => ([], t)
  | .base o :: p, t => let r := record p t; (.base o :: r.1, r.2)
  | .v1 c :: p, t =>
    let r := record p (setFirst t c)
    (.ext c.i (locsOf c.xs).length (locsOf c.ys).length :: r.1, r.2)
  | .iarr c :: p, t =>
    let r := record p (setFirst t c)
    (.extI c.iArr c.i (locsOf c.xs).length (locsOf c.ys).length :: r.1, r.2)
  | .v2 c :: p, t => let r := record p t; (.ext2 c :: r.1, r.2)

/-! ## Evaluation -/

/-- What a sweep executes: an operation, or a call on the given locations.  `inPlace`: the
reverse callback writes the adjoints of `x` in place (fo_rev.cpp:2728), else into a buffer
copied back after the adjoints of `y` are cleared (fo_rev.cpp:2646, 2683). -/
inductive Step (K : Type) where
  | base (o : Base K)
  | call (e : Edf K) (X Y : List Nat) (inPlace : Bool)

/-- The locations `l, l+1, …, l+n-1`. -/
def span (l n : Nat) : List Nat := (List.range n).map (l + ·)

/-- What the sweeps execute for an operation on the tape: version 1 takes the first locations
from the record (uni5_for.cpp:5522-5524, 5562-5564; fo_rev.cpp:2645-2656), version 2 from the
tape (uni5_for.cpp:5647-5660; fo_rev.cpp:2829-2848).  `e1`, `e2`: the registered records. -/
def Op.step (e1 e2 : Nat → Edf K) (t : Tbl) : Op K → Step K
  | .base o => .base o
  | .ext i n m => .call (e1 i) (span (t i).1 n) (span (t i).2 m) false
  | .extI _ i n m => .call (e1 i) (span (t i).1 n) (span (t i).2 m) true
  | .ext2 c => .call (e2 c.i) (locsOf c.xs) (locsOf c.ys) false

/-- Specification: every call on its own variables. -/
def Stm.step (e1 e2 : Nat → Edf K) : Stm K → Step K
  | .base o => .base o
  | .v1 c => .call (e1 c.i) (locsOf c.xs) (locsOf c.ys) false
  | .iarr c => .call (e1 c.i) (locsOf c.xs) (locsOf c.ys) true
  | .v2 c => .call (e2 c.i) (locsOf c.xs) (locsOf c.ys) false

variable [Scalar K]

/-- The values at a list of locations. -/
def rd (T : Nat → K) (X : List Nat) : List K := X.map T

/-- Store values at a list of locations. -/
def wr (T : Nat → K) : List Nat → List K → Nat → K
  | l :: X, v :: vs => wr (upd T l v) X vs
  | _, _ => T

/-- zos_forward, `ext_diff` cases: uni5_for.cpp:5511-5550, 5552-5592, 5594-5700. -/
def callZos (c : Cfg K) (e : Edf K) (X Y : List Nat) (s : ZS K) : ZS K :=
  let s1 := if e.xChanges then X.foldl (fun s l => s.push c l) s else s
  let s2 := if e.yPrior then Y.foldl (fun s l => s.push c l) s1 else s1
  let r := e.fn (rd s.T X) (rd s.T Y)
  { s2 with T := wr (wr s.T X r.2.1) Y r.2.2, rc := mindec s2.rc r.1 }

/-- fos_forward, same lines with `_FOS_`. -/
def callFos (c : Cfg K) (e : Edf K) (X Y : List Nat) (s : FS K) : FS K :=
  let s1 := if e.xChanges then X.foldl (fun s l => s.push c l) s else s
  let s2 := if e.yPrior then Y.foldl (fun s l => s.push c l) s1 else s1
  let r := e.fos (rd s.T X) (rd s.dT X) (rd s.T Y) (rd s.dT Y)
  { s2 with T := wr (wr s.T X r.2.1.1) Y r.2.2.1, dT := wr (wr s.dT X r.2.1.2) Y r.2.2.2, rc := mindec s2.rc r.1 }

/-- fos_reverse: fo_rev.cpp:2632-2710, 2711-2783, 2784-2890.  The buffers `ext_x`, `ext_y` hold
the values after the call. -/
def callRev (e : Edf K) (X Y : List Nat) (inPlace : Bool) (s : RS K) : Except RStop (RS K) :=
  let z := e.rev (rd s.A Y) (rd s.A X) (rd s.T X) (rd s.T Y)
  let s := { s with A := if inPlace then wr (wr s.A X z) Y (Y.map fun _ => 0)
                         else wr (wr s.A Y (Y.map fun _ => 0)) X z }
  match (if e.yPrior then Y.reverse.foldlM (fun s l => RS.pop l s) s else .ok s) with
  | .error er => .error er
  | .ok s => if e.xChanges then X.reverse.foldlM (fun s l => RS.pop l s) s else .ok s

def zosStepX (c : Cfg K) : Step K → ZS K → Except Stop (ZS K)
  | .base o, s => zosStep c o s
  | .call e X Y _, s => .ok (callZos c e X Y s)

def fosStepX (c : Cfg K) (v : Nat → K) : Step K → FS K → Except Stop (FS K)
  | .base o, s => fosStep c v o s
  | .call e X Y _, s => .ok (callFos c e X Y s)

def revStepX (u : Nat → K) : Step K → RS K → Except RStop (RS K)
  | .base o, s => revStep u o s
  | .call e X Y b, s => callRev e X Y b s

/-- The loops of the sweeps over a mixed trace. -/
def zosRunX (c : Cfg K) : List (Step K) → ZS K → Except Stop (ZS K)
  | [], s => .ok s
  | o :: os, s => match zosStepX c o s with | .error e => .error e | .ok s' => zosRunX c os s'

def fosRunX (c : Cfg K) (v : Nat → K) : List (Step K) → FS K → Except Stop (FS K)
  | [], s => .ok s
  | o :: os, s => match fosStepX c v o s with | .error e => .error e | .ok s' => fosRunX c v os s'

def revRunX (u : Nat → K) : List (Step K) → RS K → Except RStop (RS K)
  | [], s => .ok s
  | o :: os, s => match revRunX u os s with | .error e => .error e | .ok s' => revStepX u o s'

/-! ## Contract of the user's callbacks -/

/-- `Σ a_k b_k`. -/
def ldot (a b : List K) : K := (List.zipWith (· * ·) a b).sum

/-- `fos_forward` continues `zos_forward`, keeps the lengths, leaves `x` alone unless
`dp_x_changes`; `fos_reverse` transposes `fos_forward`; the tangents of the old `y` do not
matter. -/
structure Edf.Good (e : Edf K) : Prop where
  val : ∀ x dx y dy, (e.fos x dx y dy).1 = (e.fn x y).1 ∧ (e.fos x dx y dy).2.1.1 = (e.fn x y).2.1 ∧
    (e.fos x dx y dy).2.2.1 = (e.fn x y).2.2
  lenx : ∀ x y, (e.fn x y).2.1.length = x.length
  leny : ∀ x y, (e.fn x y).2.2.length = y.length
  lendx : ∀ x dx y dy, dx.length = x.length → (e.fos x dx y dy).2.1.2.length = x.length
  lendy : ∀ x dx y dy, dy.length = y.length → (e.fos x dx y dy).2.2.2.length = y.length
  lenz : ∀ u z x y, (e.rev u z x y).length = z.length
  xsame : e.xChanges = false → ∀ x y, (e.fn x y).2.1 = x
  ypri : e.yPrior = true
  dual : ∀ x dx y dy u z, dx.length = x.length → dy.length = y.length → u.length = y.length → z.length = x.length →
    ldot (e.rev u z (e.fn x y).2.1 (e.fn x y).2.2) dx =
      ldot u (e.fos x dx y dy).2.2.2 + ldot z (e.fos x dx y dy).2.1.2

end Verif.Ext
