import Verif.AD.Forward

/-!
# Recording: `adouble.cpp`, `adtb_types.h`

A user program is a tree (`Prog`) of calls on named `adouble` objects; every C++ expression is
a sequence of calls of overloaded functions, its temporaries being named objects too.  The
primitive calls (`Stmt`) are the blocks the functions of `adouble.cpp` are made of; the
functions themselves, and C++ expressions and statements, are the lists of calls in `AD/Api.lean`.

* `Stmt.spec`, `Prog.spec`: the meaning of the program on plain numbers (the specification).
* `Stmt.record`, `Prog.record`: what the recorder does: values in the store, operations on the
  trace, the value stack, allocation of locations.
-/
set_option linter.all false
namespace Verif.AD
open Elem

variable {K : Type} [Scalar K]

/-- One-argument functions. -/
inductive Un (K : Type) where
  | pos | neg
  | plusD (c : K)   -- c + a
  | subD (c : K)    -- a - c
  | minD (c : K)    -- c - a
  | multD (c : K)   -- c * a
  | overD (c : K)   -- a / c
  | divD (c : K)    -- c / a
  | exp | log | sqrt | cbrt
  | pow (c : K)
  | fabs | ceil | floor

/-- Meaning. -/
def Un.fn (f : Un K) (v : K) : K :=
  match f with
  | .pos => v
  | .neg => -v
  | .plusD c => c + v
  | .subD c => v - c
  | .minD c => c - v
  | .multD c => c * v
  | .overD c => v / c
  | .divD c => c / v
  | .exp => Elem.exp v
  | .log => Elem.log v
  | .sqrt => Elem.sqrt v
  | .cbrt => Elem.cbrt v
  | .pow c => Elem.pow v c
  | .fabs => Elem.fabs v
  | .ceil => Elem.ceil v
  | .floor => Elem.floor v

/-- `coval + a`: adouble.cpp:1803-1812 -/
def opPlusD (c : K) (a r : Nat) : Base K := if c ≠ 0 then .plusDA a r c else .posSign a r
/-- `coval - a`: adouble.cpp:2067-2076 -/
def opMinD (c : K) (a r : Nat) : Base K := if c ≠ 0 then .minDA a r c else .negSign a r
/-- `coval * a`: adouble.cpp:2341-2354 -/
def opMultD (c : K) (a r : Nat) : Base K :=
  if c = 1 then .posSign a r else if c = -1 then .negSign a r else .multDA a r c

/-- The operation put on the trace; `v` is `a.value()`.  `a - coval` is `(-coval) + a`
(adtb_types.h:630), `a / coval` is `(1.0 / coval) * a` (adtb_types.h:666, 649). -/
def Un.op (f : Un K) (v : K) (a r : Nat) : Base K :=
  match f with
  | .pos => .posSign a r                                    -- adouble.cpp:1462, 1507
  | .neg => .negSign a r                                    -- 1550, 1597
  | .plusD c => opPlusD c a r                               -- 1793, 1848
  | .subD c => opPlusD (-c) a r
  | .minD c => opMinD c a r                                 -- 2057, 2112
  | .multD c => opMultD c a r                               -- 2330, 2390
  | .overD c => opMultD (1 / c) a r
  | .divD c => .divDA a r c                                 -- 2666, 2716
  | .exp => .expOp a r                                      -- 2768, 2812
  | .log => .logOp a r                                      -- 2860, 2910
  | .sqrt => .sqrtOp a r                                    -- 2959, 3009
  | .cbrt => .cbrtOp a r                                    -- 3058, 3108
  | .pow c => .powOp a r c                                  -- 4969, 5022
  | .fabs => .absVal a r (if Elem.fabs v ≠ v then 0 else 1) -- 4545-4560, 4601
  | .ceil => .ceilOp a r (Elem.ceil v)                      -- 4346-4359, 4398
  | .floor => .floorOp a r (Elem.floor v)                   -- 4445, 4497

/-- The value the recorder stores for the result. -/
def Un.recVal (f : Un K) (v : K) : K :=
  match f with
  | .pos => v
  | .neg => -v
  | .plusD c => c + v
  | .subD c => -c + v
  | .minD c => c - v
  | .multD c => c * v
  | .overD c => 1 / c * v
  | .divD c => c / v
  | .exp => Elem.exp v
  | .log => Elem.log v
  | .sqrt => Elem.sqrt v
  | .cbrt => Elem.cbrt v
  | .pow c => Elem.pow v c
  | .fabs => Elem.fabs v
  | .ceil => Elem.ceil v
  | .floor => Elem.floor v

/-- Two-argument functions. -/
inductive Bin where
  | plus | minus | mult | div | fmin
  deriving DecidableEq

def Bin.fn (f : Bin) (v w : K) : K :=
  match f with
  | .plus => v + w
  | .minus => v - w
  | .mult => v * w
  | .div => v / w
  | .fmin => if w < v then w else v

/-- The operation put on the trace (`v`, `w` the values of `a`, `b`). -/
def Bin.op (f : Bin) (v w : K) (a b r : Nat) : Base K :=
  match f with
  | .plus => .plusAA a b r                               -- adouble.cpp:1633, 1714
  | .minus => .minAA a b r                               -- 1898, 1978
  | .mult => .multAA a b r                               -- 2163, 2247
  | .div => .divAA a b r                                 -- 2443, 2530, 2598
  | .fmin => .minOp a b r (if w < v then 0 else 1)       -- 4706-4719, 4811, 4916

/-- The value the recorder stores; `la` is `a.loc()`.  In `fmin(const adouble&, const
adouble&)` (`lv = true`) the code reads `to_double(a.loc())` for the value of `a`
(adouble.cpp:4707). -/
def Bin.recVal (f : Bin) (lv : Bool) (la : Nat) (v w : K) : K :=
  match f with
  | .plus => v + w
  | .minus => v - w
  | .mult => v * w
  | .div => v / w
  | .fmin => if w < v then w else if lv then Elem.ofLoc la else v

/-- Compound assignments with a number or an adouble. -/
inductive Acc where
  | plus | minus | mult
  deriving DecidableEq

def Acc.fn (f : Acc) (v w : K) : K :=
  match f with
  | .plus => v + w
  | .minus => v - w
  | .mult => v * w

/-- `+=`, `-=`, `*=` with a `double`: adouble.cpp:231, 376, 520. -/
def Acc.opD (f : Acc) (r : Nat) (c : K) : Base K :=
  match f with
  | .plus => .eqPlusD r c
  | .minus => .eqMinD r c
  | .mult => .eqMultD r c

/-- `+=`, `-=`, `*=` with an adouble: adouble.cpp:252, 397, 542. -/
def Acc.opA (f : Acc) (a r : Nat) : Base K :=
  match f with
  | .plus => .eqPlusA a r
  | .minus => .eqMinA a r
  | .mult => .eqMultA a r

/-- Primitive calls. -/
inductive Stmt (K : Type) where
  /-- `adouble d;` adouble.cpp:23 -/
  | new (d : Nat)
  /-- `adouble d(c);` adouble.cpp:49 -/
  | newD (d : Nat) (c : K)
  /-- `adouble d(a);` adouble.cpp:82 -/
  | copy (d a : Nat)
  /-- `adouble d(std::move(a));` adtb_types.h:266; also returning an rvalue parameter -/
  | move (d a : Nat)
  /-- `a = std::move(b);` of two different objects, adtb_types.h:316, `b` gone -/
  | moveA (a b : Nat)
  /-- destructor, adtb_types.h:119 -/
  | del (a : Nat)
  /-- `a = c;` adouble.cpp:129 -/
  | setD (a : Nat) (c : K)
  /-- `a = b;` adouble.cpp:162 -/
  | setA (a b : Nat)
  /-- `a = p;` with a parameter, adouble.cpp:207 -/
  | setP (a p : Nat)
  /-- `a += c;` … -/
  | accD (f : Acc) (a : Nat) (c : K)
  /-- `a += b;` … -/
  | accA (f : Acc) (a b : Nat)
  /-- `a += t;` / `a -= t;` with a temporary `t`, which is then destroyed:
  adouble.cpp:305, 450 -/
  | accR (minus : Bool) (a t : Nat)
  /-- `++a`, adouble.cpp:730 -/
  | incr (a : Nat)
  /-- `--a`, adouble.cpp:750 -/
  | decr (a : Nat)
  /-- `a <<= x_i;` adouble.cpp:777 -/
  | indep (a : Nat)
  /-- `a >>= y_j;` adouble.cpp:799 -/
  | dep (a : Nat)
  /-- record `f` with argument `a` and result object `d` (may be `a`) -/
  | un (f : Un K) (a d : Nat)
  /-- record `f` with arguments `a`, `b` and result object `d` (may be `a` or `b`);
  `lv`: both arguments were lvalues -/
  | bin (f : Bin) (lv : Bool) (a b d : Nat)
  /-- sin (`cosine = false`) / cos with companion object `b`: adouble.cpp:3168-3178,
  3247-3257, 3329, 3411 -/
  | trig (cosine : Bool) (a b d : Nat)
  /-- a `Quad` function, `b` the object holding the derivative: adouble.cpp:3494, 3549, … -/
  | quad (q : Quad) (a b d : Nat)
  /-- `condassign(r, c, a, b)`: adouble.cpp:5108 -/
  | cond (r c a b : Nat)
  /-- `condassign(r, c, a)`: 5237 -/
  | condS (r c a : Nat)
  /-- `condeqassign(r, c, a, b)`: 5333 -/
  | condEq (r c a b : Nat)
  /-- `condeqassign(r, c, a)`: 5464 -/
  | condEqS (r c a : Nat)

/-- A program: calls, and branches on comparisons of an adouble with zero
(comparisons with another number or adouble: `Src.comp` in `AD/Api.lean`). -/
inductive Prog (K : Type) where
  | done
  | stmt (s : Stmt K) (k : Prog K)
  | branch (c : Cmp) (a : Nat) (t f : Prog K)

/-! ## Specification -/

/-- Values of the live objects, number of independents declared so far, outputs so far. -/
structure SE (K : Type) where
  vars : Nat → Option K
  ii : Nat
  ys : List K

def SE.set (e : SE K) (d : Nat) (v : K) : SE K := { e with vars := upd e.vars d (some v) }
def SE.del (e : SE K) (d : Nat) : SE K := { e with vars := upd e.vars d none }

/-- Meaning of a call on plain numbers; `none` if an object is used before construction or
after destruction, or constructed twice. -/
def Stmt.spec (x par : Nat → K) (s : Stmt K) (e : SE K) : Option (SE K) :=
  match s with
  | .new d => if (e.vars d).isNone then some (e.set d 0) else none
  | .newD d c => if (e.vars d).isNone then some (e.set d c) else none
  | .copy d a => if (e.vars d).isNone then (e.vars a).map fun v => e.set d v else none
  | .move d a => if (e.vars d).isNone then (e.vars a).map fun v => (e.del a).set d v else none
  | .moveA a b =>
    if a ≠ b ∧ (e.vars a).isSome then (e.vars b).map fun v => (e.del b).set a v else none
  | .del a => if (e.vars a).isSome then some (e.del a) else none
  | .setD a c => if (e.vars a).isSome then some (e.set a c) else none
  | .setA a b => if (e.vars a).isSome then (e.vars b).map fun v => e.set a v else none
  | .setP a p => if (e.vars a).isSome then some (e.set a (par p)) else none
  | .accD f a c => (e.vars a).map fun v => e.set a (f.fn v c)
  | .accA f a b => (e.vars a).bind fun v => (e.vars b).map fun w => e.set a (f.fn v w)
  | .accR m a t =>
    if a ≠ t then
      (e.vars a).bind fun v => (e.vars t).map fun w =>
        (e.set a (if m then v - w else v + w)).del t
    else none
  | .incr a => (e.vars a).map fun v => e.set a (v + 1)
  | .decr a => (e.vars a).map fun v => e.set a (v - 1)
  | .indep a => if (e.vars a).isSome then some { e.set a (x e.ii) with ii := e.ii + 1 } else none
  | .dep a => (e.vars a).map fun v => { e with ys := e.ys ++ [v] }
  | .un f a d => if (e.vars d).isSome then (e.vars a).map fun v => e.set d (f.fn v) else none
  | .bin f _ a b d =>
    if (e.vars d).isSome then
      (e.vars a).bind fun v => (e.vars b).map fun w => e.set d (f.fn v w)
    else none
  | .trig co a b d =>
    if (e.vars d).isSome ∧ (e.vars b).isSome ∧ a ≠ b ∧ b ≠ d then
      (e.vars a).map fun v =>
        (e.set b (if co then sin v else cos v)).set d (if co then cos v else sin v)
    else none
  | .quad q a b d =>
    if (e.vars d).isSome ∧ (e.vars b).isSome ∧ b ≠ d then
      (e.vars a).map fun v => e.set d (q.fn v)
    else none
  | .cond r c a b =>
    if (e.vars r).isSome then
      (e.vars c).bind fun v => (e.vars a).bind fun w1 => (e.vars b).map fun w2 =>
        e.set r (if v > 0 then w1 else w2)
    else none
  | .condS r c a =>
    (e.vars r).bind fun old => (e.vars c).bind fun v => (e.vars a).map fun w =>
      e.set r (if v > 0 then w else old)
  | .condEq r c a b =>
    if (e.vars r).isSome then
      (e.vars c).bind fun v => (e.vars a).bind fun w1 => (e.vars b).map fun w2 =>
        e.set r (if v ≥ 0 then w1 else w2)
    else none
  | .condEqS r c a =>
    (e.vars r).bind fun old => (e.vars c).bind fun v => (e.vars a).map fun w =>
      e.set r (if v ≥ 0 then w else old)

/-- Meaning of a program, with the outcomes of the comparisons it evaluates. -/
def Prog.spec (x par : Nat → K) : Prog K → SE K → Option (SE K × List Bool)
  | .done, e => some (e, [])
  | .stmt s k, e => (s.spec x par e).bind fun e' => k.spec x par e'
  | .branch c a t f, e =>
    (e.vars a).bind fun v =>
      if c.holds v then (t.spec x par e).map fun p => (p.1, true :: p.2)
      else (f.spec x par e).map fun p => (p.1, false :: p.2)

/-! ## Recorder -/

/-- What the recorder run depends on: `keepTaylors()`, the choices of the store manager
(`next_loc`, depending on the history and on the locations in use), whether the buffers allow
the peephole rewrite of `upd_resloc_inc_prod` (their position is at least 3 / 1 since the last
flush, tapeinfos.h:341-344), the inputs and the parameters. -/
structure RCfg (K : Type) where
  keep : Bool
  alloc : Nat → List Nat → Nat
  fuse : Nat → Bool
  x : Nat → K
  par : Nat → K

/-- `V` is `globalTapeVars_.store`, `stk` the value stack (top first), `tr` the trace (last
operation first), `env` the location of each live object, `live` the allocated locations,
`cnt` counts allocations (the history), `hw` is one more than the largest location used. -/
structure Rec (K : Type) where
  V : Nat → K
  stk : List K
  tr : List (Base K)
  env : Nat → Option Nat
  live : List Nat
  cnt : Nat
  hw : Nat
  ii : Nat

namespace Rec
variable (cfg : RCfg K)

/-- `tape_location()`: `next_loc()` (adtb_types.h:127). -/
def next (s : Rec K) : Nat := cfg.alloc s.cnt s.live
def take (s : Rec K) (d : Nat) : Rec K :=
  { s with env := upd s.env d (some (s.next cfg)), live := s.next cfg :: s.live,
           cnt := s.cnt + 1, hw := max s.hw (s.next cfg + 1) }
/-- `free_loc` (adtb_types.h:91). -/
def free (s : Rec K) (d l : Nat) : Rec K :=
  { s with env := upd s.env d none, live := s.live.erase l }
/-- `put_op`, `put_loc`, `put_val`. -/
def put (o : Base K) (s : Rec K) : Rec K := { s with tr := o :: s.tr }
/-- `if (keepTaylors()) write_scaylor(value of r)`. -/
def keepT (r : Nat) (s : Rec K) : Rec K :=
  { s with stk := if cfg.keep then s.V r :: s.stk else s.stk }
/-- `value(v)` of the object at `r`. -/
def val (r : Nat) (v : K) (s : Rec K) : Rec K := { s with V := upd s.V r v }
/-- The common block: operation, old value of the result kept, new value stored. -/
def rec1 (o : Base K) (r : Nat) (v : K) (s : Rec K) : Rec K := ((s.put o).keepT cfg r).val r v
end Rec

/-- adouble.cpp:56-66, 135-145 -/
def opAssignD (r : Nat) (c : K) : Base K :=
  if c = 0 then .assignD0 r else if c = 1 then .assignD1 r else .assignD r c

/-- The recorder on a primitive call (`none`: use of an object that does not exist). -/
def Stmt.record (cfg : RCfg K) (st : Stmt K) (s : Rec K) : Option (Rec K) :=
  match st with
  -- adouble.cpp:23-47
  | .new d =>
    if (s.env d).isNone then
      let r := s.next cfg
      some ((s.take cfg d).rec1 cfg (.assignD0 r) r 0)
    else none
  -- 49-80
  | .newD d c =>
    if (s.env d).isNone then
      let r := s.next cfg
      some ((s.take cfg d).rec1 cfg (opAssignD r c) r c)
    else none
  -- 82-124
  | .copy d a =>
    if (s.env d).isNone then
      (s.env a).map fun la =>
        let r := s.next cfg
        let s' := s.take cfg d
        s'.rec1 cfg (.assignA la r) r (s'.V la)
    else none
  -- adtb_types.h:155-158
  | .move d a =>
    if (s.env d).isNone then
      (s.env a).map fun la => { s with env := upd (upd s.env a none) d (some la) }
    else none
  -- adtb_types.h:167-181
  | .moveA a b =>
    if a ≠ b then
      (s.env a).bind fun la => (s.env b).map fun lb =>
        let s' := s.free a la
        { s' with env := upd (upd s'.env b none) a (some lb) }
    else none
  -- adtb_types.h:119-123
  | .del a => (s.env a).map fun la => s.free a la
  -- adouble.cpp:129-160
  | .setD a c => (s.env a).map fun la => s.rec1 cfg (opAssignD la c) la c
  -- 162-205
  | .setA a b =>
    (s.env a).bind fun la => (s.env b).map fun lb =>
      if la ≠ lb then s.rec1 cfg (.assignA lb la) la (s.V lb) else s
  -- 207-226
  | .setP a p => (s.env a).map fun la => s.rec1 cfg (.assignP p la) la (cfg.par p)
  -- 231-250, 376-395, 520-540
  | .accD f a c => (s.env a).map fun la => s.rec1 cfg (f.opD la c) la (f.fn (s.V la) c)
  -- 252-303, 397-448, 542-596
  | .accA f a b =>
    (s.env a).bind fun la => (s.env b).map fun lb =>
      s.rec1 cfg (f.opA lb la) la (f.fn (s.V la) (s.V lb))
  -- 305-374, 450-518 with tapeinfos.h:340-355 and delete_scaylor (valuetape.h:543)
  | .accR m a t =>
    if a ≠ t then
      (s.env a).bind fun la => (s.env t).map fun lt =>
        let v := if m then s.V la - s.V lt else s.V la + s.V lt
        let plain := (s.rec1 cfg ((if m then Acc.minus else Acc.plus).opA lt la) la v).free t lt
        match s.tr with
        | .multAA p q r :: tr' =>
          if cfg.fuse s.tr.length ∧ lt = r ∧ la ≠ q ∧ la ≠ p then
            let s' := { s with tr := (if m then Base.eqMinProd p q la else .eqPlusProd p q la) :: tr' }
            let s' := s'.val la v
            let s' := if cfg.keep then
                match s'.stk with
                | y :: st => { s'.val lt y with stk := st }
                | [] => s'
              else s'
            s'.free t lt
          else plain
        | _ => plain
    else none
  -- 730-748
  | .incr a => (s.env a).map fun la => s.rec1 cfg (.incrA la) la (s.V la + 1)
  -- 750-768
  | .decr a => (s.env a).map fun la => s.rec1 cfg (.decrA la) la (s.V la - 1)
  -- 777-792
  | .indep a =>
    (s.env a).map fun la =>
      { s.rec1 cfg (.assignInd la) la (cfg.x s.ii) with ii := s.ii + 1 }
  -- 799-833
  | .dep a => (s.env a).map fun la => s.put (.assignDep la)
  | .un f a d =>
    (s.env d).bind fun ld => (s.env a).map fun la =>
      s.rec1 cfg (f.op (s.V la) la ld) ld (f.recVal (s.V la))
  | .bin f lv a b d =>
    (s.env d).bind fun ld => (s.env a).bind fun la => (s.env b).map fun lb =>
      s.rec1 cfg (f.op (s.V la) (s.V lb) la lb ld) ld (f.recVal lv la (s.V la) (s.V lb))
  -- 3153-3178, 3223-3224
  | .trig co a b d =>
    if a ≠ b ∧ b ≠ d then
      (s.env d).bind fun ld => (s.env b).bind fun lb => (s.env a).map fun la =>
        let coval1 := if co then cos (s.V la) else sin (s.V la)
        let coval2 := if co then sin (s.V la) else cos (s.V la)
        let s := s.put (if co then .cosOp la lb ld else .sinOp la lb ld)
        let s := (s.keepT cfg lb).keepT cfg ld
        (s.val ld coval1).val lb coval2
    else none
  -- 3480-3534, 3536-3589 and the other seven functions
  | .quad q a b d =>
    if b ≠ d then
      (s.env d).bind fun ld => (s.env b).bind fun lb => (s.env a).map fun la =>
        s.rec1 cfg (.quad q la lb ld) ld (q.fn (s.V la))
    else none
  -- 5108-5235
  | .cond r c a b =>
    (s.env r).bind fun lr => (s.env c).bind fun lc => (s.env a).bind fun la => (s.env b).map fun lb =>
      s.rec1 cfg (.condAssign lc la lb lr (s.V lc)) lr (if s.V lc > 0 then s.V la else s.V lb)
  -- 5237-5331
  | .condS r c a =>
    (s.env r).bind fun lr => (s.env c).bind fun lc => (s.env a).map fun la =>
      s.rec1 cfg (.condAssignS lc la lr (s.V lc)) lr (if s.V lc > 0 then s.V la else s.V lr)
  -- 5333-5462
  | .condEq r c a b =>
    (s.env r).bind fun lr => (s.env c).bind fun lc => (s.env a).bind fun la => (s.env b).map fun lb =>
      s.rec1 cfg (.condEqAssign lc la lb lr (s.V lc)) lr (if s.V lc ≥ 0 then s.V la else s.V lb)
  -- 5464-5558
  | .condEqS r c a =>
    (s.env r).bind fun lr => (s.env c).bind fun lc => (s.env a).map fun la =>
      s.rec1 cfg (.condEqAssignS lc la lr (s.V lc)) lr (if s.V lc ≥ 0 then s.V la else s.V lr)

/-- The comparison recorded for a comparison `c` with outcome `b`:
adouble.cpp:1299, 1325, 1352, 1379, 1406, 1433. -/
def Cmp.recorded (c : Cmp) (b : Bool) : Cmp :=
  match c with
  | .eq => if b then .eq else .neq
  | .neq => if b then .neq else .eq
  | .le => if b then .le else .gt
  | .ge => if b then .ge else .lt
  | .lt => if b then .lt else .ge
  | .gt => if b then .gt else .le

/-- Recording a program: branches follow the values at recording time. -/
def Prog.record (cfg : RCfg K) : Prog K → Rec K → Option (Rec K)
  | .done, s => some s
  | .stmt st k, s => (st.record cfg s).bind fun s' => k.record cfg s'
  | .branch c a t f, s =>
    (s.env a).bind fun la =>
      let b := c.holds (s.V la)
      let s' := s.put (.cmp (c.recorded b) la)
      if b then t.record cfg s' else f.record cfg s'

/-- Consecutive blocks from location `k` on. -/
def stockBlocks : Nat → List (List K) → List (Nat × List K)
  | _, [] => []
  | k, vs :: r => (k, vs) :: stockBlocks (k + vs.length) r

/-- State at `trace_on` (tape_interface.cpp:38-60): objects already alive, at different
locations of a store of `s.hw` cells; if there are any, `take_stock`
(valuetape.cpp:114-146) has put the contents of the whole store on the trace, in blocks. -/
structure Rec.Start (s : Rec K) (stock : List (Nat × List K)) : Prop where
  inj : ∀ a b l, s.env a = some l → s.env b = some l → a = b
  live : ∀ a l, s.env a = some l → l ∈ s.live
  hw : ∀ l ∈ s.live, l < s.hw
  tr : s.tr = (stock.map fun p => Base.takeStock p.1 p.2).reverse
  stock : (∃ bs, stock = stockBlocks 0 bs ∧ bs.flatten = (List.range s.hw).map s.V) ∨
    (stock = [] ∧ ∀ a, s.env a = none)
  ii : s.ii = 0
  stk : s.stk = []

/-- The specification's start: existing objects are constants. -/
def Rec.se (s : Rec K) : SE K := ⟨fun a => (s.env a).map s.V, 0, []⟩

/-- The complete trace after `trace_off`: `keep_stock` (valuetape.cpp:153-173) appends
`death_not 0 (N-1)`, `N` the size of the store by then. -/
def Rec.tape (s : Rec K) (N : Nat) : List (Base K) := s.tr.reverse ++ [.deathNot 0 (N - 1)]

/-- The value stack after `trace_off` (valuetape.cpp:167-171). -/
def Rec.endStk (s : Rec K) (N : Nat) : List K :=
  (List.range N).map s.V ++ s.stk

end Verif.AD
