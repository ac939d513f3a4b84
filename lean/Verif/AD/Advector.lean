import Verif.AD.Reverse
import Verif.AD.Record

/-!
# Vectors with active subscripts: `advector.h`, `advector.cpp`

`v[i]` with an `adouble` index `i` is recorded together with the index, so that a sweep at
another point selects another element.  Reading (`const advector`) gives an `adouble`, writing
goes through an `adubref`, an object whose cell holds the *location* of the selected element.

* `AOp`: operations whose operand location is found at run time.
* `zosRunA`, `fosRunA`, `revRunA`: the sweeps over traces containing them.
* `AProg.spec`: meaning of a program on plain numbers, with the list of selected indices.
* `AProg.record`: what the recorder does.
-/
set_option linter.all false
namespace Verif.AD
open Elem

variable {K : Type} [Scalar K]

/-- The operations on a referenced element (uni5_for.cpp:4590-4960, 5149-5467): the operation
of the same name without `ref_`, whose result location is read from the cell of the adubref. -/
inductive RefOp (K : Type) where
  | assignD (c : K)                      -- uni5_for.cpp:4612, fo_rev.cpp:2112
  | assignD0                             -- 4645, fo_rev.cpp:2134
  | assignD1                             -- 4674, fo_rev.cpp:2135
  | assignA (arg : Nat)                  -- 4703, fo_rev.cpp:2155
  | assignInd                            -- 4732, fo_rev.cpp:2182
  | eqPlusD (c : K)                      -- 4768, fo_rev.cpp:2203
  | eqPlusA (arg : Nat)                  -- 4786, fo_rev.cpp:2216
  | eqMinD (c : K)                       -- 4822, fo_rev.cpp:2240
  | eqMinA (arg : Nat)                   -- 4840, fo_rev.cpp:2253
  | eqMultD (c : K)                      -- 4877, fo_rev.cpp:2276
  | eqMultA (arg : Nat)                  -- 4905, fo_rev.cpp:2295
  | incr                                 -- 4590, fo_rev.cpp:2100
  | decr                                 -- 4601, fo_rev.cpp:2101
  | cond (arg arg1 arg2 : Nat) (c : K)   -- 5149, fo_rev.cpp:2405
  | condEq (arg arg1 arg2 : Nat) (c : K) -- 5250, fo_rev.cpp:2463
  | condS (arg arg1 : Nat) (c : K)       -- 5345, fo_rev.cpp:2521
  | condEqS (arg arg1 : Nat) (c : K)     -- 5405, fo_rev.cpp:2557

/-- `arg1 = (size_t)trunc(fabs(dp_T0[arg]))` and then the code of the operation without `ref_`
on location `arg1` (same lines; each `case` repeats that code, the model shares it). -/
def RefOp.base (f : RefOp K) (l : Nat) : Base K :=
  match f with
  | .assignD c => .assignD l c
  | .assignD0 => .assignD0 l
  | .assignD1 => .assignD1 l
  | .assignA a => .assignA a l
  | .assignInd => .assignInd l
  | .eqPlusD c => .eqPlusD l c
  | .eqPlusA a => .eqPlusA a l
  | .eqMinD c => .eqMinD l c
  | .eqMinA a => .eqMinA a l
  | .eqMultD c => .eqMultD l c
  | .eqMultA a => .eqMultA a l
  | .incr => .incrA l
  | .decr => .decrA l
  | .cond a a1 a2 c => .condAssign a a1 a2 l c
  | .condEq a a1 a2 c => .condEqAssign a a1 a2 l c
  | .condS a a1 c => .condAssignS a a1 l c
  | .condEqS a a1 c => .condEqAssignS a a1 l c

/-- Operations of a trace with active subscripts.  `n` is `size()` (on the value tape), `v` the
location of `data_[0]`. -/
inductive AOp (K : Type) where
  | base (o : Base K)
  | subscript (i n v r : Nat)       -- uni5_for.cpp:4490, fo_rev.cpp:2001
  | subscriptRef (i n v r : Nat)    -- 4534, fo_rev.cpp:2040
  | copyout (q r : Nat)             -- 4563, fo_rev.cpp:2077
  | ref (f : RefOp K) (q : Nat)

/-- Forward sweeps: the operation with the location found at run time.  The bounds check
throws (uni5_for.cpp:4505-4509, 4549-4553). -/
def AOp.resolve (T : Nat → K) (o : AOp K) : Except Stop (Base K) :=
  match o with
  | .base o => .ok o
  | .subscript i n v r => if idx (T i) ≥ n then .error .outOfBounds else .ok (.assignA (v + idx (T i)) r)
  | .subscriptRef i n v r =>
    if idx (T i) ≥ n then .error .outOfBounds else .ok (.setRef r (ofLoc (v + idx (T i))))
  | .copyout q r => .ok (.assignA (idx (T q)) r)
  | .ref f q => .ok (f.base (idx (T q)))

/-- How `fos_reverse` over such a trace can fail. -/
inductive ARStop where
  | sweep (e : RStop)
  /-- `ADOLCError::fail(ADUBREF_SAFE_MODE)`, fo_rev.cpp:2062-2066 -/
  | safeMode
  deriving DecidableEq, Repr

/-- Reverse sweep: the values are those after the operation; out of bounds is only a warning
(fo_rev.cpp:2016-2021, 2055-2060). -/
def AOp.resolveRev (T : Nat → K) (o : AOp K) : Except ARStop (Base K) :=
  match o with
  | .base o => .ok o
  | .subscript i _ v r => .ok (.assignA (v + idx (T i)) r)
  | .subscriptRef i _ v r => if idx (T r) ≠ v + idx (T i) then .error .safeMode else .ok (.setRef r (T r))
  | .copyout q r => .ok (.assignA (idx (T q)) r)
  | .ref f q => .ok (f.base (idx (T q)))

/-- uni5_for.cpp with `_ZOS_`. -/
def zosRunA (c : Cfg K) : List (AOp K) → ZS K → Except Stop (ZS K)
  | [], s => .ok s
  | o :: os, s =>
    match o.resolve s.T with
    | .error e => .error e
    | .ok b => match zosStep c b s with
      | .error e => .error e
      | .ok s' => zosRunA c os s'

/-- uni5_for.cpp with `_FOS_`. -/
def fosRunA (c : Cfg K) (v : Nat → K) : List (AOp K) → FS K → Except Stop (FS K)
  | [], s => .ok s
  | o :: os, s =>
    match o.resolve s.T with
    | .error e => .error e
    | .ok b => match fosStep c v b s with
      | .error e => .error e
      | .ok s' => fosRunA c v os s'

/-- fo_rev.cpp with `_FOS_`. -/
def revRunA (u : Nat → K) : List (AOp K) → RS K → Except ARStop (RS K)
  | [], s => .ok s
  | o :: os, s =>
    match revRunA u os s with
    | .error e => .error e
    | .ok s' => match o.resolveRev s'.T with
      | .error e => .error e
      | .ok b => match revStep u b s' with
        | .error e => .error (.sweep e)
        | .ok s'' => .ok s''

/-! ## Programs -/

/-- Calls on a referenced element `v[i]`. -/
inductive RefCall (K : Type) where
  | setD (c : K)            -- advector.cpp:40
  | setA (b : Nat)          -- 66
  | accD (f : Acc) (c : K)  -- 199, 236, 273
  | accA (f : Acc) (b : Nat) -- 217, 254, 291
  | incr                    -- 170
  | decr                    -- 184
  | indep                   -- 310
  | cond (c a b : Nat)      -- 352
  | condS (c a : Nat)       -- 375
  | condEq (c a b : Nat)    -- 397
  | condEqS (c a : Nat)     -- 421

/-- The same call on an `adouble`. -/
def RefCall.stmt (f : RefCall K) (t : Nat) : Stmt K :=
  match f with
  | .setD c => .setD t c
  | .setA b => .setA t b
  | .accD f c => .accD f t c
  | .accA f b => .accA f t b
  | .incr => .incr t
  | .decr => .decr t
  | .indep => .indep t
  | .cond c a b => .cond t c a b
  | .condS c a => .condS t c a
  | .condEq c a b => .condEq t c a b
  | .condEqS c a => .condEqS t c a

/-- Calls of a program with vectors; a vector is the list of its elements' names. -/
inductive AStmt (K : Type) where
  | plain (s : Stmt K)
  /-- `adouble d = v[i];` with a `const advector v` (advector.cpp:449-473) -/
  | sub (d : Nat) (vs : List Nat) (i : Nat)
  /-- `v[i]` as a reference, named `q` (advector.cpp:475-500) -/
  | ref (q : Nat) (vs : List Nat) (i : Nat)
  /-- `~adubref` (advector.cpp:38) -/
  | refDel (q : Nat)
  /-- `adouble d(q);` (advector.cpp:88-107) -/
  | refGet (d q : Nat)
  | refDo (q : Nat) (f : RefCall K)

inductive AProg (K : Type) where
  | done
  | stmt (s : AStmt K) (k : AProg K)
  | branch (c : Cmp) (a : Nat) (t f : AProg K)

/-! ## Specification -/

/-- The objects a call mentions. -/
def Stmt.names : Stmt K → List Nat
  | .new d | .newD d _ | .del d | .setD d _ | .setP d _ | .accD _ d _ | .incr d | .decr d
  | .indep d | .dep d => [d]
  | .copy d a | .move d a | .moveA d a | .setA d a | .accA _ d a | .accR _ d a | .un _ a d => [a, d]
  | .bin _ _ a b d | .trig _ a b d | .quad _ a b d => [a, b, d]
  | .cond r c a b | .condEq r c a b => [r, c, a, b]
  | .condS r c a | .condEqS r c a => [r, c, a]

/-- The objects that die or get another location by a call. -/
def Stmt.relocs : Stmt K → List Nat
  | .move _ a | .del a | .accR _ _ a => [a]
  | .moveA a b => [a, b]
  | _ => []

/-- Values of the `adouble`s, and the elements the live references refer to. -/
structure ASE (K : Type) where
  e : SE K
  refs : List (Nat × Nat)

/-- Meaning of a call on plain numbers, with the indices it selects.  `v[i]` selects the element
`trunc(|i|)`.  No meaning: use of objects that do not exist, an index out of range, destroying or
moving an element while a reference to it is alive. -/
def AStmt.spec (x par : Nat → K) (st : AStmt K) (e : ASE K) : Option (ASE K × List Nat) :=
  match st with
  | .plain s =>
    if ∀ p ∈ e.refs, p.1 ∉ s.names ∧ p.2 ∉ s.relocs then
      (s.spec x par e.e).map fun e' => (⟨e', e.refs⟩, [])
    else none
  | .sub d vs i =>
    if (e.e.vars d).isNone ∧ ∀ p ∈ e.refs, p.1 ≠ d then
      (e.e.vars i).bind fun v => vs[idx v]?.bind fun t => (e.e.vars t).map fun w =>
        (⟨e.e.set d w, e.refs⟩, [idx v])
    else none
  | .ref q vs i =>
    if (e.e.vars q).isNone ∧ ∀ p ∈ e.refs, p.1 ≠ q then
      (e.e.vars i).bind fun v => vs[idx v]?.bind fun t => (e.e.vars t).map fun _ =>
        (⟨e.e, (q, t) :: e.refs⟩, [idx v])
    else none
  | .refDel q => (e.refs.lookup q).map fun _ => (⟨e.e, e.refs.filter fun p => p.1 ≠ q⟩, [])
  | .refGet d q =>
    if (e.e.vars d).isNone ∧ ∀ p ∈ e.refs, p.1 ≠ d then
      (e.refs.lookup q).bind fun t => (e.e.vars t).map fun w => (⟨e.e.set d w, e.refs⟩, [])
    else none
  | .refDo q f =>
    (e.refs.lookup q).bind fun t =>
      if ∀ p ∈ e.refs, p.1 ∉ (f.stmt t).names then
        ((f.stmt t).spec x par e.e).map fun e' => (⟨e', e.refs⟩, [])
      else none

/-- Meaning of a program: final state, outcomes of the comparisons, selected indices. -/
def AProg.spec (x par : Nat → K) : AProg K → ASE K → Option (ASE K × List Bool × List Nat)
  | .done, e => some (e, [], [])
  | .stmt s k, e => (s.spec x par e).bind fun p =>
    (k.spec x par p.1).map fun r => (r.1, r.2.1, p.2 ++ r.2.2)
  | .branch c a t f, e =>
    (e.e.vars a).bind fun v =>
      if c.holds v then (t.spec x par e).map fun p => (p.1, true :: p.2.1, p.2.2)
      else (f.spec x par e).map fun p => (p.1, false :: p.2.1, p.2.2)

/-! ## Recorder -/

/-- `r` is the state of Record.lean (its `tr` is not used), `tr` the trace (last operation first),
`rl` the member `refloc_` of the live references; their cells are in `r.env`. -/
structure ARec (K : Type) where
  r : Rec K
  tr : List (AOp K)
  rl : Nat → Option Nat

/-- The last operation, if it is one `upd_resloc_inc_prod` can look at (tapeinfos.h:340-355). -/
def peek : List (AOp K) → List (Base K)
  | .base o :: _ => [o]
  | _ => []

def peekRest : List (AOp K) → List (AOp K)
  | .base _ :: t => t
  | t => t

/-- An operation on location `l` with old value kept and new value `v`. -/
def ARec.rec1 (cfg : RCfg K) (s : ARec K) (o : AOp K) (l : Nat) (v : K) : ARec K :=
  { s with r := (s.r.keepT cfg l).val l v, tr := o :: s.tr }

/-- A call on `adouble`s: Record.lean, which looks at the last operation only. -/
def ARec.plain (cfg : RCfg K) (st : Stmt K) (s : ARec K) : Option (ARec K) :=
  (st.record { cfg with fuse := fun k => cfg.fuse (k + (peekRest s.tr).length) }
    { s.r with tr := peek s.tr }).map fun r' =>
      ⟨r', r'.tr.map .base ++ peekRest s.tr, s.rl⟩

/-- The operation for a call on a referenced element; `ev` are locations, `V` values. -/
def RefCall.record (cfg : RCfg K) (f : RefCall K) (lq l : Nat) (s : ARec K) : Option (ARec K) :=
  let V := s.r.V
  match f with
  -- advector.cpp:40-64
  | .setD c => some (s.rec1 cfg (.ref (if c = 0 then .assignD0 else if c = 1 then .assignD1 else .assignD c) lq) l c)
  -- 66-86; the test `loc_ != a.loc()` compares the cell of the reference
  | .setA b => (s.r.env b).map fun lb => if lq ≠ lb then s.rec1 cfg (.ref (.assignA lb) lq) l (V lb) else s
  -- 199-215, 236-252, 273-289
  | .accD f c => some (s.rec1 cfg (.ref (match f with
      | .plus => .eqPlusD c | .minus => .eqMinD c | .mult => .eqMultD c) lq) l (f.fn (V l) c))
  -- 217-234, 254-271, 291-308
  | .accA f b => (s.r.env b).map fun lb => s.rec1 cfg (.ref (match f with
      | .plus => .eqPlusA lb | .minus => .eqMinA lb | .mult => .eqMultA lb) lq) l (f.fn (V l) (V lb))
  -- 170-182, 184-197
  | .incr => some (s.rec1 cfg (.ref .incr lq) l (V l + 1))
  | .decr => some (s.rec1 cfg (.ref .decr lq) l (V l - 1))
  -- 310-327
  | .indep => let s' := s.rec1 cfg (.ref .assignInd lq) l (cfg.x s.r.ii)
    some { s' with r := { s'.r with ii := s.r.ii + 1 } }
  -- 352-373
  | .cond c a b => (s.r.env c).bind fun lc => (s.r.env a).bind fun la => (s.r.env b).map fun lb =>
      s.rec1 cfg (.ref (.cond lc la lb (V lc)) lq) l (if V lc > 0 then V la else V lb)
  -- 375-395
  | .condS c a => (s.r.env c).bind fun lc => (s.r.env a).map fun la =>
      s.rec1 cfg (.ref (.condS lc la (V lc)) lq) l (if V lc > 0 then V la else V l)
  -- 397-419
  | .condEq c a b => (s.r.env c).bind fun lc => (s.r.env a).bind fun la => (s.r.env b).map fun lb =>
      s.rec1 cfg (.ref (.condEq lc la lb (V lc)) lq) l (if V lc ≥ 0 then V la else V lb)
  -- 421-441
  | .condEqS c a => (s.r.env c).bind fun lc => (s.r.env a).map fun la =>
      s.rec1 cfg (.ref (.condEqS lc la (V lc)) lq) l (if V lc ≥ 0 then V la else V l)

/-- The recorder on a call. -/
def AStmt.record (cfg : RCfg K) (st : AStmt K) (s : ARec K) : Option (ARec K) :=
  match st with
  | .plain p => s.plain cfg p
  -- advector.cpp:449-473
  | .sub d vs i =>
    (s.r.env i).bind fun li => (vs.head?.bind s.r.env).bind fun lv =>
      (s.plain cfg (.new d)).bind fun s1 => (s1.r.env d).bind fun ld =>
        let k := idx (s.r.V li)
        (vs[k]?.bind s.r.env).map fun lt =>
          s1.rec1 cfg (.subscript li vs.length lv ld) ld (s1.r.V lt)
  -- 475-500
  | .ref q vs i =>
    if (s.r.env q).isNone then
      (s.r.env i).bind fun li => (vs.head?.bind s.r.env).bind fun lv =>
        let k := idx (s.r.V li)
        (vs[k]?.bind s.r.env).map fun lt =>
          let lq := s.r.next cfg
          let s1 : ARec K := { s with r := s.r.take cfg q }
          { s1.rec1 cfg (.subscriptRef li vs.length lv lq) lq (ofLoc lt) with rl := upd s.rl q (some lt) }
    else none
  -- 38
  | .refDel q => (s.rl q).bind fun _ => (s.r.env q).map fun lq =>
      { s with r := s.r.free q lq, rl := upd s.rl q none }
  -- 88-107
  | .refGet d q =>
    (s.rl q).bind fun l => (s.r.env q).bind fun lq => (s.plain cfg (.new d)).bind fun s1 =>
      (s1.r.env d).map fun ld => s1.rec1 cfg (.copyout lq ld) ld (s1.r.V l)
  | .refDo q f => (s.rl q).bind fun l => (s.r.env q).bind fun lq => f.record cfg lq l s

/-- Recording a program: branches follow the values at recording time. -/
def AProg.record (cfg : RCfg K) : AProg K → ARec K → Option (ARec K)
  | .done, s => some s
  | .stmt st k, s => (st.record cfg s).bind fun s' => k.record cfg s'
  | .branch c a t f, s =>
    (s.r.env a).bind fun la =>
      let b := c.holds (s.r.V la)
      let s' : ARec K := { s with tr := .base (.cmp (c.recorded b) la) :: s.tr }
      if b then t.record cfg s' else f.record cfg s'

/-- The outcomes of the comparisons while recording. -/
def AProg.path (cfg : RCfg K) : AProg K → ARec K → List Bool
  | .done, _ => []
  | .stmt st k, s => match st.record cfg s with | some s' => k.path cfg s' | none => []
  | .branch c a t f, s =>
    match s.r.env a with
    | none => []
    | some la =>
      let b := c.holds (s.r.V la)
      let s' : ARec K := { s with tr := .base (.cmp (c.recorded b) la) :: s.tr }
      b :: (if b then t.path cfg s' else f.path cfg s')

/-- The elements of a vector are in consecutive locations (`ensureContiguousLocations_`,
advector.h:120, 123; C02). -/
def contiguous (env : Nat → Option Nat) (vs : List Nat) : Prop :=
  ∃ l, ∀ k t, vs[k]? = some t → env t = some (l + k)

/-- At every active subscript of the recording the vector's elements are in consecutive
locations. -/
def AProg.contig (cfg : RCfg K) : AProg K → ARec K → Prop
  | .done, _ => True
  | .stmt st k, s =>
    (match st with
      | .sub _ vs _ | .ref _ vs _ => contiguous s.r.env vs
      | _ => True) ∧ ∀ s', st.record cfg s = some s' → k.contig cfg s'
  | .branch c a t f, s => ∀ la, s.r.env a = some la →
      let b := c.holds (s.r.V la)
      let s' : ARec K := { s with tr := .base (.cmp (c.recorded b) la) :: s.tr }
      if b then t.contig cfg s' else f.contig cfg s'

/-- State after `trace_on`: no references. -/
def ARec.start (s : Rec K) : ARec K := ⟨s, s.tr.map .base, fun _ => none⟩

/-- The complete trace after `trace_off`. -/
def ARec.tape (s : ARec K) (N : Nat) : List (AOp K) := s.tr.reverse ++ [.base (.deathNot 0 (N - 1))]

end Verif.AD
