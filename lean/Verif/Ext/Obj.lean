/-!
# External function objects (`ADOL-C/include/adolc/edfclasses.h`, `externfcts.cpp`, `externfcts2.cpp`)

A user derives a class from `EDFobject`, `EDFobject_iArr` or `EDFobject_v2`; `call` invokes its `function` while taping, and a sweep invokes its
derivative methods.  In between, wrapper functions find the object through the registry of a tape.  Simplified: a tape is traced once and never
removed; the values passed are those of C35; a registry is a list (C30).  An action that a callback executes itself comes after the look-up of the
object, hence is a later action here.
-/
set_option linter.all false
namespace Verif.ExtObj

/-- The three classes (edfclasses.h:24, 64, 112). -/
inductive Kind where
  | plain | iArr | v2
  deriving DecidableEq

/-- The methods. -/
inductive Mode where
  | fn | zosF | fosF | fovF | fosR | fovR
  deriving DecidableEq

/-- A wrapper function: `edfoo_wrapper_*`, `edfoo_iarr_wrapper_*`, `edfoo_v2_wrapper_*`. -/
structure W where
  kind : Kind
  mode : Mode
  deriving DecidableEq

/-- `ext_diff_fct` (externfcts.h:114-240) or `ext_diff_fct_v2`: `slot k m` is the member for method `m` with the signature of class `k`. -/
structure Rec where
  tape : Nat
  ext : Nat
  index : Nat
  obj : Nat
  slot : Kind → Mode → Option W

/-- What the registries of a tape hold: `ext_buffer_`, `ext2_buffer_`, `ext_diff_fct_index`; `ops`: the external calls on the trace. -/
structure Tape where
  cur : Nat
  v1 : List Rec
  v2 : List Rec
  ops : List (Kind × Nat)

def Tape.new : Tape := ⟨0, [], [], []⟩
def Tape.reg (T : Tape) (k : Kind) : List Rec := if k = .v2 then T.v2 else T.v1

/-- An object: its class, the tape ids given to its constructor, where its `edf` points to. -/
structure Obj where
  id : Nat
  kind : Kind
  tid : Nat
  ext : Nat
  idx : Nat

/-- The session; `calls`: the calls made so far (not part of the code's state). -/
structure St where
  tapes : Nat → Option Tape
  objs : List Obj
  calls : List Obj

def St.new : St := ⟨fun _ => none, [], []⟩

inductive Err where
  | noTape | noRecord | nullFunction
  deriving DecidableEq

/-- A method of an object was invoked. -/
structure Hit where
  obj : Nat
  kind : Kind
  mode : Mode
  deriving DecidableEq

def put (f : Nat → Option Tape) (i : Nat) (T : Tape) : Nat → Option Tape := fun j => if j = i then some T else f j

/-- The members set by `EDFobject::init_edf` (externfcts.cpp:268-281), `EDFobject_iArr::init_edf` (361-372: `edf->function`, not
`edf->function_iArr`), `EDFobject_v2::init_edf` (externfcts2.cpp:260-273). -/
def slots : Kind → Kind → Mode → Option W
  | .plain, .plain, m => some ⟨.plain, m⟩
  | .v2, .v2, m => some ⟨.v2, m⟩
  | .iArr, .plain, .fn => some ⟨.plain, .fn⟩
  | .iArr, .iArr, .fn => none
  | .iArr, .iArr, m => some ⟨.iArr, m⟩
  | _, _, _ => none

/-- A constructor: the record is appended to the registry of tape `outer` (for `EDFobject_iArr`: of the current tape, and the tape ids of the record
stay 0, externfcts.h:117-120). -/
def create (s : St) (k : Kind) (outer ext : Nat) : St × Option Err :=
  match s.tapes outer with
  | none => (s, some .noTape)
  | some T =>
    let i := (T.reg k).length
    let r : Rec := if k = .iArr then ⟨0, 0, i, s.objs.length, slots k⟩ else ⟨outer, ext, i, s.objs.length, slots k⟩
    let T' : Tape := if k = .v2 then { T with v2 := T.v2 ++ [r] } else { T with v1 := T.v1 ++ [r] }
    ({ s with tapes := put s.tapes outer T', objs := s.objs ++ [⟨s.objs.length, k, outer, ext, i⟩] }, none)

/-- A wrapper called with a tape id (externfcts.cpp:184-266, 283-359; externfcts2.cpp:171-258): the record is the one with the index stored on that
tape, the method is the one of the object it points to. -/
def invoke (s : St) (w : W) (tid : Nat) : Except Err Hit :=
  match s.tapes tid with
  | none => .error .noTape
  | some T =>
    match (T.reg w.kind)[T.cur]? with
    | none => .error .noRecord
    | some r => .ok ⟨r.obj, w.kind, w.mode⟩

/-- A member called with a tape id. -/
def through (s : St) (f : Option W) (tid : Nat) : Except Err Hit :=
  match f with
  | none => .error .nullFunction
  | some w => invoke s w tid

/-- The record `edf` of an object. -/
def edf (s : St) (o : Obj) : Option Rec :=
  match s.tapes o.tid with
  | none => none
  | some T => (T.reg o.kind)[o.idx]?

/-- `call` of an object (edfclasses.h:54-60, 93-108, 150-166; `call_ext_fct`: externfcts.cpp:60-181, externfcts2.cpp:82-165): the operation and the
index go to the trace of `edf->tapeId`, the index to `ext_diff_fct_index` of that tape, then the member is called with `edf->extTapeId`. -/
def call (s : St) (o : Obj) : St × Except Err Hit :=
  match edf s o with
  | none => (s, .error .noRecord)
  | some r =>
    match s.tapes r.tape with
    | none => (s, .error .noTape)
    | some T =>
      let s' := { s with tapes := put s.tapes r.tape { T with cur := r.index, ops := T.ops ++ [(o.kind, r.index)] }, calls := s.calls ++ [o] }
      (s', through s' (r.slot o.kind .fn) r.ext)

/-- One external call in a sweep over tape `t` (uni5_for.cpp:5509-5540, 5552-5590, 5598-5672; fo_rev.cpp:2635-2680, 2711-2770, 2787-2850). -/
def replay (s : St) (t : Nat) (m : Mode) (op : Kind × Nat) : St × Except Err Hit :=
  match s.tapes t with
  | none => (s, .error .noTape)
  | some T =>
    let s' := { s with tapes := put s.tapes t { T with cur := op.2 } }
    match (T.reg op.1)[op.2]? with
    | none => (s', .error .noRecord)
    | some r => (s', through s' (r.slot op.1 m) r.tape)

/-- The external calls of a trace one after the other; an error ends the sweep. -/
def replays (s : St) (t : Nat) (m : Mode) : List (Kind × Nat) → St × List Hit × Option Err
  | [] => (s, [], none)
  | op :: ops =>
    match replay s t m op with
    | (s', .error e) => (s', [], some e)
    | (s', .ok h) => let r := replays s' t m ops; (r.1, h :: r.2.1, r.2.2)

/-- A sweep over tape `t`: forward, or backward for the reverse modes. -/
def sweep (s : St) (t : Nat) (m : Mode) : St × List Hit × Option Err :=
  match s.tapes t with
  | none => (s, [], some .noTape)
  | some T => replays s t m (if m = .fosR ∨ m = .fovR then T.ops.reverse else T.ops)

/-- What a user does. -/
inductive Act where
  | tape (id : Nat)
  | new (k : Kind) (outer ext : Nat)
  | call (n : Nat)
  | sweep (t : Nat) (m : Mode)

/-- `createNewTape` on a free id; the rest as above.  `call n`: the object created as number `n`. -/
def act (s : St) : Act → St
  | .tape id => match s.tapes id with
    | none => { s with tapes := put s.tapes id Tape.new }
    | some _ => s
  | .new k outer ext => (create s k outer ext).1
  | .call n => match s.objs[n]? with
    | none => s
    | some o => (call s o).1
  | .sweep t m => (sweep s t m).1

def run (as : List Act) : St := as.foldl act St.new

end Verif.ExtObj
