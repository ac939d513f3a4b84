import Mathlib.Data.List.Basic

/-!
# Tapes of a thread: `tape_interface.h`, `tape_interface.cpp`, parts of `valuetape.cpp`

All tapes of a thread, the current tape and the stack of previous current tapes.  Calls either
return a number or throw; a throwing call keeps the changes made before the throw.
The contents of a trace are abstract operations `O`; what the sweeps compute is elsewhere.
-/
set_option linter.all false
namespace Verif.Session

/-- `TapeInfos::WORKMODES`: valuetape/tapeinfos.h. -/
inductive Mode where
  | none | read | write
  deriving DecidableEq, Repr

/-- `ADOLCError` kinds thrown by the modelled calls; `undefined` is C++ undefined behaviour. -/
inductive Err where
  | noTape | inUse | notTaping | countsMismatch | paramMismatch | undefined
  deriving DecidableEq, Repr

/-- Result of a call. -/
inductive Res where
  | ret (n : Int)
  | exc (e : Err)
  deriving DecidableEq, Repr

/-- What is written on the operation tape. -/
inductive Item (O : Type) where
  | start | stock | op (o : O) | death | stop
  deriving DecidableEq, Repr

/-- Operation, location, value and Taylor buffer size. -/
structure Sizes where
  (obs lbs vbs tbs : Nat)
  deriving DecidableEq, Repr

/-- One `ValueTape`.  `conf` are the configured buffer sizes (`operationBufferSize()` …),
`sizes` those of `tapestats`, `dims` the numbers of dependents and independents, `npar` the
number of parameters. -/
structure Tp (O : Type) where
  mode : Mode
  items : List (Item O)
  keep : Int
  conf : Sizes
  sizes : Sizes
  dims : Nat × Nat
  npar : Nat
  deriving DecidableEq, Repr

/-- The thread-local state: `tapeBuffer()` (position = tape id), `currentTapePtr()`,
`currentTapeStack()`: tape_interface.h:23-110. -/
structure Ses (O : Type) where
  tapes : List (Tp O)
  cur : Option Nat
  stack : List (Option Nat)
  deriving DecidableEq, Repr

variable {O : Type}

/-- Replace tape `t`. -/
def Ses.put (s : Ses O) (t : Nat) (tp : Tp O) : Ses O := { s with tapes := s.tapes.set t tp }

/-- `createNewTape()`: tape_interface.h:157-166. -/
def create (conf : Sizes) (s : Ses O) : Ses O × Res :=
  let t := s.tapes.length
  ({ s with tapes := s.tapes ++ [⟨.none, [], 0, conf, conf, (0, 0), 0⟩],
            cur := if s.cur = none then some t else s.cur }, .ret t)

/-- `setCurrentTape(tapeId)`: tape_interface.h:144. -/
def setCurrent (t : Nat) (s : Ses O) : Ses O × Res :=
  if t < s.tapes.length then ({ s with cur := some t }, .ret 0) else (s, .exc .noTape)

/-- `ValueTape::initNewTape()`: valuetape.cpp:58-87.  `none`: throws
`TAPING_TAPE_STILL_IN_USE`. -/
def initNewTape (tp : Tp O) : Option (Tp O × Int) :=
  if tp.mode ≠ .none then none
  else some ({ tp with mode := .write, items := [], sizes := tp.conf }, 0)

/-- `trace_on(tapeId, keepTaylors)`: tape_interface.cpp:39-60, with `start_trace` and
`take_stock` (valuetape.cpp:294-320, 114). -/
def traceOn (t : Nat) (keep : Int) (s : Ses O) : Ses O × Res :=
  match s.tapes[t]? with
  | none => (s, .exc .noTape)
  | some tp =>
    let s := { s with stack := s.cur :: s.stack, cur := some t }
    match initNewTape tp with
    | none => (s, .exc .inUse)
    | some (tp, retval) =>
      (s.put t { tp with keep := keep, items := tp.items ++ [.start, .stock] }, .ret retval)

/-- `trace_on(tapeId, keepTaylors, obs, lbs, vbs, tbs, skipFileCleanup)`:
tape_interface.cpp:62-95. -/
def traceOnSizes (t : Nat) (keep : Int) (sz : Sizes) (s : Ses O) : Ses O × Res :=
  match s.tapes[t]? with
  | none => (s, .exc .noTape)
  | some tp =>
    let s := { s with stack := s.cur :: s.stack, cur := some t }
    match initNewTape tp with
    | none => (s, .exc .inUse)
    | some (tp, retval) =>
      if retval ≠ 0 then
        (s.put t { tp with sizes := sz, keep := keep, items := tp.items ++ [.start, .stock] }, .ret retval)
      else (s.put t tp, .ret (-1))

/-- A statement on adoubles: every function of adouble.cpp records on the current tape if its
mode is `WRITE_ACCESS` (e.g. adouble.cpp:27). -/
def stmt (o : O) (s : Ses O) : Ses O × Res :=
  match s.cur with
  | none => (s, .exc .undefined)
  | some c =>
    match s.tapes[c]? with
    | none => (s, .exc .undefined)
    | some tp =>
      if tp.mode = .write then (s.put c { tp with items := tp.items ++ [.op o] }, .ret 0)
      else (s, .ret 0)

/-- `trace_off(flag)`: tape_interface.cpp:97-113 with `keep_stock`, `stop_trace`.
`dims` are the numbers of dependents and independents marked on the trace. -/
def traceOff (dims : Nat × Nat) (npar : Nat) (s : Ses O) : Ses O × Res :=
  match s.cur with
  | none => (s, .exc .undefined)
  | some c =>
    match s.tapes[c]? with
    | none => (s, .exc .undefined)
    | some tp =>
      if tp.mode ≠ .write then (s, .exc .notTaping)
      else
        let s := s.put c { tp with items := tp.items ++ [.death, .stop], mode := .none, dims := dims, npar := npar }
        match s.stack with
        | [] => (s, .exc .undefined)
        | p :: st => ({ s with cur := p, stack := st }, .ret 0)

/-- A forward or reverse sweep called with `m` dependents and `n` independents:
`init_sweep` → `openTape` (valuetape.cpp:91-110), the check of the counts
(uni5_for.cpp:1096-1107, fo_rev.cpp:449-460), `end_sweep` (valuetape.cpp:616). -/
def sweep (t : Nat) (dims : Nat × Nat) (s : Ses O) : Ses O × Res :=
  match s.tapes[t]? with
  | none => (s, .exc .noTape)
  | some tp =>
    if tp.mode = .write then (s, .exc .inUse)
    else
      let tp := { tp with mode := .read }
      if dims ≠ tp.dims then (s.put t tp, .exc .countsMismatch)
      else
        let tp := { tp with mode := .none }
        (s.put t tp, .ret 0)

/-- `set_param_vec(tag, numparam, paramvec)`: valuetape.cpp:527-553. -/
def setParams (t npar : Nat) (s : Ses O) : Ses O × Res :=
  match s.tapes[t]? with
  | none => (s, .exc .noTape)
  | some tp =>
    if tp.mode = .write then (s, .exc .inUse)
    else
      let tp := { tp with mode := .read }
      let tp := { tp with mode := .write }
      if npar ≠ tp.npar then (s.put t tp, .exc .paramMismatch)
      else (s.put t { tp with mode := .none }, .ret 0)

/-! ## Nested tracing -/

/-- A program part: statements, evaluations of traces, and blocks `trace_on(t, keep); …;
trace_off()` (`dims`, `npar` as found when the block is closed). -/
inductive Part (O : Type) where
  | done
  | op (o : O) (k : Part O)
  | eval (t : Nat) (dims : Nat × Nat) (k : Part O)
  | block (t : Nat) (keep : Int) (dims : Nat × Nat) (npar : Nat) (body k : Part O)

/-- Execution: every call in order; stops at the first exception. -/
def Part.exec : Part O → Ses O → Ses O × Option Err
  | .done, s => (s, none)
  | .op o k, s =>
    match stmt o s with
    | (s, .exc e) => (s, some e)
    | (s, .ret _) => k.exec s
  | .eval t dims k, s =>
    match sweep t dims s with
    | (s, .exc e) => (s, some e)
    | (s, .ret _) => k.exec s
  | .block t keep dims npar body k, s =>
    match traceOn t keep s with
    | (s, .exc e) => (s, some e)
    | (s, .ret _) =>
      match body.exec s with
      | (s, some e) => (s, some e)
      | (s, none) =>
        match traceOff dims npar s with
        | (s, .exc e) => (s, some e)
        | (s, .ret _) => k.exec s

/-! ## Specification -/

/-- The statements of a part outside its inner blocks. -/
def Part.own : Part O → List O
  | .done => []
  | .op o k => o :: k.own
  | .eval _ _ k => k.own
  | .block _ _ _ _ _ k => k.own

/-- A finished trace: contents, dimensions, number of parameters, keep. -/
structure Done (O : Type) where
  ops : List O
  dims : Nat × Nat
  npar : Nat
  keep : Int

/-- The finished traces by tag after a part, given those before. -/
def Part.traces : Part O → (Nat → Option (Done O)) → (Nat → Option (Done O))
  | .done, d => d
  | .op _ k, d => k.traces d
  | .eval _ _ k, d => k.traces d
  | .block t keep dims npar body k, d =>
    k.traces (fun u => if u = t then some ⟨body.own, dims, npar, keep⟩ else body.traces d u)

/-- Legal parts: a tag is not traced while it is being traced (`act`), only existing tapes
(`n` of them) are used, evaluations name finished traces with their dimensions. -/
def Part.legal (n : Nat) : List Nat → (Nat → Option (Done O)) → Part O → Prop
  | _, _, .done => True
  | act, d, .op _ k => k.legal n act d
  | act, d, .eval t dims k => t ∉ act ∧ (∃ e, d t = some e ∧ e.dims = dims) ∧ k.legal n act d
  | act, d, .block t keep dims npar body k =>
    t < n ∧ t ∉ act ∧ body.legal n (t :: act) (fun u => if u = t then none else d u) ∧
    k.legal n act (fun u => if u = t then some ⟨body.own, dims, npar, keep⟩ else body.traces d u)

end Verif.Session
