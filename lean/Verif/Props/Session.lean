import Verif.Session.Nested
/-!
Property theorems about the tapes of a thread: C34 (trace_on with buffer sizes), C37 (nested
tracing), C38 (rejected calls).  A session state holds the tapes by tag, the current tape and
the stack of suspended traces; every call maps a state to a state and a result.
-/
set_option linter.all false
namespace Verif.Props.Session
open Verif.Session
variable {O : Type}

/-! ## C34 -/

/-- The tape `t` of state `s` has just been prepared for recording: it is the current tape, it
is in write mode and holds the start of a trace and nothing else. -/
def Started (t : Nat) (keep : Int) (s : Ses O) : Prop :=
  s.cur = some t ∧ ∃ tp, s.tapes[t]? = some tp ∧ tp.mode = .write ∧ tp.items = [.start, .stock] ∧ tp.keep = keep

/-- trace_on(tag, keep) on an idle tag starts a trace, whatever the tag held before; it returns
0 and leaves every other tape alone.  Missing for C34: the overload with buffer sizes, which
never does (`C34_sizes_never_starts`). -/
theorem C34_trace_on_partial (s : Ses O) (t : Nat) (keep : Int) (tp : Tp O) (h : s.tapes[t]? = some tp) (hm : tp.mode = .none) :
    ∃ s', traceOn t keep s = (s', .ret 0) ∧ Started t keep s' ∧ s'.stack = s.cur :: s.stack ∧
      ∀ u, u ≠ t → s'.tapes[u]? = s.tapes[u]? := by
  have hlt : t < s.tapes.length := (List.getElem?_eq_some_iff.1 h).1
  refine ⟨({ s with stack := s.cur :: s.stack, cur := some t } : Ses O).put t
      { tp with mode := .write, items := [.start, .stock], sizes := tp.conf, keep := keep }, ?_, ⟨rfl, ?_⟩, rfl, ?_⟩
  · simp [traceOn, h, initNewTape, hm]
  · refine ⟨_, (get_put _ t t _ hlt).trans (if_pos rfl), rfl, rfl, rfl⟩
  · intro u hu
    exact (get_put _ t u _ hlt).trans (if_neg hu)

example : ∃ s : Ses Nat, ∃ tp, s.tapes[1]? = some tp ∧ tp.mode = .none ∧ tp.items ≠ [] :=
  ⟨⟨[⟨.write, [.start], 1, ⟨1, 1, 1, 1⟩, ⟨1, 1, 1, 1⟩, (1, 1), 0⟩,
     ⟨.none, [.start, .stock, .op 3, .death, .stop], 1, ⟨1, 1, 1, 1⟩, ⟨1, 1, 1, 1⟩, (1, 1), 0⟩], some 0, [none]⟩, _, rfl, rfl,
    by decide⟩

/-- The overload with buffer sizes never starts a trace: in every state, for every tag, keep
and sizes, the result is an exception or −1 (never the 0 that says tracing has started), and
in the second case the tape is left in write mode, holding no start of a trace, with the
configured sizes instead of the requested ones.  Every following statement is then recorded on
a tape without a beginning. -/
theorem C34_sizes_never_starts (s : Ses O) (t : Nat) (keep : Int) (sz : Sizes) :
    (∃ e, (traceOnSizes t keep sz s).2 = .exc e) ∨
    (traceOnSizes t keep sz s).2 = .ret (-1) ∧ (traceOnSizes t keep sz s).1.cur = some t ∧
      ∃ tp, (traceOnSizes t keep sz s).1.tapes[t]? = some tp ∧ tp.mode = .write ∧ tp.items = [] ∧ tp.sizes = tp.conf := by
  cases h : s.tapes[t]? with
  | none => left; exact ⟨.noTape, by simp [traceOnSizes, h]⟩
  | some tp =>
    by_cases hm : tp.mode = .none
    · right
      have hlt : t < s.tapes.length := (List.getElem?_eq_some_iff.1 h).1
      have e : traceOnSizes t keep sz s = (({ s with stack := s.cur :: s.stack, cur := some t } : Ses O).put t
          { tp with mode := .write, items := [], sizes := tp.conf }, .ret (-1)) := by
        simp [traceOnSizes, h, initNewTape, hm]
      rw [e]
      exact ⟨rfl, rfl, _, (get_put _ t t _ hlt).trans (if_pos rfl), rfl, rfl, rfl⟩
    · left; exact ⟨.inUse, by simp [traceOnSizes, h, initNewTape, hm]⟩

/-! ## C37 -/

/-- Nested tracing.  A program of statements, evaluations of finished traces and (nested)
blocks trace_on … trace_off, run in a state with `n` tapes where no tape is being traced:
no call fails; the current tape and the stack are as before; and every tape holds exactly the
statements executed while it was the innermost active trace (`Part.traces`, `Part.own`), those
not traced keep their trace. -/
theorem C37_nested_tracing {n : Nat} (p : Part O) (d : Nat → Option (Done O)) (s : Ses O) (c : Nat)
    (hlen : s.tapes.length = n) (hc : s.cur = some c) (hcn : c < n)
    (hidle : ∀ u, ∀ tp, s.tapes[u]? = some tp → tp.mode = .none ∧ ∀ e, d u = some e → Holds tp e)
    (hd : ∀ u, (d u).isSome → u < n) (hp : p.legal n [] d) :
    ∃ s', p.exec s = (s', none) ∧ s'.cur = s.cur ∧ s'.stack = s.stack ∧ s'.tapes.length = n ∧
      ∀ u, ∀ tp, s'.tapes[u]? = some tp → tp.mode = .none ∧ ∀ e, p.traces d u = some e → Holds tp e := by
  obtain ⟨s', h1, h2, h3, h4, _⟩ := exec_legal p hp
    ⟨hlen, fun u hu => absurd hu (by simp), fun u _ tp htp => hidle u tp htp, fun u _ h => hd u h⟩ hc hcn
  exact ⟨s', h1, h2, h3, h4.len, fun u tp htp => h4.idle u (by simp) tp htp⟩

/-- The same inside an active trace: the statements outside the inner blocks, and only those,
are appended to the trace of the current tape. -/
theorem C37_outer_trace {n : Nat} (p : Part O) (d : Nat → Option (Done O)) (act : List Nat) (s : Ses O) (c : Nat)
    (hr : Rep n s act d) (hc : s.cur = some c) (hcn : c < n) (hca : c ∈ act) (hp : p.legal n act d) (tp : Tp O)
    (htp : s.tapes[c]? = some tp) :
    ∃ s', p.exec s = (s', none) ∧ s'.cur = s.cur ∧ s'.stack = s.stack ∧
      s'.tapes[c]? = some { tp with items := tp.items ++ p.own.map .op } := by
  obtain ⟨s', h1, h2, h3, _, h5⟩ := exec_legal p hp hr hc hcn
  exact ⟨s', h1, h2, h3, by simpa using h5 c hca tp htp⟩

/-- Two tapes; a block on tape 0 with an inner block on tape 1 which is evaluated before the
outer block ends, then retraced. -/
def demo : Part Nat :=
  .block 0 1 (1, 2) 0 (.op 10 (.block 1 0 (1, 1) 0 (.op 20 .done) (.op 11 (.eval 1 (1, 1) (.op 12 .done)))))
    (.block 1 0 (2, 2) 0 (.op 21 .done) (.eval 0 (1, 2) .done))

def demoState : Ses Nat :=
  ⟨[⟨.none, [], 0, ⟨1, 1, 1, 1⟩, ⟨1, 1, 1, 1⟩, (0, 0), 0⟩, ⟨.none, [], 0, ⟨1, 1, 1, 1⟩, ⟨1, 1, 1, 1⟩, (0, 0), 0⟩], some 0, []⟩

example : demo.legal 2 [] (fun _ => none) := by
  simp [demo, Part.legal, Part.own, Part.traces]
example : (demo.traces (fun _ => none) 0).map Done.ops = some [10, 11, 12] ∧
    (demo.traces (fun _ => none) 1).map Done.ops = some [21] := by
  simp [demo, Part.traces, Part.own]
example : ((demo.exec demoState).1.tapes.map Tp.items) =
    [[.start, .stock, .op 10, .op 11, .op 12, .death, .stop], [.start, .stock, .op 21, .death, .stop]] := by
  decide +kernel

/-- createNewTape at any point of a (nested) tracing session: the new tag is the next free one, its tape is idle and
empty; the tape being traced stays the current one, the suspended ones and all existing tapes are untouched, so the
theorems above apply to what follows with one more tape. -/
theorem C37_create {n : Nat} (conf : Sizes) (d : Nat → Option (Done O)) (act : List Nat) (s : Ses O) (c : Nat)
    (hr : Rep n s act d) (hc : s.cur = some c) (ha : ∀ u ∈ act, u < n) :
    ∃ s', create conf s = (s', .ret n) ∧ s'.cur = some c ∧ s'.stack = s.stack ∧ Rep (n + 1) s' act d ∧
      (∀ u, u < n → s'.tapes[u]? = s.tapes[u]?) ∧ ∃ tp, s'.tapes[n]? = some tp ∧ tp.mode = .none ∧ tp.items = [] := by
  have hg : ∀ u, u < n → (s.tapes ++ [(⟨.none, [], 0, conf, conf, (0, 0), 0⟩ : Tp O)])[u]? = s.tapes[u]? := fun u hu =>
    List.getElem?_append_left (by rw [hr.len]; exact hu)
  have hn : (s.tapes ++ [(⟨.none, [], 0, conf, conf, (0, 0), 0⟩ : Tp O)])[n]? = some ⟨.none, [], 0, conf, conf, (0, 0), 0⟩ := by
    rw [List.getElem?_append_right (Nat.le_of_eq hr.len), hr.len]; simp
  refine ⟨{ s with tapes := s.tapes ++ [⟨.none, [], 0, conf, conf, (0, 0), 0⟩], cur := if s.cur = none then some s.tapes.length else s.cur },
    by simp [create, hr.len], ?_, rfl, ⟨?_, fun u hu => ?_, fun u hu tp htp => ?_, fun u hu he => ?_⟩, hg, _, hn, rfl, rfl⟩
  · simp [hc]
  · simp [hr.len]
  · obtain ⟨tp, h1, h2⟩ := hr.active u hu
    exact ⟨tp, (hg u (ha u hu)).trans h1, h2⟩
  · by_cases hun : u < n
    · exact hr.idle u hu tp ((hg u hun).symm.trans htp)
    · have hlt := (List.getElem?_eq_some_iff.1 htp).1
      have hlt : u < s.tapes.length + 1 := by simpa using hlt
      have : u = n := by rw [hr.len] at hlt; omega
      subst this
      rw [show (s.tapes ++ [(⟨.none, [], 0, conf, conf, (0, 0), 0⟩ : Tp O)])[u]? = some tp from htp] at hn
      cases hn
      refine ⟨rfl, fun e he => ?_⟩
      exact absurd (hr.exist u hu (by simp [he])) (by omega)
  · have := hr.exist u hu he
    omega
example : ∃ (s : Ses Nat), Rep 1 s [0] (fun _ => none) ∧ s.cur = some 0 :=
  ⟨⟨[⟨.write, [.start], 1, ⟨1, 1, 1, 1⟩, ⟨1, 1, 1, 1⟩, (1, 1), 0⟩], some 0, [none]⟩,
    ⟨rfl, fun u hu => by simp at hu; subst hu; exact ⟨_, rfl, rfl⟩,
      fun u hu tp h => by
        have := (List.getElem?_eq_some_iff.1 h).1
        simp at this hu; omega,
      fun u _ h => by simp at h⟩, rfl⟩

/-- In every state whatsoever (also after rejected calls), a statement is recorded exactly if the current tape is being
traced, as the last entry of that tape; otherwise nothing changes. -/
theorem C37_statement (s : Ses O) (o : O) (c : Nat) (tp : Tp O) (hc : s.cur = some c) (h : s.tapes[c]? = some tp) :
    stmt o s = (if tp.mode = .write then s.put c { tp with items := tp.items ++ [.op o] } else s, .ret 0) := by
  by_cases hm : tp.mode = .write <;> simp [stmt, hc, h, hm]
example : ∃ (s : Ses Nat) (tp : Tp Nat), s.cur = some 0 ∧ s.tapes[0]? = some tp ∧ tp.mode = .read :=
  ⟨⟨[⟨.read, [.start], 1, ⟨1, 1, 1, 1⟩, ⟨1, 1, 1, 1⟩, (1, 1), 0⟩], some 0, []⟩, _, rfl, rfl, rfl⟩

/-! ## C38 -/

/-- Rejected calls that leave the session unchanged: a tag that does not exist, a sweep or
parameter update on a tape that is being traced, trace_off while not tracing.
Missing for C38: the three cases refuted below. -/
theorem C38_rejected_partial (s : Ses O) :
    (∀ t keep, s.tapes[t]? = none → traceOn t keep s = (s, .exc .noTape)) ∧
    (∀ t keep sz, s.tapes[t]? = none → traceOnSizes t keep sz s = (s, .exc .noTape)) ∧
    (∀ t dims, s.tapes[t]? = none → sweep t dims s = (s, .exc .noTape)) ∧
    (∀ t n, s.tapes[t]? = none → setParams t n s = (s, .exc .noTape)) ∧
    (∀ t tp dims, s.tapes[t]? = some tp → tp.mode = .write → sweep t dims s = (s, .exc .inUse)) ∧
    (∀ t tp n, s.tapes[t]? = some tp → tp.mode = .write → setParams t n s = (s, .exc .inUse)) ∧
    (∀ c tp dims n, s.cur = some c → s.tapes[c]? = some tp → tp.mode ≠ .write → traceOff dims n s = (s, .exc .notTaping)) := by
  refine ⟨?_, ?_, ?_, ?_, ?_, ?_, ?_⟩
  · intro t keep h; simp [traceOn, h]
  · intro t keep sz h; simp [traceOnSizes, h]
  · intro t dims h; simp [sweep, h]
  · intro t n h; simp [setParams, h]
  · intro t tp dims h hm; simp [sweep, h, hm]
  · intro t tp n h hm; simp [setParams, h, hm]
  · intro c tp dims n hc h hm; simp [traceOff, hc, h, hm]

example : ∃ s : Ses Nat, s.tapes[1]? = none ∧ (∃ tp, s.tapes[0]? = some tp ∧ tp.mode = .write) :=
  ⟨⟨[⟨.write, [.start], 1, ⟨1, 1, 1, 1⟩, ⟨1, 1, 1, 1⟩, (1, 1), 0⟩], some 0, [none]⟩, rfl, _, rfl, rfl⟩

/-- trace_on on a tag in use is rejected, but has already suspended the current tape: the tag
is now the current tape and the stack is one deeper, so the next trace_off closes another
trace than before. -/
theorem C38_busy_tag_changes_session (s : Ses O) (t : Nat) (keep : Int) (tp : Tp O) (h : s.tapes[t]? = some tp)
    (hm : tp.mode ≠ .none) :
    traceOn t keep s = ({ s with stack := s.cur :: s.stack, cur := some t }, .exc .inUse) := by
  simp [traceOn, h, initNewTape, hm]

/-- A sweep with the wrong number of variables is rejected and leaves the tape in read mode:
from then on trace_on on that tag is rejected in every state of the rest of the session, until
a sweep with the right numbers. -/
theorem C38_wrong_counts_blocks_retracing (s : Ses O) (t : Nat) (dims : Nat × Nat) (tp : Tp O) (h : s.tapes[t]? = some tp)
    (hm : tp.mode = .none) (hd : dims ≠ tp.dims) :
    (sweep t dims s).2 = .exc .countsMismatch ∧
      ∀ keep, (traceOn t keep (sweep t dims s).1).2 = .exc .inUse := by
  have hlt : t < s.tapes.length := (List.getElem?_eq_some_iff.1 h).1
  have e : sweep t dims s = (s.put t { tp with mode := .read }, .exc .countsMismatch) := by
    simp [sweep, h, hm, hd]
  rw [e]
  refine ⟨rfl, fun keep => ?_⟩
  have := (get_put s t t { tp with mode := .read } hlt).trans (if_pos rfl)
  simp [traceOn, this, initNewTape]

/-- set_param_vec with the wrong number of parameters is rejected and leaves the tape in write
mode: every later trace_on, sweep and set_param_vec on the tag is rejected. -/
theorem C38_wrong_params_blocks_tag (s : Ses O) (t n : Nat) (tp : Tp O) (h : s.tapes[t]? = some tp)
    (hm : tp.mode = .none) (hn : n ≠ tp.npar) :
    (setParams t n s).2 = .exc .paramMismatch ∧
      (∀ keep, (traceOn t keep (setParams t n s).1).2 = .exc .inUse) ∧
      (∀ dims, (sweep t dims (setParams t n s).1).2 = .exc .inUse) ∧
      (∀ m, (setParams t m (setParams t n s).1).2 = .exc .inUse) := by
  have hlt : t < s.tapes.length := (List.getElem?_eq_some_iff.1 h).1
  have e : setParams t n s = (s.put t { tp with mode := .write }, .exc .paramMismatch) := by
    simp [setParams, h, hm, hn]
  rw [e]
  have := (get_put s t t { tp with mode := .write } hlt).trans (if_pos rfl)
  refine ⟨rfl, fun keep => ?_, fun dims => ?_, fun m => ?_⟩
  · simp [traceOn, this, initNewTape]
  · simp [sweep, this]
  · simp [setParams, this]

end Verif.Props.Session
