import Verif.IO.Life
import Verif.Props.IO

/-!
Property theorems about a tape id that is traced and evaluated again and again: C61.

Vocabulary.  A `Use` of a tape id is `trace t` (`trace_on(tag, keep)`, the calls of the operators,
`trace_off(flag)`), `forward keep` or `reverse` (a sweep).  `St.uses` runs a list of uses and returns
what each sweep saw: the numbers of independents and dependents and the operations; `none` is a
failure or undefined behaviour.  The decoders `d` say how many locations and values an operation
has; `TraceOk` includes that they do so for the operations of a trace.
-/
set_option linter.all false
namespace Verif.Props.Life
open Verif.IO

variable {V : Type} [Zero V] [DecidableEq V]

/-- The operations of a trace, given the blocks `js` in which the initial values were saved. -/
def opsOf (k : Codes) (t : Tr V) (js : List (Item V)) : List (Item V) := t.calls.foldl (specCall k) js

/-- A trace the writer accepts, with operations whose shapes the sweeps know. -/
structure TraceOk (d : Decoders) (k : Codes) (g : Cfg) (t : Tr V) : Prop where
  calls : ∀ c ∈ t.calls, CallOk k g c
  params : t.params.length ≤ g.valCap
  dec : ∀ js, IsStock k.stock 0 js → ∀ it ∈ opsOf k t js,
    it.code ≠ k.eot ∧ it.code ≠ k.sot ∧ DecF d.fwd it ∧ DecR d.rev it

/-- What the sweeps know about `start_of_tape` and `end_of_tape`: they have no locations or values. -/
structure EndsOk (V : Type) [Zero V] (d : Decoders) (k : Codes) : Prop where
  ne : k.sot ≠ k.eot
  mult : k.eot ≠ k.mult
  sF : DecF d.fwd (⟨k.sot, [], []⟩ : Item V)
  eF : DecF d.fwd (⟨k.eot, [], []⟩ : Item V)
  sR : DecR d.rev (⟨k.sot, [], []⟩ : Item V)
  eR : DecR d.rev (⟨k.eot, [], []⟩ : Item V)

/-- The trace stays in the buffers: `trace_off(0)` and no buffer was ever full. -/
def InMemory (k : Codes) (g : Cfg) (t : Tr V) : Prop :=
  t.flag = false ∧ ∀ w, record k g t.stock t.calls t.params = some w → w.op.file = [] ∧ w.loc.file = [] ∧ w.val.file = []

/-- The parameters fit behind the other values in the last value buffer (see C06). -/
def ParamsFit (k : Codes) (g : Cfg) (t : Tr V) : Prop :=
  ∀ w, record k g t.stock t.calls ([] : List V) = some w → w.val.buf.length + t.params.length < g.valCap

/-- What a sweep of trace `t` has to see. -/
def Shows (k : Codes) (t : Tr V) (rev : Bool) (o : Seen V) : Prop :=
  o.inds = t.inds ∧ o.deps = t.deps ∧ ∃ js, IsStock k.stock 0 js ∧ js.flatMap (·.vals) = t.stock ∧
    (if rev then o.ops.reverse else o.ops) = ⟨k.sot, [], []⟩ :: opsOf k t js ++ [⟨k.eot, [], []⟩]

/-- The specification: every sweep sees the latest trace. -/
def Latest (k : Codes) : Option (Tr V) → List (Use V) → List (Seen V) → Prop
  | _, [], os => os = []
  | _, .trace t :: us, os => Latest k (some t) us os
  | some t, .forward _ :: us, o :: os => Shows k t false o ∧ Latest k (some t) us os
  | some t, .reverse :: us, o :: os => Shows k t true o ∧ Latest k (some t) us os
  | _, _, _ => False

/-- Histories in which a trace that went to disk is the last trace of its tape id. -/
def Once (d : Decoders) (k : Codes) (g : Cfg) : Option (Tr V) → List (Use V) → Prop
  | _, [] => True
  | cur, .trace t :: us => TraceOk d k g t ∧ (∀ c, cur = some c → InMemory k g c) ∧ Once d k g (some t) us
  | cur, .forward _ :: us => cur.isSome ∧ Once d k g cur us
  | cur, .reverse :: us => (∃ t, cur = some t ∧ ParamsFit k g t) ∧ Once d k g cur us

/-! ### The state after a trace -/

/-- The statistics of a trace on a tape id none of whose streams was on disk before. -/
def statsOf (t : Tr V) (w : W V) : Stats :=
  { inds := t.inds, deps := t.deps, nOp := (w.op.close t.flag).data.length, nLoc := (w.loc.close t.flag).data.length,
    nVal := (w.val.close t.flag).data.length, nPar := t.params.length, opFile := (w.op.close t.flag).disk,
    locFile := (w.loc.close t.flag).disk, valFile := (w.val.close t.flag).disk }

def fileOf {α : Type} (c : Closed α) : Option (List α) := if c.disk && !c.data.isEmpty then some c.data else none

def stOf (t : Tr V) (w : W V) (kp : Bool) : St V :=
  { stats := statsOf t w, keep := kp, opF := fileOf (w.op.close t.flag),
    locF := fileOf (closeLoc t.flag (statsOf t w).enc w.loc), valF := fileOf (w.val.close t.flag),
    opM := if (w.op.close t.flag).disk then [] else (w.op.close t.flag).data,
    locM := if (w.loc.close t.flag).disk then [] else (w.loc.close t.flag).data,
    valM := if (w.val.close t.flag).disk then [] else (w.val.close t.flag).data }

structure Clean (s : St V) : Prop where
  op : s.stats.opFile = false
  loc : s.stats.locFile = false
  val : s.stats.valFile = false
  opF : s.opF = none
  locF : s.locF = none
  valF : s.valF = none

theorem clean_trace {k : Codes} {g : Cfg} {t : Tr V} {w : W V} {s : St V} (hs : Clean s)
    (hw : record k g t.stock t.calls t.params = some w) : s.trace k g t = some (stOf t w t.keep) := by
  obtain ⟨h1, h2, h3, h4, h5, h6⟩ := hs
  have tf : ∀ {α : Type} (c : Closed α), toFile none c = some (fileOf c) := by
    intro α c; simp only [toFile, fileOf]; split <;> simp
  simp only [St.trace, hw, h1, h2, h3, h4, h5, h6, tf, Bool.false_or]
  rfl

theorem mem_clean {k : Codes} {g : Cfg} {t : Tr V} {w : W V} (hm : InMemory k g t)
    (hw : record k g t.stock t.calls t.params = some w) (kp : Bool) : Clean (stOf t w kp) := by
  obtain ⟨h0, h⟩ := hm
  obtain ⟨h1, h2, h3⟩ := h w hw
  constructor <;> simp [stOf, statsOf, fileOf, closeLoc, Strm.close, h0, h1, h2, h3]

theorem dec_enc (s : Stats) (rest : List Nat) : Stats.dec (s.enc ++ rest) = some s := by
  obtain ⟨a, b, c, d, e, f, g, h, i⟩ := s
  cases g <;> cases h <;> cases i <;> simp [Stats.enc, Stats.dec]

structure Facts (g : Cfg) (w : W V) : Prop where
  oc : w.op.cap = g.opCap
  lc : w.loc.cap = g.locCap
  vc : w.val.cap = g.valCap
  stat : statSpace ≤ w.loc.file.length + w.loc.buf.length
  op : w.op.file ++ w.op.buf ≠ []

theorem closeLoc_len {s : Strm Nat} (h : statSpace ≤ s.file.length + s.buf.length) (flag : Bool) (x : Stats) :
    (closeLoc flag x.enc s).data.length = (s.close flag).data.length := by
  have : x.enc.length = 9 := rfl
  simp only [statSpace] at h
  simp only [closeLoc]; split <;> simp [Strm.close, this] <;> omega

theorem pick_close {α : Type} (c : Closed α) (n : Nat) (hn : n = c.data.length) (m : List α)
    (hm : m = if c.disk then [] else c.data) : pick c.disk c.cap n (fileOf c) m = some c := by
  subst hn hm
  obtain ⟨cap, disk, data⟩ := c
  cases disk
  · simp [pick]
  · cases data <;> simp [pick, fileOf]

theorem open_stOf {g : Cfg} {t : Tr V} {w : W V} (hf : Facts g w) (kp : Bool) : (stOf t w kp).open = some (stOf t w kp) := by
  unfold St.open
  split
  · rename_i h
    simp only [stOf, statsOf, Bool.and_eq_true] at h
    have hd : (w.loc.close t.flag).disk = true := h.1.2
    have hl := closeLoc_len hf.stat t.flag (statsOf t w)
    have hs := hf.stat
    have h1 : (closeLoc t.flag (statsOf t w).enc w.loc).disk = true := by simp [closeLoc, hd]
    have h2 : (closeLoc t.flag (statsOf t w).enc w.loc).data = (statsOf t w).enc ++ (w.loc.close t.flag).data.drop (statsOf t w).enc.length := by
      simp [closeLoc, hd]
    have h3 : (stOf t w kp).locF = some ((statsOf t w).enc ++ (w.loc.close t.flag).data.drop (statsOf t w).enc.length) := by
      simp only [stOf, fileOf, h1, h2]; simp [Stats.enc]
    rw [h3]
    simp only [dec_enc, Option.map_some]
    rw [← h3]
    rfl
  · rfl

theorem streams_stOf {g : Cfg} {t : Tr V} {w : W V} (hf : Facts g w) (kp : Bool) :
    (stOf t w kp).streams g = some (w.op.close t.flag, closeLoc t.flag (statsOf t w).enc w.loc, w.val.close t.flag) := by
  have h1 := pick_close (w.op.close t.flag) _ rfl _ rfl
  have h2 := pick_close (w.val.close t.flag) _ rfl _ rfl
  have e : (closeLoc t.flag (statsOf t w).enc w.loc).disk = (w.loc.close t.flag).disk := by simp only [closeLoc]; split <;> rfl
  have e' : (closeLoc t.flag (statsOf t w).enc w.loc).cap = g.locCap := by rw [← hf.lc]; simp only [closeLoc]; split <;> rfl
  have h3 := pick_close (closeLoc t.flag (statsOf t w).enc w.loc) (w.loc.close t.flag).data.length
    (closeLoc_len hf.stat _ _).symm (if (w.loc.close t.flag).disk then [] else (w.loc.close t.flag).data) (by
      rw [e]; split
      · rfl
      · rename_i hh; simp [closeLoc, hh])
  rw [e, e'] at h3
  have c1 : (w.op.close t.flag).cap = g.opCap := hf.oc
  have c2 : (w.val.close t.flag).cap = g.valCap := hf.vc
  rw [c1] at h1; rw [c2] at h2
  simp only [St.streams, stOf]
  simp only [statsOf] at h1 h2 h3 ⊢
  rw [h1, h2, h3]

theorem facts {k : Codes} {g : Cfg} (hc : CfgOk g) (hk : k.eot ≠ k.mult) {t : Tr V}
    (hcs : ∀ c ∈ t.calls, CallOk k g c) (hp : t.params.length ≤ g.valCap) :
    ∃ w, record k g t.stock t.calls t.params = some w ∧ Facts g w := by
  obtain ⟨w, w1, js, v, a1, a2, a3, a4, a5, a6, a7, a8, a9⟩ := record_spec k hc t.stock t.calls hcs t.params hp hk
  have caps := (Mics.snoc a4 a5).caps
  have okw := a5.ok (a4.ok (w0_ok k hc))
  obtain ⟨v', d1, d2, d3⟩ := saveParams_spec t.params w.val (by omega) okw.valb (by rw [caps.2.2]; exact hp)
  obtain rfl : v' = v := by rw [d1] at a8; injection a8
  refine ⟨_, a1, caps.1, caps.2.1, by simp only; rw [d2, caps.2.2]; rfl, ?_, ?_⟩
  · exact a5.stat (a4.stat (by simp [w0]))
  · cases a5 with
    | item => simp

theorem shows_forward {d : Decoders} {k : Codes} {g : Cfg} (hc : CfgOk g) (he : EndsOk V d k) {t : Tr V}
    (ht : TraceOk d k g t) {w : W V} (hw : record k g t.stock t.calls t.params = some w) (hf : Facts g w) (kp kp' : Bool) :
    ∃ n, ∀ fuel, n ≤ fuel → ∃ o, (stOf t w kp).forward d.fwd k g fuel kp' = some (stOf t w (kp || kp'), o) ∧ Shows k t false o := by
  obtain ⟨w', js, a1, a2, a3, n, a4⟩ := forward_readback k hc t.stock t.calls ht.calls t.params ht.params he.mult t.flag
    (statsOf t w).enc (by simp [Stats.enc, statSpace])
  obtain rfl : w' = w := by rw [hw] at a1; injection a1 with a1; exact a1.symm
  refine ⟨n, fun fuel hn => ?_⟩
  have h := sweepFD_of d.fwd k.eot fuel (⟨k.sot, [], []⟩ :: opsOf k t js) (openFor t.flag (statsOf t w').enc w') (by
      intro it hit
      rcases List.mem_cons.1 hit with rfl | hit
      · exact ⟨he.ne, he.sF⟩
      · exact ⟨(ht.dec js a2 it hit).1, (ht.dec js a2 it hit).2.2.1⟩) he.eF (a4 fuel hn)
  unfold St.forward
  rw [open_stOf hf]; simp only
  rw [streams_stOf hf]; simp only
  unfold openFor at h
  rw [h]
  exact ⟨_, rfl, rfl, rfl, js, a2, a3, rfl⟩

theorem shows_reverse {d : Decoders} {k : Codes} {g : Cfg} (hc : CfgOk g) (he : EndsOk V d k) {t : Tr V}
    (ht : TraceOk d k g t) (hfit : ParamsFit k g t) {w : W V} (hw : record k g t.stock t.calls t.params = some w) (hf : Facts g w) (kp : Bool) :
    ∃ n, ∀ fuel, n ≤ fuel → ∃ o, (stOf t w kp).reverse d.rev k g fuel = some (stOf t w kp, o) ∧ Shows k t true o := by
  obtain ⟨w', js, a1, a2, a3, n, a4⟩ := reverse_readback k hc t.stock t.calls ht.calls t.params he.mult ht.params hfit t.flag
    (statsOf t w).enc (by simp [Stats.enc, statSpace])
  obtain rfl : w' = w := by rw [hw] at a1; injection a1 with a1; exact a1.symm
  refine ⟨n, fun fuel hn => ?_⟩
  have h := sweepRevD_of d.rev k.sot k.eot t.params.length fuel (opsOf k t js).reverse (openRev t.flag (statsOf t w').enc w') (by
      intro it hit
      have := ht.dec js a2 it (List.mem_reverse.1 hit)
      exact ⟨this.2.1, this.2.2.2⟩) he.sR he.eR (by rw [List.map_reverse]; exact a4 fuel hn)
  unfold St.reverse
  rw [open_stOf hf]; simp only
  rw [streams_stOf hf]; simp only
  unfold openRev at h
  rw [show (stOf t w' kp).stats.nPar = t.params.length from rfl, h]
  exact ⟨_, rfl, rfl, rfl, js, a2, a3, by simp⟩

/-- C61 (full statement: for all histories).  Proved for histories in which a tape id is not traced
again after one of its traces went to disk (`trace_off(1)`, or a buffer that was full); otherwise
it is false, see `C61_stale_trace` and `C61_retrace_to_disk`.  Whatever the traces (any number of
them, any sizes, with or without `keep`, on disk or not), and in whatever order sweeps follow them: every
sweep sees the numbers of variables and exactly the operations of the latest trace. -/
theorem C61_latest_trace_partial (d : Decoders) (k : Codes) {g : Cfg} (hc : CfgOk g) (he : EndsOk V d k)
    (us : List (Use V)) (h : Once d k g none us) :
    ∃ n, ∀ fuel, n ≤ fuel → ∃ os, St.uses d k g fuel us ({} : St V) = some os ∧ Latest k none us os := by
  have key : ∀ (us : List (Use V)) (t : Tr V) (w : W V) (kp : Bool), TraceOk d k g t →
      record k g t.stock t.calls t.params = some w → Facts g w → Once d k g (some t) us →
      ∃ n, ∀ fuel, n ≤ fuel → ∃ os, St.uses d k g fuel us (stOf t w kp) = some os ∧ Latest k (some t) us os := by
    intro us
    induction us with
    | nil => intro t w kp _ _ _ _; exact ⟨0, fun _ _ => ⟨[], rfl, rfl⟩⟩
    | cons u us ih =>
      intro t w kp ht hw hf h
      cases u with
      | trace t' =>
        obtain ⟨h1, h2, h3⟩ := h
        obtain ⟨w', hw', hf'⟩ := facts hc he.mult h1.calls h1.params
        obtain ⟨n, hn⟩ := ih t' w' t'.keep h1 hw' hf' h3
        refine ⟨n, fun fuel hfu => ?_⟩
        simp only [St.uses, clean_trace (mem_clean (h2 t rfl) hw kp) hw']
        exact hn fuel hfu
      | forward kp' =>
        obtain ⟨n1, h1⟩ := shows_forward hc he ht hw hf kp kp'
        obtain ⟨n2, h2⟩ := ih t w (kp || kp') ht hw hf h.2
        refine ⟨max n1 n2, fun fuel hfu => ?_⟩
        obtain ⟨o, e1, e2⟩ := h1 fuel (by omega)
        obtain ⟨os, e3, e4⟩ := h2 fuel (by omega)
        exact ⟨o :: os, by simp only [St.uses, e1, e3, Option.map_some], e2, e4⟩
      | reverse =>
        obtain ⟨⟨t', ht', hfit⟩, h⟩ := h
        cases ht'
        obtain ⟨n1, h1⟩ := shows_reverse hc he ht hfit hw hf kp
        obtain ⟨n2, h2⟩ := ih t w kp ht hw hf h
        refine ⟨max n1 n2, fun fuel hfu => ?_⟩
        obtain ⟨o, e1, e2⟩ := h1 fuel (by omega)
        obtain ⟨os, e3, e4⟩ := h2 fuel (by omega)
        exact ⟨o :: os, by simp only [St.uses, e1, e3, Option.map_some], e2, e4⟩
  cases us with
  | nil => exact ⟨0, fun _ _ => ⟨[], rfl, rfl⟩⟩
  | cons u us =>
    cases u with
    | trace t =>
      obtain ⟨h1, _, h3⟩ := h
      obtain ⟨w, hw, hf⟩ := facts hc he.mult h1.calls h1.params
      obtain ⟨n, hn⟩ := key us t w t.keep h1 hw hf h3
      refine ⟨n, fun fuel hfu => ?_⟩
      simp only [St.uses, clean_trace (s := ({} : St V)) ⟨rfl, rfl, rfl, rfl, rfl, rfl⟩ hw]
      exact hn fuel hfu
    | forward kp => simp [Once] at h
    | reverse => obtain ⟨⟨t, ht, _⟩, _⟩ := h; cases ht

/-- C61 fails for every tape id traced to disk (`trace_off(1)`) and traced again in memory, both without
`keep`: every later forward sweep sees the first trace, with its numbers of variables, whatever the second is. -/
theorem C61_stale_trace (d : Decoders) (k : Codes) {g : Cfg} (hc : CfgOk g) (he : EndsOk V d k) (t t' : Tr V)
    (ht : TraceOk d k g t) (ht' : TraceOk d k g t') (hflag : t.flag = true) (hkeep : t'.keep = false)
    (hm : InMemory k g t') :
    ∃ n, ∀ fuel, n ≤ fuel → ∃ o, St.uses d k g fuel [.trace t, .trace t', .forward false] ({} : St V) = some [o] ∧
      Shows k t false o := by
  obtain ⟨w, hw, hf⟩ := facts hc he.mult ht.calls ht.params
  obtain ⟨w', hw', hf'⟩ := facts hc he.mult ht'.calls ht'.params
  obtain ⟨n, hn⟩ := shows_forward hc he ht hw hf false false
  refine ⟨n, fun fuel hfu => ?_⟩
  obtain ⟨o, e1, e2⟩ := hn fuel hfu
  refine ⟨o, ?_, e2⟩
  obtain ⟨m0, m⟩ := hm
  obtain ⟨m1, m2, m3⟩ := m w' hw'
  have e0 := clean_trace (s := ({} : St V)) ⟨rfl, rfl, rfl, rfl, rfl, rfl⟩ hw
  simp only [St.uses, e0]
  have nd1 : (w'.op.close t'.flag).disk = false := by simp [Strm.close, m0, m1]
  have nd2 : (w'.loc.close t'.flag).disk = false := by simp [Strm.close, m0, m2]
  have nd3 : (w'.val.close t'.flag).disk = false := by simp [Strm.close, m0, m3]
  have f1 : (w.op.close t.flag).disk = true := by simp [Strm.close, hflag]
  have f2 : (w.loc.close t.flag).disk = true := by simp [Strm.close, hflag]
  have f3 : (w.val.close t.flag).disk = true := by simp [Strm.close, hflag]
  have tf : ∀ {α : Type} (o : Option (List α)) (c : Closed α), c.disk = false → toFile o c = some o := by
    intro α o c h; simp [toFile, h]
  have hl := fun x : Stats => show (closeLoc t'.flag x.enc w'.loc).disk = false by simp [closeLoc, nd2]
  have hs : ∃ s', (stOf t w t.keep).trace k g t' = some s' ∧ s'.locF = (stOf t w false).locF ∧ s'.opF = (stOf t w false).opF ∧
      s'.valF = (stOf t w false).valF ∧ s'.keep = false ∧ s'.stats.opFile = true ∧ s'.stats.locFile = true ∧ s'.stats.valFile = true := by
    simp only [St.trace, hw', tf _ _ nd1, tf _ _ nd3, tf _ _ (hl _)]
    exact ⟨_, rfl, rfl, rfl, rfl, hkeep, by simp [stOf, statsOf, f1], by simp [stOf, statsOf, f2], by simp [stOf, statsOf, f3]⟩
  obtain ⟨s', g1, g2, g3, g4, g5, g6, g7, g8⟩ := hs
  rw [g1]
  simp only
  -- the state after `openTape` has the statistics and the files of the first trace
  have hopen : ∃ s2, s'.open = some s2 ∧ s2.stats = statsOf t w ∧ s2.locF = (stOf t w false).locF ∧ s2.opF = (stOf t w false).opF ∧
      s2.valF = (stOf t w false).valF ∧ s2.keep = false := by
    have hp : (stOf t w false).open = some (stOf t w false) := open_stOf hf false
    unfold St.open at hp ⊢
    rw [if_pos (by simp [g5, g6, g7, g8]), g2]
    rw [if_pos (by simp [stOf, statsOf, f1, f2, f3])] at hp
    cases hd : (stOf t w false).locF with
    | none => rw [hd] at hp; cases hp
    | some dd =>
      rw [hd] at hp
      simp only at hp ⊢
      cases hdd : Stats.dec dd with
      | none => rw [hdd] at hp; cases hp
      | some x =>
        rw [hdd] at hp
        simp only [Option.map_some, Option.some.injEq] at hp ⊢
        have : x = statsOf t w := congrArg St.stats hp
        exact ⟨_, rfl, this, rfl, g3, g4, g5⟩
  obtain ⟨s2, o1, o2, o3, o4, o5, o6⟩ := hopen
  have hst : s2.streams g = (stOf t w false).streams g := by
    have : (stOf t w false).stats = statsOf t w := rfl
    simp only [St.streams, o2, o3, o4, o5, this, pick]
    simp only [statsOf, f1, f2, f3, if_true]
  unfold St.forward at e1 ⊢
  rw [o1]; simp only
  rw [open_stOf hf] at e1; simp only at e1
  rw [hst]
  cases hq : (stOf t w false).streams g with
  | none => rw [hq] at e1; cases e1
  | some p =>
    obtain ⟨oo, ll, vv⟩ := p
    rw [hq] at e1
    simp only at e1 ⊢
    cases hz : sweepFD d.fwd k.eot fuel { op := prepFor 0 oo, loc := prepFor statSpace ll, val := prepFor 0 vv } with
    | none => rw [hz] at e1; cases e1
    | some is =>
      rw [hz] at e1
      simp only [Option.map_some, Option.some.injEq, Prod.mk.injEq] at e1 ⊢
      rw [← e1.2]
      simp only [o2]
      rfl

/-- C61 fails for every tape id traced to disk twice: the file of the first trace is closed twice
(undefined behaviour), whatever the traces are. -/
theorem C61_retrace_to_disk (d : Decoders) (k : Codes) {g : Cfg} (hc : CfgOk g) (he : EndsOk V d k) (t t' : Tr V)
    (ht : TraceOk d k g t) (ht' : TraceOk d k g t') (hflag : t.flag = true) (hflag' : t'.flag = true) (fuel : Nat) :
    St.uses d k g fuel [.trace t, .trace t'] ({} : St V) = none := by
  obtain ⟨w, hw, hf⟩ := facts hc he.mult ht.calls ht.params
  obtain ⟨w', hw', hf'⟩ := facts hc he.mult ht'.calls ht'.params
  simp only [St.uses, clean_trace (s := ({} : St V)) ⟨rfl, rfl, rfl, rfl, rfl, rfl⟩ hw]
  have h1 : (stOf t w t.keep).opF.isSome = true := by
    have := hf.op
    simp [stOf, fileOf, Strm.close, hflag] ; simpa using this
  have h2 : toFile (stOf t w t.keep).opF (w'.op.close t'.flag) = none := by
    have := hf'.op
    unfold toFile
    rw [if_pos (by simp [Strm.close, hflag']; simpa using this), if_pos h1]
  simp only [St.trace, hw', h2]

/-- Likewise if a file of that name was left behind by another process: tracing to disk closes it twice. -/
theorem C61_leftover_file (d : Decoders) (k : Codes) {g : Cfg} (hc : CfgOk g) (he : EndsOk V d k) (t : Tr V)
    (ht : TraceOk d k g t) (hflag : t.flag = true) (old : List Code) :
    ({ opF := some old } : St V).trace k g t = none := by
  obtain ⟨w, hw, hf⟩ := facts hc he.mult ht.calls ht.params
  have h2 : toFile (some old) (w.op.close t.flag) = none := by
    have := hf.op
    unfold toFile
    rw [if_pos (by simp [Strm.close, hflag]; simpa using this)]; rfl
  simp only [St.trace, hw, h2]

/-! Concrete instances. -/

/-- The shapes of the operations below: 7 has two locations and a value, 1 and 11 three locations;
`take_stock_op` (4) has two locations and as many values as its first location says. -/
def decs : Decoders where
  fwd c l := match c, l with
    | 4, n :: _ => (2, n)
    | 7, _ => (2, 1)
    | 1, _ => (3, 0)
    | 11, _ => (3, 0)
    | _, _ => (0, 0)
  rev c l := match c, l with
    | 4, _ :: n :: _ => (2, n)
    | 7, _ => (2, 1)
    | 1, _ => (3, 0)
    | 11, _ => (3, 0)
    | _, _ => (0, 0)

theorem isStock_mem : ∀ (js : List (Item V)) (c l : Nat), IsStock c l js → ∀ it ∈ js, it.code = c ∧ ∃ l', it.locs = [it.vals.length, l']
  | j :: js, c, l, h, it, hit => by
    rcases List.mem_cons.1 hit with rfl | hit
    · exact ⟨h.1, l, h.2.1⟩
    · exact isStock_mem js c _ h.2.2.2 it hit

def cfg : Cfg := ⟨20, 80, 30⟩

/-- Recorded with two live variables: two operations and a retargeted product. -/
def tr1 : Tr Int := ⟨false, true, 1, 1, [5, 6], Verif.Props.IO.calls, [8]⟩
/-- Another function: one operation. -/
def tr2 : Tr Int := ⟨false, false, 2, 1, [], [.put 0 ⟨7, [1, 2], [30]⟩], []⟩

theorem ends : EndsOk Int decs Verif.Props.IO.codes := by
  constructor <;> first | decide | (intro rest; rfl)

theorem tr1_ok : TraceOk decs Verif.Props.IO.codes cfg tr1 := by
  refine ⟨?_, by decide, ?_⟩
  · intro c hc
    simp only [tr1, Verif.Props.IO.calls, List.mem_cons, List.not_mem_nil, or_false] at hc
    rcases hc with rfl | rfl | rfl | rfl <;> simp [CallOk, Verif.Props.IO.codes, cfg]
  · intro js hjs it hit
    have : opsOf Verif.Props.IO.codes tr1 js = js ++ [⟨7, [5, 6], [10]⟩, ⟨11, [5, 6, 8], []⟩, ⟨7, [8, 6], [20]⟩] := by
      simp [opsOf, tr1, Verif.Props.IO.calls, specCall, Verif.Props.IO.codes, List.getLast?_append]
    rw [this] at hit
    rcases List.mem_append.1 hit with hit | hit
    · obtain ⟨h1, l', h2⟩ := isStock_mem js _ _ hjs it hit
      obtain ⟨c, ls, vs⟩ := it
      simp only at h1 h2
      subst h1 h2
      refine ⟨show (4 : Nat) ≠ 2 by decide, show (4 : Nat) ≠ 3 by decide, ?_, ?_⟩ <;> intro rest <;> simp [decs, Verif.Props.IO.codes, shape]
    · simp only [List.mem_cons, List.not_mem_nil, or_false] at hit
      rcases hit with rfl | rfl | rfl <;> refine ⟨by decide, by decide, ?_, ?_⟩ <;> intro rest <;> simp [decs, shape]

theorem tr2_ok : TraceOk decs Verif.Props.IO.codes cfg tr2 := by
  refine ⟨?_, by decide, ?_⟩
  · intro c hc
    simp only [tr2, List.mem_cons, List.not_mem_nil, or_false] at hc
    subst hc; simp [CallOk, Verif.Props.IO.codes, cfg]
  · intro js hjs it hit
    have : opsOf Verif.Props.IO.codes tr2 js = js ++ [⟨7, [1, 2], [30]⟩] := by
      simp [opsOf, tr2, specCall]
    rw [this] at hit
    rcases List.mem_append.1 hit with hit | hit
    · obtain ⟨h1, l', h2⟩ := isStock_mem js _ _ hjs it hit
      obtain ⟨c, ls, vs⟩ := it
      simp only at h1 h2
      subst h1 h2
      refine ⟨show (4 : Nat) ≠ 2 by decide, show (4 : Nat) ≠ 3 by decide, ?_, ?_⟩ <;> intro rest <;> simp [decs, Verif.Props.IO.codes, shape]
    · simp only [List.mem_cons, List.not_mem_nil, or_false] at hit
      subst hit; refine ⟨by decide, by decide, ?_, ?_⟩ <;> intro rest <;> simp [decs, shape]

theorem tr2_mem : InMemory Verif.Props.IO.codes cfg tr2 := by
  refine ⟨rfl, fun w hw => ?_⟩
  have : (record Verif.Props.IO.codes cfg tr2.stock tr2.calls tr2.params).all
      (fun w => w.op.file.isEmpty && w.loc.file.isEmpty && w.val.file.isEmpty) = true := by decide +kernel
  rw [hw] at this
  simpa [and_assoc] using this

theorem fits (t : Tr Int) (h : t = tr1 ∨ t = tr2) : ParamsFit Verif.Props.IO.codes cfg t := by
  intro w hw
  have : ∀ t, t = tr1 ∨ t = tr2 → (record Verif.Props.IO.codes cfg t.stock t.calls ([] : List Int)).all
      (fun w => decide (w.val.buf.length + t.params.length < cfg.valCap)) = true := by
    rintro t (rfl | rfl) <;> decide +kernel
  have := this t h
  rw [hw] at this
  simpa using this

/-- Traced in memory, swept both ways, traced again to disk, swept. -/
example : Once decs Verif.Props.IO.codes cfg none
      [.trace tr2, .forward true, .reverse, .trace tr1, .forward false, .forward true, .reverse] ∧ CfgOk cfg ∧
    St.uses decs Verif.Props.IO.codes cfg 50
      [.trace tr2, .forward true, .reverse, .trace tr1, .forward false, .forward true, .reverse] ({} : St Int)
    = some [⟨2, 1, [⟨3, [], []⟩, ⟨7, [1, 2], [30]⟩, ⟨2, [], []⟩]⟩,
            ⟨2, 1, [⟨2, [], []⟩, ⟨7, [1, 2], [30]⟩, ⟨3, [], []⟩]⟩,
            ⟨1, 1, [⟨3, [], []⟩, ⟨4, [2, 0], [5, 6]⟩, ⟨7, [5, 6], [10]⟩, ⟨11, [5, 6, 8], []⟩, ⟨7, [8, 6], [20]⟩, ⟨2, [], []⟩]⟩,
            ⟨1, 1, [⟨3, [], []⟩, ⟨4, [2, 0], [5, 6]⟩, ⟨7, [5, 6], [10]⟩, ⟨11, [5, 6, 8], []⟩, ⟨7, [8, 6], [20]⟩, ⟨2, [], []⟩]⟩,
            ⟨1, 1, [⟨2, [], []⟩, ⟨7, [8, 6], [20]⟩, ⟨11, [5, 6, 8], []⟩, ⟨7, [5, 6], [10]⟩, ⟨4, [2, 0], [5, 6]⟩, ⟨3, [], []⟩]⟩] := by
  refine ⟨⟨tr2_ok, by simp, rfl, ⟨tr2, rfl, fits _ (.inr rfl)⟩, tr1_ok, ?_, rfl, rfl, ⟨tr1, rfl, fits _ (.inl rfl)⟩, trivial⟩,
    ⟨by decide, by decide, by decide⟩, by decide +kernel⟩
  intro c hc; injection hc with hc; subst hc; exact tr2_mem

/-- The hypotheses of `C61_stale_trace`, and what the sweep of the second function returns. -/
example : tr1.flag = true ∧ tr2.keep = false ∧ InMemory Verif.Props.IO.codes cfg tr2 ∧
    St.uses decs Verif.Props.IO.codes cfg 50 [.trace tr1, .trace tr2, .forward false] ({} : St Int)
    = some [⟨1, 1, [⟨3, [], []⟩, ⟨4, [2, 0], [5, 6]⟩, ⟨7, [5, 6], [10]⟩, ⟨11, [5, 6, 8], []⟩, ⟨7, [8, 6], [20]⟩, ⟨2, [], []⟩]⟩] :=
  ⟨rfl, rfl, tr2_mem, by decide +kernel⟩

/-- If the second trace is recorded with `keep`, a sweep combines its statistics with the files of
the first: it runs off the part of the files it has read if that ends earlier, and otherwise sees the operations of the first trace
with the numbers of variables of the second. -/
theorem C61_stale_keep_witness :
    St.uses decs Verif.Props.IO.codes cfg 50 [.trace { tr1 with stock := [] },
        .trace { tr2 with keep := true, calls := [.put 0 ⟨7, [1, 2], [30]⟩, .put 0 ⟨7, [3, 4], [31]⟩] }, .forward false] ({} : St Int)
    = none ∧
    St.uses decs Verif.Props.IO.codes cfg 50 [.trace { tr1 with stock := [], calls := [.put 0 ⟨7, [5, 6], [10]⟩] },
        .trace { tr2 with keep := true }, .forward false] ({} : St Int)
    = some [⟨2, 1, [⟨3, [], []⟩, ⟨7, [5, 6], [10]⟩, ⟨2, [], []⟩]⟩] := by
  decide +kernel

end Verif.Props.Life
