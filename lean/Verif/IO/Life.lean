import Verif.IO.TapeHist

/-!
# The life of a tape id: traces and sweeps in any order

`valuetape.cpp`, `valuetape.h`, `tapeinfos.h`: what a tape id keeps between one `trace_on` and the
next (statistics, the three files, the three buffers), and what `init_sweep` makes of it.

Simplifications.  File operations succeed unless the file is missing or too short; a file shorter
than the statistics say fails when the sweep is opened and not at the block where it ends.  The
identification written before the statistics, the statistics not named in `Stats` and the
parameter values (see `IO/Params.lean`) are left out.  A buffer given back to the system has no
readable contents.  The buffer sizes of the tape do not change.
-/
set_option linter.all false
namespace Verif.IO
variable {V : Type} [Zero V]

/-! ## Sweeps that find the shape of each operation from its code -/

/-- What the cases of a sweep's `switch` know: the numbers of locations and values of an operation,
from its code and the locations ahead. -/
abbrev Decoder := Nat → List Nat → Nat × Nat

/-- One iteration of a forward sweep's loop (uni5_for.cpp:1270-1306 and the cases below). -/
def stepFD (dec : Decoder) (r : R V) : Option (R V × Option (Item V)) :=
  match r.op.next with
  | some (.op c, _) => stepF (dec c (r.loc.buf.drop r.loc.pos)).1 (dec c (r.loc.buf.drop r.loc.pos)).2 r
  | _ => stepF 0 0 r

/-- A forward sweep, up to `end_of_tape` (uni5_for.cpp:1270, `while (operation != end_of_tape)`). -/
def sweepFD (dec : Decoder) (eot : Nat) : Nat → R V → Option (List (Item V))
  | 0, _ => none
  | fuel + 1, r => match stepFD dec r with
    | none => none
    | some (r, none) => sweepFD dec eot fuel r
    | some (r, some it) => if it.code = eot then some [it] else (sweepFD dec eot fuel r).map (it :: ·)

/-- One iteration of a reverse sweep's loop (fo_rev.cpp:545-580 and the cases below). -/
def stepRD (dec : Decoder) (r : R V) : Option (R V × Option (Item V)) :=
  match r.op.prev with
  | some (.op c, _) => stepR (dec c (r.loc.buf.take r.loc.pos).reverse).1 (dec c (r.loc.buf.take r.loc.pos).reverse).2 r
  | _ => stepR 0 0 r

/-- The loop of a reverse sweep, down to `start_of_tape` (fo_rev.cpp:546). -/
def sweepRD (dec : Decoder) (sot : Nat) : Nat → R V → Option (List (Item V))
  | 0, _ => none
  | fuel + 1, r => match stepRD dec r with
    | none => none
    | some (r, none) => sweepRD dec sot fuel r
    | some (r, some it) => if it.code = sot then some [it] else (sweepRD dec sot fuel r).map (it :: ·)

/-- A reverse sweep: `end_of_tape`, the parameters, the rest (fo_rev.cpp:545-583). -/
def sweepRevD (dec : Decoder) (sot np fuel : Nat) (r : R V) : Option (List (Item V)) :=
  match stepRD dec r with
  | some (r, some it) => match discardParams (np + 2) np r.val with
    | none => none
    | some v => (sweepRD dec sot fuel { r with val := v }).map (it :: ·)
  | _ => none

/-! ## The state of a tape id -/

/-- The statistics (`TapeInfos::StatEntries`, tapeinfos.h:18-38) that a sweep depends on. -/
structure Stats where
  inds : Nat := 0
  deps : Nat := 0
  nOp : Nat := 0
  nLoc : Nat := 0
  nVal : Nat := 0
  nPar : Nat := 0
  opFile : Bool := false
  locFile : Bool := false
  valFile : Bool := false
deriving DecidableEq

/-- The statistics as written to the location file: valuetape.cpp:431-433. -/
def Stats.enc (s : Stats) : List Nat :=
  [s.inds, s.deps, s.nOp, s.nLoc, s.nVal, s.nPar, s.opFile.toNat, s.locFile.toNat, s.valFile.toNat]

/-- `read_tape_stats`: valuetape.cpp:591-612. -/
def Stats.dec : List Nat → Option Stats
  | a :: b :: c :: d :: e :: f :: g :: h :: i :: _ => some ⟨a, b, c, d, e, f, g == 1, h == 1, i == 1⟩
  | _ => none

/-- What a tape id keeps: `TapeInfos::stats`, `keepTaylors`, the buffers, and the files of its name. -/
structure St (V : Type) where
  stats : Stats := {}
  keep : Bool := false
  opF : Option (List Code) := none
  locF : Option (List Nat) := none
  valF : Option (List V) := none
  opM : List Code := []
  locM : List Nat := []
  valM : List V := []

/-- One use of `trace_on(tag, keep) ... trace_off(flag)`. -/
structure Tr (V : Type) where
  keep : Bool
  flag : Bool
  inds : Nat
  deps : Nat
  stock : List V
  calls : List (Call V)
  params : List V

/-- Writing a stream to its file: `put_block`, tapeinfos.h:235-263, opens the file if it is not open
(`openFile`, tapeinfos.h:192-213).  If a file of that name exists it is opened, closed, removed and then
closed a second time by the `reset` of the owner (bufferstate.h:104-106): undefined behaviour (`none`).
Nothing is written, and no file created, if there is no data (valuetape.cpp:396, 410, 425). -/
def toFile {α : Type} (old : Option (List α)) (c : Closed α) : Option (Option (List α)) :=
  if c.disk && !c.data.isEmpty then (if old.isSome then none else some (some c.data)) else some old

/-- `trace_on`, the recorded calls and `trace_off`: `initNewTape` (valuetape.cpp:58-88, which keeps
the statistics: `initTapeInfos_keep`, 19-53), `record`, `stop_trace` (362-388) and `close_tape`
(393-441).  The three `*_FILE_ACCESS` entries are set and never cleared. -/
def St.trace (k : Codes) (g : Cfg) (t : Tr V) (s : St V) : Option (St V) :=
  match record k g t.stock t.calls t.params with
  | none => none
  | some w =>
    let oc := w.op.close t.flag
    let vc := w.val.close t.flag
    let lc := w.loc.close t.flag
    let st : Stats := { inds := t.inds, deps := t.deps, nOp := oc.data.length, nLoc := lc.data.length,
                        nVal := vc.data.length, nPar := t.params.length,
                        opFile := s.stats.opFile || oc.disk, locFile := s.stats.locFile || lc.disk,
                        valFile := s.stats.valFile || vc.disk }
    match toFile s.opF oc, toFile s.valF vc, toFile s.locF (closeLoc t.flag st.enc w.loc) with
    | some o, some v, some l =>
      some { stats := st, keep := t.keep, opF := o, locF := l, valF := v,
             opM := if oc.disk then [] else oc.data, locM := if lc.disk then [] else lc.data,
             valM := if vc.disk then [] else vc.data }
    | _, _, _ => none

/-- `openTape`: valuetape.cpp:91-110. -/
def St.open (s : St V) : Option (St V) :=
  if !s.keep && s.stats.opFile && s.stats.locFile && s.stats.valFile then
    match s.locF with
    | none => none
    | some d => (Stats.dec d).map fun st => { s with stats := st }
  else some s

/-- The choice in `prepare_for` and `prepare_rev` between file and buffer: valuetape.h:678, 740. -/
def pick {α : Type} (disk : Bool) (cap n : Nat) (file : Option (List α)) (mem : List α) : Option (Closed α) :=
  if disk then
    let d := file.getD []
    if n ≤ d.length then some ⟨cap, true, d.take n⟩ else none
  else some ⟨cap, false, mem.take n⟩

/-- The three streams as `prepare_for_all` and `prepare_rev_all` (valuetape.h:760-772) see them. -/
def St.streams (g : Cfg) (s : St V) : Option (Closed Code × Closed Nat × Closed V) :=
  match pick s.stats.opFile g.opCap s.stats.nOp s.opF s.opM, pick s.stats.locFile g.locCap s.stats.nLoc s.locF s.locM,
      pick s.stats.valFile g.valCap s.stats.nVal s.valF s.valM with
  | some o, some l, some v => some (o, l, v)
  | _, _, _ => none

/-- What a sweep sees: the numbers of variables and the operations, in the order it meets them. -/
structure Seen (V : Type) where
  inds : Nat
  deps : Nat
  ops : List (Item V)
deriving DecidableEq

/-- A forward sweep: `init_sweep<Forward>` (valuetape.h:797-803), the loop, `end_sweep`
(valuetape.cpp:617-622).  With `keep` the value stack is begun (`taylor_begin`, 179-202). -/
def St.forward (dec : Decoder) (k : Codes) (g : Cfg) (fuel : Nat) (kp : Bool) (s : St V) : Option (St V × Seen V) :=
  match s.open with
  | none => none
  | some s => match s.streams g with
    | none => none
    | some (o, l, v) =>
      (sweepFD dec k.eot fuel { op := prepFor 0 o, loc := prepFor statSpace l, val := prepFor 0 v }).map fun is =>
        ({ s with keep := s.keep || kp }, ⟨s.stats.inds, s.stats.deps, is⟩)

/-- A reverse sweep: `init_sweep<Reverse>` (valuetape.h:807-808), the loop, `end_sweep`. -/
def St.reverse (dec : Decoder) (k : Codes) (g : Cfg) (fuel : Nat) (s : St V) : Option (St V × Seen V) :=
  match s.open with
  | none => none
  | some s => match s.streams g with
    | none => none
    | some (o, l, v) =>
      (sweepRevD dec k.sot s.stats.nPar fuel { op := prepRev o, loc := prepRev l, val := prepRev v }).map fun is =>
        (s, ⟨s.stats.inds, s.stats.deps, is⟩)

/-- What a program does with a tape id. -/
inductive Use (V : Type) where
  | trace (t : Tr V)
  | forward (keep : Bool)
  | reverse

/-- The decoders of the forward and the reverse sweeps. -/
structure Decoders where
  fwd : Decoder
  rev : Decoder

/-- A sequence of uses of one tape id; the results of its sweeps. -/
def St.uses (d : Decoders) (k : Codes) (g : Cfg) (fuel : Nat) : List (Use V) → St V → Option (List (Seen V))
  | [], _ => some []
  | .trace t :: us, s => match s.trace k g t with
    | none => none
    | some s => s.uses d k g fuel us
  | .forward kp :: us, s => match s.forward d.fwd k g fuel kp with
    | none => none
    | some (s, o) => (s.uses d k g fuel us).map (o :: ·)
  | .reverse :: us, s => match s.reverse d.rev k g fuel with
    | none => none
    | some (s, o) => (s.uses d k g fuel us).map (o :: ·)

/-! ## Lemmas about the decoding sweeps -/

theorem nexts_drop {α : Type} : ∀ (n : Nat) (r : Rd α) (xs : List α) (r' : Rd α), r.nexts n = some (xs, r') →
    ∃ rest, r.buf.drop r.pos = xs ++ rest
  | 0, r, xs, r', h => by simp only [Rd.nexts, Option.some.injEq, Prod.mk.injEq] at h; exact ⟨_, by rw [← h.1]; rfl⟩
  | n + 1, r, xs, r', h => by
    rw [Rd.nexts] at h
    cases hn : r.next with
    | none => rw [hn] at h; cases h
    | some p =>
      obtain ⟨v, r1⟩ := p
      rw [hn] at h; simp only at h
      cases h2 : r1.nexts n with
      | none => rw [h2] at h; cases h
      | some p2 =>
        obtain ⟨vs, r2⟩ := p2
        rw [h2] at h; simp only [Option.some.injEq, Prod.mk.injEq] at h
        obtain ⟨rest, hr⟩ := nexts_drop n r1 vs r2 h2
        unfold Rd.next at hn
        split at hn
        · cases hn
        · rename_i v' hv
          injection hn with hn; injection hn with e1 e2
          subst e1; subst e2
          refine ⟨rest, ?_⟩
          obtain ⟨hl, hv⟩ := List.getElem?_eq_some_iff.1 hv
          rw [← h.1, List.drop_eq_getElem_cons hl, hv, List.cons_append, ← hr]

theorem prevs_take {α : Type} : ∀ (n : Nat) (r : Rd α) (xs : List α) (r' : Rd α), r.prevs n = some (xs, r') →
    ∃ rest, (r.buf.take r.pos).reverse = xs.reverse ++ rest
  | 0, r, xs, r', h => by simp only [Rd.prevs, Option.some.injEq, Prod.mk.injEq] at h; exact ⟨_, by rw [← h.1]; rfl⟩
  | n + 1, r, xs, r', h => by
    rw [Rd.prevs] at h
    cases hn : r.prev with
    | none => rw [hn] at h; cases h
    | some p =>
      obtain ⟨v, r1⟩ := p
      rw [hn] at h; simp only at h
      cases h2 : r1.prevs n with
      | none => rw [h2] at h; cases h
      | some p2 =>
        obtain ⟨vs, r2⟩ := p2
        rw [h2] at h; simp only [Option.some.injEq, Prod.mk.injEq] at h
        obtain ⟨rest, hr⟩ := prevs_take n r1 vs r2 h2
        unfold Rd.prev at hn
        split at hn
        · cases hn
        rename_i hp
        split at hn
        · cases hn
        · rename_i v' hv
          injection hn with hn; injection hn with e1 e2
          subst e1; subst e2
          refine ⟨rest, ?_⟩
          obtain ⟨hl, hv⟩ := List.getElem?_eq_some_iff.1 hv
          have e : r.pos = (r.pos - 1) + 1 := by omega
          rw [← h.1, List.reverse_append, List.append_assoc, ← hr, e, List.take_succ_eq_append_getElem hl, hv]
          simp

/-- A decoder finds the shape of an item written on the tape. -/
def DecF (dec : Decoder) (it : Item V) : Prop := ∀ rest, dec it.code (it.locs ++ rest) = shape it
def DecR (dec : Decoder) (it : Item V) : Prop := ∀ rest, dec it.code (it.locs.reverse ++ rest) = shape it

theorem stepFD_of {dec : Decoder} {it : Item V} (hd : DecF dec it) {r : R V} {x : R V × Option (Item V)}
    (h : stepF (shape it).1 (shape it).2 r = some x) (hx : ∀ i, x.2 = some i → i = it) : stepFD dec r = some x := by
  unfold stepFD
  cases hn : r.op.next with
  | none => simp [stepF, hn] at h
  | some p =>
    obtain ⟨c, o⟩ := p
    cases c with
    | endOp => simp only [stepF, hn] at h ⊢; exact h
    | endInt => simp only [stepF, hn] at h ⊢; exact h
    | endVal => simp only [stepF, hn] at h ⊢; exact h
    | op c =>
      simp only
      have key : dec c (r.loc.buf.drop r.loc.pos) = shape it := by
        simp only [stepF, hn] at h
        split at h
        · rename_i a b ls l vs v h1 h2
          injection h with h
          have := hx _ (by rw [← h])
          obtain ⟨rest, hr⟩ := nexts_drop _ _ _ _ h1
          rw [hr]
          have hd := hd rest
          rw [← this] at hd; rw [← this]; exact hd
        · cases h
      rw [key]; exact h

theorem stepRD_of {dec : Decoder} {it : Item V} (hd : DecR dec it) {r : R V} {x : R V × Option (Item V)}
    (h : stepR (shape it).1 (shape it).2 r = some x) (hx : ∀ i, x.2 = some i → i = it) : stepRD dec r = some x := by
  unfold stepRD
  cases hn : r.op.prev with
  | none => simp [stepR, hn] at h
  | some p =>
    obtain ⟨c, o⟩ := p
    cases c with
    | endOp => simp only [stepR, hn] at h ⊢; exact h
    | endInt => simp only [stepR, hn] at h ⊢; exact h
    | endVal => simp only [stepR, hn] at h ⊢; exact h
    | op c =>
      simp only
      have key : dec c (r.loc.buf.take r.loc.pos).reverse = shape it := by
        simp only [stepR, hn] at h
        split at h
        · rename_i a b ls l vs v h1 h2
          injection h with h
          have := hx _ (by rw [← h])
          obtain ⟨rest, hr⟩ := prevs_take _ _ _ _ h1
          rw [hr]
          have hd := hd rest
          rw [← this] at hd; rw [← this]; exact hd
        · cases h
      rw [key]; exact h

theorem sweepFD_of (dec : Decoder) (eot : Nat) : ∀ (fuel : Nat) (is : List (Item V)) (r : R V),
    (∀ it ∈ is, it.code ≠ eot ∧ DecF dec it) → DecF dec (⟨eot, [], []⟩ : Item V) →
    sweepF fuel (is.map shape ++ [(0, 0)]) r = some (is ++ [⟨eot, [], []⟩]) →
    sweepFD dec eot fuel r = some (is ++ [⟨eot, [], []⟩])
  | 0, is, r, hi, he, h => by cases is <;> simp [sweepF] at h
  | fuel + 1, [], r, hi, he, h => by
    simp only [List.map_nil, List.nil_append, sweepF] at h
    rw [sweepFD]
    cases hs : stepF 0 0 r with
    | none => rw [hs] at h; cases h
    | some x =>
      obtain ⟨r1, o⟩ := x
      rw [hs] at h
      cases o with
      | none =>
        simp only at h
        rw [stepFD_of he hs (by simp)]
        exact sweepFD_of dec eot fuel [] r1 hi he h
      | some it =>
        simp only [sweepF, Option.map_some, Option.some.injEq] at h
        injection h with h _
        subst h
        rw [stepFD_of he hs (by simp)]
        simp
  | fuel + 1, j :: is, r, hi, he, h => by
    simp only [List.map_cons, List.cons_append, sweepF] at h
    rw [sweepFD]
    have hj := hi j (by simp)
    cases hs : stepF (shape j).1 (shape j).2 r with
    | none => rw [hs] at h; cases h
    | some x =>
      obtain ⟨r1, o⟩ := x
      rw [hs] at h
      cases o with
      | none =>
        simp only at h
        rw [stepFD_of hj.2 hs (by simp)]
        exact sweepFD_of dec eot fuel (j :: is) r1 hi he h
      | some it =>
        simp only at h
        cases h2 : sweepF fuel (is.map shape ++ [(0, 0)]) r1 with
        | none => rw [h2] at h; cases h
        | some ys =>
          rw [h2] at h
          simp only [Option.map_some, Option.some.injEq, List.cons.injEq] at h
          obtain ⟨e1, e2⟩ := h
          subst e1
          rw [stepFD_of hj.2 hs (by simp)]
          simp only [if_neg hj.1]
          rw [sweepFD_of dec eot fuel is r1 (fun x hx => hi x (by simp [hx])) he (by rw [h2, e2])]
          simp

theorem sweepRD_of (dec : Decoder) (sot : Nat) : ∀ (fuel : Nat) (is : List (Item V)) (r : R V),
    (∀ it ∈ is, it.code ≠ sot ∧ DecR dec it) → DecR dec (⟨sot, [], []⟩ : Item V) →
    sweepR fuel (is.map shape ++ [(0, 0)]) r = some (is ++ [⟨sot, [], []⟩]) →
    sweepRD dec sot fuel r = some (is ++ [⟨sot, [], []⟩])
  | 0, is, r, hi, he, h => by cases is <;> simp [sweepR] at h
  | fuel + 1, [], r, hi, he, h => by
    simp only [List.map_nil, List.nil_append, sweepR] at h
    rw [sweepRD]
    cases hs : stepR 0 0 r with
    | none => rw [hs] at h; cases h
    | some x =>
      obtain ⟨r1, o⟩ := x
      rw [hs] at h
      cases o with
      | none =>
        simp only at h
        rw [stepRD_of he hs (by simp)]
        exact sweepRD_of dec sot fuel [] r1 hi he h
      | some it =>
        simp only [sweepR, Option.map_some, Option.some.injEq] at h
        injection h with h _
        subst h
        rw [stepRD_of he hs (by simp)]
        simp
  | fuel + 1, j :: is, r, hi, he, h => by
    simp only [List.map_cons, List.cons_append, sweepR] at h
    rw [sweepRD]
    have hj := hi j (by simp)
    cases hs : stepR (shape j).1 (shape j).2 r with
    | none => rw [hs] at h; cases h
    | some x =>
      obtain ⟨r1, o⟩ := x
      rw [hs] at h
      cases o with
      | none =>
        simp only at h
        rw [stepRD_of hj.2 hs (by simp)]
        exact sweepRD_of dec sot fuel (j :: is) r1 hi he h
      | some it =>
        simp only at h
        cases h2 : sweepR fuel (is.map shape ++ [(0, 0)]) r1 with
        | none => rw [h2] at h; cases h
        | some ys =>
          rw [h2] at h
          simp only [Option.map_some, Option.some.injEq, List.cons.injEq] at h
          obtain ⟨e1, e2⟩ := h
          subst e1
          rw [stepRD_of hj.2 hs (by simp)]
          simp only [if_neg hj.1]
          rw [sweepRD_of dec sot fuel is r1 (fun x hx => hi x (by simp [hx])) he (by rw [h2, e2])]
          simp

theorem sweepRevD_of (dec : Decoder) (sot eot np fuel : Nat) (is : List (Item V)) (r : R V)
    (hi : ∀ it ∈ is, it.code ≠ sot ∧ DecR dec it) (hs : DecR dec (⟨sot, [], []⟩ : Item V))
    (he : DecR dec (⟨eot, [], []⟩ : Item V))
    (h : sweepRev np fuel (is.map shape ++ [(0, 0)]) r = some (⟨eot, [], []⟩ :: is ++ [⟨sot, [], []⟩])) :
    sweepRevD dec sot np fuel r = some (⟨eot, [], []⟩ :: is ++ [⟨sot, [], []⟩]) := by
  unfold sweepRev at h
  unfold sweepRevD
  cases h1 : stepR 0 0 r with
  | none => rw [h1] at h; cases h
  | some x =>
    obtain ⟨r1, o⟩ := x
    rw [h1] at h
    cases o with
    | none => cases h
    | some it =>
      simp only at h
      cases h2 : discardParams (np + 2) np r1.val with
      | none => rw [h2] at h; cases h
      | some v =>
        rw [h2] at h
        simp only at h
        cases h3 : sweepR fuel (is.map shape ++ [(0, 0)]) { r1 with val := v } with
        | none => rw [h3] at h; cases h
        | some ys =>
          rw [h3] at h
          simp only [Option.map_some, Option.some.injEq, List.cons_append, List.cons.injEq] at h
          obtain ⟨e1, e2⟩ := h
          subst e1
          rw [stepRD_of he h1 (by simp)]
          simp only [h2]
          rw [sweepRD_of dec sot fuel is _ hi hs (by rw [h3, e2])]
          simp

end Verif.IO
