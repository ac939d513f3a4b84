import Verif.IO.TapeHist
import Verif.IO.Params

/-!
Property theorems about the tape streams: C05, C06, C31.

Vocabulary.  `record k g stock cs ps` is the writer between `trace_on` and `trace_off` with buffer
sizes `g`: it saves the values `stock` of the existing variables, then performs the operators'
calls `cs`, then appends the parameters `ps`; `none` would be an access outside a buffer.
The specification of the calls is `specCall`: a list of operations to which `put` appends.
A sweep is told the shape (numbers of locations and values) of each operation, as the cases of the
sweeps' `switch` know it from the opcode.
-/
set_option linter.all false
namespace Verif.Props.IO
open Verif.IO

variable {V : Type} [Zero V] [DecidableEq V]

/-- C05.  Whatever the buffer sizes, the initial values, the operations, the parameters (at most a
buffer full), whether or not the tape is forced to disk (`flag`) and whatever statistics are
written over its beginning: recording stays within the buffers, and a forward sweep meets
`start_of_tape`, blocks `js` covering the initial values in order, exactly the recorded operations
with exactly their locations and values, and `end_of_tape`. -/
theorem C05_forward_readback (k : Codes) {g : Cfg} (hc : CfgOk g) (stock : List V) (cs : List (Call V))
    (hcs : ∀ c ∈ cs, CallOk k g c) (ps : List V) (hp : ps.length ≤ g.valCap) (hk : k.eot ≠ k.mult)
    (flag : Bool) (stats : List Nat) (hst : stats.length ≤ statSpace) :
    ∃ w js, record k g stock cs ps = some w ∧ IsStock k.stock 0 js ∧ js.flatMap (·.vals) = stock ∧
      ∃ n, ∀ fuel, n ≤ fuel →
        sweepF fuel ((0, 0) :: (cs.foldl (specCall k) js).map shape ++ [(0, 0)]) (openFor flag stats w)
          = some (⟨k.sot, [], []⟩ :: cs.foldl (specCall k) js ++ [⟨k.eot, [], []⟩]) :=
  forward_readback k hc stock cs hcs ps hp hk flag stats hst

/-- C06 (full statement: for all parameter vectors).  A reverse sweep meets the same operations in
the opposite order.  Proved for traces whose parameters fit behind the other values in the last
value buffer; without that it is false, see `C06_params_witness`. -/
theorem C06_reverse_readback_partial (k : Codes) {g : Cfg} (hc : CfgOk g) (stock : List V)
    (cs : List (Call V)) (hcs : ∀ c ∈ cs, CallOk k g c) (ps : List V) (hp : ps.length ≤ g.valCap)
    (hfit : ∀ wn, record k g stock cs ([] : List V) = some wn → wn.val.buf.length + ps.length < g.valCap)
    (hk : k.eot ≠ k.mult) (flag : Bool) (stats : List Nat) (hst : stats.length ≤ statSpace) :
    ∃ w js, record k g stock cs ps = some w ∧ IsStock k.stock 0 js ∧ js.flatMap (·.vals) = stock ∧
      ∃ n, ∀ fuel, n ≤ fuel →
        sweepRev ps.length fuel (((cs.foldl (specCall k) js).map shape).reverse ++ [(0, 0)]) (openRev flag stats w)
          = some (⟨k.eot, [], []⟩ :: (cs.foldl (specCall k) js).reverse ++ [⟨k.sot, [], []⟩]) :=
  reverse_readback k hc stock cs hcs ps hk hp hfit flag stats hst

/-- C06 for traces without parameters: no restriction. -/
theorem C06_reverse_readback_no_params (k : Codes) {g : Cfg} (hc : CfgOk g) (stock : List V)
    (cs : List (Call V)) (hcs : ∀ c ∈ cs, CallOk k g c) 
    (hk : k.eot ≠ k.mult) (flag : Bool) (stats : List Nat) (hst : stats.length ≤ statSpace) :
    ∃ w js, record k g stock cs ([] : List V) = some w ∧ IsStock k.stock 0 js ∧ js.flatMap (·.vals) = stock ∧
      ∃ n, ∀ fuel, n ≤ fuel →
        sweepRev 0 fuel (((cs.foldl (specCall k) js).map shape).reverse ++ [(0, 0)]) (openRev flag stats w)
          = some (⟨k.eot, [], []⟩ :: (cs.foldl (specCall k) js).reverse ++ [⟨k.sot, [], []⟩]) := by
  refine reverse_readback k hc stock cs hcs [] hk (by simp) ?_ flag stats hst
  intro wn hwn
  obtain ⟨w, w1, js, v, a1, a2, a3, a4, a5, a6, a7, a8, a9⟩ := record_spec k hc stock cs hcs [] (by simp) hk
  rw [a9] at hwn; injection hwn with hwn; subst hwn
  have := (Mics.snoc a4 a5).caps.2.2
  simp only [w0] at this
  simp; omega

/-! Concrete instances. -/

def codes : Codes := ⟨3, 2, 4, 1, by decide, by decide⟩

/-- Two operations with values, the second a product retargeted by `incProd`. -/
def calls : List (Call Int) :=
  [.put 0 ⟨7, [5, 6], [10]⟩, .put 0 ⟨1, [5, 6, 9], []⟩, .incProd 9 8 11, .put 0 ⟨7, [8, 6], [20]⟩]

def cfg : Cfg := ⟨3, 43, 30⟩

example : CfgOk cfg ∧ (∀ c ∈ calls, CallOk codes cfg c) ∧
    calls.foldl (specCall codes) [] = [⟨7, [5, 6], [10]⟩, ⟨11, [5, 6, 8], []⟩, ⟨7, [8, 6], [20]⟩] := by
  refine ⟨⟨by decide, by decide, by decide⟩, ?_, rfl⟩
  intro c hc
  simp only [calls, List.mem_cons, List.not_mem_nil, or_false] at hc
  rcases hc with rfl | rfl | rfl | rfl <;> simp [CallOk, codes, cfg]

/-- C06 fails when the parameters extend over more than one value buffer: a trace with one constant
and 30 parameters (buffer of 30 values, forced to disk); the reverse sweep sees the value of a
parameter instead of the constant 10. -/
theorem C06_params_witness :
    ([.put 0 ⟨7, [5], [10]⟩] : List (Call Nat)).foldl (specCall codes) [] = [⟨7, [5], [10]⟩] ∧
    (record codes cfg [] [.put 0 ⟨7, [5], [10]⟩] ((List.range 30).map (100 + ·))).bind
        (fun w => sweepRev 30 100 [(1, 1), (0, 0)] (openRev true [] w))
      = some [⟨2, [], []⟩, ⟨7, [5], [129]⟩, ⟨3, [], []⟩] := by
  decide +kernel

/-! C31 -/

/-- Every `set_param_vec` comes after an evaluation with `keep`. -/
def SetsAfterKeep : List (PUse V) → Prop
  | [] => True
  | .set _ :: _ => False
  | .eval true :: _ => True
  | .eval false :: us => SetsAfterKeep us

/-- C31 (full statement: for all sequences of uses, and any number of parameters).  Proved for at
most a value buffer full of parameters, and, for traces whose three streams are all on disk and
that were not recorded with `keep`, for uses that set parameters only after an evaluation with
`keep`; otherwise see the witnesses below.  Every evaluation uses the values set last,
initially those recorded. -/
theorem C31_parameters_partial (flag allDisk keep : Bool) (ps : List V) (v : Strm V) (hc : 1 ≤ v.cap)
    (hb : v.buf.length ≤ v.cap) (hp : ps.length ≤ v.cap) (us : List (PUse V))
    (hlen : ∀ qs, PUse.set qs ∈ us → qs.length = ps.length)
    (hs : keep = true ∨ allDisk = false ∨ SetsAfterKeep us) :
    ∃ t, closeParams flag allDisk keep ps v = some t ∧ t.uses us = some (specUses us ps) := by
  obtain ⟨v', d1, d2, d3, d4, d5, d6, d7⟩ := saveParams_spec ps v hc hb hp
  refine ⟨_, by rw [closeParams, d1]; rfl, ?_⟩
  have key : ∀ (us : List (PUse V)) (cur : List V) (t : PTape V), PInv ps cur t →
      (∀ qs, PUse.set qs ∈ us → qs.length = ps.length) →
      (t.keep = true ∨ t.allDisk = false ∨ (SetsAfterKeep us ∧ cur = ps)) → t.uses us = some (specUses us cur) := by
    intro us
    induction us with
    | nil => intros; rfl
    | cons u us ih =>
      intro cur t hi hl hk
      by_cases hkd : t.keep = true ∨ t.allDisk = false
      · have ho := hi.open_keep hkd
        cases u with
        | set qs =>
          have hq := hl qs (by simp)
          simp only [PTape.uses, PTape.use, ho]
          rw [if_neg (by rw [hi.np, hq]; simp)]
          have := ih qs { t with pstore := qs } ⟨hi.cap, hi.np, hi.len, hi.tail, rfl⟩
            (fun q hq => hl q (by simp [hq])) (by tauto)
          simp [this, specUses]
        | eval kp =>
          simp only [PTape.uses, PTape.use, ho, Option.map_some]
          have := ih cur { t with keep := t.keep || kp } ⟨hi.cap, hi.np, hi.len, hi.tail, hi.cur⟩
            (fun q hq => hl q (by simp [hq])) (by rcases hkd with h | h <;> simp [h])
          have hcur := hi.cur; rw [hcur] at this; simp only [this, Option.map_some, specUses, hcur, Option.toList_some, List.singleton_append]
      · simp only [not_or, Bool.not_eq_true, Bool.not_eq_false] at hkd
        rcases hk with h | h | ⟨h, rfl⟩
        · simp [hkd.1] at h
        · simp [hkd.2] at h
        cases u with
        | set qs => exact h.elim
        | eval kp =>
          obtain ⟨t', o1, o2, o3, o4⟩ := hi.open_disk hkd.1 hkd.2
          simp only [ite_self] at o2
          simp only [PTape.uses, PTape.use, o1, Option.map_some]
          have := ih cur { t' with keep := t'.keep || kp } ⟨o2.cap, o2.np, o2.len, o2.tail, o2.cur⟩
            (fun q hq => hl q (by simp [hq])) (by cases kp <;> simp_all [SetsAfterKeep])
          have hcur := o2.cur; rw [hcur] at this; simp only [this, Option.map_some, specUses, hcur, Option.toList_some, List.singleton_append]
  refine key us ps _ ⟨by simpa [Strm.close, d2] using hc, rfl, ?_, ?_, rfl⟩ hlen (by tauto)
  · simp only [Strm.close, d4, List.length_append]; omega
  · simp only [Strm.close, d4, List.length_append]
    rw [show v.file.length + v.buf.length + ps.length - ps.length = (v.file ++ v.buf).length by simp, List.drop_left]

/-- A trace on disk with three value blocks, evaluated twice, then with overridden parameters. -/
example : let us : List (PUse Int) := [.eval false, .eval true, .set [7, 8, 9, 10], .eval false]
    SetsAfterKeep us ∧ (∀ qs, PUse.set qs ∈ us → qs.length = 4) ∧
      specUses us [1, 2, 3, 4] = [[1, 2, 3, 4], [1, 2, 3, 4], [7, 8, 9, 10]] := by
  refine ⟨trivial, ?_, rfl⟩
  intro qs h; simp at h; subst h; rfl

/-- C31 fails for a trace on disk that has not been evaluated with `keep`: the overridden
parameters are replaced by the recorded ones at the next evaluation. -/
theorem C31_override_lost_witness :
    ∃ t, closeParams true true false [1] ({ cap := 5 } : Strm Int) = some t ∧
      t.uses [.set [2], .eval false] = some [[1]] ∧ specUses [.set [2], .eval false] [(1 : Int)] = [[2]] :=
  ⟨_, rfl, rfl, rfl⟩

/-- C31 fails for more parameters than the value buffer holds: `save_params` writes beyond the
buffer, whatever the values. -/
theorem C31_too_many_params (ps : List V) (s : Strm V) (h : s.cap < ps.length) : saveParams ps s = none := by
  rw [saveParams, if_pos (.inl h)]
  have : ∀ (ps : List V) (s : Strm V), s.cap < s.buf.length + ps.length → s.buf.length ≤ s.cap → s.writes ps = none := by
    intro ps
    induction ps with
    | nil => intro s h1 h2; simp at h1; omega
    | cons p ps ih =>
      intro s h1 h2
      simp only [Strm.writes, Strm.write]
      split
      · rfl
      · rename_i s' hs
        split at hs
        · injection hs with hs; subst hs
          exact ih _ (by simp at h1 ⊢; omega) (by simp; omega)
        · cases hs
  by_cases hb : s.buf.length ≤ s.cap
  · exact this ps s (by omega) hb
  · cases ps with
    | nil => simp at h
    | cons p ps => simp [Strm.writes, Strm.write, show ¬ s.buf.length < s.cap by omega]

end Verif.Props.IO
