import Verif.Ext.ObjProofs

/-!
# C69: external function objects

`call` of an object invokes the object's own `function`; a sweep over the trace invokes the derivative methods of the objects that were called while
taping, in this order (in the opposite order for a reverse sweep).
-/
set_option linter.all false
namespace Verif.Props.ExtObj
open Verif.ExtObj

/-- Objects are numbered in the order of their construction. -/
theorem C69_numbers (as : List Act) (n : Nat) (o : Obj) (h : (run as).objs[n]? = some o) : o.id = n := (Inv.run as).num n o h

/-- A constructor on an existing tape adds an object with the class and the tapes given. -/
theorem C69_new (s : St) (k : Kind) (outer ext : Nat) {T : Tape} (h : s.tapes outer = some T) :
    ∃ o, (act s (.new k outer ext)).objs = s.objs ++ [o] ∧ o.kind = k ∧ o.tid = outer ∧ o.ext = ext := by
  simp only [act, create, h]
  exact ⟨_, rfl, rfl, rfl, rfl⟩

/-- The calls on tape `t`, in the order of the sweep: the object's method. -/
def wanted (s : St) (t : Nat) (m : Mode) : List Hit :=
  let hs := (s.calls.filter fun o => o.tid = t).map fun o => ⟨o.id, o.kind, m⟩
  if m = .fosR ∨ m = .fovR then hs.reverse else hs

/-- C69 (partial: not for objects of class `EDFobject_iArr`, see `C69_iArr_call`).  After every history a sweep over a tape invokes exactly the methods
of the objects called on this tape, whichever tapes they were constructed with, and raises no error. -/
theorem C69_sweep_partial (as : List Act) (t : Nat) (m : Mode) {T : Tape} (ht : (run as).tapes t = some T)
    (hno : ∀ o ∈ (run as).calls, o.kind ≠ .iArr) :
    (sweep (run as) t m).2 = (wanted (run as) t m, none) := by
  have h := Inv.run as
  have hops := h.ops hno t T.ops (by simp only [opsOf, ht, Option.map_some])
  have hin : ∀ o ∈ (run as).calls.filter (·.tid = t), o ∈ (run as).objs ∧ o.kind ≠ .iArr ∧ o.tid = t := by
    intro o ho
    obtain ⟨h1, h2⟩ := List.mem_filter.mp ho
    exact ⟨h.sub o h1, hno o h1, by simpa using h2⟩
  simp only [sweep, ht]
  unfold wanted
  by_cases hm : m = .fosR ∨ m = .fovR
  · rw [if_pos hm, hops, ← List.map_reverse, replays_hits t m _ _ h fun o ho => hin o (by simpa using ho)]
    simp only [if_pos hm, List.map_reverse]
  · rw [if_neg hm, hops, replays_hits t m _ _ h hin]
    simp only [if_neg hm]

/-- C69 (partial: if the object's two tapes are the same, see `C69_call_other_tape`; not for `EDFobject_iArr`).  `call` invokes the object's own `function`
and is recorded as a call of this object. -/
theorem C69_call_partial (as : List Act) (o : Obj) (ho : o ∈ (run as).objs) (hk : o.kind ≠ .iArr) (he : o.ext = o.tid) :
    (call (run as) o).2 = .ok ⟨o.id, o.kind, .fn⟩ ∧ (call (run as) o).1.calls = (run as).calls ++ [o] := by
  have h := Inv.run as
  obtain ⟨L, hL, hr⟩ := h.rcd o ho
  have hrec : recOf o = ⟨o.tid, o.ext, o.idx, o.id, slots o.kind⟩ := if_neg hk
  rcases call_cases h ho with ⟨_, hi⟩ | ⟨T, hT, e⟩
  · exact absurd hi hk
  · rw [hrec] at hT e
    rw [e]
    refine ⟨?_, rfl⟩
    rw [regOf, hT] at hL
    have hL' : T.reg o.kind = L := by simpa using hL
    have hreg : (⟨o.idx, T.v1, T.v2, T.ops ++ [(o.kind, o.idx)]⟩ : Tape).reg o.kind = L := hL'
    simp only [through, slots_own o.kind .fn (Or.inl hk), invoke, he, put_self, hreg, hr, hrec]

/-- The full statement fails for two different tapes: `call` invokes the object whose record has, on the tape of the external function, the index that is
stored there, whatever object is called. -/
theorem C69_call_other_tape (as : List Act) (o : Obj) (ho : o ∈ (run as).objs) (hk : o.kind ≠ .iArr) (he : o.ext ≠ o.tid) :
    (call (run as) o).2 = match (run as).tapes o.ext with
      | none => .error .noTape
      | some T => match (T.reg o.kind)[T.cur]? with
        | none => .error .noRecord
        | some r => .ok ⟨r.obj, o.kind, .fn⟩ := by
  have h := Inv.run as
  have hrec : recOf o = ⟨o.tid, o.ext, o.idx, o.id, slots o.kind⟩ := if_neg hk
  rcases call_cases h ho with ⟨_, hi⟩ | ⟨T, hT, e⟩
  · exact absurd hi hk
  · rw [hrec] at hT e
    rw [e]
    simp only [through, slots_own o.kind .fn (Or.inl hk), invoke, put_ne _ _ he]
    cases (run as).tapes o.ext with
    | none => rfl
    | some T' =>
      simp only
      cases (T'.reg o.kind)[T'.cur]? with
      | none => rfl
      | some r => rfl

/-- The full statement fails for every object of class `EDFobject_iArr`: `call` never reaches its `function`. -/
theorem C69_iArr_call (as : List Act) (o : Obj) (ho : o ∈ (run as).objs) (hk : o.kind = .iArr) : ∃ e, (call (run as) o).2 = .error e := by
  have h := Inv.run as
  obtain ⟨L, hL, hr⟩ := h.rcd o ho
  have hrec : recOf o = ⟨0, 0, o.idx, o.id, slots o.kind⟩ := if_pos hk
  cases hT : (run as).tapes o.tid with
  | none => rw [regOf, hT] at hL; cases hL
  | some T =>
    rw [regOf, hT] at hL
    have hL' : T.reg o.kind = L := by simpa using hL
    have hedf : edf (run as) o = some (recOf o) := by simp only [edf, hT, hL', hr]
    cases h0 : (run as).tapes 0 with
    | none => exact ⟨.noTape, by simp only [call, hedf, hrec, h0]⟩
    | some T0 => exact ⟨.nullFunction, by simp only [call, hedf, hrec, h0, hk, slots, through]⟩

/-! ## The hypotheses are met -/

/-- Tapes 1 and 2, three objects, four calls. -/
def demo : List Act :=
  [.tape 1, .tape 2, .new .plain 1 1, .new .v2 1 1, .new .plain 1 2, .new .plain 2 2, .call 0, .call 1, .call 3, .call 0]

example : ∃ T, (run demo).tapes 1 = some T := ⟨_, rfl⟩
example : ∀ o ∈ (run demo).calls, o.kind ≠ .iArr := by decide
example : (sweep (run demo) 1 .fosF).2 = ([⟨0, .plain, .fosF⟩, ⟨1, .v2, .fosF⟩, ⟨0, .plain, .fosF⟩], none) :=
  C69_sweep_partial demo 1 .fosF rfl (by decide)
example : (sweep (run demo) 1 .fosR).2 = ([⟨0, .plain, .fosR⟩, ⟨1, .v2, .fosR⟩, ⟨0, .plain, .fosR⟩], none) :=
  C69_sweep_partial demo 1 .fosR rfl (by decide)
example : (call (run demo) ⟨1, .v2, 1, 1, 0⟩).2 = .ok ⟨1, .v2, .fn⟩ := (C69_call_partial demo ⟨1, .v2, 1, 1, 0⟩ (by
  show _ ∈ [(⟨0, .plain, 1, 1, 0⟩ : Obj), ⟨1, .v2, 1, 1, 0⟩, ⟨2, .plain, 1, 2, 1⟩, ⟨3, .plain, 2, 2, 0⟩]; simp) (by decide) rfl).1
/-- Object 2 was constructed with tapes 1 and 2: `call` invokes `function` of object 3. -/
theorem C69_wrong_object : (call (run demo) ⟨2, .plain, 1, 2, 1⟩).2 = .ok ⟨3, .plain, .fn⟩ := by
  rw [C69_call_other_tape demo ⟨2, .plain, 1, 2, 1⟩ (by
    show _ ∈ [(⟨0, .plain, 1, 1, 0⟩ : Obj), ⟨1, .v2, 1, 1, 0⟩, ⟨2, .plain, 1, 2, 1⟩, ⟨3, .plain, 2, 2, 0⟩]; simp) (by decide) (by decide)]
  rfl
/-- An object of class `EDFobject_iArr`. -/
example : ∃ e, (call (run [.tape 0, .new .iArr 0 0]) ⟨0, .iArr, 0, 0, 0⟩).2 = .error e :=
  C69_iArr_call [.tape 0, .new .iArr 0 0] ⟨0, .iArr, 0, 0, 0⟩ (by show _ ∈ [(⟨0, .iArr, 0, 0, 0⟩ : Obj)]; simp) rfl

end Verif.Props.ExtObj
