import Verif.Ext.Obj

/-! # Proofs about external function objects -/
set_option linter.all false
namespace Verif.ExtObj

def regOf (s : St) (t : Nat) (k : Kind) : Option (List Rec) := (s.tapes t).map (·.reg k)
def opsOf (s : St) (t : Nat) : Option (List (Kind × Nat)) := (s.tapes t).map (·.ops)

/-- Only the indices stored on the tapes differ. -/
structure Same (s s' : St) : Prop where
  objs : s'.objs = s.objs
  calls : s'.calls = s.calls
  reg : ∀ t k, regOf s' t k = regOf s t k
  ops : ∀ t, opsOf s' t = opsOf s t

theorem Same.refl (s : St) : Same s s := ⟨rfl, rfl, fun _ _ => rfl, fun _ => rfl⟩
theorem Same.trans {a b c : St} (h : Same a b) (h' : Same b c) : Same a c :=
  ⟨h'.objs.trans h.objs, h'.calls.trans h.calls, fun t k => (h'.reg t k).trans (h.reg t k), fun t => (h'.ops t).trans (h.ops t)⟩

theorem Same.cur {s : St} {t : Nat} {T : Tape} (h : s.tapes t = some T) (i : Nat) :
    Same s { s with tapes := put s.tapes t { T with cur := i } } := by
  refine ⟨rfl, rfl, fun t' k => ?_, fun t' => ?_⟩
  · simp only [regOf, put]
    by_cases he : t' = t
    · rw [if_pos he, he, h]; rfl
    · rw [if_neg he]
  · simp only [opsOf, put]
    by_cases he : t' = t
    · rw [if_pos he, he, h]; rfl
    · rw [if_neg he]

/-- The record of an object. -/
def recOf (o : Obj) : Rec :=
  if o.kind = .iArr then ⟨0, 0, o.idx, o.id, slots o.kind⟩ else ⟨o.tid, o.ext, o.idx, o.id, slots o.kind⟩

structure Inv (s : St) : Prop where
  rcd : ∀ o ∈ s.objs, ∃ L, regOf s o.tid o.kind = some L ∧ L[o.idx]? = some (recOf o)
  num : ∀ (n : Nat) (o : Obj), s.objs[n]? = some o → o.id = n
  sub : ∀ o ∈ s.calls, o ∈ s.objs
  ops : (∀ o ∈ s.calls, o.kind ≠ .iArr) → ∀ t l, opsOf s t = some l → l = (s.calls.filter (·.tid = t)).map fun o => (o.kind, o.idx)

theorem Inv.same {s s' : St} (h : Inv s) (hs : Same s s') : Inv s' := by
  refine ⟨?_, ?_, ?_, ?_⟩
  · intro o ho; rw [hs.objs] at ho; rw [hs.reg]; exact h.rcd o ho
  · intro n o ho; rw [hs.objs] at ho; exact h.num n o ho
  · intro o ho; rw [hs.calls] at ho; rw [hs.objs]; exact h.sub o ho
  · intro hc t l hl; rw [hs.calls] at hc ⊢; rw [hs.ops] at hl; exact h.ops hc t l hl

theorem Inv.new : Inv St.new :=
  ⟨fun o ho => by simp [St.new] at ho, fun n o ho => by simp [St.new] at ho, fun o ho => by simp [St.new] at ho,
   fun _ t l hl => by simp [opsOf, St.new] at hl⟩

/-! ## Sweeps -/

theorem replay_same (s : St) (t : Nat) (m : Mode) (op : Kind × Nat) : Same s (replay s t m op).1 := by
  unfold replay
  cases h : s.tapes t with
  | none => exact Same.refl s
  | some T =>
    simp only
    cases (T.reg op.1)[op.2]? with
    | none => exact Same.cur h _
    | some r => exact Same.cur h _

theorem replays_same (t : Nat) (m : Mode) (ops : List (Kind × Nat)) (s : St) : Same s (replays s t m ops).1 := by
  induction ops generalizing s with
  | nil => exact Same.refl s
  | cons op ops ih =>
    have h1 := replay_same s t m op
    unfold replays
    rcases hr : replay s t m op with ⟨s', e | h⟩
    · rw [hr] at h1; exact h1
    · rw [hr] at h1; exact h1.trans (ih s')

theorem sweep_same (s : St) (t : Nat) (m : Mode) : Same s (sweep s t m).1 := by
  unfold sweep
  cases s.tapes t with
  | none => exact Same.refl s
  | some T => exact replays_same _ _ _ _

theorem slots_own (k : Kind) (m : Mode) (hk : k ≠ .iArr ∨ m ≠ .fn) : slots k k m = some ⟨k, m⟩ := by
  cases k <;> cases m <;> simp [slots] at hk ⊢

/-- One replayed call of an object of tape `t`. -/
theorem replay_hit {s : St} (h : Inv s) {o : Obj} (ho : o ∈ s.objs) (hk : o.kind ≠ .iArr) (m : Mode) :
    ∃ s', replay s o.tid m (o.kind, o.idx) = (s', .ok ⟨o.id, o.kind, m⟩) := by
  obtain ⟨L, hL, hr⟩ := h.rcd o ho
  unfold regOf at hL
  cases hT : s.tapes o.tid with
  | none => rw [hT] at hL; cases hL
  | some T =>
    rw [hT] at hL
    have hL' : T.reg o.kind = L := by simpa using hL
    refine ⟨{ s with tapes := put s.tapes o.tid { T with cur := o.idx } }, ?_⟩
    · simp only [replay, hT, hL', hr]
      have hreg : ({ T with cur := o.idx } : Tape).reg o.kind = L := hL'
      have hrec : recOf o = ⟨o.tid, o.ext, o.idx, o.id, slots o.kind⟩ := if_neg hk
      simp only [through, hrec, slots_own o.kind m (Or.inl hk), invoke, put, if_pos, hreg, hr]

theorem replays_hits (t : Nat) (m : Mode) (os : List Obj) (s : St) (h : Inv s)
    (ho : ∀ o ∈ os, o ∈ s.objs ∧ o.kind ≠ .iArr ∧ o.tid = t) :
    (replays s t m (os.map fun o => (o.kind, o.idx))).2 = (os.map fun o => ⟨o.id, o.kind, m⟩, none) := by
  induction os generalizing s with
  | nil => rfl
  | cons o os ih =>
    obtain ⟨h1, h2, h3⟩ := ho o (by simp)
    obtain ⟨s', hs'⟩ := replay_hit h h1 h2 m
    rw [h3] at hs'
    have hsame := replay_same s t m (o.kind, o.idx)
    rw [hs'] at hsame
    have hi := ih s' (h.same hsame) fun o' ho' => by
      have := ho o' (by simp [ho'])
      have e : s'.objs = s.objs := hsame.objs
      rw [e]; exact this
    simp only [List.map_cons, replays, hs', hi]

/-! ## Histories -/

theorem put_self (f : Nat → Option Tape) (i : Nat) (T : Tape) : put f i T i = some T := if_pos rfl
theorem put_ne (f : Nat → Option Tape) {i j : Nat} (T : Tape) (h : j ≠ i) : put f i T j = f j := if_neg h

/-- The state after a call has reached `function`. -/
theorem call_cases {s : St} (h : Inv s) {o : Obj} (ho : o ∈ s.objs) :
    ((call s o).1 = s ∧ o.kind = .iArr) ∨
    ∃ T, s.tapes (recOf o).tape = some T ∧
      call s o = ({ s with tapes := put s.tapes (recOf o).tape { T with cur := o.idx, ops := T.ops ++ [(o.kind, o.idx)] }, calls := s.calls ++ [o] },
        through { s with tapes := put s.tapes (recOf o).tape { T with cur := o.idx, ops := T.ops ++ [(o.kind, o.idx)] }, calls := s.calls ++ [o] }
          ((recOf o).slot o.kind .fn) (recOf o).ext) := by
  obtain ⟨L, hL, hr⟩ := h.rcd o ho
  unfold regOf at hL
  cases hT : s.tapes o.tid with
  | none => rw [hT] at hL; cases hL
  | some T =>
    rw [hT] at hL
    have hL' : T.reg o.kind = L := by simpa using hL
    have he : edf s o = some (recOf o) := by simp only [edf, hT, hL', hr]
    have hidx : (recOf o).index = o.idx := by unfold recOf; split <;> rfl
    cases hT' : s.tapes (recOf o).tape with
    | none =>
      left
      refine ⟨by simp only [call, he, hT'], ?_⟩
      by_cases hk : o.kind = .iArr
      · exact hk
      · have : (recOf o).tape = o.tid := by unfold recOf; rw [if_neg hk]
        rw [this, hT] at hT'; cases hT'
    | some T' =>
      right
      exact ⟨T', rfl, by simp only [call, he, hT', hidx]⟩

theorem Inv.call {s : St} (h : Inv s) {o : Obj} (ho : o ∈ s.objs) : Inv (call s o).1 := by
  rcases call_cases h ho with ⟨e, _⟩ | ⟨T, hT, e⟩
  · rw [e]; exact h
  rw [e]
  refine ⟨?_, h.num, ?_, ?_⟩
  · intro o' ho'
    obtain ⟨L, hL, hr⟩ := h.rcd o' ho'
    refine ⟨L, ?_, hr⟩
    simp only [regOf] at hL ⊢
    by_cases ht : o'.tid = (recOf o).tape
    · rw [ht, put_self]; rw [ht, hT] at hL; exact hL
    · rw [put_ne _ _ ht]; exact hL
  · intro o' ho'
    rcases List.mem_append.mp ho' with h' | h'
    · exact h.sub o' h'
    · rw [List.mem_singleton.mp h']; exact ho
  · intro hc t l hl
    have hk : o.kind ≠ .iArr := hc o (by simp)
    have htp : (recOf o).tape = o.tid := by unfold recOf; rw [if_neg hk]
    have hops := h.ops fun o' ho' => hc o' (by simp [ho'])
    rw [htp] at hT
    simp only [opsOf, htp] at hl
    simp only [List.filter_append, List.map_append]
    by_cases ht : t = o.tid
    · rw [ht, put_self] at hl
      have := hops o.tid T.ops (by simp only [opsOf, hT, Option.map_some])
      simp only [Option.map_some, Option.some.injEq] at hl
      rw [← hl, this, ht]
      simp
    · rw [put_ne _ _ ht] at hl
      rw [hops t l hl]
      simp [Ne.symm ht]

theorem Inv.create {s : St} (h : Inv s) (k : Kind) (outer ext : Nat) : Inv (create s k outer ext).1 := by
  unfold ExtObj.create
  cases hT : s.tapes outer with
  | none => exact h
  | some T =>
    simp only
    refine ⟨?_, ?_, ?_, ?_⟩
    · intro o ho
      rcases List.mem_append.mp ho with h' | h'
      · obtain ⟨L, hL, hr⟩ := h.rcd o h'
        simp only [regOf] at hL ⊢
        by_cases ht : o.tid = outer
        · rw [ht, hT] at hL
          rw [ht, put_self]
          have hlt : o.idx < L.length := by
            rcases Nat.lt_or_ge o.idx L.length with hlt | hge
            · exact hlt
            · rw [List.getElem?_eq_none hge] at hr; cases hr
          have hL' : T.reg o.kind = L := by simpa using hL
          simp only [Option.map_some, Option.some.injEq]
          refine ⟨_, rfl, ?_⟩
          unfold Tape.reg at hL' ⊢
          by_cases hk : k = .v2 <;> by_cases hk' : o.kind = .v2 <;>
            simp only [hk, hk', if_true, if_false] at hL' ⊢
          · rw [hL', List.getElem?_append_left hlt]; exact hr
          · rw [hL']; exact hr
          · rw [hL']; exact hr
          · rw [hL', List.getElem?_append_left hlt]; exact hr
        · rw [put_ne _ _ ht]; exact ⟨L, hL, hr⟩
      · rw [List.mem_singleton.mp h']
        simp only [regOf, put_self, Option.map_some, Option.some.injEq]
        refine ⟨_, rfl, ?_⟩
        unfold Tape.reg recOf
        by_cases hk : k = .v2
        · subst hk; simp
        · simp [hk]
    · intro n o ho
      by_cases hn : n < s.objs.length
      · rw [List.getElem?_append_left hn] at ho; exact h.num n o ho
      · rw [List.getElem?_append_right (by omega)] at ho
        have hz : n - s.objs.length = 0 := by
          rcases Nat.eq_zero_or_pos (n - s.objs.length) with h0 | h0
          · exact h0
          · rw [List.getElem?_eq_none (by simp; omega)] at ho; cases ho
        rw [hz] at ho
        simp at ho
        rw [← ho]; simp only; omega
    · intro o ho; exact List.mem_append_left _ (h.sub o ho)
    · intro hc t l hl
      refine h.ops hc t l ?_
      simp only [opsOf] at hl ⊢
      by_cases ht : t = outer
      · rw [ht, put_self] at hl
        rw [ht, hT]
        by_cases hk : k = .v2
        · simpa [hk] using hl
        · simpa [hk] using hl
      · rw [put_ne _ _ ht] at hl; exact hl

theorem Inv.tape {s : St} (h : Inv s) (id : Nat) : Inv (act s (.tape id)) := by
  simp only [act]
  cases hT : s.tapes id with
  | some T => exact h
  | none =>
    simp only
    have hne : ∀ o ∈ s.objs, o.tid ≠ id := by
      intro o ho he
      obtain ⟨L, hL, _⟩ := h.rcd o ho
      simp [regOf, he, hT] at hL
    refine ⟨?_, h.num, h.sub, ?_⟩
    · intro o ho
      obtain ⟨L, hL, hr⟩ := h.rcd o ho
      exact ⟨L, by simp only [regOf]; rw [put_ne _ _ (hne o ho)]; exact hL, hr⟩
    · intro hc t l hl
      simp only [opsOf] at hl
      by_cases ht : t = id
      · rw [ht, put_self] at hl
        simp only [Option.map_some, Option.some.injEq] at hl
        rw [← hl]
        have : s.calls.filter (·.tid = t) = [] := List.filter_eq_nil_iff.mpr fun o ho => by
          have := hne o (h.sub o ho); simp [ht, this]
        simp only [this, List.map_nil]
        rfl
      · rw [put_ne _ _ ht] at hl; exact h.ops hc t l hl

theorem Inv.run (as : List Act) : Inv (run as) := by
  suffices H : ∀ (as : List Act) (s : St), Inv s → Inv (as.foldl act s) from H as _ Inv.new
  intro as
  induction as with
  | nil => intro s h; exact h
  | cons a as ih =>
    intro s h
    refine ih _ ?_
    cases a with
    | tape id => exact h.tape id
    | new k outer ext => exact h.create k outer ext
    | call n =>
      simp only [act]
      cases ho : s.objs[n]? with
      | none => exact h
      | some o => exact h.call (List.mem_of_getElem? ho)
    | sweep t m => exact h.same (sweep_same s t m)

end Verif.ExtObj
