import Verif.AD.RecordSim

/-!
Which operations a program puts on the trace: a predicate on operations that holds for the
operations of every call of the program holds for the whole recorded trace.
-/
set_option linter.all false
namespace Verif.Sparse
open Verif.AD Elem

variable {K : Type} [Scalar K]

/-- `P` holds for the operations the call can put on the trace, whatever the locations and values
(objects at the same location are the same object). -/
def emits (P : Base K → Prop) : Stmt K → Prop
  | .new _ => ∀ r, P (.assignD0 r)
  | .newD _ c | .setD _ c => ∀ r, P (opAssignD r c)
  | .copy _ _ | .setA _ _ => ∀ a r, a ≠ r → P (.assignA a r)
  | .move _ _ | .moveA _ _ | .del _ => True
  | .setP _ p => ∀ r, P (.assignP p r)
  | .accD f _ c => ∀ r, P (f.opD r c)
  | .accA f _ _ => ∀ a r, P (f.opA a r)
  | .accR m _ _ => ∀ a b r, a ≠ r → P ((if m then Acc.minus else Acc.plus).opA a r) ∧
      (b ≠ r → P (if m then Base.eqMinProd a b r else .eqPlusProd a b r))
  | .incr _ => ∀ r, P (.incrA r)
  | .decr _ => ∀ r, P (.decrA r)
  | .indep _ => ∀ r, P (.assignInd r)
  | .dep _ => ∀ r, P (.assignDep r)
  | .un f a d => ∀ v la r, (r = la ↔ d = a) → P (f.op v la r)
  | .bin f _ a b d => ∀ v w la lb ld, (ld = la ↔ d = a) → (ld = lb ↔ d = b) → P (f.op v w la lb ld)
  | .trig co _ _ _ => ∀ a b r, a ≠ b → b ≠ r → P (if co then .cosOp a b r else .sinOp a b r)
  | .quad q _ _ _ => ∀ a b r, b ≠ r → P (.quad q a b r)
  | .cond r c a b => ∀ v lr lc la lb, (lr = la ↔ r = a) → (lr = lb ↔ r = b) → P (.condAssign lc la lb lr v)
  | .condEq r c a b => ∀ v lr lc la lb, (lr = la ↔ r = a) → (lr = lb ↔ r = b) → P (.condEqAssign lc la lb lr v)
  | .condS _ _ _ => ∀ v lr lc la, P (.condAssignS lc la lr v)
  | .condEqS _ _ _ => ∀ v lr lc la, P (.condEqAssignS lc la lr v)

theorem emits_step {cfg : RCfg K} (hal : ∀ k L, cfg.alloc k L ∉ L) {P : Base K → Prop} {st : Stmt K}
    (he : emits P st) {s s' : Rec K}
    (ok : s.Ok) (h0 : ∀ o ∈ s.tr, P o) (h : st.record cfg s = some s') : ∀ o ∈ s'.tr, P o := by
  have one : ∀ o, P o → ∀ o' ∈ o :: s.tr, P o' := by
    intro o ho o' h'
    rcases List.mem_cons.1 h' with rfl | h'
    · exact ho
    · exact h0 _ h'
  have inj := ok.inj
  cases st
  all_goals simp only [Stmt.record] at h
  all_goals simp only [emits] at he
  case new d => split at h <;> cases h; exact one _ (he _)
  case newD d c => split at h <;> cases h; exact one _ (he _)
  case copy d a =>
    split at h
    · simp only [Option.map_eq_some_iff] at h
      obtain ⟨la, ha, rfl⟩ := h
      refine one _ (he _ _ ?_)
      intro hh
      exact hal s.cnt s.live (by have := ok.live a la ha; rw [hh] at this; exact this)
    · cases h
  case move d a =>
    split at h
    · simp only [Option.map_eq_some_iff] at h
      obtain ⟨la, ha, rfl⟩ := h
      exact h0
    · cases h
  case moveA a b =>
    split at h
    · simp only [Option.bind_eq_some_iff, Option.map_eq_some_iff] at h
      obtain ⟨la, ha, lb, hb, rfl⟩ := h
      exact h0
    · cases h
  case del a =>
    simp only [Option.map_eq_some_iff] at h
    obtain ⟨la, ha, rfl⟩ := h
    exact h0
  case setA a b =>
    simp only [Option.bind_eq_some_iff, Option.map_eq_some_iff] at h
    obtain ⟨la, ha, lb, hb, rfl⟩ := h
    split
    · rename_i hne
      exact one _ (he _ _ (Ne.symm hne))
    · exact h0
  case accR m a t =>
    split at h
    · rename_i hat
      simp only [Option.bind_eq_some_iff, Option.map_eq_some_iff] at h
      obtain ⟨la, ha, lt, ht, rfl⟩ := h
      have hne : lt ≠ la := fun hh => hat (inj a t la ha (hh ▸ ht))
      have plain : ∀ o ∈ ((s.rec1 cfg ((if m then Acc.minus else Acc.plus).opA lt la) la
          (if m then s.V la - s.V lt else s.V la + s.V lt)).free t lt).tr, P o := by
        exact one _ (he lt lt la hne).1
      split
      · rename_i p q r tr' htr
        split
        · rename_i hc
          have key : ∀ o ∈ (if m then Base.eqMinProd p q la else .eqPlusProd p q la) :: tr', P o := by
            intro o ho
            rcases List.mem_cons.1 ho with rfl | ho
            · exact (he p q la (Ne.symm hc.2.2.2)).2 (Ne.symm hc.2.2.1)
            · exact h0 _ (by rw [htr]; exact List.mem_cons_of_mem _ ho)
          cases cfg.keep
          · exact key
          · simp only [if_true]
            split <;> exact key
        · exact plain
      · exact plain
    · cases h
  case trig co a b d =>
    split at h
    · rename_i hne
      simp only [Option.bind_eq_some_iff, Option.map_eq_some_iff] at h
      obtain ⟨ld, hd, lb, hb, la, ha, rfl⟩ := h
      exact one _ (he la lb ld (fun h => hne.1 (inj a b la ha (h ▸ hb))) (fun h => hne.2 (inj b d lb hb (h ▸ hd))))
    · cases h
  case quad q a b d =>
    split at h
    · rename_i hne
      simp only [Option.bind_eq_some_iff, Option.map_eq_some_iff] at h
      obtain ⟨ld, hd, lb, hb, la, ha, rfl⟩ := h
      exact one _ (he la lb ld (fun h => hne (inj b d lb hb (h ▸ hd))))
    · cases h
  case bin f lv a b d =>
    simp only [Option.bind_eq_some_iff, Option.map_eq_some_iff] at h
    obtain ⟨ld, hd, la, ha, lb, hb, rfl⟩ := h
    exact one _ (he _ _ la lb ld ⟨fun h => inj d a ld hd (h ▸ ha), fun h => by subst h; rw [hd] at ha; exact Option.some.inj ha⟩
      ⟨fun h => inj d b ld hd (h ▸ hb), fun h => by subst h; rw [hd] at hb; exact Option.some.inj hb⟩)
  case cond r c a b =>
    simp only [Option.bind_eq_some_iff, Option.map_eq_some_iff] at h
    obtain ⟨lr, hr, lc, hc, la, ha, lb, hb, rfl⟩ := h
    exact one _ (he _ lr lc la lb ⟨fun h => inj r a lr hr (h ▸ ha), fun h => by subst h; rw [hr] at ha; exact Option.some.inj ha⟩
      ⟨fun h => inj r b lr hr (h ▸ hb), fun h => by subst h; rw [hr] at hb; exact Option.some.inj hb⟩)
  case condEq r c a b =>
    simp only [Option.bind_eq_some_iff, Option.map_eq_some_iff] at h
    obtain ⟨lr, hr, lc, hc, la, ha, lb, hb, rfl⟩ := h
    exact one _ (he _ lr lc la lb ⟨fun h => inj r a lr hr (h ▸ ha), fun h => by subst h; rw [hr] at ha; exact Option.some.inj ha⟩
      ⟨fun h => inj r b lr hr (h ▸ hb), fun h => by subst h; rw [hr] at hb; exact Option.some.inj hb⟩)
  all_goals
    simp only [Option.bind_eq_some_iff, Option.map_eq_some_iff] at h
  case condS r c a => obtain ⟨lr, hr, lc, hc, la, ha, rfl⟩ := h; exact one _ (he _ _ _ _)
  case condEqS r c a => obtain ⟨lr, hr, lc, hc, la, ha, rfl⟩ := h; exact one _ (he _ _ _ _)
  case accA f a b => obtain ⟨la, ha, lb, hb, rfl⟩ := h; exact one _ (he _ _)
  case un f a d =>
    obtain ⟨ld, hd, la, ha, rfl⟩ := h
    exact one _ (he _ la ld ⟨fun h => inj d a ld hd (h ▸ ha), fun h => by subst h; rw [hd] at ha; exact Option.some.inj ha⟩)
  all_goals
    obtain ⟨la, ha, rfl⟩ := h
    exact one _ (he _)

/-- Every call of the program satisfies `Q`. -/
def allStmts (Q : Stmt K → Prop) : Prog K → Prop
  | .done => True
  | .stmt s k => Q s ∧ allStmts Q k
  | .branch _ _ t f => allStmts Q t ∧ allStmts Q f

theorem emits_run {cfg : RCfg K} (hal : ∀ k L, cfg.alloc k L ∉ L) {P : Base K → Prop}
    (hcmp : ∀ c a, P (.cmp c a)) (p : Prog K) (he : allStmts (emits P) p) {s s' : Rec K}
    (ok : s.Ok) (h0 : ∀ o ∈ s.tr, P o) (h : p.record cfg s = some s') : ∀ o ∈ s'.tr, P o := by
  induction p generalizing s with
  | done => cases h; exact h0
  | stmt st k ih =>
    simp only [Prog.record, Option.bind_eq_some_iff] at h
    obtain ⟨s1, h1, h2⟩ := h
    exact ih he.2 (record_ok hal ok h1) (emits_step hal he.1 ok h0 h1) h2
  | branch q a t f iht ihf =>
    simp only [Prog.record, Option.bind_eq_some_iff] at h
    obtain ⟨la, ha, h⟩ := h
    have h1 : ∀ o ∈ (s.put (.cmp (q.recorded (q.holds (s.V la))) la)).tr, P o := by
      intro o ho
      rcases List.mem_cons.1 ho with rfl | ho
      · exact hcmp _ _
      · exact h0 _ ho
    have ok1 : (s.put (.cmp (q.recorded (q.holds (s.V la))) la)).Ok := ⟨ok.inj, ok.live, ok.hw⟩
    split at h
    · exact iht he.1 ok1 h1 h
    · exact ihf he.2 ok1 h1 h

theorem emits_tape {cfg : RCfg K} (hal : ∀ k L, cfg.alloc k L ∉ L) {P : Base K → Prop}
    {stock : List (Nat × List K)}
    (hcmp : ∀ c a, P (.cmp c a)) (hst : ∀ q ∈ stock, P (.takeStock q.1 q.2)) (hd : ∀ a b, P (.deathNot a b))
    (p : Prog K) (he : allStmts (emits P) p) {s s' : Rec K}
    (hs : s.Start stock) (h : p.record cfg s = some s') (N : Nat) : ∀ o ∈ s'.tape N, P o := by
  have h0 : ∀ o ∈ s.tr, P o := by
    intro o ho
    rw [hs.tr, List.mem_reverse, List.mem_map] at ho
    obtain ⟨q, hq, rfl⟩ := ho
    exact hst _ hq
  intro o ho
  simp only [Rec.tape, List.mem_append, List.mem_reverse, List.mem_singleton] at ho
  rcases ho with ho | rfl
  · exact emits_run hal hcmp p he hs.ok h0 h o ho
  · exact hd _ _

end Verif.Sparse
