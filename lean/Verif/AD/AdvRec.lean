import Verif.AD.Advector
import Verif.AD.RecordWf

/-! Recording with another trace before it; the ghost recorder. -/
set_option linter.all false
namespace Verif.AD
open Elem

variable {K : Type} [Scalar K]

/-- Two traces look the same to `upd_resloc_inc_prod`. -/
def SameTop (t1 t2 : List (Base K)) : Prop :=
  ∀ p q r, (∃ t, t1 = .multAA p q r :: t) ↔ (∃ t, t2 = .multAA p q r :: t)

/-- A call looks at the trace only through its last operation. -/
inductive Swap (cfg : RCfg K) (st : Stmt K) (s : Rec K) (t1 : List (Base K)) (s1 : Rec K) : Prop where
  | add (o : Base K) (h : s1.tr = o :: t1)
      (sw : ∀ t2 f, SameTop t1 t2 → f t2.length = cfg.fuse t1.length →
        st.record { cfg with fuse := f } { s with tr := t2 } = some { s1 with tr := o :: t2 })
  | same (h : s1.tr = t1)
      (sw : ∀ t2 f, SameTop t1 t2 → f t2.length = cfg.fuse t1.length →
        st.record { cfg with fuse := f } { s with tr := t2 } = some { s1 with tr := t2 })
  | repl (p q r : Nat) (t : List (Base K)) (o : Base K) (h1 : t1 = .multAA p q r :: t) (h : s1.tr = o :: t)
      (sw : ∀ t2 f, f (t2.length + 1) = cfg.fuse (t.length + 1) →
        st.record { cfg with fuse := f } { s with tr := .multAA p q r :: t2 } = some { s1 with tr := o :: t2 })

set_option maxHeartbeats 1000000 in
theorem record_swap {cfg : RCfg K} {st : Stmt K} {s s1 : Rec K} {t1 : List (Base K)}
    (h : st.record cfg { s with tr := t1 } = some s1) : Swap cfg st s t1 s1 := by
  cases st
  case accR m a t =>
    simp only [Stmt.record] at h
    split at h
    · rename_i hat
      simp only [Option.bind_eq_some_iff, Option.map_eq_some_iff] at h
      obtain ⟨la, ha, lt, ht, h⟩ := h
      cases t1 with
      | nil =>
        simp only at h
        subst h
        refine .add _ rfl fun t2 f h1 h2 => ?_
        simp only [Stmt.record, if_pos hat, ha, ht, Option.bind_some, Option.map_some]
        cases t2 with
        | nil => rfl
        | cons o t2 =>
          cases o
          case multAA p q r => exact absurd ((h1 p q r).2 ⟨_, rfl⟩) (by simp)
          all_goals rfl
      | cons o t1 =>
        by_cases hm : ∃ p q r, o = .multAA p q r
        · obtain ⟨p, q, r, rfl⟩ := hm
          by_cases hf : cfg.fuse (t1.length + 1) = true ∧ lt = r ∧ la ≠ q ∧ la ≠ p
          · simp only [List.length_cons] at h
            rw [if_pos hf] at h
            subst h
            refine .repl p q r t1 (if m then Base.eqMinProd p q la else .eqPlusProd p q la) rfl ?_ fun t2 f h2 => ?_
            · cases cfg.keep
              · rfl
              · cases s.stk <;> simp [Rec.val, Rec.free]
            · simp only [Stmt.record, if_pos hat, ha, ht, Option.bind_some, Option.map_some, List.length_cons, h2]
              rw [if_pos hf]
              cases cfg.keep
              · rfl
              · cases s.stk <;> simp [Rec.val, Rec.free]
          · simp only [List.length_cons] at h
            rw [if_neg hf] at h
            subst h
            refine .add _ rfl fun t2 f h1 h2 => ?_
            obtain ⟨t2', rfl⟩ := (h1 p q r).1 ⟨_, rfl⟩
            simp only [List.length_cons] at h2
            simp only [Stmt.record, if_pos hat, ha, ht, Option.bind_some, Option.map_some, List.length_cons, h2]
            rw [if_neg hf]
            rfl
        · have h' : some ((({ s with tr := o :: t1 } : Rec K).rec1 cfg ((if m then Acc.minus else Acc.plus).opA lt la) la
              (if m then s.V la - s.V lt else s.V la + s.V lt)).free t lt) = some s1 := by
            rw [← h]
            cases o
            case multAA p q r => exact absurd ⟨p, q, r, rfl⟩ hm
            all_goals rfl
          cases h'
          refine .add _ rfl fun t2 f h1 h2 => ?_
          simp only [Stmt.record, if_pos hat, ha, ht, Option.bind_some, Option.map_some]
          cases t2 with
          | nil => rfl
          | cons o2 t2 =>
            cases o2
            case multAA p q r =>
              obtain ⟨t, ht⟩ := (h1 p q r).2 ⟨_, rfl⟩
              exact absurd ⟨p, q, r, by injection ht⟩ hm
            all_goals rfl
    · cases h
  case setA a b =>
    simp only [Stmt.record, Option.bind_eq_some_iff, Option.map_eq_some_iff] at h
    obtain ⟨la, ha, lb, hb, h⟩ := h
    by_cases hl : la ≠ lb
    · rw [if_pos hl] at h
      subst h
      refine .add _ rfl fun t2 f h1 h2 => ?_
      simp only [Stmt.record, ha, hb, Option.bind_some, Option.map_some, if_pos hl]; rfl
    · rw [if_neg hl] at h
      subst h
      refine .same rfl fun t2 f h1 h2 => ?_
      simp only [Stmt.record, ha, hb, Option.bind_some, Option.map_some, if_neg hl]
  all_goals simp only [Stmt.record] at h
  all_goals try (split at h; swap; (· cases h); rename_i hcond)
  all_goals try simp only [Option.bind_eq_some_iff, Option.map_eq_some_iff] at h
  all_goals first
    | (cases h
       refine .add _ rfl fun t2 f h1 h2 => ?_
       simp only [Stmt.record, if_pos hcond]; rfl)
    | (obtain ⟨la, ha, rfl⟩ := h
       first
        | (refine .add _ rfl fun t2 f h1 h2 => ?_
           first
             | (simp only [Stmt.record, ha, if_pos hcond, Option.map_some]; rfl)
             | (simp only [Stmt.record, ha, Option.map_some]; rfl))
        | (refine .same rfl fun t2 f h1 h2 => ?_
           first
             | (simp only [Stmt.record, ha, if_pos hcond, Option.map_some]; done)
             | (simp only [Stmt.record, ha, if_pos hcond, Option.map_some]; rfl)
             | (simp only [Stmt.record, ha, Option.map_some]; rfl)))
    | (obtain ⟨la, ha, lb, hb, rfl⟩ := h
       first
        | (refine .add _ rfl fun t2 f h1 h2 => ?_
           first
             | (simp only [Stmt.record, ha, hb, if_pos hcond, Option.bind_some, Option.map_some]; rfl)
             | (simp only [Stmt.record, ha, hb, Option.bind_some, Option.map_some]; rfl))
        | (refine .same rfl fun t2 f h1 h2 => ?_
           first
             | (simp only [Stmt.record, ha, hb, if_pos hcond, Option.bind_some, Option.map_some]; done)
             | (simp only [Stmt.record, ha, hb, if_pos hcond, Option.bind_some, Option.map_some]; rfl)))
    | (obtain ⟨la, ha, lb, hb, lc, hc, rfl⟩ := h
       refine .add _ rfl fun t2 f h1 h2 => ?_
       first
         | (simp only [Stmt.record, ha, hb, hc, if_pos hcond, Option.bind_some, Option.map_some]; rfl)
         | (simp only [Stmt.record, ha, hb, hc, Option.bind_some, Option.map_some]; rfl))
    | (obtain ⟨la, ha, lb, hb, lc, hc, ld, hd, rfl⟩ := h
       refine .add _ rfl fun t2 f h1 h2 => ?_
       simp only [Stmt.record, ha, hb, hc, hd, Option.bind_some, Option.map_some]; rfl)

/-- A call keeps the locations of the objects it does not destroy or move. -/
theorem record_env {cfg : RCfg K} {st : Stmt K} {s s' : Rec K} (h : st.record cfg s = some s') {a l : Nat}
    (ha : s.env a = some l) (hr : a ∉ st.relocs) : s'.env a = some l := by
  have hn : ∀ d, (s.env d).isNone = true → a ≠ d := by
    rintro d hd rfl; rw [ha] at hd; cases hd
  cases st
  case accR m b t =>
    simp only [Stmt.relocs, List.mem_singleton] at hr
    simp only [Stmt.record] at h
    split at h
    · simp only [Option.bind_eq_some_iff, Option.map_eq_some_iff] at h
      obtain ⟨la, hla, lt, hlt, h⟩ := h
      split at h
      · split at h
        · cases hk : cfg.keep
          · simp only [hk, Rec.val] at h
            rw [← h]; simp [Rec.free, upd_apply, hr, ha]
          · simp only [hk, Rec.val, if_true] at h
            cases hst : s.stk with
            | nil => simp only [hst] at h; rw [← h]; simp [Rec.free, upd_apply, hr, ha]
            | cons y st => simp only [hst] at h; rw [← h]; simp [Rec.free, upd_apply, hr, ha]
        · rw [← h]; simp [Rec.free, Rec.rec1, Rec.val, Rec.keepT, Rec.put, upd_apply, hr, ha]
      · rw [← h]; simp [Rec.free, Rec.rec1, Rec.val, Rec.keepT, Rec.put, upd_apply, hr, ha]
    · cases h
  all_goals simp only [Stmt.relocs, List.mem_singleton, List.mem_cons, List.not_mem_nil, or_false, not_or] at hr
  all_goals simp only [Stmt.record] at h
  all_goals try (split at h; swap; (· cases h); rename_i hcond)
  all_goals try simp only [Option.bind_eq_some_iff, Option.map_eq_some_iff] at h
  all_goals first
    | (cases h
       have := hn _ hcond
       simp [Rec.take, Rec.rec1, Rec.val, Rec.keepT, Rec.put, upd_apply, this, ha]; done)
    | (obtain ⟨la, hla, rfl⟩ := h
       first
         | (simp [Rec.take, Rec.free, Rec.rec1, Rec.val, Rec.keepT, Rec.put, upd_apply, hn _ hcond, ha, hr]; done)
         | (simp [Rec.take, Rec.free, Rec.rec1, Rec.val, Rec.keepT, Rec.put, upd_apply, ha, hr]; done))
    | (obtain ⟨la, hla, lb, hlb, h⟩ := h
       split at h <;> subst h <;> simp [Rec.rec1, Rec.val, Rec.keepT, Rec.put, ha]; done)
    | (obtain ⟨la, hla, lb, hlb, rfl⟩ := h
       simp [Rec.free, Rec.rec1, Rec.val, Rec.keepT, Rec.put, upd_apply, ha, hr]; done)
    | (obtain ⟨la, hla, lb, hlb, lc, hlc, rfl⟩ := h
       simp [Rec.rec1, Rec.val, Rec.keepT, Rec.put, ha]; done)
    | (obtain ⟨la, hla, lb, hlb, lc, hlc, ld, hld, rfl⟩ := h
       simp [Rec.rec1, Rec.val, Rec.keepT, Rec.put, ha]; done)

end Verif.AD
