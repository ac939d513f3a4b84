import Verif.AD.RecordTotal
import Verif.AD.RecordFull

/-! The return code at the recording point: the branch flags on the trace are the right ones. -/
set_option linter.all false
namespace Verif.AD
open Elem

variable {K : Type} [Scalar K] {T0 : Nat → K}

/-- `T` agrees with the recorder's store on the live locations. -/
def LiveEq (s : Rec K) (T : Nat → K) : Prop := ∀ a l, s.env a = some l → T l = s.V l

/-- What a statement adds to the trace never has degree 2 at the recording point. -/
inductive Adds (s s' : Rec K) : Prop where
  | none (h : s'.tr = s.tr)
  | one (o : Base K) (h : s'.tr = o :: s.tr) (d : ∀ T, LiveEq s T → o.degree T ≠ 2)
  | fused (m o : Base K) (t : List (Base K)) (h0 : s.tr = m :: t) (h : s'.tr = o :: t) (dm : ∀ T, m.degree T = 3)
      (d : ∀ T, o.degree T = 3)

theorem fabs_degree (hf : ∀ v : K, fabs v = v ↔ 0 ≤ v) {T : Nat → K} {a r : Nat} {v : K} (h : T a = v) :
    (Base.absVal a r (if fabs v ≠ v then 0 else 1) : Base K).degree T ≠ 2 := by
  simp only [Base.degree, h]
  have : (fabs v ≠ v) ↔ v < 0 := by rw [ne_eq, hf, not_le]
  by_cases h0 : v < 0
  · simp [this.2 h0, h0]
  · simp [not_not.1 (fun h => h0 (this.1 h)), h0]

theorem min_degree {T : Nat → K} {a b r : Nat} {v w : K} (ha : T a = v) (hb : T b = w) :
    (Base.minOp a b r (if w < v then 0 else 1) : Base K).degree T ≠ 2 := by
  simp only [Base.degree, ha, hb]
  split
  · split <;> simp
  · by_cases h : w < v <;> simp [h]

theorem opAssignD_degree (r : Nat) (c : K) (T : Nat → K) : (opAssignD r c).degree T ≠ 2 := by
  unfold opAssignD
  split
  · simp [Base.degree]
  · split <;> simp [Base.degree]

theorem adds_step (hf : ∀ v : K, fabs v = v ↔ 0 ≤ v) {cfg : RCfg K} {st : Stmt K} {s s' : Rec K}
    (h : st.record cfg s = some s') : Adds s s' := by
  cases st
  all_goals simp only [Stmt.record] at h
  case new d =>
    split at h
    · cases h; exact .one _ rfl fun T _ => by simp [Base.degree]
    · cases h
  case newD d k =>
    split at h
    · cases h; exact .one _ rfl fun T _ => opAssignD_degree _ _ _
    · cases h
  case copy d a =>
    split at h
    · simp only [Option.map_eq_some_iff] at h
      obtain ⟨la, ha, rfl⟩ := h
      exact .one _ rfl fun T _ => by simp [Base.degree]
    · cases h
  case move d a =>
    split at h
    · simp only [Option.map_eq_some_iff] at h
      obtain ⟨la, ha, rfl⟩ := h
      exact .none rfl
    · cases h
  case moveA a b =>
    split at h
    · simp only [Option.bind_eq_some_iff, Option.map_eq_some_iff] at h
      obtain ⟨la, ha, lb, hb, rfl⟩ := h
      exact .none rfl
    · cases h
  case del a =>
    simp only [Option.map_eq_some_iff] at h
    obtain ⟨la, ha, rfl⟩ := h
    exact .none rfl
  case setD a k =>
    simp only [Option.map_eq_some_iff] at h
    obtain ⟨la, ha, rfl⟩ := h
    exact .one _ rfl fun T _ => opAssignD_degree _ _ _
  case setA a b =>
    simp only [Option.bind_eq_some_iff, Option.map_eq_some_iff] at h
    obtain ⟨la, ha, lb, hb, rfl⟩ := h
    split
    · exact .one _ rfl fun T _ => by simp [Base.degree]
    · exact .none rfl
  case setP a k =>
    simp only [Option.map_eq_some_iff] at h
    obtain ⟨la, ha, rfl⟩ := h
    exact .one _ rfl fun T _ => by simp [Base.degree]
  case accD f a k =>
    simp only [Option.map_eq_some_iff] at h
    obtain ⟨la, ha, rfl⟩ := h
    exact .one _ rfl fun T _ => by cases f <;> simp [Acc.opD, Base.degree]
  case accA f a b =>
    simp only [Option.bind_eq_some_iff, Option.map_eq_some_iff] at h
    obtain ⟨la, ha, lb, hb, rfl⟩ := h
    exact .one _ rfl fun T _ => by cases f <;> simp [Acc.opA, Base.degree]
  case accR m a t =>
    split at h
    · simp only [Option.bind_eq_some_iff, Option.map_eq_some_iff] at h
      obtain ⟨la, ha, lt, ht, rfl⟩ := h
      have plain : Adds s ((s.rec1 cfg ((if m then Acc.minus else Acc.plus).opA lt la) la
          (if m then s.V la - s.V lt else s.V la + s.V lt)).free t lt) :=
        .one _ rfl fun T _ => by cases m <;> simp [Acc.opA, Base.degree]
      split
      · rename_i p q r tr' htr
        split
        · refine .fused _ (if m then Base.eqMinProd p q la else .eqPlusProd p q la) tr' htr ?_ (fun T => rfl) (fun T => ?_)
          · cases cfg.keep
            · rfl
            · simp only [if_true, Rec.val, Rec.free]
              split <;> rfl
          · cases m <;> rfl
        · exact plain
      · exact plain
    · cases h
  case incr a =>
    simp only [Option.map_eq_some_iff] at h
    obtain ⟨la, ha, rfl⟩ := h
    exact .one _ rfl fun T _ => by simp [Base.degree]
  case decr a =>
    simp only [Option.map_eq_some_iff] at h
    obtain ⟨la, ha, rfl⟩ := h
    exact .one _ rfl fun T _ => by simp [Base.degree]
  case indep a =>
    simp only [Option.map_eq_some_iff] at h
    obtain ⟨la, ha, rfl⟩ := h
    exact .one _ rfl fun T _ => by simp [Base.degree]
  case dep a =>
    simp only [Option.map_eq_some_iff] at h
    obtain ⟨la, ha, rfl⟩ := h
    exact .one _ rfl fun T _ => by simp [Base.degree]
  case un f a d =>
    simp only [Option.bind_eq_some_iff, Option.map_eq_some_iff] at h
    obtain ⟨ld, hd, la, ha, rfl⟩ := h
    refine .one _ rfl fun T hT => ?_
    have e := hT a la ha
    cases f <;> simp only [Un.op]
    case fabs => exact fabs_degree hf e
    all_goals
      try simp only [opPlusD, opMinD, opMultD]
      repeat' split
      all_goals simp [Base.degree, e]
  case bin f lv a b d =>
    simp only [Option.bind_eq_some_iff, Option.map_eq_some_iff] at h
    obtain ⟨ld, hd, la, ha, lb, hb, rfl⟩ := h
    refine .one _ rfl fun T hT => ?_
    cases f <;> simp only [Bin.op]
    case fmin => exact min_degree (hT a la ha) (hT b lb hb)
    all_goals simp [Base.degree]
  case trig co a b d =>
    split at h
    · simp only [Option.bind_eq_some_iff, Option.map_eq_some_iff] at h
      obtain ⟨ld, hd, lb, hb, la, ha, rfl⟩ := h
      exact .one (if co then .cosOp la lb ld else .sinOp la lb ld) rfl fun T _ => by cases co <;> simp [Base.degree]
    · cases h
  case quad q a b d =>
    split at h
    · simp only [Option.bind_eq_some_iff, Option.map_eq_some_iff] at h
      obtain ⟨ld, hd, lb, hb, la, ha, rfl⟩ := h
      exact .one _ rfl fun T _ => by simp [Base.degree]
    · cases h
  case cond r k a b =>
    simp only [Option.bind_eq_some_iff, Option.map_eq_some_iff] at h
    obtain ⟨lr, hr, lc, hc, la, ha, lb, hb, rfl⟩ := h
    refine .one _ rfl fun T hT => ?_
    simp only [Base.degree, hT k lc hc]
    split <;> simp
  case condS r k a =>
    simp only [Option.bind_eq_some_iff, Option.map_eq_some_iff] at h
    obtain ⟨lr, hr, lc, hc, la, ha, rfl⟩ := h
    refine .one _ rfl fun T hT => ?_
    simp only [Base.degree, hT k lc hc]
    split
    · simp
    · split
      · rename_i h; exact absurd h.1 (not_lt.2 h.2)
      · simp
  case condEq r k a b =>
    simp only [Option.bind_eq_some_iff, Option.map_eq_some_iff] at h
    obtain ⟨lr, hr, lc, hc, la, ha, lb, hb, rfl⟩ := h
    refine .one _ rfl fun T hT => ?_
    simp [Base.degree, hT k lc hc]
  case condEqS r k a =>
    simp only [Option.bind_eq_some_iff, Option.map_eq_some_iff] at h
    obtain ⟨lr, hr, lc, hc, la, ha, rfl⟩ := h
    refine .one _ rfl fun T hT => ?_
    simp only [Base.degree, hT k lc hc]
    split
    · rename_i h; exact absurd h.1 (not_le.2 h.2)
    · simp

/-- Return codes between 0 and 3 that are not 2. -/
def RcOk (n : Int) : Prop := 0 ≤ n ∧ n ≤ 3 ∧ n ≠ 2

theorem RcOk.step {c : Cfg K} {o : Base K} {z z' : ZS K} (h : zosStep c o z = .ok z') (hr : RcOk z.rc)
    (hd : o.degree z.T ≠ 2) : RcOk z'.rc := by
  have := rc_step h hr.1 hr.2.1
  have := degree_le o z.T
  obtain ⟨h1, h2, h3⟩ := hr
  unfold RcOk
  omega

theorem Swept.unique {c : Cfg K} {s : Rec K} {z z' : ZS K} (h : Swept T0 c s z) (h' : Swept T0 c s z') : z = z' := by
  unfold Swept SweptFrom at h h'
  rw [h] at h'
  exact Except.ok.inj h'

theorem adds_rc {c : Cfg K} {s s' : Rec K} {z z' : ZS K} (ha : Adds s s') (hz : Swept T0 c s z) (hz' : Swept T0 c s' z')
    (hl : LiveEq s z.T) (hr : RcOk z.rc) (hall : ∀ z0 tr m, s.tr = m :: tr → zosRun c tr.reverse (ZS.start T0) = .ok z0 →
      0 ≤ z0.rc ∧ z0.rc ≤ 3) : RcOk z'.rc := by
  cases ha with
  | none h =>
    have : Swept T0 c s' z := by unfold Swept SweptFrom at hz ⊢; rw [h]; exact hz
    rw [← this.unique hz']; exact hr
  | one o h d =>
    obtain ⟨z0, h1, h2⟩ := hz'.pred h
    have : z0 = z := by
      unfold Swept SweptFrom at hz
      rw [hz] at h1
      exact (Except.ok.inj h1).symm
    subst this
    exact hr.step h2 (d _ hl)
  | fused m o t h0 h dm d =>
    obtain ⟨z0, h1, h2⟩ := hz'.pred h
    obtain ⟨z1, h3, h4⟩ := hz.pred h0
    rw [h1] at h3
    obtain rfl := Except.ok.inj h3
    obtain ⟨g1, g2⟩ := hall z0 t m h0 h1
    have e1 := rc_step h4 g1 g2
    have e2 := rc_step h2 g1 g2
    rw [dm] at e1
    rw [d] at e2
    rw [e2, ← e1]; exact hr

theorem rc_range {c : Cfg K} {ops : List (Base K)} {z z' : ZS K} (h : zosRun c ops z = .ok z') (h0 : 0 ≤ z.rc)
    (h3 : z.rc ≤ 3) : 0 ≤ z'.rc ∧ z'.rc ≤ 3 := by
  induction ops generalizing z with
  | nil => cases h; exact ⟨h0, h3⟩
  | cons o os ih =>
    simp only [zosRun] at h
    split at h
    · cases h
    · rename_i z1 h1
      have := rc_step h1 h0 h3
      have := degree_le o z.T
      exact ih h (by omega) (by omega)

theorem LiveEq.of {s : Rec K} {z : ZS K} {e : SE K} (h1 : Sim s.env z e) (h2 : VSim s e) : LiveEq s z.T := by
  intro a l ha
  have g1 := h1.vars a
  have g2 := h2.vars a
  rw [g1, ha] at g2
  simpa [ha] using g2

theorem Prog.rc (hf : ∀ v : K, fabs v = v ↔ 0 ≤ v) {cfg : RCfg K} (keep : Bool) (hal : ∀ k L, cfg.alloc k L ∉ L) (p : Prog K)
    (hn : p.noFminLL) {s s' : Rec K} {z : ZS K} {e : SE K} (ok : s.Ok) (hz : Swept T0 ⟨cfg.x, cfg.par, keep⟩ s z)
    (hs : Sim s.env z e) (hv : VSim s e) (hr : RcOk z.rc) (h : p.record cfg s = some s') :
    ∃ z', Swept T0 ⟨cfg.x, cfg.par, keep⟩ s' z' ∧ RcOk z'.rc := by
  induction p generalizing s z e with
  | done => cases h; exact ⟨z, hz, hr⟩
  | stmt st k ih =>
    simp only [Prog.record, Option.bind_eq_some_iff] at h
    obtain ⟨s1, h1, h2⟩ := h
    obtain ⟨ok1, e1, z1, g1, g2, g3⟩ := sim_step hal ok hz hs h1
    obtain ⟨e1', k1, k2⟩ := vsim_step hal hn.1 ok hv h1
    have : e1' = e1 := by rw [show _ = _ from k1] at g1; exact Option.some.inj g1
    subst this
    refine ih hn.2 ok1 g2 g3 k2 (adds_rc (adds_step hf h1) hz g2 (.of hs hv) hr ?_) h2
    intro z0 tr m _ hrun
    exact rc_range hrun (by simp [ZS.start]) (by simp [ZS.start])
  | branch q a t f iht ihf =>
    simp only [Prog.record, Option.bind_eq_some_iff] at h
    obtain ⟨la, ha, h⟩ := h
    have hT : z.T la = s.V la := LiveEq.of hs hv a la ha
    obtain ⟨z1, k1, k2, k3, k4⟩ := cmp_step_ok (c := ⟨cfg.x, cfg.par, keep⟩) (z := z)
        (q := q.recorded (q.holds (s.V la))) (a := la) (by rw [Cmp.holds_recorded, hT]; simp)
    have hz1 : Swept T0 ⟨cfg.x, cfg.par, keep⟩ (s.put (.cmp (q.recorded (q.holds (s.V la))) la)) z1 := hz.snoc rfl k1
    have hs1 : Sim (s.put (.cmp (q.recorded (q.holds (s.V la))) la)).env z1 e :=
      ⟨fun b => by rw [k2]; exact hs.vars b, by rw [k3]; exact hs.ii, by rw [k4]; exact hs.y⟩
    have hv1 : VSim (s.put (.cmp (q.recorded (q.holds (s.V la))) la)) e := ⟨hv.vars, hv.ii⟩
    have ok1 : (s.put (.cmp (q.recorded (q.holds (s.V la))) la)).Ok := ok.same rfl rfl rfl
    have hr1 : RcOk z1.rc := hr.step k1 (by
      cases (q.recorded (q.holds (s.V la))) <;> simp only [Base.degree] <;> (try split) <;> simp)
    split at h
    · exact iht hn.1 ok1 hz1 hs1 hv1 hr1 h
    · exact ihf hn.2 ok1 hz1 hs1 hv1 hr1 h

end Verif.AD
