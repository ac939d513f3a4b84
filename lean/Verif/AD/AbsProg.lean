import Verif.AD.AbsPair

/-! The sweep with prescribed results of `fabs` over a recorded trace computes the switching function. -/
set_option linter.all false
namespace Verif.AD
open Elem

section
variable {K : Type} [Scalar K] {T0 : Nat → K}

/-- Sweep with prescribed results `w` of `fabs` (proof device). -/
def zswStep (c : Cfg K) (w : Nat → K) (o : Base K) (s : PlZ K) : Except Stop (PlZ K) :=
  match zosStep c o s.z with
  | .error e => .error e
  | .ok z' =>
    match o with
    | .absVal a r _ => .ok ⟨{ z' with T := upd s.z.T r (w s.sw.length) }, s.sw ++ [s.z.T a]⟩
    | _ => .ok ⟨z', s.sw⟩

def zswRun (c : Cfg K) (w : Nat → K) : List (Base K) → PlZ K → Except Stop (PlZ K)
  | [], s => .ok s
  | o :: os, s =>
    match zswStep c w o s with
    | .error e => .error e
    | .ok s' => zswRun c w os s'

theorem zswRun_append {c : Cfg K} {w : Nat → K} {a b : List (Base K)} {s : PlZ K} :
    zswRun c w (a ++ b) s = match zswRun c w a s with
      | .error e => .error e
      | .ok s' => zswRun c w b s' := by
  induction a generalizing s with
  | nil => rfl
  | cons o os ih =>
    simp only [List.cons_append, zswRun]
    cases zswStep c w o s with
    | error e => rfl
    | ok s' => exact ih

theorem zswStep_other {c : Cfg K} {w : Nat → K} {o : Base K} (ho : o.isAbs = false) {s : PlZ K} :
    zswStep c w o s = match zosStep c o s.z with | .error e => .error e | .ok z' => .ok ⟨z', s.sw⟩ := by
  unfold zswStep
  cases zosStep c o s.z with
  | error e => rfl
  | ok z' => cases o <;> first | rfl | (simp [Base.isAbs] at ho)

def PSwept (T0 : Nat → K) (c : Cfg K) (w : Nat → K) (s : Rec K) (q : PlZ K) : Prop :=
  zswRun c w s.tr.reverse ⟨ZS.start T0, []⟩ = .ok q

def Stmt.isFabs (st : Stmt K) : Bool := match st with | .un .fabs _ _ => true | _ => false

/-- What a call does to the trace. -/
inductive Shape (cfg : RCfg K) (st : Stmt K) (s s1 : Rec K) : Prop where
  | same (h : s1.tr = s.tr) (g : st.record cfg { s with tr := [] } = some { s1 with tr := [] }) (hf : st.isFabs = false)
  | grow (o : Base K) (h : s1.tr = o :: s.tr) (g : st.record cfg { s with tr := [] } = some { s1 with tr := [o] })
      (hf : o.isAbs = st.isFabs)
  | fuse (p q r : Nat) (o : Base K) (tr' : List (Base K)) (h0 : s.tr = .multAA p q r :: tr') (h : s1.tr = o :: tr')
      (g : st.record { cfg with fuse := fun _ => true } { s with tr := [.multAA p q r] } = some { s1 with tr := [o] })
      (hf : o.isAbs = false) (hs : st.isFabs = false)

theorem opAssignD_isAbs (r : Nat) (c : K) : (opAssignD r c).isAbs = false := by
  unfold opAssignD; split_ifs <;> rfl

theorem Un.op_isAbs (f : Un K) (v : K) (a b r d : Nat) : (f.op v a r).isAbs = (Stmt.un f b d : Stmt K).isFabs := by
  cases f <;> simp only [Un.op, opPlusD, opMinD, opMultD, Stmt.isFabs] <;> (try split_ifs) <;> rfl

theorem Bin.op_isAbs (f : Bin) (v w : K) (a b r : Nat) : (f.op v w a b r).isAbs = false := by
  cases f <;> rfl

theorem Acc.opD_isAbs (f : Acc) (r : Nat) (c : K) : (f.opD r c : Base K).isAbs = false := by cases f <;> rfl
theorem Acc.opA_isAbs (f : Acc) (a r : Nat) : (f.opA a r : Base K).isAbs = false := by cases f <;> rfl

theorem record_shape {cfg : RCfg K} {st : Stmt K} {s s1 : Rec K} (h : st.record cfg s = some s1) : Shape cfg st s s1 := by
  cases st
  case accR m a t =>
    simp only [Stmt.record] at h
    split at h
    · rename_i hne
      simp only [Option.bind_eq_some_iff, Option.map_eq_some_iff] at h
      obtain ⟨la, ha, lt, ht, h⟩ := h
      have plain : ∀ s1 : Rec K, (s.rec1 cfg ((if m then Acc.minus else Acc.plus).opA lt la) la
          (if m then s.V la - s.V lt else s.V la + s.V lt)).free t lt = s1 → Shape cfg (Stmt.accR m a t) s s1 := by
        rintro _ rfl
        refine .grow _ rfl ?_ (Acc.opA_isAbs _ _ _)
        simp only [Stmt.record, hne, ne_eq, not_false_eq_true, if_true, ha, ht, Option.bind_some, Option.map_some]
        rfl
      split at h
      · rename_i p q r tr' htr
        split at h
        · rename_i hf
          refine .fuse p q r (if m then Base.eqMinProd p q la else .eqPlusProd p q la) tr' htr ?_ ?_ ?_ rfl
          · rw [← h]; cases cfg.keep <;> cases hst : s.stk <;> simp [Rec.val, Rec.free, hst]
          · simp only [Stmt.record, hne, ne_eq, not_false_eq_true, if_true, ha, ht, Option.bind_some, Option.map_some, hf.2.1, hf.2.2,
              and_self, ← h]
            congr 1
            cases cfg.keep <;> cases hst : s.stk <;> simp [Rec.val, Rec.free, hst]
          · cases m <;> rfl
        · exact plain _ h
      · exact plain _ h
    · cases h
  all_goals simp only [Stmt.record] at h
  case new d =>
    split at h
    · rename_i hd; cases h; exact .grow _ rfl (by simp only [Stmt.record, hd, if_true]; rfl) rfl
    · cases h
  case newD d k =>
    split at h
    · rename_i hd; cases h; exact .grow _ rfl (by simp only [Stmt.record, hd, if_true]; rfl) (opAssignD_isAbs _ _)
    · cases h
  case copy d a =>
    split at h
    · rename_i hd
      obtain ⟨la, ha, rfl⟩ := Option.map_eq_some_iff.1 h
      exact .grow _ rfl (by simp only [Stmt.record, hd, ha, if_true]; rfl) rfl
    · cases h
  case move d a =>
    split at h
    · rename_i hd
      obtain ⟨la, ha, rfl⟩ := Option.map_eq_some_iff.1 h
      exact .same rfl (by simp only [Stmt.record, hd, ha, if_true]; rfl) rfl
    · cases h
  case moveA a b =>
    split at h
    · rename_i hd
      simp only [Option.bind_eq_some_iff, Option.map_eq_some_iff] at h
      obtain ⟨la, ha, lb, hb, rfl⟩ := h
      exact .same rfl (by simp only [Stmt.record, hd, ha, hb, ne_eq, not_false_eq_true, if_true, Option.bind_some]; rfl) rfl
    · cases h
  case setA a b =>
    simp only [Option.bind_eq_some_iff, Option.map_eq_some_iff] at h
    obtain ⟨la, ha, lb, hb, h⟩ := h
    split at h
    · rename_i hne
      cases h
      exact .grow _ rfl (by simp only [Stmt.record, ha, hb, Option.bind_some, Option.map_some, if_pos hne]; rfl) rfl
    · rename_i hne
      cases h
      exact .same rfl (by simp only [Stmt.record, ha, hb, Option.bind_some, Option.map_some, if_neg hne]) rfl
  case trig co a b d =>
    split at h
    · rename_i hd
      simp only [Option.bind_eq_some_iff, Option.map_eq_some_iff] at h
      obtain ⟨ld, hld, lb, hlb, la, hla, rfl⟩ := h
      exact .grow _ rfl (by simp only [Stmt.record, hd.1, hd.2, hld, hlb, hla, ne_eq, not_false_eq_true, and_self, if_true, Option.bind_some]; rfl) (by cases co <;> rfl)
    · cases h
  case quad q a b d =>
    split at h
    · rename_i hd
      simp only [Option.bind_eq_some_iff, Option.map_eq_some_iff] at h
      obtain ⟨ld, hld, lb, hlb, la, hla, rfl⟩ := h
      exact .grow _ rfl (by simp only [Stmt.record, hd, hld, hlb, hla, ne_eq, not_false_eq_true, if_true, Option.bind_some]; rfl) rfl
    · cases h
  case del a =>
    obtain ⟨la, ha, rfl⟩ := Option.map_eq_some_iff.1 h
    exact .same rfl (by simp only [Stmt.record, ha]; rfl) rfl
  case setD a k =>
    obtain ⟨la, ha, rfl⟩ := Option.map_eq_some_iff.1 h
    exact .grow _ rfl (by simp only [Stmt.record, ha]; rfl) (opAssignD_isAbs _ _)
  case accD f a k =>
    obtain ⟨la, ha, rfl⟩ := Option.map_eq_some_iff.1 h
    exact .grow _ rfl (by simp only [Stmt.record, ha]; rfl) (Acc.opD_isAbs _ _ _)
  case accA f a b =>
    simp only [Option.bind_eq_some_iff, Option.map_eq_some_iff] at h
    obtain ⟨la, ha, lb, hb, rfl⟩ := h
    exact .grow _ rfl (by simp only [Stmt.record, ha, hb, Option.bind_some]; rfl) (Acc.opA_isAbs _ _ _)
  case un f a d =>
    simp only [Option.bind_eq_some_iff, Option.map_eq_some_iff] at h
    obtain ⟨la, ha, lb, hb, rfl⟩ := h
    exact .grow _ rfl (by simp only [Stmt.record, ha, hb, Option.bind_some]; rfl) (Un.op_isAbs _ _ _ _ _ _)
  case bin f lv a b d =>
    simp only [Option.bind_eq_some_iff, Option.map_eq_some_iff] at h
    obtain ⟨ld, hd, la, ha, lb, hb, rfl⟩ := h
    exact .grow _ rfl (by simp only [Stmt.record, ha, hb, hd, Option.bind_some]; rfl) (Bin.op_isAbs _ _ _ _ _ _)
  case cond r c a b =>
    simp only [Option.bind_eq_some_iff, Option.map_eq_some_iff] at h
    obtain ⟨ld, hd, lc, hc, la, ha, lb, hb, rfl⟩ := h
    exact .grow _ rfl (by simp only [Stmt.record, ha, hb, hc, hd, Option.bind_some]; rfl) rfl
  case condEq r c a b =>
    simp only [Option.bind_eq_some_iff, Option.map_eq_some_iff] at h
    obtain ⟨ld, hd, lc, hc, la, ha, lb, hb, rfl⟩ := h
    exact .grow _ rfl (by simp only [Stmt.record, ha, hb, hc, hd, Option.bind_some]; rfl) rfl
  case condS r c a =>
    simp only [Option.bind_eq_some_iff, Option.map_eq_some_iff] at h
    obtain ⟨ld, hd, lc, hc, la, ha, rfl⟩ := h
    exact .grow _ rfl (by simp only [Stmt.record, ha, hc, hd, Option.bind_some]; rfl) rfl
  case condEqS r c a =>
    simp only [Option.bind_eq_some_iff, Option.map_eq_some_iff] at h
    obtain ⟨ld, hd, lc, hc, la, ha, rfl⟩ := h
    exact .grow _ rfl (by simp only [Stmt.record, ha, hc, hd, Option.bind_some]; rfl) rfl
  all_goals
    obtain ⟨la, ha, rfl⟩ := Option.map_eq_some_iff.1 h
    exact .grow _ rfl (by simp only [Stmt.record, ha]; rfl) rfl

theorem zrun_single {c : Cfg K} {o : Base K} {z z' : ZS K} (h : zosRun c [o] z = .ok z') : zosStep c o z = .ok z' := by
  simp only [zosRun] at h
  split at h
  · cases h
  · rename_i z1 h1; cases h; exact h1

theorem PSwept.snoc {c : Cfg K} {w : Nat → K} {s s' : Rec K} {q q' : PlZ K} {o : Base K} (h : PSwept T0 c w s q)
    (ho : s'.tr = o :: s.tr) (hz : zswStep c w o q = .ok q') : PSwept T0 c w s' q' := by
  unfold PSwept at *
  rw [ho, List.reverse_cons, zswRun_append, h]
  simp [zswRun, hz]

theorem psim_step {c : Cfg K} {w : Nat → K} {cfg : RCfg K} (hal : ∀ k L, cfg.alloc k L ∉ L) {st : Stmt K} (hf : st.isFabs = false)
    {s s1 : Rec K} {q : PlZ K} {e : SE K} (ok : s.Ok) (hz : PSwept T0 c w s q) (hs : Sim s.env q.z e)
    (h : st.record cfg s = some s1) :
    s1.Ok ∧ ∃ e1 z1, st.spec c.x c.par e = some e1 ∧ PSwept T0 c w s1 ⟨z1, q.sw⟩ ∧ Sim s1.env z1 e1 := by
  cases record_shape h with
  | same h1 g _ =>
    obtain ⟨ok1, e1, z1, g1, g2, g3⟩ := sim_step (c := c) (Z0 := q.z) (z := q.z) (s := { s with tr := [] }) hal (ok.same rfl rfl rfl) rfl hs g
    refine ⟨ok1.same rfl rfl rfl, e1, z1, g1, ?_, g3⟩
    cases g2
    unfold PSwept at *
    rw [h1]; exact hz
  | grow o h1 g ho =>
    obtain ⟨ok1, e1, z1, g1, g2, g3⟩ := sim_step (c := c) (Z0 := q.z) (z := q.z) (s := { s with tr := [] }) hal (ok.same rfl rfl rfl) rfl hs g
    refine ⟨ok1.same rfl rfl rfl, e1, z1, g1, hz.snoc h1 ?_, g3⟩
    rw [zswStep_other (ho.trans hf), zrun_single g2]
  | fuse p r t o tr' h0 h1 g ho _ =>
    unfold PSwept at hz
    rw [h0, List.reverse_cons, zswRun_append] at hz
    split at hz
    · cases hz
    rename_i q0 hq0
    simp only [zswRun] at hz
    split at hz
    · cases hz
    rename_i q1 hq1
    cases hz
    have hm : zosStep c (.multAA p r t) q0.z = .ok q.z ∧ q.sw = q0.sw := by
      rw [zswStep_other rfl] at hq1
      split at hq1
      · cases hq1
      · rename_i z' hz'; cases hq1; exact ⟨hz', rfl⟩
    obtain ⟨ok1, e1, z1, g1, g2, g3⟩ := sim_step (c := c) (cfg := { cfg with fuse := fun _ => true }) (Z0 := q0.z) (z := q.z) (s := { s with tr := [.multAA p r t] }) hal
      (ok.same rfl rfl rfl) (show zosRun c [.multAA p r t] q0.z = .ok q.z by simp [zosRun, hm.1]) hs g
    refine ⟨ok1.same rfl rfl rfl, e1, z1, g1, ?_, g3⟩
    unfold PSwept
    rw [h1, List.reverse_cons, zswRun_append, hq0]
    simp only [zswRun]
    have g2' : zosRun c [o] q0.z = .ok z1 := g2
    rw [zswStep_other ho, zrun_single g2', hm.2]

theorem psim_fabs {c : Cfg K} {w : Nat → K} {cfg : RCfg K} {a d : Nat}
    {s s1 : Rec K} {q : PlZ K} {e : SE K} (ok : s.Ok) (hz : PSwept T0 c w s q) (hs : Sim s.env q.z e)
    (h : (Stmt.un .fabs a d : Stmt K).record cfg s = some s1) :
    s1.Ok ∧ ∃ e1 q1, (Stmt.un .fabs a d : Stmt K).swSpec c.x w c.par e q.sw = some (e1, q1.sw) ∧ PSwept T0 c w s1 q1 ∧ Sim s1.env q1.z e1 := by
  simp only [Stmt.record, Option.bind_eq_some_iff, Option.map_eq_some_iff] at h
  obtain ⟨ld, hd, la, ha, rfl⟩ := h
  refine ⟨ok.same rfl rfl rfl, e.set d (w q.sw.length), ?_⟩
  obtain ⟨z', h1, h2, h3, h4⟩ := fabs_dec (c := c) (a := la) (r := ld) (v := if Elem.fabs (s.V la) ≠ s.V la then 0 else 1) (z := q.z)
  refine ⟨⟨{ z' with T := upd q.z.T ld (w q.sw.length) }, q.sw ++ [q.z.T la]⟩, ?_, hz.snoc rfl ?_, hs.write ok.inj hd rfl h3 h4⟩
  · simp [Stmt.swSpec, hs.get hd, hs.get ha]
  · simp only [Un.op, zswStep, h1]

theorem record_pstop {cfg : RCfg K} {c : Cfg K} {w : Nat → K} {st : Stmt K} {s s' : Rec K}
    (h : st.record cfg s = some s') (hz : ∀ q, ¬ PSwept T0 c w s q) : ∀ q, ¬ PSwept T0 c w s' q := by
  intro q hq
  have split : ∀ (o : Base K) tr, zswRun c w (o :: tr).reverse ⟨ZS.start T0, []⟩ = .ok q →
      ∃ q0, zswRun c w tr.reverse ⟨ZS.start T0, []⟩ = .ok q0 := by
    intro o tr h
    rw [List.reverse_cons, zswRun_append] at h
    split at h
    · cases h
    · rename_i q0 h0; exact ⟨q0, h0⟩
  unfold PSwept at *
  cases record_shape h with
  | same h1 g _ => rw [h1] at hq; exact hz q hq
  | grow o h1 g ho =>
    rw [h1] at hq
    obtain ⟨q0, h0⟩ := split _ _ hq
    exact hz q0 h0
  | fuse p r t o tr' h0 h1 g ho _ =>
    rw [h1] at hq
    obtain ⟨q0, h2⟩ := split _ _ hq
    have h3 : ∃ q1, zswRun c w s.tr.reverse ⟨ZS.start T0, []⟩ = .ok q1 := by
      rw [h0, List.reverse_cons, zswRun_append, h2]
      simp only [zswRun, zswStep_other (o := Base.multAA p r t) rfl]
      exact ⟨_, rfl⟩
    obtain ⟨q1, h3⟩ := h3
    exact hz _ h3

theorem Prog.record_pstop {cfg : RCfg K} {c : Cfg K} {w : Nat → K} (p : Prog K) {s s' : Rec K}
    (h : p.record cfg s = some s') (hz : ∀ q, ¬ PSwept T0 c w s q) : ∀ q, ¬ PSwept T0 c w s' q := by
  induction p generalizing s with
  | done => cases h; exact hz
  | stmt st k ih =>
    simp only [Prog.record, Option.bind_eq_some_iff] at h
    obtain ⟨s1, h1, h2⟩ := h
    exact ih h2 (Verif.AD.record_pstop h1 hz)
  | branch q a t f iht ihf =>
    simp only [Prog.record, Option.bind_eq_some_iff] at h
    obtain ⟨la, ha, h⟩ := h
    have : ∀ r, ¬ PSwept T0 c w (s.put (.cmp (q.recorded (q.holds (s.V la))) la)) r := by
      intro r hr
      unfold PSwept at *
      simp only [Rec.put, List.reverse_cons, zswRun_append] at hr
      split at hr
      · cases hr
      · rename_i q0 h0; exact hz _ h0
    split at h
    · exact iht h this
    · exact ihf h this

theorem swSpec_other (x w par : Nat → K) {st : Stmt K} (hf : st.isFabs = false) (e : SE K) (zs : List K) :
    st.swSpec x w par e zs = (st.spec x par e).map fun e' => (e', zs) := by
  cases st
  case un f a d => cases f <;> first | rfl | (simp [Stmt.isFabs] at hf)
  all_goals rfl

theorem psim_any {c : Cfg K} {w : Nat → K} {cfg : RCfg K} (hal : ∀ k L, cfg.alloc k L ∉ L) {st : Stmt K}
    {s s1 : Rec K} {q : PlZ K} {e : SE K} (ok : s.Ok) (hz : PSwept T0 c w s q) (hs : Sim s.env q.z e)
    (h : st.record cfg s = some s1) :
    s1.Ok ∧ ∃ e1 q1, st.swSpec c.x w c.par e q.sw = some (e1, q1.sw) ∧ PSwept T0 c w s1 q1 ∧ Sim s1.env q1.z e1 := by
  cases hf : st.isFabs
  · obtain ⟨g0, e1, z1, g1, g2, g3⟩ := psim_step hal hf ok hz hs h
    exact ⟨g0, e1, ⟨z1, q.sw⟩, by rw [swSpec_other _ _ _ hf, g1]; rfl, g2, g3⟩
  · cases st <;> first | (cases hf; done) | skip
    rename_i f a d
    cases f <;> first | (cases hf; done) | skip
    exact psim_fabs ok hz hs h

/-- The sweep over the recorded trace with prescribed results of `fabs`: it ends exactly if the program takes the
recorded path, with the values of the switching function. -/
theorem Prog.psim {c : Cfg K} {w : Nat → K} {cfg : RCfg K} (hal : ∀ k L, cfg.alloc k L ∉ L) (p : Prog K)
    {s s' : Rec K} {q : PlZ K} {e : SE K} (ok : s.Ok) (hz : PSwept T0 c w s q) (hs : Sim s.env q.z e)
    (h : p.record cfg s = some s') :
    (∃ e' q', p.swSpec c.x w c.par e q.sw = some (e', q'.sw, p.path cfg s) ∧ PSwept T0 c w s' q' ∧ Sim s'.env q'.z e') ∨
    ((∀ q', ¬ PSwept T0 c w s' q') ∧ ∀ e' zs bs, p.swSpec c.x w c.par e q.sw = some (e', zs, bs) → bs ≠ p.path cfg s) := by
  induction p generalizing s q e with
  | done =>
    cases h
    exact .inl ⟨e, q, rfl, hz, hs⟩
  | stmt st k ih =>
    simp only [Prog.record, Option.bind_eq_some_iff] at h
    obtain ⟨s1, h1, h2⟩ := h
    obtain ⟨ok1, e1, q1, g1, g2, g3⟩ := psim_any hal ok hz hs h1
    simp only [Prog.swSpec, g1, Prog.path, h1, Option.bind_some]
    exact ih ok1 g2 g3 h2
  | branch r a t f iht ihf =>
    simp only [Prog.record, Option.bind_eq_some_iff] at h
    obtain ⟨la, ha, h⟩ := h
    simp only [Prog.swSpec, hs.get ha, Prog.path, ha, Option.bind_some]
    by_cases hb : r.holds (q.z.T la) = r.holds (s.V la)
    · obtain ⟨z1, k1, k2, k3, k4⟩ := cmp_step_ok (c := c) (z := q.z)
        (q := r.recorded (r.holds (s.V la))) (a := la) (by rw [Cmp.holds_recorded]; simp [hb])
      have hz1 : PSwept T0 c w (s.put (.cmp (r.recorded (r.holds (s.V la))) la)) ⟨z1, q.sw⟩ :=
        hz.snoc rfl (by rw [zswStep_other rfl, k1])
      have hs1 : Sim (s.put (.cmp (r.recorded (r.holds (s.V la))) la)).env z1 e :=
        ⟨fun b => by rw [k2]; exact hs.vars b, by rw [k3]; exact hs.ii, by rw [k4]; exact hs.y⟩
      have ok1 : (s.put (.cmp (r.recorded (r.holds (s.V la))) la)).Ok := ok.same rfl rfl rfl
      rw [hb]
      cases hq : r.holds (s.V la)
      · simp only [hq] at h hz1 hs1 ok1 ⊢
        rcases ihf ok1 hz1 hs1 h with ⟨e', z', g1, g2⟩ | ⟨g1, g2⟩
        · exact .inl ⟨e', z', by simp [g1], g2⟩
        · refine .inr ⟨g1, fun e' zs bs he => ?_⟩
          simp only [Bool.false_eq_true, if_false, Option.map_eq_some_iff] at he ⊢
          obtain ⟨p, hp, he⟩ := he
          cases he
          intro hh
          injection hh with _ hh
          exact g2 _ _ _ hp hh
      · simp only [hq] at h hz1 hs1 ok1 ⊢
        rcases iht ok1 hz1 hs1 h with ⟨e', z', g1, g2⟩ | ⟨g1, g2⟩
        · exact .inl ⟨e', z', by simp [g1], g2⟩
        · refine .inr ⟨g1, fun e' zs bs he => ?_⟩
          simp only [if_true, Option.map_eq_some_iff] at he ⊢
          obtain ⟨p, hp, he⟩ := he
          cases he
          intro hh
          injection hh with _ hh
          exact g2 _ _ _ hp hh
    · refine .inr ⟨?_, fun e' zs bs he => ?_⟩
      · have : ∀ u, ¬ PSwept T0 c w (s.put (.cmp (r.recorded (r.holds (s.V la))) la)) u := by
          intro u hu
          unfold PSwept at *
          simp only [Rec.put, List.reverse_cons, zswRun_append, hz, zswRun, zswStep_other (o := Base.cmp _ la) rfl,
            zosStep, Cmp.holds_recorded] at hu
          have : (r.holds (q.z.T la) == r.holds (s.V la)) = false := by simpa using hb
          simp [this] at hu
        split at h
        · exact t.record_pstop h this
        · exact f.record_pstop h this
      · intro hh
        subst hh
        split at he
        · rename_i h1
          obtain ⟨p, hp, he⟩ := Option.map_eq_some_iff.1 he
          injection he with he1 he2
          injection he2 with he3 he4
          injection he4 with he5 he6
          exact hb (by rw [h1]; exact he5)
        · rename_i h1
          obtain ⟨p, hp, he⟩ := Option.map_eq_some_iff.1 he
          injection he with he1 he2
          injection he2 with he3 he4
          injection he4 with he5 he6
          exact hb (by simp only [Bool.not_eq_true] at h1; rw [h1]; exact he5)

/-- With the values of `fabs` prescribed correctly the switching function is the program. -/
theorem Prog.swSpec_of_spec {x w par : Nat → K} (p : Prog K) {e e' : SE K} {bs : List Bool} {zs : List K}
    (h : p.spec x par e = some (e', bs))
    (hw : ∀ k v, (p.switches x par e)[k]? = some v → w (zs.length + k) = fabs v) :
    p.swSpec x w par e zs = some (e', zs ++ p.switches x par e, bs) := by
  induction p generalizing e zs bs with
  | done =>
    cases h
    simp [Prog.swSpec, Prog.switches]
  | stmt st k ih =>
    simp only [Prog.spec, Option.bind_eq_some_iff] at h
    obtain ⟨e1, h1, h2⟩ := h
    simp only [Prog.switches, h1] at hw ⊢
    cases hf : st.isFabs
    · have hsw : st.switches e = [] := by
        cases st
        case un f a d => cases f <;> first | rfl | (simp [Stmt.isFabs] at hf)
        all_goals rfl
      rw [hsw] at hw ⊢
      simp only [Prog.swSpec, swSpec_other _ _ _ hf, h1, Option.map_some, Option.bind_some, List.nil_append] at hw ⊢
      exact ih h2 hw
    · cases st <;> first | (cases hf; done) | skip
      rename_i f a d
      cases f <;> first | (cases hf; done) | skip
      simp only [Stmt.spec] at h1
      split at h1
      · rename_i hd
        obtain ⟨v, hv, rfl⟩ := Option.map_eq_some_iff.1 h1
        simp only [Stmt.switches, hv] at hw ⊢
        have h0 : w zs.length = fabs v := by simpa using hw 0 v (by simp)
        simp only [Prog.swSpec, Stmt.swSpec, hd, if_true, hv, Option.map_some, Option.bind_some, h0]
        have := ih (zs := zs ++ [v]) h2 (fun k u hu => by
          have := hw (k + 1) u (by simpa [Un.fn] using hu)
          rw [← this]; congr 1; simp; omega)
        simp only [Un.fn] at this ⊢
        rw [this]
        simp
      · cases h1
  | branch c a t f iht ihf =>
    simp only [Prog.spec, Option.bind_eq_some_iff] at h
    obtain ⟨v, hv, h⟩ := h
    simp only [Prog.swSpec, hv, Option.bind_some, Prog.switches] at hw ⊢
    split at h
    · rename_i hc
      simp only [hc, if_true] at hw ⊢
      obtain ⟨r, hr, he⟩ := Option.map_eq_some_iff.1 h
      cases he
      rw [iht (bs := r.2) hr hw]; rfl
    · rename_i hc
      simp only [hc, if_false] at hw ⊢
      obtain ⟨r, hr, he⟩ := Option.map_eq_some_iff.1 h
      cases he
      rw [ihf (bs := r.2) hr hw]; rfl

end

/-! ### Differentiability -/
section
variable {c : Cfg ℝ} {cfg : RCfg ℝ} {T0 : Nat → ℝ}

/-- Differentiability of a call, `fabs` exempt. -/
def Stmt.smoothAN (s : Stmt ℝ) (e : SE ℝ) : Prop :=
  match s with
  | .un .fabs _ _ => True
  | s => s.smooth .rev e

/-- Every call but `fabs` and every comparison executed at `x` is differentiable there. -/
def Prog.smoothAN (x par : Nat → ℝ) : Prog ℝ → SE ℝ → Prop
  | .done, _ => True
  | .stmt s k, e => s.smoothAN e ∧ ∀ e', s.spec x par e = some e' → k.smoothAN x par e'
  | .branch c a t f, e => ∀ v, e.vars a = some v →
      v ≠ 0 ∧ (if c.holds v then t.smoothAN x par e else f.smoothAN x par e)

theorem smoothAN_other {st : Stmt ℝ} (hf : st.isFabs = false) {e : SE ℝ} (h : st.smoothAN e) : st.smooth .rev e := by
  cases st
  case un f a d => cases f <;> first | exact h | (simp [Stmt.isFabs] at hf)
  all_goals exact h

def smoothB (o : Base ℝ) (T : Nat → ℝ) : Prop := o.isAbs = true ∨ smoothS .rev o T

abbrev SmoothB (T0 : Nat → ℝ) (c : Cfg ℝ) (s : Rec ℝ) : Prop := Along smoothB c s.tr.reverse (ZS.start T0)

theorem smoothB_step {st : Stmt ℝ} {s s' : Rec ℝ} {z : ZS ℝ} {e : SE ℝ} (ok : s.Ok)
    (hz : Swept T0 c s z) (hs : Sim s.env z e) (h0 : SmoothB T0 c s) (hsm : st.smoothAN e)
    (h : st.record cfg s = some s') : SmoothB T0 c s' := by
  have hz' : zosRun c s.tr.reverse (ZS.start T0) = .ok z := hz
  unfold SmoothB at *
  cases record_shape h with
  | same h1 g _ => rw [h1]; exact h0
  | grow o h1 g ho =>
    rw [h1, List.reverse_cons, Along_snoc]
    refine ⟨h0, fun z1 hz1 => ?_⟩
    rw [hz'] at hz1
    cases hz1
    cases hf : st.isFabs
    · exact .inr (smooth_step (Z0 := z) (z := z) (c := c) (s := { s with tr := [] }) (ok.same rfl rfl rfl) rfl hs trivial (smoothAN_other hf hsm) g).1
    · exact .inl (ho.trans hf)
  | fuse p r t o tr' h2 h1 g ho hf =>
    rw [h2, List.reverse_cons, Along_snoc] at h0
    rw [h1, List.reverse_cons, Along_snoc]
    refine ⟨h0.1, fun z1 hz1 => .inr ?_⟩
    have hm : zosStep c (.multAA p r t) z1 = .ok z := by
      rw [h2, List.reverse_cons, zosRun_append, hz1] at hz'
      exact zrun_single hz'
    have hA : SmoothFrom z1 .rev c { s with tr := [.multAA p r t] } := by
      refine ⟨?_, fun _ _ => trivial⟩
      rcases h0.2 z1 hz1 with h | h
      · cases h
      · exact h
    exact (smooth_step (Z0 := z1) (z := z) (c := c) (s := { s with tr := [.multAA p r t] }) (cfg := { cfg with fuse := fun _ => true }) (ok.same rfl rfl rfl)
      (show zosRun c [.multAA p r t] z1 = .ok z by simp [zosRun, hm]) hs hA (smoothAN_other hf hsm) g).1

theorem Prog.smoothB_tr (hal : ∀ k L, cfg.alloc k L ∉ L) (p : Prog ℝ) {s s' : Rec ℝ}
    {z : ZS ℝ} {e : SE ℝ} (ok : s.Ok) (hz : Swept T0 c s z) (hs : Sim s.env z e) (h0 : SmoothB T0 c s)
    (hsm : p.smoothAN c.x c.par e) (hpath : ∃ e', p.spec c.x c.par e = some (e', p.path cfg s))
    (h : p.record cfg s = some s') : SmoothB T0 c s' := by
  induction p generalizing s z e with
  | done => cases h; exact h0
  | stmt st k ih =>
    simp only [Prog.record, Option.bind_eq_some_iff] at h
    obtain ⟨s1, h1, h2⟩ := h
    obtain ⟨ok1, e1, z1, g1, g2, g3⟩ := sim_step hal ok hz hs h1
    simp only [Prog.spec, g1, Prog.path, h1, Option.bind_some] at hpath
    exact ih ok1 g2 g3 (smoothB_step ok hz hs h0 hsm.1 h1) (hsm.2 _ g1) hpath h2
  | branch q a t f iht ihf =>
    simp only [Prog.record, Option.bind_eq_some_iff] at h
    obtain ⟨la, ha, h⟩ := h
    obtain ⟨h2, h3⟩ := hsm _ (hs.get ha)
    obtain ⟨e', hp⟩ := hpath
    simp only [Prog.spec, hs.get ha, Prog.path, ha, Option.bind_some] at hp
    have hb : q.holds (z.T la) = q.holds (s.V la) := by
      split at hp
      · rename_i h1
        obtain ⟨p, hp, he⟩ := Option.map_eq_some_iff.1 hp
        injection he with he1 he2
        injection he2 with he3 he4
        rw [h1]; exact he3
      · rename_i h1
        obtain ⟨p, hp, he⟩ := Option.map_eq_some_iff.1 hp
        injection he with he1 he2
        injection he2 with he3 he4
        simp only [Bool.not_eq_true] at h1; rw [h1]; exact he3
    obtain ⟨z1, k1, k2, k3, k4⟩ := cmp_step_ok (c := c) (z := z)
      (q := q.recorded (q.holds (s.V la))) (a := la) (by rw [Cmp.holds_recorded]; simp [hb])
    have hz1 : Swept T0 c (s.put (.cmp (q.recorded (q.holds (s.V la))) la)) z1 := hz.snoc rfl k1
    have hs1 : Sim (s.put (.cmp (q.recorded (q.holds (s.V la))) la)).env z1 e :=
      ⟨fun b => by rw [k2]; exact hs.vars b, by rw [k3]; exact hs.ii, by rw [k4]; exact hs.y⟩
    have ok1 : (s.put (.cmp (q.recorded (q.holds (s.V la))) la)).Ok := ok.same rfl rfl rfl
    have h1 : SmoothB T0 c (s.put (.cmp (q.recorded (q.holds (s.V la))) la)) :=
      by
        have hz' : zosRun c s.tr.reverse (ZS.start T0) = .ok z := hz
        unfold SmoothB at *
        simp only [Rec.put, List.reverse_cons]
        rw [Along_snoc]
        refine ⟨h0, fun z' hz1' => .inr ?_⟩
        rw [hz'] at hz1'
        cases hz1'
        exact ⟨h2, by simp +contextual [smoothS, smooth], by simp +contextual [smoothS, smooth], by simp +contextual [smoothS, smooth]⟩
    rw [hb] at h3 hp
    cases hq : q.holds (s.V la)
    · simp only [hq, Bool.false_eq_true, if_false, Option.map_eq_some_iff] at h h3 hp hz1 hs1 ok1 h1
      obtain ⟨⟨p1, p2⟩, hp, he⟩ := hp
      injection he with he1 he2
      injection he2 with he3 he4
      simp only at he4
      subst he4
      exact ihf ok1 hz1 hs1 h1 h3 ⟨_, hp⟩ h
    · simp only [hq, if_true, Option.map_eq_some_iff] at h h3 hp hz1 hs1 ok1 h1
      obtain ⟨⟨p1, p2⟩, hp, he⟩ := hp
      injection he with he1 he2
      injection he2 with he3 he4
      simp only at he4
      subst he4
      exact iht ok1 hz1 hs1 h1 h3 ⟨_, hp⟩ h
end
end Verif.AD
