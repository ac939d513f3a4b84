import Verif.AD.RecordSim

/-!
The values the recorder holds while taping, and the value stack it leaves behind.
-/
set_option linter.all false
namespace Verif.AD
open Elem

variable {K : Type} [Scalar K] {T0 : Nat → K}

/-- Not a call of `fmin(const adouble&, const adouble&)` (adouble.cpp:4690-4775, which stores a
wrong value, see `C32_fmin_stores_location`). -/
def Stmt.notFminLL : Stmt K → Prop
  | .bin .fmin true _ _ _ => False
  | _ => True

/-- No such call anywhere in the program. -/
def Prog.noFminLL : Prog K → Prop
  | .done => True
  | .stmt s k => s.notFminLL ∧ k.noFminLL
  | .branch _ _ t f => t.noFminLL ∧ f.noFminLL

theorem un_recVal (f : Un K) (v : K) : f.recVal v = f.fn v := by
  cases f <;> simp only [Un.recVal, Un.fn]
  · ring
  · rw [one_div, div_eq_inv_mul]

theorem bin_recVal {f : Bin} {lv : Bool} (h : ¬ (f = .fmin ∧ lv = true)) (la : Nat) (v w : K) :
    f.recVal lv la v w = f.fn v w := by
  cases f <;> simp only [Bin.recVal, Bin.fn]
  cases lv
  · simp
  · exact absurd ⟨rfl, rfl⟩ h

/-- The recorder's values are the program's. -/
structure VSim (s : Rec K) (e : SE K) : Prop where
  vars : ∀ a, e.vars a = (s.env a).map s.V
  ii : s.ii = e.ii

theorem VSim.get {s : Rec K} {e : SE K} (h : VSim s e) {a l : Nat} (ha : s.env a = some l) :
    e.vars a = some (s.V l) := by rw [h.vars, ha]; rfl

/-- `VSim` as `Sim` with the store in the place of the sweep's memory. -/
theorem VSim.sim {s : Rec K} {e : SE K} (h : VSim s e) : Sim s.env ⟨s.V, [], 3, s.ii, e.ys⟩ e :=
  ⟨h.vars, h.ii, rfl⟩

theorem VSim.of {s : Rec K} {z : ZS K} {e : SE K} (h : Sim s.env z e) (hV : z.T = s.V)
    (hi : z.ii = s.ii) : VSim s e := ⟨by rw [← hV]; exact h.vars, by rw [← hi]; exact h.ii⟩

theorem VSim.write {cfg : RCfg K} {s : Rec K} {e : SE K} (h : VSim s e) (ok : s.Ok) {d l : Nat}
    (hd : s.env d = some l) {o : Base K} {v w : K} (hv : v = w) :
    VSim (s.rec1 cfg o l v) (e.set d w) := by
  have := h.sim.write (z' := ⟨upd s.V l w, [], 3, s.ii, e.ys⟩) ok.inj hd rfl rfl rfl
  subst hv
  exact VSim.of (s := s.rec1 cfg o l v) this rfl rfl

theorem VSim.take {cfg : RCfg K} (hal : ∀ k L, cfg.alloc k L ∉ L) {s : Rec K} {e : SE K}
    (h : VSim s e) (ok : s.Ok) {d : Nat} {o : Base K} {v w : K} (hv : v = w) :
    VSim ((s.take cfg d).rec1 cfg o (s.next cfg) v) (e.set d w) := by
  have := h.sim.take (z' := ⟨upd s.V (s.next cfg) w, [], 3, s.ii, e.ys⟩) (d := d)
    (fun a ha => hal _ _ (ok.live a _ ha)) rfl rfl rfl
  subst hv
  exact VSim.of (s := (s.take cfg d).rec1 cfg o (s.next cfg) v) this rfl rfl

theorem vsim_step {cfg : RCfg K} (hal : ∀ k L, cfg.alloc k L ∉ L) {st : Stmt K} (hf : st.notFminLL)
    {s s' : Rec K} {e : SE K} (ok : s.Ok) (hs : VSim s e) (h : st.record cfg s = some s') :
    ∃ e', st.spec cfg.x cfg.par e = some e' ∧ VSim s' e' := by
  have hnone : ∀ d, (s.env d).isNone = true → (e.vars d).isNone = true := by
    intro d hd; rw [hs.vars]; cases hh : s.env d <;> simp_all
  cases st
  all_goals simp only [Stmt.record] at h
  case new d =>
    split at h
    · rename_i hd; cases h
      exact ⟨_, by first | (simp [Stmt.spec, hnone d hd]; done) | (simp [Stmt.spec, hnone d hd]; rfl), hs.take hal ok rfl⟩
    · cases h
  case newD d k =>
    split at h
    · rename_i hd; cases h
      exact ⟨_, by first | (simp [Stmt.spec, hnone d hd]; done) | (simp [Stmt.spec, hnone d hd]; rfl), hs.take hal ok rfl⟩
    · cases h
  case copy d a =>
    split at h
    · rename_i hd
      simp only [Option.map_eq_some_iff] at h
      obtain ⟨la, ha, rfl⟩ := h
      exact ⟨_, by first | (simp [Stmt.spec, hnone d hd, hs.get ha]; done) | (simp [Stmt.spec, hnone d hd, hs.get ha]; rfl), hs.take hal ok rfl⟩
    · cases h
  case move d a =>
    split at h
    · rename_i hd
      simp only [Option.map_eq_some_iff] at h
      obtain ⟨la, ha, rfl⟩ := h
      refine ⟨_, by first | (simp [Stmt.spec, hnone d hd, hs.get ha]; done) | (simp [Stmt.spec, hnone d hd, hs.get ha]; rfl), ?_⟩
      exact VSim.of (hs.sim.move ha) rfl rfl
    · cases h
  case moveA a b =>
    split at h
    · rename_i hd
      simp only [Option.bind_eq_some_iff, Option.map_eq_some_iff] at h
      obtain ⟨la, ha, lb, hb, rfl⟩ := h
      refine ⟨(e.del b).set a (s.V lb), by simp [Stmt.spec, hs.get ha, hs.get hb, hd], ⟨fun i => ?_, hs.ii⟩⟩
      simp only [Rec.free, SE.set, SE.del, upd_apply]
      split
      · rfl
      · split
        · rfl
        · exact hs.vars i
    · cases h
  case del a =>
    simp only [Option.map_eq_some_iff] at h
    obtain ⟨la, ha, rfl⟩ := h
    exact ⟨_, by first | (simp [Stmt.spec, hs.get ha]; done) | (simp [Stmt.spec, hs.get ha]; rfl), VSim.of (hs.sim.drop a) rfl rfl⟩
  case setA a b =>
    simp only [Option.bind_eq_some_iff, Option.map_eq_some_iff] at h
    obtain ⟨la, ha, lb, hb, rfl⟩ := h
    refine ⟨_, by first | (simp [Stmt.spec, hs.get ha, hs.get hb]; done) | (simp [Stmt.spec, hs.get ha, hs.get hb]; rfl), ?_⟩
    split
    · exact hs.write ok ha rfl
    · rename_i hab
      have hab : la = lb := by simpa using hab
      subst hab
      exact VSim.of (hs.sim.write (z' := ⟨s.V, [], 3, s.ii, e.ys⟩) ok.inj ha (by simp) rfl rfl) rfl rfl
  case setD a k =>
    simp only [Option.map_eq_some_iff] at h
    obtain ⟨la, ha, rfl⟩ := h
    exact ⟨_, by first | (simp [Stmt.spec, hs.get ha]; done) | (simp [Stmt.spec, hs.get ha]; rfl), hs.write ok ha rfl⟩
  case setP a k =>
    simp only [Option.map_eq_some_iff] at h
    obtain ⟨la, ha, rfl⟩ := h
    exact ⟨_, by first | (simp [Stmt.spec, hs.get ha]; done) | (simp [Stmt.spec, hs.get ha]; rfl), hs.write ok ha rfl⟩
  case accD f a k =>
    simp only [Option.map_eq_some_iff] at h
    obtain ⟨la, ha, rfl⟩ := h
    exact ⟨_, by first | (simp [Stmt.spec, hs.get ha]; done) | (simp [Stmt.spec, hs.get ha]; rfl), hs.write ok ha rfl⟩
  case accA f a b =>
    simp only [Option.bind_eq_some_iff, Option.map_eq_some_iff] at h
    obtain ⟨la, ha, lb, hb, rfl⟩ := h
    exact ⟨_, by first | (simp [Stmt.spec, hs.get ha, hs.get hb]; done) | (simp [Stmt.spec, hs.get ha, hs.get hb]; rfl), hs.write ok ha rfl⟩
  case accR m a t =>
    split at h
    · rename_i hat
      simp only [Option.bind_eq_some_iff, Option.map_eq_some_iff] at h
      obtain ⟨la, ha, lt, ht, h⟩ := h
      have hlat : la ≠ lt := fun hl => hat (ok.inj a t la ha (hl ▸ ht))
      refine ⟨_, by first | (simp [Stmt.spec, hat, hs.get ha, hs.get ht]; done) | (simp [Stmt.spec, hat, hs.get ha, hs.get ht]; rfl), ?_⟩
      have fin : ∀ V stk tr, (∀ l, l ≠ lt → V l = upd s.V la (if m then s.V la - s.V lt else
          s.V la + s.V lt) l) → VSim ({ s with V := V, stk := stk, tr := tr }.free t lt)
          ((e.set a (if m then s.V la - s.V lt else s.V la + s.V lt)).del t) := by
        intro V stk tr hV
        refine ⟨fun b => ?_, hs.ii⟩
        simp only [Rec.free, SE.del, SE.set, upd_apply]
        by_cases hbt : b = t
        · simp [hbt]
        · simp only [hbt, if_false]
          by_cases hba : b = a
          · subst hba; simp [ha, hV la hlat]
          · rw [if_neg hba, hs.vars b]
            cases hl : s.env b with
            | none => rfl
            | some k =>
              have h1 : k ≠ la := fun hk => hba (ok.inj b a la (hk ▸ hl) ha)
              have h2 : k ≠ lt := fun hk => hbt (ok.inj b t lt (hk ▸ hl) ht)
              simp [hV k h2, upd_apply, h1]
      have plain := fin _ (if cfg.keep then s.V la :: s.stk else s.stk)
        ((if m then Acc.minus else Acc.plus).opA lt la :: s.tr) (fun l _ => rfl)
      split at h
      · split at h
        · cases hk : cfg.keep
          · simp only [hk, Rec.val] at h
            rw [← h]; exact fin _ _ _ fun l _ => rfl
          · simp only [hk, Rec.val, if_true] at h
            cases hst : s.stk with
            | nil => simp only [hst] at h; rw [← h]; exact fin _ _ _ fun l _ => rfl
            | cons y st =>
              simp only [hst] at h; rw [← h]
              exact fin _ _ _ fun l hl => by rw [upd_ne _ _ hl]
        · rw [← h]; exact plain
      · rw [← h]; exact plain
    · cases h
  case incr a =>
    simp only [Option.map_eq_some_iff] at h
    obtain ⟨la, ha, rfl⟩ := h
    exact ⟨_, by first | (simp [Stmt.spec, hs.get ha]; done) | (simp [Stmt.spec, hs.get ha]; rfl), hs.write ok ha rfl⟩
  case decr a =>
    simp only [Option.map_eq_some_iff] at h
    obtain ⟨la, ha, rfl⟩ := h
    exact ⟨_, by first | (simp [Stmt.spec, hs.get ha]; done) | (simp [Stmt.spec, hs.get ha]; rfl), hs.write ok ha rfl⟩
  case indep a =>
    simp only [Option.map_eq_some_iff] at h
    obtain ⟨la, ha, rfl⟩ := h
    have hw := hs.write (cfg := cfg) (o := .assignInd la) (v := cfg.x s.ii) ok ha rfl
    refine ⟨_, by first | (simp [Stmt.spec, hs.get ha]; done) | (simp [Stmt.spec, hs.get ha]; rfl), ⟨fun i => ?_, by simp [hs.ii]⟩⟩
    rw [← hs.ii]; exact hw.vars i
  case dep a =>
    simp only [Option.map_eq_some_iff] at h
    obtain ⟨la, ha, rfl⟩ := h
    exact ⟨{ e with ys := e.ys ++ [s.V la] }, by simp [Stmt.spec, hs.get ha], hs.vars, hs.ii⟩
  case un f a d =>
    simp only [Option.bind_eq_some_iff, Option.map_eq_some_iff] at h
    obtain ⟨ld, hd, la, ha, rfl⟩ := h
    exact ⟨_, by first | (simp [Stmt.spec, hs.get ha, hs.get hd]; done) | (simp [Stmt.spec, hs.get ha, hs.get hd]; rfl), hs.write ok hd (un_recVal f _)⟩
  case bin f lv a b d =>
    simp only [Option.bind_eq_some_iff, Option.map_eq_some_iff] at h
    obtain ⟨ld, hd, la, ha, lb, hb, rfl⟩ := h
    exact ⟨_, by first | (simp [Stmt.spec, hs.get ha, hs.get hd, hs.get hb]; done) | (simp [Stmt.spec, hs.get ha, hs.get hd, hs.get hb]; rfl),
      hs.write ok hd (bin_recVal (by rintro ⟨rfl, rfl⟩; exact hf) _ _ _)⟩
  case trig co a b d =>
    split at h
    · rename_i hab
      simp only [Option.bind_eq_some_iff, Option.map_eq_some_iff] at h
      obtain ⟨ld, hd, lb, hb, la, ha, rfl⟩ := h
      have hlbd : lb ≠ ld := fun hl => hab.2 (ok.inj b d lb hb (hl ▸ hd))
      refine ⟨_, by first | (simp [Stmt.spec, hs.get ha, hs.get hb, hs.get hd, hab]; done) | (simp [Stmt.spec, hs.get ha, hs.get hb, hs.get hd, hab]; rfl), ?_⟩
      refine VSim.of ((hs.sim.write (z' := ⟨upd s.V lb _, [], 3, s.ii, e.ys⟩) ok.inj hb rfl rfl rfl).write
        (z' := ⟨upd (upd s.V lb _) ld _, [], 3, s.ii, e.ys⟩) ok.inj hd rfl rfl rfl) ?_ rfl
      funext k
      simp only [Rec.val, Rec.keepT, Rec.put, upd_apply]
      split_ifs <;> simp_all
    · cases h
  case quad q a b d =>
    split at h
    · rename_i hab
      simp only [Option.bind_eq_some_iff, Option.map_eq_some_iff] at h
      obtain ⟨ld, hd, lb, hb, la, ha, rfl⟩ := h
      exact ⟨_, by first | (simp [Stmt.spec, hs.get ha, hs.get hb, hs.get hd, hab]; done) | (simp [Stmt.spec, hs.get ha, hs.get hb, hs.get hd, hab]; rfl), hs.write ok hd rfl⟩
    · cases h
  case cond r k a b =>
    simp only [Option.bind_eq_some_iff, Option.map_eq_some_iff] at h
    obtain ⟨lr, hr, lc, hc, la, ha, lb, hb, rfl⟩ := h
    exact ⟨_, by first | (simp [Stmt.spec, hs.get ha, hs.get hb, hs.get hr, hs.get hc]; done) | (simp [Stmt.spec, hs.get ha, hs.get hb, hs.get hr, hs.get hc]; rfl), hs.write ok hr rfl⟩
  case condEq r k a b =>
    simp only [Option.bind_eq_some_iff, Option.map_eq_some_iff] at h
    obtain ⟨lr, hr, lc, hc, la, ha, lb, hb, rfl⟩ := h
    exact ⟨_, by first | (simp [Stmt.spec, hs.get ha, hs.get hb, hs.get hr, hs.get hc]; done) | (simp [Stmt.spec, hs.get ha, hs.get hb, hs.get hr, hs.get hc]; rfl), hs.write ok hr rfl⟩
  case condS r k a =>
    simp only [Option.bind_eq_some_iff, Option.map_eq_some_iff] at h
    obtain ⟨lr, hr, lc, hc, la, ha, rfl⟩ := h
    exact ⟨_, by first | (simp [Stmt.spec, hs.get ha, hs.get hr, hs.get hc]; done) | (simp [Stmt.spec, hs.get ha, hs.get hr, hs.get hc]; rfl), hs.write ok hr rfl⟩
  case condEqS r k a =>
    simp only [Option.bind_eq_some_iff, Option.map_eq_some_iff] at h
    obtain ⟨lr, hr, lc, hc, la, ha, rfl⟩ := h
    exact ⟨_, by first | (simp [Stmt.spec, hs.get ha, hs.get hr, hs.get hc]; done) | (simp [Stmt.spec, hs.get ha, hs.get hr, hs.get hc]; rfl), hs.write ok hr rfl⟩

/-- While taping, objects hold what the program computes with plain numbers, and comparisons
come out the same way. -/
theorem Prog.values {cfg : RCfg K} (hal : ∀ k L, cfg.alloc k L ∉ L) (p : Prog K) (hf : p.noFminLL)
    {s s' : Rec K} {e : SE K} (ok : s.Ok) (hs : VSim s e) (h : p.record cfg s = some s') :
    ∃ e', p.spec cfg.x cfg.par e = some (e', p.path cfg s) ∧ VSim s' e' := by
  induction p generalizing s e with
  | done => cases h; exact ⟨e, rfl, hs⟩
  | stmt st k ih =>
    simp only [Prog.record, Option.bind_eq_some_iff] at h
    obtain ⟨s1, h1, h2⟩ := h
    obtain ⟨e1, g1, g2⟩ := vsim_step hal hf.1 ok hs h1
    simp only [Prog.spec, g1, Prog.path, h1, Option.bind_some]
    exact ih hf.2 (record_ok hal ok h1) g2 h2
  | branch q a t f iht ihf =>
    simp only [Prog.record, Option.bind_eq_some_iff] at h
    obtain ⟨la, ha, h⟩ := h
    simp only [Prog.spec, hs.get ha, Prog.path, ha, Option.bind_some]
    have hs1 : VSim (s.put (.cmp (q.recorded (q.holds (s.V la))) la)) e := ⟨hs.vars, hs.ii⟩
    have ok1 : (s.put (.cmp (q.recorded (q.holds (s.V la))) la)).Ok := ok.same rfl rfl rfl
    cases hq : q.holds (s.V la)
    · simp only [hq] at h hs1 ok1 ⊢
      obtain ⟨e', g1, g2⟩ := ihf hf.2 ok1 hs1 h
      exact ⟨e', by simp [g1], g2⟩
    · simp only [hq] at h hs1 ok1 ⊢
      obtain ⟨e', g1, g2⟩ := iht hf.1 ok1 hs1 h
      exact ⟨e', by simp [g1], g2⟩

/-! ### The value stack -/

/-- The recorder and a sweep at the recording point agree on everything. -/
structure KSim (s : Rec K) (z : ZS K) : Prop where
  T : z.T = s.V
  stk : z.stk = s.stk
  ii : z.ii = s.ii

def KOk (T0 : Nat → K) (cfg : RCfg K) (s' : Rec K) : Prop :=
  ∃ z', Swept T0 ⟨cfg.x, cfg.par, true⟩ s' z' ∧ KSim s' z'

theorem KOk.rec1 {cfg : RCfg K} (hk : cfg.keep = true) {s s1 : Rec K} {z z' : ZS K} {l : Nat}
    {o : Base K} {v w : K} (hz : Swept T0 ⟨cfg.x, cfg.par, true⟩ s z) (hs : KSim s z)
    (h1 : s1.V = s.V ∧ s1.stk = s.stk ∧ s1.tr = s.tr ∧ s1.ii = s.ii)
    (hstep : zosStep ⟨cfg.x, cfg.par, true⟩ o z = .ok z')
    (hT : z'.T = upd z.T l w) (hst : z'.stk = z.T l :: z.stk) (hi : z'.ii = z.ii) (hv : v = w) :
    KOk T0 cfg (s1.rec1 cfg o l v) := by
  obtain ⟨a, b, c, d⟩ := h1
  refine ⟨z', hz.snoc (by simp [Rec.rec1, Rec.put, Rec.keepT, Rec.val, c]) hstep, ?_, ?_, ?_⟩
  · simp [Rec.rec1, Rec.put, Rec.keepT, Rec.val, a, hT, hs.T, hv]
  · simp [Rec.rec1, Rec.put, Rec.keepT, Rec.val, a, b, hst, hs.T, hs.stk, hk]
  · simp [Rec.rec1, Rec.put, Rec.keepT, Rec.val, d, hi, hs.ii]

/-- Push-and-write steps at the level of the sweep. -/
structure PW (c : Cfg K) (o : Base K) (z : ZS K) (r : Nat) (w : K) (z' : ZS K) : Prop where
  run : zosStep c o z = .ok z'
  T : z'.T = upd z.T r w
  stk : z'.stk = if c.keep then z.T r :: z.stk else z.stk
  ii : z'.ii = z.ii

theorem un_pw {c : Cfg K} (f : Un K) (v : K) (a r : Nat) (z : ZS K) :
    ∃ z', PW c (f.op v a r) z r (f.fn (z.T a)) z' := by
  obtain ⟨z', h1, h2, h3, h4⟩ := un_step (c := c) f v a r z
  refine ⟨z', h1, h2, ?_, h3⟩
  cases f <;> simp only [Un.op, opPlusD, opMinD, opMultD] at h1 <;> try split_ifs at h1
  all_goals simp only [zosStep] at h1
  all_goals first
    | (injection h1 with h1; rw [← h1]; rfl)
    | (split_ifs at h1 <;> injection h1 with h1 <;> rw [← h1] <;> rfl)

theorem bin_pw {c : Cfg K} (f : Bin) (v w : K) (a b r : Nat) (z : ZS K) :
    ∃ z', PW c (f.op v w a b r) z r (f.fn (z.T a) (z.T b)) z' := by
  obtain ⟨z', h1, h2, h3, h4⟩ := bin_step (c := c) f v w a b r z
  refine ⟨z', h1, h2, ?_, h3⟩
  cases f <;> simp only [Bin.op] at h1
  all_goals simp only [zosStep] at h1
  all_goals try (injection h1 with h1; rw [← h1]; rfl)
  injection h1 with h1; rw [← h1]
  by_cases g1 : z.T a > z.T b
  · simp only [ZS.set, ZS.push, ZS.dec, g1, if_true]
  · by_cases g2 : z.T a < z.T b
    · simp only [ZS.set, ZS.push, ZS.dec, g1, g2, if_true, if_false]
    · simp only [ZS.set, ZS.push, ZS.dec, g1, g2, if_false]

theorem assignD_pw {c : Cfg K} (r : Nat) (v : K) (z : ZS K) : ∃ z', PW c (opAssignD r v) z r v z' := by
  obtain ⟨z', h1, h2, h3, h4⟩ := assignD_step (c := c) r v z
  refine ⟨z', h1, h2, ?_, h3⟩
  unfold opAssignD at h1
  split_ifs at h1 <;> simp only [zosStep] at h1 <;> injection h1 with h1 <;> rw [← h1] <;> rfl

theorem cond_pw {c : Cfg K} (v : K) (a a1 a2 r : Nat) (z : ZS K) :
    ∃ z', PW c (.condAssign a a1 a2 r v) z r (if z.T a > 0 then z.T a1 else z.T a2) z' := by
  obtain ⟨z', h1, h2, h3, h4⟩ := cond_step (c := c) v a a1 a2 r z
  refine ⟨z', h1, h2, ?_, h3⟩
  simp only [zosStep] at h1
  split at h1 <;> injection h1 with h1 <;> rw [← h1] <;> rfl

theorem condEq_pw {c : Cfg K} (v : K) (a a1 a2 r : Nat) (z : ZS K) :
    ∃ z', PW c (.condEqAssign a a1 a2 r v) z r (if z.T a ≥ 0 then z.T a1 else z.T a2) z' := by
  obtain ⟨z', h1, h2, h3, h4⟩ := condEq_step (c := c) v a a1 a2 r z
  refine ⟨z', h1, h2, ?_, h3⟩
  simp only [zosStep] at h1
  split at h1 <;> injection h1 with h1 <;> rw [← h1] <;> rfl

theorem condS_pw {c : Cfg K} (v : K) (a a1 r : Nat) (z : ZS K) :
    ∃ z', PW c (.condAssignS a a1 r v) z r (if z.T a > 0 then z.T a1 else z.T r) z' := by
  obtain ⟨z', h1, h2, h3, h4⟩ := condS_step (c := c) v a a1 r z
  refine ⟨z', h1, h2, ?_, h3⟩
  simp only [zosStep] at h1
  split at h1 <;> injection h1 with h1 <;> rw [← h1] <;> rfl

theorem condEqS_pw {c : Cfg K} (v : K) (a a1 r : Nat) (z : ZS K) :
    ∃ z', PW c (.condEqAssignS a a1 r v) z r (if z.T a ≥ 0 then z.T a1 else z.T r) z' := by
  obtain ⟨z', h1, h2, h3, h4⟩ := condEqS_step (c := c) v a a1 r z
  refine ⟨z', h1, h2, ?_, h3⟩
  simp only [zosStep] at h1
  split at h1 <;> injection h1 with h1 <;> rw [← h1] <;> rfl

section
variable {cfg : RCfg K} {s s1 : Rec K} {z : ZS K} {l : Nat} {o : Base K} {v w : K}

theorem KOk.pw (hk : cfg.keep = true) (hz : Swept T0 ⟨cfg.x, cfg.par, true⟩ s z) (hs : KSim s z)
    (h : ∃ z', PW ⟨cfg.x, cfg.par, true⟩ o z l w z') (hv : v = w) : KOk T0 cfg (s.rec1 cfg o l v) := by
  obtain ⟨z', h1, h2, h3, h4⟩ := h
  exact KOk.rec1 hk hz hs ⟨rfl, rfl, rfl, rfl⟩ h1 h2 h3 h4 hv

theorem KOk.pwT (hk : cfg.keep = true) {d : Nat} (hz : Swept T0 ⟨cfg.x, cfg.par, true⟩ s z)
    (hs : KSim s z) (h : ∃ z', PW ⟨cfg.x, cfg.par, true⟩ o z l w z') (hv : v = w) :
    KOk T0 cfg ((s.take cfg d).rec1 cfg o l v) := by
  obtain ⟨z', h1, h2, h3, h4⟩ := h
  exact KOk.rec1 hk hz hs ⟨rfl, rfl, rfl, rfl⟩ h1 h2 h3 h4 hv
end

theorem keep_step {cfg : RCfg K} (hk : cfg.keep = true) {st : Stmt K} (hf : st.notFminLL)
    {s s' : Rec K} (ok : s.Ok) (hK : KOk T0 cfg s) (h : st.record cfg s = some s') : KOk T0 cfg s' := by
  obtain ⟨z, hz, hs⟩ := hK
  have hT : ∀ l, s.V l = z.T l := fun l => by rw [hs.T]
  cases st
  all_goals simp only [Stmt.record] at h
  case new d =>
    split at h
    · cases h; exact KOk.pwT hk hz hs ⟨_, rfl, rfl, rfl, rfl⟩ rfl
    · cases h
  case newD d k =>
    split at h
    · cases h; exact KOk.pwT hk hz hs (assignD_pw _ _ _) rfl
    · cases h
  case copy d a =>
    split at h
    · simp only [Option.map_eq_some_iff] at h
      obtain ⟨la, ha, rfl⟩ := h
      exact KOk.pwT hk hz hs ⟨_, rfl, rfl, rfl, rfl⟩ (hT la)
    · cases h
  case move d a =>
    split at h
    · simp only [Option.map_eq_some_iff] at h
      obtain ⟨la, ha, rfl⟩ := h
      exact ⟨z, hz, hs.T, hs.stk, hs.ii⟩
    · cases h
  case moveA a b =>
    split at h
    · simp only [Option.bind_eq_some_iff, Option.map_eq_some_iff] at h
      obtain ⟨la, ha, lb, hb, rfl⟩ := h
      exact ⟨z, hz, hs.T, hs.stk, hs.ii⟩
    · cases h
  case del a =>
    simp only [Option.map_eq_some_iff] at h
    obtain ⟨la, ha, rfl⟩ := h
    exact ⟨z, hz, hs.T, hs.stk, hs.ii⟩
  case setA a b =>
    simp only [Option.bind_eq_some_iff, Option.map_eq_some_iff] at h
    obtain ⟨la, ha, lb, hb, rfl⟩ := h
    split
    · exact KOk.pw hk hz hs ⟨_, rfl, rfl, rfl, rfl⟩ (hT lb)
    · exact ⟨z, hz, hs⟩
  case setD a k =>
    simp only [Option.map_eq_some_iff] at h
    obtain ⟨la, ha, rfl⟩ := h
    exact KOk.pw hk hz hs (assignD_pw _ _ _) rfl
  case setP a k =>
    simp only [Option.map_eq_some_iff] at h
    obtain ⟨la, ha, rfl⟩ := h
    exact KOk.pw hk hz hs ⟨_, rfl, rfl, rfl, rfl⟩ rfl
  case accD f a k =>
    simp only [Option.map_eq_some_iff] at h
    obtain ⟨la, ha, rfl⟩ := h
    cases f <;> exact KOk.pw hk hz hs ⟨_, rfl, rfl, rfl, rfl⟩ (by rw [hT la]; rfl)
  case accA f a b =>
    simp only [Option.bind_eq_some_iff, Option.map_eq_some_iff] at h
    obtain ⟨la, ha, lb, hb, rfl⟩ := h
    cases f <;> exact KOk.pw hk hz hs ⟨_, rfl, rfl, rfl, rfl⟩ (by rw [hT la, hT lb]; rfl)
  case accR m a t =>
    split at h
    · rename_i hat
      simp only [Option.bind_eq_some_iff, Option.map_eq_some_iff] at h
      obtain ⟨la, ha, lt, ht, h⟩ := h
      have hlat : la ≠ lt := fun hl => hat (ok.inj a t la ha (hl ▸ ht))
      have plain : KOk T0 cfg ((s.rec1 cfg ((if m then Acc.minus else Acc.plus).opA lt la) la
          (if m then s.V la - s.V lt else s.V la + s.V lt)).free t lt) := by
        have : KOk T0 cfg (s.rec1 cfg ((if m then Acc.minus else Acc.plus).opA lt la) la
            (if m then s.V la - s.V lt else s.V la + s.V lt)) := by
          cases m <;> exact KOk.pw hk hz hs ⟨_, rfl, rfl, rfl, rfl⟩ (by simp [ZS.push, hT])
        obtain ⟨z', g1, g2⟩ := this
        exact ⟨z', g1, g2.T, g2.stk, g2.ii⟩
      split at h
      · rename_i p q r tr' htr
        split at h
        · rename_i hc
          obtain ⟨_, hr, hq, hp⟩ := hc
          subst hr
          obtain ⟨z0, hz0, hst⟩ := hz.pred htr
          simp only [zosStep, ZS.push, ZS.set] at hst
          cases hst
          have hstk : s.stk = z0.T lt :: z0.stk := by rw [← hs.stk]; rfl
          simp only [hk, if_true, Rec.val, hstk] at h
          rw [← h]
          have hla : s.V la = z0.T la := by rw [hT]; simp [upd_apply, hlat]
          have hlt : s.V lt = z0.T p * z0.T q := by rw [hT]; simp [upd_apply]
          refine ⟨z0.set la (if m then z0.T la - z0.T p * z0.T q else z0.T la + z0.T p * z0.T q), ?_,
            ?_, rfl, hs.ii⟩
          · unfold Swept SweptFrom
            simp only [Rec.free, List.reverse_cons, zosRun_append, hz0, zosRun]
            cases m <;> rfl
          · funext k
            simp only [Rec.free, ZS.set, upd_apply, hla, hlt]
            by_cases h1 : k = lt
            · subst h1; simp [Ne.symm hlat]
            · have := hT k
              simp only [upd_apply, h1, if_false] at this
              simp [h1, this]
        · rw [← h]; exact plain
      · rw [← h]; exact plain
    · cases h
  case incr a =>
    simp only [Option.map_eq_some_iff] at h
    obtain ⟨la, ha, rfl⟩ := h
    exact KOk.pw hk hz hs ⟨_, rfl, rfl, rfl, rfl⟩ (by rw [hT la]; rfl)
  case decr a =>
    simp only [Option.map_eq_some_iff] at h
    obtain ⟨la, ha, rfl⟩ := h
    exact KOk.pw hk hz hs ⟨_, rfl, rfl, rfl, rfl⟩ (by rw [hT la]; rfl)
  case indep a =>
    simp only [Option.map_eq_some_iff] at h
    obtain ⟨la, ha, rfl⟩ := h
    refine ⟨_, hz.snoc rfl rfl, ?_, ?_, ?_⟩
    · simp [Rec.rec1, Rec.put, Rec.keepT, Rec.val, ZS.push, ZS.set, hs.T, hs.ii]
    · simp [Rec.rec1, Rec.put, Rec.keepT, Rec.val, ZS.push, ZS.set, hs.T, hs.stk, hk]
    · simp [Rec.rec1, Rec.put, Rec.keepT, Rec.val, ZS.push, ZS.set, hs.ii]
  case dep a =>
    simp only [Option.map_eq_some_iff] at h
    obtain ⟨la, ha, rfl⟩ := h
    exact ⟨_, hz.snoc rfl rfl, hs.T, hs.stk, hs.ii⟩
  case un f a d =>
    simp only [Option.bind_eq_some_iff, Option.map_eq_some_iff] at h
    obtain ⟨ld, hd, la, ha, rfl⟩ := h
    exact KOk.pw hk hz hs (un_pw _ _ _ _ _) (by rw [un_recVal, hT])
  case bin f lv a b d =>
    simp only [Option.bind_eq_some_iff, Option.map_eq_some_iff] at h
    obtain ⟨ld, hd, la, ha, lb, hb, rfl⟩ := h
    exact KOk.pw hk hz hs (bin_pw _ _ _ _ _ _ _)
      (by rw [bin_recVal (by rintro ⟨rfl, rfl⟩; exact hf), hT, hT])
  case trig co a b d =>
    split at h
    · rename_i hab
      simp only [Option.bind_eq_some_iff, Option.map_eq_some_iff] at h
      obtain ⟨ld, hd, lb, hb, la, ha, rfl⟩ := h
      have hlbd : lb ≠ ld := fun hl => hab.2 (ok.inj b d lb hb (hl ▸ hd))
      have hlab : la ≠ lb := fun hl => hab.1 (ok.inj a b la ha (hl ▸ hb))
      refine ⟨((((z.push ⟨cfg.x, cfg.par, true⟩ lb).push ⟨cfg.x, cfg.par, true⟩ ld).set lb
          (if co then sin (z.T la) else cos (z.T la))).set ld
          (if co then cos (z.T la) else sin (z.T la))), ?_, ?_, ?_, ?_⟩
      · refine hz.snoc (o := if co then .cosOp la lb ld else .sinOp la lb ld) rfl ?_
        cases co <;> simp [zosStep, ZS.push, ZS.set, upd_apply, hlab]
      · funext k
        simp only [Rec.val, Rec.keepT, Rec.put, ZS.set, ZS.push, upd_apply, hT]
        split_ifs <;> simp_all
      · simp [Rec.val, Rec.keepT, Rec.put, ZS.set, ZS.push, hk, hT, hs.stk]
      · exact hs.ii
    · cases h
  case quad q a b d =>
    split at h
    · simp only [Option.bind_eq_some_iff, Option.map_eq_some_iff] at h
      obtain ⟨ld, hd, lb, hb, la, ha, rfl⟩ := h
      exact KOk.pw hk hz hs ⟨_, rfl, rfl, rfl, rfl⟩ (by rw [hT]; rfl)
    · cases h
  case cond r k a b =>
    simp only [Option.bind_eq_some_iff, Option.map_eq_some_iff] at h
    obtain ⟨lr, hr, lc, hc, la, ha, lb, hb, rfl⟩ := h
    exact KOk.pw hk hz hs (cond_pw _ _ _ _ _ _) (by simp only [hT])
  case condEq r k a b =>
    simp only [Option.bind_eq_some_iff, Option.map_eq_some_iff] at h
    obtain ⟨lr, hr, lc, hc, la, ha, lb, hb, rfl⟩ := h
    exact KOk.pw hk hz hs (condEq_pw _ _ _ _ _ _) (by simp only [hT])
  case condS r k a =>
    simp only [Option.bind_eq_some_iff, Option.map_eq_some_iff] at h
    obtain ⟨lr, hr, lc, hc, la, ha, rfl⟩ := h
    exact KOk.pw hk hz hs (condS_pw _ _ _ _ _) (by simp only [hT])
  case condEqS r k a =>
    simp only [Option.bind_eq_some_iff, Option.map_eq_some_iff] at h
    obtain ⟨lr, hr, lc, hc, la, ha, rfl⟩ := h
    exact KOk.pw hk hz hs (condEqS_pw _ _ _ _ _) (by simp only [hT])

theorem Prog.keep {cfg : RCfg K} (hal : ∀ k L, cfg.alloc k L ∉ L) (hk : cfg.keep = true) (p : Prog K)
    (hf : p.noFminLL) {s s' : Rec K} (ok : s.Ok) (hK : KOk T0 cfg s) (h : p.record cfg s = some s') :
    KOk T0 cfg s' := by
  induction p generalizing s with
  | done => cases h; exact hK
  | stmt st k ih =>
    simp only [Prog.record, Option.bind_eq_some_iff] at h
    obtain ⟨s1, h1, h2⟩ := h
    exact ih hf.2 (record_ok hal ok h1) (keep_step hk hf.1 ok hK h1) h2
  | branch q a t f iht ihf =>
    simp only [Prog.record, Option.bind_eq_some_iff] at h
    obtain ⟨la, ha, h⟩ := h
    obtain ⟨z, hz, hs⟩ := hK
    obtain ⟨z1, k1, k2, k3, k4⟩ : ∃ z', zosStep ⟨cfg.x, cfg.par, true⟩
        (.cmp (q.recorded (q.holds (s.V la))) la) z = .ok z' ∧ z'.T = z.T ∧ z'.ii = z.ii ∧
        z'.stk = z.stk := by
      have hh : (q.recorded (q.holds (s.V la))).holds (z.T la) = true := by
        rw [Cmp.holds_recorded, hs.T]; simp
      simp only [zosStep, hh, if_true]
      cases (q.recorded (q.holds (s.V la))) <;> exact ⟨_, rfl, rfl, rfl, rfl⟩
    have hK1 : KOk T0 cfg (s.put (.cmp (q.recorded (q.holds (s.V la))) la)) :=
      ⟨z1, hz.snoc rfl k1, by rw [k2]; exact hs.T, by rw [k4]; exact hs.stk, by rw [k3]; exact hs.ii⟩
    have ok1 : (s.put (.cmp (q.recorded (q.holds (s.V la))) la)).Ok := ok.same rfl rfl rfl
    split at h
    · exact iht hf.1 ok1 hK1 h
    · exact ihf hf.2 ok1 hK1 h

end Verif.AD
