import Verif.AD.Record
import Verif.AD.RevRun
import Mathlib.Tactic.Ring

/-!
The trace a program records, swept forward at any point on the same path, computes what the
program computes there.
-/
set_option linter.all false
namespace Verif.AD
open Elem

variable {K : Type} [Scalar K] {Z0 : ZS K}

/-- Objects have different locations, which are in use. -/
structure Rec.Ok (s : Rec K) : Prop where
  inj : ∀ a b l, s.env a = some l → s.env b = some l → a = b
  live : ∀ a l, s.env a = some l → l ∈ s.live
  hw : ∀ l ∈ s.live, l < s.hw

/-- A sweep state shows the values of the program. -/
structure Sim (env : Nat → Option Nat) (z : ZS K) (e : SE K) : Prop where
  vars : ∀ a, e.vars a = (env a).map z.T
  ii : z.ii = e.ii
  y : z.y = e.ys

theorem Rec.Start.ok {s : Rec K} {stock : List (Nat × List K)} (h : s.Start stock) : s.Ok := ⟨h.inj, h.live, h.hw⟩

section
variable {env : Nat → Option Nat} {z z' : ZS K} {e : SE K}

theorem Sim.get (h : Sim env z e) {a l : Nat} (ha : env a = some l) : e.vars a = some (z.T l) := by
  rw [h.vars, ha]; rfl

theorem Sim.write (h : Sim env z e) (inj : ∀ a b l, env a = some l → env b = some l → a = b)
    {d l : Nat} (hd : env d = some l) {w : K} (hT : z'.T = upd z.T l w) (hi : z'.ii = z.ii)
    (hy : z'.y = z.y) : Sim env z' (e.set d w) := by
  refine ⟨fun a => ?_, by rw [hi, h.ii]; rfl, by rw [hy, h.y]; rfl⟩
  simp only [SE.set, upd_apply, hT]
  by_cases ha : a = d
  · subst ha; simp [hd, upd_apply]
  · rw [if_neg ha, h.vars a]
    cases hl : env a with
    | none => rfl
    | some m =>
      have : m ≠ l := fun hm => ha (inj a d l (hm ▸ hl) hd)
      simp [upd_apply, this]

theorem Sim.take (h : Sim env z e) {d l : Nat} (hl : ∀ a, env a ≠ some l) {w : K}
    (hT : z'.T = upd z.T l w) (hi : z'.ii = z.ii) (hy : z'.y = z.y) :
    Sim (upd env d (some l)) z' (e.set d w) := by
  refine ⟨fun a => ?_, by rw [hi, h.ii]; rfl, by rw [hy, h.y]; rfl⟩
  simp only [SE.set, upd_apply, hT]
  by_cases ha : a = d
  · simp [ha, upd_apply]
  · simp only [if_neg ha, h.vars a]
    cases hm : env a with
    | none => rfl
    | some m =>
      have : m ≠ l := fun hm' => hl a (hm' ▸ hm)
      simp [upd_apply, this]

theorem Sim.drop (h : Sim env z e) (d : Nat) : Sim (upd env d none) z (e.del d) := by
  refine ⟨fun a => ?_, h.ii, h.y⟩
  simp only [SE.del, upd_apply]
  split
  · rfl
  · exact h.vars a

theorem Sim.move (h : Sim env z e) {d a l : Nat} (ha : env a = some l) :
    Sim (upd (upd env a none) d (some l)) z ((e.del a).set d (z.T l)) := by
  refine ⟨fun b => ?_, h.ii, h.y⟩
  simp only [SE.del, SE.set, upd_apply]
  split
  · rfl
  · split
    · rfl
    · exact h.vars b
end

/-! ### The recorder's bookkeeping -/

section
variable {cfg : RCfg K} {s s' : Rec K}

theorem Rec.Ok.same (h : s.Ok) (h1 : s'.env = s.env) (h2 : s'.live = s.live) (h3 : s'.hw = s.hw) :
    s'.Ok := by
  obtain ⟨a, b, c⟩ := h
  exact ⟨by rwa [h1], by rwa [h1, h2], by rwa [h2, h3]⟩

theorem Rec.Ok.take (h : s.Ok) (hal : ∀ k L, cfg.alloc k L ∉ L) (d : Nat) : (s.take cfg d).Ok := by
  have hn : ∀ a, s.env a ≠ some (s.next cfg) := fun a ha => hal _ _ (h.live a _ ha)
  refine ⟨fun a b l ha hb => ?_, fun a l ha => ?_, fun l hl => ?_⟩
  · simp only [Rec.take, upd_apply] at ha hb
    split at ha <;> split at hb
    · omega
    · cases ha; exact absurd hb (hn b)
    · cases hb; exact absurd ha (hn a)
    · exact h.inj a b l ha hb
  · simp only [Rec.take, upd_apply] at ha ⊢
    split at ha
    · cases ha; simp
    · exact List.mem_cons_of_mem _ (h.live a l ha)
  · simp only [Rec.take, List.mem_cons] at hl ⊢
    rcases hl with rfl | hl
    · omega
    · have := h.hw l hl; omega

theorem Rec.Ok.free (h : s.Ok) {d l : Nat} (hd : s.env d = some l) : (s.free d l).Ok := by
  refine ⟨fun a b m ha hb => ?_, fun a m ha => ?_, fun m hm => ?_⟩
  · simp only [Rec.free, upd_apply] at ha hb
    split at ha
    · cases ha
    · split at hb
      · cases hb
      · exact h.inj a b m ha hb
  · simp only [Rec.free, upd_apply] at ha ⊢
    split at ha
    · cases ha
    · rename_i hne
      have : m ≠ l := fun hm => hne (h.inj a d l (hm ▸ ha) hd)
      exact (List.mem_erase_of_ne this).2 (h.live a m ha)
  · exact h.hw m (List.mem_of_mem_erase hm)

theorem Rec.Ok.move (h : s.Ok) {d a l : Nat} (ha : s.env a = some l) :
    ({ s with env := upd (upd s.env a none) d (some l) } : Rec K).Ok := by
  refine ⟨fun b c m hb hc => ?_, fun b m hb => ?_, h.hw⟩
  · simp only [upd_apply] at hb hc
    split at hb <;> split at hc
    · omega
    · cases hb
      split at hc
      · cases hc
      · rename_i hca; exact absurd (h.inj c a l hc ha) hca
    · cases hc
      split at hb
      · cases hb
      · rename_i hca; exact absurd (h.inj b a l hb ha) hca
    · split at hb
      · cases hb
      · split at hc
        · cases hc
        · exact h.inj b c m hb hc
  · simp only [upd_apply] at hb
    split at hb
    · cases hb; exact h.live a l ha
    · split at hb
      · cases hb
      · exact h.live b m hb
end

/-- A sweep over the trace recorded so far. -/
def SweptFrom (Z0 : ZS K) (c : Cfg K) (s : Rec K) (z : ZS K) : Prop := zosRun c s.tr.reverse Z0 = .ok z
abbrev Swept (T0 : Nat → K) (c : Cfg K) (s : Rec K) (z : ZS K) : Prop := SweptFrom (ZS.start T0) c s z

theorem SweptFrom.snoc {c : Cfg K} {s s' : Rec K} {z z' : ZS K} {o : Base K} (h : SweptFrom Z0 c s z)
    (ho : s'.tr = o :: s.tr) (hz : zosStep c o z = .ok z') : SweptFrom Z0 c s' z' := by
  unfold SweptFrom at *
  rw [ho, List.reverse_cons, zosRun_append, h]
  simp [zosRun, hz]

theorem SweptFrom.pred {c : Cfg K} {s : Rec K} {z : ZS K} {o : Base K} {tr : List (Base K)}
    (h : SweptFrom Z0 c s z) (ho : s.tr = o :: tr) :
    ∃ z0, zosRun c tr.reverse Z0 = .ok z0 ∧ zosStep c o z0 = .ok z := by
  unfold SweptFrom at h
  rw [ho, List.reverse_cons, zosRun_append] at h
  split at h
  · cases h
  · rename_i z0 h0
    simp only [zosRun] at h
    split at h
    · cases h
    · rename_i z1 h1
      cases h
      exact ⟨z0, h0, h1⟩

/-- What one call guarantees. -/
def StepOk (Z0 : ZS K) (c : Cfg K) (s' : Rec K) (sp : Option (SE K)) : Prop :=
  s'.Ok ∧ ∃ e' z', sp = some e' ∧ SweptFrom Z0 c s' z' ∧ Sim s'.env z' e'

theorem StepOk.rec1 {c : Cfg K} {cfg : RCfg K} {s : Rec K} {z z' : ZS K} {e : SE K} (ok : s.Ok)
    (hz : SweptFrom Z0 c s z) (hs : Sim s.env z e) {d l : Nat} (hd : s.env d = some l) {o : Base K} {v w : K}
    (hstep : zosStep c o z = .ok z') (hT : z'.T = upd z.T l w) (hi : z'.ii = z.ii) (hy : z'.y = z.y) :
    StepOk Z0 c (s.rec1 cfg o l v) (some (e.set d w)) :=
  ⟨ok.same rfl rfl rfl, _, z', rfl, hz.snoc rfl hstep, hs.write ok.inj hd hT hi hy⟩

theorem StepOk.take1 {c : Cfg K} {cfg : RCfg K} (hal : ∀ k L, cfg.alloc k L ∉ L) {s : Rec K}
    {z z' : ZS K} {e : SE K} (ok : s.Ok)
    (hz : SweptFrom Z0 c s z) (hs : Sim s.env z e) {d : Nat} {o : Base K} {v w : K}
    (hstep : zosStep c o z = .ok z') (hT : z'.T = upd z.T (s.next cfg) w) (hi : z'.ii = z.ii)
    (hy : z'.y = z.y) :
    StepOk Z0 c ((s.take cfg d).rec1 cfg o (s.next cfg) v) (some (e.set d w)) :=
  ⟨(ok.take hal d).same rfl rfl rfl, _, z', rfl, hz.snoc rfl hstep,
    hs.take (fun a ha => hal _ _ (ok.live a _ ha)) hT hi hy⟩

theorem fabs_dec {c : Cfg K} {a r : Nat} {v : K} {z : ZS K} :
    ∃ z', zosStep c (.absVal a r v) z = .ok z' ∧ z'.T = upd z.T r (fabs (z.T a)) ∧ z'.ii = z.ii ∧
      z'.y = z.y := by
  simp only [zosStep]
  split_ifs <;> exact ⟨_, rfl, rfl, rfl, rfl⟩

theorem un_step {c : Cfg K} (f : Un K) (v : K) (a r : Nat) (z : ZS K) :
    ∃ z', zosStep c (f.op v a r) z = .ok z' ∧ z'.T = upd z.T r (f.fn (z.T a)) ∧ z'.ii = z.ii ∧
      z'.y = z.y := by
  cases f <;> simp only [Un.op, Un.fn, opPlusD, opMinD, opMultD] <;>
    try exact ⟨_, rfl, rfl, rfl, rfl⟩
  case plusD k =>
    split
    · exact ⟨_, rfl, by simp [ZS.set, ZS.push, add_comm], rfl, rfl⟩
    · rename_i h
      have : k = 0 := by simpa using h
      exact ⟨_, rfl, by simp [ZS.set, ZS.push, this], rfl, rfl⟩
  case subD k =>
    split
    · exact ⟨_, rfl, by simp [ZS.set, ZS.push, sub_eq_add_neg], rfl, rfl⟩
    · rename_i h
      have : k = 0 := by simpa using h
      exact ⟨_, rfl, by simp [ZS.set, ZS.push, this], rfl, rfl⟩
  case minD k =>
    split
    · exact ⟨_, rfl, by simp [ZS.set, ZS.push], rfl, rfl⟩
    · rename_i h
      have : k = 0 := by simpa using h
      exact ⟨_, rfl, by simp [ZS.set, ZS.push, this], rfl, rfl⟩
  case multD k =>
    split
    · rename_i h; exact ⟨_, rfl, by simp [ZS.set, ZS.push, h], rfl, rfl⟩
    · split
      · rename_i h; exact ⟨_, rfl, by simp [ZS.set, ZS.push, h], rfl, rfl⟩
      · exact ⟨_, rfl, by simp [ZS.set, ZS.push, mul_comm], rfl, rfl⟩
  case overD k =>
    split
    · rename_i h
      have : k = 1 := by
        have := congrArg (fun x => x⁻¹) h; simpa using this
      exact ⟨_, rfl, by simp [ZS.set, ZS.push, this], rfl, rfl⟩
    · split
      · rename_i h
        have : k = -1 := by
          have := congrArg (fun x => x⁻¹) h; simpa [inv_neg] using this
        exact ⟨_, rfl, by simp [ZS.set, ZS.push, this, div_neg], rfl, rfl⟩
      · exact ⟨_, rfl, by simp [ZS.set, ZS.push, div_eq_mul_inv], rfl, rfl⟩
  case fabs => exact fabs_dec

theorem bin_step {c : Cfg K} (f : Bin) (v w : K) (a b r : Nat) (z : ZS K) :
    ∃ z', zosStep c (f.op v w a b r) z = .ok z' ∧ z'.T = upd z.T r (f.fn (z.T a) (z.T b)) ∧
      z'.ii = z.ii ∧ z'.y = z.y := by
  cases f <;> simp only [Bin.op, Bin.fn] <;> try exact ⟨_, rfl, rfl, rfl, rfl⟩
  simp only [zosStep, ZS.push, ZS.dec]
  by_cases h1 : z.T a > z.T b
  · simp only [h1, if_true]; exact ⟨_, rfl, rfl, rfl, rfl⟩
  · by_cases h2 : z.T a < z.T b
    · simp only [h1, h2, if_true, if_false]; exact ⟨_, rfl, rfl, rfl, rfl⟩
    · simp only [h1, h2, if_false]; exact ⟨_, rfl, rfl, rfl, rfl⟩

theorem cond_step {c : Cfg K} (v : K) (a a1 a2 r : Nat) (z : ZS K) :
    ∃ z', zosStep c (.condAssign a a1 a2 r v) z = .ok z' ∧
      z'.T = upd z.T r (if z.T a > 0 then z.T a1 else z.T a2) ∧ z'.ii = z.ii ∧ z'.y = z.y := by
  by_cases hp : z.T a > 0
  · simp only [zosStep, ZS.push, hp, if_true]
    exact ⟨_, rfl, by simp [ZS.set, ZS.dec, hp], rfl, rfl⟩
  · simp only [zosStep, ZS.push, hp, if_false]
    exact ⟨_, rfl, by simp [ZS.set, ZS.dec, hp], rfl, rfl⟩

theorem condEq_step {c : Cfg K} (v : K) (a a1 a2 r : Nat) (z : ZS K) :
    ∃ z', zosStep c (.condEqAssign a a1 a2 r v) z = .ok z' ∧
      z'.T = upd z.T r (if z.T a ≥ 0 then z.T a1 else z.T a2) ∧ z'.ii = z.ii ∧ z'.y = z.y := by
  by_cases hp : z.T a ≥ 0
  · simp only [zosStep, ZS.push, hp, if_true]
    exact ⟨_, rfl, by simp [ZS.set, ZS.dec, hp], rfl, rfl⟩
  · simp only [zosStep, ZS.push, hp, if_false]
    exact ⟨_, rfl, by simp [ZS.set, ZS.dec, hp], rfl, rfl⟩

theorem condS_step {c : Cfg K} (v : K) (a a1 r : Nat) (z : ZS K) :
    ∃ z', zosStep c (.condAssignS a a1 r v) z = .ok z' ∧
      z'.T = upd z.T r (if z.T a > 0 then z.T a1 else z.T r) ∧ z'.ii = z.ii ∧ z'.y = z.y := by
  by_cases hp : z.T a > 0
  · simp only [zosStep, ZS.push, hp, if_true]
    exact ⟨_, rfl, by simp [ZS.set, ZS.dec, hp], rfl, rfl⟩
  · simp only [zosStep, ZS.push, hp, if_false]
    exact ⟨_, rfl, by simp [ZS.set, ZS.dec, hp], rfl, rfl⟩

theorem condEqS_step {c : Cfg K} (v : K) (a a1 r : Nat) (z : ZS K) :
    ∃ z', zosStep c (.condEqAssignS a a1 r v) z = .ok z' ∧
      z'.T = upd z.T r (if z.T a ≥ 0 then z.T a1 else z.T r) ∧ z'.ii = z.ii ∧ z'.y = z.y := by
  by_cases hp : z.T a ≥ 0
  · simp only [zosStep, ZS.push, hp, if_true]
    exact ⟨_, rfl, by simp [ZS.set, ZS.dec, hp], rfl, rfl⟩
  · simp only [zosStep, ZS.push, hp, if_false]
    exact ⟨_, rfl, by simp [ZS.set, ZS.dec, hp], rfl, rfl⟩

theorem assignD_step {c : Cfg K} (r : Nat) (v : K) (z : ZS K) :
    ∃ z', zosStep c (opAssignD r v) z = .ok z' ∧ z'.T = upd z.T r v ∧ z'.ii = z.ii ∧ z'.y = z.y := by
  unfold opAssignD
  split
  · rename_i h; exact ⟨_, rfl, by simp [ZS.set, ZS.push, h], rfl, rfl⟩
  · split
    · rename_i h; exact ⟨_, rfl, by simp [ZS.set, ZS.push, h], rfl, rfl⟩
    · exact ⟨_, rfl, rfl, rfl, rfl⟩

theorem accR_sim {c : Cfg K} {cfg : RCfg K} {m : Bool} {a t : Nat} {s s' : Rec K} {z : ZS K}
    {e : SE K} (ok : s.Ok) (hz : SweptFrom Z0 c s z) (hs : Sim s.env z e)
    (h : (Stmt.accR m a t : Stmt K).record cfg s = some s') :
    StepOk Z0 c s' ((Stmt.accR m a t : Stmt K).spec c.x c.par e) := by
  simp only [Stmt.record] at h
  split at h
  · rename_i hat
    simp only [Option.bind_eq_some_iff, Option.map_eq_some_iff] at h
    obtain ⟨la, ha, lt, ht, h⟩ := h
    have hlat : la ≠ lt := fun hl => hat (ok.inj a t la ha (hl ▸ ht))
    have hsp : (Stmt.accR m a t : Stmt K).spec c.x c.par e =
        some ((e.set a (if m then z.T la - z.T lt else z.T la + z.T lt)).del t) := by
      simp [Stmt.spec, hat, hs.get ha, hs.get ht]
    rw [hsp]
    have plainOk : StepOk Z0 c ((s.rec1 cfg ((if m then Acc.minus else Acc.plus).opA lt la) la
        (if m then s.V la - s.V lt else s.V la + s.V lt)).free t lt)
        (some ((e.set a (if m then z.T la - z.T lt else z.T la + z.T lt)).del t)) := by
      refine ⟨(ok.same (s' := s.rec1 cfg ((if m then Acc.minus else Acc.plus).opA lt la) la
        (if m then s.V la - s.V lt else s.V la + s.V lt)) rfl rfl rfl).free ht, ?_⟩
      cases m
      · exact ⟨_, _, rfl, hz.snoc rfl rfl, Sim.drop (hs.write (z' := z.push c la |>.set la _) ok.inj ha rfl rfl rfl) t⟩
      · exact ⟨_, _, rfl, hz.snoc rfl rfl, Sim.drop (hs.write (z' := z.push c la |>.set la _) ok.inj ha rfl rfl rfl) t⟩
    split at h
    · rename_i p q r tr' htr
      split at h
      · rename_i hc
        obtain ⟨_, hr, hq, hp⟩ := hc
        subst hr
        obtain ⟨z0, hz0, hst⟩ := hz.pred htr
        simp only [zosStep, ZS.push, ZS.set] at hst
        cases hst
        obtain ⟨z', hz', hT', hi', hy'⟩ : ∃ z', zosStep c (if m then Base.eqMinProd p q la else
            .eqPlusProd p q la) z0 = .ok z' ∧ z'.T = upd z0.T la (if m then z0.T la - z0.T p * z0.T q
              else z0.T la + z0.T p * z0.T q) ∧ z'.ii = z0.ii ∧ z'.y = z0.y := by
          cases m
          · exact ⟨_, rfl, rfl, rfl, rfl⟩
          · exact ⟨_, rfl, rfl, rfl, rfl⟩
        have key : ∀ V stk, StepOk Z0 c ({ s with V := V, stk := stk, tr := (if m then Base.eqMinProd p q la
            else .eqPlusProd p q la) :: tr' }.free t lt) (some ((e.set a (if m then
            upd z0.T lt (z0.T p * z0.T q) la - upd z0.T lt (z0.T p * z0.T q) lt else
            upd z0.T lt (z0.T p * z0.T q) la + upd z0.T lt (z0.T p * z0.T q) lt)).del t)) := by
          intro V stk
          refine ⟨(ok.same (s' := { s with V := V, stk := stk, tr := (if m then Base.eqMinProd p q la
            else .eqPlusProd p q la) :: tr' }) rfl rfl rfl).free ht, _, z', rfl, ?_, ?_, ?_, ?_⟩
          · unfold SweptFrom
            simp only [Rec.free, List.reverse_cons, zosRun_append, hz0, zosRun, hz']
          · intro b
            simp only [Rec.free, SE.del, SE.set, upd_apply, upd_same, hlat, if_false, hT']
            by_cases hbt : b = t
            · simp [hbt]
            · simp only [hbt, if_false]
              by_cases hba : b = a
              · subst hba; simp [ha, upd_apply]
              · rw [if_neg hba, hs.vars b]
                cases hl : s.env b with
                | none => rfl
                | some k =>
                  have h1 : k ≠ la := fun hk => hba (ok.inj b a la (hk ▸ hl) ha)
                  have h2 : k ≠ lt := fun hk => hbt (ok.inj b t lt (hk ▸ hl) ht)
                  simp [upd_apply, h1, h2]
          · rw [hi']; exact hs.ii
          · rw [hy']; exact hs.y
        cases hk : cfg.keep
        · simp only [hk, Rec.val] at h
          rw [← h]; exact key _ _
        · simp only [hk, Rec.val, if_true] at h
          cases hst : s.stk with
          | nil => simp only [hst] at h; rw [← h]; exact key _ _
          | cons y st => simp only [hst] at h; rw [← h]; exact key _ _
      · rw [← h]; exact plainOk
    · rw [← h]; exact plainOk
  · cases h

theorem sim_step {c : Cfg K} {cfg : RCfg K} (hal : ∀ k L, cfg.alloc k L ∉ L) {st : Stmt K}
    {s s' : Rec K} {z : ZS K} {e : SE K} (ok : s.Ok) (hz : SweptFrom Z0 c s z) (hs : Sim s.env z e)
    (h : st.record cfg s = some s') : StepOk Z0 c s' (st.spec c.x c.par e) := by
  have hnone : ∀ d, (s.env d).isNone = true → (e.vars d).isNone = true := by
    intro d hd; rw [hs.vars]; cases hh : s.env d <;> simp_all
  cases st
  case accR m a t => exact accR_sim ok hz hs h
  all_goals simp only [Stmt.record] at h
  case new d =>
    split at h
    · rename_i hd
      cases h
      simp only [Stmt.spec, hnone d hd, if_true]
      exact StepOk.take1 hal ok hz hs rfl rfl rfl rfl
    · cases h
  case newD d k =>
    split at h
    · rename_i hd
      cases h
      simp only [Stmt.spec, hnone d hd, if_true]
      obtain ⟨z', h1, h2, h3, h4⟩ := assignD_step (c := c) (s.next cfg) k z
      exact StepOk.take1 hal ok hz hs h1 h2 h3 h4
    · cases h
  case copy d a =>
    split at h
    · rename_i hd
      simp only [Option.map_eq_some_iff] at h
      obtain ⟨la, ha, rfl⟩ := h
      simp only [Stmt.spec, hnone d hd, if_true, hs.get ha]
      exact StepOk.take1 hal ok hz hs rfl rfl rfl rfl
    · cases h
  case move d a =>
    split at h
    · rename_i hd
      simp only [Option.map_eq_some_iff] at h
      obtain ⟨la, ha, rfl⟩ := h
      simp only [Stmt.spec, hnone d hd, if_true, hs.get ha]
      exact ⟨ok.move ha, _, z, rfl, hz, hs.move ha⟩
    · cases h
  case moveA a b =>
    split at h
    · rename_i hd
      simp only [Option.bind_eq_some_iff, Option.map_eq_some_iff] at h
      obtain ⟨la, ha, lb, hb, rfl⟩ := h
      have hb' : (s.free a la).env b = some lb := by simp [Rec.free, upd_apply, Ne.symm hd, hb]
      simp only [Stmt.spec, hs.get ha, hs.get hb]
      refine ⟨(ok.free ha).move hb', _, z, by simp [hd]; rfl, hz, ?_⟩
      refine ⟨fun i => ?_, hs.ii, hs.y⟩
      simp only [Rec.free, SE.set, SE.del, upd_apply]
      split
      · rfl
      · split
        · rfl
        · exact hs.vars i
    · cases h
  case del a =>
    simp only [Option.map_eq_some_iff] at h
    obtain ⟨la, ha, rfl⟩ := h
    simp only [Stmt.spec, hs.get ha]
    exact ⟨ok.free ha, _, z, rfl, hz, hs.drop a⟩
  case setD a k =>
    simp only [Option.map_eq_some_iff] at h
    obtain ⟨la, ha, rfl⟩ := h
    simp only [Stmt.spec, hs.get ha]
    obtain ⟨z', h1, h2, h3, h4⟩ := assignD_step (c := c) la k z
    exact StepOk.rec1 ok hz hs ha h1 h2 h3 h4
  case setA a b =>
    simp only [Option.bind_eq_some_iff, Option.map_eq_some_iff] at h
    obtain ⟨la, ha, lb, hb, rfl⟩ := h
    simp only [Stmt.spec, hs.get ha, hs.get hb]
    split
    · exact StepOk.rec1 ok hz hs ha rfl rfl rfl rfl
    · rename_i hab
      have hab : la = lb := by simpa using hab
      subst hab
      exact ⟨ok, _, z, rfl, hz, hs.write ok.inj ha (by simp) rfl rfl⟩
  case setP a k =>
    simp only [Option.map_eq_some_iff] at h
    obtain ⟨la, ha, rfl⟩ := h
    simp only [Stmt.spec, hs.get ha]
    exact StepOk.rec1 ok hz hs ha rfl rfl rfl rfl
  case accD f a k =>
    simp only [Option.map_eq_some_iff] at h
    obtain ⟨la, ha, rfl⟩ := h
    simp only [Stmt.spec, hs.get ha]
    cases f <;> exact StepOk.rec1 ok hz hs ha rfl rfl rfl rfl
  case accA f a b =>
    simp only [Option.bind_eq_some_iff, Option.map_eq_some_iff] at h
    obtain ⟨la, ha, lb, hb, rfl⟩ := h
    simp only [Stmt.spec, hs.get ha, hs.get hb]
    cases f <;> exact StepOk.rec1 ok hz hs ha rfl rfl rfl rfl
  case incr a =>
    simp only [Option.map_eq_some_iff] at h
    obtain ⟨la, ha, rfl⟩ := h
    simp only [Stmt.spec, hs.get ha]
    exact StepOk.rec1 ok hz hs ha rfl rfl rfl rfl
  case decr a =>
    simp only [Option.map_eq_some_iff] at h
    obtain ⟨la, ha, rfl⟩ := h
    simp only [Stmt.spec, hs.get ha]
    exact StepOk.rec1 ok hz hs ha rfl rfl rfl rfl
  case indep a =>
    simp only [Option.map_eq_some_iff] at h
    obtain ⟨la, ha, rfl⟩ := h
    simp only [Stmt.spec, hs.get ha]
    have hw : Sim s.env (z.set la (c.x z.ii)) (e.set a (c.x z.ii)) :=
      hs.write ok.inj ha rfl rfl rfl
    refine ⟨ok.same rfl rfl rfl, _, _, rfl, hz.snoc rfl rfl, fun i => ?_, by simp [ZS.push, hs.ii], hs.y⟩
    rw [← hs.ii]; exact hw.vars i
  case dep a =>
    simp only [Option.map_eq_some_iff] at h
    obtain ⟨la, ha, rfl⟩ := h
    simp only [Stmt.spec, hs.get ha]
    exact ⟨ok.same rfl rfl rfl, _, _, rfl, hz.snoc rfl rfl, hs.vars, hs.ii, by simp [hs.y]⟩
  case un f a d =>
    simp only [Option.bind_eq_some_iff, Option.map_eq_some_iff] at h
    obtain ⟨ld, hd, la, ha, rfl⟩ := h
    simp only [Stmt.spec, hs.get ha, hs.get hd]
    obtain ⟨z', h1, h2, h3, h4⟩ := un_step (c := c) f (s.V la) la ld z
    exact StepOk.rec1 ok hz hs hd h1 h2 h3 h4
  case bin f lv a b d =>
    simp only [Option.bind_eq_some_iff, Option.map_eq_some_iff] at h
    obtain ⟨ld, hd, la, ha, lb, hb, rfl⟩ := h
    simp only [Stmt.spec, hs.get ha, hs.get hb, hs.get hd]
    obtain ⟨z', h1, h2, h3, h4⟩ := bin_step (c := c) f (s.V la) (s.V lb) la lb ld z
    exact StepOk.rec1 ok hz hs hd h1 h2 h3 h4
  case trig co a b d =>
    split at h
    · rename_i hab
      simp only [Option.bind_eq_some_iff, Option.map_eq_some_iff] at h
      obtain ⟨ld, hd, lb, hb, la, ha, rfl⟩ := h
      have hlab : la ≠ lb := fun hl => hab.1 (ok.inj a b la ha (hl ▸ hb))
      simp only [Stmt.spec, hs.get ha, hs.get hb, hs.get hd]
      refine ⟨ok.same rfl rfl rfl, ?_⟩
      cases co
      · refine ⟨_, _, by simp [hab]; rfl, hz.snoc rfl rfl, ?_⟩
        exact ((hs.write (z' := z.set lb (cos (z.T la))) ok.inj hb rfl rfl rfl).write ok.inj hd
          (by simp [ZS.set, ZS.push, upd_apply, hlab]) rfl rfl)
      · refine ⟨_, _, by simp [hab]; rfl, hz.snoc rfl rfl, ?_⟩
        exact ((hs.write (z' := z.set lb (sin (z.T la))) ok.inj hb rfl rfl rfl).write ok.inj hd
          (by simp [ZS.set, ZS.push, upd_apply, hlab]) rfl rfl)
    · cases h
  case quad q a b d =>
    split at h
    · rename_i hab
      simp only [Option.bind_eq_some_iff, Option.map_eq_some_iff] at h
      obtain ⟨ld, hd, lb, hb, la, ha, rfl⟩ := h
      simp only [Stmt.spec, hs.get ha, hs.get hb, hs.get hd]
      have := StepOk.rec1 (cfg := cfg) (v := q.fn (s.V la)) ok hz hs hd
        (o := .quad q la lb ld) (w := q.fn (z.T la)) rfl rfl rfl rfl
      simpa [hab] using this
    · cases h
  case cond r k a b =>
    simp only [Option.bind_eq_some_iff, Option.map_eq_some_iff] at h
    obtain ⟨lr, hr, lc, hc, la, ha, lb, hb, rfl⟩ := h
    simp only [Stmt.spec, hs.get ha, hs.get hb, hs.get hr, hs.get hc]
    obtain ⟨z', h1, h2, h3, h4⟩ := cond_step (c := c) (s.V lc) lc la lb lr z
    exact StepOk.rec1 ok hz hs hr h1 h2 h3 h4
  case condEq r k a b =>
    simp only [Option.bind_eq_some_iff, Option.map_eq_some_iff] at h
    obtain ⟨lr, hr, lc, hc, la, ha, lb, hb, rfl⟩ := h
    simp only [Stmt.spec, hs.get ha, hs.get hb, hs.get hr, hs.get hc]
    obtain ⟨z', h1, h2, h3, h4⟩ := condEq_step (c := c) (s.V lc) lc la lb lr z
    exact StepOk.rec1 ok hz hs hr h1 h2 h3 h4
  case condS r k a =>
    simp only [Option.bind_eq_some_iff, Option.map_eq_some_iff] at h
    obtain ⟨lr, hr, lc, hc, la, ha, rfl⟩ := h
    simp only [Stmt.spec, hs.get ha, hs.get hr, hs.get hc]
    obtain ⟨z', h1, h2, h3, h4⟩ := condS_step (c := c) (s.V lc) lc la lr z
    exact StepOk.rec1 ok hz hs hr h1 h2 h3 h4
  case condEqS r k a =>
    simp only [Option.bind_eq_some_iff, Option.map_eq_some_iff] at h
    obtain ⟨lr, hr, lc, hc, la, ha, rfl⟩ := h
    simp only [Stmt.spec, hs.get ha, hs.get hr, hs.get hc]
    obtain ⟨z', h1, h2, h3, h4⟩ := condEqS_step (c := c) (s.V lc) lc la lr z
    exact StepOk.rec1 ok hz hs hr h1 h2 h3 h4

theorem record_ok {cfg : RCfg K} (hal : ∀ k L, cfg.alloc k L ∉ L) {st : Stmt K}
    {s s' : Rec K} (ok : s.Ok) (h : st.record cfg s = some s') : s'.Ok := by
  -- the sweep of the empty trace with the same operations suffices
  have key : ∀ (tr : List (Base K)), s'.Ok ↔ ({ s' with tr := tr } : Rec K).Ok := fun tr =>
    ⟨fun h => h.same rfl rfl rfl, fun h => h.same rfl rfl rfl⟩
  cases st
  all_goals simp only [Stmt.record] at h
  case accR m a t =>
    split at h
    · simp only [Option.bind_eq_some_iff, Option.map_eq_some_iff] at h
      obtain ⟨la, ha, lt, ht, h⟩ := h
      have fin : ∀ V stk tr, ({ s with V := V, stk := stk, tr := tr } : Rec K).free t lt |>.Ok :=
        fun V stk tr => Rec.Ok.free (s := { s with V := V, stk := stk, tr := tr })
          (ok.same rfl rfl rfl) ht
      split at h
      · split at h
        · cases hk : cfg.keep
          · simp only [hk, Rec.val] at h
            rw [← h]; exact fin _ _ _
          · simp only [hk, Rec.val, if_true] at h
            cases hst : s.stk with
            | nil => simp only [hst] at h; rw [← h]; exact fin _ _ _
            | cons y st => simp only [hst] at h; rw [← h]; exact fin _ _ _
        · rw [← h]; exact fin _ _ _
      · rw [← h]; exact fin _ _ _
    · cases h
  case move d a =>
    split at h
    · simp only [Option.map_eq_some_iff] at h
      obtain ⟨la, ha, rfl⟩ := h
      exact ok.move ha
    · cases h
  case moveA a b =>
    split at h
    · rename_i hd
      simp only [Option.bind_eq_some_iff, Option.map_eq_some_iff] at h
      obtain ⟨la, ha, lb, hb, rfl⟩ := h
      have hb' : (s.free a la).env b = some lb := by simp [Rec.free, upd_apply, Ne.symm hd, hb]
      exact (ok.free ha).move hb'
    · cases h
  case del a =>
    simp only [Option.map_eq_some_iff] at h
    obtain ⟨la, ha, rfl⟩ := h
    exact ok.free ha
  all_goals try split at h
  all_goals try cases h
  all_goals try simp only [Option.bind_eq_some_iff, Option.map_eq_some_iff] at h
  all_goals first
    | exact (ok.take hal _).same rfl rfl rfl
    | (obtain ⟨_, _, rfl⟩ := h; first | exact (ok.take hal _).same rfl rfl rfl | exact ok.same rfl rfl rfl)
    | (obtain ⟨_, _, _, _, h⟩ := h; split at h <;> cases h <;> first | exact ok | exact ok.same rfl rfl rfl)
    | (obtain ⟨_, _, _, _, rfl⟩ := h; exact ok.same rfl rfl rfl)
    | (obtain ⟨_, _, _, _, _, _, rfl⟩ := h; exact ok.same rfl rfl rfl)
    | (obtain ⟨_, _, _, _, _, _, _, _, rfl⟩ := h; exact ok.same rfl rfl rfl)

theorem Cmp.holds_recorded (c : Cmp) (b : Bool) (v : K) :
    (c.recorded b).holds v = (c.holds v == b) := by
  cases c <;> cases b <;> simp [Cmp.recorded, Cmp.holds, not_le, not_lt] <;> grind

theorem cmp_step_ok {c : Cfg K} {q : Cmp} {a : Nat} {z : ZS K} (h : q.holds (z.T a) = true) :
    ∃ z', zosStep c (.cmp q a) z = .ok z' ∧ z'.T = z.T ∧ z'.ii = z.ii ∧ z'.y = z.y := by
  simp only [zosStep, h, if_true]
  cases q <;> exact ⟨_, rfl, rfl, rfl, rfl⟩

/-- Sweep of a prefix that stops: the whole sweep stops. -/
theorem zosRun_stop {c : Cfg K} {a b : List (Base K)} {s : ZS K} {x : Stop}
    (h : zosRun c a s = .error x) : zosRun c (a ++ b) s = .error x := by
  rw [zosRun_append, h]

/-- The trace only grows, except that the last operation may be replaced by the fused one
with the same first part (used for: an earlier stop stays a stop). -/
theorem record_stop {cfg : RCfg K} {c : Cfg K} {st : Stmt K} {s s' : Rec K} {x : Stop}
    (h : st.record cfg s = some s') (hz : zosRun c s.tr.reverse Z0 = .error x) :
    zosRun c s'.tr.reverse Z0 = .error x := by
  have grow : ∀ o : Base K, zosRun c (o :: s.tr).reverse Z0 = .error x := fun o => by
    rw [List.reverse_cons]; exact zosRun_stop hz
  cases st
  case accR m a t =>
    simp only [Stmt.record] at h
    split at h
    · simp only [Option.bind_eq_some_iff, Option.map_eq_some_iff] at h
      obtain ⟨la, ha, lt, ht, h⟩ := h
      split at h
      · rename_i p q r tr' htr
        split at h
        · have hpre : zosRun c tr'.reverse Z0 = .error x := by
            rw [htr, List.reverse_cons, zosRun_append] at hz
            split at hz
            · rename_i e he; rw [he]; exact hz
            · simp [zosRun, zosStep] at hz
          have key : ∀ o : Base K, zosRun c (o :: tr').reverse Z0 = .error x := fun o => by
            rw [List.reverse_cons]; exact zosRun_stop hpre
          cases hk : cfg.keep
          · simp only [hk, Rec.val] at h
            rw [← h]; exact key _
          · simp only [hk, Rec.val, if_true] at h
            cases hst : s.stk with
            | nil => simp only [hst] at h; rw [← h]; exact key _
            | cons y st => simp only [hst] at h; rw [← h]; exact key _
        · rw [← h]; exact grow _
      · rw [← h]; exact grow _
    · cases h
  all_goals simp only [Stmt.record] at h
  all_goals try split at h
  all_goals try cases h
  all_goals try simp only [Option.bind_eq_some_iff, Option.map_eq_some_iff] at h
  all_goals first
    | exact grow _
    | (obtain ⟨_, _, rfl⟩ := h; first | exact hz | exact grow _)
    | (obtain ⟨_, _, _, _, h⟩ := h; split at h <;> cases h <;> first | exact hz | exact grow _)
    | (obtain ⟨_, _, _, _, rfl⟩ := h; first | exact hz | exact grow _)
    | (obtain ⟨_, _, _, _, _, _, rfl⟩ := h; first | exact hz | exact grow _)
    | (obtain ⟨_, _, _, _, _, _, _, _, rfl⟩ := h; first | exact hz | exact grow _)

theorem Prog.record_stop {cfg : RCfg K} {c : Cfg K} (p : Prog K) {s s' : Rec K} {x : Stop}
    (h : p.record cfg s = some s') (hz : zosRun c s.tr.reverse Z0 = .error x) :
    zosRun c s'.tr.reverse Z0 = .error x := by
  induction p generalizing s with
  | done => cases h; exact hz
  | stmt st k ih =>
    simp only [Prog.record, Option.bind_eq_some_iff] at h
    obtain ⟨s1, h1, h2⟩ := h
    exact ih h2 (Verif.AD.record_stop h1 hz)
  | branch q a t f iht ihf =>
    simp only [Prog.record, Option.bind_eq_some_iff] at h
    obtain ⟨la, ha, h⟩ := h
    have : zosRun c (s.put (.cmp (q.recorded (q.holds (s.V la))) la)).tr.reverse Z0 = .error x := by
      simp only [Rec.put, List.reverse_cons]; exact zosRun_stop hz
    split at h
    · exact iht h this
    · exact ihf h this

/-- The comparison outcomes at recording time. -/
def Prog.path (cfg : RCfg K) : Prog K → Rec K → List Bool
  | .done, _ => []
  | .stmt st k, s => match st.record cfg s with | some s' => k.path cfg s' | none => []
  | .branch c a t f, s =>
    match s.env a with
    | none => []
    | some la =>
      let b := c.holds (s.V la)
      let s' := s.put (.cmp (c.recorded b) la)
      b :: (if b then t.path cfg s' else f.path cfg s')

/-- The program at another point: with the same comparison outcomes the sweep over the
recorded trace ends with the program's values, otherwise it stops with a branch switch. -/
theorem Prog.sim {c : Cfg K} {cfg : RCfg K} (hal : ∀ k L, cfg.alloc k L ∉ L) (p : Prog K)
    {s s' : Rec K} {z : ZS K} {e : SE K} (ok : s.Ok) (hz : SweptFrom Z0 c s z) (hs : Sim s.env z e)
    (h : p.record cfg s = some s') :
    (∃ e' z', p.spec c.x c.par e = some (e', p.path cfg s) ∧ s'.Ok ∧ SweptFrom Z0 c s' z' ∧ Sim s'.env z' e') ∨
    (zosRun c s'.tr.reverse Z0 = .error .branchSwitch ∧
      ∀ e' bs, p.spec c.x c.par e = some (e', bs) → bs ≠ p.path cfg s) := by
  induction p generalizing s z e with
  | done =>
    cases h
    exact .inl ⟨e, z, rfl, ok, hz, hs⟩
  | stmt st k ih =>
    simp only [Prog.record, Option.bind_eq_some_iff] at h
    obtain ⟨s1, h1, h2⟩ := h
    obtain ⟨ok1, e1, z1, g1, g2, g3⟩ := sim_step hal ok hz hs h1
    simp only [Prog.spec, g1, Prog.path, h1, Option.bind_some]
    exact ih ok1 g2 g3 h2
  | branch q a t f iht ihf =>
    simp only [Prog.record, Option.bind_eq_some_iff] at h
    obtain ⟨la, ha, h⟩ := h
    simp only [Prog.spec, hs.get ha, Prog.path, ha, Option.bind_some]
    by_cases hb : q.holds (z.T la) = q.holds (s.V la)
    · obtain ⟨z1, k1, k2, k3, k4⟩ := cmp_step_ok (c := c) (z := z)
        (q := q.recorded (q.holds (s.V la))) (a := la) (by rw [Cmp.holds_recorded]; simp [hb])
      have hz1 : SweptFrom Z0 c (s.put (.cmp (q.recorded (q.holds (s.V la))) la)) z1 := hz.snoc rfl k1
      have hs1 : Sim (s.put (.cmp (q.recorded (q.holds (s.V la))) la)).env z1 e :=
        ⟨fun b => by rw [k2]; exact hs.vars b, by rw [k3]; exact hs.ii, by rw [k4]; exact hs.y⟩
      have ok1 : (s.put (.cmp (q.recorded (q.holds (s.V la))) la)).Ok := ok.same rfl rfl rfl
      rw [hb]
      cases hq : q.holds (s.V la)
      · simp only [hq] at h hz1 hs1 ok1 ⊢
        rcases ihf ok1 hz1 hs1 h with ⟨e', z', g1, g2⟩ | ⟨g1, g2⟩
        · exact .inl ⟨e', z', by simp [g1], g2⟩
        · refine .inr ⟨g1, fun e' bs he => ?_⟩
          simp only [Bool.false_eq_true, if_false, Option.map_eq_some_iff] at he ⊢
          obtain ⟨p, hp, he⟩ := he
          cases he
          intro hh
          injection hh with _ hh
          exact g2 _ _ hp hh
      · simp only [hq] at h hz1 hs1 ok1 ⊢
        rcases iht ok1 hz1 hs1 h with ⟨e', z', g1, g2⟩ | ⟨g1, g2⟩
        · exact .inl ⟨e', z', by simp [g1], g2⟩
        · refine .inr ⟨g1, fun e' bs he => ?_⟩
          simp only [if_true, Option.map_eq_some_iff] at he ⊢
          obtain ⟨p, hp, he⟩ := he
          cases he
          intro hh
          injection hh with _ hh
          exact g2 _ _ hp hh
    · refine .inr ⟨?_, fun e' bs he => ?_⟩
      · have : zosRun c (s.put (.cmp (q.recorded (q.holds (s.V la))) la)).tr.reverse Z0 =
            .error .branchSwitch := by
          simp only [Rec.put, List.reverse_cons, zosRun_append, show zosRun c s.tr.reverse Z0 = .ok z from hz,
            zosRun, zosStep, Cmp.holds_recorded]
          have : (q.holds (z.T la) == q.holds (s.V la)) = false := by simpa using hb
          simp [this]
        split at h
        · exact t.record_stop h this
        · exact f.record_stop h this
      · intro hh
        subst hh
        split at he
        · rename_i h1
          obtain ⟨p, hp, he⟩ := Option.map_eq_some_iff.1 he
          injection he with he1 he2
          injection he2 with he3 he4
          exact hb (by rw [h1]; exact he3)
        · rename_i h1
          obtain ⟨p, hp, he⟩ := Option.map_eq_some_iff.1 he
          injection he with he1 he2
          injection he2 with he3 he4
          exact hb (by simp only [Bool.not_eq_true] at h1; rw [h1]; exact he3)

end Verif.AD
