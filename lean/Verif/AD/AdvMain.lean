import Verif.AD.AdvProg
import Verif.AD.RecordFull

/-! Complete recordings of programs with active subscripts: values. -/
set_option linter.all false
namespace Verif.AD
open Elem

section
variable {K : Type} [Scalar K]

theorem gse_nil (env : Nat → Option Nat) (e : SE K) : gse env ⟨e, []⟩ = e := by
  cases e; simp [gse]

theorem Res.ofBase {Z0 : ZS K} {c : Cfg K} (tr : List (Base K)) {z : ZS K} (h : zosRun c tr.reverse Z0 = .ok z) :
    Res Z0 c (tr.map fun o => (.base o, o)) z := by
  induction tr generalizing z with
  | nil => cases h; rfl
  | cons o tr ih =>
    rw [List.reverse_cons, zosRun_append] at h
    split at h
    · cases h
    · rename_i z1 h1
      simp only [zosRun] at h
      split at h
      · cases h
      · rename_i z2 h2
        cases h
        exact ⟨z1, ih h1, rfl, h2, rfl⟩

variable {s : Rec K} {stock : List (Nat × List K)}

def startL (s : Rec K) : PL K := s.tr.map fun o => (.base o, o)

theorem Cov.start (s : Rec K) : Cov (ARec.start s) (startL s) := by
  refine ⟨by simp [startL, ARec.start], fun p hp => ?_⟩
  simp only [startL, List.mem_map] at hp
  obtain ⟨o, _, rfl⟩ := hp
  rfl

theorem AInv.start (hs : s.Start stock) (T0 : Nat → K) (c : Cfg K) :
    ∃ z, AInv (ZS.start T0) c (ARec.start s) ⟨s.se, []⟩ (startL s) z := by
  obtain ⟨z, h1, h2, _⟩ := hs.sweep T0 c
  refine ⟨z, hs.ok, Res.ofBase _ h1, ?_, fun q t hq => by cases hq⟩
  rw [gse_nil]; exact h2

theorem zosRunA_stop {c : Cfg K} {a b : List (AOp K)} {z : ZS K} {x : Stop} (h : zosRunA c a z = .error x) :
    zosRunA c (a ++ b) z = .error x := by rw [zosRunA_append, h]

theorem Res.tape {T0 : Nat → K} {c : Cfg K} {s : ARec K} {L : PL K} {z : ZS K} (hc : Cov s L) (h : Res (ZS.start T0) c L z) (N : Nat) :
    ∃ z', zosRunA c (s.tape N) (ZS.start T0) = .ok z' ∧ z'.T = z.T ∧ z'.ii = z.ii ∧ z'.y = z.y := by
  obtain ⟨z', h1, h2, h3, h4, _⟩ := death_step (c := c) (a := 0) (b := N - 1) (z := z)
  refine ⟨z', ?_, h2, h3, h4⟩
  unfold ARec.tape
  rw [← hc.fst, zosRunA_append, h.runA]
  simp [zosRunA, AOp.resolve, h1]

/-! ### A stop stays a stop -/

theorem plain_stop {cfg : RCfg K} {c : Cfg K} {st : Stmt K} {s s' : ARec K} {Z0 : ZS K} {x : Stop}
    (h : s.plain cfg st = some s') (hz : zosRunA c s.tr.reverse Z0 = .error x) : zosRunA c s'.tr.reverse Z0 = .error x := by
  have grow : ∀ (o : AOp K) t, zosRunA c t.reverse Z0 = .error x → zosRunA c (o :: t).reverse Z0 = .error x := fun o t ht => by
    rw [List.reverse_cons]; exact zosRunA_stop ht
  unfold ARec.plain at h
  simp only [Option.map_eq_some_iff] at h
  obtain ⟨r', h, rfl⟩ := h
  rcases record_swap h with ⟨o, h1, sw⟩ | ⟨h1, sw⟩ | ⟨p, q, r, t, o, h0, h1, sw⟩
  · simp only [h1]
    cases hs : s.tr with
    | nil => rw [hs] at hz; cases hz
    | cons o' t => rw [hs] at hz; cases o' <;> exact grow _ _ hz
  · simp only [h1]
    cases hs : s.tr with
    | nil => rw [hs] at hz; cases hz
    | cons o' t => rw [hs] at hz; cases o' <;> exact hz
  · simp only [h1]
    cases hs : s.tr with
    | nil => rw [hs] at h0; cases h0
    | cons o' t' =>
      rw [hs] at hz h0
      cases o' <;> simp only [peek, List.cons.injEq, reduceCtorEq] at h0
      obtain ⟨rfl, rfl⟩ := h0
      refine grow _ _ ?_
      show zosRunA c t'.reverse Z0 = .error x
      rw [List.reverse_cons, zosRunA_append] at hz
      split at hz
      · rename_i e he; rw [he]; exact hz
      · simp [zosRunA, zosStep, AOp.resolve] at hz

theorem astmt_stop {cfg : RCfg K} {c : Cfg K} {st : AStmt K} {s s' : ARec K} {Z0 : ZS K} {x : Stop}
    (h : st.record cfg s = some s') (hz : zosRunA c s.tr.reverse Z0 = .error x) : zosRunA c s'.tr.reverse Z0 = .error x := by
  have grow : ∀ (o : AOp K) t, zosRunA c t.reverse Z0 = .error x → zosRunA c (o :: t).reverse Z0 = .error x := fun o t ht => by
    rw [List.reverse_cons]; exact zosRunA_stop ht
  cases st
  case plain p => exact plain_stop h hz
  case sub d vs i =>
    simp only [AStmt.record, Option.bind_eq_some_iff, Option.map_eq_some_iff] at h
    obtain ⟨li, hi, lv, hv, s1, hnew, ld, hld, lr, hlr, rfl⟩ := h
    exact grow _ _ (plain_stop hnew hz)
  case ref q vs i =>
    simp only [AStmt.record] at h
    split at h
    · simp only [Option.bind_eq_some_iff, Option.map_eq_some_iff] at h
      obtain ⟨li, hi, lv, hv, lr, hlr, rfl⟩ := h
      exact grow _ _ hz
    · cases h
  case refDel q =>
    simp only [AStmt.record, Option.bind_eq_some_iff, Option.map_eq_some_iff] at h
    obtain ⟨_, _, _, _, rfl⟩ := h
    exact hz
  case refGet d q =>
    simp only [AStmt.record, Option.bind_eq_some_iff, Option.map_eq_some_iff] at h
    obtain ⟨lr, hlr, lq, hlq, s1, hnew, ld, hld, rfl⟩ := h
    exact grow _ _ (plain_stop hnew hz)
  case refDo q f =>
    simp only [AStmt.record, Option.bind_eq_some_iff] at h
    obtain ⟨l, hl, lq, hlq, h⟩ := h
    cases f <;> simp only [RefCall.record, Option.bind_eq_some_iff, Option.map_eq_some_iff, Option.some.injEq] at h
    case setA b =>
      obtain ⟨lb, _, h⟩ := h
      split at h <;> subst h
      · exact grow _ _ hz
      · exact hz
    all_goals first
      | (subst h; exact grow _ _ hz)
      | (obtain ⟨_, _, rfl⟩ := h; exact grow _ _ hz)
      | (obtain ⟨_, _, _, _, rfl⟩ := h; exact grow _ _ hz)
      | (obtain ⟨_, _, _, _, _, _, rfl⟩ := h; exact grow _ _ hz)

theorem aprog_stop {cfg : RCfg K} {c : Cfg K} (p : AProg K) {s s' : ARec K} {Z0 : ZS K} {x : Stop}
    (h : p.record cfg s = some s') (hz : zosRunA c s.tr.reverse Z0 = .error x) : zosRunA c s'.tr.reverse Z0 = .error x := by
  induction p generalizing s with
  | done => cases h; exact hz
  | stmt st k ih =>
    simp only [AProg.record, Option.bind_eq_some_iff] at h
    obtain ⟨s1, h1, h2⟩ := h
    exact ih h2 (astmt_stop h1 hz)
  | branch q a t f iht ihf =>
    simp only [AProg.record, Option.bind_eq_some_iff] at h
    obtain ⟨la, ha, h⟩ := h
    have : ∀ o : AOp K, zosRunA c (o :: s.tr).reverse Z0 = .error x := fun o => by
      rw [List.reverse_cons]; exact zosRunA_stop hz
    split at h
    · exact iht (s := { s with tr := _ }) h (this _)
    · exact ihf (s := { s with tr := _ }) h (this _)

/-! ### Other comparisons, and subscripts out of range -/

/-- On the way of the program at `x` there is a subscript beyond the end of its vector. -/
def AProg.beyond (x par : Nat → K) : AProg K → ASE K → Prop
  | .done, _ => False
  | .stmt st k, E =>
    (match st with
      | .sub _ vs i | .ref _ vs i => ∃ v, E.e.vars i = some v ∧ vs.length ≤ idx v
      | _ => False) ∨ ∃ E' j, st.spec x par E = some (E', j) ∧ k.beyond x par E'
  | .branch c a t f, E => ∃ v, E.e.vars a = some v ∧ if c.holds v then t.beyond x par E else f.beyond x par E

theorem beyond_step {cfg : RCfg K} (hal : ∀ k L, cfg.alloc k L ∉ L) {st : AStmt K} {s s' : ARec K} {L : PL K} {Z0 : ZS K} {c : Cfg K}
    {E : ASE K} {z : ZS K} (h : st.record cfg s = some s') (hc : Cov s L) (inv : AInv Z0 c s E L z)
    (hb : match st with
      | .sub _ vs i | .ref _ vs i => ∃ v, E.e.vars i = some v ∧ vs.length ≤ idx v
      | _ => False) : zosRunA c s'.tr.reverse Z0 = .error .outOfBounds := by
  have hfresh : ∀ b l, s.r.env b = some l → l ≠ s.r.next cfg := fun b l hb hl => hal _ _ (hl ▸ inv.ok.live b l hb)
  have hrun : zosRunA c s.tr.reverse Z0 = .ok z := by rw [← hc.fst]; exact inv.res.runA
  cases st <;> simp only at hb
  case sub d vs i =>
    simp only [AStmt.record, Option.bind_eq_some_iff, Option.map_eq_some_iff] at h
    obtain ⟨li, hi, lv, hv, s1, hnew, ld, hld, lr, hlr, rfl⟩ := h
    obtain ⟨n1, n2, n3, V, stk, tr, n4⟩ := plain_new hnew
    obtain ⟨v, hv', hle⟩ := hb
    obtain ⟨_, l, e1, e2⟩ := inv.loc hv'
    rw [hi] at e1; cases e1
    simp only [ARec.rec1, n3, List.reverse_cons]
    rw [zosRunA_append, zosRunA_append, hrun]
    have : upd z.T (s.r.next cfg) 0 li = v := by rw [upd_ne _ _ (hfresh _ _ hi), e2]
    simp only [zosRunA, AOp.resolve, zosStep, ZS.push, ZS.set, this, ge_iff_le, if_pos hle]
  case ref q vs i =>
    simp only [AStmt.record] at h
    split at h
    · simp only [Option.bind_eq_some_iff, Option.map_eq_some_iff] at h
      obtain ⟨li, hi, lv, hv, lr, hlr, rfl⟩ := h
      obtain ⟨v, hv', hle⟩ := hb
      obtain ⟨_, l, e1, e2⟩ := inv.loc hv'
      rw [hi] at e1; cases e1
      simp only [ARec.rec1, List.reverse_cons]
      rw [zosRunA_append, hrun]
      simp only [zosRunA, AOp.resolve, e2, ge_iff_le, if_pos hle]
    · cases h

/-- A program that takes other branches, or leaves a vector, at the point of the sweep. -/
theorem adv_stop {cfg : RCfg K} (hal : ∀ k L, cfg.alloc k L ∉ L) (hidx : ∀ l, idx (ofLoc l : K) = l) (p : AProg K)
    {s s' : ARec K} {L : PL K} {Z0 : ZS K} {c : Cfg K} {E : ASE K} {z : ZS K}
    (hrec : p.record cfg s = some s') (hcon : p.contig cfg s) (hc : Cov s L) (inv : AInv Z0 c s E L z) :
    (∀ E' bs k, p.spec c.x c.par E = some (E', bs, k) → bs ≠ p.path cfg s → zosRunA c s'.tr.reverse Z0 = .error .branchSwitch) ∧
    (p.beyond c.x c.par E → zosRunA c s'.tr.reverse Z0 = .error .branchSwitch ∨ zosRunA c s'.tr.reverse Z0 = .error .outOfBounds) := by
  induction p generalizing s L E z with
  | done =>
    refine ⟨fun E' bs k h hb => ?_, fun h => h.elim⟩
    simp only [AProg.spec, Option.some.injEq, Prod.mk.injEq] at h
    exact absurd h.2.1.symm hb
  | stmt st p ih =>
    simp only [AProg.record, Option.bind_eq_some_iff] at hrec
    obtain ⟨s1, h1, h2⟩ := hrec
    have hpath : (AProg.stmt st p).path cfg s = p.path cfg s1 := by simp only [AProg.path, h1]
    have hcs : st.contig s := by
      have := hcon.1
      cases st <;> exact this
    have step : ∀ E1 j1, st.spec c.x c.par E = some (E1, j1) → ∃ L1 z1, Cov s1 L1 ∧ AInv Z0 c s1 E1 L1 z1 := by
      intro E1 j1 sp1
      obtain ⟨m1, L1, w1⟩ := astep hal hidx h1 hcs hc inv sp1
      obtain ⟨_, _, z1, inv1⟩ := w1.sim Z0 c E z E1 rfl inv sp1
      exact ⟨L1, z1, w1.cov, inv1⟩
    refine ⟨fun E' bs k h hb => ?_, fun h => ?_⟩
    · simp only [AProg.spec, Option.bind_eq_some_iff, Option.map_eq_some_iff] at h
      obtain ⟨⟨E1, j1⟩, sp1, ⟨E2, bs2, j2⟩, sp2, heq⟩ := h
      simp only [Prod.mk.injEq] at heq
      obtain ⟨rfl, rfl, rfl⟩ := heq
      obtain ⟨L1, z1, c1, i1⟩ := step _ _ sp1
      exact (ih h2 (hcon.2 _ h1) c1 i1).1 _ _ _ sp2 (by rw [← hpath]; exact hb)
    · rcases h with h | ⟨E1, j1, sp1, h⟩
      · refine .inr (aprog_stop p h2 (beyond_step hal h1 hc inv ?_))
        cases st <;> exact h
      · obtain ⟨L1, z1, c1, i1⟩ := step _ _ sp1
        exact (ih h2 (hcon.2 _ h1) c1 i1).2 h
  | branch q a t f iht ihf =>
    simp only [AProg.record, Option.bind_eq_some_iff] at hrec
    obtain ⟨la, ha, hrec⟩ := hrec
    set b := q.holds (s.r.V la) with hb
    let s1 : ARec K := { s with tr := .base (.cmp (q.recorded b) la) :: s.tr }
    have hrun : zosRunA c s.tr.reverse Z0 = .ok z := by rw [← hc.fst]; exact inv.res.runA
    have hc1 : Cov s1 ((.base (.cmp (q.recorded b) la), .cmp (q.recorded b) la) :: L) := by
      refine ⟨by simp [s1, hc.fst], fun p hp => ?_⟩
      rcases List.mem_cons.1 hp with rfl | hp
      · rfl
      · exact hc.pair p hp
    have hpath : (AProg.branch q a t f).path cfg s = b :: (if b then t.path cfg s1 else f.path cfg s1) := by
      simp only [AProg.path, ha]; rfl
    have hcn := hcon la ha
    simp only [← hb] at hcn
    -- same outcome
    have same : ∀ v, E.e.vars a = some v → q.holds v = b →
        ∃ z', AInv Z0 c s1 E ((.base (.cmp (q.recorded b) la), .cmp (q.recorded b) la) :: L) z' := by
      intro v hv hq
      obtain ⟨hl, _⟩ := inv.loc hv
      have hsp : Mics.spec c.x c.par [.cmp (q.recorded b) a] (gse s.r.env E) = some (gse s1.r.env E) := by
        simp [Mics.spec, Mic.spec, gse, hl, hv, Cmp.holds_recorded, hq, s1]
      have hgo1 : Mics cfg [.cmp (q.recorded b) a] s.r L s1.r ((.base (.cmp (q.recorded b) la), .cmp (q.recorded b) la) :: L) :=
        ⟨_, _, ⟨la, _, ha, rfl, rfl⟩, rfl, rfl⟩
      exact inv.mics hal hc hc1 hgo1 hsp inv.refs fun z' hz => inv.res.base hz
    -- other outcome
    have other : ∀ v, E.e.vars a = some v → q.holds v ≠ b → zosRunA c s'.tr.reverse Z0 = .error .branchSwitch := by
      intro v hv hq
      obtain ⟨_, l, e1, e2⟩ := inv.loc hv
      rw [ha] at e1; cases e1
      have : zosRunA c s1.tr.reverse Z0 = .error .branchSwitch := by
        simp only [s1, List.reverse_cons]
        rw [zosRunA_append, hrun]
        have hno : (q.recorded b).holds (z.T la) = false := by
          cases hx : (q.recorded b).holds (z.T la) with
          | false => rfl
          | true => rw [Cmp.holds_recorded, e2] at hx; exact absurd (by simpa using hx) hq
        simp [zosRunA, AOp.resolve, zosStep, hno]
      split at hrec
      · exact aprog_stop t hrec this
      · exact aprog_stop f hrec this
    refine ⟨fun E' bs k h hbs => ?_, fun h => ?_⟩
    · simp only [AProg.spec, Option.bind_eq_some_iff] at h
      obtain ⟨v, hv, h⟩ := h
      by_cases hq : q.holds v = b
      · obtain ⟨z', inv1⟩ := same v hv hq
        rw [hpath] at hbs
        rw [hq] at h
        cases hbb : b
        · simp only [hbb, Bool.false_eq_true, if_false, Option.map_eq_some_iff, Prod.mk.injEq] at h hrec hcn hbs
          obtain ⟨⟨E2, b2, j2⟩, g1, g2, g3, g4⟩ := h
          simp only at g2 g3 g4
          subst g2 g3 g4
          exact (ihf (s := s1) (by simpa [s1, hbb] using hrec) (by simpa [s1, hbb] using hcn) hc1 inv1).1 _ _ _ g1 (by simpa using hbs)
        · simp only [hbb, if_true, Option.map_eq_some_iff, Prod.mk.injEq] at h hrec hcn hbs
          obtain ⟨⟨E2, b2, j2⟩, g1, g2, g3, g4⟩ := h
          simp only at g2 g3 g4
          subst g2 g3 g4
          exact (iht (s := s1) (by simpa [s1, hbb] using hrec) (by simpa [s1, hbb] using hcn) hc1 inv1).1 _ _ _ g1 (by simpa using hbs)
      · exact other v hv hq
    · obtain ⟨v, hv, h⟩ := h
      by_cases hq : q.holds v = b
      · obtain ⟨z', inv1⟩ := same v hv hq
        rw [hq] at h
        cases hbb : b
        · simp only [hbb, Bool.false_eq_true, if_false] at h hrec hcn
          exact (ihf (s := s1) (by simpa [s1, hbb] using hrec) (by simpa [s1, hbb] using hcn) hc1 inv1).2 h
        · simp only [hbb, if_true] at h hrec hcn
          exact (iht (s := s1) (by simpa [s1, hbb] using hrec) (by simpa [s1, hbb] using hcn) hc1 inv1).2 h
      · exact .inl (other v hv hq)

/-- Forward sweeps over the recorded trace, at any point. -/
theorem adv_forward {cfg : RCfg K} (hal : ∀ k L, cfg.alloc k L ∉ L) (hidx : ∀ l, idx (ofLoc l : K) = l) (p : AProg K)
    (hs : s.Start stock) {s' : ARec K} (hrec : p.record cfg (ARec.start s) = some s') (hcon : p.contig cfg (ARec.start s))
    (T0 : Nat → K) (c : Cfg K) (N : Nat) :
    (∀ E k, p.spec c.x c.par ⟨s.se, []⟩ = some (E, p.path cfg (ARec.start s), k) →
      ∃ z, zosRunA c (s'.tape N) (ZS.start T0) = .ok z ∧ z.y = E.e.ys ∧ z.ii = E.e.ii) ∧
    (∀ E bs k, p.spec c.x c.par ⟨s.se, []⟩ = some (E, bs, k) → bs ≠ p.path cfg (ARec.start s) →
      zosRunA c (s'.tape N) (ZS.start T0) = .error .branchSwitch) ∧
    (p.beyond c.x c.par ⟨s.se, []⟩ → zosRunA c (s'.tape N) (ZS.start T0) = .error .branchSwitch ∨
      zosRunA c (s'.tape N) (ZS.start T0) = .error .outOfBounds) := by
  obtain ⟨z0, inv0⟩ := AInv.start hs T0 c
  have hst := adv_stop hal hidx p hrec hcon (Cov.start s) inv0
  refine ⟨fun E k sp => ?_, fun E bs k sp hb => zosRunA_stop (hst.1 E bs k sp hb), fun hb => ?_⟩
  · obtain ⟨ms, L', w⟩ := awalk hal hidx p hrec hcon (Cov.start s) inv0 sp
    obtain ⟨_, _, z', inv'⟩ := w.sim _ c _ _ E rfl inv0 sp
    obtain ⟨z2, h1, h2, h3, h4⟩ := Res.tape w.cov inv'.res N
    refine ⟨z2, h1, ?_, ?_⟩
    · rw [h4, inv'.sim.y]; rfl
    · rw [h3, inv'.sim.ii]; rfl
  · rcases hst.2 hb with h | h
    · exact .inl (zosRunA_stop h)
    · exact .inr (zosRunA_stop h)
end
end Verif.AD
