import Verif.AD.AdvMain
import Verif.AD.RecordKeep

/-! The values held while recording a program with active subscripts. -/
set_option linter.all false
namespace Verif.AD
open Elem

variable {K : Type} [Scalar K]

/-- No call of `fmin(const adouble&, const adouble&)` (C32). -/
def AProg.noFminLL : AProg K → Prop
  | .done => True
  | .stmt s k => (∀ p, s = .plain p → p.notFminLL) ∧ k.noFminLL
  | .branch _ _ t f => t.noFminLL ∧ f.noFminLL

/-- The recorder holds the values of the program, and the locations of the referenced elements. -/
structure AVal (s : ARec K) (E : ASE K) : Prop where
  ok : s.r.Ok
  sim : VSim s.r (gse s.r.env E)
  refs : RefsOk s.r.env E
  rl : ∀ q t, E.refs.lookup q = some t → s.rl q = s.r.env t

theorem VSim.eqv {r r' : Rec K} {e : SE K} (h : VSim r e) (h1 : r'.V = r.V) (h2 : r'.env = r.env) (h3 : r'.ii = r.ii) :
    VSim r' e := ⟨by rw [h1, h2]; exact h.vars, by rw [h3]; exact h.ii⟩

theorem AVal.loc {s : ARec K} {E : ASE K} (h : AVal s E) {a : Nat} {v : K} (ha : E.e.vars a = some v) :
    E.refs.lookup a = none ∧ ∃ l, s.r.env a = some l ∧ s.r.V l = v := by
  have hl : E.refs.lookup a = none := by
    cases hl : E.refs.lookup a with
    | none => rfl
    | some t => have := (h.refs a t hl).1; rw [ha] at this; cases this
  refine ⟨hl, ?_⟩
  have := h.sim.vars a
  simp only [gse, hl, ha] at this
  cases he : s.r.env a with
  | none => rw [he] at this; cases this
  | some l => rw [he] at this; exact ⟨l, rfl, (Option.some.inj this).symm⟩

section
variable {cfg : RCfg K} {s s' : ARec K} {E E' : ASE K} {k : List Nat}

theorem aval_plain (hal : ∀ k L, cfg.alloc k L ∉ L) {p : Stmt K} (hf : p.notFminLL) (h : AVal s E)
    (hrec : s.plain cfg p = some s') (sp : (AStmt.plain p).spec cfg.x cfg.par E = some (E', k)) : AVal s' E' := by
  simp only [ARec.plain, Option.map_eq_some_iff] at hrec
  obtain ⟨r', hr, rfl⟩ := hrec
  simp only [AStmt.spec] at sp
  split at sp
  swap; · cases sp
  rename_i hcond
  simp only [Option.map_eq_some_iff] at sp
  obtain ⟨e', sp, heq⟩ := sp
  cases heq
  have ok0 : ({ s.r with tr := peek s.tr } : Rec K).Ok := h.ok.same rfl rfl rfl
  have he : ∀ q t, E.refs.lookup q = some t → r'.env t = s.r.env t := by
    intro q t hq
    obtain ⟨_, _, lt, ht⟩ := h.refs q t hq
    rw [ht]
    exact record_env hr (a := t) (l := lt) ht (hcond _ (lookup_mem hq)).2
  obtain ⟨g1, g2⟩ := gse_frame (env' := r'.env) h.refs (fun q t hq => (hcond _ (lookup_mem hq)).1) he sp
  obtain ⟨e2, f1, f2⟩ := vsim_step (cfg := { cfg with fuse := fun k => cfg.fuse (k + (peekRest s.tr).length) }) hal hf ok0
    (h.sim.eqv (r' := { s.r with tr := peek s.tr }) rfl rfl rfl) hr
  have hf1 : p.spec cfg.x cfg.par (gse s.r.env E) = some e2 := f1
  rw [hf1] at g1
  cases g1
  refine ⟨record_ok (cfg := { cfg with fuse := fun k => cfg.fuse (k + (peekRest s.tr).length) }) hal ok0 hr, f2, g2, fun q t hq => ?_⟩
  show s.rl q = r'.env t
  rw [he q t hq]
  exact h.rl q t hq

/-- `d` becomes a copy of the element `t`. -/
theorem aval_get (hal : ∀ k L, cfg.alloc k L ∉ L) {s1 : ARec K} {d t lt ld : Nat} {w : K} (h : AVal s E)
    (hnew : s.plain cfg (.new d) = some s1) (hld : s1.r.env d = some ld) (ht : E.e.vars t = some w) (hlt : s.r.env t = some lt)
    (hd : E.e.vars d = none) (hdr : E.refs.lookup d = none) (hdr' : ∀ p ∈ E.refs, p.1 ≠ d) (o : AOp K) :
    AVal (s1.rec1 cfg o ld (s1.r.V lt)) ⟨E.e.set d w, E.refs⟩ := by
  obtain ⟨n1, n2, n3, V, stk, tr, n4⟩ := plain_new hnew
  have hld' : ld = s.r.next cfg := by rw [n4] at hld; simp [Rec.take, upd_apply] at hld; exact hld.symm
  -- after the construction of `d`
  have htd : t ≠ d := by rintro rfl; rw [ht] at hd; cases hd
  have hnd : ∀ q u, E.refs.lookup q = some u → u ≠ d := by
    rintro q u hq rfl
    obtain ⟨_, _, l, hl⟩ := h.refs q _ hq
    rw [n1] at hl; cases hl
  have h1 : AVal s1 ⟨E.e.set d 0, E.refs⟩ := by
    refine aval_plain (p := .new d) (k := []) hal trivial h hnew ?_
    simp only [AStmt.spec, Stmt.spec, Stmt.names, Stmt.relocs, hd, List.mem_singleton, List.not_mem_nil, not_false_eq_true, and_true,
      Option.isNone_none, if_true]
    rw [if_pos hdr']
    rfl
  have e2 : s1.r.env t = some lt := by rw [n4]; simp [Rec.take, upd_apply, htd, hlt]
  have hw : s1.r.V lt = w := by
    have := h1.loc (a := t) (v := w) (by simp [SE.set, upd_apply, htd, ht])
    obtain ⟨_, l, f1, f2⟩ := this
    rw [e2] at f1; cases f1; exact f2
  have hs := h1.sim.write (cfg := cfg) h1.ok hld (o := .assignD0 ld) hw
  refine ⟨h1.ok.same rfl rfl rfl, ?_, ?_, ?_⟩
  · refine VSim.eqv (r := s1.r.rec1 cfg (.assignD0 ld) ld (s1.r.V lt)) ?_ rfl rfl rfl
    convert hs using 1
    simp only [gse, SE.set, SE.mk.injEq, and_true]
    funext a
    simp only [upd_apply, ARec.rec1, Rec.val, Rec.keepT]
    by_cases ha : a = d
    · subst ha; simp [hdr]
    · simp only [if_neg ha]
  · intro q u hq
    obtain ⟨r1, r2, r3⟩ := h1.refs q u hq
    refine ⟨?_, r2, r3⟩
    have hqd : q ≠ d := fun h => by rw [h] at hq; simp only at hq; rw [hdr] at hq; cases hq
    simp only [SE.set, upd_apply, if_neg hqd] at r1 ⊢
    exact r1
  · exact fun q u hq => h1.rl q u hq

theorem refdo_same {f : RefCall K} {lq lt t : Nat} (h : f.record cfg lq lt s = some s') (ht : s.r.env t = some lt)
    (hq : ∀ b lb, f = .setA b → s.r.env b = some lb → lq ≠ lb) :
    (s'.rl = s.rl ∧ s'.r.env = s.r.env ∧ s'.r.live = s.r.live ∧ s'.r.hw = s.r.hw) ∧
      ∃ r', (f.stmt t).record cfg s.r = some r' ∧ r'.V = s'.r.V ∧ r'.env = s'.r.env ∧ r'.ii = s'.r.ii := by
  cases f
  case setA b =>
    simp only [RefCall.record, Option.map_eq_some_iff] at h
    obtain ⟨lb, hb, h⟩ := h
    rw [if_pos (hq b lb rfl hb)] at h
    subst h
    refine ⟨⟨rfl, rfl, rfl, rfl⟩, ?_⟩
    simp only [RefCall.stmt, Stmt.record, ht, hb, Option.bind_some, Option.map_some]
    refine ⟨_, rfl, ?_⟩
    by_cases hll : lt ≠ lb
    · rw [if_pos hll]; exact ⟨rfl, rfl, rfl⟩
    · rw [if_neg hll]
      simp only [not_not] at hll
      subst hll
      refine ⟨?_, rfl, rfl⟩
      funext l
      simp only [ARec.rec1, Rec.val, Rec.keepT, upd_apply]
      split
      · rename_i e; rw [e]
      · rfl
  all_goals simp only [RefCall.record, Option.bind_eq_some_iff, Option.map_eq_some_iff, Option.some.injEq] at h
  case setD c =>
    subst h
    refine ⟨⟨rfl, rfl, rfl, rfl⟩, ?_⟩
    simp only [RefCall.stmt, Stmt.record, ht, Option.map_some]
    exact ⟨_, rfl, rfl, rfl, rfl⟩
  case accD g c =>
    subst h
    refine ⟨⟨rfl, rfl, rfl, rfl⟩, ?_⟩
    simp only [RefCall.stmt, Stmt.record, ht, Option.map_some]
    exact ⟨_, rfl, rfl, rfl, rfl⟩
  case accA g b =>
    obtain ⟨lb, hb, rfl⟩ := h
    refine ⟨⟨rfl, rfl, rfl, rfl⟩, ?_⟩
    simp only [RefCall.stmt, Stmt.record, ht, hb, Option.bind_some, Option.map_some]
    exact ⟨_, rfl, rfl, rfl, rfl⟩
  case incr =>
    subst h
    refine ⟨⟨rfl, rfl, rfl, rfl⟩, ?_⟩
    simp only [RefCall.stmt, Stmt.record, ht, Option.map_some]
    exact ⟨_, rfl, rfl, rfl, rfl⟩
  case decr =>
    subst h
    refine ⟨⟨rfl, rfl, rfl, rfl⟩, ?_⟩
    simp only [RefCall.stmt, Stmt.record, ht, Option.map_some]
    exact ⟨_, rfl, rfl, rfl, rfl⟩
  case indep =>
    subst h
    refine ⟨⟨rfl, rfl, rfl, rfl⟩, ?_⟩
    simp only [RefCall.stmt, Stmt.record, ht, Option.map_some]
    exact ⟨_, rfl, rfl, rfl, rfl⟩
  case cond c a b =>
    obtain ⟨lc, h1, la, h2, lb, h3, rfl⟩ := h
    refine ⟨⟨rfl, rfl, rfl, rfl⟩, ?_⟩
    simp only [RefCall.stmt, Stmt.record, ht, h1, h2, h3, Option.bind_some, Option.map_some]
    exact ⟨_, rfl, rfl, rfl, rfl⟩
  case condS c a =>
    obtain ⟨lc, h1, la, h2, rfl⟩ := h
    refine ⟨⟨rfl, rfl, rfl, rfl⟩, ?_⟩
    simp only [RefCall.stmt, Stmt.record, ht, h1, h2, Option.bind_some, Option.map_some]
    exact ⟨_, rfl, rfl, rfl, rfl⟩
  case condEq c a b =>
    obtain ⟨lc, h1, la, h2, lb, h3, rfl⟩ := h
    refine ⟨⟨rfl, rfl, rfl, rfl⟩, ?_⟩
    simp only [RefCall.stmt, Stmt.record, ht, h1, h2, h3, Option.bind_some, Option.map_some]
    exact ⟨_, rfl, rfl, rfl, rfl⟩
  case condEqS c a =>
    obtain ⟨lc, h1, la, h2, rfl⟩ := h
    refine ⟨⟨rfl, rfl, rfl, rfl⟩, ?_⟩
    simp only [RefCall.stmt, Stmt.record, ht, h1, h2, Option.bind_some, Option.map_some]
    exact ⟨_, rfl, rfl, rfl, rfl⟩

theorem aval_step (hal : ∀ k L, cfg.alloc k L ∉ L) {st : AStmt K} (hf : ∀ p, st = .plain p → p.notFminLL) (h : AVal s E)
    (hrec : st.record cfg s = some s') (sp : st.spec cfg.x cfg.par E = some (E', k)) : AVal s' E' := by
  cases st with
  | plain p => exact aval_plain hal (hf p rfl) h hrec sp
  | sub d vs i =>
    simp only [AStmt.record, Option.bind_eq_some_iff, Option.map_eq_some_iff] at hrec
    obtain ⟨li, hi, lv, hv, s1, hnew, ld, hld, lr, ⟨t', ht', hlr⟩, rfl⟩ := hrec
    simp only [AStmt.spec] at sp
    split at sp
    swap; · cases sp
    rename_i hcond
    simp only [Option.bind_eq_some_iff, Option.map_eq_some_iff] at sp
    obtain ⟨v, a1, t, a2, w, a3, a4⟩ := sp
    cases a4
    obtain ⟨_, l, e1, e2⟩ := h.loc a1
    rw [hi] at e1; cases e1
    rw [e2, a2] at ht'; cases ht'
    exact aval_get hal h hnew hld a3 hlr (by simpa using hcond.1) (lookup_none hcond.2) hcond.2 _
  | refGet d q =>
    simp only [AStmt.record, Option.bind_eq_some_iff, Option.map_eq_some_iff] at hrec
    obtain ⟨lr, hlr, lq, hlq, s1, hnew, ld, hld, rfl⟩ := hrec
    simp only [AStmt.spec] at sp
    split at sp
    swap; · cases sp
    rename_i hcond
    simp only [Option.bind_eq_some_iff, Option.map_eq_some_iff] at sp
    obtain ⟨t, a1, w, a3, a4⟩ := sp
    cases a4
    have : s.r.env t = some lr := by rw [← h.rl q t a1]; exact hlr
    exact aval_get hal h hnew hld a3 this (by simpa using hcond.1) (lookup_none hcond.2) hcond.2 _
  | ref q vs i =>
    simp only [AStmt.record] at hrec
    split at hrec
    swap; · cases hrec
    rename_i hq0
    simp only [Option.isNone_iff_eq_none] at hq0
    simp only [Option.bind_eq_some_iff, Option.map_eq_some_iff] at hrec
    obtain ⟨li, hi, lv, hv, lr, ⟨t', ht', hlr⟩, rfl⟩ := hrec
    simp only [AStmt.spec] at sp
    split at sp
    swap; · cases sp
    rename_i hcond
    simp only [Option.bind_eq_some_iff, Option.map_eq_some_iff] at sp
    obtain ⟨v, a1, t, a2, w, a3, a4⟩ := sp
    cases a4
    obtain ⟨_, l, e1, e2⟩ := h.loc a1
    rw [hi] at e1; cases e1
    rw [e2, a2] at ht'
    have htt : t' = t := (Option.some.inj ht').symm
    subst htt
    obtain ⟨htl, _⟩ := h.loc a3
    have htq : t' ≠ q := by rintro rfl; rw [hq0] at hlr; cases hlr
    have hne : ∀ q' u, E.refs.lookup q' = some u → u ≠ q := by
      rintro q' u hq' rfl
      obtain ⟨_, _, l, hl⟩ := h.refs q' _ hq'
      rw [hq0] at hl; cases hl
    have hs := h.sim.take (cfg := cfg) hal h.ok (d := q) (o := .assignD0 0) (v := ofLoc lr) (w := ofLoc lr) rfl
    have henv : ∀ u, u ≠ q → (s.r.take cfg q).env u = s.r.env u := fun u hu => by simp [Rec.take, upd_apply, hu]
    refine ⟨(h.ok.take hal q).same rfl rfl rfl, ?_, ?_, ?_⟩
    · refine VSim.eqv (r := (s.r.take cfg q).rec1 cfg (.assignD0 0) (s.r.next cfg) (ofLoc lr)) ?_ rfl rfl rfl
      convert hs using 1
      simp only [gse, SE.set, SE.mk.injEq, and_true, ARec.rec1, Rec.val, Rec.keepT]
      funext a
      simp only [upd_apply, List.lookup_cons]
      by_cases ha : a = q
      · subst ha; simp [henv t' htq, hlr]
      · simp only [if_neg ha, beq_false_of_ne ha]
        cases hl : E.refs.lookup a with
        | none => rfl
        | some u => simp [henv u (hne a u hl)]
    · intro a u ha
      simp only [List.lookup_cons] at ha ⊢
      by_cases haq : a = q
      · subst haq
        simp at ha
        subst ha
        exact ⟨by simpa using hcond.1, by simp [beq_false_of_ne htq, htl], lr, by simp [ARec.rec1, Rec.val, Rec.keepT, henv t' htq, hlr]⟩
      · rw [beq_false_of_ne haq] at ha
        obtain ⟨r1, r2, l, r3⟩ := h.refs a u ha
        have := hne a u ha
        exact ⟨r1, by simp [beq_false_of_ne this, r2], l, by simp [ARec.rec1, Rec.val, Rec.keepT, henv u this, r3]⟩
    · intro a u ha
      simp only [List.lookup_cons] at ha
      show upd s.rl q (some lr) a = (s.r.take cfg q).env u
      by_cases haq : a = q
      · subst haq
        simp at ha
        subst ha
        rw [henv t' htq, hlr]; simp [upd_apply]
      · rw [beq_false_of_ne haq] at ha
        rw [henv u (hne a u ha)]
        simp only [upd_apply, if_neg haq]
        exact h.rl a u ha
  | refDel q =>
    simp only [AStmt.record, Option.bind_eq_some_iff, Option.map_eq_some_iff] at hrec
    obtain ⟨lr, hlr, lq, hlq, rfl⟩ := hrec
    simp only [AStmt.spec, Option.map_eq_some_iff] at sp
    obtain ⟨t, b3, h4⟩ := sp
    cases h4
    obtain ⟨r1, r2, lt, r3⟩ := h.refs q t b3
    have hne : ∀ q' u, E.refs.lookup q' = some u → u ≠ q := by
      rintro q' u hq' rfl
      have := (h.refs q' _ hq').2.1
      rw [b3] at this; cases this
    refine ⟨h.ok.free hlq, ⟨fun a => ?_, h.sim.ii⟩, fun a u ha => ?_, fun a u ha => ?_⟩
    · have := h.sim.vars a
      simp only [gse, lookup_filter, Rec.free, upd_apply] at this ⊢
      by_cases ha : a = q
      · subst ha; simp [r1]
      · simp only [if_neg ha]
        rw [← this]
        cases hl : E.refs.lookup a with
        | none => rfl
        | some u => simp [hne a u hl]
    · simp only [lookup_filter] at ha ⊢
      split at ha
      · cases ha
      · obtain ⟨k1, k2, l, k3⟩ := h.refs a u ha
        have := hne a u ha
        exact ⟨k1, by simp [this, k2], l, by simp [Rec.free, upd_apply, this, k3]⟩
    · simp only [lookup_filter] at ha
      split at ha
      · cases ha
      · rename_i haq
        have := hne a u ha
        simp only [Rec.free, upd_apply, if_neg haq, if_neg this]
        exact h.rl a u ha
  | refDo q f =>
    simp only [AStmt.record, Option.bind_eq_some_iff] at hrec
    obtain ⟨lr, hlr, lq, hlq, hrec⟩ := hrec
    simp only [AStmt.spec, Option.bind_eq_some_iff] at sp
    obtain ⟨t, a1, sp⟩ := sp
    split at sp
    swap; · cases sp
    rename_i hcond
    simp only [Option.map_eq_some_iff] at sp
    obtain ⟨e', b3, h3⟩ := sp
    cases h3
    have hlt : s.r.env t = some lr := by rw [← h.rl q t a1]; exact hlr
    obtain ⟨⟨g1, g2, g3, g4⟩, r', g5, g6, g7, g8⟩ := refdo_same hrec hlt (fun b lb hf' hb hlb => by
      subst hf'
      have hbq : b = q := h.ok.inj b q lb hb (hlb ▸ hlq)
      subst hbq
      exact hcond _ (lookup_mem a1) (by simp [RefCall.stmt, Stmt.names]))
    obtain ⟨k1, k2⟩ := gse_frame (env' := s'.r.env) h.refs (fun q' u hq' => hcond _ (lookup_mem hq')) (fun q' u hq' => by rw [g2]) b3
    obtain ⟨e2, f1, f2⟩ := vsim_step hal (by cases f <;> exact trivial) h.ok h.sim g5
    rw [f1] at k1
    cases k1
    exact ⟨h.ok.same g2 g3 g4, f2.eqv g6.symm g7.symm g8.symm, k2, fun q' u hq' => by rw [g1, g2]; exact h.rl q' u hq'⟩

/-- While recording, the objects hold what the program computes with plain numbers, the references are at the elements they
refer to, and the comparisons come out the same way. -/
theorem aprog_values (hal : ∀ k L, cfg.alloc k L ∉ L) (p : AProg K) (hf : p.noFminLL) {s s' : ARec K} {E E' : ASE K} {bs : List Bool}
    {k : List Nat} (h : AVal s E) (hrec : p.record cfg s = some s') (sp : p.spec cfg.x cfg.par E = some (E', bs, k)) :
    bs = p.path cfg s ∧ AVal s' E' := by
  induction p generalizing s E bs k with
  | done =>
    simp only [AProg.spec, Option.some.injEq, Prod.mk.injEq] at sp
    cases hrec
    obtain ⟨rfl, rfl, _⟩ := sp
    exact ⟨rfl, h⟩
  | stmt st q ih =>
    simp only [AProg.record, Option.bind_eq_some_iff] at hrec
    obtain ⟨s1, h1, h2⟩ := hrec
    simp only [AProg.spec, Option.bind_eq_some_iff, Option.map_eq_some_iff] at sp
    obtain ⟨⟨E1, k1⟩, g1, ⟨E2, bs2, k2⟩, g2, g3⟩ := sp
    simp only [Prod.mk.injEq] at g3
    obtain ⟨rfl, rfl, _⟩ := g3
    obtain ⟨r1, r2⟩ := ih hf.2 (aval_step hal hf.1 h h1 g1) h2 g2
    exact ⟨by simp only [AProg.path, h1]; exact r1, r2⟩
  | branch c a t f iht ihf =>
    simp only [AProg.record, Option.bind_eq_some_iff] at hrec
    obtain ⟨la, ha, hrec⟩ := hrec
    simp only [AProg.spec, Option.bind_eq_some_iff] at sp
    obtain ⟨v, hv, sp⟩ := sp
    obtain ⟨_, l, e1, e2⟩ := h.loc hv
    rw [ha] at e1; cases e1
    simp only [AProg.path, ha, e2] at hrec ⊢
    have hv' : ∀ o : AOp K, AVal { s with tr := o :: s.tr } E := fun o => ⟨h.ok, h.sim, h.refs, h.rl⟩
    cases hq : c.holds v
    · simp only [hq, Bool.false_eq_true, if_false, Option.map_eq_some_iff] at hrec sp ⊢
      obtain ⟨⟨E2, bs2, k2⟩, g2, g3⟩ := sp
      simp only [Prod.mk.injEq] at g3
      obtain ⟨rfl, rfl, _⟩ := g3
      obtain ⟨r1, r2⟩ := ihf hf.2 (hv' _) hrec g2
      exact ⟨by rw [r1], r2⟩
    · simp only [hq, if_true, Option.map_eq_some_iff] at hrec sp ⊢
      obtain ⟨⟨E2, bs2, k2⟩, g2, g3⟩ := sp
      simp only [Prod.mk.injEq] at g3
      obtain ⟨rfl, rfl, _⟩ := g3
      obtain ⟨r1, r2⟩ := iht hf.1 (hv' _) hrec g2
      exact ⟨by rw [r1], r2⟩
end
end Verif.AD
