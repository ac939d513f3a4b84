import Verif.AD.AdvSim

/-! Calls on vector elements and references, step by step. -/
set_option linter.all false
namespace Verif.AD
open Elem

variable {K : Type} [Scalar K]

theorem plain_new {cfg : RCfg K} {s s1 : ARec K} {d : Nat} (h : s.plain cfg (.new d) = some s1) :
    s.r.env d = none ∧ s1.rl = s.rl ∧ s1.tr = .base (.assignD0 (s.r.next cfg)) :: s.tr ∧
      ∃ V stk tr, s1.r = { s.r.take cfg d with V := V, stk := stk, tr := tr } := by
  simp only [ARec.plain, Stmt.record, Option.map_eq_some_iff] at h
  obtain ⟨r', h, rfl⟩ := h
  split at h
  · rename_i hd
    simp only [Option.isNone_iff_eq_none] at hd
    cases h
    refine ⟨hd, rfl, ?_, _, _, _, rfl⟩
    simp only [Rec.rec1, Rec.val, Rec.keepT, Rec.put, Rec.take, Rec.next, List.map_cons]
    cases s.tr with
    | nil => rfl
    | cons o t => cases o <;> rfl
  · cases h

/-- `d` becomes a copy of the element `t`, by an operation that finds `t` at run time. -/
def getL (a : AOp K) (lt ld : Nat) (L : PL K) : PL K :=
  (a, .assignA lt ld) :: (.base (.assignD0 ld), .assignD0 ld) :: L

section
variable {cfg : RCfg K} {s s1 : ARec K} {d t lt : Nat} {L : PL K}

theorem get_go (hnew : s.plain cfg (.new d) = some s1) (ht : s.r.env t = some lt) (hn : lt ≠ s.r.next cfg)
    {a : AOp K} (ha : a.isBase = false) (v : K) :
    Mics cfg [.call (.new d), .call (.setA d t)] s.r L (s1.rec1 cfg a (s.r.next cfg) v).r
      (getL a lt (s.r.next cfg) L) := by
  obtain ⟨h1, h2, h3, V, stk, tr, h4⟩ := plain_new hnew
  have htd : t ≠ d := by rintro rfl; rw [ht] at h1; cases h1
  refine ⟨s1.r, (.base (.assignD0 (s.r.next cfg)), .assignD0 (s.r.next cfg)) :: L, fun g hg => ?_, _, _, fun g hg => ?_, rfl, rfl⟩
  · refine ⟨upd s.r.V (s.r.next cfg) 0, (if cfg.keep then s.r.V (s.r.next cfg) :: s.r.stk else s.r.stk), ?_⟩
    simp only [Stmt.record, h1, Option.isNone_none, if_true]
    rw [h4]
    rfl
  · refine ⟨upd s1.r.V (s.r.next cfg) (s1.r.V lt), (if cfg.keep then s1.r.V (s.r.next cfg) :: s1.r.stk else s1.r.stk), ?_⟩
    have e1 : s1.r.env d = some (s.r.next cfg) := by rw [h4]; simp [Rec.take, upd_apply]
    have e2 : s1.r.env t = some lt := by rw [h4]; simp [Rec.take, upd_apply, htd, ht]
    simp only [Stmt.record, e1, e2, Option.bind_some, Option.map_some, if_pos (Ne.symm hn)]
    simp only [getL, List.map_cons, vw_of ha, hg.id (.assignA lt (s.r.next cfg)) (by simp), ARec.rec1]
    rfl

theorem get_cov (hnew : s.plain cfg (.new d) = some s1) (hc : Cov s L) {a : AOp K} (ha : a.isBase = false) (v : K) :
    Cov (s1.rec1 cfg a (s.r.next cfg) v) (getL a lt (s.r.next cfg) L) := by
  obtain ⟨h1, h2, h3, _⟩ := plain_new hnew
  refine ⟨?_, fun p hp => ?_⟩
  · simp [getL, ARec.rec1, h3, hc.fst]
  · simp only [getL, List.mem_cons] at hp
    rcases hp with rfl | rfl | hp
    · cases a <;> simp_all [PairOk, AOp.isBase]
    · rfl
    · exact hc.pair p hp

theorem get_res {Z0 z z' : ZS K} {c : Cfg K} {ld : Nat} {a : AOp K} (h : Res Z0 c L z)
    (ha : ∀ T : Nat → K, (∀ l, l ≠ ld → T l = z.T l) → a.resolve T = .ok (.assignA lt ld) ∧ a.resolveRev T = .ok (.assignA lt ld))
    (hr : zosRun c ((getL a lt ld L).map Prod.snd).reverse Z0 = .ok z') : Res Z0 c (getL a lt ld L) z' := by
  have h1 : Res Z0 c ((.base (.assignD0 ld), .assignD0 ld) :: L) ((z.push c ld).set ld 0) := ⟨z, h, rfl, rfl, rfl⟩
  have h2 := h1.last hr
  refine ⟨_, h1, (ha _ fun l hl => ?_).1, h2, (ha _ fun l hl => ?_).2⟩
  · simp [ZS.set, ZS.push, upd_apply, hl]
  · simp only [zosStep, Except.ok.injEq] at h2
    rw [← h2]
    simp [ZS.set, ZS.push, upd_apply, hl]

theorem get_spec {x par : Nat → K} {E : ASE K} {w : K} {env : Nat → Option Nat} {ld : Nat} (hr : RefsOk env E) (hd : env d = none)
    (hdv : E.e.vars d = none) (hdr : E.refs.lookup d = none) (ht : E.e.vars t = some w) :
    Mics.spec x par [.call (.new d), .call (.setA d t)] (gse env E) =
      some (gse (upd env d (some ld)) ⟨E.e.set d w, E.refs⟩) ∧ RefsOk (upd env d (some ld)) ⟨E.e.set d w, E.refs⟩ := by
  have htd : t ≠ d := by rintro rfl; rw [ht] at hdv; cases hdv
  have htr : E.refs.lookup t = none := by
    cases hl : E.refs.lookup t with
    | none => rfl
    | some t' => have := (hr t t' hl).1; rw [ht] at this; cases this
  have hne : ∀ q t', E.refs.lookup q = some t' → t' ≠ d := by
    rintro q t' hq rfl
    obtain ⟨_, _, l, hl⟩ := hr q _ hq
    rw [hd] at hl; cases hl
  refine ⟨?_, fun q t' hq => ?_⟩
  · simp only [Mics.spec, Mic.spec, Stmt.spec, gse, hdr, hdv, SE.set, Option.isNone_none, if_true, Option.bind_some, upd_apply,
      Option.isSome_some, if_neg htd, htr, ht, Option.map_some, Option.some.injEq, SE.mk.injEq, and_true]
    funext a
    simp only [upd_apply]
    by_cases ha : a = d
    · subst ha; simp [hdr]
    · simp only [if_neg ha]
      cases hl : E.refs.lookup a with
      | none => rfl
      | some t' => simp [hne a t' hl]
  · obtain ⟨h1, h2, l, hl⟩ := hr q t' hq
    have hqd : q ≠ d := by rintro rfl; simp only at hq; rw [hdr] at hq; cases hq
    exact ⟨by simp [SE.set, upd_apply, hqd, h1], h2, l, by simp [upd_apply, hne q t' hq, hl]⟩
end

section
variable {cfg : RCfg K} {s s' : ARec K} {L : PL K} {Z00 : ZS K} {c0 : Cfg K} {E0 E0' : ASE K} {z0 : ZS K} {k : List Nat}

theorem contig_loc {env : Nat → Option Nat} {vs : List Nat} (h : contiguous env vs) {lv j t : Nat}
    (h0 : ∃ a, vs.head? = some a ∧ env a = some lv) (ht : vs[j]? = some t) : env t = some (lv + j) := by
  obtain ⟨l, hl⟩ := h
  cases vs with
  | nil => simp at ht
  | cons a vs =>
    have := hl 0 a rfl
    obtain ⟨b, hb, h0⟩ := h0
    cases hb
    rw [this] at h0
    cases h0
    have := hl j t ht
    simpa using this

theorem astep_sub (hal : ∀ k L, cfg.alloc k L ∉ L) {d i : Nat} {vs : List Nat}
    (hrec : (AStmt.sub d vs i).record cfg s = some s') (hcon : contiguous s.r.env vs) (hc : Cov s L) (inv0 : AInv Z00 c0 s E0 L z0)
    (sp0 : (AStmt.sub d vs i).spec c0.x c0.par E0 = some (E0', k)) :
    ∃ ms L', AStep cfg (.sub d vs i) s E0 E0' k L s' ms L' := by
  simp only [AStmt.record, Option.bind_eq_some_iff, Option.map_eq_some_iff] at hrec
  obtain ⟨li, hi, lv, hv, s1, hnew, ld, hld, lr, hlr, rfl⟩ := hrec
  obtain ⟨n1, n2, n3, V, stk, tr, n4⟩ := plain_new hnew
  have hld' : ld = s.r.next cfg := by
    rw [n4] at hld; simp [Rec.take, upd_apply] at hld; exact hld.symm
  subst hld'
  have ex : ∀ {c : Cfg K} {E E' : ASE K} {j}, (AStmt.sub d vs i).spec c.x c.par E = some (E', j) →
      E.e.vars d = none ∧ E.refs.lookup d = none ∧ ∃ v t w, E.e.vars i = some v ∧ vs[idx v]? = some t ∧ E.e.vars t = some w ∧
        E' = ⟨E.e.set d w, E.refs⟩ ∧ j = [idx v] := by
    intro c E E' j sp
    simp only [AStmt.spec] at sp
    split at sp
    · rename_i hcond
      simp only [Option.bind_eq_some_iff, Option.map_eq_some_iff] at sp
      obtain ⟨v, h1, t, h2, w, h3, h4⟩ := sp
      cases h4
      exact ⟨by simpa using hcond.1, lookup_none hcond.2, v, t, w, h1, h2, h3, rfl, rfl⟩
    · cases sp
  obtain ⟨a1, a2, v0, t, w0, a3, a4, a5, a6, a7⟩ := ex sp0
  have hlt := contig_loc hcon hv a4
  have hfresh : ∀ b l, s.r.env b = some l → l ≠ s.r.next cfg := fun b l hb hl => hal _ _ (hl ▸ inv0.ok.live b l hb)
  have hgo := get_go (L := L) hnew hlt (hfresh _ _ hlt) (a := .subscript li vs.length lv (s.r.next cfg)) rfl (s1.r.V lr)
  have hcov := get_cov (lt := lv + idx v0) hnew hc (a := .subscript li vs.length lv (s.r.next cfg)) rfl (s1.r.V lr)
  refine ⟨_, _, hgo, hcov, ⟨t, rfl⟩, fun dd hd => ?_, fun Z0 c E z E' hr inv sp => ?_⟩
  · have hq := hd v0 t a3 a4
    have htd : t ≠ d := by rintro rfl; rw [a5] at a1; cases a1
    refine ⟨⟨fun b hb => hb.elim, trivial⟩, ⟨fun b hb => ?_, trivial⟩, ?_⟩
    · cases hb; exact fun h => hq h.1
    · simp only [AStmt.discNext, Stmt.discNext, MDisc]
      congr 1 <;> ext b <;> simp <;> tauto
  · obtain ⟨b1, b2, v, t', w, b3, b4, b5, b6, b7⟩ := ex sp
    rw [a7] at b7
    have hj : idx v0 = idx v := by simpa using b7
    have htt : t' = t := by rw [← hj, a4] at b4; exact (Option.some.inj b4).symm
    subst htt
    have henv : (s1.rec1 cfg (.subscript li vs.length lv (s.r.next cfg)) (s.r.next cfg) (s1.r.V lr)).r.env =
        upd s.r.env d (some (s.r.next cfg)) := by
      simp [ARec.rec1, Rec.val, Rec.keepT, n4, Rec.take]
    obtain ⟨g1, g2⟩ := get_spec (x := c.x) (par := c.par) (ld := s.r.next cfg) inv.refs n1 b1 b2 b5
    rw [← henv, ← b6] at g1 g2
    refine ⟨by rw [b6, a6]; exact hr, g1, inv.mics hal hc hcov hgo g1 g2 fun z' hz => get_res inv.res (fun T hT => ?_) hz⟩
    obtain ⟨_, l, e1, e2⟩ := inv.loc b3
    rw [hi] at e1; cases e1
    have hb : idx v < vs.length := by
      rw [← hj]; exact (List.getElem?_eq_some_iff.1 a4).1
    have hT' : T li = v := by rw [hT li (hfresh _ _ hi), e2]
    simp only [AOp.resolve, AOp.resolveRev, hT', hj]
    rw [if_neg (by omega)]
    exact ⟨rfl, trivial⟩

theorem astep_refGet (hal : ∀ k L, cfg.alloc k L ∉ L) (hidx : ∀ l, idx (ofLoc l : K) = l) {d q : Nat}
    (hrec : (AStmt.refGet d q).record cfg s = some s') (hc : Cov s L) (inv0 : AInv Z00 c0 s E0 L z0)
    (sp0 : (AStmt.refGet d q).spec c0.x c0.par E0 = some (E0', k)) :
    ∃ ms L', AStep cfg (.refGet d q) s E0 E0' k L s' ms L' := by
  simp only [AStmt.record, Option.bind_eq_some_iff, Option.map_eq_some_iff] at hrec
  obtain ⟨lr, hlr, lq, hlq, s1, hnew, ld, hld, rfl⟩ := hrec
  obtain ⟨n1, n2, n3, V, stk, tr, n4⟩ := plain_new hnew
  have hld' : ld = s.r.next cfg := by
    rw [n4] at hld; simp [Rec.take, upd_apply] at hld; exact hld.symm
  subst hld'
  have ex : ∀ {c : Cfg K} {E E' : ASE K} {j}, (AStmt.refGet d q).spec c.x c.par E = some (E', j) →
      E.e.vars d = none ∧ E.refs.lookup d = none ∧ ∃ t w, E.refs.lookup q = some t ∧ E.e.vars t = some w ∧
        E' = ⟨E.e.set d w, E.refs⟩ := by
    intro c E E' j sp
    simp only [AStmt.spec] at sp
    split at sp
    · rename_i hcond
      simp only [Option.bind_eq_some_iff, Option.map_eq_some_iff] at sp
      obtain ⟨t, h1, w, h3, h4⟩ := sp
      cases h4
      exact ⟨by simpa using hcond.1, lookup_none hcond.2, t, w, h1, h3, rfl⟩
    · cases sp
  obtain ⟨a1, a2, t, w0, a3, a5, a6⟩ := ex sp0
  obtain ⟨lq', lt, e1, hlt, e3⟩ := inv0.refloc a3
  have hfresh : ∀ b l, s.r.env b = some l → l ≠ s.r.next cfg := fun b l hb hl => hal _ _ (hl ▸ inv0.ok.live b l hb)
  have hgo := get_go (L := L) hnew hlt (hfresh _ _ hlt) (a := .copyout lq (s.r.next cfg)) rfl (s1.r.V lr)
  have hcov := get_cov (lt := lt) hnew hc (a := .copyout lq (s.r.next cfg)) rfl (s1.r.V lr)
  refine ⟨_, _, hgo, hcov, ⟨t, rfl⟩, fun dd hd => ?_, fun Z0 c E z E' hr inv sp => ?_⟩
  · have hq := hd t a3
    refine ⟨⟨fun b hb => hb.elim, trivial⟩, ⟨fun b hb => ?_, trivial⟩, ?_⟩
    · cases hb; exact fun h => hq h.1
    · simp only [AStmt.discNext, Stmt.discNext, MDisc]
      congr 1 <;> ext b <;> simp <;> tauto
  · obtain ⟨b1, b2, t', w, b3, b5, b6⟩ := ex sp
    have htt : t' = t := by rw [hr, a3] at b3; exact (Option.some.inj b3).symm
    subst htt
    have henv : (s1.rec1 cfg (.copyout lq (s.r.next cfg)) (s.r.next cfg) (s1.r.V lr)).r.env =
        upd s.r.env d (some (s.r.next cfg)) := by
      simp [ARec.rec1, Rec.val, Rec.keepT, n4, Rec.take]
    obtain ⟨g1, g2⟩ := get_spec (x := c.x) (par := c.par) (ld := s.r.next cfg) inv.refs n1 b1 b2 b5
    rw [← henv, ← b6] at g1 g2
    refine ⟨by rw [b6, a6]; exact hr, g1, inv.mics hal hc hcov hgo g1 g2 fun z' hz => get_res inv.res (fun T hT => ?_) hz⟩
    obtain ⟨lq2, lt2, f1, f2, f3⟩ := inv.refloc b3
    rw [hlq] at f1; cases f1
    rw [hlt] at f2; cases f2
    have hT' : T lq = ofLoc lt := by rw [hT lq (hfresh _ _ hlq), f3]
    simp only [AOp.resolve, AOp.resolveRev, hT', hidx, and_self]

theorem astep_ref (hal : ∀ k L, cfg.alloc k L ∉ L) (hidx : ∀ l, idx (ofLoc l : K) = l) {q i : Nat} {vs : List Nat}
    (hrec : (AStmt.ref q vs i).record cfg s = some s') (hcon : contiguous s.r.env vs) (hc : Cov s L) (inv0 : AInv Z00 c0 s E0 L z0)
    (sp0 : (AStmt.ref q vs i).spec c0.x c0.par E0 = some (E0', k)) :
    ∃ ms L', AStep cfg (.ref q vs i) s E0 E0' k L s' ms L' := by
  simp only [AStmt.record] at hrec
  split at hrec
  swap; · cases hrec
  rename_i hq0
  simp only [Option.isNone_iff_eq_none] at hq0
  simp only [Option.bind_eq_some_iff, Option.map_eq_some_iff] at hrec
  obtain ⟨li, hi, lv, hv, lr, hlr, rfl⟩ := hrec
  have ex : ∀ {c : Cfg K} {E E' : ASE K} {j}, (AStmt.ref q vs i).spec c.x c.par E = some (E', j) →
      E.e.vars q = none ∧ E.refs.lookup q = none ∧ ∃ v t w, E.e.vars i = some v ∧ vs[idx v]? = some t ∧ E.e.vars t = some w ∧
        E' = ⟨E.e, (q, t) :: E.refs⟩ ∧ j = [idx v] := by
    intro c E E' j sp
    simp only [AStmt.spec] at sp
    split at sp
    · rename_i hcond
      simp only [Option.bind_eq_some_iff, Option.map_eq_some_iff] at sp
      obtain ⟨v, h1, t, h2, w, h3, h4⟩ := sp
      cases h4
      exact ⟨by simpa using hcond.1, lookup_none hcond.2, v, t, w, h1, h2, h3, rfl, rfl⟩
    · cases sp
  obtain ⟨a1, a2, v0, t, w0, a3, a4, a5, a6, a7⟩ := ex sp0
  have hlt := contig_loc hcon hv a4
  have hfresh : ∀ b l, s.r.env b = some l → l ≠ s.r.next cfg := fun b l hb hl => hal _ _ (hl ▸ inv0.ok.live b l hb)
  refine ⟨[.setref q (lv + idx v0)], (.subscriptRef li vs.length lv (s.r.next cfg), .setRef (s.r.next cfg) (ofLoc (lv + idx v0))) :: L,
    ⟨_, _, ⟨_, _, _, _, rfl, rfl, rfl⟩, rfl, rfl⟩, ⟨?_, ?_⟩, ⟨_, rfl⟩, fun dd hd => rfl, fun Z0 c E z E' hr inv sp => ?_⟩
  · simp [ARec.rec1, hc.fst]
  · intro p hp
    rcases List.mem_cons.1 hp with rfl | hp
    · simp [PairOk]
    · exact hc.pair p hp
  · obtain ⟨b1, b2, v, t', w, b3, b4, b5, b6, b7⟩ := ex sp
    rw [a7] at b7
    have hj : idx v0 = idx v := by simpa using b7
    have htt : t' = t := by rw [← hj, a4] at b4; exact (Option.some.inj b4).symm
    subst htt
    subst b6
    obtain ⟨htl, _⟩ := inv.loc b5
    have htq : t' ≠ q := by rintro rfl; rw [hq0] at hlt; cases hlt
    have hne : ∀ q' u, E.refs.lookup q' = some u → u ≠ q := by
      rintro q' u hq' rfl
      obtain ⟨_, _, l, hl⟩ := inv.refs q' _ hq'
      rw [hq0] at hl; cases hl
    have g1 : Mics.spec c.x c.par [.setref q (lv + idx v0)] (gse s.r.env E) =
        some (gse (upd s.r.env q (some (s.r.next cfg))) ⟨E.e, (q, t') :: E.refs⟩) := by
      simp only [Mics.spec, Mic.spec, Option.bind_some, gse, SE.set, Option.some.injEq, SE.mk.injEq, and_true]
      funext a
      simp only [upd_apply, List.lookup_cons]
      by_cases ha : a = q
      · subst ha; simp [htq, hlt]
      · simp only [if_neg ha, beq_false_of_ne ha]
        cases hl : E.refs.lookup a with
        | none => rfl
        | some u => simp [hne a u hl]
    have g2 : RefsOk (upd s.r.env q (some (s.r.next cfg))) ⟨E.e, (q, t') :: E.refs⟩ := by
      intro a u ha
      simp only [List.lookup_cons] at ha ⊢
      by_cases haq : a = q
      · subst haq
        simp at ha
        subst ha
        exact ⟨b1, by simp [beq_false_of_ne htq, htl], _, by simp [upd_apply, htq, hlt]; rfl⟩
      · rw [beq_false_of_ne haq] at ha
        obtain ⟨r1, r2, l, r3⟩ := inv.refs a u ha
        have := hne a u ha
        exact ⟨r1, by simp [beq_false_of_ne this, r2], l, by simp [upd_apply, this, r3]⟩
    refine ⟨by rw [a6, hr], g1, inv.mics (ms := [.setref q (lv + idx v0)]) (s' := _) hal hc ⟨?_, ?_⟩ ⟨_, _, ⟨_, _, _, _, rfl, rfl, rfl⟩, rfl, rfl⟩ g1 g2 fun z' hz => ?_⟩
    · simp [ARec.rec1, hc.fst]
    · intro p hp
      rcases List.mem_cons.1 hp with rfl | hp
      · simp [PairOk]
      · exact hc.pair p hp
    · have hl := inv.res.last hz
      obtain ⟨_, l, e1, e2⟩ := inv.loc b3
      rw [hi] at e1; cases e1
      have hb : idx v < vs.length := by
        rw [← hj]; exact (List.getElem?_eq_some_iff.1 a4).1
      refine ⟨z, inv.res, ?_, hl, ?_⟩
      · simp only [AOp.resolve, e2, hj]
        rw [if_neg (by omega)]
      · simp only [zosStep, Except.ok.injEq] at hl
        subst hl
        simp only [AOp.resolveRev, ZS.set, ZS.push, upd_apply, if_neg (hfresh _ _ hi), if_true, e2, hidx, hj]
        simp

theorem astep_refDel (hal : ∀ k L, cfg.alloc k L ∉ L) {q : Nat}
    (hrec : (AStmt.refDel q).record cfg s = some s') (hc : Cov s L) (inv0 : AInv Z00 c0 s E0 L z0)
    (sp0 : (AStmt.refDel q).spec c0.x c0.par E0 = some (E0', k)) :
    ∃ ms L', AStep cfg (.refDel q) s E0 E0' k L s' ms L' := by
  simp only [AStmt.record, Option.bind_eq_some_iff, Option.map_eq_some_iff] at hrec
  obtain ⟨lr, hlr, lq, hlq, rfl⟩ := hrec
  have hgo : Mics cfg [.call (.del q)] s.r L (s.r.free q lq) L :=
    ⟨_, _, fun g hg => ⟨_, _, by simp only [Stmt.record, hlq, Option.map_some]; rfl⟩, rfl, rfl⟩
  have ex : ∀ {c : Cfg K} {E E' : ASE K} {j}, (AStmt.refDel q).spec c.x c.par E = some (E', j) →
      ∃ t, E.refs.lookup q = some t ∧ E' = ⟨E.e, E.refs.filter fun p => p.1 ≠ q⟩ := by
    intro c E E' j sp
    simp only [AStmt.spec, Option.map_eq_some_iff] at sp
    obtain ⟨t, h1, h4⟩ := sp
    cases h4
    exact ⟨t, h1, rfl⟩
  obtain ⟨t0, _, a6⟩ := ex sp0
  refine ⟨_, L, hgo, ⟨hc.fst, hc.pair⟩, rfl, fun dd hd => ⟨⟨fun b hb => hb.elim, trivial⟩, rfl⟩, fun Z0 c E z E' hr inv sp => ?_⟩
  obtain ⟨t, b3, rfl⟩ := ex sp
  obtain ⟨r1, r2, lt, r3⟩ := inv.refs q t b3
  have hne : ∀ q' u, E.refs.lookup q' = some u → u ≠ q := by
    rintro q' u hq' rfl
    have := (inv.refs q' _ hq').2.1
    rw [b3] at this; cases this
  have g1 : Mics.spec c.x c.par [.call (.del q)] (gse s.r.env E) =
      some (gse (upd s.r.env q none) ⟨E.e, E.refs.filter fun p => p.1 ≠ q⟩) := by
    simp only [Mics.spec, Mic.spec, Stmt.spec, gse, b3, r3, Option.map_some, Option.isSome_some, if_true,
      Option.bind_some, SE.del, Option.some.injEq, SE.mk.injEq, and_true]
    funext a
    simp only [upd_apply, lookup_filter]
    by_cases ha : a = q
    · subst ha; simp [r1]
    · simp only [if_neg ha]
      cases hl : E.refs.lookup a with
      | none => rfl
      | some u => simp [hne a u hl]
  refine ⟨by rw [a6, hr], g1, inv.mics (s' := _) hal hc ⟨hc.fst, hc.pair⟩ hgo g1 (fun a u ha => ?_) fun z' hz => ?_⟩
  · simp only [lookup_filter] at ha ⊢
    split at ha
    · cases ha
    · obtain ⟨k1, k2, l, k3⟩ := inv.refs a u ha
      have := hne a u ha
      exact ⟨k1, by simp [this, k2], l, by simp [Rec.free, upd_apply, this, k3]⟩
  · have := inv.res.run
    rw [this] at hz; cases hz
    exact inv.res

/-! ### Calls on a referenced element -/

theorem decT_eq (b : Bool) (k : Int) (z : ZS K) : (ZS.dec b k z).T = z.T := by
  unfold ZS.dec; cases b <;> rfl

theorem refop_other {c : Cfg K} {o : RefOp K} {lt l : Nat} {z z' : ZS K} (h : zosStep c (o.base lt) z = .ok z') (hl : l ≠ lt) :
    z'.T l = z.T l := by
  cases o <;> simp only [RefOp.base, zosStep] at h
  all_goals first
    | (simp only [Except.ok.injEq] at h; subst h; simp [ZS.set, ZS.push, upd_apply, hl]; done)
    | (split_ifs at h <;> simp only [Except.ok.injEq] at h <;> subst h <;> simp [ZS.set, ZS.push, decT_eq, upd_apply, hl]; done)

theorem refop_ne (o : RefOp K) (l : Nat) : (∀ a b r, o.base l ≠ .multAA a b r) ∧ ∀ r c, o.base l ≠ .setRef r c := by
  cases o <;> simp [RefOp.base]

/-- The call on the reference and the call on the element record the same, up to the values. -/
theorem refdo_go {f : RefCall K} {lq l t lt : Nat} (h : f.record cfg lq l s = some s') (ht : s.r.env t = some lt)
    (hq : ∀ b lb, f = .setA b → s.r.env b = some lb → lq ≠ lb ∧ lb ≠ lt) :
    ∃ o : RefOp K, s'.tr = .ref o lq :: s.tr ∧ s'.r.env = s.r.env ∧
      ∀ tr, ∃ V stk, (f.stmt t).record cfg { s.r with tr := tr } = some { s'.r with tr := o.base lt :: tr, V := V, stk := stk } := by
  cases f
  case setA b =>
    simp only [RefCall.record, Option.map_eq_some_iff] at h
    obtain ⟨lb, hb, h⟩ := h
    obtain ⟨h1, h2⟩ := hq b lb rfl hb
    rw [if_pos h1] at h
    subst h
    refine ⟨_, rfl, rfl, fun tr => ⟨upd s.r.V lt (s.r.V lb), (if cfg.keep then s.r.V lt :: s.r.stk else s.r.stk), ?_⟩⟩
    simp only [RefCall.stmt, Stmt.record, ht, hb, Option.bind_some, Option.map_some, if_pos (Ne.symm h2)]
    rfl
  all_goals simp only [RefCall.record, Option.bind_eq_some_iff, Option.map_eq_some_iff, Option.some.injEq] at h
  case setD k =>
    subst h
    refine ⟨_, rfl, rfl, fun tr => ⟨upd s.r.V lt k, (if cfg.keep then s.r.V lt :: s.r.stk else s.r.stk), ?_⟩⟩
    simp only [RefCall.stmt, Stmt.record, ht, Option.map_some, opAssignD]
    by_cases h0 : k = 0
    · simp only [h0, if_true]; rfl
    · by_cases h1 : k = 1
      · simp only [h1, if_true, if_neg (h1 ▸ h0)]; rfl
      · simp only [h0, h1, if_false]; rfl
  case accD f k =>
    subst h
    refine ⟨_, rfl, rfl, fun tr => ⟨upd s.r.V lt (f.fn (s.r.V lt) k), (if cfg.keep then s.r.V lt :: s.r.stk else s.r.stk), ?_⟩⟩
    simp only [RefCall.stmt, Stmt.record, ht, Option.map_some]
    cases f <;> rfl
  case accA f b =>
    obtain ⟨lb, hb, rfl⟩ := h
    refine ⟨_, rfl, rfl, fun tr => ⟨upd s.r.V lt (f.fn (s.r.V lt) (s.r.V lb)), (if cfg.keep then s.r.V lt :: s.r.stk else s.r.stk), ?_⟩⟩
    simp only [RefCall.stmt, Stmt.record, ht, hb, Option.bind_some, Option.map_some]
    cases f <;> rfl
  case incr =>
    subst h
    refine ⟨_, rfl, rfl, fun tr => ⟨upd s.r.V lt (s.r.V lt + 1), (if cfg.keep then s.r.V lt :: s.r.stk else s.r.stk), ?_⟩⟩
    simp only [RefCall.stmt, Stmt.record, ht, Option.map_some]
    rfl
  case decr =>
    subst h
    refine ⟨_, rfl, rfl, fun tr => ⟨upd s.r.V lt (s.r.V lt - 1), (if cfg.keep then s.r.V lt :: s.r.stk else s.r.stk), ?_⟩⟩
    simp only [RefCall.stmt, Stmt.record, ht, Option.map_some]
    rfl
  case indep =>
    subst h
    refine ⟨_, rfl, rfl, fun tr => ⟨upd s.r.V lt (cfg.x s.r.ii), (if cfg.keep then s.r.V lt :: s.r.stk else s.r.stk), ?_⟩⟩
    simp only [RefCall.stmt, Stmt.record, ht, Option.map_some]
    rfl
  case cond cc a b =>
    obtain ⟨lc, h1, la, h2, lb, h3, rfl⟩ := h
    refine ⟨_, rfl, rfl, fun tr => ⟨upd s.r.V lt (if s.r.V lc > 0 then s.r.V la else s.r.V lb), (if cfg.keep then s.r.V lt :: s.r.stk else s.r.stk), ?_⟩⟩
    simp only [RefCall.stmt, Stmt.record, ht, h1, h2, h3, Option.bind_some, Option.map_some]
    rfl
  case condS cc a =>
    obtain ⟨lc, h1, la, h2, rfl⟩ := h
    refine ⟨_, rfl, rfl, fun tr => ⟨upd s.r.V lt (if s.r.V lc > 0 then s.r.V la else s.r.V lt), (if cfg.keep then s.r.V lt :: s.r.stk else s.r.stk), ?_⟩⟩
    simp only [RefCall.stmt, Stmt.record, ht, h1, h2, Option.bind_some, Option.map_some]
    rfl
  case condEq cc a b =>
    obtain ⟨lc, h1, la, h2, lb, h3, rfl⟩ := h
    refine ⟨_, rfl, rfl, fun tr => ⟨upd s.r.V lt (if s.r.V lc ≥ 0 then s.r.V la else s.r.V lb), (if cfg.keep then s.r.V lt :: s.r.stk else s.r.stk), ?_⟩⟩
    simp only [RefCall.stmt, Stmt.record, ht, h1, h2, h3, Option.bind_some, Option.map_some]
    rfl
  case condEqS cc a =>
    obtain ⟨lc, h1, la, h2, rfl⟩ := h
    refine ⟨_, rfl, rfl, fun tr => ⟨upd s.r.V lt (if s.r.V lc ≥ 0 then s.r.V la else s.r.V lt), (if cfg.keep then s.r.V lt :: s.r.stk else s.r.stk), ?_⟩⟩
    simp only [RefCall.stmt, Stmt.record, ht, h1, h2, Option.bind_some, Option.map_some]
    rfl

theorem astep_refDo (hal : ∀ k L, cfg.alloc k L ∉ L) (hidx : ∀ l, idx (ofLoc l : K) = l) {q : Nat} {f : RefCall K}
    (hrec : (AStmt.refDo q f).record cfg s = some s') (hc : Cov s L) (inv0 : AInv Z00 c0 s E0 L z0)
    (sp0 : (AStmt.refDo q f).spec c0.x c0.par E0 = some (E0', k)) :
    ∃ ms L', AStep cfg (.refDo q f) s E0 E0' k L s' ms L' := by
  simp only [AStmt.record, Option.bind_eq_some_iff] at hrec
  obtain ⟨lr, hlr, lq, hlq, hrec⟩ := hrec
  have ex : ∀ {c : Cfg K} {E E' : ASE K} {j}, (AStmt.refDo q f).spec c.x c.par E = some (E', j) →
      ∃ t e', E.refs.lookup q = some t ∧ (∀ p ∈ E.refs, p.1 ∉ (f.stmt t).names) ∧
        (f.stmt t).spec c.x c.par E.e = some e' ∧ E' = ⟨e', E.refs⟩ := by
    intro c E E' j sp
    simp only [AStmt.spec, Option.bind_eq_some_iff] at sp
    obtain ⟨t, h1, sp⟩ := sp
    split at sp
    · rename_i hcond
      simp only [Option.map_eq_some_iff] at sp
      obtain ⟨e', h2, h3⟩ := sp
      cases h3
      exact ⟨t, e', h1, hcond, h2, rfl⟩
    · cases sp
  obtain ⟨t, e0', a1, a2, a3, a4⟩ := ex sp0
  obtain ⟨lq', lt, e1, hlt, e3⟩ := inv0.refloc a1
  rw [hlq] at e1; cases e1
  have htq : t ≠ q := by
    rintro rfl
    have := (inv0.refs _ _ a1).2.1
    rw [a1] at this; cases this
  have hll : lq ≠ lt := fun h => htq (inv0.ok.inj t q lt hlt (h ▸ hlq))
  by_cases hself : f = .setA t
  · -- the element is assigned to itself
    subst hself
    simp only [RefCall.record, hlt, Option.map_some, Option.some.injEq, if_pos hll] at hrec
    subst hrec
    have hcov : Cov (s.rec1 cfg (.ref (.assignA lt) lq) lr (s.r.V lt)) ((.ref (.assignA lt) lq, .assignA lt lt) :: L) := by
      refine ⟨by simp [ARec.rec1, hc.fst], fun p hp => ?_⟩
      rcases List.mem_cons.1 hp with rfl | hp
      · simp [PairOk]
      · exact hc.pair p hp
    have hgo : Mics cfg [.self t] s.r L (s.rec1 cfg (.ref (.assignA lt) lq) lr (s.r.V lt)).r ((.ref (.assignA lt) lq, .assignA lt lt) :: L) :=
      ⟨_, _, ⟨lt, _, _, _, _, rfl, hlt, rfl, rfl⟩, rfl, rfl⟩
    refine ⟨_, _, hgo, hcov, ⟨t, a1, a2, .inr rfl⟩, fun dd hd => absurd rfl (hd t a1).2, fun Z0 c E z E' hr inv sp => ?_⟩
    obtain ⟨t', e', b1, b2, b3, b4⟩ := ex sp
    have htt : t' = t := by rw [hr, a1] at b1; exact (Option.some.inj b1).symm
    subst htt
    have hee : e' = E.e := by
      simp only [RefCall.stmt, Stmt.spec] at b3
      split at b3
      · simp only [Option.map_eq_some_iff] at b3
        obtain ⟨w, h1, h2⟩ := b3
        rw [← h2]
        cases hE : E.e with
        | mk vars ii ys =>
          rw [hE] at h1
          simp only [SE.set, SE.mk.injEq, and_true]
          funext b; simp only [upd_apply]; split
          · rename_i hb; rw [hb]; exact h1.symm
          · rfl
      · cases b3
    subst hee
    have hE' : E' = E := by rw [b4]
    subst hE'
    refine ⟨by rw [a4, hr], rfl, inv.mics hal hc hcov hgo rfl inv.refs fun z' hz => ?_⟩
    obtain ⟨lq2, lt2, f1, f2, f3⟩ := inv.refloc b1
    rw [hlq] at f1; cases f1
    rw [hlt] at f2; cases f2
    have hlast := inv.res.last hz
    have hT : z'.T lq = z.T lq := refop_other (o := .assignA lt) hlast hll
    exact ⟨z, inv.res, by simp only [AOp.resolve, f3, hidx, RefOp.base], hlast, by simp only [AOp.resolveRev, hT, f3, hidx, RefOp.base]⟩
  · obtain ⟨o, g1, g2, g3⟩ := refdo_go hrec hlt (fun b lb hf hb => by
      subst hf
      have hbt : b ≠ t := fun h => hself (by rw [h])
      have hbq : b ≠ q := by
        rintro rfl
        exact a2 _ (lookup_mem a1) (by simp [RefCall.stmt, Stmt.names])
      exact ⟨fun h => hbq (inv0.ok.inj b q lb hb (h ▸ hlq)), fun h => hbt (inv0.ok.inj b t lb hb (h ▸ hlt))⟩)
    have hcov : Cov s' ((.ref o lq, o.base lt) :: L) := by
      refine ⟨by rw [g1, List.map_cons, hc.fst], fun p hp => ?_⟩
      rcases List.mem_cons.1 hp with rfl | hp
      · exact (refop_ne o lt).1
      · exact hc.pair p hp
    have hgo : Mics cfg [.call (f.stmt t)] s.r L s'.r ((.ref o lq, o.base lt) :: L) :=
      ⟨_, _, fun g hg => by
        obtain ⟨V, stk, h⟩ := g3 (L.map (vw g))
        refine ⟨V, stk, ?_⟩
        rw [h, List.map_cons, vw_of rfl, hg.id _ (refop_ne o lt).2], rfl, rfl⟩
    refine ⟨_, _, hgo, hcov, ⟨t, a1, a2, .inl rfl⟩, fun dd hd => ⟨(hd t a1).1, ?_⟩, fun Z0 c E z E' hr inv sp => ?_⟩
    · simp only [MDisc, AStmt.discNext, a1]
    · obtain ⟨t', e', b1, b2, b3, b4⟩ := ex sp
      have htt : t' = t := by rw [hr, a1] at b1; exact (Option.some.inj b1).symm
      subst htt
      obtain ⟨k1, k2⟩ := gse_frame (env' := s'.r.env) inv.refs (fun q' u hq' => b2 _ (lookup_mem hq')) (fun q' u hq' => by rw [g2]) b3
      rw [← b4] at k1 k2
      have hsp : Mics.spec c.x c.par [.call (f.stmt t')] (gse s.r.env E) = some (gse s'.r.env E') := by
        simp [Mics.spec, Mic.spec, k1]
      refine ⟨by rw [b4, a4]; exact hr, hsp, inv.mics hal hc hcov hgo hsp k2 fun z' hz => ?_⟩
      obtain ⟨lq2, lt2, f1, f2, f3⟩ := inv.refloc b1
      rw [hlq] at f1; cases f1
      rw [hlt] at f2; cases f2
      have hlast := inv.res.last hz
      have hT : z'.T lq = z.T lq := refop_other hlast hll
      exact ⟨z, inv.res, by simp only [AOp.resolve, f3, hidx], hlast, by simp only [AOp.resolveRev, hT, f3, hidx]⟩

/-- One call. -/
theorem astep (hal : ∀ k L, cfg.alloc k L ∉ L) (hidx : ∀ l, idx (ofLoc l : K) = l) {st : AStmt K}
    (hrec : st.record cfg s = some s') (hcon : st.contig s) (hc : Cov s L) (inv0 : AInv Z00 c0 s E0 L z0)
    (sp0 : st.spec c0.x c0.par E0 = some (E0', k)) :
    ∃ ms L', AStep cfg st s E0 E0' k L s' ms L' := by
  cases st
  · obtain ⟨L', h⟩ := astep_plain hal hrec hc inv0 sp0; exact ⟨_, L', h⟩
  · exact astep_sub hal hrec hcon hc inv0 sp0
  · exact astep_ref hal hidx hrec hcon hc inv0 sp0
  · exact astep_refDel hal hrec hc inv0 sp0
  · exact astep_refGet hal hidx hrec hc inv0 sp0
  · exact astep_refDo hal hidx hrec hc inv0 sp0
end

/-- Smoothness of a call, on the resolved trace. -/
theorem astep_smooth {lv : Sm} {st : AStmt ℝ} {E : ASE ℝ} {ms : List (Mic ℝ)} {x par : Nat → ℝ} {env : Nat → Option Nat}
    (hf : AForm st E ms) (h : st.smooth lv E)
    (hpl : ∀ p, st = .plain p → ∀ q t, E.refs.lookup q = some t → q ∉ p.names) : MSmooth lv x par ms (gse env E) := by
  have fr : ∀ {s : Stmt ℝ}, (∀ q t, E.refs.lookup q = some t → q ∉ s.names) → s.smooth lv E.e → s.smooth lv (gse env E) := by
    intro s hn hs
    refine smooth_frame (fun a ha => ?_) hs
    have : E.refs.lookup a = none := by
      cases hl : E.refs.lookup a with
      | none => rfl
      | some t => exact absurd ha (hn a t hl)
    simp [gse, this]
  cases st
  case plain p =>
    simp only [AForm] at hf; subst hf
    exact ⟨fr (hpl p rfl) h, fun _ _ => trivial⟩
  case sub d vs i =>
    obtain ⟨t, rfl⟩ := hf
    exact ⟨trivial, fun _ _ => ⟨trivial, fun _ _ => trivial⟩⟩
  case ref q vs i =>
    obtain ⟨t, rfl⟩ := hf
    exact ⟨trivial, fun _ _ => trivial⟩
  case refDel q =>
    simp only [AForm] at hf; subst hf
    exact ⟨trivial, fun _ _ => trivial⟩
  case refGet d q =>
    obtain ⟨t, rfl⟩ := hf
    exact ⟨trivial, fun _ _ => ⟨trivial, fun _ _ => trivial⟩⟩
  case refDo q f =>
    obtain ⟨t, h1, h2, rfl | rfl⟩ := hf
    · exact ⟨fr (fun q' u hq' => h2 _ (lookup_mem hq')) (h t h1), fun _ _ => trivial⟩
    · exact ⟨trivial, fun _ _ => trivial⟩

end Verif.AD
