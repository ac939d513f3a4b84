import Verif.AD.AdvMic

/-! A recorded program with active subscripts, step by step. -/
set_option linter.all false
namespace Verif.AD
open Elem

variable {K : Type} [Scalar K]

/-- The pairs are the operations of the trace and what they are at the point `c`. -/
def Res (Z0 : ZS K) (c : Cfg K) : PL K → ZS K → Prop
  | [], z => z = Z0
  | p :: L, z => ∃ z0, Res Z0 c L z0 ∧ p.1.resolve z0.T = .ok p.2 ∧ zosStep c p.2 z0 = .ok z ∧
      p.1.resolveRev z.T = .ok p.2

theorem Res.run {Z0 : ZS K} {c : Cfg K} {L : PL K} {z : ZS K} (h : Res Z0 c L z) :
    zosRun c (L.map Prod.snd).reverse Z0 = .ok z := by
  induction L generalizing z with
  | nil => cases h; rfl
  | cons p L ih =>
    obtain ⟨z0, h1, h2, h3, h4⟩ := h
    rw [List.map_cons, List.reverse_cons, zosRun_append, ih h1]
    simp [zosRun, h3]

theorem zosRunA_append {c : Cfg K} {a b : List (AOp K)} {z : ZS K} :
    zosRunA c (a ++ b) z = (match zosRunA c a z with | .error e => .error e | .ok z' => zosRunA c b z') := by
  induction a generalizing z with
  | nil => rfl
  | cons o os ih =>
    simp only [List.cons_append, zosRunA]
    cases o.resolve z.T with
    | error e => rfl
    | ok b1 =>
      simp only
      cases zosStep c b1 z with
      | error e => rfl
      | ok z1 => simp only [ih]

theorem Res.runA {Z0 : ZS K} {c : Cfg K} {L : PL K} {z : ZS K} (h : Res Z0 c L z) :
    zosRunA c (L.map Prod.fst).reverse Z0 = .ok z := by
  induction L generalizing z with
  | nil => cases h; rfl
  | cons p L ih =>
    obtain ⟨z0, h1, h2, h3, h4⟩ := h
    rw [List.map_cons, List.reverse_cons, zosRunA_append, ih h1]
    simp [zosRunA, h2, h3]

theorem Res.last {Z0 : ZS K} {c : Cfg K} {L : PL K} {z z' : ZS K} {p : AOp K × Base K} (h : Res Z0 c L z)
    (hr : zosRun c ((p :: L).map Prod.snd).reverse Z0 = .ok z') : zosStep c p.2 z = .ok z' := by
  rw [List.map_cons, List.reverse_cons, zosRun_append, h.run] at hr
  simp only [zosRun] at hr
  split at hr
  · cases hr
  · rename_i h1; rw [h1]; exact hr

theorem Res.base {Z0 : ZS K} {c : Cfg K} {L : PL K} {z z' : ZS K} {o : Base K} (h : Res Z0 c L z)
    (hr : zosRun c (((.base o, o) :: L : PL K).map Prod.snd).reverse Z0 = .ok z') : Res Z0 c ((.base o, o) :: L) z' :=
  ⟨z, h, rfl, h.last hr, rfl⟩

theorem Res.grow {Z0 : ZS K} {c : Cfg K} {L L' : PL K} {z z' : ZS K} (h : Res Z0 c L z) (hg : Grow L L')
    (hr : zosRun c (L'.map Prod.snd).reverse Z0 = .ok z') : Res Z0 c L' z' := by
  rcases hg with rfl | ⟨o, rfl⟩ | ⟨m, o, L1, rfl, rfl⟩
  · rw [h.run] at hr; cases hr; exact h
  · exact h.base hr
  · obtain ⟨z0, h1, _⟩ := h
    exact h1.base hr

/-- The references as objects holding locations. -/
def gse (env : Nat → Option Nat) (E : ASE K) : SE K :=
  { E.e with vars := fun q => match E.refs.lookup q with
    | some t => (env t).map ofLoc
    | none => E.e.vars q }

def RefsOk (env : Nat → Option Nat) (E : ASE K) : Prop :=
  ∀ q t, E.refs.lookup q = some t → E.e.vars q = none ∧ E.refs.lookup t = none ∧ ∃ lt, env t = some lt

structure AInv (Z0 : ZS K) (c : Cfg K) (s : ARec K) (E : ASE K) (L : PL K) (z : ZS K) : Prop where
  ok : s.r.Ok
  res : Res Z0 c L z
  sim : Sim s.r.env z (gse s.r.env E)
  refs : RefsOk s.r.env E

structure Cov (s : ARec K) (L : PL K) : Prop where
  fst : L.map Prod.fst = s.tr
  pair : ∀ p ∈ L, PairOk p

theorem AInv.zos {Z0 : ZS K} {c : Cfg K} {s : ARec K} {E : ASE K} {L : PL K} {z : ZS K} (h : AInv Z0 c s E L z)
    (hc : Cov s L) : zosRun c (L.map (vw id)).reverse Z0 = .ok z := by
  rw [map_vw_id hc.pair]; exact h.res.run

theorem lookup_mem {l : List (Nat × Nat)} {q t : Nat} (h : l.lookup q = some t) : (q, t) ∈ l := by
  induction l with
  | nil => cases h
  | cons p l ih =>
    obtain ⟨a, b⟩ := p
    simp only [List.lookup_cons] at h
    split at h
    · rename_i he
      cases h
      simp only [beq_iff_eq] at he
      subst he; simp
    · exact List.mem_cons_of_mem _ (ih h)

theorem lookup_none {l : List (Nat × Nat)} {q : Nat} (h : ∀ p ∈ l, p.1 ≠ q) : l.lookup q = none := by
  cases hl : l.lookup q with
  | none => rfl
  | some t => exact absurd rfl (h _ (lookup_mem hl))

theorem lookup_filter {l : List (Nat × Nat)} {q a : Nat} :
    (l.filter fun p => p.1 ≠ q).lookup a = if a = q then none else l.lookup a := by
  induction l with
  | nil => simp
  | cons p l ih =>
    obtain ⟨b, t⟩ := p
    simp only [List.filter_cons]
    by_cases hb : b = q
    · subst hb
      simp only [ne_eq, not_true_eq_false, decide_false, Bool.false_eq_true, if_false, ih, List.lookup_cons]
      by_cases ha : a = b
      · simp [ha]
      · simp [ha, beq_false_of_ne ha]
    · simp only [ne_eq, hb, not_false_eq_true, decide_true, if_true, List.lookup_cons, ih]
      by_cases ha : a = b
      · subst ha; simp [hb]
      · simp [beq_false_of_ne ha]

/-- Objects with a value are at their location. -/
theorem AInv.loc {Z0 : ZS K} {c : Cfg K} {s : ARec K} {E : ASE K} {L : PL K} {z : ZS K} (h : AInv Z0 c s E L z)
    {a : Nat} {v : K} (ha : E.e.vars a = some v) :
    E.refs.lookup a = none ∧ ∃ l, s.r.env a = some l ∧ z.T l = v := by
  have hl : E.refs.lookup a = none := by
    cases hl : E.refs.lookup a with
    | none => rfl
    | some t => have := (h.refs a t hl).1; rw [ha] at this; cases this
  refine ⟨hl, ?_⟩
  have := h.sim.vars a
  simp only [gse, hl, ha] at this
  cases he : s.r.env a with
  | none => rw [he] at this; cases this
  | some l => rw [he] at this; exact ⟨l, rfl, (Option.some.inj this).symm⟩

theorem AInv.refloc {Z0 : ZS K} {c : Cfg K} {s : ARec K} {E : ASE K} {L : PL K} {z : ZS K} (h : AInv Z0 c s E L z)
    {q t : Nat} (hq : E.refs.lookup q = some t) :
    ∃ lq lt, s.r.env q = some lq ∧ s.r.env t = some lt ∧ z.T lq = ofLoc lt := by
  obtain ⟨_, _, lt, ht⟩ := h.refs q t hq
  have := h.sim.vars q
  simp only [gse, hq, ht, Option.map_some] at this
  cases he : s.r.env q with
  | none => rw [he] at this; cases this
  | some l => rw [he] at this; exact ⟨l, lt, rfl, ht, (Option.some.inj this).symm⟩

/-- A list of plain calls that keeps the references. -/
theorem gse_frame {x par : Nat → K} {st : Stmt K} {env env' : Nat → Option Nat} {E : ASE K} {e' : SE K}
    (hr : RefsOk env E) (hn : ∀ q t, E.refs.lookup q = some t → q ∉ st.names)
    (he : ∀ q t, E.refs.lookup q = some t → env' t = env t)
    (h : st.spec x par E.e = some e') :
    st.spec x par (gse env E) = some (gse env' ⟨e', E.refs⟩) ∧ RefsOk env' ⟨e', E.refs⟩ := by
  have hv : ∀ a ∈ st.names, E.e.vars a = (gse env E).vars a := by
    intro a ha
    have : E.refs.lookup a = none := by
      cases hl : E.refs.lookup a with
      | none => rfl
      | some t => exact absurd ha (hn a t hl)
    simp [gse, this]
  obtain ⟨e2, h1, h2, h3, h4, h5⟩ := spec_frame hv (by rfl) (by rfl) h
  refine ⟨?_, ?_⟩
  · rw [h1]
    congr 1
    cases e2 with
    | mk vars ii ys =>
      simp only [gse, SE.mk.injEq]
      refine ⟨?_, h2.symm, h3.symm⟩
      funext a
      cases hl : E.refs.lookup a with
      | none =>
        simp only
        by_cases ha : a ∈ st.names
        · exact (h4 a ha).symm
        · have := h5 a ha
          have h6 : vars a = _ := this.2
          rw [this.1, h6]
          simp [gse, hl]
      | some t =>
        have := (h5 a (hn a t hl)).2
        simp only [gse, hl] at this ⊢
        rw [this, he a t hl]
  · intro q t hq
    have := hr q t hq
    refine ⟨?_, this.2.1, ?_⟩
    · rw [(h5 q (hn q t hq)).1]; exact this.1
    · rw [he q t hq]; exact this.2.2

/-! ### Conditions on a call, at the point of evaluation -/

/-- The call is differentiable at the current values. -/
def AStmt.smooth (lv : Sm) (st : AStmt ℝ) (E : ASE ℝ) : Prop :=
  match st with
  | .plain s => s.smooth lv E.e
  | .refDo q f => ∀ t, E.refs.lookup q = some t → (f.stmt t).smooth lv E.e
  | _ => True

/-- The discipline of `Stmt.disc`; in `v[i] = b` the selected element is not `b` itself. -/
def AStmt.disc (st : AStmt K) (E : ASE K) (d : Disc) : Prop :=
  match st with
  | .plain s => s.disc d
  | .sub _ vs i => ∀ v t, E.e.vars i = some v → vs[idx v]? = some t → t ∉ d.Q
  | .refGet _ q => ∀ t, E.refs.lookup q = some t → t ∉ d.Q
  | .refDo q f => ∀ t, E.refs.lookup q = some t → (f.stmt t).disc d ∧ f ≠ .setA t
  | _ => True

def AStmt.discNext (st : AStmt K) (E : ASE K) (d : Disc) : Disc :=
  match st with
  | .plain s => s.discNext d
  | .sub a _ _ | .refGet a _ | .refDel a => ⟨d.C \ {a}, d.Q \ {a}⟩
  | .ref q _ _ => ⟨d.C \ {q}, insert q d.Q⟩
  | .refDo q f => match E.refs.lookup q with
    | some t => (f.stmt t).discNext d
    | none => d

/-- Vectors used with an active subscript are contiguous. -/
def AStmt.contig (st : AStmt K) (s : ARec K) : Prop :=
  match st with
  | .sub _ vs _ | .ref _ vs _ => contiguous s.r.env vs
  | _ => True

/-! ### One call -/

/-- The steps of a call. -/
def AForm (st : AStmt K) (E0 : ASE K) (ms : List (Mic K)) : Prop :=
  match st with
  | .plain p => ms = [.call p]
  | .sub d _ _ => ∃ t, ms = [.call (.new d), .call (.setA d t)]
  | .ref q _ _ => ∃ lt, ms = [.setref q lt]
  | .refDel q => ms = [.call (.del q)]
  | .refGet d _ => ∃ t, ms = [.call (.new d), .call (.setA d t)]
  | .refDo q f => ∃ t, E0.refs.lookup q = some t ∧
    (∀ p ∈ E0.refs, p.1 ∉ (f.stmt t).names) ∧ (ms = [.call (f.stmt t)] ∨ ms = [.self t])

/-- What a call amounts to on the resolved trace. -/
structure AStep (cfg : RCfg K) (st : AStmt K) (s : ARec K) (E0 E0' : ASE K) (k : List Nat) (L : PL K) (s' : ARec K)
    (ms : List (Mic K)) (L' : PL K) : Prop where
  go : Mics cfg ms s.r L s'.r L'
  cov : Cov s' L'
  form : AForm st E0 ms
  disc : ∀ d, st.disc E0 d → MDisc ms d (st.discNext E0 d)
  sim : ∀ Z0 c E z E', E.refs = E0.refs → AInv Z0 c s E L z → st.spec c.x c.par E = some (E', k) →
    E'.refs = E0'.refs ∧ Mics.spec c.x c.par ms (gse s.r.env E) = some (gse s'.r.env E') ∧
      ∃ z', AInv Z0 c s' E' L' z'

theorem AInv.mics {Z0 : ZS K} {c : Cfg K} {cfg : RCfg K} (hal : ∀ k L, cfg.alloc k L ∉ L) {s s' : ARec K}
    {E E' : ASE K} {L L' : PL K} {z : ZS K} {ms : List (Mic K)} (hc : Cov s L) (hc' : Cov s' L') (h : AInv Z0 c s E L z)
    (hg : Mics cfg ms s.r L s'.r L') (hsp : Mics.spec c.x c.par ms (gse s.r.env E) = some (gse s'.r.env E'))
    (hrefs : RefsOk s'.r.env E') (hres : ∀ z', zosRun c (L'.map Prod.snd).reverse Z0 = .ok z' → Res Z0 c L' z') :
    ∃ z', AInv Z0 c s' E' L' z' := by
  obtain ⟨o1, z', h1, h2⟩ := mics_sim hal hg h.ok (h.zos hc) h.sim hsp
  rw [map_vw_id hc'.pair] at h1
  exact ⟨z', o1, hres z' h1, h2, hrefs⟩

theorem AInv.loc0 {Z0 : ZS K} {c : Cfg K} {s : ARec K} {E : ASE K} {L : PL K} {z : ZS K} (h : AInv Z0 c s E L z)
    {a : Nat} (ha : E.e.vars a = none) (hq : E.refs.lookup a = none) : s.r.env a = none := by
  have := h.sim.vars a
  simp only [gse, hq, ha] at this
  cases he : s.r.env a with
  | none => rfl
  | some l => rw [he] at this; cases this

theorem astep_plain {cfg : RCfg K} (hal : ∀ k L, cfg.alloc k L ∉ L) {p : Stmt K} {s s' : ARec K} {L : PL K}
    {Z00 : ZS K} {c0 : Cfg K} {E0 E0' : ASE K} {z0 : ZS K} {k : List Nat}
    (hrec : (AStmt.plain p).record cfg s = some s') (hc : Cov s L) (inv0 : AInv Z00 c0 s E0 L z0)
    (sp0 : (AStmt.plain p).spec c0.x c0.par E0 = some (E0', k)) :
    ∃ L', AStep cfg (.plain p) s E0 E0' k L s' [.call p] L' := by
  obtain ⟨L', h1, h2, h3, h4, h5⟩ := plain_step hrec hc.fst hc.pair
  have hcov : Cov s' L' := ⟨h1, h2⟩
  have hgo : Mics cfg [.call p] s.r L s'.r L' := ⟨s'.r, L', fun g hg => ⟨_, _, h5 g hg⟩, rfl, rfl⟩
  have hrefs0 : E0'.refs = E0.refs := by
    simp only [AStmt.spec] at sp0
    split at sp0
    · simp only [Option.map_eq_some_iff] at sp0
      obtain ⟨e', _, h⟩ := sp0
      cases h; rfl
    · cases sp0
  refine ⟨L', hgo, hcov, rfl, fun d hd => ⟨hd, rfl⟩, fun Z0 c E z E' hr inv sp => ?_⟩
  simp only [AStmt.spec] at sp
  split at sp
  · rename_i hcond
    simp only [Option.map_eq_some_iff] at sp
    obtain ⟨e', sp, heq⟩ := sp
    cases heq
    obtain ⟨g1, g2⟩ := gse_frame (env' := s'.r.env) inv.refs (fun q t hq => (hcond _ (lookup_mem hq)).1)
      (fun q t hq => by
        obtain ⟨_, _, lt, ht⟩ := inv.refs q t hq
        rw [ht]
        have := record_env (h5 id View.id') (a := t) (l := lt) ht (hcond _ (lookup_mem hq)).2
        exact this) sp
    have hsp : Mics.spec c.x c.par [.call p] (gse s.r.env E) = some (gse s'.r.env ⟨e', E.refs⟩) := by
      simp [Mics.spec, Mic.spec, g1]
    exact ⟨by rw [hrefs0]; exact hr, hsp, inv.mics hal hc hcov hgo hsp g2 fun z' hz => inv.res.grow h4 hz⟩
  · cases sp

end Verif.AD
