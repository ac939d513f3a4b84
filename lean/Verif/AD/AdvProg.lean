import Verif.AD.AdvStep

/-! Whole programs with active subscripts. -/
set_option linter.all false
namespace Verif.AD
open Elem

variable {K : Type} [Scalar K]

/-- `R` holds of every call executed at `x`, and no comparison is with exactly zero. -/
def AProg.along (R : AStmt K → ASE K → Prop) (x par : Nat → K) : AProg K → ASE K → Prop
  | .done, _ => True
  | .stmt s k, E => R s E ∧ ∀ E' j, s.spec x par E = some (E', j) → k.along R x par E'
  | .branch c a t f, E => ∀ v, E.e.vars a = some v →
      v ≠ 0 ∧ if c.holds v then t.along R x par E else f.along R x par E

/-- Every call executed at `x` keeps the discipline. -/
def AProg.disc (x par : Nat → K) : AProg K → ASE K → Disc → Prop
  | .done, _, _ => True
  | .stmt s k, E, d => s.disc E d ∧ ∀ E' j, s.spec x par E = some (E', j) → k.disc x par E' (s.discNext E d)
  | .branch c a t f, E, d => ∀ v, E.e.vars a = some v →
      if c.holds v then t.disc x par E d else f.disc x par E d

/-- Every call executed at `x` is differentiable there. -/
abbrev AProg.smooth (lv : Sm) (x par : Nat → ℝ) (p : AProg ℝ) (E : ASE ℝ) : Prop := p.along (AStmt.smooth lv) x par E

def MAll (Q : Mic K → SE K → Prop) (x par : Nat → K) : List (Mic K) → SE K → Prop
  | [], _ => True
  | m :: ms, e => Q m e ∧ ∀ e', m.spec x par e = some e' → MAll Q x par ms e'

theorem MAll.append {Q : Mic K → SE K → Prop} {x par : Nat → K} {a b : List (Mic K)} {e : SE K} (h1 : MAll Q x par a e)
    (h2 : ∀ e', Mics.spec x par a e = some e' → MAll Q x par b e') : MAll Q x par (a ++ b) e := by
  induction a generalizing e with
  | nil => exact h2 e rfl
  | cons m ms ih =>
    refine ⟨h1.1, fun e' he => ih (h1.2 e' he) fun e2 h3 => h2 e2 ?_⟩
    simp [Mics.spec, he, h3]

def PlainOk (st : AStmt K) (E : ASE K) : Prop :=
  ∀ p, st = .plain p → ∀ q t, E.refs.lookup q = some t → q ∉ p.names

structure Walk (cfg : RCfg K) (c0 : Cfg K) (p : AProg K) (s : ARec K) (E0 E0' : ASE K) (bs : List Bool) (k : List Nat)
    (L : PL K) (s' : ARec K) (ms : List (Mic K)) (L' : PL K) : Prop where
  go : Mics cfg ms s.r L s'.r L'
  cov : Cov s' L'
  all : ∀ (Q : Mic K → SE K → Prop) (R : AStmt K → ASE K → Prop),
    (∀ st E ms env, AForm st E ms → PlainOk st E → R st E → MAll Q c0.x c0.par ms (gse env E)) →
    (∀ q a e, (∀ v, e.vars a = some v → v ≠ 0) → Q (.cmp q a) e) →
    p.along R c0.x c0.par E0 → MAll Q c0.x c0.par ms (gse s.r.env E0)
  disc : ∀ d, p.disc c0.x c0.par E0 d → ∃ d', MDisc ms d d'
  sim : ∀ Z0 c E z E', E.refs = E0.refs → AInv Z0 c s E L z → p.spec c.x c.par E = some (E', bs, k) →
    E'.refs = E0'.refs ∧ Mics.spec c.x c.par ms (gse s.r.env E) = some (gse s'.r.env E') ∧
      ∃ z', AInv Z0 c s' E' L' z'

theorem spec_sel_length {x par : Nat → K} {st : AStmt K} {E E' : ASE K} {j : List Nat} (h : st.spec x par E = some (E', j)) :
    j.length = (match st with | .sub .. | .ref .. => 1 | _ => 0) := by
  cases st <;> simp only [AStmt.spec] at h
  all_goals try (split at h; swap; (· cases h); rename_i hcond)
  all_goals simp only [Option.bind_eq_some_iff, Option.map_eq_some_iff] at h
  case refDo q f =>
    obtain ⟨t, _, h⟩ := h
    split at h
    · simp only [Option.map_eq_some_iff] at h
      obtain ⟨e', _, h⟩ := h
      cases h; rfl
    · cases h
  all_goals first
    | (obtain ⟨_, _, h⟩ := h; cases h; rfl)
    | (obtain ⟨_, _, _, _, h⟩ := h; cases h; rfl)
    | (obtain ⟨_, _, _, _, _, _, h⟩ := h; cases h; rfl)

theorem spec_plainOk {x par : Nat → K} {st : AStmt K} {E E' : ASE K} {j : List Nat} (h : st.spec x par E = some (E', j)) :
    PlainOk st E := by
  rintro p rfl q t hq
  simp only [AStmt.spec] at h
  split at h
  · rename_i hc; exact (hc _ (lookup_mem hq)).1
  · cases h

theorem awalk {cfg : RCfg K} (hal : ∀ k L, cfg.alloc k L ∉ L) (hidx : ∀ l, idx (ofLoc l : K) = l) (p : AProg K)
    {s s' : ARec K} {L : PL K} {Z00 : ZS K} {c0 : Cfg K} {E0 E0' : ASE K} {z0 : ZS K} {k : List Nat}
    (hrec : p.record cfg s = some s') (hcon : p.contig cfg s) (hc : Cov s L) (inv0 : AInv Z00 c0 s E0 L z0)
    (sp0 : p.spec c0.x c0.par E0 = some (E0', p.path cfg s, k)) :
    ∃ ms L', Walk cfg c0 p s E0 E0' (p.path cfg s) k L s' ms L' := by
  induction p generalizing s L E0 z0 k with
  | done =>
    cases hrec
    simp only [AProg.spec, Option.some.injEq, Prod.mk.injEq] at sp0
    obtain ⟨rfl, _, rfl⟩ := sp0
    refine ⟨[], L, ⟨rfl, rfl⟩, hc, fun _ _ _ _ _ => trivial, fun d _ => ⟨d, rfl⟩, fun Z0 c E z E' hr inv sp => ?_⟩
    simp only [AProg.spec, Option.some.injEq, Prod.mk.injEq] at sp
    obtain ⟨rfl, _, _⟩ := sp
    exact ⟨hr, rfl, z, inv⟩
  | stmt st p ih =>
    simp only [AProg.record, Option.bind_eq_some_iff] at hrec
    obtain ⟨s1, h1, h2⟩ := hrec
    have hpath : (AProg.stmt st p).path cfg s = p.path cfg s1 := by simp only [AProg.path, h1]
    rw [hpath] at sp0 ⊢
    simp only [AProg.spec, Option.bind_eq_some_iff, Option.map_eq_some_iff] at sp0
    obtain ⟨⟨E1, j1⟩, sp1, ⟨E2, bs2, j2⟩, sp2, heq⟩ := sp0
    simp only [Prod.mk.injEq] at heq
    obtain ⟨rfl, rfl, rfl⟩ := heq
    have hcs : st.contig s := by
      have := hcon.1
      cases st <;> exact this
    obtain ⟨m1, L1, w1⟩ := astep hal hidx h1 hcs hc inv0 sp1
    obtain ⟨_, msp, z1, inv1⟩ := w1.sim Z00 c0 E0 z0 E1 rfl inv0 sp1
    obtain ⟨m2, L2, w2⟩ := ih h2 (hcon.2 _ h1) w1.cov inv1 sp2
    refine ⟨m1 ++ m2, L2, w1.go.append w2.go, w2.cov, fun Q R hQ hq ha => ?_, fun d hd => ?_, fun Z0 c E z E' hr inv sp => ?_⟩
    · refine (hQ st E0 m1 s.r.env w1.form (spec_plainOk sp1) ha.1).append fun e' he => ?_
      rw [msp] at he; cases he
      exact w2.all Q R hQ hq (ha.2 _ _ sp1)
    · obtain ⟨d', h3⟩ := w2.disc _ (hd.2 _ _ sp1)
      exact ⟨d', (w1.disc d hd.1).append h3⟩
    · simp only [AProg.spec, Option.bind_eq_some_iff, Option.map_eq_some_iff] at sp
      obtain ⟨⟨E1', j1'⟩, sp1', ⟨E2', bs2', j2'⟩, sp2', heq⟩ := sp
      simp only [Prod.mk.injEq] at heq
      obtain ⟨rfl, rfl, hj⟩ := heq
      have hlen : j1'.length = j1.length := by
        have g1 := spec_sel_length sp1'
        have g2 := spec_sel_length sp1
        cases st <;> simp only at g1 g2 <;> rw [g1, g2]
      obtain ⟨rfl, rfl⟩ := List.append_inj hj hlen
      obtain ⟨r1, r2, z1', inv1'⟩ := w1.sim Z0 c E z E1' hr inv sp1'
      obtain ⟨r3, r4, r5⟩ := w2.sim Z0 c E1' z1' E2' r1 inv1' sp2'
      refine ⟨r3, ?_, r5⟩
      rw [Mics.spec_append, r2]; exact r4
  | branch q a t f iht ihf =>
    simp only [AProg.record, Option.bind_eq_some_iff] at hrec
    obtain ⟨la, ha, hrec⟩ := hrec
    set b := q.holds (s.r.V la) with hb
    let s1 : ARec K := { s with tr := .base (.cmp (q.recorded b) la) :: s.tr }
    have hc1 : Cov s1 ((.base (.cmp (q.recorded b) la), .cmp (q.recorded b) la) :: L) := by
      refine ⟨by simp [s1, hc.fst], fun p hp => ?_⟩
      rcases List.mem_cons.1 hp with rfl | hp
      · rfl
      · exact hc.pair p hp
    have hgo1 : Mics cfg [.cmp (q.recorded b) a] s.r L s1.r ((.base (.cmp (q.recorded b) la), .cmp (q.recorded b) la) :: L) :=
      ⟨_, _, ⟨la, _, ha, rfl, rfl⟩, rfl, rfl⟩
    have one : ∀ Z0 c E z v, AInv Z0 c s E L z → E.e.vars a = some v → q.holds v = b →
        Mics.spec c.x c.par [.cmp (q.recorded b) a] (gse s.r.env E) = some (gse s1.r.env E) ∧
          ∃ z', AInv Z0 c s1 E ((.base (.cmp (q.recorded b) la), .cmp (q.recorded b) la) :: L) z' := by
      intro Z0 c E z v inv hv hq
      obtain ⟨hl, _⟩ := inv.loc hv
      have hsp : Mics.spec c.x c.par [.cmp (q.recorded b) a] (gse s.r.env E) = some (gse s1.r.env E) := by
        simp [Mics.spec, Mic.spec, gse, hl, hv, Cmp.holds_recorded, hq, s1]
      exact ⟨hsp, inv.mics hal hc hc1 hgo1 hsp inv.refs fun z' hz => inv.res.base hz⟩
    simp only [AProg.spec, Option.bind_eq_some_iff] at sp0
    obtain ⟨v0, hv0, sp0⟩ := sp0
    have hpath : (AProg.branch q a t f).path cfg s = b :: (if b then t.path cfg s1 else f.path cfg s1) := by
      simp only [AProg.path, ha]; rfl
    rw [hpath] at sp0 ⊢
    -- both branches alike
    have fin : ∀ (p : AProg K), (b = true → p = t) → (b = false → p = f) →
        (∀ {s : ARec K} {L : PL K} {E0 : ASE K} {z0 : ZS K} {k : List Nat}, p.record cfg s = some s' → p.contig cfg s →
          Cov s L → AInv Z00 c0 s E0 L z0 → p.spec c0.x c0.par E0 = some (E0', p.path cfg s, k) →
          ∃ ms L', Walk cfg c0 p s E0 E0' (p.path cfg s) k L s' ms L') →
        p.record cfg s1 = some s' → p.contig cfg s1 → q.holds v0 = b → p.spec c0.x c0.par E0 = some (E0', p.path cfg s1, k) →
        ∃ ms L', Walk cfg c0 (.branch q a t f) s E0 E0' (b :: p.path cfg s1) k L s' ms L' := by
      intro p ht hf ih hr hcn hq0 sp
      obtain ⟨msp, z1, inv1⟩ := one Z00 c0 E0 z0 v0 inv0 hv0 hq0
      obtain ⟨m2, L2, w2⟩ := ih hr hcn hc1 inv1 sp
      have hps : ∀ {x par : Nat → K} {E E' : ASE K} {bs : List Bool} {j : List Nat} {v : K}, E.e.vars a = some v →
          (AProg.branch q a t f).spec x par E = some (E', b :: bs, j) → q.holds v = b ∧ p.spec x par E = some (E', bs, j) := by
        intro x par E E' bs j v hv h
        simp only [AProg.spec, hv, Option.bind_some] at h
        split at h
        · rename_i hh
          simp only [Option.map_eq_some_iff, Prod.mk.injEq, List.cons.injEq] at h
          obtain ⟨⟨E2, b2, j2⟩, h1, h2, ⟨h3, h4⟩, h5⟩ := h
          simp only at h2 h4 h5
          subst h2 h4 h5
          exact ⟨by rw [hh, h3], by rw [ht h3.symm]; exact h1⟩
        · rename_i hh
          simp only [Option.map_eq_some_iff, Prod.mk.injEq, List.cons.injEq] at h
          obtain ⟨⟨E2, b2, j2⟩, h1, h2, ⟨h3, h4⟩, h5⟩ := h
          simp only at h2 h4 h5
          subst h2 h4 h5
          exact ⟨by rw [← h3]; simpa using hh, by rw [hf h3.symm]; exact h1⟩
      refine ⟨[.cmp (q.recorded b) a] ++ m2, L2, hgo1.append w2.go, w2.cov, fun Q R hQ hq hal' => ?_, fun d hd => ?_,
        fun Z0 c E z E' hrf inv sp' => ?_⟩
      · obtain ⟨hne, hal'⟩ := hal' v0 hv0
        have hal2 : p.along R c0.x c0.par E0 := by
          rw [hq0] at hal'
          cases hbb : b
          · rw [hbb] at hal'; rw [hf hbb]; simpa using hal'
          · rw [hbb] at hal'; rw [ht hbb]; simpa using hal'
        refine MAll.append ⟨hq _ _ _ fun v hv => ?_, fun e' _ => trivial⟩ fun e' he => ?_
        · obtain ⟨hl, _⟩ := inv0.loc hv0
          simp only [gse, hl, hv0, Option.some.injEq] at hv
          rw [← hv]; exact hne
        · rw [msp] at he; cases he
          exact w2.all Q R hQ hq hal2
      · have hd' := hd v0 hv0
        have hd2 : p.disc c0.x c0.par E0 d := by
          rw [hq0] at hd'
          cases hbb : b
          · rw [hbb] at hd'; rw [hf hbb]; simpa using hd'
          · rw [hbb] at hd'; rw [ht hbb]; simpa using hd'
        obtain ⟨d', h3⟩ := w2.disc d hd2
        exact ⟨d', h3⟩
      · have hva : ∃ v, E.e.vars a = some v := by
          cases hv : E.e.vars a with
          | none => simp [AProg.spec, hv] at sp'
          | some v => exact ⟨v, rfl⟩
        obtain ⟨v, hv⟩ := hva
        obtain ⟨k1, k2⟩ := hps hv sp'
        obtain ⟨r2, z1', inv1'⟩ := one Z0 c E z v inv hv k1
        obtain ⟨r3, r4, r5⟩ := w2.sim Z0 c E z1' E' hrf inv1' k2
        refine ⟨r3, ?_, r5⟩
        rw [Mics.spec_append, r2]; exact r4
    have hcn := hcon la ha
    simp only [← hb] at hcn
    cases hbb : b
    · simp only [hbb, Bool.false_eq_true, if_false] at sp0 hrec hcn fin ⊢
      have hq0 : q.holds v0 = false := by
        by_contra h
        have h : q.holds v0 = true := by simpa using h
        simp only [h, if_true, Option.map_eq_some_iff, Prod.mk.injEq, List.cons.injEq] at sp0
        obtain ⟨_, _, _, ⟨h3, _⟩, _⟩ := sp0
        cases h3
      simp only [hq0, Bool.false_eq_true, if_false, Option.map_eq_some_iff, Prod.mk.injEq, List.cons.injEq, true_and] at sp0
      obtain ⟨⟨E2, b2, j2⟩, g1, g2, g3, g4⟩ := sp0
      simp only at g2 g3 g4
      subst g2 g3 g4
      exact fin f (by simp) (fun _ => rfl) ihf (by simpa [s1, hbb] using hrec) (by simpa [s1, hbb] using hcn) hq0 g1
    · simp only [hbb, if_true] at sp0 hrec hcn fin ⊢
      have hq0 : q.holds v0 = true := by
        by_contra h
        have h : q.holds v0 = false := by simpa using h
        simp only [h, Bool.false_eq_true, if_false, Option.map_eq_some_iff, Prod.mk.injEq, List.cons.injEq] at sp0
        obtain ⟨_, _, _, ⟨h3, _⟩, _⟩ := sp0
        cases h3
      simp only [hq0, if_true, Option.map_eq_some_iff, Prod.mk.injEq, List.cons.injEq, true_and] at sp0
      obtain ⟨⟨E2, b2, j2⟩, g1, g2, g3, g4⟩ := sp0
      simp only at g2 g3 g4
      subst g2 g3 g4
      exact fin t (fun _ => rfl) (by simp) iht (by simpa [s1, hbb] using hrec) (by simpa [s1, hbb] using hcn) hq0 g1

end Verif.AD
