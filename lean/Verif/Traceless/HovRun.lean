import Verif.Traceless.HovOps
import Verif.Traceless.Run
/-!
# Traceless higher order mode: programs
-/
set_option linter.all false
noncomputable section
namespace Verif.TL.Hov
open Filter Topology
open scoped ContDiff
open Verif.AD (tc tc_congr tc_const tc_add tc_sub tc_neg)

variable {c : Cfg} {l : ℕ} {fo : Bool} {d : ℕ} {s s' : St}

/-! ### Loops on the objects of the program -/

theorem advS_spec {g : ℕ → St → ℝ} {T : ℕ → ℝ} (hg : ∀ i s', i < c.P → s'.val = s.val → s'.row = s.row → s'.heap = s.heap →
      (∀ o, s'.adv o i = s.adv o i) → g i s' = T i) :
    (advS c d g s).val = s.val ∧ (advS c d g s).row = s.row ∧ (advS c d g s).heap = s.heap ∧
    ∀ o i, i < c.P → (advS c d g s).adv o i = if o = d then T i else s.adv o i := by
  have := range_inv (fun s i => s.putAdv d i (g i s)) (fun n s' => s'.val = s.val ∧ s'.row = s.row ∧ s'.heap = s.heap ∧
      ∀ o i, s'.adv o i = if o = d ∧ i < n then T i else s.adv o i) c.P s (by simp)
    (fun n s' hn ⟨h1, h2, h3, h4⟩ => by
      refine ⟨h1, h2, h3, fun o i => ?_⟩
      have e := hg n s' hn h1 h2 h3 (fun o => by rw [h4, if_neg (by omega)])
      simp only [St.putAdv]
      by_cases ho : o = d
      · subst ho
        simp only [if_true, put, true_and]
        by_cases hi : i = n
        · subst hi; simp [e]
        · rw [if_neg hi, h4]
          by_cases hlt : i < n
          · rw [if_pos ⟨rfl, hlt⟩, if_pos (by omega)]
          · rw [if_neg (by omega), if_neg (by omega)]
      · rw [if_neg ho, if_neg (by tauto), h4, if_neg (by tauto)])
  refine ⟨this.1, this.2.1, this.2.2.1, fun o i hi => ?_⟩
  have h := this.2.2.2 o i
  simp only [hi, and_true] at h
  exact h

theorem hoS_spec (hns : NoShare c.D s) {g : ℕ → ℕ → St → ℝ} {T : ℕ → ℕ → ℝ}
    (hg : ∀ j i s', j < c.D → i < c.P → s'.val = s.val → s'.adv = s.adv → s'.row = s.row →
      (∀ o, s'.heap (s.row o j) i = s.heap (s.row o j) i) → g j i s' = T j i) :
    (hoS c d g s).val = s.val ∧ (hoS c d g s).adv = s.adv ∧ (hoS c d g s).row = s.row ∧
    ∀ o j i, j < c.D → i < c.P → (hoS c d g s).heap (s.row o j) i = if o = d then T j i else s.heap (s.row o j) i := by
  have := loop2_inv c.D c.P (fun j i s => s.putHo d j i (g j i s)) (fun a b s' => s'.val = s.val ∧ s'.adv = s.adv ∧ s'.row = s.row ∧
      ∀ o j i, j < c.D → i < c.P →
        s'.heap (s.row o j) i = if o = d ∧ (j < a ∨ (j = a ∧ i < b)) then T j i else s.heap (s.row o j) i) s (by simp)
    (fun a b s' ha hb ⟨h1, h2, h3, h4⟩ => by
      refine ⟨h1, h2, h3, fun o j i hj hi => ?_⟩
      have e := hg a b s' ha hb h1 h2 h3 (fun o => by rw [h4 o a b ha hb, if_neg (by omega)])
      simp only [St.putHo, h3]
      by_cases hq : s.row o j = s.row d a
      · obtain ⟨ho, hja⟩ := hns.inj o j d a hj ha hq
        subst ho hja
        simp only [if_true, put, true_and]
        by_cases hib : i = b
        · subst hib; simp [e]
        · rw [if_neg hib, h4 o j i hj hi]
          by_cases hlt : i < b
          · rw [if_pos ⟨rfl, Or.inr ⟨rfl, hlt⟩⟩, if_pos (by omega)]
          · rw [if_neg (by omega), if_neg (by omega)]
      · rw [if_neg hq, h4 o j i hj hi]
        by_cases ho : o = d
        · subst ho
          have hja : j ≠ a := fun e => hq (by rw [e])
          simp only [true_and]
          by_cases hlt : j < a
          · rw [if_pos (Or.inl hlt), if_pos (Or.inl hlt)]
          · rw [if_neg (by omega), if_neg (by omega)]
        · rw [if_neg (by tauto), if_neg (by tauto)])
    (fun a s' ha ⟨h1, h2, h3, h4⟩ => by
      refine ⟨h1, h2, h3, fun o j i hj hi => ?_⟩
      rw [h4 o j i hj hi]
      by_cases ho : o = d
      · simp only [ho, true_and]
        by_cases hlt : j < a ∨ j = a ∧ i < c.P
        · rw [if_pos hlt, if_pos (by omega)]
        · rw [if_neg hlt, if_neg (by omega)]
      · rw [if_neg (by tauto), if_neg (by tauto)])
  refine ⟨this.1, this.2.1, this.2.2.1, fun o j i hj hi => ?_⟩
  have h := this.2.2.2 o j i hj hi
  simp only [hj, true_or, and_true] at h
  exact h

/-! ### What a statement leaves alone -/

/-- Only object `d` changes. -/
structure Upd (c : Cfg) (s s' : St) (d : ℕ) : Prop where
  val : ∀ o, o ≠ d → s'.val o = s.val o
  adv : ∀ o, o ≠ d → ∀ i, i < c.P → s'.adv o i = s.adv o i
  ho : ∀ o, o ≠ d → ∀ j i, j < c.D → i < c.P → (s'.obj o).ho j i = (s.obj o).ho j i
  ns : NoShare c.D s'

theorem NoShare.of_row {D : ℕ} (h : NoShare D s) (e : s'.row = s.row) : NoShare D s' :=
  ⟨by rw [e]; exact h.kind, by rw [e]; exact h.inj⟩

/-- The contents of two objects agree where the program looks. -/
def Agree (c : Cfg) (a b : Obj) : Prop :=
  a.val = b.val ∧ (∀ i, i < c.P → a.adv i = b.adv i) ∧ ∀ j i, j < c.D → i < c.P → a.ho j i = b.ho j i

theorem Rel.agree {f : ℝ → ℝ} {a b : Obj} (hl : l < c.P) (r : Rel c l fo f b) (e : Agree c a b) : Rel c l fo f a :=
  ⟨r.smooth, by rw [e.1, r.val], fun k hk => by rw [e.2.2 k l hk hl, r.ho k hk], fun hf => by rw [e.2.1 l hl, r.adv hf]⟩

/-- `val = v; FOR_I adval = …; FOR_J_FOR_I ho_deriv = …`. -/
theorem full_spec (hns : NoShare c.D s) (v : ℝ) {ga : ℕ → St → ℝ} {gh : ℕ → ℕ → St → ℝ} {TA : ℕ → ℝ} {TH : ℕ → ℕ → ℝ}
    (h1 : ∀ i s', i < c.P → (∀ o, s'.adv o i = s.adv o i) → ga i s' = TA i)
    (h2 : ∀ j i s', j < c.D → i < c.P → s'.row = s.row → (∀ o, s'.heap (s.row o j) i = s.heap (s.row o j) i) → gh j i s' = TH j i) :
    Upd c s (hoS c d gh (advS c d ga (s.putVal d v))) d ∧
      Agree c ((hoS c d gh (advS c d ga (s.putVal d v))).obj d) ⟨v, TA, TH⟩ := by
  obtain ⟨a1, a2, a3, a4⟩ := advS_spec (c := c) (d := d) (s := s.putVal d v) (g := ga) (T := TA)
    (fun i s' hi _ _ _ h => h1 i s' hi h)
  have hns' : NoShare c.D (advS c d ga (s.putVal d v)) := hns.of_row (by rw [a2]; rfl)
  obtain ⟨b1, b2, b3, b4⟩ := hoS_spec (d := d) hns' (g := gh) (T := TH) (fun j i s' hj hi _ _ hr hh =>
    h2 j i s' hj hi (by rw [hr, a2]; rfl) (by rw [a2, a3] at hh; exact hh))
  rw [a2, a3] at b4
  have b3' : (hoS c d gh (advS c d ga (s.putVal d v))).row = s.row := by rw [b3, a2]; rfl
  refine ⟨⟨fun o ho => ?_, fun o ho i hi => ?_, fun o ho j i hj hi => ?_, hns'.of_row b3⟩, ?_, fun i hi => ?_, fun j i hj hi => ?_⟩
  · rw [b1, a1]; simp [St.putVal, ho]
  · rw [b2, a4 o i hi, if_neg ho]; rfl
  · simp only [St.obj, b3']
    have := b4 o j i hj hi
    rw [if_neg ho] at this
    exact this
  · simp only [St.obj]; rw [b1, a1]; simp [St.putVal]
  · simp only [St.obj]; rw [b2, a4 d i hi, if_pos rfl]
  · simp only [St.obj, b3']
    have := b4 d j i hj hi
    rw [if_pos rfl] at this
    exact this

theorem bind_upd (hns : NoShare c.D s) (h : Obj) : Upd c s (s.bind d h) d ∧ (s.bind d h).obj d = h := by
  refine ⟨⟨fun o ho => by simp [St.bind, ho], fun o ho i _ => by simp [St.bind, ho], fun o ho j i hj _ => ?_, ?_, ?_⟩, ?_⟩
  · simp only [St.obj, St.bind, if_neg ho]
    rcases hns.kind o j hj with e | ⟨q, e⟩
    · rw [e]; simp [ho]
    · rw [e]
  · intro o j hj
    simp only [St.bind]
    by_cases ho : o = d
    · subst ho; left; simp
    · rw [if_neg ho]; exact hns.kind o j hj
  · intro o j o' j' hj hj' e
    simp only [St.bind] at e
    by_cases ho : o = d <;> by_cases ho' : o' = d
    · subst ho ho'; simp at e; exact ⟨rfl, e⟩
    · subst ho; rw [if_pos rfl, if_neg ho'] at e
      rcases hns.kind o' j' hj' with e' | ⟨q, e'⟩ <;> rw [e'] at e
      · simp at e; exact absurd e.1.symm ho'
      · simp at e
    · subst ho'; rw [if_neg ho, if_pos rfl] at e
      rcases hns.kind o j hj with e' | ⟨q, e'⟩ <;> rw [e'] at e
      · simp at e; exact absurd e.1 ho
      · simp at e
    · rw [if_neg ho, if_neg ho'] at e
      exact hns.inj o j o' j' hj hj' e
  · simp [St.obj, St.bind]

theorem putVal_upd (hns : NoShare c.D s) (v : ℝ) : Upd c s (s.putVal d v) d ∧ Agree c ((s.putVal d v).obj d) ⟨v, s.adv d, (s.obj d).ho⟩ :=
  ⟨⟨fun o ho => by simp [St.putVal, ho], fun _ _ _ _ => rfl, fun _ _ _ _ _ _ => rfl, hns.of_row rfl⟩,
   by simp [St.obj, St.putVal], fun _ _ => rfl, fun _ _ _ _ => rfl⟩

theorem setA_spec (hns : NoShare c.D s) (d a : ℕ) : Upd c s (setA c d a s) d ∧ Agree c ((setA c d a s).obj d) (s.obj a) :=
  full_spec hns (s.val a) (TA := s.adv a) (TH := (s.obj a).ho) (fun i s' _ h => h a)
    (fun j i s' _ _ hr hh => by simp only [St.obj]; rw [hr]; exact hh a)

theorem setD_spec (hns : NoShare c.D s) (d : ℕ) (v : ℝ) :
    Upd c s (setD c d v s) d ∧ Agree c ((setD c d v s).obj d) ⟨v, fun _ => 0, fun _ _ => 0⟩ :=
  full_spec hns v (fun i s' _ h => rfl) (fun j i s' _ _ _ _ => rfl)

/-! ### Curves -/

/-- Every object holds the value of its curve, every initialised one also its Taylor coefficients in direction `l`. -/
structure Holds (c : Cfg) (l : ℕ) (fo : Bool) (V : ℕ → ℝ → ℝ) (D : ℕ → Prop) (s : St) : Prop where
  ns : NoShare c.D s
  val : ∀ o, s.val o = V o 0
  rel : ∀ o, D o → Rel c l fo (V o) (s.obj o)

variable {V : ℕ → ℝ → ℝ} {D : ℕ → Prop}

theorem Holds.step (hl : l < c.P) (H : Holds c l fo V D s) (u : Upd c s s' d) (w : ℝ → ℝ) (b : Prop) (hv : s'.val d = w 0)
    (hr : b → Rel c l fo w (s'.obj d)) : Holds c l fo (fun o t => if o = d then w t else V o t) (mark D d b) s' := by
  refine ⟨u.ns, fun o => ?_, fun o ho => ?_⟩
  · by_cases e : o = d
    · subst e; simp [hv]
    · simp only [e, if_false]; rw [u.val o e, H.val]
  · by_cases e : o = d
    · subst e
      simp only [mark, if_true] at ho
      simpa using hr ho
    · simp only [mark, e, if_false] at ho
      simp only [e, if_false]
      exact (H.rel o ho).agree hl ⟨u.val o e, u.adv o e, u.ho o e⟩

theorem Expr.some_iff (c : Cfg) (s : St) (e : Expr) : (Expr.run c s e).isSome ↔ Expr.implemented e := by
  induction e with
  | var a => simp [Expr.run, Expr.implemented]
  | lit v => simp [Expr.run, Expr.implemented]
  | un f e ih =>
    simp only [Expr.run, Expr.implemented, ← ih]
    cases h : Expr.run c s e with
    | none => simp
    | some a => simp [un_some]
  | bin f e₁ e₂ ih₁ ih₂ =>
    simp only [Expr.run, Expr.implemented, ← ih₁, ← ih₂]
    cases h : Expr.run c s e₁ with
    | none => simp
    | some a =>
      cases h' : Expr.run c s e₂ with
      | none => simp
      | some b => simp [bin_some]

theorem Expr.val_eq {v : Env} (hv : ∀ o, s.val o = v o) (e : Expr) : ∀ h, Expr.run c s e = some h → Expr.sound v e → h.val = e.val v := by
  induction e with
  | var a => intro h e _; simp only [Expr.run, Option.some.injEq] at e; subst e; exact hv a
  | lit x => intro h e _; simp only [Expr.run, Option.some.injEq] at e; subst e; rfl
  | un f e ih =>
    intro h hr hs
    simp only [Expr.run, Option.bind_eq_some_iff] at hr
    obtain ⟨a, ha, hr⟩ := hr
    exact un_val f _ (ih a ha hs.1) hs.2 hr
  | bin f e₁ e₂ ih₁ ih₂ =>
    intro h hr hs
    simp only [Expr.run, Option.bind_eq_some_iff] at hr
    obtain ⟨a, ha, b, hb, hr⟩ := hr
    exact bin_val f _ _ (ih₁ a ha hs.1) (ih₂ b hb hs.2) hr

theorem Expr.rel (hl : l < c.P) (H : Holds c l fo V D s) (e : Expr) : ∀ h, Expr.run c s e = some h → e.within D →
    e.dom false (fun o => V o 0) → Expr.sound (fun o => V o 0) e → Rel c l fo (fun t => e.val (fun o => V o t)) h := by
  induction e with
  | var a =>
    intro h hr hw _ _
    simp only [Expr.run, Option.some.injEq] at hr; subst hr
    exact H.rel a hw
  | lit x =>
    intro h hr _ _ _
    simp only [Expr.run, Option.some.injEq] at hr; subst hr
    exact rel_const hl x _
  | un f e ih =>
    intro h hr hw hd hs
    simp only [Expr.run, Option.bind_eq_some_iff] at hr
    obtain ⟨a, ha, hr⟩ := hr
    exact un_rel hl f (ih a ha hw hd.1 hs.1) hd.2 hs.2 hr
  | bin f e₁ e₂ ih₁ ih₂ =>
    intro h hr hw hd hs
    simp only [Expr.run, Option.bind_eq_some_iff] at hr
    obtain ⟨a, ha, b, hb, hr⟩ := hr
    exact bin_rel hl f (ih₁ a ha hw.1 hd.1 hs.1) (ih₂ b hb hw.2 hd.2.1 hs.2) hd.2.2 hr

theorem tc_addc {f : ℝ → ℝ} (hf : ContDiffAt ℝ ∞ f 0) (v : ℝ) (n : ℕ) : tc (fun t => f t + v) (n + 1) = tc f (n + 1) := by
  rw [tc_add hf contDiffAt_const, tc_const]; simp
theorem tc_subc {f : ℝ → ℝ} (hf : ContDiffAt ℝ ∞ f 0) (v : ℝ) (n : ℕ) : tc (fun t => f t - v) (n + 1) = tc f (n + 1) := by
  rw [tc_sub hf contDiffAt_const, tc_const]; simp

theorem Rel.addc {f : ℝ → ℝ} {a : Obj} (r : Rel c l fo f a) (v : ℝ) : Rel c l fo (fun t => f t + v) ⟨f 0 + v, a.adv, a.ho⟩ :=
  ⟨r.smooth.add contDiffAt_const, rfl, fun k hk => by rw [tc_addc r.smooth]; exact r.ho k hk,
   fun hf => by rw [tc_addc r.smooth v 0]; exact r.adv hf⟩
theorem Rel.subc {f : ℝ → ℝ} {a : Obj} (r : Rel c l fo f a) (v : ℝ) : Rel c l fo (fun t => f t - v) ⟨f 0 - v, a.adv, a.ho⟩ :=
  ⟨r.smooth.sub contDiffAt_const, rfl, fun k hk => by rw [tc_subc r.smooth]; exact r.ho k hk,
   fun hf => by rw [tc_subc r.smooth v 0]; exact r.adv hf⟩

theorem mark_self' (D : ℕ → Prop) (d : ℕ) : mark D d (D d) = D := by
  funext o; simp only [mark]; split_ifs with h
  · rw [h]
  · rfl

/-- A statement. -/
theorem Stmt.rel (hl : l < c.P) (H : Holds c l fo V D s) (st : Stmt) (hok : st.ok false (fun o => V o 0) D)
    (hs : Stmt.sound st (fun o => V o 0)) (hr : Stmt.run c st s = some s') :
    Holds c l fo (fun o t => st.val (fun o => V o t) o) (st.defs (fun o => V o 0) D) s' := by
  -- an assignment chosen by the sign of `q`
  have choose : ∀ (d q : ℕ) (P₁ : ℝ → Prop) [DecidablePred P₁] (f g w : ℝ → ℝ), D q → V q 0 ≠ 0 →
      (∀ x y : ℝ, (0 < x ∧ 0 < y ∨ x < 0 ∧ y < 0) → (P₁ x ↔ P₁ y)) →
      w = (fun t => if P₁ (V q t) then f t else g t) →
      w =ᶠ[𝓝 0] (if P₁ (V q 0) then f else g) := by
    intro d q P₁ _ f g w hq hne hP hw
    subst hw
    have hc : ContinuousAt (V q) 0 := (H.rel q hq).smooth.continuousAt
    have : ∀ᶠ t in 𝓝 (0:ℝ), (P₁ (V q t) ↔ P₁ (V q 0)) := by
      rcases lt_or_gt_of_ne hne with h | h
      · filter_upwards [hc.eventually_lt_const h] with t ht
        exact hP _ _ (Or.inr ⟨ht, h⟩)
      · filter_upwards [hc.eventually_const_lt h] with t ht
        exact hP _ _ (Or.inl ⟨ht, h⟩)
    filter_upwards [this] with t ht
    by_cases hp : P₁ (V q 0)
    · rw [if_pos hp, if_pos (ht.2 hp)]
    · rw [if_neg hp, if_neg fun h => hp (ht.1 h)]
  have pos : ∀ x y : ℝ, (0 < x ∧ 0 < y ∨ x < 0 ∧ y < 0) → ((0 < x) ↔ (0 < y)) := by
    rintro x y (⟨a, b⟩ | ⟨a, b⟩)
    · simp [a, b]
    · simp [a.le.not_gt, b.le.not_gt]
  have nneg : ∀ x y : ℝ, (0 < x ∧ 0 < y ∨ x < 0 ∧ y < 0) → ((0 ≤ x) ↔ (0 ≤ y)) := by
    rintro x y (⟨a, b⟩ | ⟨a, b⟩)
    · simp [a.le, b.le]
    · simp [a.not_ge, b.not_ge]
  -- one object changes
  have fin : ∀ (d : ℕ) (w w' : ℝ → ℝ) (b : Prop), Upd c s s' d → (∀ o t, st.val (fun o => V o t) o = if o = d then w' t else V o t) →
      w' =ᶠ[𝓝 0] w → st.defs (fun o => V o 0) D = mark D d b → s'.val d = w 0 → (b → Rel c l fo w (s'.obj d)) →
      Holds c l fo (fun o t => st.val (fun o => V o t) o) (st.defs (fun o => V o 0) D) s' := by
    intro d w w' b u hval hw hd hv hr
    have h1 := H.step hl u w' b (hv.trans hw.eq_of_nhds.symm) (fun h => (hr h).congr hw)
    rw [hd]
    have e : (fun o t => st.val (fun o => V o t) o) = fun o t => if o = d then w' t else V o t := by
      funext o t; exact hval o t
    rw [e]; exact h1
  cases st with
  | decl d =>
    simp only [Stmt.run, Option.some.injEq] at hr; subst hr
    obtain ⟨u, e⟩ := bind_upd H.ns (d := d) (ctor0 (c.mem d))
    exact fin d (fun _ => 0) _ False u (fun _ _ => rfl) EventuallyEq.rfl rfl (by rw [show (s.bind d _).val d = ((s.bind d _).obj d).val from rfl, e]; rfl) False.elim
  | declD d v =>
    simp only [Stmt.run, Option.some.injEq] at hr; subst hr
    obtain ⟨u, e⟩ := bind_upd H.ns (d := d) (ctorV c (c.mem d) v)
    exact fin d (fun _ => v) _ True u (fun _ _ => rfl) EventuallyEq.rfl rfl
      (by rw [show (s.bind d _).val d = ((s.bind d _).obj d).val from rfl, e]; rfl) fun _ => by rw [e]; exact rel_const hl v _
  | declE d e =>
    simp only [Stmt.run, Option.map_eq_some_iff] at hr
    obtain ⟨h, he, hr⟩ := hr
    subst hr
    obtain ⟨u, eo⟩ := bind_upd H.ns (d := d) (ctorC c (c.mem d) h)
    have hv := Expr.val_eq (v := fun o => V o 0) H.val e h he hs
    refine fin d (fun t => e.val (fun o => V o t)) _ (e.within D) u (fun _ _ => rfl) EventuallyEq.rfl rfl ?_ fun hw => ?_
    · rw [show (s.bind d _).val d = ((s.bind d _).obj d).val from rfl, eo]; exact hv
    · rw [eo]; exact rel_copy hl _ (Expr.rel hl H e h he hw hok hs)
  | setD d v =>
    simp only [Stmt.run, Option.some.injEq] at hr; subst hr
    obtain ⟨u, e⟩ := setD_spec H.ns d v
    exact fin d (fun _ => v) _ True u (fun _ _ => rfl) EventuallyEq.rfl rfl e.1 fun _ =>
      Rel.agree hl ⟨contDiffAt_const, rfl, fun k _ => by simp [tc_const], fun _ => by simp [tc_const]⟩ e
  | setA d a =>
    simp only [Stmt.run, Option.some.injEq] at hr; subst hr
    obtain ⟨u, e⟩ := setA_spec H.ns d a
    exact fin d (V a) _ (D a) u (fun _ _ => rfl) EventuallyEq.rfl rfl (e.1.trans (H.val a)) fun h => (H.rel a h).agree hl e
  | accD f d v =>
    simp only [Stmt.run, Option.some.injEq] at hr; subst hr
    have hdef : Stmt.defs (.accD f d v) (fun o => V o 0) D = mark D d (D d) := (mark_self' D d).symm
    cases f with
    | add =>
      obtain ⟨u, e⟩ := putVal_upd H.ns (d := d) (s.val d + v)
      refine fin d (fun t => V d t + v) _ (D d) u (fun _ _ => rfl) EventuallyEq.rfl hdef ?_ fun h => ?_
      · show (s.putVal d (s.val d + v)).val d = V d 0 + v
        rw [← H.val]; exact e.1
      · exact ((H.rel d h).addc v).agree hl (by rw [← H.val]; exact e)
    | sub =>
      obtain ⟨u, e⟩ := putVal_upd H.ns (d := d) (s.val d - v)
      refine fin d (fun t => V d t - v) _ (D d) u (fun _ _ => rfl) EventuallyEq.rfl hdef ?_ fun h => ?_
      · show (s.putVal d (s.val d - v)).val d = V d 0 - v
        rw [← H.val]; exact e.1
      · exact ((H.rel d h).subc v).agree hl (by rw [← H.val]; exact e)
    | mul =>
      obtain ⟨u, e⟩ := full_spec (d := d) H.ns (s.val d * v) (ga := fun i s => s.adv d i * v) (gh := fun j i s => s.heap (s.row d j) i * v)
        (TA := fun i => s.adv d i * v) (TH := fun j i => v * (s.obj d).ho j i) (fun i s' _ h => by rw [h d])
        (fun j i s' _ _ hr hh => by simp only [St.obj]; rw [hr, hh d, mul_comm])
      refine fin d (fun t => V d t * v) _ (D d) u (fun _ _ => rfl) EventuallyEq.rfl hdef ?_ fun h => ?_
      · rw [← H.val d]; exact e.1
      · refine Rel.agree hl (b := mulV c (s.obj d) v) (rel_mulV hl (H.rel d h) v) ⟨e.1, fun i hi => ?_, fun j i hj hi => ?_⟩
        · refine (e.2.1 i hi).trans ?_; simp only [mulV, fillAdv_lt _ _ hi]; rfl
        · refine (e.2.2 j i hj hi).trans ?_; simp only [mulV, fillHo_lt _ _ hj hi]
    | div =>
      obtain ⟨u, e⟩ := full_spec (d := d) H.ns (s.val d / v) (ga := fun i s => s.adv d i / v) (gh := fun j i s => s.heap (s.row d j) i / v)
        (TA := fun i => s.adv d i / v) (TH := fun j i => (s.obj d).ho j i / v) (fun i s' _ h => by rw [h d])
        (fun j i s' _ _ hr hh => by simp only [St.obj]; rw [hr, hh d])
      refine fin d (fun t => V d t / v) _ (D d) u (fun _ _ => rfl) EventuallyEq.rfl hdef ?_ fun h => ?_
      · rw [← H.val d]; exact e.1
      · obtain ⟨q, hq⟩ : ∃ q, Un.run c (.divD v) (s.obj d) = some q := ⟨_, rfl⟩
        have hrel := un_rel hl (.divD v) (H.rel d h) hok trivial hq
        simp only [Un.run, Option.some.injEq] at hq
        refine Rel.agree hl (b := q) hrel ?_
        subst hq
        refine ⟨e.1, fun i hi => ?_, fun j i hj hi => ?_⟩
        · refine (e.2.1 i hi).trans ?_; simp only [fillAdv_lt _ _ hi]; rfl
        · refine (e.2.2 j i hj hi).trans ?_; simp only [fillHo_lt _ _ hj hi]
  | accA f d a =>
    simp only [Stmt.run, Option.some.injEq] at hr; subst hr
    cases f with
    | add =>
      obtain ⟨u, e⟩ := full_spec (d := d) H.ns (s.val d + s.val a) (ga := fun i s => s.adv d i + s.adv a i)
        (gh := fun j i s => s.heap (s.row d j) i + s.heap (s.row a j) i)
        (TA := fun i => s.adv d i + s.adv a i) (TH := fun j i => (s.obj d).ho j i + (s.obj a).ho j i)
        (fun i s' _ h => by rw [h d, h a])
        (fun j i s' _ _ hr hh => by simp only [St.obj]; rw [hr, hh d, hh a])
      refine fin d (fun t => V d t + V a t) _ (D d ∧ D a) u (fun _ _ => rfl) EventuallyEq.rfl rfl ?_ fun h => ?_
      · rw [← H.val d, ← H.val a]; exact e.1
      · obtain ⟨q, hq⟩ : ∃ q, Bin.run c .add (s.obj d) (s.obj a) = some q := ⟨_, rfl⟩
        have hrel := bin_rel hl .add (H.rel d h.1) (H.rel a h.2) trivial hq
        simp only [Bin.run, Option.some.injEq] at hq
        refine Rel.agree hl (b := q) hrel ?_
        subst hq
        refine ⟨e.1, fun i hi => ?_, fun j i hj hi => ?_⟩
        · refine (e.2.1 i hi).trans ?_; simp only [fillAdv_lt _ _ hi]; rfl
        · refine (e.2.2 j i hj hi).trans ?_; simp only [fillHo_lt _ _ hj hi]
    | sub =>
      obtain ⟨u, e⟩ := full_spec (d := d) H.ns (s.val d - s.val a) (ga := fun i s => s.adv d i - s.adv a i)
        (gh := fun j i s => s.heap (s.row d j) i - s.heap (s.row a j) i)
        (TA := fun i => s.adv d i - s.adv a i) (TH := fun j i => (s.obj d).ho j i - (s.obj a).ho j i)
        (fun i s' _ h => by rw [h d, h a])
        (fun j i s' _ _ hr hh => by simp only [St.obj]; rw [hr, hh d, hh a])
      refine fin d (fun t => V d t - V a t) _ (D d ∧ D a) u (fun _ _ => rfl) EventuallyEq.rfl rfl ?_ fun h => ?_
      · rw [← H.val d, ← H.val a]; exact e.1
      · obtain ⟨q, hq⟩ : ∃ q, Bin.run c .sub (s.obj d) (s.obj a) = some q := ⟨_, rfl⟩
        have hrel := bin_rel hl .sub (H.rel d h.1) (H.rel a h.2) trivial hq
        simp only [Bin.run, Option.some.injEq] at hq
        refine Rel.agree hl (b := q) hrel ?_
        subst hq
        refine ⟨e.1, fun i hi => ?_, fun j i hj hi => ?_⟩
        · refine (e.2.1 i hi).trans ?_; simp only [fillAdv_lt _ _ hi]; rfl
        · refine (e.2.2 j i hj hi).trans ?_; simp only [fillHo_lt _ _ hj hi]
    | mul => exact absurd hs id
    | div => exact absurd hs id
  | incr d =>
    simp only [Stmt.run, Option.some.injEq] at hr; subst hr
    obtain ⟨u, e⟩ := putVal_upd H.ns (d := d) (s.val d + 1)
    refine fin d (fun t => V d t + 1) _ (D d) u (fun _ _ => rfl) EventuallyEq.rfl (mark_self' D d).symm ?_ fun h => ?_
    · rw [← H.val d]; exact e.1
    · exact ((H.rel d h).addc 1).agree hl (by rw [← H.val]; exact e)
  | decr d =>
    simp only [Stmt.run, Option.some.injEq] at hr; subst hr
    obtain ⟨u, e⟩ := putVal_upd H.ns (d := d) (s.val d - 1)
    refine fin d (fun t => V d t - 1) _ (D d) u (fun _ _ => rfl) EventuallyEq.rfl (mark_self' D d).symm ?_ fun h => ?_
    · rw [← H.val d]; exact e.1
    · exact ((H.rel d h).subc 1).agree hl (by rw [← H.val]; exact e)
  | postIncr d x =>
    simp only [Stmt.run, Option.some.injEq] at hr
    have hdx : d ≠ x := hok
    obtain ⟨u, e⟩ := putVal_upd H.ns (d := x) (s.val x + 1)
    have H1 := H.step hl u (fun t => V x t + 1) (D x) (by rw [← H.val x]; exact e.1)
      (fun h => ((H.rel x h).addc 1).agree hl (by rw [← H.val]; exact e))
    rw [mark_self'] at H1
    subst hr
    obtain ⟨u2, e2⟩ := bind_upd H1.ns (d := d) (⟨s.val x, fillAdv c.P (fun i => (s.putVal x (s.val x + 1)).adv x i) (c.mem d).adv,
      fillHo c (fun j i => (s.putVal x (s.val x + 1)).heap ((s.putVal x (s.val x + 1)).row x j) i) (c.mem d).ho⟩ : Obj)
    refine H1.step hl u2 (V x) (D x) ?_ fun h => ?_
    · rw [show (St.bind _ d _).val d = ((St.bind _ d _).obj d).val from rfl, e2]; exact H.val x
    · rw [e2]; exact rel_copy hl (c.mem d) (H.rel x h)
  | postDecr d x =>
    simp only [Stmt.run, Option.some.injEq] at hr
    have hdx : d ≠ x := hok
    obtain ⟨u, e⟩ := putVal_upd H.ns (d := x) (s.val x - 1)
    have H1 := H.step hl u (fun t => V x t - 1) (D x) (by rw [← H.val x]; exact e.1)
      (fun h => ((H.rel x h).subc 1).agree hl (by rw [← H.val]; exact e))
    rw [mark_self'] at H1
    subst hr
    obtain ⟨u2, e2⟩ := bind_upd H1.ns (d := d) (⟨s.val x, fillAdv c.P (fun i => (s.putVal x (s.val x - 1)).adv x i) (c.mem d).adv,
      fillHo c (fun j i => (s.putVal x (s.val x - 1)).heap ((s.putVal x (s.val x - 1)).row x j) i) (c.mem d).ho⟩ : Obj)
    refine H1.step hl u2 (V x) (D x) ?_ fun h => ?_
    · rw [show (St.bind _ d _).val d = ((St.bind _ d _).obj d).val from rfl, e2]; exact H.val x
    · rw [e2]; exact rel_copy hl (c.mem d) (H.rel x h)
  | cond d q a b =>
    simp only [Stmt.run, Option.some.injEq] at hr
    obtain ⟨hne, hq⟩ := hok
    classical
    have hw := choose d q (fun x => 0 < x) (V a) (V b) _ hq hne pos rfl
    rw [H.val q] at hr
    by_cases hp : V q 0 > 0
    · rw [if_pos hp] at hr; subst hr
      rw [if_pos (show 0 < V q 0 from hp)] at hw
      obtain ⟨u, e⟩ := setA_spec H.ns d a
      refine fin d (V a) _ (D a) u (fun o t => ?_) hw ?_ (e.1.trans (H.val a)) fun h => (H.rel a h).agree hl e
      · simp only [Stmt.val, Env.set]
      · simp only [Stmt.defs]; rw [if_pos (show 0 < V q 0 from hp)]
    · rw [if_neg hp] at hr; subst hr
      rw [if_neg (show ¬ 0 < V q 0 from hp)] at hw
      obtain ⟨u, e⟩ := setA_spec H.ns d b
      refine fin d (V b) _ (D b) u (fun o t => ?_) hw ?_ (e.1.trans (H.val b)) fun h => (H.rel b h).agree hl e
      · simp only [Stmt.val, Env.set]
      · simp only [Stmt.defs]; rw [if_neg (show ¬ 0 < V q 0 from hp)]
  | condEq d q a b =>
    simp only [Stmt.run, Option.some.injEq] at hr
    obtain ⟨hne, hq⟩ := hok
    classical
    have hw := choose d q (fun x => 0 ≤ x) (V a) (V b) _ hq hne nneg rfl
    rw [H.val q] at hr
    by_cases hp : V q 0 ≥ 0
    · rw [if_pos hp] at hr; subst hr
      rw [if_pos (show 0 ≤ V q 0 from hp)] at hw
      obtain ⟨u, e⟩ := setA_spec H.ns d a
      refine fin d (V a) _ (D a) u (fun o t => ?_) hw ?_ (e.1.trans (H.val a)) fun h => (H.rel a h).agree hl e
      · simp only [Stmt.val, Env.set]
      · simp only [Stmt.defs]; rw [if_pos (show 0 ≤ V q 0 from hp)]
    · rw [if_neg hp] at hr; subst hr
      rw [if_neg (show ¬ 0 ≤ V q 0 from hp)] at hw
      obtain ⟨u, e⟩ := setA_spec H.ns d b
      refine fin d (V b) _ (D b) u (fun o t => ?_) hw ?_ (e.1.trans (H.val b)) fun h => (H.rel b h).agree hl e
      · simp only [Stmt.val, Env.set]
      · simp only [Stmt.defs]; rw [if_neg (show ¬ 0 ≤ V q 0 from hp)]
  | condS d q a =>
    simp only [Stmt.run, Option.some.injEq] at hr
    obtain ⟨hne, hq⟩ := hok
    classical
    have hw := choose d q (fun x => 0 < x) (V a) (V d) _ hq hne pos rfl
    rw [H.val q] at hr
    by_cases hp : V q 0 > 0
    · rw [if_pos hp] at hr; subst hr
      rw [if_pos (show 0 < V q 0 from hp)] at hw
      obtain ⟨u, e⟩ := setA_spec H.ns d a
      refine fin d (V a) _ (D a) u (fun o t => ?_) hw ?_ (e.1.trans (H.val a)) fun h => (H.rel a h).agree hl e
      · simp only [Stmt.val, Env.set]
      · simp only [Stmt.defs]; rw [if_pos (show 0 < V q 0 from hp)]
    · rw [if_neg hp] at hr; subst hr
      rw [if_neg (show ¬ 0 < V q 0 from hp)] at hw
      have u : Upd c s s d := ⟨fun _ _ => rfl, fun _ _ _ _ => rfl, fun _ _ _ _ _ _ => rfl, H.ns⟩
      refine fin d (V d) _ (D d) u (fun o t => ?_) hw ?_ (H.val d) fun h => H.rel d h
      · simp only [Stmt.val, Env.set]
      · simp only [Stmt.defs]; rw [if_neg (show ¬ 0 < V q 0 from hp)]
  | condEqS d q a =>
    simp only [Stmt.run, Option.some.injEq] at hr
    obtain ⟨hne, hq⟩ := hok
    classical
    have hw := choose d q (fun x => 0 ≤ x) (V a) (V d) _ hq hne nneg rfl
    rw [H.val q] at hr
    by_cases hp : V q 0 ≥ 0
    · rw [if_pos hp] at hr; subst hr
      rw [if_pos (show 0 ≤ V q 0 from hp)] at hw
      obtain ⟨u, e⟩ := setA_spec H.ns d a
      refine fin d (V a) _ (D a) u (fun o t => ?_) hw ?_ (e.1.trans (H.val a)) fun h => (H.rel a h).agree hl e
      · simp only [Stmt.val, Env.set]
      · simp only [Stmt.defs]; rw [if_pos (show 0 ≤ V q 0 from hp)]
    · rw [if_neg hp] at hr; subst hr
      rw [if_neg (show ¬ 0 ≤ V q 0 from hp)] at hw
      have u : Upd c s s d := ⟨fun _ _ => rfl, fun _ _ _ _ => rfl, fun _ _ _ _ _ _ => rfl, H.ns⟩
      refine fin d (V d) _ (D d) u (fun o t => ?_) hw ?_ (H.val d) fun h => H.rel d h
      · simp only [Stmt.val, Env.set]
      · simp only [Stmt.defs]; rw [if_neg (show ¬ 0 ≤ V q 0 from hp)]

/-- A statement computes the values of the statement on numbers; it stops only at an unimplemented function. -/
theorem Stmt.some_iff (c : Cfg) (s : St) (st : Stmt) : (Stmt.run c st s).isSome ↔ Stmt.implemented st := by
  cases st <;> simp [Stmt.run, Stmt.implemented, Expr.some_iff]

theorem advS_val (c : Cfg) (d : ℕ) (g : ℕ → St → ℝ) (s : St) : (advS c d g s).val = s.val :=
  range_inv (fun s i => s.putAdv d i (g i s)) (fun _ s' => s'.val = s.val) c.P s rfl (fun _ _ _ h => by simpa [St.putAdv] using h)
theorem hoS_val (c : Cfg) (d : ℕ) (g : ℕ → ℕ → St → ℝ) (s : St) : (hoS c d g s).val = s.val :=
  loop2_inv c.D c.P (fun j i s => s.putHo d j i (g j i s)) (fun _ _ s' => s'.val = s.val) s rfl
    (fun _ _ _ _ _ h => by simpa [St.putHo] using h) (fun _ _ _ h => by simpa using h)
theorem setA_val (c : Cfg) (d a : ℕ) (s : St) : (setA c d a s).val = Env.set s.val d (s.val a) := by
  simp only [setA, hoS_val, advS_val]; rfl

theorem Stmt.val_eq (st : Stmt) (hs : Stmt.sound st s.val) (hr : Stmt.run c st s = some s') : s'.val = st.val s.val := by
  cases st with
  | declE d e =>
    simp only [Stmt.run, Option.map_eq_some_iff] at hr
    obtain ⟨h, he, hr⟩ := hr
    subst hr
    have := Expr.val_eq (fun _ => rfl) e h he hs
    simp only [Stmt.val, St.bind, ctorC, this]; rfl
  | accD f d v =>
    simp only [Stmt.run, Option.some.injEq] at hr; subst hr
    cases f <;> simp only [accD, hoS_val, advS_val] <;> rfl
  | accA f d a =>
    simp only [Stmt.run, Option.some.injEq] at hr; subst hr
    cases f
    · simp only [accA, hoS_val, advS_val]; rfl
    · simp only [accA, hoS_val, advS_val]; rfl
    · exact absurd hs id
    · exact absurd hs id
  | cond d q a b =>
    simp only [Stmt.run, Option.some.injEq] at hr; subst hr
    simp only [Stmt.val, gt_iff_lt]
    split_ifs <;> rw [setA_val]
  | condEq d q a b =>
    simp only [Stmt.run, Option.some.injEq] at hr; subst hr
    simp only [Stmt.val, ge_iff_le]
    split_ifs <;> rw [setA_val]
  | condS d q a =>
    simp only [Stmt.run, Option.some.injEq] at hr; subst hr
    simp only [Stmt.val, gt_iff_lt]
    split_ifs
    · rw [setA_val]
    · funext o; simp only [Env.set]; split_ifs with h
      · rw [h]
      · rfl
  | condEqS d q a =>
    simp only [Stmt.run, Option.some.injEq] at hr; subst hr
    simp only [Stmt.val, ge_iff_le]
    split_ifs
    · rw [setA_val]
    · funext o; simp only [Env.set]; split_ifs with h
      · rw [h]
      · rfl
  | setA d a => simp only [Stmt.run, Option.some.injEq] at hr; subst hr; rw [setA_val]; rfl
  | setD d v => simp only [Stmt.run, Option.some.injEq] at hr; subst hr; simp only [setD, hoS_val, advS_val]; rfl
  | decl d => simp only [Stmt.run, Option.some.injEq] at hr; subst hr; rfl
  | declD d v => simp only [Stmt.run, Option.some.injEq] at hr; subst hr; rfl
  | incr d => simp only [Stmt.run, Option.some.injEq] at hr; subst hr; rfl
  | decr d => simp only [Stmt.run, Option.some.injEq] at hr; subst hr; rfl
  | postIncr d x => simp only [Stmt.run, Option.some.injEq] at hr; subst hr; rfl
  | postDecr d x => simp only [Stmt.run, Option.some.injEq] at hr; subst hr; rfl

theorem Prog.values (c : Cfg) (p : Prog) : ∀ s : St, Prog.sound p s.val →
    ((Prog.run c p s).isSome ↔ Prog.implemented p s.val) ∧ ∀ s', Prog.run c p s = some s' → s'.val = p.val s.val := by
  induction p with
  | done => intro s _; simp [Prog.run, Prog.implemented, Prog.val]
  | stmt st p ih =>
    intro s hs
    simp only [Prog.run, Prog.implemented, Prog.val]
    have hi := Stmt.some_iff c s st
    cases h : Stmt.run c st s with
    | none => rw [h] at hi; simp at hi; simp [hi]
    | some s1 =>
      rw [h] at hi; simp at hi
      have hv := Stmt.val_eq st hs.1 h
      have := ih s1 (by rw [hv]; exact hs.2)
      rw [hv] at this
      simpa [hi] using this
  | branch f l r t e iht ihe =>
    intro s hs
    simp only [Prog.run, Prog.implemented, Prog.val, Prog.sound] at hs ⊢
    split_ifs at hs ⊢
    · exact iht s hs
    · exact ihe s hs

/-- Away from ties a comparison keeps its outcome nearby. -/
theorem cmp_eventually {f g : ℝ → ℝ} (φ : Cmp) (hf : ContinuousAt f 0) (hg : ContinuousAt g 0) (hne : f 0 ≠ g 0) :
    ∀ᶠ x in 𝓝 (0:ℝ), (φ.holds (f x) (g x) ↔ φ.holds (f 0) (g 0)) := by
  have := TL.Cmp.eventually (F := (⟨Set.univ, 0, trivial, fun _ => 0, ∅⟩ : Frame ℝ)) φ (f := f) (g := g)
    (by simpa using hf.tendsto) (by simpa using hg.tendsto) hne
  simpa using this

theorem Opd.cont (H : Holds c l fo V D s) (x : Opd) (hx : x.within D) : ContinuousAt (fun t => x.val (fun o => V o t)) 0 := by
  cases x with
  | var a => exact (H.rel a hx).smooth.continuousAt
  | lit v => exact continuousAt_const

/-- A program: values and Taylor coefficients. -/
theorem Prog.rel (hl : l < c.P) (p : Prog) : ∀ {V : ℕ → ℝ → ℝ} {D : ℕ → Prop} {s s' : St}, Holds c l fo V D s →
    p.ok false (fun o => V o 0) D → Prog.sound p (fun o => V o 0) → Prog.run c p s = some s' →
    Holds c l fo (fun o t => p.val (fun o => V o t) o) (p.defs (fun o => V o 0) D) s' := by
  induction p with
  | done =>
    intro V D s s' H _ _ hr
    simp only [Prog.run, Option.some.injEq] at hr; subst hr
    exact H
  | stmt st p ih =>
    intro V D s s' H hok hs hr
    simp only [Prog.run, Option.bind_eq_some_iff] at hr
    obtain ⟨s1, h1, hr⟩ := hr
    exact ih (Stmt.rel hl H st hok.1 hs.1 h1) hok.2 hs.2 hr
  | branch f x y t e iht ihe =>
    intro V D s s' H hok hs hr
    obtain ⟨hne, hx, hy, hok⟩ := hok
    have hev := cmp_eventually f (Opd.cont H x hx) (Opd.cont H y hy) hne
    have hsv : s.val = fun o => V o 0 := funext H.val
    simp only [Prog.run, Prog.sound, Prog.defs] at hs hr ⊢
    rw [hsv] at hr
    by_cases hb : f.holds (x.val fun o => V o 0) (y.val fun o => V o 0)
    · rw [if_pos hb] at hok
      simp only [if_pos hb] at hs hr ⊢
      have := iht H hok hs hr
      refine ⟨this.ns, fun o => ?_, fun o ho => ?_⟩
      · rw [this.val]; simp only [Prog.val]; rw [if_pos hb]
      · refine (this.rel o ho).congr (hev.mono fun t ht => ?_)
        simp only [Prog.val]; rw [if_pos (ht.2 hb)]
    · rw [if_neg hb] at hok
      simp only [if_neg hb] at hs hr ⊢
      have := ihe H hok hs hr
      refine ⟨this.ns, fun o => ?_, fun o ho => ?_⟩
      · rw [this.val]; simp only [Prog.val]; rw [if_neg hb]
      · refine (this.rel o ho).congr (hev.mono fun t ht => ?_)
        simp only [Prog.val]; rw [if_neg fun hh => hb (ht.1 hh)]

end Verif.TL.Hov
