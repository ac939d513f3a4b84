import Verif.AD.RecordWf
import Verif.AD.Tangent

/-!
Differentiability conditions on a program carry over to its trace.
-/
set_option linter.all false
namespace Verif.AD
open Elem

/-- Kinds of sweeps: `fos_forward`, `fos_reverse`, higher-order forward, higher-order reverse. -/
inductive Sm where
  | fwd | rev | ho | hor
  deriving DecidableEq

/-- Exponents `k ≥ 1` for which `pow(x, k)` may be called at `x = 0`. -/
def Sm.pow0 (lv : Sm) (k : ℝ) : Prop :=
  match lv with
  | .fwd => True
  | .rev => 1 < k
  | .ho => False
  | .hor => False

/-- Where a call is differentiable (`v` its arguments): inside the open domain of the
elementary function, not at a kink or jump, not at the boundary of a conditional.
The level says which sweep is meant: `pow(x, 1)` at `x = 0` is excluded for reverse sweeps,
`pow(x, k)` at `x = 0` and `cbrt` for higher-order sweeps, `pow(x, k)` with `|x| ≤ 10⁻¹⁹`, `ceil` and
`floor` for higher-order reverse sweeps. -/
def Un.smooth (lv : Sm) (f : Un ℝ) (v : ℝ) : Prop :=
  match f with
  | .divD _ => v ≠ 0
  | .log => 0 < v
  | .sqrt => 0 < v
  | .cbrt => v ≠ 0 ∧ lv ≠ .ho ∧ lv ≠ .hor
  | .pow k => (0 < v ∨ (v < 0 ∧ ∃ n : ℤ, k = n) ∨ (v = 0 ∧ 1 ≤ k ∧ lv.pow0 k)) ∧ (lv = .hor → 1 / 10 ^ 19 < |v|)
  | .fabs => v ≠ 0
  | .ceil | .floor => (∀ n : ℤ, v ≠ n) ∧ lv ≠ .hor
  | _ => True

def Stmt.smooth (lv : Sm) (s : Stmt ℝ) (e : SE ℝ) : Prop :=
  match s with
  | .un f a _ => ∀ v, e.vars a = some v → f.smooth lv v
  | .bin .div _ _ b _ => ∀ w, e.vars b = some w → w ≠ 0
  | .bin .fmin _ a b _ => ∀ v w, e.vars a = some v → e.vars b = some w → v ≠ w ∨ a = b
  | .quad q a b d => ∀ v w, e.vars a = some v → e.vars b = some w →
      quadDom q v ∧ w = quadDer q v ∧ (a = d → quadEdge q (q.fn v))
  | .cond _ c _ _ | .condS _ c _ | .condEq _ c _ _ | .condEqS _ c _ =>
    ∀ v, e.vars c = some v → v ≠ 0
  | _ => True

/-- Every call and comparison executed at `x` is differentiable there. -/
def Prog.smooth (lv : Sm) (x par : Nat → ℝ) : Prog ℝ → SE ℝ → Prop
  | .done, _ => True
  | .stmt s k, e => s.smooth lv e ∧ ∀ e', s.spec x par e = some e' → k.smooth lv x par e'
  | .branch c a t f, e => ∀ v, e.vars a = some v →
      v ≠ 0 ∧ (if c.holds v then t.smooth lv x par e else f.smooth lv x par e)

/-- The trace-level condition with the conditions of the level. -/
def smoothS (lv : Sm) (o : Base ℝ) (T : Nat → ℝ) : Prop :=
  smooth o T ∧ (∀ a r k, o = .powOp a r k → T a = 0 → lv.pow0 k) ∧ (∀ a r, o = .cbrtOp a r → lv ≠ .ho ∧ lv ≠ .hor) ∧
    (∀ r k, o ≠ .setRef r k) ∧
    (lv = .hor → (∀ a r k, o = .powOp a r k → 1 / 10 ^ 19 < |T a|) ∧ (∀ a r k, o ≠ .ceilOp a r k ∧ o ≠ .floorOp a r k) ∧
      (∀ a n r, o ≠ .vecCopy a n r) ∧ (∀ a b n r, o ≠ .vecDot a b n r) ∧ ∀ a a1 a2 n r, o ≠ .vecAxpy a a1 a2 n r)

/-- Conditions of a level imply those of the levels below it. -/
theorem Un.smooth_ho {f : Un ℝ} {v : ℝ} (h : f.smooth .hor v) : f.smooth .ho v := by
  cases f <;> simp_all [Un.smooth, Sm.pow0]
theorem Un.smooth_rev {f : Un ℝ} {v : ℝ} (h : f.smooth .ho v) : f.smooth .rev v := by
  cases f <;> simp_all [Un.smooth, Sm.pow0]
  case pow k => tauto

theorem Stmt.smooth_ho {s : Stmt ℝ} {e : SE ℝ} (h : s.smooth .hor e) : s.smooth .ho e := by
  cases s
  case un f a d => exact fun v hv => Un.smooth_ho (h v hv)
  case bin f lv a b d => cases f <;> exact h
  all_goals exact h
theorem Stmt.smooth_rev {s : Stmt ℝ} {e : SE ℝ} (h : s.smooth .ho e) : s.smooth .rev e := by
  cases s
  case un f a d => exact fun v hv => Un.smooth_rev (h v hv)
  case bin f lv a b d => cases f <;> exact h
  all_goals exact h

theorem Prog.smooth_mono {l l' : Sm} (hm : ∀ s e, Stmt.smooth l s e → Stmt.smooth l' s e) {x par : Nat → ℝ} {p : Prog ℝ} :
    ∀ {e : SE ℝ}, p.smooth l x par e → p.smooth l' x par e := by
  induction p with
  | done => intro e h; trivial
  | stmt s k ih => intro e h; exact ⟨hm _ _ h.1, fun e' he => ih (h.2 e' he)⟩
  | branch c a t f it jf =>
    intro e h v hv
    refine ⟨(h v hv).1, ?_⟩
    have := (h v hv).2
    split_ifs at this ⊢
    · exact it this
    · exact jf this

theorem Prog.smooth_ho {x par : Nat → ℝ} {p : Prog ℝ} {e : SE ℝ} (h : p.smooth .hor x par e) : p.smooth .ho x par e :=
  Prog.smooth_mono (fun _ _ => Stmt.smooth_ho) h
theorem Prog.smooth_rev {x par : Nat → ℝ} {p : Prog ℝ} {e : SE ℝ} (h : p.smooth .ho x par e) : p.smooth .rev x par e :=
  Prog.smooth_mono (fun _ _ => Stmt.smooth_rev) h

theorem smoothS_ho {o : Base ℝ} {T : Nat → ℝ} (h : smoothS .hor o T) : smoothS .ho o T :=
  ⟨h.1, h.2.1, fun a r e => by simpa using h.2.2.1 a r e, h.2.2.2.1, fun e => by cases e⟩

theorem Along_snoc {K : Type} [Scalar K] {P : Base K → (Nat → K) → Prop} {c : Cfg K}
    {a : List (Base K)} {o : Base K} {z : ZS K} :
    Along P c (a ++ [o]) z ↔ Along P c a z ∧ ∀ z', zosRun c a z = .ok z' → P o z'.T := by
  induction a generalizing z with
  | nil => simp [Along, zosRun]
  | cons p os ih =>
    simp only [List.cons_append, Along, ih, zosRun]
    constructor
    · rintro ⟨h1, h2⟩
      refine ⟨⟨h1, fun s' hs => (h2 s' hs).1⟩, fun z' hz => ?_⟩
      split at hz
      · cases hz
      · rename_i s1 h3; exact (h2 s1 h3).2 z' hz
    · rintro ⟨⟨h1, h2⟩, h3⟩
      refine ⟨h1, fun s' hs => ⟨h2 s' hs, fun z' hz => ?_⟩⟩
      rw [hs] at h3
      exact h3 z' hz

theorem Along_mono {K : Type} [Scalar K] {P Q : Base K → (Nat → K) → Prop} {c : Cfg K}
    {a : List (Base K)} {z : ZS K} (hPQ : ∀ o T, P o T → Q o T) (h : Along P c a z) : Along Q c a z := by
  induction a generalizing z with
  | nil => trivial
  | cons p os ih => exact ⟨hPQ _ _ h.1, fun s' hs => ih (h.2 s' hs)⟩

section
variable {c : Cfg ℝ} {cfg : RCfg ℝ} {b : Sm} {Z0 : ZS ℝ}

abbrev SmoothFrom (Z0 : ZS ℝ) (b : Sm) (c : Cfg ℝ) (s : Rec ℝ) : Prop := Along (smoothS b) c s.tr.reverse Z0
abbrev SmoothTr (T0 : Nat → ℝ) (b : Sm) (c : Cfg ℝ) (s : Rec ℝ) : Prop := SmoothFrom (ZS.start T0) b c s

theorem SmoothFrom.snoc {s s' : Rec ℝ} {z : ZS ℝ} {o : Base ℝ} (h : SmoothFrom Z0 b c s) (hz : SweptFrom Z0 c s z)
    (ho : s'.tr = o :: s.tr) (hs : smoothS b o z.T) : SmoothFrom Z0 b c s' := by
  unfold SmoothFrom
  rw [ho, List.reverse_cons, Along_snoc]
  refine ⟨h, fun z' hz' => ?_⟩
  have : zosRun c s.tr.reverse Z0 = .ok z := hz
  rw [this] at hz'; cases hz'; exact hs

theorem smooth_accR {m : Bool} {a t : Nat} {s s' : Rec ℝ} {z : ZS ℝ} (hz : SweptFrom Z0 c s z)
    (h0 : SmoothFrom Z0 b c s) (h : (Stmt.accR m a t : Stmt ℝ).record cfg s = some s') :
    SmoothFrom Z0 b c s' := by
  simp only [Stmt.record] at h
  split at h
  · simp only [Option.bind_eq_some_iff, Option.map_eq_some_iff] at h
    obtain ⟨la, ha, lt, ht, h⟩ := h
    have plain : SmoothFrom Z0 b c ((s.rec1 cfg ((if m then Acc.minus else Acc.plus).opA lt la) la
        (if m then s.V la - s.V lt else s.V la + s.V lt)).free t lt) := by
      refine h0.snoc hz rfl ?_
      cases m <;> simp [smoothS, smooth, Acc.opA]
    split at h
    · rename_i p q r tr' htr
      split at h
      · have key : Along (smoothS b) c (((if m then Base.eqMinProd p q la else .eqPlusProd p q la) ::
            tr').reverse) Z0 := by
          unfold SmoothFrom at h0
          rw [htr, List.reverse_cons, Along_snoc] at h0
          rw [List.reverse_cons, Along_snoc]
          refine ⟨h0.1, fun z' _ => ?_⟩
          cases m <;> simp [smoothS, smooth]
        cases hk : cfg.keep
        · simp only [hk, Rec.val] at h
          rw [← h]; exact key
        · simp only [hk, Rec.val, if_true] at h
          cases hst : s.stk with
          | nil => simp only [hst] at h; rw [← h]; exact key
          | cons y st => simp only [hst] at h; rw [← h]; exact key
      · rw [← h]; exact plain
    · rw [← h]; exact plain
  · cases h

local macro "sm" : tactic => `(tactic| simp +contextual [smoothS, smooth])

theorem smooth_step {st : Stmt ℝ} {s s' : Rec ℝ} {z : ZS ℝ} {e : SE ℝ} (ok : s.Ok)
    (hz : SweptFrom Z0 c s z) (hs : Sim s.env z e) (h0 : SmoothFrom Z0 b c s) (hsm : st.smooth b e)
    (h : st.record cfg s = some s') : SmoothFrom Z0 b c s' := by
  cases st
  case accR m a t => exact smooth_accR hz h0 h
  all_goals simp only [Stmt.record] at h
  case un f a d =>
    simp only [Option.bind_eq_some_iff, Option.map_eq_some_iff] at h
    obtain ⟨ld, hd, la, ha, rfl⟩ := h
    have h1 := hsm _ (hs.get ha)
    refine h0.snoc hz rfl ?_
    cases f <;> simp only [Un.op, opPlusD, opMinD, opMultD, Un.smooth] at h1 ⊢ <;> try split_ifs
    case pow k =>
      obtain ⟨h1, h9⟩ := h1
      refine ⟨?_, ?_, by sm, by sm, fun hl => ⟨fun a' r' k' ho => ?_, by sm⟩⟩
      rotate_left 2
      · cases ho; exact h9 hl
      · rcases h1 with h1 | h1 | h1
        · exact .inl h1
        · exact .inr (.inl h1)
        · exact .inr (.inr ⟨h1.1, h1.2.1⟩)
      · rintro a' r' k' ho h2
        cases ho
        rcases h1 with h1 | h1 | h1
        · exact absurd h2 h1.ne'
        · exact absurd h2 h1.1.ne
        · exact h1.2.2
    all_goals simp [smoothS, smooth, *]
  case bin f lv a b' d =>
    simp only [Option.bind_eq_some_iff, Option.map_eq_some_iff] at h
    obtain ⟨ld, hd, la, ha, lb, hb, rfl⟩ := h
    refine h0.snoc hz rfl ?_
    cases f <;> simp only [Bin.op]
    case div =>
      have := hsm _ (hs.get hb)
      simp [smoothS, smooth, this]
    case fmin =>
      have := hsm _ _ (hs.get ha) (hs.get hb)
      have h2 : z.T la ≠ z.T lb ∨ la = lb := this.imp id fun hab => by
        subst hab; rw [ha] at hb; cases hb; rfl
      simp [smoothS, smooth, h2]
    all_goals sm
  case trig co a b' d =>
    split at h
    · rename_i hab
      simp only [Option.bind_eq_some_iff, Option.map_eq_some_iff] at h
      obtain ⟨ld, hd, lb, hb, la, ha, rfl⟩ := h
      have h5 : la ≠ lb := fun hl => hab.1 (ok.inj a b' la ha (hl ▸ hb))
      have h6 : lb ≠ ld := fun hl => hab.2 (ok.inj b' d lb hb (hl ▸ hd))
      refine h0.snoc (o := if co then .cosOp la lb ld else .sinOp la lb ld) hz rfl ?_
      cases co <;> simp [smoothS, smooth, h5, h6]
    · cases h
  case quad q a b' d =>
    split at h
    · rename_i hab
      simp only [Option.bind_eq_some_iff, Option.map_eq_some_iff] at h
      obtain ⟨ld, hd, lb, hb, la, ha, rfl⟩ := h
      have h6 : lb ≠ ld := fun hl => hab (ok.inj b' d lb hb (hl ▸ hd))
      obtain ⟨g1, g2, g3⟩ := hsm _ _ (hs.get ha) (hs.get hb)
      refine h0.snoc hz rfl ⟨⟨g1, g2, h6, fun hl => g3 (ok.inj a d la ha (hl ▸ hd))⟩, by sm, by sm, by sm, by sm⟩
    · cases h
  case cond r k a b' =>
    simp only [Option.bind_eq_some_iff, Option.map_eq_some_iff] at h
    obtain ⟨lr, hr, lc, hc, la, ha, lb, hb, rfl⟩ := h
    have := hsm _ (hs.get hc)
    refine h0.snoc hz rfl ?_
    simp [smoothS, smooth, this]
  case condEq r k a b' =>
    simp only [Option.bind_eq_some_iff, Option.map_eq_some_iff] at h
    obtain ⟨lr, hr, lc, hc, la, ha, lb, hb, rfl⟩ := h
    have := hsm _ (hs.get hc)
    refine h0.snoc hz rfl ?_
    simp [smoothS, smooth, this]
  case condS r k a =>
    simp only [Option.bind_eq_some_iff, Option.map_eq_some_iff] at h
    obtain ⟨lr, hr, lc, hc, la, ha, rfl⟩ := h
    have := hsm _ (hs.get hc)
    refine h0.snoc hz rfl ?_
    simp [smoothS, smooth, this]
  case condEqS r k a =>
    simp only [Option.bind_eq_some_iff, Option.map_eq_some_iff] at h
    obtain ⟨lr, hr, lc, hc, la, ha, rfl⟩ := h
    have := hsm _ (hs.get hc)
    refine h0.snoc hz rfl ?_
    simp [smoothS, smooth, this]
  case setA a b' =>
    simp only [Option.bind_eq_some_iff, Option.map_eq_some_iff] at h
    obtain ⟨la, ha, lb, hb, rfl⟩ := h
    split
    · exact h0.snoc hz rfl (by sm)
    · exact h0
  case accA f a b' =>
    simp only [Option.bind_eq_some_iff, Option.map_eq_some_iff] at h
    obtain ⟨la, ha, lb, hb, rfl⟩ := h
    refine h0.snoc hz rfl ?_
    cases f <;> simp only [Acc.opA] <;> sm
  case accD f a k =>
    simp only [Option.map_eq_some_iff] at h
    obtain ⟨la, ha, rfl⟩ := h
    refine h0.snoc hz rfl ?_
    cases f <;> simp only [Acc.opD] <;> sm
  case setD a k =>
    simp only [Option.map_eq_some_iff] at h
    obtain ⟨la, ha, rfl⟩ := h
    refine h0.snoc hz rfl ?_
    unfold opAssignD; split_ifs <;> sm
  case newD a k =>
    split at h
    · cases h
      refine h0.snoc hz rfl ?_
      unfold opAssignD; split_ifs <;> sm
    · cases h
  case new d =>
    split at h
    · cases h
      exact h0.snoc hz rfl (by sm)
    · cases h
  case copy d a =>
    split at h
    · simp only [Option.map_eq_some_iff] at h
      obtain ⟨la, ha, rfl⟩ := h
      exact h0.snoc hz rfl (by sm)
    · cases h
  case move d a =>
    split at h
    · simp only [Option.map_eq_some_iff] at h
      obtain ⟨la, ha, rfl⟩ := h
      exact h0
    · cases h
  case moveA a b' =>
    split at h
    · simp only [Option.bind_eq_some_iff, Option.map_eq_some_iff] at h
      obtain ⟨la, ha, lb, hb, rfl⟩ := h
      exact h0
    · cases h
  case del a =>
    simp only [Option.map_eq_some_iff] at h
    obtain ⟨la, ha, rfl⟩ := h
    exact h0
  all_goals
    simp only [Option.map_eq_some_iff] at h
    obtain ⟨la, ha, rfl⟩ := h
    exact h0.snoc hz rfl (by sm)

theorem Prog.smooth_tr (hal : ∀ k L, cfg.alloc k L ∉ L) (p : Prog ℝ) {s s' : Rec ℝ}
    {z : ZS ℝ} {e : SE ℝ} (ok : s.Ok) (hz : SweptFrom Z0 c s z) (hs : Sim s.env z e) (h0 : SmoothFrom Z0 b c s)
    (hsm : p.smooth b c.x c.par e) (hpath : ∃ e', p.spec c.x c.par e = some (e', p.path cfg s))
    (h : p.record cfg s = some s') : SmoothFrom Z0 b c s' := by
  induction p generalizing s z e with
  | done => cases h; exact h0
  | stmt st k ih =>
    simp only [Prog.record, Option.bind_eq_some_iff] at h
    obtain ⟨s1, h1, h2⟩ := h
    obtain ⟨ok1, e1, z1, g1, g2, g3⟩ := sim_step hal ok hz hs h1
    simp only [Prog.spec, g1, Prog.path, h1, Option.bind_some] at hpath
    exact ih ok1 g2 g3 (smooth_step ok hz hs h0 hsm.1 h1) (hsm.2 _ g1) hpath h2
  | branch q a t f iht ihf =>
    simp only [Prog.record, Option.bind_eq_some_iff] at h
    obtain ⟨la, ha, h⟩ := h
    obtain ⟨h2, h3⟩ := hsm _ (hs.get ha)
    obtain ⟨e', hp⟩ := hpath
    simp only [Prog.spec, hs.get ha, Prog.path, ha, Option.bind_some] at hp
    have hb : q.holds (z.T la) = q.holds (s.V la) := by
      split at hp
      · rename_i h1
        obtain ⟨p, hp, he⟩ := Option.map_eq_some_iff.1 hp
        injection he with he1 he2
        injection he2 with he3 he4
        rw [h1]; exact he3
      · rename_i h1
        obtain ⟨p, hp, he⟩ := Option.map_eq_some_iff.1 hp
        injection he with he1 he2
        injection he2 with he3 he4
        simp only [Bool.not_eq_true] at h1; rw [h1]; exact he3
    obtain ⟨z1, k1, k2, k3, k4⟩ := cmp_step_ok (c := c) (z := z)
      (q := q.recorded (q.holds (s.V la))) (a := la) (by rw [Cmp.holds_recorded]; simp [hb])
    have hz1 : SweptFrom Z0 c (s.put (.cmp (q.recorded (q.holds (s.V la))) la)) z1 := hz.snoc rfl k1
    have hs1 : Sim (s.put (.cmp (q.recorded (q.holds (s.V la))) la)).env z1 e :=
      ⟨fun b => by rw [k2]; exact hs.vars b, by rw [k3]; exact hs.ii, by rw [k4]; exact hs.y⟩
    have ok1 : (s.put (.cmp (q.recorded (q.holds (s.V la))) la)).Ok := ok.same rfl rfl rfl
    have h1 : SmoothFrom Z0 b c (s.put (.cmp (q.recorded (q.holds (s.V la))) la)) :=
      h0.snoc hz rfl ⟨h2, by sm, by sm, by sm⟩
    rw [hb] at h3 hp
    cases hq : q.holds (s.V la)
    · simp only [hq, Bool.false_eq_true, if_false, Option.map_eq_some_iff] at h h3 hp hz1 hs1 ok1 h1
      obtain ⟨⟨p1, p2⟩, hp, he⟩ := hp
      injection he with he1 he2
      injection he2 with he3 he4
      simp only at he4
      subst he4
      exact ihf ok1 hz1 hs1 h1 h3 ⟨_, hp⟩ h
    · simp only [hq, if_true, Option.map_eq_some_iff] at h h3 hp hz1 hs1 ok1 h1
      obtain ⟨⟨p1, p2⟩, hp, he⟩ := hp
      injection he with he1 he2
      injection he2 with he3 he4
      simp only at he4
      subst he4
      exact iht ok1 hz1 hs1 h1 h3 ⟨_, hp⟩ h
end

/-- Smooth traces are regular. -/
theorem smoothS_regular {o : Base ℝ} {T : Nat → ℝ} (h : smoothS .rev o T) : regular o T := by
  obtain ⟨h1, h2, h3⟩ := h
  clear h3
  cases o <;> simp only [smooth, regular] at h1 ⊢ <;> try trivial
  case quad q a b r =>
    obtain ⟨g1, g2, g3, g4⟩ := h1
    by_cases har : a = r
    · simp only [if_pos har]
      have := g4 har
      cases q <;> simp_all [quadEdge]
    · simp only [if_neg har]
      cases q <;> simp only [quadDom] at g1 ⊢
      · exact ⟨g1.2.ne, g1.1.ne'⟩
      · exact ⟨g1.2.ne, g1.1.ne'⟩
      · exact g1.ne'
      · exact ⟨g1.2.ne, g1.1.ne'⟩
  case logOp => exact h1.ne'
  case powOp a r k =>
    by_cases h0 : T a = 0
    · exact .inr (h2 a r k rfl h0)
    · exact .inl h0
  case sqrtOp => exact ⟨h1.ne', (Real.sqrt_pos.2 h1).ne'⟩
  case cbrtOp a r =>
    refine ⟨h1, ?_⟩
    show rcbrt (T a) ≠ 0
    unfold rcbrt
    refine mul_ne_zero ?_ (Real.rpow_pos_of_pos (abs_pos.2 h1) _).ne'
    rcases lt_or_gt_of_ne h1 with h | h
    · simp [sign_neg h]
    · simp [sign_pos h]

end Verif.AD
