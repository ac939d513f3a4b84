import Verif.AD.HoRevStep
import Verif.AD.HosRun
import Verif.AD.Restore

/-! `hos_reverse` over a recorded trace. -/
set_option linter.all false
namespace Verif.AD
open Elem Filter Topology ContDiff Finset

variable {d : Nat} {S : ℝ → RS ℝ} {H : HRS ℝ}

theorem hosRevRun_append {K : Type} [Scalar K] (k : Nat) (L : Nat → Nat → K) (a b : List (Base K)) (s : HRS K) :
    hosRevRun k L (a ++ b) s = match hosRevRun k L b s with
      | .error e => .error e
      | .ok s' => hosRevRun k L a s' := by
  induction a with
  | nil => simp only [List.nil_append]; cases hosRevRun k L b s <;> rfl
  | cons o os ih =>
    simp only [List.cons_append, hosRevRun, ih]
    cases hosRevRun k L b s <;> rfl

/-- `ceil`, `floor`, `axpy` of vectors -/
def Base.rare {K : Type} : Base K → Prop
  | .ceilOp _ _ _ | .floorOp _ _ _ | .vecAxpy _ _ _ _ _ => True
  | _ => False

/-- What holds at every operation the sweep meets: a zero flag means a zero adjoint, and `fmin` of two locations has no tie. -/
def HrevOK (d : Nat) (L : Nat → Nat → ℝ) (H : HRS ℝ) (ops : List (Base ℝ)) : Prop :=
  ∀ pre o os, ops = pre ++ o :: os → ∃ H1 H2, hosRevRun (d + 1) L os H = .ok H1 ∧ hosRevStep (d + 1) L o H1 = .ok H2 ∧ FlagOk d H1.fl H1.M ∧ ¬ o.rare ∧
    ∀ a b r w, o = .minOp a b r w → a = b ∨ H2.M (.T a) 0 ≠ H2.M (.T b) 0

theorem HrevOK.cons {L : Nat → Nat → ℝ} {H H1 H2 : HRS ℝ} {o : Base ℝ} {os : List (Base ℝ)} (h : HrevOK d L H os)
    (e1 : hosRevRun (d + 1) L os H = .ok H1) (e2 : hosRevStep (d + 1) L o H1 = .ok H2) (hf : FlagOk d H1.fl H1.M) (hr : ¬ o.rare)
    (hm : ∀ a b r w, o = .minOp a b r w → a = b ∨ H2.M (.T a) 0 ≠ H2.M (.T b) 0) : HrevOK d L H (o :: os) := by
  intro pre o' os' he
  cases pre with
  | nil => simp only [List.nil_append, List.cons.injEq] at he; obtain ⟨rfl, rfl⟩ := he; exact ⟨H1, H2, e1, e2, hf, hr, hm⟩
  | cons x pre => simp only [List.cons_append, List.cons.injEq] at he; exact h pre o' os' he.2

theorem HrevOK.nil {L : Nat → Nat → ℝ} {H : HRS ℝ} : HrevOK d L H [] := by
  intro pre o os he
  simp at he

theorem HrevOK.append {L : Nat → Nat → ℝ} {H H1 : HRS ℝ} {as bs : List (Base ℝ)} (h : HrevOK d L H bs)
    (e1 : hosRevRun (d + 1) L bs H = .ok H1) (h' : HrevOK d L H1 as) : HrevOK d L H (as ++ bs) := by
  intro pre o os he
  rcases List.append_eq_append_iff.1 he with ⟨c, hc1, hc2⟩ | ⟨c, hc1, hc2⟩
  · exact h _ _ _ hc2
  · cases c with
    | nil =>
      simp only [List.append_nil, List.nil_append] at hc1 hc2
      exact h [] o os hc2.symm
    | cons x c =>
      simp only [List.cons_append, List.cons.injEq] at hc2
      obtain ⟨rfl, rfl⟩ := hc2
      obtain ⟨H2, H3, k1, k2, k3, k4⟩ := h' pre _ _ hc1
      exact ⟨H2, H3, by rw [hosRevRun_append, e1]; exact k1, k2, k3, k4⟩

theorem smoothS_rare {o : Base ℝ} {T : Nat → ℝ} (h : smoothS .hor o T) : ¬ o.rare := by
  obtain ⟨_, _, _, _, h5⟩ := h
  obtain ⟨_, h6, _, _, h7⟩ := h5 rfl
  intro hr
  cases o <;> first | exact hr | skip
  · exact (h6 _ _ _).1 rfl
  · exact (h6 _ _ _).2 rfl
  · exact h7 _ _ _ _ _ rfl

theorem hrev_run {u : ℝ → Nat → ℝ} {L : Nat → Nat → ℝ} (hL : ∀ j, Jet d (fun t => u t j) (L j)) {c : Cfg ℝ} (hk : c.keep = true)
    {ops : List (Base ℝ)} {z zf : ZS ℝ} (hz : zosRun c ops z = .ok zf) (hA : Along (smoothS .hor) c ops z)
    (hT : ∀ o ∈ ops, o.okT ∧ ∀ a b, o = .deathNot a b → a ≤ b) (h : JetR d S H) (h1 : (S 0).T = zf.T) (h2 : (S 0).stk = zf.stk) :
    ∃ S' H', (∀ᶠ t in 𝓝 0, revRun (u t) ops (S t) = .ok (S' t)) ∧ hosRevRun (d + 1) L ops H = .ok H' ∧ JetR d S' H' ∧
      (S' 0).T = z.T ∧ (S' 0).stk = z.stk ∧ HrevOK d L H ops := by
  induction ops generalizing z with
  | nil => cases hz; exact ⟨S, H, .of_forall fun t => rfl, rfl, h, h1, h2, .nil⟩
  | cons o os ih =>
    simp only [zosRun] at hz
    split at hz
    · cases hz
    · rename_i z1 hz1
      obtain ⟨S1, H1, e1, e2, e3, e4, e5, e6⟩ := ih hz (hA.2 z1 hz1) (fun o ho => hT o (by simp [ho]))
      obtain ⟨r, g1, g2, g3⟩ := restore_step hk (u := u 0) hz1 (hT o (by simp)).1 (hT o (by simp)).2 (S1 0) e4 e5
      obtain ⟨S2, H2, k1, k2, k3⟩ := hrev_step hL e3 hA.1 hz1 e4 g1 g2
      have := k1.self_of_nhds
      rw [g1] at this
      cases this
      refine ⟨S2, H2, ?_, by simp only [hosRevRun, e2, k2], k3, g2, g3, e6.cons e2 k2 e3.fl (smoothS_rare hA.1) fun a b r w hm => ?_⟩
      rotate_left
      · subst hm
        have hs := hA.1
        by_cases hab : a = b
        · exact Or.inl hab
        · refine Or.inr ?_
          have ha := (k3.J.1 a).coef 0 (Nat.zero_le _)
          have hb := (k3.J.1 b).coef 0 (Nat.zero_le _)
          rw [tc_zero] at ha hb
          rw [← ha, ← hb, g2]
          exact hs.1.resolve_right hab
      filter_upwards [e1, k1] with t t1 t2
      simp only [revRun, t1, t2]

/-- The stock at the front of the trace. -/
theorem hrev_stock (u : ℝ → Nat → ℝ) (L : Nat → Nat → ℝ) (stock : List (Nat × List ℝ)) (h : JetR d S H) :
    ∃ S' H', (∀ t, revRun (u t) (stock.map fun p => .takeStock p.1 p.2) (S t) = .ok (S' t)) ∧
      hosRevRun (d + 1) L (stock.map fun p => .takeStock p.1 p.2) H = .ok H' ∧ JetR d S' H' ∧ (∀ t, (S' t).stk = (S t).stk) ∧
      HrevOK d L H (stock.map fun p => .takeStock p.1 p.2) := by
  induction stock with
  | nil => exact ⟨S, H, fun t => rfl, rfl, h, fun t => rfl, .nil⟩
  | cons p st ih =>
    obtain ⟨S1, H1, e1, e2, e3, e4, e5⟩ := ih
    refine ⟨_, _, fun t => by simp only [List.map_cons, revRun, e1]; rfl, by simp only [List.map_cons, hosRevRun, e2]; rfl,
      e3.zeros (List.range p.2.length) fun q => p.1 + p.2.length - 1 - q, fun t => ?_,
      e5.cons e2 rfl e3.fl id fun a b r w hm => by cases hm⟩
    rw [← e4 t]
    generalize List.range p.2.length = J
    generalize S1 t = s
    induction J generalizing s with
    | nil => rfl
    | cons q J ih => rw [List.foldl_cons, ih]; rfl

theorem jet_poly' (d : Nat) (l : Nat → ℝ) : Jet d (fun t => ∑ q ∈ range (d + 1), l q * t ^ q) l := by
  refine ((jet_poly d (l 0) fun j => l (j + 1)).fn fun t => ?_).coefs fun n hn => ?_
  · rw [Finset.sum_range_succ', add_comm]; simp
  · cases n <;> simp [hcons]

/-- The whole sweep over a well-formed trace. -/
theorem hrev_full {u : ℝ → Nat → ℝ} {L : Nat → Nat → ℝ} (hL : ∀ j, Jet d (fun t => u t j) (L j))
    {stock : List (Nat × List ℝ)} {body : List (Base ℝ)} {N n m : Nat} (hN : 0 < N)
    (hb : ∀ o ∈ body, o.okT ∧ o.bounded N) (hst : ∀ p ∈ stock, p.1 + p.2.length ≤ N)
    {c : Cfg ℝ} (hk : c.keep = true) {T0 : Nat → ℝ} (hT0 : ∀ l, N ≤ l → T0 l = 0) {zf : ZS ℝ}
    (hz : zosRun c (fullTrace stock body N) (ZS.start T0) = .ok zf)
    (hA : Along (smoothS .hor) c (fullTrace stock body N) (ZS.start T0))
    {fs : List (ℝ → ℝ)} {st : List (Nat → ℝ)} (hfs : zf.stk = fs.map fun f => f 0) (hj : List.Forall₂ (Jet d) fs st) :
    ∃ S' R, (∀ᶠ t in 𝓝 0, revRun (u t) (fullTrace stock body N) (RS.init n m (fs.map fun f => f t)) = .ok (S' t)) ∧
      hosRevRun (d + 1) L (fullTrace stock body N) (HRS.init n m st) = .ok R ∧ JetR d S' R ∧ (S' 0).stk = [] ∧
      HrevOK d L (HRS.init n m st) (fullTrace stock body N) := by
  have hinit : JetR d (fun t => RS.init n m (fs.map fun f => f t)) (HRS.init n m st) := by
    refine ⟨⟨fun l => ?_, fun l => ?_⟩, fun l => ⟨le_refl _, fun _ i _ => rfl⟩, fun t => rfl, fun t => rfl, ⟨fs, fun t => rfl, hj⟩, fun i => ?_⟩
    all_goals exact Jet.zero'
  unfold fullTrace at hz hA ⊢
  rw [zosRun_append] at hz
  split at hz
  · cases hz
  · rename_i z2 hz2
    rw [zosRun_append] at hz2
    split at hz2
    · cases hz2
    · rename_i z1 hz1
      simp only [zosRun] at hz
      split at hz
      · cases hz
      · rename_i z3 hz3
        cases hz
        have hb1 : ∀ l, N ≤ l → z1.T l = 0 := by
          intro l hl
          rw [zosRun_beyond (N := N) (fun o ho => ?_) hz1 l hl]
          · exact hT0 l hl
          · obtain ⟨p, hp, rfl⟩ := List.mem_map.1 ho
            exact hst p hp
        have hb2 : ∀ l, N ≤ l → z2.T l = 0 := fun l hl => by
          rw [zosRun_beyond (fun o ho => (hb o ho).2) hz2 l hl, hb1 l hl]
        obtain ⟨r1, g1, g2, g3⟩ := restore_death hN hk (u := u 0) (n := n) (m := m) hz3 hb2
        rw [hfs] at g1
        have hd0 := hinit.zeros (List.range (N - 1 + 1 - 0)) fun q => 0 + q
        obtain ⟨S1, H1, e1, e2, e3⟩ := hd0.pops (List.range (N - 1 + 1 - 0)) (fun q => 0 + q) g1
        have hS1 : S1 0 = r1 := by
          have := (e1 0).symm.trans g1
          cases this; rfl
        rw [List.append_assoc] at hA
        have hA1 : Along (smoothS .hor) c body z1 := by
          exact Along_left (Along_append hA hz1)
        obtain ⟨S2, H2, k1, k2, k3, k4, k5, k6⟩ := hrev_run hL hk hz2 hA1 (fun o ho => ⟨(hb o ho).1, fun a b hab => by
          have := (hb o ho).2; rw [hab] at this; exact this.1⟩) e3 (by rw [hS1, g2]) (by rw [hS1, g3])
        obtain ⟨S3, H3, m1, m2, m3, m4, m5⟩ := hrev_stock u L stock k3
        have hd1 : hosRevRun (d + 1) L [.deathNot 0 (N - 1)] (HRS.init n m st) = .ok H1 := by
          simp only [hosRevRun]; exact e2
        refine ⟨S3, H3, ?_, ?_, m3, ?_, ?_⟩
        rotate_left 3
        · rw [List.append_assoc]
          have q1 : HrevOK d L (HRS.init n m st) [.deathNot 0 (N - 1)] :=
            HrevOK.cons .nil rfl e2 hinit.fl id fun a b r w hm => by cases hm
          have q2 := q1.append hd1 k6
          exact q2.append (by rw [hosRevRun_append, hd1]; exact k2) m5
        · filter_upwards [k1] with t t1
          rw [List.append_assoc, revRun_append, revRun_append]
          have : revRun (u t) [.deathNot 0 (N - 1)] (RS.init n m (fs.map fun f => f t)) = .ok (S1 t) := by
            simp only [revRun]; exact e1 t
          simp only [this, t1, m1]
        · rw [List.append_assoc, hosRevRun_append, hosRevRun_append]
          have : hosRevRun (d + 1) L [.deathNot 0 (N - 1)] (HRS.init n m st) = .ok H1 := by
            simp only [hosRevRun]; exact e2
          simp only [this, k2, m2]
        · rw [m4, k5]
          have : ∀ (stock : List (Nat × List ℝ)) (z z' : ZS ℝ), zosRun c (stock.map fun p => .takeStock p.1 p.2) z = .ok z' → z'.stk = z.stk := by
            intro stock
            induction stock with
            | nil => intro z z' h; cases h; rfl
            | cons p st ih =>
              intro z z' h
              simp only [List.map_cons, zosRun, zosStep] at h
              rw [ih _ _ h]
              generalize p.2 = vs
              generalize p.1 = q
              clear h
              induction vs generalizing z q with
              | nil => rfl
              | cons x vs ihv => rw [List.foldl_cons]; exact ihv _ _
          rw [this _ _ _ hz1]; rfl

variable {s s' : Rec ℝ} {stock : List (Nat × List ℝ)} {cfg : RCfg ℝ}

theorem WfFrom.mem {N : Nat} {Z : Set Nat} {ops : List (Base ℝ)} (h : WfFrom N Z ops) : ∀ o ∈ ops, o.okT ∧ o.bounded N := by
  induction ops generalizing Z with
  | nil => simp
  | cons o os ih =>
    intro o' ho
    obtain ⟨h1, h2, _, _, h5⟩ := h
    rcases List.mem_cons.1 ho with rfl | ho
    · exact ⟨h2, h1⟩
    · exact ih h5 o' ho

theorem forall₂_trans' {α β γ : Type} {P : α → β → Prop} {Q : γ → β → Prop} {R : α → γ → Prop} {as : List α} {bs : List β} {cs : List γ}
    (h1 : List.Forall₂ P as bs) (h2 : List.Forall₂ Q cs bs) (h : ∀ a b c, P a b → Q c b → R a c) : List.Forall₂ R as cs := by
  induction h1 generalizing cs with
  | nil => cases h2; exact .nil
  | cons p _ ih => cases h2 with | cons q t => exact .cons (h _ _ _ p q) (ih t)

/-- `hos_forward` with keep, then `hos_ti_reverse` on any stack with the same coefficients up to order `d`,
along a curve. -/
theorem recorded_hrev_rows_ok (hal : ∀ k L, cfg.alloc k L ∉ L) (p : Prog ℝ) (hs : s.Start stock)
    (hrec : p.record cfg s = some s') (hdi : p.disc ⟨Set.univ, ∅⟩) (par : Nat → ℝ) {n k d : Nat} (hdk : d ≤ k)
    (ξ : ℝ → Fin n → ℝ) (hξ : ContinuousAt ξ 0) (X : Nat → Nat → ℝ)
    (hj : ∀ i, Jet k (fun t => ext (ξ t) i) (hcons (ext (ξ 0) i) (X i))) {e0 : SE ℝ}
    (hpath : p.spec (ext (ξ 0)) par s.se = some (e0, p.path cfg s)) (hn : e0.ii = n)
    (hsm : ∀ᶠ t in 𝓝 0, p.smooth .hor (ext (ξ t)) par s.se) {N : Nat} (hN : 0 < N) (hNw : s'.hw ≤ N)
    {u : ℝ → Nat → ℝ} {L : Nat → Nat → ℝ} (hL : ∀ j, Jet d (fun t => u t j) (L j)) :
    ∃ H, hosRun ⟨ext (ξ 0), X, par, k, d + 1⟩ (s'.tape N) HS.init = .ok H ∧
      ∀ st, List.Forall₂ (fun a b : Nat → ℝ => ∀ q ≤ d, a q = b q) st H.stk →
      ∃ R, hosRevRun (d + 1) L (s'.tape N) (HRS.init n e0.ys.length st) = .ok R ∧ R.stk = [] ∧
      (∀ᶠ t in 𝓝 0, ∀ j, DifferentiableAt ℝ (fun x => p.out (ext x) par s.se j) (ξ t)) ∧
      (∀ i : Fin n, Jet d (fun t => ∑ j ∈ range e0.ys.length,
        u t j * fderiv ℝ (fun x => p.out (ext x) par s.se j) (ξ t) (Pi.single i 1)) (R.Z i)) ∧
      HrevOK d L (HRS.init n e0.ys.length st) (s'.tape N) := by
  have hho : ∀ᶠ t in 𝓝 0, p.smooth .ho (ext (ξ t)) par s.se := hsm.mono fun t h => Prog.smooth_ho h
  obtain ⟨Sf, Hf, f1, f2, f3, f4, f5⟩ := recorded_jets hal p hs hrec (fun _ => 0) par (keep := d + 1) (by omega) ξ hξ X hj hpath hho N
  have hal' := recorded_along hal p hs hrec (fun _ => 0) par true ξ hξ hpath hsm N
  simp only [Nat.zero_lt_succ, decide_true] at f1
  obtain ⟨fs, q1, q2⟩ := f3.stk
  simp only [Nat.add_sub_cancel] at q2
  obtain ⟨body, hb1, hb2⟩ := recorded_wf hal p hs hdi hrec hN hNw
  have z0 := f1.self_of_nhds
  have a0 := hal'.self_of_nhds.2
  rw [hb1] at z0 a0
  refine ⟨Hf, f2, fun st hst => ?_⟩
  replace q2 : List.Forall₂ (Jet d) fs st := forall₂_trans' q2 hst fun f a b h1 h2 => h1.coefs fun q hq => (h2 q hq)
  obtain ⟨S', R, g1, g2, g3, g4, g5⟩ := hrev_full (n := n) (m := e0.ys.length) hL hN hb2.body.mem hb2.stock rfl (fun l _ => rfl) z0 a0 (q1 0) q2
  have hcnt : ∀ᶠ t in 𝓝 0, ∃ e, p.spec (ext (ξ t)) par s.se = some (e, p.path cfg s) ∧ e.ii = n ∧ e.ys.length = e0.ys.length := by
    have key : ∀ t e, p.spec (ext (ξ t)) par s.se = some (e, p.path cfg s) →
        zosRun ⟨ext (ξ t), par, true⟩ (s'.tape N) (ZS.start fun _ => 0) = .ok (Sf t) → (Sf t).ii = e.ii ∧ (Sf t).y = e.ys := by
      intro t e h1 h2
      rcases recorded_forward hal p hs hrec (fun _ => 0) ⟨ext (ξ t), par, true⟩ N with ⟨e', z', k1, k2, k3, k4⟩ | ⟨k1, k2⟩
      · rw [h2] at k2; cases k2
        rw [h1] at k1; cases k1
        exact ⟨k4, k3⟩
      · exact absurd rfl (k2 _ _ h1)
    have k0 := key 0 e0 hpath f1.self_of_nhds
    filter_upwards [hal', f1] with t t1 t2
    obtain ⟨⟨e, t3⟩, _⟩ := t1
    have kt := key t e t3 t2
    refine ⟨e, t3, ?_, ?_⟩
    · rw [← kt.1, f3.ii, ← f3.ii 0, k0.1, hn]
    · rw [← kt.2, ← k0.2]
      obtain ⟨fy, y1, _⟩ := f3.y
      simp [y1]
  have hgr : ∀ᶠ t in 𝓝 0, (∀ j, DifferentiableAt ℝ (fun x => p.out (ext x) par s.se j) (ξ t)) ∧
      ∀ i : Fin n, (S' t).bar i = ∑ j ∈ range e0.ys.length,
        u t j * fderiv ℝ (fun x => p.out (ext x) par s.se j) (ξ t) (Pi.single i 1) := by
    filter_upwards [hcnt, f1, hsm, g1] with t t1 t2 t3 t4
    obtain ⟨e, h1, h2, h3⟩ := t1
    obtain ⟨D, d1, r, r1, r2, r3⟩ := recorded_gradient hal p hs hrec hdi (fun _ => 0) par (ξ t) h1 h2
      (Prog.smooth_rev (Prog.smooth_ho t3)) hN hNw (fun l _ => rfl) t2 (u t)
    rw [h3, hb1, q1 t, t4] at r1
    cases r1
    refine ⟨fun j => (d1 j).differentiableAt, fun i => ?_⟩
    rw [r3 i, h3]
    exact Finset.sum_congr rfl fun j _ => by rw [(d1 j).fderiv]
  refine ⟨R, by rw [hb1]; exact g2, ?_, hgr.mono fun t h => h.1, fun i => ?_, by rw [hb1]; exact g5⟩
  · obtain ⟨fs', w1, w2⟩ := g3.stk
    rw [w1] at g4
    have : fs' = [] := List.map_eq_nil_iff.1 g4
    subst this
    generalize R.stk = st' at w2 ⊢
    cases w2
    rfl
  · exact (g3.bar i).congr (hgr.mono fun t h => (h.2 i).symm)

theorem recorded_hrev_rows (hal : ∀ k L, cfg.alloc k L ∉ L) (p : Prog ℝ) (hs : s.Start stock)
    (hrec : p.record cfg s = some s') (hdi : p.disc ⟨Set.univ, ∅⟩) (par : Nat → ℝ) {n k d : Nat} (hdk : d ≤ k)
    (ξ : ℝ → Fin n → ℝ) (hξ : ContinuousAt ξ 0) (X : Nat → Nat → ℝ)
    (hj : ∀ i, Jet k (fun t => ext (ξ t) i) (hcons (ext (ξ 0) i) (X i))) {e0 : SE ℝ}
    (hpath : p.spec (ext (ξ 0)) par s.se = some (e0, p.path cfg s)) (hn : e0.ii = n)
    (hsm : ∀ᶠ t in 𝓝 0, p.smooth .hor (ext (ξ t)) par s.se) {N : Nat} (hN : 0 < N) (hNw : s'.hw ≤ N)
    {u : ℝ → Nat → ℝ} {L : Nat → Nat → ℝ} (hL : ∀ j, Jet d (fun t => u t j) (L j)) :
    ∃ H, hosRun ⟨ext (ξ 0), X, par, k, d + 1⟩ (s'.tape N) HS.init = .ok H ∧
      ∀ st, List.Forall₂ (fun a b : Nat → ℝ => ∀ q ≤ d, a q = b q) st H.stk →
      ∃ R, hosRevRun (d + 1) L (s'.tape N) (HRS.init n e0.ys.length st) = .ok R ∧ R.stk = [] ∧
      (∀ᶠ t in 𝓝 0, ∀ j, DifferentiableAt ℝ (fun x => p.out (ext x) par s.se j) (ξ t)) ∧
      ∀ i : Fin n, Jet d (fun t => ∑ j ∈ range e0.ys.length,
        u t j * fderiv ℝ (fun x => p.out (ext x) par s.se j) (ξ t) (Pi.single i 1)) (R.Z i) := by
  obtain ⟨H, h1, h2⟩ := recorded_hrev_rows_ok hal p hs hrec hdi par hdk ξ hξ X hj hpath hn hsm hN hNw hL
  refine ⟨H, h1, fun st hst => ?_⟩
  obtain ⟨R, h3, h4, h5, h6, _⟩ := h2 st hst
  exact ⟨R, h3, h4, h5, h6⟩

/-- `hos_forward` with keep, then `hos_ti_reverse`, along a curve. -/
theorem recorded_hrev (hal : ∀ k L, cfg.alloc k L ∉ L) (p : Prog ℝ) (hs : s.Start stock)
    (hrec : p.record cfg s = some s') (hdi : p.disc ⟨Set.univ, ∅⟩) (par : Nat → ℝ) {n k d : Nat} (hdk : d ≤ k)
    (ξ : ℝ → Fin n → ℝ) (hξ : ContinuousAt ξ 0) (X : Nat → Nat → ℝ)
    (hj : ∀ i, Jet k (fun t => ext (ξ t) i) (hcons (ext (ξ 0) i) (X i))) {e0 : SE ℝ}
    (hpath : p.spec (ext (ξ 0)) par s.se = some (e0, p.path cfg s)) (hn : e0.ii = n)
    (hsm : ∀ᶠ t in 𝓝 0, p.smooth .hor (ext (ξ t)) par s.se) {N : Nat} (hN : 0 < N) (hNw : s'.hw ≤ N)
    {u : ℝ → Nat → ℝ} {L : Nat → Nat → ℝ} (hL : ∀ j, Jet d (fun t => u t j) (L j)) :
    ∃ H R, hosRun ⟨ext (ξ 0), X, par, k, d + 1⟩ (s'.tape N) HS.init = .ok H ∧
      hosRevRun (d + 1) L (s'.tape N) (HRS.init n e0.ys.length H.stk) = .ok R ∧ R.stk = [] ∧
      (∀ᶠ t in 𝓝 0, ∀ j, DifferentiableAt ℝ (fun x => p.out (ext x) par s.se j) (ξ t)) ∧
      ∀ i : Fin n, Jet d (fun t => ∑ j ∈ range e0.ys.length,
        u t j * fderiv ℝ (fun x => p.out (ext x) par s.se j) (ξ t) (Pi.single i 1)) (R.Z i) := by
  obtain ⟨H, h1, h2⟩ := recorded_hrev_rows hal p hs hrec hdi par hdk ξ hξ X hj hpath hn hsm hN hNw hL
  obtain ⟨R, h3⟩ := h2 H.stk (List.forall₂_same.2 fun _ _ _ _ => rfl)
  exact ⟨H, R, h1, h3⟩

end Verif.AD
