import Verif.AD.HoRevRun

/-! `fos_forward` with `keep = 2` leaves the rows `hos_reverse` of degree 1 needs. -/
set_option linter.all false
namespace Verif.AD
open Elem Filter Topology ContDiff Finset

/-- Locations whose contents an operation saves, last first (proof device; the sweeps are in `fosStep`, `hosStep`). -/
def Base.saved {K : Type} : Base K → List Nat
  | .cmp _ _ | .assignDep _ | .eqPlusProd _ _ _ | .eqMinProd _ _ _ | .takeStock _ _ => []
  | .assignA _ r | .assignD r _ | .assignP _ r | .assignD0 r | .assignD1 r | .assignInd r | .eqPlusD r _ | .eqPlusA _ r | .eqMinD r _
  | .eqMinA _ r | .eqMultD r _ | .eqMultA _ r | .incrA r | .decrA r | .plusAA _ _ r | .plusDA _ r _ | .minAA _ _ r | .minDA _ r _
  | .multAA _ _ r | .multDA _ r _ | .divAA _ _ r | .divDA _ r _ | .posSign _ r | .negSign _ r | .expOp _ r | .quad _ _ _ r
  | .logOp _ r | .powOp _ r _ | .sqrtOp _ r | .cbrtOp _ r | .genQuad _ _ r _ _ | .minOp _ _ r _ | .absVal _ r _ | .ceilOp _ r _
  | .floorOp _ r _ | .condAssign _ _ _ r _ | .condEqAssign _ _ _ r _ | .condAssignS _ _ r _ | .condEqAssignS _ _ r _ | .setRef r _
  | .vecDot _ _ _ r => [r]
  | .sinOp _ b r | .cosOp _ b r => [r, b]
  | .deathNot a b => ((List.range (b - a + 1)).map fun q => b - q).reverse
  | .vecCopy _ _ _ | .vecAxpy _ _ _ _ _ => []

variable {K : Type} [Scalar K]

def Base.noVec (o : Base K) : Prop := (∀ a n r, o ≠ .vecCopy a n r) ∧ (∀ a b n r, o ≠ .vecDot a b n r) ∧ ∀ a a1 a2 n r, o ≠ .vecAxpy a a1 a2 n r

theorem FS.dec_rows (s : FS K) (b : Bool) (n : Int) : (s.dec b n).rows = s.rows := rfl

theorem fos_rows {c : Cfg K} (hk : c.keep = true) {v : Nat → K} {o : Base K} (hv : o.noVec) {s s' : FS K} (h : fosStep c v o s = .ok s') :
    s'.rows = (o.saved.map fun l i => if i = 0 then s.T l else s.dT l) ++ s.rows := by
  cases o
  case vecCopy a n r => exact absurd rfl (hv.1 a n r)
  case vecDot a b n r => exact absurd rfl (hv.2.1 a b n r)
  case vecAxpy a a1 a2 n r => exact absurd rfl (hv.2.2 a a1 a2 n r)
  case takeStock r vs =>
    simp only [fosStep, Except.ok.injEq] at h
    subst h
    have : ∀ (vs : List K) (r : Nat) (s : FS K), (vs.foldl (fun (p : Nat × FS K) k => (p.1 + 1, (p.2.set p.1 k).setD p.1 0)) (r, s)).2.rows = s.rows := by
      intro vs
      induction vs with
      | nil => intro r s; rfl
      | cons x vs ih => intro r s; rw [List.foldl_cons, ih]; rfl
    exact this vs r s
  case deathNot a b =>
    simp only [fosStep, Except.ok.injEq] at h
    subst h
    rw [push_fold hk]
    simp [Base.saved, Function.comp_def]
  all_goals
    simp only [fosStep] at h
    try split at h
    all_goals try split at h
    all_goals try split at h
    all_goals first
      | cases h; done
      | (injection h with h
         rw [← h]
         simp only [FS.push, FS.set, FS.setD, FS.dec, hk, if_true, Base.saved, List.map_cons, List.map_nil, List.nil_append, List.cons_append, apply_ite FS.rows, ite_self])

theorem forUp_pres {α β : Type} {P : α → β} {n : Nat} {f : Nat → α → α} {s : α} (h : ∀ i s, P (f i s) = P s) : P (forUp n f s) = P s := by
  unfold forUp
  generalize List.range n = L
  induction L generalizing s with
  | nil => rfl
  | cons x L ih => rw [List.foldl_cons, ih, h]

theorem forDown_pres {α β : Type} {P : α → β} {n : Nat} {f : Nat → α → α} {s : α} (h : ∀ i s, P (f i s) = P s) : P (forDown n f s) = P s := by
  unfold forDown
  generalize List.range n = L
  induction L generalizing s with
  | nil => rfl
  | cons x L ih => rw [List.foldl_cons, ih, h]

theorem HS.setC_stk (s : HS K) (r i : Nat) (v : K) : (s.setC r i v).stk = s.stk := rfl
theorem HS.setZ_stk (s : HS K) (i : Nat) (v : K) : (s.setZ i v).stk = s.stk := rfl
theorem HS.set_stk (s : HS K) (i : Nat) (v : K) : (s.set i v).stk = s.stk := rfl
theorem HS.dec_stk (s : HS K) (b : Bool) (n : Int) : (s.dec b n).stk = s.stk := rfl

theorem forUp_stk {n : Nat} {f : Nat → HS K → HS K} {s : HS K} (h : ∀ i s, (f i s).stk = s.stk) : (forUp n f s).stk = s.stk := forUp_pres (P := HS.stk) h
theorem forDown_stk {n : Nat} {f : Nat → HS K → HS K} {s : HS K} (h : ∀ i s, (f i s).stk = s.stk) : (forDown n f s).stk = s.stk := forDown_pres (P := HS.stk) h
theorem forUp_stk1 {γ : Type} {n : Nat} {f : Nat → HS K × γ → HS K × γ} {s : HS K × γ} (h : ∀ i s, (f i s).1.stk = s.1.stk) : (forUp n f s).1.stk = s.1.stk :=
  forUp_pres (P := fun s : HS K × γ => HS.stk s.1) h

theorem copyRow_stk (k a r : Nat) (s : HS K) : (copyRow k a r s).stk = s.stk := forUp_stk fun i s => rfl
theorem fillRow_stk (k r : Nat) (v : K) (s : HS K) : (fillRow k r v s).stk = s.stk := forUp_stk fun i s => rfl
theorem quadLoop_stk (k a b r : Nat) (s : HS K) : (quadLoop k a b r s).stk = s.stk := by
  refine forUp_stk fun i s => ?_
  refine (HS.setC_stk _ _ _ _).trans ?_
  refine (forUp_stk fun j s => ?_).trans rfl
  rfl
theorem quadHO_stk (q : Quad) (k a b r : Nat) (s : HS K) : (quadHO q k a b r s).stk = s.stk := by
  cases q <;> simp only [quadHO] <;> (try split_ifs) <;> first | exact quadLoop_stk _ _ _ _ _ | rfl | exact (forUp_stk fun j s => rfl)
theorem powZeroLoop_stk (k r : Nat) (v : K) (s : HS K) : (powZeroLoop k r v s).stk = s.stk := by
  refine forUp_stk1 fun i p => ?_
  dsimp only
  split_ifs <;> rfl

/-- The row of `keep` coefficients saved for a location. -/
def HS.kept (c : HCfg K) (s : HS K) (l : Nat) : Nat → K := fun n => if n < c.keep then s.row l n else 0

theorem hos_rows {c : HCfg K} (hk : 0 < c.keep) {o : Base K} (hv : o.noVec) {s s' : HS K} (h : hosStep c o s = .ok s') :
    s'.stk = (o.saved.map fun l => s.kept c l) ++ s.stk := by
  cases o
  case vecCopy a n r => exact absurd rfl (hv.1 a n r)
  case vecDot a b n r => exact absurd rfl (hv.2.1 a b n r)
  case vecAxpy a a1 a2 n r => exact absurd rfl (hv.2.2 a a1 a2 n r)
  case takeStock r vs =>
    simp only [hosStep, Except.ok.injEq] at h
    subst h
    have : ∀ (vs : List K) (r : Nat) (s : HS K), (vs.foldl (fun (p : Nat × HS K) v => (p.1 + 1, fillRow c.k p.1 0 (p.2.set p.1 v))) (r, s)).2.stk = s.stk := by
      intro vs
      induction vs with
      | nil => intro r s; rfl
      | cons x vs ih => intro r s; rw [List.foldl_cons, ih, fillRow_stk]; rfl
    exact this vs r s
  case deathNot a b =>
    simp only [hosStep, Except.ok.injEq] at h
    subst h
    have : ∀ (J : List Nat) (s : HS K), J.foldl (fun s q => s.push c (b - q)) s = { s with stk := (J.map fun q => s.kept c (b - q)).reverse ++ s.stk } := by
      intro J
      induction J with
      | nil => intro s; rfl
      | cons x J ih =>
        intro s
        rw [List.foldl_cons, ih]
        simp [HS.push, hk, HS.kept, HS.row]
        congr 1
    simp only [forUp]
    rw [this]
    simp [Base.saved, Function.comp_def]
  all_goals
    simp only [hosStep] at h
    try split at h
    all_goals try split at h
    all_goals try split at h
    all_goals first
      | cases h; done
      | (injection h with h
         rw [← h]
         repeat' first
           | rfl
           | (simp only [HS.push, hk, if_true]; rfl)
           | refine (forUp_stk fun i s => ?_).trans ?_
           | refine (forDown_stk fun i s => ?_).trans ?_
           | refine (forUp_stk1 fun i s => ?_).trans ?_
           | refine (copyRow_stk _ _ _ _).trans ?_
           | refine (fillRow_stk _ _ _ _).trans ?_
           | refine (quadLoop_stk _ _ _ _ _).trans ?_
           | refine (quadHO_stk _ _ _ _ _ _).trans ?_
           | refine (powZeroLoop_stk _ _ _ _).trans ?_
           | refine (HS.set_stk _ _ _).trans ?_
           | refine (HS.setC_stk _ _ _ _).trans ?_
           | refine (HS.setZ_stk _ _ _).trans ?_
           | refine (HS.dec_stk _ _ _).trans ?_
           | (split; skip))

theorem tc_one (f : ℝ → ℝ) : tc f 1 = deriv f 0 := by simp [tc, iteratedDeriv_one]

/-- Rows with the same first two entries. -/
def Row2 (r h : Nat → ℝ) : Prop := ∀ i ≤ 1, r i = h i

/-- `fos_forward` and `hos_forward` of degree 1 along a curve, both keeping two coefficients. -/
structure Fos2 (c : HCfg ℝ) (S1 S2 : ℝ → ZS ℝ) (F : ℝ → FS ℝ) (H : HS ℝ) (i m : Nat) : Prop where
  lin : Lin (E := ℝ) 0 S1 F i m
  jet : JetS c S2 H
  eq : S1 =ᶠ[𝓝 0] S2
  rows : List.Forall₂ Row2 (F 1).rows H.stk

theorem Fos2.same {c : HCfg ℝ} {S1 S2 : ℝ → ZS ℝ} {F : ℝ → FS ℝ} {H : HS ℝ} {i m : Nat} (hc : c.k = 1) (h : Fos2 c S1 S2 F H i m) (l : Nat) :
    (F 1).T l = H.T l ∧ (F 1).dT l = H.D l 0 := by
  have e0 := h.eq.self_of_nhds
  constructor
  · rw [h.lin.T0, e0, h.jet.T]
  · obtain ⟨D, d1, d2⟩ := h.lin.der l
    have d3 : D 1 = (F 1).dT l := d2 1
    rw [← d3, h.jet.D l (by omega), tc_one]
    have e1 : (fun t => (S2 t).T l) =ᶠ[𝓝 0] fun t => (S1 t).T l := h.eq.mono fun t ht => by simp only [ht]
    rw [e1.deriv_eq]
    exact d1.hasDerivAt.deriv.symm

theorem fos2_run {c : HCfg ℝ} {zc : ℝ → Cfg ℝ} (hc : c.k = 1) (hkp : c.keep = 2) (hk : ∀ t, (zc t).keep = true)
    (hpar : ∀ t, (zc t).par = c.par) (hx : ∀ i, Jet 1 (fun t => (zc t).x i) (hcons (c.x i) (c.X i)))
    {ops : List (Base ℝ)} {S1 S2 : ℝ → ZS ℝ} {F : ℝ → FS ℝ} {H : HS ℝ} {i m : Nat} (h : Fos2 c S1 S2 F H i m)
    (hs : ∀ᶠ t in 𝓝 0, Along (smoothS .hor) (zc t) ops (S2 t)) (hok : ∃ z, zosRun (zc 0) ops (S2 0) = .ok z) :
    ∃ S1' S2' F' H' i' m', fosRun (zc 0) (fun i => 1 * c.X i 0) ops (F 1) = .ok (F' 1) ∧ hosRun c ops H = .ok H' ∧ Fos2 c S1' S2' F' H' i' m' ∧
      (∀ᶠ t in 𝓝 0, zosRun (zc t) ops (S2 t) = .ok (S2' t)) := by
  induction ops generalizing S1 S2 F H i m with
  | nil => exact ⟨S1, S2, F, H, i, m, rfl, rfl, h, .of_forall fun t => rfl⟩
  | cons o os ih =>
    obtain ⟨z, hz⟩ := hok
    simp only [zosRun] at hz
    split at hz
    · cases hz
    · rename_i z1 hz1
      have e0 := h.eq.self_of_nhds
      have hs0 := hs.self_of_nhds.1
      obtain ⟨S2', H', f1, f2, f3⟩ := jet_step (c := c) (zc := zc) (by omega) (fun t => by rw [hk t, hkp]; rfl) hpar (by rw [hc]; exact hx) h.jet
        (hs.mono fun t ht => smoothS_ho ht.1) ⟨z1, hz1⟩
      obtain ⟨S1', F', g1, g2, g3⟩ := lin_step (e0 := (0:ℝ)) (c := zc) (v := fun w i => w * c.X i 0) (fun t => by rw [hpar, hpar]) (fun j => by
          have hj := hx j
          have hd : DifferentiableAt ℝ (fun t => (zc t).x j) 0 := hj.smooth.differentiableAt (by simp)
          have h1 := hj.coef 1 (le_refl _)
          refine ⟨(ContinuousLinearMap.smulRight (1 : ℝ →L[ℝ] ℝ) (c.X j 0)), ?_, fun w => by simp⟩
          have := hd.hasDerivAt
          rw [← tc_one] at this
          rw [show tc (fun t => (zc t).x j) 1 = c.X j 0 from h1] at this
          exact this.hasFDerivAt) (o := o) h.lin (by rw [e0]; exact hs0.1) (fun r k hr => absurd hr (hs0.2.2.2.1 r k)) ⟨z1, by rw [e0]; exact hz1⟩
      have hv : o.noVec := (hs0.2.2.2.2 rfl).2.2
      have hf : Fos2 c S1' S2' F' H' (i + o.nInd) (m + o.nDep) := by
        refine ⟨g3, f3, ?_, ?_⟩
        · filter_upwards [f1, g1, h.eq] with t t1 t2 t3
          rw [t3, t1] at t2
          exact (Except.ok.inj t2).symm
        · rw [fos_rows (hk 0) hv (g2 1), hos_rows (by omega) hv f2]
          refine List.rel_append ?_ h.rows
          have : ∀ L : List Nat, List.Forall₂ Row2 (L.map fun l i => if i = 0 then (F 1).T l else (F 1).dT l) (L.map fun l => H.kept c l) := by
            intro L
            induction L with
            | nil => exact .nil
            | cons x L ih =>
              refine .cons (fun q hq => ?_) ih
              have hh := h.same hc x
              interval_cases q
              · simp [HS.kept, hkp, HS.row, hh.1]
              · simp [HS.kept, hkp, HS.row, hh.2]
          exact this _
      have e4 := f1.self_of_nhds
      rw [hz1] at e4
      cases e4
      obtain ⟨S1'', S2'', F'', H'', i'', m'', k1, k2, k3, k4⟩ := ih hf (by filter_upwards [hs, f1] with t t1 t2; exact t1.2 _ t2) ⟨z, hz⟩
      refine ⟨S1'', S2'', F'', H'', i'', m'', ?_, by simp only [hosRun, f2, k2], k3, ?_⟩
      · simp only [fosRun]
        rw [g2 1]
        exact k1
      · filter_upwards [f1, k4] with t t1 t2
        simp only [zosRun, t1, t2]

end Verif.AD
