import Verif.Sparse.HessSp
import Verif.Sparse.HessStep

/-! What a sweep for the Hessian pattern has to do, operation by operation, for its result to contain all nonlinear
interactions: `D l i` says that independent `i` is in the domain of location `l`, `R i j` that `i` and `j`
are recorded as interacting. -/
set_option linter.all false
namespace Verif.Sparse
open Verif.AD Elem Filter Topology ContDiff

/-- The domains needed after an operation, `t` being the values before it. -/
noncomputable def needD (o : Base ℝ) (t : Nat → ℝ) (ii : Nat) (D : Nat → Nat → Prop) : Nat → Nat → Prop :=
  match o with
  | .assignA a r | .plusDA a r _ | .minDA a r _ | .multDA a r _ | .divDA a r _ | .posSign a r | .negSign a r | .expOp a r
  | .logOp a r | .powOp a r _ | .sqrtOp a r | .cbrtOp a r | .absVal a r _ => upd D r (D a)
  | .sinOp a _ r | .cosOp a _ r | .quad _ a _ r => upd D r (D a)
  | .assignD r _ | .assignP _ r | .assignD0 r | .assignD1 r => upd D r (fun _ => False)
  | .ceilOp _ r _ | .floorOp _ r _ => upd D r (fun _ => False)
  | .assignInd r => upd D r (fun i => i = ii)
  | .eqPlusA a r | .eqMinA a r | .eqMultA a r => upd D r (fun i => D r i ∨ D a i)
  | .plusAA a b r | .minAA a b r | .multAA a b r | .divAA a b r => upd D r (fun i => D a i ∨ D b i)
  | .eqPlusProd a b r | .eqMinProd a b r => upd D r (fun i => D r i ∨ D a i ∨ D b i)
  | .minOp a b r _ => upd D r (D (if t a > t b then b else a))
  | .condAssign a a1 a2 r _ | .condEqAssign a a1 a2 r _ => upd D r (D (if t a > 0 then a1 else a2))
  | .condAssignS a a1 r _ | .condEqAssignS a a1 r _ => upd D r (D (if t a > 0 then a1 else r))
  | _ => D

/-- The interactions to be recorded by an operation. -/
def needR (o : Base ℝ) (D : Nat → Nat → Prop) (i j : Nat) : Prop :=
  match o with
  | .eqMultA a r => (D r i ∧ D a j) ∨ (D a i ∧ D r j)
  | .multAA a b _ | .eqPlusProd a b _ | .eqMinProd a b _ => (D a i ∧ D b j) ∨ (D b i ∧ D a j)
  | .divAA a b _ => (D a i ∧ D b j) ∨ (D b i ∧ D a j) ∨ (D b i ∧ D b j)
  | .divDA a _ _ | .expOp a _ | .sinOp a _ _ | .cosOp a _ _ | .quad _ a _ _ | .logOp a _ | .powOp a _ _ | .sqrtOp a _
  | .cbrtOp a _ => D a i ∧ D a j
  | _ => False

/-- Operations covered. -/
def absOk : Base ℝ → Prop
  | .vecCopy _ _ _ | .vecDot _ _ _ _ | .vecAxpy _ _ _ _ _ | .takeStock _ _ => False
  | _ => True

/-- For the locations in `L`: derivatives only with respect to the independents in the domain, second derivatives
only for interacting pairs. -/
structure HA {n : Nat} (x0 : Fin n → ℝ) (L : Set Nat) (D : Nat → Nat → Prop) (R : Nat → Nat → Prop) (ii : Nat)
    (S : (Fin n → ℝ) → ZS ℝ) : Prop where
  cd : CD x0 S ii
  sp : ∀ a ∈ L, Sp x0 (fun x => (S x).T a) (D a) R
  y : ∃ fy : List ((Fin n → ℝ) → ℝ), (∀ x, (S x).y = fy.map (fun f => f x)) ∧ ∀ f ∈ fy, Sp x0 f (fun _ => True) R

section
variable {n : Nat} {x0 : Fin n → ℝ} {L L' : Set Nat} {D D' : Nat → Nat → Prop} {R R' : Nat → Nat → Prop} {ii : Nat}
  {S S' : (Fin n → ℝ) → ZS ℝ}

theorem HA.assign (h : HA x0 L' D R ii S) {r : Nat} {t : Nat → Prop} {val : (Fin n → ℝ) → ℝ} (hL : ∀ x ∈ L, x ≠ r → x ∈ L')
    (hD : ∀ l ∈ L, ∀ i, upd D r t l i → D' l i) (hrel : ∀ i j, R i j → R' i j)
    (hsm : ContDiffAt ℝ ∞ val x0) (hv : r ∈ L → Sp x0 val t R')
    (hS : ∀ e, (S' e).T = upd (S e).T r (val e) ∧ (S' e).ii = (S e).ii ∧ (S' e).y = (S e).y) : HA x0 L D' R' ii S' := by
  obtain ⟨h1, h2, fy, h3, h4⟩ := h
  refine ⟨h1.assign hsm hS, fun a ha => ?_, fy, fun e => by rw [(hS e).2.2]; exact h3 e,
    fun f hf => (h4 f hf).mono (fun _ h => h) hrel⟩
  have hDa := hD a ha
  simp only [(hS _).1, upd_apply] at hDa ⊢
  split_ifs at hDa ⊢ with har
  · exact (hv (har ▸ ha)).mono hDa (fun _ _ h => h)
  · exact (h2 a (hL a ha har)).mono hDa hrel

theorem HA.same (h : HA x0 L' D R ii S) (hL : L ⊆ L') (hD : ∀ l ∈ L, ∀ i, D l i → D' l i) (hrel : ∀ i j, R i j → R' i j)
    (hS : ∀ e, (S' e).T = (S e).T ∧ (S' e).ii = (S e).ii ∧ (S' e).y = (S e).y) : HA x0 L D' R' ii S' := by
  obtain ⟨h1, h2, fy, h3, h4⟩ := h
  refine ⟨h1.same hS, fun a ha => ?_, fy, fun e => by rw [(hS e).2.2]; exact h3 e, fun f hf => (h4 f hf).mono (fun _ h => h) hrel⟩
  simp only [(hS _).1]; exact (h2 a (hL ha)).mono (hD a ha) hrel

theorem hessA_step {c : (Fin n → ℝ) → Cfg ℝ} (hpar : ∀ e, (c e).par = (c x0).par)
    (hx : ∀ k R, Sp x0 (fun e => (c e).x k) (· = k) R) {o : Base ℝ} (hok : absOk o) (hz : ∀ l ∈ o.zeroAdj, l ∉ L)
    (h : HA x0 (o.adjStep L) D R ii S) (hs : smoothS .ho o (S x0).T) (hokz : ∃ z, zosStep (c x0) o (S x0) = .ok z)
    (hD : ∀ l ∈ L, ∀ i, needD o (S x0).T ii D l i → D' l i) (m : ∀ i j, R i j → R' i j)
    (hR : ∀ i j, needR o D i j → R' i j) :
    ∃ S', (∀ᶠ e in 𝓝 x0, zosStep (c e) o (S e) = .ok (S' e)) ∧ HA x0 L D' R' (ii + o.nInd) S' := by
  have hc : ∀ (c : ℝ), ContDiffAt ℝ ∞ (fun _ : Fin n → ℝ => c) x0 := fun c => contDiffAt_const
  have sm := h.cd.sm
  have sp := h.sp
  obtain ⟨hs, hpw, hcb, hrest0, hr5⟩ := hs
  clear hr5
  -- the univariate nonlinear operations
  have unary : ∀ (a r : Nat) (φ : ℝ → ℝ) (S' : (Fin n → ℝ) → ZS ℝ) (L' : Set Nat), ContDiffAt ℝ ∞ φ ((S x0).T a) →
      (∀ x ∈ L, x ≠ r → x ∈ L') → a ∈ L' → HA x0 L' D R ii S → (∀ l ∈ L, ∀ i, upd D r (D a) l i → D' l i) →
      (∀ i j, D a i ∧ D a j → R' i j) →
      (∀ e, (S' e).T = upd (S e).T r (φ ((S e).T a)) ∧ (S' e).ii = (S e).ii ∧ (S' e).y = (S e).y) → HA x0 L D' R' ii S' := by
    intro a r φ S' L' hφ hL ha h hD hR hS
    exact h.assign hL hD m (cd_comp (sm a) hφ) (fun _ =>
      ((h.sp a ha).mono (fun _ h => h) m).comp hφ fun i j hi hj => hR i j ⟨hi, hj⟩) hS
  -- the operations that take over the domain of the argument
  have copy : ∀ (a r : Nat) (val : (Fin n → ℝ) → ℝ) (S' : (Fin n → ℝ) → ZS ℝ) (L' : Set Nat),
      (∀ x ∈ L, x ≠ r → x ∈ L') → a ∈ L' → HA x0 L' D R ii S → (∀ l ∈ L, ∀ i, upd D r (D a) l i → D' l i) → ContDiffAt ℝ ∞ val x0 →
      (Sp x0 (fun x => (S x).T a) (D a) R → Sp x0 val (D a) R) →
      (∀ e, (S' e).T = upd (S e).T r (val e) ∧ (S' e).ii = (S e).ii ∧ (S' e).y = (S e).y) → HA x0 L D' R' ii S' := by
    intro a r val S' L' hL ha h hD hsm hv hS
    exact h.assign hL hD m hsm (fun _ => (hv (h.sp a ha)).mono (fun _ h => h) m) hS
  cases o
  all_goals simp only [Base.adjStep, needD, needR, Base.nInd, Nat.add_zero] at hD hR h sp ⊢
  case assignA a r =>
    exact ⟨_, .of_forall fun e => rfl, copy a r _ _ _ (fun x hx hr => by simp [hx, hr]) (by simp) h hD (sm a) id (fun e => ⟨rfl, rfl, rfl⟩)⟩
  case posSign a r =>
    exact ⟨_, .of_forall fun e => rfl, copy a r _ _ _ (fun x hx hr => by simp [hx, hr]) (by simp) h hD (sm a) id (fun e => ⟨rfl, rfl, rfl⟩)⟩
  case negSign a r =>
    exact ⟨_, .of_forall fun e => rfl, copy a r _ _ _ (fun x hx hr => by simp [hx, hr]) (by simp) h hD (sm a).neg (fun h => h.neg) (fun e => ⟨rfl, rfl, rfl⟩)⟩
  case plusDA a r k =>
    exact ⟨_, .of_forall fun e => rfl, copy a r _ _ _ (fun x hx hr => by simp [hx, hr]) (by simp) h hD ((sm a).add (hc k)) (fun h => h.add (.const k)) (fun e => ⟨rfl, rfl, rfl⟩)⟩
  case minDA a r k =>
    exact ⟨_, .of_forall fun e => rfl, copy a r _ _ _ (fun x hx hr => by simp [hx, hr]) (by simp) h hD ((hc k).sub (sm a)) (fun h => (Sp.const k).sub h) (fun e => ⟨rfl, rfl, rfl⟩)⟩
  case multDA a r k =>
    exact ⟨_, .of_forall fun e => rfl, copy a r _ _ _ (fun x hx hr => by simp [hx, hr]) (by simp) h hD ((sm a).mul (hc k)) (fun h => h.cmul k) (fun e => ⟨rfl, rfl, rfl⟩)⟩
  case assignD r k =>
    exact ⟨_, .of_forall fun e => rfl, h.assign (fun x hx hr => by simp [hx, hr]) hD m (hc k) (fun _ => .const k) (fun e => ⟨rfl, rfl, rfl⟩)⟩
  case assignD0 r =>
    exact ⟨_, .of_forall fun e => rfl, h.assign (fun x hx hr => by simp [hx, hr]) hD m (hc 0) (fun _ => .const 0) (fun e => ⟨rfl, rfl, rfl⟩)⟩
  case assignD1 r =>
    exact ⟨_, .of_forall fun e => rfl, h.assign (fun x hx hr => by simp [hx, hr]) hD m (hc 1) (fun _ => .const 1) (fun e => ⟨rfl, rfl, rfl⟩)⟩
  case assignP p r =>
    exact ⟨_, .of_forall fun e => rfl, h.assign (fun x hx hr => by simp [hx, hr]) hD m (hc ((c x0).par p)) (fun _ => .const _)
      (fun e => ⟨by simp only [ZS.set, ZS.push, hpar], rfl, rfl⟩)⟩
  case assignInd r =>
    refine ⟨_, .of_forall fun e => rfl, ?_⟩
    have := h.assign (L := L) (D' := D') (R' := R') (S' := fun e => ((S e).push (c e) r).set r ((c e).x ii)) (r := r) (fun x hx hr => hx) hD m (hx ii R).sm
      (fun _ => hx ii _) (fun e => ⟨rfl, rfl, rfl⟩)
    obtain ⟨⟨g1, g2, gy⟩, h2, fy, h3, h4⟩ := this
    refine ⟨⟨fun l => ?_, fun e => ?_, ?_⟩, fun a ha => ?_, fy, fun e => ?_, h4⟩
    · simp only [ZS.push, ZS.set, h.cd.ii] at g1 ⊢; exact g1 l
    · simp only [ZS.push, ZS.set, h.cd.ii]
    · simp only [ZS.push, ZS.set, h.cd.ii] at gy ⊢; exact gy
    · have := h2 a ha; simp only [ZS.push, ZS.set, h.cd.ii] at this ⊢; exact this
    · simp only [ZS.push, ZS.set] at h3 ⊢; exact h3 e
  case assignDep r =>
    obtain ⟨fy, h3, h4⟩ := h.y
    refine ⟨_, .of_forall fun e => rfl, ⟨h.cd.sm, h.cd.ii, fy ++ [fun e => (S e).T r], fun e => by simp [h3], fun f hf => ?_⟩,
      fun a ha => (sp a (by simp [ha])).mono (hD a ha) m, fy ++ [fun e => (S e).T r], fun e => by simp [h3], fun f hf => ?_⟩
    · rcases List.mem_append.1 hf with hf | hf
      · exact (h4 f hf).sm
      · obtain rfl := List.mem_singleton.1 hf; exact sm r
    · rcases List.mem_append.1 hf with hf | hf
      · exact (h4 f hf).mono (fun _ h => h) m
      · obtain rfl := List.mem_singleton.1 hf; exact (sp r (by simp)).mono (fun _ _ => trivial) m
  case cmp q a =>
    have hne : (S x0).T a ≠ 0 := hs
    obtain ⟨z, hz⟩ := hokz
    simp only [zosStep] at hz
    split at hz
    case isFalse => cases hz
    case isTrue hq =>
    refine ⟨S, ?_, h.same subset_rfl hD m fun e => ⟨rfl, rfl, rfl⟩⟩
    rcases lt_or_gt_of_ne hne with hlt | hgt
    · filter_upwards [h.cd.ev_lt hlt] with e he
      have he' := he.le
      have hen := he.ne
      cases q <;> simp [Cmp.holds] at hq <;> simp [zosStep, Cmp.holds, he, he', hen] <;> linarith
    · filter_upwards [h.cd.ev_gt hgt] with e he
      have he' := he.le
      have hen := he.ne'
      cases q <;> simp [Cmp.holds] at hq <;> simp [zosStep, Cmp.holds, he, he', hen] <;> linarith
  case eqPlusD r k =>
    exact ⟨_, .of_forall fun e => rfl, h.assign (r := r) (t := D r) (fun x hx hr => hx) (by rw [upd_self]; exact hD) m ((sm r).add (hc k)) (fun hr => ((sp r hr).mono (fun _ h => h) m).add (.const k)) (fun e => ⟨rfl, rfl, rfl⟩)⟩
  case eqMinD r k =>
    exact ⟨_, .of_forall fun e => rfl, h.assign (r := r) (t := D r) (fun x hx hr => hx) (by rw [upd_self]; exact hD) m ((sm r).sub (hc k)) (fun hr => ((sp r hr).mono (fun _ h => h) m).sub (.const k)) (fun e => ⟨rfl, rfl, rfl⟩)⟩
  case eqMultD r k =>
    exact ⟨_, .of_forall fun e => rfl, h.assign (r := r) (t := D r) (fun x hx hr => hx) (by rw [upd_self]; exact hD) m ((sm r).mul (hc k)) (fun hr => ((sp r hr).mono (fun _ h => h) m).cmul k) (fun e => ⟨rfl, rfl, rfl⟩)⟩
  case incrA r =>
    exact ⟨_, .of_forall fun e => rfl, h.assign (r := r) (t := D r) (fun x hx hr => hx) (by rw [upd_self]; exact hD) m ((sm r).add (hc 1)) (fun hr => ((sp r hr).mono (fun _ h => h) m).add (.const 1)) (fun e => ⟨rfl, rfl, rfl⟩)⟩
  case decrA r =>
    exact ⟨_, .of_forall fun e => rfl, h.assign (r := r) (t := D r) (fun x hx hr => hx) (by rw [upd_self]; exact hD) m ((sm r).sub (hc 1)) (fun hr => ((sp r hr).mono (fun _ h => h) m).sub (.const 1)) (fun e => ⟨rfl, rfl, rfl⟩)⟩
  case eqPlusA a r =>
    exact ⟨_, .of_forall fun e => rfl, h.assign (fun x hx hr => by simp [hx]) hD m ((sm r).add (sm a)) (fun hr =>
      ((sp r (by simp [hr])).mono (fun i hi => by simp [hi]) m).add ((sp a (by simp)).mono (fun i hi => by simp [hi]) m)) (fun e => ⟨rfl, rfl, rfl⟩)⟩
  case eqMinA a r =>
    exact ⟨_, .of_forall fun e => rfl, h.assign (fun x hx hr => by simp [hx]) hD m ((sm r).sub (sm a)) (fun hr =>
      ((sp r (by simp [hr])).mono (fun i hi => by simp [hi]) m).sub ((sp a (by simp)).mono (fun i hi => by simp [hi]) m)) (fun e => ⟨rfl, rfl, rfl⟩)⟩
  case plusAA a b r =>
    exact ⟨_, .of_forall fun e => rfl, h.assign (fun x hx hr => by simp [hx, hr]) hD m ((sm a).add (sm b)) (fun hr =>
      ((sp a (by simp)).mono (fun i hi => by simp [hi]) m).add ((sp b (by simp)).mono (fun i hi => by simp [hi]) m)) (fun e => ⟨rfl, rfl, rfl⟩)⟩
  case minAA a b r =>
    exact ⟨_, .of_forall fun e => rfl, h.assign (fun x hx hr => by simp [hx, hr]) hD m ((sm a).sub (sm b)) (fun hr =>
      ((sp a (by simp)).mono (fun i hi => by simp [hi]) m).sub ((sp b (by simp)).mono (fun i hi => by simp [hi]) m)) (fun e => ⟨rfl, rfl, rfl⟩)⟩
  case eqMultA a r =>
    exact ⟨_, .of_forall fun e => rfl, h.assign (fun x hx hr => by simp [hx]) hD m ((sm r).mul (sm a)) (fun hr =>
      (((sp r (by simp [hr])).mono (fun i hi => hi) m).mul ((sp a (by simp)).mono (fun i hi => hi) m)
        (fun i j hi hj => hR i j (.inl ⟨hi, hj⟩)) (fun i j hi hj => hR i j (.inr ⟨hi, hj⟩))).mono
        (fun i hi => hi) (fun _ _ h => h)) (fun e => ⟨rfl, rfl, rfl⟩)⟩
  case multAA a b r =>
    exact ⟨_, .of_forall fun e => rfl, h.assign (fun x hx hr => by simp [hx, hr]) hD m ((sm a).mul (sm b)) (fun hr =>
      (((sp a (by simp)).mono (fun i hi => hi) m).mul ((sp b (by simp)).mono (fun i hi => hi) m)
        (fun i j hi hj => hR i j (.inl ⟨hi, hj⟩)) (fun i j hi hj => hR i j (.inr ⟨hi, hj⟩))).mono
        (fun i hi => hi) (fun _ _ h => h)) (fun e => ⟨rfl, rfl, rfl⟩)⟩
  case divAA a b r =>
    exact ⟨_, .of_forall fun e => rfl, h.assign (fun x hx hr => by simp [hx, hr]) hD m ((sm a).div (sm b) hs) (fun hr =>
      (((sp a (by simp)).mono (fun i hi => hi) m).div ((sp b (by simp)).mono (fun i hi => hi) m) hs
        (fun i j hi hj => hR i j (.inl ⟨hi, hj⟩)) (fun i j hi hj => hR i j (.inr (.inl ⟨hi, hj⟩)))
        (fun i j hi hj => hR i j (.inr (.inr ⟨hi, hj⟩)))).mono
        (fun i hi => hi) (fun _ _ h => h)) (fun e => ⟨rfl, rfl, rfl⟩)⟩
  case eqPlusProd a b r =>
    exact ⟨_, .of_forall fun e => rfl, h.assign (fun x hx hr => by simp [hx]) hD m ((sm r).add ((sm a).mul (sm b))) (fun hr =>
      ((sp r (by simp [hr])).mono (fun i hi => by simp [hi]) m).add
      ((((sp a (by simp)).mono (fun i hi => hi) m).mul ((sp b (by simp)).mono (fun i hi => hi) m)
        (fun i j hi hj => hR i j (.inl ⟨hi, hj⟩)) (fun i j hi hj => hR i j (.inr ⟨hi, hj⟩))).mono
        (fun i hi => .inr hi) (fun _ _ h => h))) (fun e => ⟨rfl, rfl, rfl⟩)⟩
  case eqMinProd a b r =>
    exact ⟨_, .of_forall fun e => rfl, h.assign (fun x hx hr => by simp [hx]) hD m ((sm r).sub ((sm a).mul (sm b))) (fun hr =>
      ((sp r (by simp [hr])).mono (fun i hi => by simp [hi]) m).sub
      ((((sp a (by simp)).mono (fun i hi => hi) m).mul ((sp b (by simp)).mono (fun i hi => hi) m)
        (fun i j hi hj => hR i j (.inl ⟨hi, hj⟩)) (fun i j hi hj => hR i j (.inr ⟨hi, hj⟩))).mono
        (fun i hi => .inr hi) (fun _ _ h => h))) (fun e => ⟨rfl, rfl, rfl⟩)⟩
  case expOp a r =>
    exact ⟨_, .of_forall fun e => rfl, unary a r Real.exp _ _ Real.contDiff_exp.contDiffAt (fun x hx hr => by simp [hx, hr]) (by simp) h hD hR (fun e => ⟨rfl, rfl, rfl⟩)⟩
  case divDA a r k =>
    exact ⟨_, .of_forall fun e => rfl, unary a r (fun y => k / y) _ _ (contDiffAt_const.div contDiffAt_id hs) (fun x hx hr => by simp [hx, hr]) (by simp) h hD hR (fun e => ⟨rfl, rfl, rfl⟩)⟩
  case logOp a r =>
    have hs : 0 < (S x0).T a := hs
    exact ⟨_, .of_forall fun e => rfl, unary a r Real.log _ _ (Real.contDiffAt_log.2 hs.ne') (fun x hx hr => by simp [hx, hr]) (by simp) h hD hR (fun e => ⟨rfl, rfl, rfl⟩)⟩
  case sqrtOp a r =>
    have hs : 0 < (S x0).T a := hs
    exact ⟨_, .of_forall fun e => rfl, unary a r Real.sqrt _ _ (contDiffAt_id.sqrt hs.ne') (fun x hx hr => by simp [hx, hr]) (by simp) h hD hR (fun e => ⟨rfl, rfl, rfl⟩)⟩
  case cbrtOp a r => exact absurd rfl (hcb a r rfl).1
  case quad q a b r =>
    exact ⟨_, .of_forall fun e => rfl, unary a r q.fn _ _ (quad_smooth hs.1) (fun x hx hr => by simp [hx, hr]) (by simp) h hD hR (fun e => ⟨rfl, rfl, rfl⟩)⟩
  case powOp a r k =>
    have hne : (S x0).T a ≠ 0 := by
      rcases hs with h1 | h1 | h1
      · exact h1.ne'
      · exact h1.1.ne
      · exact (hpw a r k rfl h1.1).elim
    exact ⟨_, .of_forall fun e => rfl, unary a r (fun y => y ^ k) _ _ (Real.contDiffAt_rpow_const_of_ne hne) (fun x hx hr => by simp [hx, hr]) (by simp) h hD hR (fun e => ⟨rfl, rfl, rfl⟩)⟩
  case sinOp a b r =>
    obtain ⟨hab, hbr⟩ := hs
    refine ⟨_, .of_forall fun e => rfl, ?_⟩
    have hb : ∀ x ∈ L, x ≠ b := fun x hx hh => hz b (by simp [Base.zeroAdj]) (hh ▸ hx)
    have g := unary a r Real.sin (fun e => (S e).set r (Real.sin ((S e).T a))) _ Real.contDiff_sin.contDiffAt (fun x hx hr => by simp [hx, hr]) (by simp) h hD hR (fun e => ⟨rfl, rfl, rfl⟩)
    have h1 := h.cd.assign (r := b) (S' := fun e => ((((S e).push (c e) b).push (c e) r).set b (Real.cos ((S e).T a)))) (sm a).cos (fun e => ⟨rfl, rfl, rfl⟩)
    refine ⟨?_, fun x hx => ?_, g.y⟩
    · refine h1.assign (r := r) (sm a).sin (fun e => ⟨?_, rfl, rfl⟩)
      simp only [ZS.set, ZS.push, upd_ne _ _ hab]; rfl
    · refine (g.sp x hx).congr (.of_forall fun e => ?_)
      simp only [ZS.set, ZS.push, upd_apply, hb x hx, hab, if_false]
      rfl
  case cosOp a b r =>
    obtain ⟨hab, hbr⟩ := hs
    refine ⟨_, .of_forall fun e => rfl, ?_⟩
    have hb : ∀ x ∈ L, x ≠ b := fun x hx hh => hz b (by simp [Base.zeroAdj]) (hh ▸ hx)
    have g := unary a r Real.cos (fun e => (S e).set r (Real.cos ((S e).T a))) _ Real.contDiff_cos.contDiffAt (fun x hx hr => by simp [hx, hr]) (by simp) h hD hR (fun e => ⟨rfl, rfl, rfl⟩)
    have h1 := h.cd.assign (r := b) (S' := fun e => ((((S e).push (c e) b).push (c e) r).set b (Real.sin ((S e).T a)))) (sm a).sin (fun e => ⟨rfl, rfl, rfl⟩)
    refine ⟨?_, fun x hx => ?_, g.y⟩
    · refine h1.assign (r := r) (sm a).cos (fun e => ⟨?_, rfl, rfl⟩)
      simp only [ZS.set, ZS.push, upd_ne _ _ hab]; rfl
    · refine (g.sp x hx).congr (.of_forall fun e => ?_)
      simp only [ZS.set, ZS.push, upd_apply, hb x hx, hab, if_false]
      rfl
  case genQuad => exact hs.elim
  case setRef r k => exact absurd rfl (hrest0 r k)
  case ceilOp a r k =>
    have e1 : (fun x => ((⌈(S x).T a⌉ : ℤ) : ℝ)) =ᶠ[𝓝 x0] fun _ => ((⌈(S x0).T a⌉ : ℤ) : ℝ) := by
      have h1 : (S x0).T a < ⌈(S x0).T a⌉ := lt_of_le_of_ne (Int.le_ceil _) (hs _)
      have h2 : (⌈(S x0).T a⌉ : ℝ) - 1 < (S x0).T a := by linarith [Int.ceil_lt_add_one ((S x0).T a)]
      filter_upwards [(sm a).continuousAt.eventually (Iio_mem_nhds h1), (sm a).continuousAt.eventually (Ioi_mem_nhds h2)] with y hy1 hy2
      have : ⌈(S y).T a⌉ = ⌈(S x0).T a⌉ := by rw [Int.ceil_eq_iff]; exact ⟨hy2, le_of_lt hy1⟩
      rw [this]
    exact ⟨_, .of_forall fun e => rfl, h.assign (t := fun _ => False) (fun x hx hr => by simp [hx, hr]) hD m (cd_comp (sm a) (ceil_smooth hs))
      (fun _ => (Sp.const _).congr e1) (fun e => ⟨rfl, rfl, rfl⟩)⟩
  case floorOp a r k =>
    have e1 : (fun x => ((⌊(S x).T a⌋ : ℤ) : ℝ)) =ᶠ[𝓝 x0] fun _ => ((⌊(S x0).T a⌋ : ℤ) : ℝ) := by
      have h1 : (⌊(S x0).T a⌋ : ℝ) < (S x0).T a := lt_of_le_of_ne (Int.floor_le _) (Ne.symm (hs _))
      have h2 : (S x0).T a < (⌊(S x0).T a⌋ : ℝ) + 1 := Int.lt_floor_add_one _
      filter_upwards [(sm a).continuousAt.eventually (Ioi_mem_nhds h1), (sm a).continuousAt.eventually (Iio_mem_nhds h2)] with y hy1 hy2
      have : ⌊(S y).T a⌋ = ⌊(S x0).T a⌋ := by rw [Int.floor_eq_iff]; exact ⟨le_of_lt hy1, hy2⟩
      rw [this]
    exact ⟨_, .of_forall fun e => rfl, h.assign (t := fun _ => False) (fun x hx hr => by simp [hx, hr]) hD m (cd_comp (sm a) (floor_smooth hs))
      (fun _ => (Sp.const _).congr e1) (fun e => ⟨rfl, rfl, rfl⟩)⟩
  case absVal a r k =>
    have hne : (S x0).T a ≠ 0 := hs
    refine ⟨_, .of_forall fun e => rfl, copy a r (fun e => |(S e).T a|) _ _ (fun x hx hr => by simp [hx, hr]) (by simp) h hD (cd_comp (sm a) (contDiffAt_abs hne)) (fun g => ?_) (fun e => ⟨?_, ?_, ?_⟩)⟩
    · rcases lt_or_gt_of_ne hne with hlt | hgt
      · refine g.neg.congr ?_
        filter_upwards [h.cd.ev_lt hlt] with e he
        rw [abs_of_neg he]
      · refine g.congr ?_
        filter_upwards [h.cd.ev_gt hgt] with e he
        rw [abs_of_pos he]
    · split_ifs <;> rfl
    · split_ifs <;> rfl
    · split_ifs <;> rfl
  case minOp a b r k =>
    have hs : (S x0).T a ≠ (S x0).T b ∨ a = b := hs
    have fin : ∀ (q : Nat), q = a ∨ q = b → (fun e => if (S e).T a > (S e).T b then (S e).T b else (S e).T a) =ᶠ[𝓝 x0] (fun e => (S e).T q) →
        (∀ l ∈ L, ∀ i, upd D r (D q) l i → D' l i) → ∃ S', (∀ᶠ e in 𝓝 x0, zosStep (c e) (.minOp a b r k) (S e) = .ok (S' e)) ∧ HA x0 L D' R' ii S' := by
      intro q hq he hD
      have hq' : q ∈ insert a (insert b (L \ {r})) := by rcases hq with rfl | rfl <;> simp
      refine ⟨_, .of_forall fun e => rfl, h.assign (r := r) (fun x hx hr => by simp [hx, hr]) hD m
        ((sm q).congr_of_eventuallyEq he) (fun _ => ((sp q hq').mono (fun _ h => h) m).congr he) (fun e => ⟨?_, ?_, ?_⟩)⟩
      · split_ifs <;> first | rfl | (exfalso; simp only [ZS.push, ZS.dec] at *; contradiction)
      · split_ifs <;> first | rfl | (exfalso; simp only [ZS.push, ZS.dec] at *; contradiction)
      · split_ifs <;> first | rfl | (exfalso; simp only [ZS.push, ZS.dec] at *; contradiction)
    rcases hs with hne | rfl
    · rcases lt_or_gt_of_ne hne with hlt | hgt
      · rw [if_neg hlt.not_gt] at hD
        refine fin a (.inl rfl) ?_ hD
        filter_upwards [(sm a).continuousAt.eventually_lt (sm b).continuousAt hlt] with e he
        rw [if_neg he.not_gt]
      · rw [if_pos hgt] at hD
        refine fin b (.inr rfl) ?_ hD
        filter_upwards [(sm b).continuousAt.eventually_lt (sm a).continuousAt hgt] with e he
        rw [if_pos he]
    · simp only [ite_self] at hD
      exact fin a (.inl rfl) (.of_forall fun e => by simp) hD
  case condAssign a a1 a2 r k =>
    have hne : (S x0).T a ≠ 0 := hs
    rcases lt_or_gt_of_ne hne with hlt | hgt
    · simp only [gt_iff_lt, hlt.not_gt, if_false] at hD
      refine ⟨fun e => ((((S e).push (c e) r).dec (k > 0) 2).dec false 0).set r ((S e).T a2), ?_,
        copy a2 r _ _ _ (fun x hx hr => by simp [hx]) (by simp) h hD (sm a2) id (fun e => ⟨rfl, rfl, rfl⟩)⟩
      filter_upwards [h.cd.ev_lt hlt] with e he
      simp [zosStep, ZS.push, ZS.set, ZS.dec, he.not_gt, he.ne]
    · simp only [gt_iff_lt, show 0 < (S x0).T a from hgt, if_true] at hD
      refine ⟨fun e => ((((S e).push (c e) r).dec (k ≤ 0) 2)).set r ((S e).T a1), ?_,
        copy a1 r _ _ _ (fun x hx hr => by simp [hx]) (by simp) h hD (sm a1) id (fun e => ⟨rfl, rfl, rfl⟩)⟩
      filter_upwards [h.cd.ev_gt hgt] with e he
      simp [zosStep, ZS.push, ZS.set, ZS.dec, he]
  case condEqAssign a a1 a2 r k =>
    have hne : (S x0).T a ≠ 0 := hs
    rcases lt_or_gt_of_ne hne with hlt | hgt
    · simp only [gt_iff_lt, hlt.not_gt, if_false] at hD
      refine ⟨fun e => ((((S e).push (c e) r).dec (k ≥ 0) 2)).set r ((S e).T a2), ?_,
        copy a2 r _ _ _ (fun x hx hr => by simp [hx]) (by simp) h hD (sm a2) id (fun e => ⟨rfl, rfl, rfl⟩)⟩
      filter_upwards [h.cd.ev_lt hlt] with e he
      simp [zosStep, ZS.push, ZS.set, ZS.dec, he.not_ge]
    · simp only [gt_iff_lt, show 0 < (S x0).T a from hgt, if_true] at hD
      refine ⟨fun e => ((((S e).push (c e) r).dec (k < 0) 2)).set r ((S e).T a1), ?_,
        copy a1 r _ _ _ (fun x hx hr => by simp [hx]) (by simp) h hD (sm a1) id (fun e => ⟨rfl, rfl, rfl⟩)⟩
      filter_upwards [h.cd.ev_gt hgt] with e he
      simp [zosStep, ZS.push, ZS.set, ZS.dec, he.le]
  case condAssignS a a1 r k =>
    have hne : (S x0).T a ≠ 0 := hs
    rcases lt_or_gt_of_ne hne with hlt | hgt
    · simp only [gt_iff_lt, hlt.not_gt, if_false, upd_self] at hD
      refine ⟨fun e => ((S e).push (c e) r).dec false 0, ?_, h.same (fun x hx => by simp [hx]) hD m (fun e => ⟨rfl, rfl, rfl⟩)⟩
      filter_upwards [h.cd.ev_lt hlt] with e he
      simp [zosStep, ZS.push, ZS.set, ZS.dec, he.not_gt, he.ne]
    · simp only [gt_iff_lt, show 0 < (S x0).T a from hgt, if_true] at hD
      refine ⟨fun e => ((((S e).push (c e) r).dec (k ≤ 0) 2)).set r ((S e).T a1), ?_,
        copy a1 r _ _ _ (fun x hx hr => by simp [hx]) (by simp) h hD (sm a1) id (fun e => ⟨rfl, rfl, rfl⟩)⟩
      filter_upwards [h.cd.ev_gt hgt] with e he
      simp [zosStep, ZS.push, ZS.set, ZS.dec, he]
  case condEqAssignS a a1 r k =>
    have hne : (S x0).T a ≠ 0 := hs
    rcases lt_or_gt_of_ne hne with hlt | hgt
    · simp only [gt_iff_lt, hlt.not_gt, if_false, upd_self] at hD
      refine ⟨fun e => (S e).push (c e) r, ?_, h.same (fun x hx => by simp [hx]) hD m (fun e => ⟨rfl, rfl, rfl⟩)⟩
      filter_upwards [h.cd.ev_lt hlt] with e he
      simp [zosStep, ZS.push, ZS.set, ZS.dec, he.not_ge]
    · simp only [gt_iff_lt, show 0 < (S x0).T a from hgt, if_true] at hD
      refine ⟨fun e => ((((S e).push (c e) r).dec (k < 0) 2)).set r ((S e).T a1), ?_,
        copy a1 r _ _ _ (fun x hx hr => by simp [hx]) (by simp) h hD (sm a1) id (fun e => ⟨rfl, rfl, rfl⟩)⟩
      filter_upwards [h.cd.ev_gt hgt] with e he
      simp [zosStep, ZS.push, ZS.set, ZS.dec, he.le]
  case vecCopy => exact hok.elim
  case vecDot => exact hok.elim
  case vecAxpy => exact hok.elim
  case takeStock => exact hok.elim
  case deathNot a b =>
    refine ⟨_, .of_forall fun e => rfl, ?_⟩
    have : ∀ (J : List Nat) (S : (Fin n → ℝ) → ZS ℝ), HA x0 L D' R' ii S → HA x0 L D' R' ii (fun e => J.foldl (fun s q => s.push (c e) (b - q)) (S e)) := by
      intro J
      induction J with
      | nil => intro S h; exact h
      | cons q J ih => intro S h; exact ih _ (h.same subset_rfl (fun _ _ _ h => h) (fun _ _ h => h) fun e => ⟨rfl, rfl, rfl⟩)
    exact this _ _ (h.same subset_rfl hD m fun e => ⟨rfl, rfl, rfl⟩)
end
end Verif.Sparse
