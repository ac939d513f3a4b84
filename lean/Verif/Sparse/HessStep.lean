import Verif.Sparse.Hess
import Verif.Sparse.HessSp

/-! Soundness of the propagation of nonlinear interactions, operation by operation. -/
set_option linter.all false
namespace Verif.Sparse
open Verif.AD Elem Filter Topology ContDiff

/-- `j` will be listed in row `i`. -/
def NS.rel (s : NS) (i j : Nat) : Prop := ∃ t ∈ s.nonl i, j ∈ t.leaves

/-! ## Effect of the building blocks -/

theorem link_rel {t node : Tr} {s s' : NS} (h : s.link t node = .ok s') :
    s'.idx = s.idx ∧ s'.ii = s.ii ∧ s'.op = s.op ∧ ∀ i j, s'.rel i j ↔ s.rel i j ∨ (i ∈ t.leaves ∧ j ∈ node.leaves) := by
  unfold NS.link at h
  split_ifs at h
  cases h
  refine ⟨rfl, rfl, rfl, fun i j => ?_⟩
  simp only [NS.rel]
  generalize t.leaves = L
  generalize s.nonl = nl
  induction L generalizing nl with
  | nil => simp
  | cons x L ih =>
    rw [List.foldl_cons, ih]
    by_cases hx : i = x
    · subst hx
      simp only [upd_same, List.mem_cons, exists_eq_or_imp, true_or, true_and]
      constructor
      · rintro ((h | h) | h)
        exacts [.inr h, .inl h, .inr h.2]
      · rintro (h | h)
        exacts [.inl (.inr h), .inl (.inl h)]
    · simp only [upd_apply, hx, if_false, List.mem_cons, false_or]

theorem alloc_rel {M : Nat} {s s' : NS} (h : s.alloc M = .ok s') :
    s'.idx = s.idx ∧ s'.ii = s.ii ∧ s'.nonl = s.nonl ∧ s'.op = s.op + 1 := by
  unfold NS.alloc at h
  split_ifs at h
  cases h; exact ⟨rfl, rfl, rfl, rfl⟩

theorem node_spec {M r : Nat} {t : Tr} {s s' : NS} (h : s.node M r t = .ok s') :
    s'.idx = upd s.idx r t ∧ s'.ii = s.ii ∧ ∀ i j, s'.rel i j ↔ s.rel i j := by
  unfold NS.node at h
  split at h
  · cases h
  · rename_i s1 h1
    obtain ⟨a1, a2, a3, a4⟩ := alloc_rel h1
    cases h
    exact ⟨by simp [NS.point, a1], a2, fun i j => by simp only [NS.rel, NS.point, a3]⟩

theorem node2_spec {M r : Nat} {t t1 n1 t2 n2 : Tr} {s s' : NS} (h : s.node2 M r t t1 n1 t2 n2 = .ok s') :
    s'.idx = upd s.idx r t ∧ s'.ii = s.ii ∧ ∀ i j, s'.rel i j ↔ s.rel i j ∨ (i ∈ t1.leaves ∧ j ∈ n1.leaves) ∨
      (i ∈ t2.leaves ∧ j ∈ n2.leaves) := by
  unfold NS.node2 at h
  split at h
  · cases h
  · rename_i s1 h1
    split at h
    · cases h
    · rename_i s2 h2
      split at h
      · cases h
      · rename_i s3 h3
        obtain ⟨a1, a2, a3, a4⟩ := alloc_rel h1
        obtain ⟨b1, b2, _, b3⟩ := link_rel h2
        obtain ⟨c1, c2, _, c3⟩ := link_rel h3
        cases h
        refine ⟨by simp [NS.point, a1, b1, c1], by simp [NS.point, a2, b2, c2], fun i j => ?_⟩
        have : (s3.point r t).rel i j ↔ s3.rel i j := Iff.rfl
        rw [this, c3, b3]
        simp only [NS.rel, a3, or_assoc]

theorem nodeU_spec {M a r : Nat} {s s' : NS} (h : s.nodeU M a r = .ok s') :
    s'.idx = upd s.idx r (.un (s.idx a)) ∧ s'.ii = s.ii ∧
      ∀ i j, s'.rel i j ↔ s.rel i j ∨ (i ∈ (s.idx a).leaves ∧ j ∈ (s.idx a).leaves) := by
  unfold NS.nodeU at h
  split at h
  · cases h
  · rename_i s1 h1
    split at h
    · cases h
    · rename_i s2 h2
      obtain ⟨a1, a2, a3, a4⟩ := alloc_rel h1
      obtain ⟨b1, b2, _, b3⟩ := link_rel h2
      cases h
      refine ⟨by simp [NS.point, a1, b1], by simp [NS.point, a2, b2], fun i j => ?_⟩
      have : (s2.point r (.un (s1.idx a))).rel i j ↔ s2.rel i j := Iff.rfl
      rw [this, b3, a1]
      simp only [NS.rel, a3, Tr.leaves]

theorem nodeP_spec {M r : Nat} {t t1 n1 t2 n2 : Tr} {s s' : NS} (h : s.nodeP M r t1 n1 t2 n2 t = .ok s') :
    s'.idx = upd s.idx r t ∧ s'.ii = s.ii ∧ ∀ i j, s'.rel i j ↔ s.rel i j ∨ (i ∈ t1.leaves ∧ j ∈ n1.leaves) ∨
      (i ∈ t2.leaves ∧ j ∈ n2.leaves) := by
  unfold NS.nodeP at h
  split at h
  · cases h
  · rename_i s1 h1
    split at h
    · cases h
    · rename_i s2 h2
      split at h
      · cases h
      · rename_i s3 h3
        obtain ⟨a1, a2, a3, a4⟩ := alloc_rel h1
        obtain ⟨b1, b2, _, b3⟩ := link_rel h2
        obtain ⟨c1, c2, _, c3⟩ := link_rel h3
        obtain ⟨d1, d2, d3⟩ := node_spec h
        refine ⟨by rw [d1, c1, b1, a1], by rw [d2, c2, b2, a2], fun i j => ?_⟩
        rw [d3, c3, b3]
        simp only [NS.rel, a3, or_assoc]

/-! ## The invariant -/

/-- For the locations in `L`: derivatives only with respect to the independents below the node, second derivatives
only for related pairs. -/
structure HI {n : Nat} (x0 : Fin n → ℝ) (L : Set Nat) (s : NS) (S : (Fin n → ℝ) → ZS ℝ) : Prop where
  cd : CD x0 S s.ii
  sp : ∀ a ∈ L, Sp x0 (fun x => (S x).T a) (· ∈ (s.idx a).leaves) s.rel
  y : ∃ fy : List ((Fin n → ℝ) → ℝ), (∀ x, (S x).y = fy.map (fun f => f x)) ∧ ∀ f ∈ fy, Sp x0 f (fun _ => True) s.rel

section
variable {n : Nat} {x0 : Fin n → ℝ} {L L' : Set Nat} {s s' : NS} {S S' : (Fin n → ℝ) → ZS ℝ}

theorem HI.assign (h : HI x0 L' s S) {r : Nat} {t : Tr} {val : (Fin n → ℝ) → ℝ} (hL : ∀ x ∈ L, x ≠ r → x ∈ L')
    (hi : s'.ii = s.ii) (hidx : s'.idx = upd s.idx r t) (hrel : ∀ i j, s.rel i j → s'.rel i j)
    (hsm : ContDiffAt ℝ ∞ val x0) (hv : r ∈ L → Sp x0 val (· ∈ t.leaves) s'.rel)
    (hS : ∀ e, (S' e).T = upd (S e).T r (val e) ∧ (S' e).ii = (S e).ii ∧ (S' e).y = (S e).y) : HI x0 L s' S' := by
  obtain ⟨h1, h2, fy, h3, h4⟩ := h
  refine ⟨by rw [hi]; exact h1.assign hsm hS, fun a ha => ?_, fy, fun e => by rw [(hS e).2.2]; exact h3 e,
    fun f hf => (h4 f hf).mono (fun _ h => h) hrel⟩
  simp only [(hS _).1, hidx, upd_apply]
  split_ifs with har
  · exact hv (har ▸ ha)
  · exact (h2 a (hL a ha har)).mono (fun _ h => h) hrel

theorem HI.same (h : HI x0 L' s S) (hL : L ⊆ L')
    (hS : ∀ e, (S' e).T = (S e).T ∧ (S' e).ii = (S e).ii ∧ (S' e).y = (S e).y) : HI x0 L s S' := by
  obtain ⟨h1, h2, fy, h3, h4⟩ := h
  refine ⟨h1.same hS, fun a ha => ?_, fy, fun e => by rw [(hS e).2.2]; exact h3 e, h4⟩
  simp only [(hS _).1]; exact h2 a (hL ha)

/-- Operations covered; in safe mode `fmin` and the conditional assignments leave an uninitialised node. -/
def nlOk {K : Type} (T : Option (Nat → K)) : Base K → Prop
  | .minOp _ _ _ _ | .condAssign _ _ _ _ _ | .condEqAssign _ _ _ _ _ => T ≠ none
  | .condAssignS _ _ _ _ | .condEqAssignS _ _ _ _ => False
  | .vecCopy _ _ _ | .vecDot _ _ _ _ | .vecAxpy _ _ _ _ _ | .takeStock _ _ => False
  | _ => True

theorem hess_step {M : Nat} {c : (Fin n → ℝ) → Cfg ℝ} (hpar : ∀ e, (c e).par = (c x0).par)
    (hx : ∀ k R, Sp x0 (fun e => (c e).x k) (· = k) R) {o : Base ℝ} {T : Option (Nat → ℝ)}
    (hT : ∀ t, T = some t → t = (S x0).T) (hok : nlOk T o) (hz : ∀ l ∈ o.zeroAdj, l ∉ L)
    (h : HI x0 (o.adjStep L) s S) (hs : smoothS .ho o (S x0).T) (hokz : ∃ z, zosStep (c x0) o (S x0) = .ok z)
    (hn : nlStep M T o s = .ok s') :
    ∃ S', (∀ᶠ e in 𝓝 x0, zosStep (c e) o (S e) = .ok (S' e)) ∧ HI x0 L s' S' := by
  have hc : ∀ (c : ℝ), ContDiffAt ℝ ∞ (fun _ : Fin n → ℝ => c) x0 := fun c => contDiffAt_const
  have sm := h.cd.sm
  have sp := h.sp
  obtain ⟨hs, hpw, hcb, hrest0, hr5⟩ := hs
  clear hr5
  -- the univariate nonlinear operations
  have unary : ∀ (a r : Nat) (φ : ℝ → ℝ) (S' : (Fin n → ℝ) → ZS ℝ) (L' : Set Nat), ContDiffAt ℝ ∞ φ ((S x0).T a) →
      (∀ x ∈ L, x ≠ r → x ∈ L') → a ∈ L' → HI x0 L' s S → s.nodeU M a r = .ok s' →
      (∀ e, (S' e).T = upd (S e).T r (φ ((S e).T a)) ∧ (S' e).ii = (S e).ii ∧ (S' e).y = (S e).y) → HI x0 L s' S' := by
    intro a r φ S' L' hφ hL ha h hn hS
    obtain ⟨k1, k2, k3⟩ := nodeU_spec hn
    exact h.assign hL k2 k1 (fun i j hij => (k3 i j).2 (.inl hij)) (cd_comp (sm a) hφ) (fun _ =>
      ((h.sp a ha).mono (fun _ h => h) (fun i j hij => (k3 i j).2 (.inl hij))).comp hφ
        fun i j hi hj => (k3 i j).2 (.inr ⟨hi, hj⟩)) hS
  -- the operations that take over the node of the argument
  have copy : ∀ (a r : Nat) (val : (Fin n → ℝ) → ℝ) (S' : (Fin n → ℝ) → ZS ℝ) (L' : Set Nat),
      (∀ x ∈ L, x ≠ r → x ∈ L') → a ∈ L' → HI x0 L' s S → ContDiffAt ℝ ∞ val x0 →
      (Sp x0 (fun x => (S x).T a) (· ∈ (s.idx a).leaves) s.rel → Sp x0 val (· ∈ (s.idx a).leaves) s.rel) →
      (∀ e, (S' e).T = upd (S e).T r (val e) ∧ (S' e).ii = (S e).ii ∧ (S' e).y = (S e).y) → HI x0 L (s.point r (s.idx a)) S' := by
    intro a r val S' L' hL ha h hsm hv hS
    exact h.assign hL rfl rfl (fun i j hij => hij) hsm (fun _ => hv (h.sp a ha)) hS
  cases o
  all_goals simp only [nlStep, Base.adjStep] at hn h sp
  case assignA a r =>
    cases hn
    exact ⟨_, .of_forall fun e => rfl, copy a r _ _ _ (fun x hx hr => by simp [hx, hr]) (by simp) h (sm a) id (fun e => ⟨rfl, rfl, rfl⟩)⟩
  case posSign a r =>
    cases hn
    exact ⟨_, .of_forall fun e => rfl, copy a r _ _ _ (fun x hx hr => by simp [hx, hr]) (by simp) h (sm a) id (fun e => ⟨rfl, rfl, rfl⟩)⟩
  case negSign a r =>
    cases hn
    exact ⟨_, .of_forall fun e => rfl, copy a r _ _ _ (fun x hx hr => by simp [hx, hr]) (by simp) h (sm a).neg (fun h => h.neg) (fun e => ⟨rfl, rfl, rfl⟩)⟩
  case plusDA a r k =>
    cases hn
    exact ⟨_, .of_forall fun e => rfl, copy a r _ _ _ (fun x hx hr => by simp [hx, hr]) (by simp) h ((sm a).add (hc k)) (fun h => h.add (.const k)) (fun e => ⟨rfl, rfl, rfl⟩)⟩
  case minDA a r k =>
    cases hn
    exact ⟨_, .of_forall fun e => rfl, copy a r _ _ _ (fun x hx hr => by simp [hx, hr]) (by simp) h ((hc k).sub (sm a)) (fun h => (Sp.const k).sub h) (fun e => ⟨rfl, rfl, rfl⟩)⟩
  case multDA a r k =>
    cases hn
    exact ⟨_, .of_forall fun e => rfl, copy a r _ _ _ (fun x hx hr => by simp [hx, hr]) (by simp) h ((sm a).mul (hc k)) (fun h => h.cmul k) (fun e => ⟨rfl, rfl, rfl⟩)⟩
  case assignD r k =>
    obtain ⟨k1, k2, k3⟩ := node_spec hn
    exact ⟨_, .of_forall fun e => rfl, h.assign (fun x hx hr => by simp [hx, hr]) k2 k1 (fun i j => (k3 i j).2) (hc k) (fun _ => .const k) (fun e => ⟨rfl, rfl, rfl⟩)⟩
  case assignD0 r =>
    obtain ⟨k1, k2, k3⟩ := node_spec hn
    exact ⟨_, .of_forall fun e => rfl, h.assign (fun x hx hr => by simp [hx, hr]) k2 k1 (fun i j => (k3 i j).2) (hc 0) (fun _ => .const 0) (fun e => ⟨rfl, rfl, rfl⟩)⟩
  case assignD1 r =>
    obtain ⟨k1, k2, k3⟩ := node_spec hn
    exact ⟨_, .of_forall fun e => rfl, h.assign (fun x hx hr => by simp [hx, hr]) k2 k1 (fun i j => (k3 i j).2) (hc 1) (fun _ => .const 1) (fun e => ⟨rfl, rfl, rfl⟩)⟩
  case assignP p r =>
    obtain ⟨k1, k2, k3⟩ := node_spec hn
    exact ⟨_, .of_forall fun e => rfl, h.assign (fun x hx hr => by simp [hx, hr]) k2 k1 (fun i j => (k3 i j).2) (hc ((c x0).par p)) (fun _ => .const _)
      (fun e => ⟨by simp only [ZS.set, ZS.push, hpar], rfl, rfl⟩)⟩
  case assignInd r =>
    split at hn
    · cases hn
    · rename_i s1 h1
      cases hn
      obtain ⟨k1, k2, k3⟩ := node_spec h1
      refine ⟨_, .of_forall fun e => rfl, ?_⟩
      have := h.assign (s' := s1) (L := L) (S' := fun e => ((S e).push (c e) r).set r ((c e).x s.ii)) (r := r) (fun x hx hr => hx) k2 k1 (fun i j => (k3 i j).2) (hx s.ii s.rel).sm
        (fun _ => (hx s.ii _).mono (fun i hi => by simp [Tr.leaves, hi]) (fun _ _ h => h)) (fun e => ⟨rfl, rfl, rfl⟩)
      obtain ⟨⟨g1, g2, gy⟩, h2, fy, h3, h4⟩ := this
      refine ⟨⟨fun l => ?_, fun e => ?_, ?_⟩, fun a ha => ?_, fy, fun e => ?_, h4⟩
      · simp only [ZS.push, ZS.set, h.cd.ii] at g1 ⊢; exact g1 l
      · simp only [ZS.push, ZS.set, h.cd.ii, k2]
      · simp only [ZS.push, ZS.set, h.cd.ii] at gy ⊢; exact gy
      · have := h2 a ha; simp only [ZS.push, ZS.set, h.cd.ii] at this ⊢; exact this
      · simp only [ZS.push, ZS.set] at h3 ⊢; exact h3 e
  case assignDep r =>
    cases hn
    obtain ⟨fy, h3, h4⟩ := h.y
    refine ⟨_, .of_forall fun e => rfl, ⟨h.cd.sm, h.cd.ii, fy ++ [fun e => (S e).T r], fun e => by simp [h3], fun f hf => ?_⟩,
      fun a ha => sp a (by simp [ha]), fy ++ [fun e => (S e).T r], fun e => by simp [h3], fun f hf => ?_⟩
    · rcases List.mem_append.1 hf with hf | hf
      · exact (h4 f hf).sm
      · obtain rfl := List.mem_singleton.1 hf; exact sm r
    · rcases List.mem_append.1 hf with hf | hf
      · exact h4 f hf
      · obtain rfl := List.mem_singleton.1 hf; exact (sp r (by simp)).mono (fun _ _ => trivial) (fun _ _ h => h)
  case cmp q a =>
    cases hn
    have hne : (S x0).T a ≠ 0 := hs
    obtain ⟨z, hz⟩ := hokz
    simp only [zosStep] at hz
    split at hz
    case isFalse => cases hz
    case isTrue hq =>
    refine ⟨S, ?_, h⟩
    rcases lt_or_gt_of_ne hne with hlt | hgt
    · filter_upwards [h.cd.ev_lt hlt] with e he
      have he' := he.le
      have hen := he.ne
      cases q <;> simp [Cmp.holds] at hq <;> simp [zosStep, Cmp.holds, he, he', hen] <;> linarith
    · filter_upwards [h.cd.ev_gt hgt] with e he
      have he' := he.le
      have hen := he.ne'
      cases q <;> simp [Cmp.holds] at hq <;> simp [zosStep, Cmp.holds, he, he', hen] <;> linarith
  case eqPlusD r k =>
    cases hn
    exact ⟨_, .of_forall fun e => rfl, h.assign (r := r) (t := s.idx r) (fun x hx hr => hx) rfl (by rw [upd_self]) (fun i j h => h) ((sm r).add (hc k)) (fun hr => (sp r hr).add (.const k)) (fun e => ⟨rfl, rfl, rfl⟩)⟩
  case eqMinD r k =>
    cases hn
    exact ⟨_, .of_forall fun e => rfl, h.assign (r := r) (t := s.idx r) (fun x hx hr => hx) rfl (by rw [upd_self]) (fun i j h => h) ((sm r).sub (hc k)) (fun hr => (sp r hr).sub (.const k)) (fun e => ⟨rfl, rfl, rfl⟩)⟩
  case eqMultD r k =>
    cases hn
    exact ⟨_, .of_forall fun e => rfl, h.assign (r := r) (t := s.idx r) (fun x hx hr => hx) rfl (by rw [upd_self]) (fun i j h => h) ((sm r).mul (hc k)) (fun hr => (sp r hr).cmul k) (fun e => ⟨rfl, rfl, rfl⟩)⟩
  case incrA r =>
    cases hn
    exact ⟨_, .of_forall fun e => rfl, h.assign (r := r) (t := s.idx r) (fun x hx hr => hx) rfl (by rw [upd_self]) (fun i j h => h) ((sm r).add (hc 1)) (fun hr => (sp r hr).add (.const 1)) (fun e => ⟨rfl, rfl, rfl⟩)⟩
  case decrA r =>
    cases hn
    exact ⟨_, .of_forall fun e => rfl, h.assign (r := r) (t := s.idx r) (fun x hx hr => hx) rfl (by rw [upd_self]) (fun i j h => h) ((sm r).sub (hc 1)) (fun hr => (sp r hr).sub (.const 1)) (fun e => ⟨rfl, rfl, rfl⟩)⟩
  case eqPlusA a r =>
    obtain ⟨k1, k2, k3⟩ := node_spec hn
    have m : ∀ i j, s.rel i j → s'.rel i j := fun i j => (k3 i j).2
    exact ⟨_, .of_forall fun e => rfl, h.assign (fun x hx hr => by simp [hx]) k2 k1 m ((sm r).add (sm a)) (fun hr =>
      ((sp r (by simp [hr])).mono (fun i hi => by simp [Tr.leaves, hi]) m).add ((sp a (by simp)).mono (fun i hi => by simp [Tr.leaves, hi]) m)) (fun e => ⟨rfl, rfl, rfl⟩)⟩
  case eqMinA a r =>
    obtain ⟨k1, k2, k3⟩ := node_spec hn
    have m : ∀ i j, s.rel i j → s'.rel i j := fun i j => (k3 i j).2
    exact ⟨_, .of_forall fun e => rfl, h.assign (fun x hx hr => by simp [hx]) k2 k1 m ((sm r).sub (sm a)) (fun hr =>
      ((sp r (by simp [hr])).mono (fun i hi => by simp [Tr.leaves, hi]) m).sub ((sp a (by simp)).mono (fun i hi => by simp [Tr.leaves, hi]) m)) (fun e => ⟨rfl, rfl, rfl⟩)⟩
  case plusAA a b r =>
    obtain ⟨k1, k2, k3⟩ := node_spec hn
    have m : ∀ i j, s.rel i j → s'.rel i j := fun i j => (k3 i j).2
    exact ⟨_, .of_forall fun e => rfl, h.assign (fun x hx hr => by simp [hx, hr]) k2 k1 m ((sm a).add (sm b)) (fun hr =>
      ((sp a (by simp)).mono (fun i hi => by simp [Tr.leaves, hi]) m).add ((sp b (by simp)).mono (fun i hi => by simp [Tr.leaves, hi]) m)) (fun e => ⟨rfl, rfl, rfl⟩)⟩
  case minAA a b r =>
    obtain ⟨k1, k2, k3⟩ := node_spec hn
    have m : ∀ i j, s.rel i j → s'.rel i j := fun i j => (k3 i j).2
    exact ⟨_, .of_forall fun e => rfl, h.assign (fun x hx hr => by simp [hx, hr]) k2 k1 m ((sm a).sub (sm b)) (fun hr =>
      ((sp a (by simp)).mono (fun i hi => by simp [Tr.leaves, hi]) m).sub ((sp b (by simp)).mono (fun i hi => by simp [Tr.leaves, hi]) m)) (fun e => ⟨rfl, rfl, rfl⟩)⟩
  case eqMultA a r =>
    obtain ⟨k1, k2, k3⟩ := node2_spec hn
    have m : ∀ i j, s.rel i j → s'.rel i j := fun i j h => (k3 i j).2 (.inl h)
    exact ⟨_, .of_forall fun e => rfl, h.assign (fun x hx hr => by simp [hx]) k2 k1 m ((sm r).mul (sm a)) (fun hr =>
      (((sp r (by simp [hr])).mono (fun i hi => hi) m).mul ((sp a (by simp)).mono (fun i hi => hi) m)
        (fun i j hi hj => (k3 i j).2 (.inr (.inl ⟨hi, hj⟩))) (fun i j hi hj => (k3 i j).2 (.inr (.inr ⟨hi, hj⟩)))).mono
        (fun i hi => by simpa [Tr.leaves] using hi) (fun _ _ h => h)) (fun e => ⟨rfl, rfl, rfl⟩)⟩
  case multAA a b r =>
    obtain ⟨k1, k2, k3⟩ := node2_spec hn
    have m : ∀ i j, s.rel i j → s'.rel i j := fun i j h => (k3 i j).2 (.inl h)
    exact ⟨_, .of_forall fun e => rfl, h.assign (fun x hx hr => by simp [hx, hr]) k2 k1 m ((sm a).mul (sm b)) (fun hr =>
      (((sp a (by simp)).mono (fun i hi => hi) m).mul ((sp b (by simp)).mono (fun i hi => hi) m)
        (fun i j hi hj => (k3 i j).2 (.inr (.inl ⟨hi, hj⟩))) (fun i j hi hj => (k3 i j).2 (.inr (.inr ⟨hi, hj⟩)))).mono
        (fun i hi => by simpa [Tr.leaves] using hi) (fun _ _ h => h)) (fun e => ⟨rfl, rfl, rfl⟩)⟩
  case divAA a b r =>
    obtain ⟨k1, k2, k3⟩ := node2_spec hn
    have m : ∀ i j, s.rel i j → s'.rel i j := fun i j h => (k3 i j).2 (.inl h)
    exact ⟨_, .of_forall fun e => rfl, h.assign (fun x hx hr => by simp [hx, hr]) k2 k1 m ((sm a).div (sm b) hs) (fun hr =>
      (((sp a (by simp)).mono (fun i hi => hi) m).div ((sp b (by simp)).mono (fun i hi => hi) m) hs
        (fun i j hi hj => (k3 i j).2 (.inr (.inl ⟨hi, hj⟩))) (fun i j hi hj => (k3 i j).2 (.inr (.inr ⟨hi, by simp [Tr.leaves, hj]⟩)))
        (fun i j hi hj => (k3 i j).2 (.inr (.inr ⟨hi, by simp [Tr.leaves, hj]⟩)))).mono
        (fun i hi => by simpa [Tr.leaves] using hi) (fun _ _ h => h)) (fun e => ⟨rfl, rfl, rfl⟩)⟩
  case eqPlusProd a b r =>
    obtain ⟨k1, k2, k3⟩ := nodeP_spec hn
    have m : ∀ i j, s.rel i j → s'.rel i j := fun i j h => (k3 i j).2 (.inl h)
    exact ⟨_, .of_forall fun e => rfl, h.assign (fun x hx hr => by simp [hx]) k2 k1 m ((sm r).add ((sm a).mul (sm b))) (fun hr =>
      ((sp r (by simp [hr])).mono (fun i hi => by simp [Tr.leaves, hi]) m).add
      ((((sp a (by simp)).mono (fun i hi => hi) m).mul ((sp b (by simp)).mono (fun i hi => hi) m)
        (fun i j hi hj => (k3 i j).2 (.inr (.inl ⟨hi, hj⟩))) (fun i j hi hj => (k3 i j).2 (.inr (.inr ⟨hi, hj⟩)))).mono
        (fun i hi => by simp only [Tr.leaves, List.mem_append]; exact .inr hi) (fun _ _ h => h))) (fun e => ⟨rfl, rfl, rfl⟩)⟩
  case eqMinProd a b r =>
    obtain ⟨k1, k2, k3⟩ := nodeP_spec hn
    have m : ∀ i j, s.rel i j → s'.rel i j := fun i j h => (k3 i j).2 (.inl h)
    exact ⟨_, .of_forall fun e => rfl, h.assign (fun x hx hr => by simp [hx]) k2 k1 m ((sm r).sub ((sm a).mul (sm b))) (fun hr =>
      ((sp r (by simp [hr])).mono (fun i hi => by simp [Tr.leaves, hi]) m).sub
      ((((sp a (by simp)).mono (fun i hi => hi) m).mul ((sp b (by simp)).mono (fun i hi => hi) m)
        (fun i j hi hj => (k3 i j).2 (.inr (.inl ⟨hi, by simp [Tr.leaves, hj]⟩))) (fun i j hi hj => (k3 i j).2 (.inr (.inr ⟨hi, by simp [Tr.leaves, hj]⟩)))).mono
        (fun i hi => by simp only [Tr.leaves, List.mem_append]; exact .inr hi) (fun _ _ h => h))) (fun e => ⟨rfl, rfl, rfl⟩)⟩
  case expOp a r =>
    exact ⟨_, .of_forall fun e => rfl, unary a r Real.exp _ _ Real.contDiff_exp.contDiffAt (fun x hx hr => by simp [hx, hr]) (by simp) h hn (fun e => ⟨rfl, rfl, rfl⟩)⟩
  case divDA a r k =>
    exact ⟨_, .of_forall fun e => rfl, unary a r (fun y => k / y) _ _ (contDiffAt_const.div contDiffAt_id hs) (fun x hx hr => by simp [hx, hr]) (by simp) h hn (fun e => ⟨rfl, rfl, rfl⟩)⟩
  case logOp a r =>
    have hs : 0 < (S x0).T a := hs
    exact ⟨_, .of_forall fun e => rfl, unary a r Real.log _ _ (Real.contDiffAt_log.2 hs.ne') (fun x hx hr => by simp [hx, hr]) (by simp) h hn (fun e => ⟨rfl, rfl, rfl⟩)⟩
  case sqrtOp a r =>
    have hs : 0 < (S x0).T a := hs
    exact ⟨_, .of_forall fun e => rfl, unary a r Real.sqrt _ _ (contDiffAt_id.sqrt hs.ne') (fun x hx hr => by simp [hx, hr]) (by simp) h hn (fun e => ⟨rfl, rfl, rfl⟩)⟩
  case cbrtOp a r => exact absurd rfl (hcb a r rfl).1
  case quad q a b r =>
    exact ⟨_, .of_forall fun e => rfl, unary a r q.fn _ _ (quad_smooth hs.1) (fun x hx hr => by simp [hx, hr]) (by simp) h hn (fun e => ⟨rfl, rfl, rfl⟩)⟩
  case powOp a r k =>
    have hne : (S x0).T a ≠ 0 := by
      rcases hs with h1 | h1 | h1
      · exact h1.ne'
      · exact h1.1.ne
      · exact (hpw a r k rfl h1.1).elim
    exact ⟨_, .of_forall fun e => rfl, unary a r (fun y => y ^ k) _ _ (Real.contDiffAt_rpow_const_of_ne hne) (fun x hx hr => by simp [hx, hr]) (by simp) h hn (fun e => ⟨rfl, rfl, rfl⟩)⟩
  case sinOp a b r =>
    obtain ⟨hab, hbr⟩ := hs
    refine ⟨_, .of_forall fun e => rfl, ?_⟩
    have hb : ∀ x ∈ L, x ≠ b := fun x hx hh => hz b (by simp [Base.zeroAdj]) (hh ▸ hx)
    have g := unary a r Real.sin (fun e => (S e).set r (Real.sin ((S e).T a))) _ Real.contDiff_sin.contDiffAt (fun x hx hr => by simp [hx, hr]) (by simp) h hn (fun e => ⟨rfl, rfl, rfl⟩)
    have h1 := h.cd.assign (r := b) (S' := fun e => ((((S e).push (c e) b).push (c e) r).set b (Real.cos ((S e).T a)))) (sm a).cos (fun e => ⟨rfl, rfl, rfl⟩)
    refine ⟨?_, fun x hx => ?_, g.y⟩
    · rw [(nodeU_spec hn).2.1]
      refine h1.assign (r := r) (sm a).sin (fun e => ⟨?_, rfl, rfl⟩)
      simp only [ZS.set, ZS.push, upd_ne _ _ hab]; rfl
    · refine (g.sp x hx).congr (.of_forall fun e => ?_)
      simp only [ZS.set, ZS.push, upd_apply, hb x hx, hab, if_false]
      rfl
  case cosOp a b r =>
    obtain ⟨hab, hbr⟩ := hs
    refine ⟨_, .of_forall fun e => rfl, ?_⟩
    have hb : ∀ x ∈ L, x ≠ b := fun x hx hh => hz b (by simp [Base.zeroAdj]) (hh ▸ hx)
    have g := unary a r Real.cos (fun e => (S e).set r (Real.cos ((S e).T a))) _ Real.contDiff_cos.contDiffAt (fun x hx hr => by simp [hx, hr]) (by simp) h hn (fun e => ⟨rfl, rfl, rfl⟩)
    have h1 := h.cd.assign (r := b) (S' := fun e => ((((S e).push (c e) b).push (c e) r).set b (Real.sin ((S e).T a)))) (sm a).sin (fun e => ⟨rfl, rfl, rfl⟩)
    refine ⟨?_, fun x hx => ?_, g.y⟩
    · rw [(nodeU_spec hn).2.1]
      refine h1.assign (r := r) (sm a).cos (fun e => ⟨?_, rfl, rfl⟩)
      simp only [ZS.set, ZS.push, upd_ne _ _ hab]; rfl
    · refine (g.sp x hx).congr (.of_forall fun e => ?_)
      simp only [ZS.set, ZS.push, upd_apply, hb x hx, hab, if_false]
      rfl
  case genQuad => exact hs.elim
  case setRef r k =>
    cases T with
    | none => cases hn
    | some t => exact absurd rfl (hrest0 r k)
  case ceilOp a r k =>
    cases hn
    have e1 : (fun x => ((⌈(S x).T a⌉ : ℤ) : ℝ)) =ᶠ[𝓝 x0] fun _ => ((⌈(S x0).T a⌉ : ℤ) : ℝ) := by
      have h1 : (S x0).T a < ⌈(S x0).T a⌉ := lt_of_le_of_ne (Int.le_ceil _) (hs _)
      have h2 : (⌈(S x0).T a⌉ : ℝ) - 1 < (S x0).T a := by linarith [Int.ceil_lt_add_one ((S x0).T a)]
      filter_upwards [(sm a).continuousAt.eventually (Iio_mem_nhds h1), (sm a).continuousAt.eventually (Ioi_mem_nhds h2)] with y hy1 hy2
      have : ⌈(S y).T a⌉ = ⌈(S x0).T a⌉ := by rw [Int.ceil_eq_iff]; exact ⟨hy2, le_of_lt hy1⟩
      rw [this]
    exact ⟨_, .of_forall fun e => rfl, h.assign (t := s.idx a) (fun x hx hr => by simp [hx, hr]) rfl rfl (fun i j h => h) (cd_comp (sm a) (ceil_smooth hs))
      (fun _ => (Sp.const _).congr e1) (fun e => ⟨rfl, rfl, rfl⟩)⟩
  case floorOp a r k =>
    cases hn
    have e1 : (fun x => ((⌊(S x).T a⌋ : ℤ) : ℝ)) =ᶠ[𝓝 x0] fun _ => ((⌊(S x0).T a⌋ : ℤ) : ℝ) := by
      have h1 : (⌊(S x0).T a⌋ : ℝ) < (S x0).T a := lt_of_le_of_ne (Int.floor_le _) (Ne.symm (hs _))
      have h2 : (S x0).T a < (⌊(S x0).T a⌋ : ℝ) + 1 := Int.lt_floor_add_one _
      filter_upwards [(sm a).continuousAt.eventually (Ioi_mem_nhds h1), (sm a).continuousAt.eventually (Iio_mem_nhds h2)] with y hy1 hy2
      have : ⌊(S y).T a⌋ = ⌊(S x0).T a⌋ := by rw [Int.floor_eq_iff]; exact ⟨le_of_lt hy1, hy2⟩
      rw [this]
    exact ⟨_, .of_forall fun e => rfl, h.assign (t := s.idx a) (fun x hx hr => by simp [hx, hr]) rfl rfl (fun i j h => h) (cd_comp (sm a) (floor_smooth hs))
      (fun _ => (Sp.const _).congr e1) (fun e => ⟨rfl, rfl, rfl⟩)⟩
  case absVal a r k =>
    cases hn
    have hne : (S x0).T a ≠ 0 := hs
    refine ⟨_, .of_forall fun e => rfl, copy a r (fun e => |(S e).T a|) _ _ (fun x hx hr => by simp [hx, hr]) (by simp) h (cd_comp (sm a) (contDiffAt_abs hne)) (fun g => ?_) (fun e => ⟨?_, ?_, ?_⟩)⟩
    · rcases lt_or_gt_of_ne hne with hlt | hgt
      · refine g.neg.congr ?_
        filter_upwards [h.cd.ev_lt hlt] with e he
        rw [abs_of_neg he]
      · refine g.congr ?_
        filter_upwards [h.cd.ev_gt hgt] with e he
        rw [abs_of_pos he]
    · split_ifs <;> rfl
    · split_ifs <;> rfl
    · split_ifs <;> rfl
  case minOp a b r k =>
    have hs : (S x0).T a ≠ (S x0).T b ∨ a = b := hs
    cases T with
    | none => exact absurd rfl hok
    | some t =>
    have ht := hT t rfl
    subst ht
    simp only at hn
    have fin : ∀ (q : Nat) (t : Tr), q = a ∨ q = b → (fun e => if (S e).T a > (S e).T b then (S e).T b else (S e).T a) =ᶠ[𝓝 x0] (fun e => (S e).T q) →
        s.node M r t = .ok s' → (∀ i ∈ (s.idx q).leaves, i ∈ t.leaves) → ∃ S', (∀ᶠ e in 𝓝 x0, zosStep (c e) (.minOp a b r k) (S e) = .ok (S' e)) ∧ HI x0 L s' S' := by
      intro q t hq he hn ht
      obtain ⟨k1, k2, k3⟩ := node_spec hn
      have hq' : q ∈ insert a (insert b (L \ {r})) := by rcases hq with rfl | rfl <;> simp
      refine ⟨_, .of_forall fun e => rfl, h.assign (r := r) (fun x hx hr => by simp [hx, hr]) k2 k1 (fun i j => (k3 i j).2)
        ((sm q).congr_of_eventuallyEq he) (fun _ => ((sp q hq').mono ht (fun i j => (k3 i j).2)).congr he) (fun e => ⟨?_, ?_, ?_⟩)⟩
      · split_ifs <;> first | rfl | (exfalso; simp only [ZS.push, ZS.dec] at *; contradiction)
      · split_ifs <;> first | rfl | (exfalso; simp only [ZS.push, ZS.dec] at *; contradiction)
      · split_ifs <;> first | rfl | (exfalso; simp only [ZS.push, ZS.dec] at *; contradiction)
    rcases hs with hne | rfl
    · rcases lt_or_gt_of_ne hne with hlt | hgt
      · rw [if_pos hlt] at hn
        refine fin a _ (.inl rfl) ?_ hn (fun i hi => hi)
        filter_upwards [(sm a).continuousAt.eventually_lt (sm b).continuousAt hlt] with e he
        rw [if_neg he.not_gt]
      · rw [if_neg hgt.not_gt, if_pos hgt] at hn
        refine fin b _ (.inr rfl) ?_ hn (fun i hi => hi)
        filter_upwards [(sm b).continuousAt.eventually_lt (sm a).continuousAt hgt] with e he
        rw [if_pos he]
    · simp only [lt_irrefl, gt_iff_lt, if_false] at hn
      exact fin a _ (.inl rfl) (.of_forall fun e => by simp) hn (fun i hi => by simp [Tr.leaves, hi])
  case condAssign a a1 a2 r k =>
    have hne : (S x0).T a ≠ 0 := hs
    cases T with
    | none => exact absurd rfl hok
    | some t =>
    have ht := hT t rfl
    subst ht
    simp only [Except.ok.injEq] at hn
    subst hn
    rcases lt_or_gt_of_ne hne with hlt | hgt
    · simp only [gt_iff_lt, hlt.not_gt, if_false]
      refine ⟨fun e => ((((S e).push (c e) r).dec (k > 0) 2).dec false 0).set r ((S e).T a2), ?_,
        copy a2 r _ _ _ (fun x hx hr => by simp [hx]) (by simp) h (sm a2) id (fun e => ⟨rfl, rfl, rfl⟩)⟩
      filter_upwards [h.cd.ev_lt hlt] with e he
      simp [zosStep, ZS.push, ZS.set, ZS.dec, he.not_gt, he.ne]
    · simp only [gt_iff_lt, show 0 < (S x0).T a from hgt, if_true]
      refine ⟨fun e => ((((S e).push (c e) r).dec (k ≤ 0) 2)).set r ((S e).T a1), ?_,
        copy a1 r _ _ _ (fun x hx hr => by simp [hx]) (by simp) h (sm a1) id (fun e => ⟨rfl, rfl, rfl⟩)⟩
      filter_upwards [h.cd.ev_gt hgt] with e he
      simp [zosStep, ZS.push, ZS.set, ZS.dec, he]
  case condEqAssign a a1 a2 r k =>
    have hne : (S x0).T a ≠ 0 := hs
    cases T with
    | none => exact absurd rfl hok
    | some t =>
    have ht := hT t rfl
    subst ht
    simp only [Except.ok.injEq] at hn
    subst hn
    rcases lt_or_gt_of_ne hne with hlt | hgt
    · simp only [ge_iff_le, hlt.not_ge, if_false]
      refine ⟨fun e => ((((S e).push (c e) r).dec (k ≥ 0) 2)).set r ((S e).T a2), ?_,
        copy a2 r _ _ _ (fun x hx hr => by simp [hx]) (by simp) h (sm a2) id (fun e => ⟨rfl, rfl, rfl⟩)⟩
      filter_upwards [h.cd.ev_lt hlt] with e he
      simp [zosStep, ZS.push, ZS.set, ZS.dec, he.not_ge]
    · simp only [ge_iff_le, (show 0 < (S x0).T a from hgt).le, if_true]
      refine ⟨fun e => ((((S e).push (c e) r).dec (k < 0) 2)).set r ((S e).T a1), ?_,
        copy a1 r _ _ _ (fun x hx hr => by simp [hx]) (by simp) h (sm a1) id (fun e => ⟨rfl, rfl, rfl⟩)⟩
      filter_upwards [h.cd.ev_gt hgt] with e he
      simp [zosStep, ZS.push, ZS.set, ZS.dec, he.le]
  case condAssignS => exact hok.elim
  case condEqAssignS => exact hok.elim
  case vecCopy => exact hok.elim
  case vecDot => exact hok.elim
  case vecAxpy => exact hok.elim
  case takeStock => exact hok.elim
  case deathNot a b =>
    cases hn
    refine ⟨_, .of_forall fun e => rfl, ?_⟩
    have : ∀ (J : List Nat) (S : (Fin n → ℝ) → ZS ℝ), HI x0 L s S → HI x0 L s (fun e => J.foldl (fun s q => s.push (c e) (b - q)) (S e)) := by
      intro J
      induction J with
      | nil => intro S h; exact h
      | cons q J ih => intro S h; exact ih _ (h.same subset_rfl fun e => ⟨rfl, rfl, rfl⟩)
    exact this _ _ h
end
end Verif.Sparse
