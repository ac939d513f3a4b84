import Verif.AD.HosJet

/-! One step of `hos_forward` keeps the jets. -/
set_option linter.all false
namespace Verif.AD
open Elem Filter Topology ContDiff Finset

section
variable {K : Type} [Scalar K]
theorem copyRow_eq (k a r : Nat) (s : HS K) : copyRow k a r s = { s with D := ovC s.D r k (s.D a) } :=
  pw (φ := fun i s => s.D a i) fun i hi D hD => hD _ _ (le_refl i)
theorem fillRow_eq (k r : Nat) (v : K) (s : HS K) : fillRow k r v s = { s with D := ovC s.D r k fun _ => v } :=
  pw (φ := fun i s => v) fun i hi D hD => rfl
theorem ovC_self (D : Nat → Nat → K) (r k : Nat) : ovC D r k (D r) = D := by
  funext l j; simp only [ovC]; split_ifs with h
  · rw [h.1]
  · rfl
end

theorem tc_const' (x : ℝ) (i : Nat) : tc (fun _ => x) (i + 1) = 0 := by rw [tc_const]; simp
theorem tc_addc {f : ℝ → ℝ} (hf : ContDiffAt ℝ ∞ f 0) (x : ℝ) (i : Nat) : tc (fun t => f t + x) (i + 1) = tc f (i + 1) := by
  rw [tc_add hf contDiffAt_const, tc_const', add_zero]
theorem tc_subc {f : ℝ → ℝ} (hf : ContDiffAt ℝ ∞ f 0) (x : ℝ) (i : Nat) : tc (fun t => f t - x) (i + 1) = tc f (i + 1) := by
  rw [tc_sub hf contDiffAt_const, tc_const', sub_zero]
theorem tc_csub {f : ℝ → ℝ} (hf : ContDiffAt ℝ ∞ f 0) (x : ℝ) (i : Nat) : tc (fun t => x - f t) (i + 1) = - tc f (i + 1) := by
  rw [tc_sub contDiffAt_const hf, tc_const', zero_sub]
theorem tc_mulc {f : ℝ → ℝ} (hf : ContDiffAt ℝ ∞ f 0) (x : ℝ) (n : Nat) : tc (fun t => f t * x) n = tc f n * x :=
  ((Jet.of (k := n) hf).mulConst x).coef n (le_refl _)

variable {c : HCfg ℝ} {S S' : ℝ → ZS ℝ} {H H' : HS ℝ}

theorem JetS.put (h : JetS c S H) {r : Nat} {val : ℝ → ℝ} {W : Nat → ℝ} (hv : ContDiffAt ℝ ∞ val 0)
    (hS : ∀ t, (S' t).T = upd (S t).T r (val t) ∧ (S' t).ii = (S t).ii ∧ (S' t).y = (S t).y ∧ (S' t).stk = (S t).stk)
    (hT : H'.T = upd H.T r (val 0)) (hD : H'.D = ovC H.D r c.k W) (hW : ∀ i, i < c.k → W i = tc val (i + 1))
    (hH : H'.ii = H.ii ∧ H'.y = H.y ∧ H'.stk = H.stk) : JetS c S' H' := by
  refine h.asg hv hS hT (hD.trans ?_) hH
  funext l j
  simp only [ovC]
  split_ifs with h
  · exact hW j h.2
  · rfl

theorem jl {k i j : Nat} (hi : i < k) (hj : j ∈ range i) : j < k := by
  have := Finset.mem_range.1 hj; omega
theorem jl2 {k i j : Nat} (hi : i < k) (hj : j ∈ range i) : i - 1 - j < k := by
  have := Finset.mem_range.1 hj; omega

theorem JetS.foldl {n : Nat} {f : ℝ → ZS ℝ → Nat → ZS ℝ} {g : Nat → HS ℝ → HS ℝ}
    (hf : ∀ S H q, JetS c S H → JetS c (fun t => f t (S t) q) (g q H)) (h : JetS c S H) :
    JetS c (fun t => (List.range n).foldl (f t) (S t)) (forUp n g H) := by
  unfold forUp
  generalize List.range n = J
  induction J generalizing S H with
  | nil => exact h
  | cons x J ih => exact ih (hf S H x h)

theorem JetS.stock {vs : List ℝ} {r : Nat} (h : JetS c S H) :
    JetS c (fun t => (vs.foldl (fun (p : Nat × ZS ℝ) v => (p.1 + 1, p.2.set p.1 v)) (r, S t)).2)
      (vs.foldl (fun (p : Nat × HS ℝ) v => (p.1 + 1, fillRow c.k p.1 0 (p.2.set p.1 v))) (r, H)).2 := by
  induction vs generalizing S H r with
  | nil => exact h
  | cons x vs ih =>
    refine ih (r := r + 1) (S := fun t => (S t).set r x) (H := fillRow c.k r 0 (H.set r x)) ?_
    rw [fillRow_eq]
    exact h.put (r := r) (val := fun t => x) contDiffAt_const (fun t => ⟨rfl, rfl, rfl, rfl⟩) rfl rfl
      (fun i hi => (tc_const' x i).symm) ⟨rfl, rfl, rfl⟩

theorem JetS.ev_lt (h : JetS c S H) {a b : Nat} (hl : (S 0).T a < (S 0).T b) : ∀ᶠ t in 𝓝 0, (S t).T a < (S t).T b :=
  (h.sm a).continuousAt.eventually_lt (h.sm b).continuousAt hl
theorem JetS.ev_neg (h : JetS c S H) {a : Nat} (hl : (S 0).T a < 0) : ∀ᶠ t in 𝓝 0, (S t).T a < 0 :=
  (h.sm a).continuousAt.eventually_lt continuousAt_const hl
theorem JetS.ev_pos (h : JetS c S H) {a : Nat} (hl : 0 < (S 0).T a) : ∀ᶠ t in 𝓝 0, 0 < (S t).T a :=
  continuousAt_const.eventually_lt (h.sm a).continuousAt hl

theorem jet_step {zc : ℝ → Cfg ℝ} (hkk : c.keep ≤ c.k + 1) (hk : ∀ t, (zc t).keep = decide (0 < c.keep))
    (hpar : ∀ t, (zc t).par = c.par) (hx : ∀ i, Jet c.k (fun t => (zc t).x i) (hcons (c.x i) (c.X i)))
    {o : Base ℝ} (h : JetS c S H) (hs : ∀ᶠ t in 𝓝 0, smoothS .ho o (S t).T)
    (hok : ∃ z, zosStep (zc 0) o (S 0) = .ok z) :
    ∃ S' H', (∀ᶠ t in 𝓝 0, zosStep (zc t) o (S t) = .ok (S' t)) ∧ hosStep c o H = .ok H' ∧ JetS c S' H' := by
  have hT := h.T
  have hD : ∀ l i, i < c.k → H.D l i = tc (fun t => (S t).T l) (i + 1) := fun l i hi => h.D l hi
  have hs0 : smoothS .ho o (S 0).T := hs.self_of_nhds
  cases o
  case assignA a r =>
    have e := copyRow_eq c.k a r ((H.push c r).set r (H.T a))
    exact ⟨_, _, .of_forall fun t => rfl, congrArg Except.ok e,
      (h.push hkk hk r).put (r := r) (val := fun t => (S t).T a) (h.sm a) (fun t => ⟨rfl, rfl, rfl, rfl⟩)
        (congrArg (upd H.T r) (by first | simp only [HS.push, HS.set, hT] | rfl)) (rfl) (fun i hi => hD a i hi) ⟨rfl, rfl, rfl⟩⟩
  case posSign a r =>
    have e := copyRow_eq c.k a r ((H.push c r).set r (H.T a))
    exact ⟨_, _, .of_forall fun t => rfl, congrArg Except.ok e,
      (h.push hkk hk r).put (r := r) (val := fun t => (S t).T a) (h.sm a) (fun t => ⟨rfl, rfl, rfl, rfl⟩)
        (congrArg (upd H.T r) (by first | simp only [HS.push, HS.set, hT] | rfl)) (rfl) (fun i hi => hD a i hi) ⟨rfl, rfl, rfl⟩⟩
  case assignD r k =>
    have e := fillRow_eq c.k r 0 ((H.push c r).set r (k))
    exact ⟨_, _, .of_forall fun t => rfl, congrArg Except.ok e,
      (h.push hkk hk r).put (r := r) (val := fun t => k) contDiffAt_const (fun t => ⟨rfl, rfl, rfl, rfl⟩)
        (congrArg (upd H.T r) (by first | simp only [HS.push, HS.set, hT] | rfl)) (rfl) (fun i hi => (tc_const' k i).symm) ⟨rfl, rfl, rfl⟩⟩
  case assignD0 r =>
    have e := fillRow_eq c.k r 0 ((H.push c r).set r (0))
    exact ⟨_, _, .of_forall fun t => rfl, congrArg Except.ok e,
      (h.push hkk hk r).put (r := r) (val := fun t => 0) contDiffAt_const (fun t => ⟨rfl, rfl, rfl, rfl⟩)
        (congrArg (upd H.T r) (by first | simp only [HS.push, HS.set, hT] | rfl)) (rfl) (fun i hi => (tc_const' 0 i).symm) ⟨rfl, rfl, rfl⟩⟩
  case assignD1 r =>
    have e := fillRow_eq c.k r 0 ((H.push c r).set r (1))
    exact ⟨_, _, .of_forall fun t => rfl, congrArg Except.ok e,
      (h.push hkk hk r).put (r := r) (val := fun t => 1) contDiffAt_const (fun t => ⟨rfl, rfl, rfl, rfl⟩)
        (congrArg (upd H.T r) (by first | simp only [HS.push, HS.set, hT] | rfl)) (rfl) (fun i hi => (tc_const' 1 i).symm) ⟨rfl, rfl, rfl⟩⟩
  case eqPlusD r k =>
    exact ⟨_, _, .of_forall fun t => rfl, rfl,
      (h.push hkk hk r).put (r := r) (val := fun t => (S t).T r + k) ((h.sm r).add contDiffAt_const) (fun t => ⟨rfl, rfl, rfl, rfl⟩)
        (congrArg (upd H.T r) (by first | simp only [HS.push, HS.set, hT] | rfl)) ((ovC_self _ _ _).symm) (fun i hi => (hD r i hi).trans (tc_addc (h.sm r) k i).symm) ⟨rfl, rfl, rfl⟩⟩
  case eqMinD r k =>
    exact ⟨_, _, .of_forall fun t => rfl, rfl,
      (h.push hkk hk r).put (r := r) (val := fun t => (S t).T r - k) ((h.sm r).sub contDiffAt_const) (fun t => ⟨rfl, rfl, rfl, rfl⟩)
        (congrArg (upd H.T r) (by first | simp only [HS.push, HS.set, hT] | rfl)) ((ovC_self _ _ _).symm) (fun i hi => (hD r i hi).trans (tc_subc (h.sm r) k i).symm) ⟨rfl, rfl, rfl⟩⟩
  case incrA r =>
    exact ⟨_, _, .of_forall fun t => rfl, rfl,
      (h.push hkk hk r).put (r := r) (val := fun t => (S t).T r + 1) ((h.sm r).add contDiffAt_const) (fun t => ⟨rfl, rfl, rfl, rfl⟩)
        (congrArg (upd H.T r) (by first | simp only [HS.push, HS.set, hT] | rfl)) ((ovC_self _ _ _).symm) (fun i hi => (hD r i hi).trans (tc_addc (h.sm r) 1 i).symm) ⟨rfl, rfl, rfl⟩⟩
  case decrA r =>
    exact ⟨_, _, .of_forall fun t => rfl, rfl,
      (h.push hkk hk r).put (r := r) (val := fun t => (S t).T r - 1) ((h.sm r).sub contDiffAt_const) (fun t => ⟨rfl, rfl, rfl, rfl⟩)
        (congrArg (upd H.T r) (by first | simp only [HS.push, HS.set, hT] | rfl)) ((ovC_self _ _ _).symm) (fun i hi => (hD r i hi).trans (tc_subc (h.sm r) 1 i).symm) ⟨rfl, rfl, rfl⟩⟩
  case eqPlusA a r =>
    have e := pw (s0 := ((H.push c r).set r (H.T r + H.T a))) (r := r) (k := c.k) (φ := fun i s => s.D r i + s.D a i) (fun i hi D hD => by simp only [hD _ _ (le_refl i)])
    exact ⟨_, _, .of_forall fun t => rfl, congrArg Except.ok e,
      (h.push hkk hk r).put (r := r) (val := fun t => (S t).T r + (S t).T a) ((h.sm r).add (h.sm a)) (fun t => ⟨rfl, rfl, rfl, rfl⟩)
        (congrArg (upd H.T r) (by first | simp only [HS.push, HS.set, hT] | rfl)) (rfl) (fun i hi => (congrArg₂ (· + ·) (hD r i hi) (hD a i hi)).trans (tc_add (h.sm r) (h.sm a) _).symm) ⟨rfl, rfl, rfl⟩⟩
  case eqMinA a r =>
    have e := pw (s0 := ((H.push c r).set r (H.T r - H.T a))) (r := r) (k := c.k) (φ := fun i s => s.D r i - s.D a i) (fun i hi D hD => by simp only [hD _ _ (le_refl i)])
    exact ⟨_, _, .of_forall fun t => rfl, congrArg Except.ok e,
      (h.push hkk hk r).put (r := r) (val := fun t => (S t).T r - (S t).T a) ((h.sm r).sub (h.sm a)) (fun t => ⟨rfl, rfl, rfl, rfl⟩)
        (congrArg (upd H.T r) (by first | simp only [HS.push, HS.set, hT] | rfl)) (rfl) (fun i hi => (congrArg₂ (· - ·) (hD r i hi) (hD a i hi)).trans (tc_sub (h.sm r) (h.sm a) _).symm) ⟨rfl, rfl, rfl⟩⟩
  case plusAA a b r =>
    have e := pw (s0 := ((H.push c r).set r (H.T a + H.T b))) (r := r) (k := c.k) (φ := fun i s => s.D a i + s.D b i) (fun i hi D hD => by simp only [hD _ _ (le_refl i)])
    exact ⟨_, _, .of_forall fun t => rfl, congrArg Except.ok e,
      (h.push hkk hk r).put (r := r) (val := fun t => (S t).T a + (S t).T b) ((h.sm a).add (h.sm b)) (fun t => ⟨rfl, rfl, rfl, rfl⟩)
        (congrArg (upd H.T r) (by first | simp only [HS.push, HS.set, hT] | rfl)) (rfl) (fun i hi => (congrArg₂ (· + ·) (hD a i hi) (hD b i hi)).trans (tc_add (h.sm a) (h.sm b) _).symm) ⟨rfl, rfl, rfl⟩⟩
  case minAA a b r =>
    have e := pw (s0 := ((H.push c r).set r (H.T a - H.T b))) (r := r) (k := c.k) (φ := fun i s => s.D a i - s.D b i) (fun i hi D hD => by simp only [hD _ _ (le_refl i)])
    exact ⟨_, _, .of_forall fun t => rfl, congrArg Except.ok e,
      (h.push hkk hk r).put (r := r) (val := fun t => (S t).T a - (S t).T b) ((h.sm a).sub (h.sm b)) (fun t => ⟨rfl, rfl, rfl, rfl⟩)
        (congrArg (upd H.T r) (by first | simp only [HS.push, HS.set, hT] | rfl)) (rfl) (fun i hi => (congrArg₂ (· - ·) (hD a i hi) (hD b i hi)).trans (tc_sub (h.sm a) (h.sm b) _).symm) ⟨rfl, rfl, rfl⟩⟩
  case eqMultD r k =>
    have e := pw (s0 := ((H.push c r).set r (H.T r * k))) (r := r) (k := c.k) (φ := fun i s => s.D r i * k) (fun i hi D hD => by simp only [hD _ _ (le_refl i)])
    exact ⟨_, _, .of_forall fun t => rfl, congrArg Except.ok e,
      (h.push hkk hk r).put (r := r) (val := fun t => (S t).T r * k) ((h.sm r).mul contDiffAt_const) (fun t => ⟨rfl, rfl, rfl, rfl⟩)
        (congrArg (upd H.T r) (by first | simp only [HS.push, HS.set, hT] | rfl)) (rfl) (fun i hi => (congrArg (· * k) (hD r i hi)).trans (tc_mulc (h.sm r) k _).symm) ⟨rfl, rfl, rfl⟩⟩
  case multDA a r k =>
    have e := pw (s0 := ((H.push c r).set r (H.T a * k))) (r := r) (k := c.k) (φ := fun i s => s.D a i * k) (fun i hi D hD => by simp only [hD _ _ (le_refl i)])
    exact ⟨_, _, .of_forall fun t => rfl, congrArg Except.ok e,
      (h.push hkk hk r).put (r := r) (val := fun t => (S t).T a * k) ((h.sm a).mul contDiffAt_const) (fun t => ⟨rfl, rfl, rfl, rfl⟩)
        (congrArg (upd H.T r) (by first | simp only [HS.push, HS.set, hT] | rfl)) (rfl) (fun i hi => (congrArg (· * k) (hD a i hi)).trans (tc_mulc (h.sm a) k _).symm) ⟨rfl, rfl, rfl⟩⟩
  case minDA a r k =>
    have e := pw (s0 := ((H.push c r).set r (k - H.T a))) (r := r) (k := c.k) (φ := fun i s => - s.D a i) (fun i hi D hD => by simp only [hD _ _ (le_refl i)])
    exact ⟨_, _, .of_forall fun t => rfl, congrArg Except.ok e,
      (h.push hkk hk r).put (r := r) (val := fun t => k - (S t).T a) (contDiffAt_const.sub (h.sm a)) (fun t => ⟨rfl, rfl, rfl, rfl⟩)
        (congrArg (upd H.T r) (by first | simp only [HS.push, HS.set, hT] | rfl)) (rfl) (fun i hi => (congrArg (- ·) (hD a i hi)).trans (tc_csub (h.sm a) k _).symm) ⟨rfl, rfl, rfl⟩⟩
  case negSign a r =>
    have e := pw (s0 := ((H.push c r).set r (- H.T a))) (r := r) (k := c.k) (φ := fun i s => - s.D a i) (fun i hi D hD => by simp only [hD _ _ (le_refl i)])
    exact ⟨_, _, .of_forall fun t => rfl, congrArg Except.ok e,
      (h.push hkk hk r).put (r := r) (val := fun t => - (S t).T a) (h.sm a).neg (fun t => ⟨rfl, rfl, rfl, rfl⟩)
        (congrArg (upd H.T r) (by first | simp only [HS.push, HS.set, hT] | rfl)) (rfl) (fun i hi => (congrArg (- ·) (hD a i hi)).trans (tc_neg _).symm) ⟨rfl, rfl, rfl⟩⟩
  case plusDA a r k =>
    have e := copyRow_eq c.k a r ((H.push c r).set r (H.T a + k))
    exact ⟨_, _, .of_forall fun t => rfl, congrArg Except.ok e,
      (h.push hkk hk r).put (r := r) (val := fun t => (S t).T a + k) ((h.sm a).add contDiffAt_const) (fun t => ⟨rfl, rfl, rfl, rfl⟩)
        (congrArg (upd H.T r) (by first | simp only [HS.push, HS.set, hT] | rfl)) (rfl) (fun i hi => (hD a i hi).trans (tc_addc (h.sm a) k i).symm) ⟨rfl, rfl, rfl⟩⟩
  case eqMultA a r =>
    have e := prod_loop (s := (H.push c r)) (k := c.k) (a := r) (b := a) (r := r) (φ := fun i s => s.T r * s.D a i + s.D r i * s.T a)
      (W := fun i => tc (fun t => (S t).T r * (S t).T a) (i + 1))
      (fun i hi D hD => by simp only [hD _ _ (le_refl i)]) (fun i hi => by simp only [HS.push, hT]; rw [tc_mul_succ (h.sm r) (h.sm a), hD _ i hi, hD _ i hi]; congr 1; exact Finset.sum_congr rfl fun j hj => by rw [hD _ j (jl hi hj), hD _ _ (jl2 hi hj)])
    exact ⟨_, _, .of_forall fun t => rfl, congrArg (fun s : HS ℝ => Except.ok (s.set r (s.T r * s.T a))) e,
      (h.push hkk hk r).put (r := r) (val := fun t => (S t).T r * (S t).T a) ((h.sm r).mul (h.sm a)) (fun t => ⟨rfl, rfl, rfl, rfl⟩)
        (congrArg (upd H.T r) (by simp only [HS.push, hT])) rfl (fun i hi => rfl) ⟨rfl, rfl, rfl⟩⟩
  case multAA a b r =>
    have e := prod_loop (s := (H.push c r)) (k := c.k) (a := a) (b := b) (r := r) (φ := fun i s => s.T a * s.D b i + s.D a i * s.T b)
      (W := fun i => tc (fun t => (S t).T a * (S t).T b) (i + 1))
      (fun i hi D hD => by simp only [hD _ _ (le_refl i)]) (fun i hi => by simp only [HS.push, hT]; rw [tc_mul_succ (h.sm a) (h.sm b), hD _ i hi, hD _ i hi]; congr 1; exact Finset.sum_congr rfl fun j hj => by rw [hD _ j (jl hi hj), hD _ _ (jl2 hi hj)])
    exact ⟨_, _, .of_forall fun t => rfl, congrArg (fun s : HS ℝ => Except.ok (s.set r (s.T a * s.T b))) e,
      (h.push hkk hk r).put (r := r) (val := fun t => (S t).T a * (S t).T b) ((h.sm a).mul (h.sm b)) (fun t => ⟨rfl, rfl, rfl, rfl⟩)
        (congrArg (upd H.T r) (by simp only [HS.push, hT])) rfl (fun i hi => rfl) ⟨rfl, rfl, rfl⟩⟩
  case eqPlusProd a b r =>
    have e := prod_loop (s := H) (k := c.k) (a := a) (b := b) (r := r) (φ := fun i s => s.D r i + (s.T a * s.D b i + s.D a i * s.T b))
      (W := fun i => tc (fun t => (S t).T r + (S t).T a * (S t).T b) (i + 1))
      (fun i hi D hD => by simp only [hD _ _ (le_refl i)]) (fun i hi => by simp only [HS.push, hT]; rw [tc_add (h.sm r) ((h.sm a).mul (h.sm b)), tc_mul_succ (h.sm a) (h.sm b), hD _ i hi, hD _ i hi, hD _ i hi, ← add_assoc]; congr 1; exact Finset.sum_congr rfl fun j hj => by rw [hD _ j (jl hi hj), hD _ _ (jl2 hi hj)])
    exact ⟨_, _, .of_forall fun t => rfl, congrArg (fun s : HS ℝ => Except.ok (s.set r (s.T r + s.T a * s.T b))) e,
      h.put (r := r) (val := fun t => (S t).T r + (S t).T a * (S t).T b) ((h.sm r).add ((h.sm a).mul (h.sm b))) (fun t => ⟨rfl, rfl, rfl, rfl⟩)
        (congrArg (upd H.T r) (by simp only [HS.push, hT])) rfl (fun i hi => rfl) ⟨rfl, rfl, rfl⟩⟩
  case eqMinProd a b r =>
    have e := prod_loop_sub (s := H) (k := c.k) (a := a) (b := b) (r := r) (φ := fun i s => s.D r i - (s.T a * s.D b i + s.D a i * s.T b))
      (W := fun i => tc (fun t => (S t).T r - (S t).T a * (S t).T b) (i + 1))
      (fun i hi D hD => by simp only [hD _ _ (le_refl i)]) (fun i hi => by simp only [HS.push, hT]; rw [tc_sub (h.sm r) ((h.sm a).mul (h.sm b)), tc_mul_succ (h.sm a) (h.sm b), hD _ i hi, hD _ i hi, hD _ i hi, ← sub_sub]; congr 1; exact Finset.sum_congr rfl fun j hj => by rw [hD _ j (jl hi hj), hD _ _ (jl2 hi hj)])
    exact ⟨_, _, .of_forall fun t => rfl, congrArg (fun s : HS ℝ => Except.ok (s.set r (s.T r - s.T a * s.T b))) e,
      h.put (r := r) (val := fun t => (S t).T r - (S t).T a * (S t).T b) ((h.sm r).sub ((h.sm a).mul (h.sm b))) (fun t => ⟨rfl, rfl, rfl, rfl⟩)
        (congrArg (upd H.T r) (by simp only [HS.push, hT])) rfl (fun i hi => rfl) ⟨rfl, rfl, rfl⟩⟩
  case expOp a r =>
    obtain ⟨z', e⟩ := exp_loop (a := a) (s := ((H.push c r).set r (Real.exp (H.T a)))) (k := c.k) (r := r) (W := fun i => tc (fun t => Real.exp ((S t).T a)) (i + 1)) (fun i hi => by simp only [HS.push, HS.set, upd_same, hT]; rw [tc_exp (h.sm a), hD a i hi]; congr 2; exact Finset.sum_congr rfl fun j hj => by rw [hD _ _ (jl2 hi hj)])
    exact ⟨_, _, .of_forall fun t => rfl, congrArg Except.ok e,
      (h.push hkk hk r).put (r := r) (val := fun t => Real.exp ((S t).T a)) (h.sm a).exp (fun t => ⟨rfl, rfl, rfl, rfl⟩)
        (congrArg (upd H.T r) (by simp only [hT])) rfl (fun i hi => rfl) ⟨rfl, rfl, rfl⟩⟩
  case divAA a b r =>
    have hs : (S 0).T b ≠ 0 := hs0.1
    obtain ⟨z', e⟩ := div_loop (a := a) (b := b) (divs := 1 / H.T b) (s := ((H.push c r).set r (H.T a / H.T b))) (k := c.k) (r := r) (W := fun i => tc (fun t => (S t).T a / (S t).T b) (i + 1)) (fun i hi => by simp only [HS.push, HS.set, upd_same, hT]; rw [tc_div (h.sm a) (h.sm b) hs, hD a i hi, hD b i hi]; congr 1; exact Finset.sum_congr rfl fun j hj => by rw [hD _ _ (jl2 hi hj)])
    exact ⟨_, _, .of_forall fun t => rfl, congrArg Except.ok e,
      (h.push hkk hk r).put (r := r) (val := fun t => (S t).T a / (S t).T b) (smooth_div (h.sm a) (h.sm b) hs) (fun t => ⟨rfl, rfl, rfl, rfl⟩)
        (congrArg (upd H.T r) (by simp only [hT])) rfl (fun i hi => rfl) ⟨rfl, rfl, rfl⟩⟩
  case divDA a r k =>
    have hs : (S 0).T a ≠ 0 := hs0.1
    obtain ⟨z', e⟩ := divD_loop (a := a) (divs := 1 / H.T a) (s := ((H.push c r).set r (k / H.T a))) (k := c.k) (r := r) (W := fun i => tc (fun t => k / (S t).T a) (i + 1)) (fun i hi => by simp only [HS.push, HS.set, upd_same, hT]; rw [tc_div contDiffAt_const (h.sm a) hs, hD a i hi, tc_const', zero_mul, zero_add]; congr 1; exact Finset.sum_congr rfl fun j hj => by rw [hD _ _ (jl2 hi hj)])
    exact ⟨_, _, .of_forall fun t => rfl, congrArg Except.ok e,
      (h.push hkk hk r).put (r := r) (val := fun t => k / (S t).T a) (smooth_div contDiffAt_const (h.sm a) hs) (fun t => ⟨rfl, rfl, rfl, rfl⟩)
        (congrArg (upd H.T r) (by simp only [hT])) rfl (fun i hi => rfl) ⟨rfl, rfl, rfl⟩⟩
  case assignP p r =>
    have e := fillRow_eq c.k r 0 ((H.push c r).set r (c.par p))
    exact ⟨_, _, .of_forall fun t => rfl, congrArg Except.ok e,
      (h.push hkk hk r).put (r := r) (val := fun t => c.par p) contDiffAt_const
        (fun t => ⟨by simp only [ZS.set, ZS.push, hpar], rfl, rfl, rfl⟩)
        rfl rfl (fun i hi => (tc_const' (c.par p) i).symm) ⟨rfl, rfl, rfl⟩⟩
  case assignInd r =>
    have hx' := hx H.ii
    have e := pw (s0 := (H.push c r).set r (c.x H.ii)) (r := r) (k := c.k) (φ := fun i s => c.X s.ii i) (fun i hi D hD => rfl)
    refine ⟨fun t => { ((S t).push (zc t) r).set r ((zc t).x H.ii) with ii := H.ii + 1 }, _,
      .of_forall fun t => ?_, congrArg (fun s : HS ℝ => (Except.ok { s with ii := s.ii + 1 } : Except HStop (HS ℝ))) e, ?_⟩
    · simp only [zosStep, ZS.push, ZS.set, h.ii]
    · have h1 := (h.push hkk hk r).put (r := r) (val := fun t => (zc t).x H.ii)
        (S' := fun t => ((S t).push (zc t) r).set r ((zc t).x H.ii))
        (H' := { ((H.push c r).set r (c.x H.ii)) with D := ovC H.D r c.k (c.X H.ii) })
        hx'.smooth (fun t => ⟨rfl, rfl, rfl, rfl⟩)
        (congrArg (upd H.T r) hx'.zero.symm) rfl (fun i hi => (hx'.coef (i + 1) hi).symm) ⟨rfl, rfl, rfl⟩
      exact ⟨h1.jet, fun t => rfl, h1.y, h1.stk⟩
  case assignDep r =>
    refine ⟨_, _, .of_forall fun t => rfl, rfl, ?_⟩
    obtain ⟨h1, h2, ⟨fy, h3, h4⟩, h5⟩ := h
    refine ⟨h1, h2, ⟨fy ++ [fun t => (S t).T r], fun t => by simp [h3], ?_⟩, h5⟩
    exact List.rel_append h4 (.cons (h1 r) .nil)
  case cmp q a =>
    have hne : (S 0).T a ≠ 0 := hs0.1
    obtain ⟨z, hz⟩ := hok
    simp only [zosStep] at hz
    split at hz
    case isFalse => cases hz
    case isTrue hq =>
    refine ⟨S, H, ?_, ?_, h⟩
    · rcases lt_or_gt_of_ne hne with hlt | hgt
      · filter_upwards [h.ev_neg hlt] with e he
        have he' := he.le
        have hen := he.ne
        cases q <;> simp [Cmp.holds] at hq <;> simp [zosStep, Cmp.holds, he, he', hen] <;> linarith
      · filter_upwards [h.ev_pos hgt] with e he
        have he' := he.le
        have hen := he.ne'
        cases q <;> simp [Cmp.holds] at hq <;> simp [zosStep, Cmp.holds, he, he', hen] <;> linarith
    · cases q <;> simp [Cmp.holds] at hq <;> simp [hosStep, Cmp.holds, hT, hq, hne]
      all_goals exact absurd hq hne
  case sinOp a b r =>
    obtain ⟨hab, hbr⟩ := hs0.1
    obtain ⟨z', e⟩ := sin_loop (s := (((H.push c b).push c r).set b (Real.cos (H.T a))).set r (Real.sin (H.T a)))
      (k := c.k) (a := a) (W := fun i => tc (fun t => Real.sin ((S t).T a)) (i + 1))
      (Wb := fun i => tc (fun t => Real.cos ((S t).T a)) (i + 1)) hbr hab
      (fun i hi => by
        simp only [HS.push, HS.set, upd_same, upd_ne _ _ hbr, hT]
        rw [tc_sin (h.sm a), hD a i hi]; congr 2; exact Finset.sum_congr rfl fun j hj => by rw [hD _ _ (jl2 hi hj)])
      (fun i hi => by
        simp only [HS.push, HS.set, upd_same, upd_ne _ _ hbr, hT]
        rw [tc_cos (h.sm a), hD a i hi]; congr 2; exact Finset.sum_congr rfl fun j hj => by rw [hD _ _ (jl2 hi hj)])
    have ea : upd H.T b (Real.cos (H.T a)) a = H.T a := upd_ne _ _ hab
    have e2 : hosStep c (.sinOp a b r) H = .ok { ((((H.push c b).push c r).set b (Real.cos (H.T a))).set r (Real.sin (H.T a))) with D := ovC (ovC H.D b c.k (fun i => tc (fun t => Real.cos ((S t).T a)) (i + 1))) r c.k (fun i => tc (fun t => Real.sin ((S t).T a)) (i + 1)), z := z' } := by
      refine Eq.trans ?_ (congrArg Except.ok e)
      have ea' : (((H.push c b).push c r).set b (Real.cos (H.T a))).T a = H.T a := upd_ne _ _ hab
      simp only [hosStep]
      rw [show (((H.push c b).push c r).set b (Elem.cos (((H.push c b).push c r).T a))).T a = H.T a from upd_ne _ _ hab]
      rfl
    refine ⟨_, _, .of_forall fun t => rfl, e2, ?_⟩
    have h1 := ((h.push hkk hk b).push hkk hk r).put (r := b) (val := fun t => Real.cos ((S t).T a))
      (S' := fun t => ((((S t).push (zc t) b).push (zc t) r).set b (Real.cos ((S t).T a))))
      (H' := { ((((H.push c b).push c r)).set b (Real.cos (H.T a))) with D := ovC H.D b c.k (fun i => tc (fun t => Real.cos ((S t).T a)) (i + 1)) })
      (h.sm a).cos (fun t => ⟨rfl, rfl, rfl, rfl⟩) (congrArg (upd H.T b) (by simp only [hT])) rfl (fun i hi => rfl) ⟨rfl, rfl, rfl⟩
    refine h1.put (r := r) (val := fun t => Real.sin ((S t).T a)) (h.sm a).sin (fun t => ⟨?_, rfl, rfl, rfl⟩)
      ?_ rfl (fun i hi => rfl) ⟨rfl, rfl, rfl⟩
    · simp only [ZS.set, ZS.push, upd_ne _ _ hab]; rfl
    · simp only [HS.set, HS.push, hT]
  case cosOp a b r =>
    obtain ⟨hab, hbr⟩ := hs0.1
    obtain ⟨z', e⟩ := cos_loop (s := (((H.push c b).push c r).set b (Real.sin (H.T a))).set r (Real.cos (H.T a)))
      (k := c.k) (a := a) (W := fun i => tc (fun t => Real.cos ((S t).T a)) (i + 1))
      (Wb := fun i => tc (fun t => Real.sin ((S t).T a)) (i + 1)) hbr hab
      (fun i hi => by
        simp only [HS.push, HS.set, upd_same, upd_ne _ _ hbr, hT]
        rw [tc_cos (h.sm a), hD a i hi]; congr 2; exact Finset.sum_congr rfl fun j hj => by rw [hD _ _ (jl2 hi hj)])
      (fun i hi => by
        simp only [HS.push, HS.set, upd_same, upd_ne _ _ hbr, hT]
        rw [tc_sin (h.sm a), hD a i hi]; congr 2; exact Finset.sum_congr rfl fun j hj => by rw [hD _ _ (jl2 hi hj)])
    have ea : upd H.T b (Real.sin (H.T a)) a = H.T a := upd_ne _ _ hab
    have e2 : hosStep c (.cosOp a b r) H = .ok { ((((H.push c b).push c r).set b (Real.sin (H.T a))).set r (Real.cos (H.T a))) with D := ovC (ovC H.D b c.k (fun i => tc (fun t => Real.sin ((S t).T a)) (i + 1))) r c.k (fun i => tc (fun t => Real.cos ((S t).T a)) (i + 1)), z := z' } := by
      refine Eq.trans ?_ (congrArg Except.ok e)
      have ea' : (((H.push c b).push c r).set b (Real.sin (H.T a))).T a = H.T a := upd_ne _ _ hab
      simp only [hosStep]
      rw [show (((H.push c b).push c r).set b (Elem.sin (((H.push c b).push c r).T a))).T a = H.T a from upd_ne _ _ hab]
      rfl
    refine ⟨_, _, .of_forall fun t => rfl, e2, ?_⟩
    have h1 := ((h.push hkk hk b).push hkk hk r).put (r := b) (val := fun t => Real.sin ((S t).T a))
      (S' := fun t => ((((S t).push (zc t) b).push (zc t) r).set b (Real.sin ((S t).T a))))
      (H' := { ((((H.push c b).push c r)).set b (Real.sin (H.T a))) with D := ovC H.D b c.k (fun i => tc (fun t => Real.sin ((S t).T a)) (i + 1)) })
      (h.sm a).sin (fun t => ⟨rfl, rfl, rfl, rfl⟩) (congrArg (upd H.T b) (by simp only [hT])) rfl (fun i hi => rfl) ⟨rfl, rfl, rfl⟩
    refine h1.put (r := r) (val := fun t => Real.cos ((S t).T a)) (h.sm a).cos (fun t => ⟨?_, rfl, rfl, rfl⟩)
      ?_ rfl (fun i hi => rfl) ⟨rfl, rfl, rfl⟩
    · simp only [ZS.set, ZS.push, upd_ne _ _ hab]; rfl
    · simp only [HS.set, HS.push, hT]
  case quad q a b r =>
    obtain ⟨hd, hb, hbr, hal⟩ := hs0.1
    have hder : ∀ᶠ t in 𝓝 (0:ℝ), HasDerivAt (fun t => q.fn ((S t).T a)) ((S t).T b * deriv (fun t => (S t).T a) t) t := by
      filter_upwards [hs, ev_diff (h.sm a)] with t h1 h2
      rw [h1.1.2.1]
      exact (hasDerivAt_quad h1.1.1).comp t h2
    obtain ⟨z', e⟩ := quad_loop (s := (H.push c r).set r (q.fn (H.T a))) (k := c.k) (a := a) (b := b) (r := r)
      (W := fun i => tc (fun t => q.fn ((S t).T a)) (i + 1)) hbr (fun i hi => by
        simp only [HS.push, HS.set, upd_ne _ _ hbr, hT]
        rw [tc_quad (h.sm a) (h.sm b) hder, hD a i hi]
        congr 2; exact Finset.sum_congr rfl fun j hj => by rw [hD b _ (jl hi hj), hD _ _ (jl2 hi hj)])
    have key : quadHO q c.k a b r ((H.push c r).set r (q.fn (H.T a))) =
        quadLoop c.k a b r ((H.push c r).set r (q.fn (H.T a))) := by
      have hx : quadEdge q (((H.push c r).set r (q.fn (H.T a))).T a) := by
        simp only [HS.set, HS.push, hT]
        rw [upd_apply]
        split_ifs with har
        · exact hal har
        · rw [hT]; cases q <;> simp only [quadDom] at hd <;> simp only [quadEdge]
          · exact ⟨hd.2.ne, hd.1.ne'⟩
          · exact ⟨hd.2.ne, hd.1.ne'⟩
          · exact hd.ne'
          · exact ⟨hd.2.ne, hd.1.ne'⟩
      generalize (H.push c r).set r (q.fn (H.T a)) = H1 at hx ⊢
      cases q <;> simp only [quadHO] <;> simp only [quadEdge] at hx
      · rw [if_neg hx.1, if_neg hx.2]
      · rw [if_neg hx.1, if_neg hx.2]
      · rw [if_neg hx]
      · rw [if_neg hx.1, if_neg hx.2]
    exact ⟨_, _, .of_forall fun t => rfl, congrArg Except.ok (key.trans e),
      (h.push hkk hk r).put (r := r) (val := fun t => q.fn ((S t).T a)) (smooth_quad (h.sm a) (h.sm b) hder)
        (fun t => ⟨rfl, rfl, rfl, rfl⟩)
        (congrArg (upd H.T r) (by simp only [hT])) rfl (fun i hi => rfl) ⟨rfl, rfl, rfl⟩⟩
  case logOp a r =>
    have hp : 0 < (S 0).T a := hs0.1
    have hne := hp.ne'
    obtain ⟨z', e⟩ := log_loop (s := H.push c r) (k := c.k) (a := a) (r := r) (divs := 1 / (S 0).T a)
      (W := fun i => tc (fun t => Real.log ((S t).T a)) (i + 1)) (fun i hi => by
        simp only [HS.push]
        rw [tc_log (h.sm a) hne, hD a i hi]
        congr 2; exact Finset.sum_congr rfl fun j hj => by rw [hD _ _ (jl2 hi hj)])
    have e2 : hosStep c (.logOp a r) H = .ok (({ (H.push c r) with D := ovC (H.push c r).D r c.k (fun i => tc (fun t => Real.log ((S t).T a)) (i + 1)), z := z' }).set r (Real.log ((S 0).T a))) := by
      have e0 : (H.push c r).T a = (S 0).T a := hT a
      simp only [hosStep, e0, hne, false_and, if_false, e]; rfl
    exact ⟨_, _, .of_forall fun t => rfl, e2,
      (h.push hkk hk r).put (r := r) (val := fun t => Real.log ((S t).T a)) (smooth_log (h.sm a) hne)
        (fun t => ⟨rfl, rfl, rfl, rfl⟩)
        rfl rfl (fun i hi => rfl) ⟨rfl, rfl, rfl⟩⟩
  case powOp a r k =>
    have hne : (S 0).T a ≠ 0 := fun h0 => (hs0.2.1 a r k rfl h0)
    obtain ⟨z', e⟩ := pow_loop (s := (H.push c r).set r (H.T a ^ k)) (k := c.k) (a := a) (r := r) (v := k) (r0 := 1 / (S 0).T a)
      (W := fun i => tc (fun t => (S t).T a ^ k) (i + 1)) (fun i hi => by
        simp only [HS.push, HS.set, upd_same, hT]
        rw [tc_rpow k (h.sm a) hne, hD a i hi]
        congr 2; exact Finset.sum_congr rfl fun j hj => by rw [hD _ _ (jl2 hi hj)])
    have e2 : hosStep c (.powOp a r k) H = .ok { (H.push c r).set r (H.T a ^ k) with D := ovC ((H.push c r).set r (H.T a ^ k)).D r c.k (fun i => tc (fun t => (S t).T a ^ k) (i + 1)), z := z' } := by
      have e0 : (H.push c r).T a = (S 0).T a := hT a
      rw [← e]
      simp only [hosStep, e0, if_neg hne, hT]; rfl
    exact ⟨_, _, .of_forall fun t => rfl, e2,
      (h.push hkk hk r).put (r := r) (val := fun t => (S t).T a ^ k) (smooth_rpow k (h.sm a) hne)
        (fun t => ⟨rfl, rfl, rfl, rfl⟩)
        (congrArg (upd H.T r) (by simp only [hT])) rfl (fun i hi => rfl) ⟨rfl, rfl, rfl⟩⟩
  case sqrtOp a r =>
    have hp : 0 < (S 0).T a := hs0.1
    have hne := hp.ne'
    have hne' : √((S 0).T a) ≠ 0 := (Real.sqrt_pos.2 hp).ne'
    obtain ⟨z', e⟩ := sqrt_loop (s := (H.push c r).set r (√(H.T a))) (k := c.k) (a := a) (r := r) (r0 := 1 / 2 / √((S 0).T a))
      (W := fun i => tc (fun t => √((S t).T a)) (i + 1)) (fun i hi => by
        simp only [HS.push, HS.set]
        rw [tc_sqrt (h.sm a) hp, hD a i hi, half_sum (fun j => tc (fun t => √((S t).T a)) (j + 1)) i]
        congr 2
        split_ifs <;> ring)
    have e2 : hosStep c (.sqrtOp a r) H = .ok { (H.push c r).set r (√(H.T a)) with D := ovC ((H.push c r).set r (√(H.T a))).D r c.k (fun i => tc (fun t => √((S t).T a)) (i + 1)), z := z' } := by
      rw [← e]
      have e0 : ((H.push c r).set r (√(H.T a))).T a ≠ 0 := by
        simp only [HS.set, HS.push, hT]
        rw [upd_apply]
        split_ifs
        · exact hne'
        · rw [hT]; exact hne
      have e1 : ((H.push c r).set r (√(H.T a))).T r = √((S 0).T a) := by
        simp only [HS.set, HS.push, hT, upd_same]
      have e3 : (if ((H.push c r).set r (√(H.T a))).T a = 0 then
          edgeVal c.k (((H.push c r).set r (√(H.T a))).D a) inf nan
          else 1 / 2 / ((H.push c r).set r (√(H.T a))).T r) = 1 / 2 / √((S 0).T a) := by
        rw [if_neg e0, e1]
      rw [← e3]; rfl
    exact ⟨_, _, .of_forall fun t => rfl, e2,
      (h.push hkk hk r).put (r := r) (val := fun t => √((S t).T a)) (smooth_sqrt (h.sm a) hp)
        (fun t => ⟨rfl, rfl, rfl, rfl⟩)
        (congrArg (upd H.T r) (by simp only [hT])) rfl (fun i hi => rfl) ⟨rfl, rfl, rfl⟩⟩
  case cbrtOp a r => exact absurd rfl (hs0.2.2.1 a r rfl).1
  case genQuad => exact hs0.1.elim
  case setRef r k => exact absurd rfl (hs0.2.2.2.1 r k)
  case vecCopy a n r =>
    refine ⟨_, _, .of_forall fun t => rfl, rfl, JetS.foldl (fun S H q h => ?_) h⟩
    simp only [copyRow_eq]
    exact (h.push hkk hk (r + q)).put (r := r + q) (val := fun t => (S t).T (a + q)) (h.sm _) (fun t => ⟨rfl, rfl, rfl, rfl⟩)
      (congrArg (upd H.T (r + q)) (by simp only [HS.push, h.T])) rfl (fun i hi => h.D _ hi) ⟨rfl, rfl, rfl⟩
  case vecDot a b n r =>
    have h1 := (h.push hkk hk r).put (r := r) (S' := fun t => (((S t).push (zc t) r).set r 0))
      (H' := fillRow c.k r 0 ((H.push c r).set r 0)) (val := fun t => 0)
      contDiffAt_const (fun t => ⟨rfl, rfl, rfl, rfl⟩) (by rw [fillRow_eq]; rfl) (by rw [fillRow_eq]; rfl)
      (fun i hi => (tc_const' 0 i).symm) (by rw [fillRow_eq]; exact ⟨rfl, rfl, rfl⟩)
    refine ⟨_, _, .of_forall fun t => rfl, rfl, JetS.foldl (fun S H q h => ?_) h1⟩
    have hT := h.T
    have hD : ∀ l i, i < c.k → H.D l i = tc (fun t => (S t).T l) (i + 1) := fun l i hi => h.D l hi
    have e := prod_loop (s := H) (k := c.k) (a := a + q) (b := b + q) (r := r)
      (φ := fun i s => s.D r i + (s.T (a + q) * s.D (b + q) i + s.D (a + q) i * s.T (b + q)))
      (W := fun i => tc (fun t => (S t).T r + (S t).T (a + q) * (S t).T (b + q)) (i + 1))
      (fun i hi D hD => by simp only [hD _ _ (le_refl i)]) (fun i hi => by
        simp only [hT]
        rw [tc_add (h.sm r) ((h.sm _).mul (h.sm _)), tc_mul_succ (h.sm _) (h.sm _), hD _ i hi, hD _ i hi, hD _ i hi, ← add_assoc]
        congr 1; exact Finset.sum_congr rfl fun j hj => by rw [hD _ j (jl hi hj), hD _ _ (jl2 hi hj)])
    simp only [] at e
    simp only [e]
    exact h.put (r := r) (val := fun t => (S t).T r + (S t).T (a + q) * (S t).T (b + q))
      ((h.sm r).add ((h.sm _).mul (h.sm _))) (fun t => ⟨rfl, rfl, rfl, rfl⟩)
      (congrArg (upd H.T r) (by simp only [hT])) rfl (fun i hi => rfl) ⟨rfl, rfl, rfl⟩
  case vecAxpy a a1 a2 n r =>
    refine ⟨_, _, .of_forall fun t => rfl, rfl, JetS.foldl (fun S H q h => ?_) h⟩
    have hT := h.T
    have hD : ∀ l i, i < c.k → H.D l i = tc (fun t => (S t).T l) (i + 1) := fun l i hi => h.D l hi
    have e := prod_loop (s := H.push c (r + q)) (k := c.k) (a := a) (b := a1 + q) (r := r + q)
      (φ := fun i s => s.T a * s.D (a1 + q) i + s.D a i * s.T (a1 + q) + s.D (a2 + q) i)
      (W := fun i => tc (fun t => (S t).T a * (S t).T (a1 + q) + (S t).T (a2 + q)) (i + 1))
      (fun i hi D hD => by simp only [hD _ _ (le_refl i)]) (fun i hi => by
        simp only [HS.push, hT]
        rw [tc_add ((h.sm _).mul (h.sm _)) (h.sm _), tc_mul_succ (h.sm _) (h.sm _), hD _ i hi, hD _ i hi, hD _ i hi, add_right_comm]
        congr 1; exact Finset.sum_congr rfl fun j hj => by rw [hD _ j (jl hi hj), hD _ _ (jl2 hi hj)])
    simp only [] at e
    simp only [e]
    exact (h.push hkk hk (r + q)).put (r := r + q) (val := fun t => (S t).T a * (S t).T (a1 + q) + (S t).T (a2 + q))
      (((h.sm _).mul (h.sm _)).add (h.sm _)) (fun t => ⟨rfl, rfl, rfl, rfl⟩)
      (congrArg (upd H.T (r + q)) (by simp only [HS.push, hT])) rfl (fun i hi => rfl) ⟨rfl, rfl, rfl⟩
  case takeStock r vs => exact ⟨_, _, .of_forall fun e => rfl, rfl, h.stock⟩
  case deathNot a b =>
    exact ⟨_, _, .of_forall fun e => rfl, rfl, JetS.foldl (fun S H q h => h.push hkk hk (b - q)) h⟩
  case ceilOp a r k =>
    have e := fillRow_eq c.k r 0 (((H.push c r).set r (ceil (H.T a))).dec (k ≠ ((H.push c r).set r (ceil (H.T a))).T r) 2)
    have hc : ∀ᶠ t in 𝓝 (0:ℝ), (ceil ((S t).T a) : ℝ) = ceil ((S 0).T a) := by
      have h1 : (S 0).T a < ⌈(S 0).T a⌉ := lt_of_le_of_ne (Int.le_ceil _) (hs0.1 _)
      have h2 : ((⌈(S 0).T a⌉ : ℤ) : ℝ) - 1 < (S 0).T a := by linarith [Int.ceil_lt_add_one ((S 0).T a)]
      filter_upwards [(h.sm a).continuousAt.eventually_lt continuousAt_const h1,
        continuousAt_const.eventually_lt (h.sm a).continuousAt h2] with t t1 t2
      show ((⌈(S t).T a⌉ : ℤ) : ℝ) = ((⌈(S 0).T a⌉ : ℤ) : ℝ)
      rw [Int.ceil_eq_iff.2 ⟨t2, t1.le⟩]
    refine ⟨_, _, .of_forall fun t => rfl, congrArg Except.ok e,
      (h.push hkk hk r).put (r := r) (val := fun t => ceil ((S t).T a))
        (contDiffAt_const.congr_of_eventuallyEq hc) (fun t => ⟨rfl, rfl, rfl, rfl⟩)
        (congrArg (upd H.T r) (by simp only [hT])) rfl (fun i hi => ?_) ⟨rfl, rfl, rfl⟩⟩
    rw [tc_congr hc, tc_const']
  case floorOp a r k =>
    have e := fillRow_eq c.k r 0 (((H.push c r).set r (floor (H.T a))).dec (k ≠ ((H.push c r).set r (floor (H.T a))).T r) 2)
    have hc : ∀ᶠ t in 𝓝 (0:ℝ), (floor ((S t).T a) : ℝ) = floor ((S 0).T a) := by
      have h1 : ((⌊(S 0).T a⌋ : ℤ) : ℝ) < (S 0).T a := lt_of_le_of_ne (Int.floor_le _) (hs0.1 _).symm
      have h2 : (S 0).T a < ((⌊(S 0).T a⌋ : ℤ) : ℝ) + 1 := Int.lt_floor_add_one _
      filter_upwards [(h.sm a).continuousAt.eventually_lt continuousAt_const h2,
        continuousAt_const.eventually_lt (h.sm a).continuousAt h1] with t t1 t2
      show ((⌊(S t).T a⌋ : ℤ) : ℝ) = ((⌊(S 0).T a⌋ : ℤ) : ℝ)
      rw [Int.floor_eq_iff.2 ⟨t2.le, t1⟩]
    refine ⟨_, _, .of_forall fun t => rfl, congrArg Except.ok e,
      (h.push hkk hk r).put (r := r) (val := fun t => floor ((S t).T a))
        (contDiffAt_const.congr_of_eventuallyEq hc) (fun t => ⟨rfl, rfl, rfl, rfl⟩)
        (congrArg (upd H.T r) (by simp only [hT])) rfl (fun i hi => ?_) ⟨rfl, rfl, rfl⟩⟩
    rw [tc_congr hc, tc_const']
  case absVal a r k =>
    have hne : (S 0).T a ≠ 0 := hs0.1
    have hl : ∀ x : ℝ, x ≠ 0 → ∀ s : HS ℝ, (forUp c.k (fun i (p : HS ℝ × ℝ) =>
        let b := p.2 = 0 ∧ p.1.D a i ≠ 0
        let x := if b then (if p.1.D a i < 0 then -1 else 1) else p.2
        let s := p.1.dec b 1
        (s.setC r i (x * s.D a i), x)) (s, x)) = ({ s with D := ovC s.D r c.k fun i => x * s.D a i }, x) := by
      intro x hx s
      have e := pw (s0 := s) (r := r) (k := c.k) (φ := fun i s => x * s.D a i) (fun i hi D hD => by simp only [hD _ _ (le_refl i)])
      rw [← e]
      generalize c.k = n
      induction n with
      | zero => rfl
      | succ n ih =>
        rw [forUp_succ, ih, forUp_succ]
        simp [hx, HS.dec]
    rcases lt_or_gt_of_ne hne with hlt | hgt
    · refine ⟨fun t => ((((S t).push (zc t) r).dec (k ≠ 0) 2).set r (- (S t).T a)), _, ?_, ?_, 
        (h.push hkk hk r).put (r := r) (val := fun t => - (S t).T a) (h.sm a).neg (fun t => ⟨rfl, rfl, rfl, rfl⟩)
        (H' := { (((H.push c r).dec (k ≠ 0) 2)).set r (- H.T a) with D := ovC H.D r c.k fun i => -1 * H.D a i })
        (congrArg (upd H.T r) (by simp only [hT])) rfl (fun i hi => by rw [tc_neg, hD _ _ hi, neg_one_mul]) ⟨rfl, rfl, rfl⟩⟩
      · filter_upwards [h.ev_neg hlt] with t ht
        have e2 : (fabs ((S t).T a) : ℝ) = - (S t).T a := abs_of_neg ht
        simp [zosStep, ZS.push, ZS.set, ZS.dec, ht, e2]
      · have hl' := hl (-1) (by norm_num)
        simp only [hosStep]
        have e0 : (H.push c r).T a < 0 := by simpa only [HS.push, hT] using hlt
        have e1 : ((H.push c r).dec (k ≠ 0) 2).T a < 0 := e0
        rw [if_pos e0, if_neg e1.ne, if_pos e1, hl']
        have e2 : (fabs (H.T a) : ℝ) = - H.T a := abs_of_neg e0
        simp only [HS.set, HS.push, HS.dec, e2]
    · refine ⟨fun t => ((((S t).push (zc t) r).dec (k = 0) 2).set r ((S t).T a)), _, ?_, ?_, 
        (h.push hkk hk r).put (r := r) (val := fun t => (S t).T a) (h.sm a) (fun t => ⟨rfl, rfl, rfl, rfl⟩)
        (H' := { (((H.push c r).dec (k = 0) 2)).set r (H.T a) with D := ovC H.D r c.k fun i => 1 * H.D a i })
        (congrArg (upd H.T r) (by simp only [hT])) rfl (fun i hi => by rw [hD _ _ hi, one_mul]) ⟨rfl, rfl, rfl⟩⟩
      · filter_upwards [h.ev_pos hgt] with t ht
        have e2 : (fabs ((S t).T a) : ℝ) = (S t).T a := abs_of_pos ht
        simp [zosStep, ZS.push, ZS.set, ZS.dec, ht, ht.not_gt, e2]
      · have hl' := hl 1 (by norm_num)
        simp only [hosStep]
        have e0 : 0 < (H.push c r).T a := by simpa only [HS.push, hT] using hgt
        have e1 : 0 < ((H.push c r).dec (k = 0) 2).T a := e0
        have e3 : (H.push c r).T a > 0 := e0
        rw [if_neg e0.not_gt, if_pos e3, if_neg e1.ne', if_neg e1.not_gt, hl']
        have e2 : (fabs (H.T a) : ℝ) = H.T a := abs_of_pos e0
        simp only [HS.set, HS.push, HS.dec, e2]
  case minOp a b r k =>
    have hs' : (S 0).T a ≠ (S 0).T b ∨ a = b := hs0.1
    rcases hs' with hne | rfl
    · rcases lt_or_gt_of_ne hne with hlt | hgt
      · refine ⟨fun t => ((((S t).push (zc t) r).dec (k = 0) 2).set r ((S t).T a)), _, ?_, ?_, 
          (h.push hkk hk r).put (r := r) (val := fun t => (S t).T a) (h.sm a) (fun t => ⟨rfl, rfl, rfl, rfl⟩)
          (H' := { (((H.push c r).dec (k = 0) 2)).set r (H.T a) with D := ovC H.D r c.k (H.D a) })
          (congrArg (upd H.T r) (by simp only [hT])) rfl (fun i hi => hD _ _ hi) ⟨rfl, rfl, rfl⟩⟩
        · filter_upwards [h.ev_lt hlt] with t ht
          simp [zosStep, ZS.push, ZS.set, ZS.dec, ht.not_gt, ht]
        · simp [hosStep, copyRow_eq, HS.push, HS.dec, HS.set, hT, hlt.not_gt, hlt]
      · refine ⟨fun t => ((((S t).push (zc t) r).dec (k ≠ 0) 2).set r ((S t).T b)), _, ?_, ?_, 
          (h.push hkk hk r).put (r := r) (val := fun t => (S t).T b) (h.sm b) (fun t => ⟨rfl, rfl, rfl, rfl⟩)
          (H' := { (((H.push c r).dec (k ≠ 0) 2)).set r (H.T b) with D := ovC H.D r c.k (H.D b) })
          (congrArg (upd H.T r) (by simp only [hT])) rfl (fun i hi => hD _ _ hi) ⟨rfl, rfl, rfl⟩⟩
        · filter_upwards [h.ev_lt hgt] with t ht
          simp [zosStep, ZS.push, ZS.set, ZS.dec, ht]
        · have hgt' : (S 0).T b < (S 0).T a := hgt
          simp [hosStep, copyRow_eq, HS.push, HS.dec, HS.set, hT, hgt']
    · refine ⟨fun t => ((((S t).push (zc t) r).dec (a ≠ a) 1).set r ((S t).T a)), _, ?_, ?_, 
          (h.push hkk hk r).put (r := r) (val := fun t => (S t).T a) (h.sm a) (fun t => ⟨rfl, rfl, rfl, rfl⟩)
          (H' := { (((H.push c r).dec (a ≠ a) 1)).set r (H.T a) with D := ovC H.D r c.k (H.D a) })
          (congrArg (upd H.T r) (by simp only [hT])) rfl (fun i hi => hD _ _ hi) ⟨rfl, rfl, rfl⟩⟩
      · exact .of_forall fun t => by simp [zosStep, ZS.push, ZS.set, ZS.dec]
      · have : (List.range c.k).find? (fun i => decide (H.D a i ≠ H.D a i)) = none := by simp
        simp [hosStep, copyRow_eq, HS.push, HS.dec, HS.set, hT]
        congr 2
        split <;> rfl
  case condAssign a a1 a2 r k =>
    have hne : (S 0).T a ≠ 0 := hs0.1
    rcases lt_or_gt_of_ne hne with hlt | hgt
    · refine ⟨fun t => (((((S t).push (zc t) r).dec (k > 0) 2).dec false 0).set r ((S t).T a2)), _, ?_, ?_, 
        (h.push hkk hk r).put (r := r) (val := fun t => (S t).T a2) (h.sm a2) (fun t => ⟨rfl, rfl, rfl, rfl⟩)
        (H' := { (((H.push c r).dec (k > 0) 2).dec false 0).set r (H.T a2) with D := ovC H.D r c.k (H.D a2) })
        (congrArg (upd H.T r) (by simp only [hT])) rfl (fun i hi => hD _ _ hi) ⟨rfl, rfl, rfl⟩⟩
      · filter_upwards [h.ev_neg hlt] with t ht
        simp [zosStep, ZS.push, ZS.set, ZS.dec, ht.not_gt, ht.not_ge, ht.ne]
      · simp [hosStep, copyRow_eq, HS.push, HS.dec, HS.set, hT, hlt.not_gt, hlt.not_ge, hlt.ne]
    · refine ⟨fun t => ((((S t).push (zc t) r).dec (k ≤ 0) 2).set r ((S t).T a1)), _, ?_, ?_, 
        (h.push hkk hk r).put (r := r) (val := fun t => (S t).T a1) (h.sm a1) (fun t => ⟨rfl, rfl, rfl, rfl⟩)
        (H' := { (((H.push c r).dec (k ≤ 0) 2)).set r (H.T a1) with D := ovC H.D r c.k (H.D a1) })
        (congrArg (upd H.T r) (by simp only [hT])) rfl (fun i hi => hD _ _ hi) ⟨rfl, rfl, rfl⟩⟩
      · filter_upwards [h.ev_pos hgt] with t ht
        have hl := ht.le
        simp [zosStep, ZS.push, ZS.set, ZS.dec, ht, hl]
      · have ht : 0 < (S 0).T a := hgt
        have hl := ht.le
        simp [hosStep, copyRow_eq, HS.push, HS.dec, HS.set, hT, ht, hl]
  case condEqAssign a a1 a2 r k =>
    have hne : (S 0).T a ≠ 0 := hs0.1
    rcases lt_or_gt_of_ne hne with hlt | hgt
    · refine ⟨fun t => ((((S t).push (zc t) r).dec (k ≥ 0) 2).set r ((S t).T a2)), _, ?_, ?_, 
        (h.push hkk hk r).put (r := r) (val := fun t => (S t).T a2) (h.sm a2) (fun t => ⟨rfl, rfl, rfl, rfl⟩)
        (H' := { (((H.push c r).dec (k ≥ 0) 2)).set r (H.T a2) with D := ovC H.D r c.k (H.D a2) })
        (congrArg (upd H.T r) (by simp only [hT])) rfl (fun i hi => hD _ _ hi) ⟨rfl, rfl, rfl⟩⟩
      · filter_upwards [h.ev_neg hlt] with t ht
        simp [zosStep, ZS.push, ZS.set, ZS.dec, ht.not_gt, ht.not_ge, ht.ne]
      · simp [hosStep, copyRow_eq, HS.push, HS.dec, HS.set, hT, hlt.not_gt, hlt.not_ge, hlt.ne]
    · refine ⟨fun t => ((((S t).push (zc t) r).dec (k < 0) 2).set r ((S t).T a1)), _, ?_, ?_, 
        (h.push hkk hk r).put (r := r) (val := fun t => (S t).T a1) (h.sm a1) (fun t => ⟨rfl, rfl, rfl, rfl⟩)
        (H' := { (((H.push c r).dec (k < 0) 2)).set r (H.T a1) with D := ovC H.D r c.k (H.D a1) })
        (congrArg (upd H.T r) (by simp only [hT])) rfl (fun i hi => hD _ _ hi) ⟨rfl, rfl, rfl⟩⟩
      · filter_upwards [h.ev_pos hgt] with t ht
        have hl := ht.le
        simp [zosStep, ZS.push, ZS.set, ZS.dec, ht, hl]
      · have ht : 0 < (S 0).T a := hgt
        have hl := ht.le
        simp [hosStep, copyRow_eq, HS.push, HS.dec, HS.set, hT, ht, hl]
  case condAssignS a a1 r k =>
    have hne : (S 0).T a ≠ 0 := hs0.1
    rcases lt_or_gt_of_ne hne with hlt | hgt
    · refine ⟨fun t => (((S t).push (zc t) r).dec false 0), (H.push c r).dec false 0, ?_, ?_, 
        (h.push hkk hk r).same (fun t => ⟨rfl, rfl, rfl, rfl⟩) ⟨rfl, rfl, rfl, rfl, rfl⟩⟩
      · filter_upwards [h.ev_neg hlt] with t ht
        simp [zosStep, ZS.push, ZS.set, ZS.dec, ht.not_gt, ht.not_ge, ht.ne]
      · simp [hosStep, copyRow_eq, HS.push, HS.dec, HS.set, hT, hlt.not_gt, hlt.not_ge, hlt.ne]
    · refine ⟨fun t => ((((S t).push (zc t) r).dec (k ≤ 0) 2).set r ((S t).T a1)), _, ?_, ?_, 
        (h.push hkk hk r).put (r := r) (val := fun t => (S t).T a1) (h.sm a1) (fun t => ⟨rfl, rfl, rfl, rfl⟩)
        (H' := { (((H.push c r).dec (k ≤ 0) 2)).set r (H.T a1) with D := ovC H.D r c.k (H.D a1) })
        (congrArg (upd H.T r) (by simp only [hT])) rfl (fun i hi => hD _ _ hi) ⟨rfl, rfl, rfl⟩⟩
      · filter_upwards [h.ev_pos hgt] with t ht
        have hl := ht.le
        simp [zosStep, ZS.push, ZS.set, ZS.dec, ht, hl]
      · have ht : 0 < (S 0).T a := hgt
        have hl := ht.le
        simp [hosStep, copyRow_eq, HS.push, HS.dec, HS.set, hT, ht, hl]
  case condEqAssignS a a1 r k =>
    have hne : (S 0).T a ≠ 0 := hs0.1
    rcases lt_or_gt_of_ne hne with hlt | hgt
    · refine ⟨fun t => (((S t).push (zc t) r)), (H.push c r), ?_, ?_, 
        (h.push hkk hk r).same (fun t => ⟨rfl, rfl, rfl, rfl⟩) ⟨rfl, rfl, rfl, rfl, rfl⟩⟩
      · filter_upwards [h.ev_neg hlt] with t ht
        simp [zosStep, ZS.push, ZS.set, ZS.dec, ht.not_gt, ht.not_ge, ht.ne]
      · simp [hosStep, copyRow_eq, HS.push, HS.dec, HS.set, hT, hlt.not_gt, hlt.not_ge, hlt.ne]
    · refine ⟨fun t => ((((S t).push (zc t) r).dec (k < 0) 2).set r ((S t).T a1)), _, ?_, ?_, 
        (h.push hkk hk r).put (r := r) (val := fun t => (S t).T a1) (h.sm a1) (fun t => ⟨rfl, rfl, rfl, rfl⟩)
        (H' := { (((H.push c r).dec (k < 0) 2)).set r (H.T a1) with D := ovC H.D r c.k (H.D a1) })
        (congrArg (upd H.T r) (by simp only [hT])) rfl (fun i hi => hD _ _ hi) ⟨rfl, rfl, rfl⟩⟩
      · filter_upwards [h.ev_pos hgt] with t ht
        have hl := ht.le
        simp [zosStep, ZS.push, ZS.set, ZS.dec, ht, hl]
      · have ht : 0 < (S 0).T a := hgt
        have hl := ht.le
        simp [hosStep, copyRow_eq, HS.push, HS.dec, HS.set, hT, ht, hl]

end Verif.AD
