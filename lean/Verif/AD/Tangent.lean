import Verif.AD.Forward
import Verif.AD.RealInst
import Verif.AD.FovFos
import Verif.AD.RevRun
import Mathlib.Analysis.Calculus.Deriv.Abs

/-!
`fos_forward` computes the derivative of the function `zos_forward` computes.
-/
set_option linter.all false
namespace Verif.AD
open Elem Filter Topology

variable {E : Type} [NormedAddCommGroup E] [NormedSpace ℝ E]

/-- `f` is Fréchet differentiable at `e0` with derivative `d`. -/
def FD (e0 : E) (f d : E → ℝ) : Prop := ∃ D : E →L[ℝ] ℝ, HasFDerivAt f D e0 ∧ ∀ w, D w = d w

namespace FD
variable {e0 : E} {f g d d' df dg : E → ℝ}

theorem congr (h : FD e0 f d) (he : ∀ w, d w = d' w) : FD e0 f d' := by
  obtain ⟨D, h1, h2⟩ := h
  exact ⟨D, h1, fun w => (h2 w).trans (he w)⟩

theorem congrF (h : FD e0 f d) (he : g =ᶠ[𝓝 e0] f) : FD e0 g d := by
  obtain ⟨D, h1, h2⟩ := h
  exact ⟨D, h1.congr_of_eventuallyEq he, h2⟩

theorem const (x : ℝ) : FD e0 (fun _ => x) (fun _ => 0) :=
  ⟨0, hasFDerivAt_const x e0, fun w => rfl⟩

theorem add (hf : FD e0 f df) (hg : FD e0 g dg) :
    FD e0 (fun e => f e + g e) (fun w => df w + dg w) := by
  obtain ⟨D, h1, h2⟩ := hf; obtain ⟨D', h3, h4⟩ := hg
  exact ⟨D + D', h1.add h3, fun w => by simp [h2, h4]⟩

theorem neg (hf : FD e0 f df) : FD e0 (fun e => - f e) (fun w => - df w) := by
  obtain ⟨D, h1, h2⟩ := hf
  exact ⟨-D, h1.neg, fun w => by simp [h2]⟩

theorem sub (hf : FD e0 f df) (hg : FD e0 g dg) :
    FD e0 (fun e => f e - g e) (fun w => df w - dg w) := by
  obtain ⟨D, h1, h2⟩ := hf; obtain ⟨D', h3, h4⟩ := hg
  exact ⟨D - D', h1.sub h3, fun w => by simp [h2, h4]⟩

theorem mul (hf : FD e0 f df) (hg : FD e0 g dg) :
    FD e0 (fun e => f e * g e) (fun w => f e0 * dg w + df w * g e0) := by
  obtain ⟨D, h1, h2⟩ := hf; obtain ⟨D', h3, h4⟩ := hg
  exact ⟨f e0 • D' + g e0 • D, h1.mul h3, fun w => by simp [h2, h4, mul_comm]⟩

theorem comp {φ : ℝ → ℝ} {φ' : ℝ} (hf : FD e0 f df) (hφ : HasDerivAt φ φ' (f e0)) :
    FD e0 (fun e => φ (f e)) (fun w => φ' * df w) := by
  obtain ⟨D, h1, h2⟩ := hf
  exact ⟨φ' • D, hφ.comp_hasFDerivAt e0 h1, fun w => by simp [h2]⟩

theorem div (hf : FD e0 f df) (hg : FD e0 g dg) (h0 : g e0 ≠ 0) :
    FD e0 (fun e => f e / g e)
      (fun w => df w * (1 / g e0) + f e0 / g e0 * (- dg w * (1 / g e0))) := by
  have hi : FD e0 (fun e => (g e)⁻¹) (fun w => -(g e0 ^ 2)⁻¹ * dg w) :=
    hg.comp (φ := fun x => x⁻¹) (hasDerivAt_inv h0)
  have := hf.mul hi
  simp only [← div_eq_mul_inv] at this
  refine this.congr fun w => ?_
  field_simp
  ring

theorem continuousAt (hf : FD e0 f df) : ContinuousAt f e0 := by
  obtain ⟨D, h1, h2⟩ := hf
  exact h1.continuousAt

theorem ev_lt {x : ℝ} (hf : FD e0 f df) (h : f e0 < x) : ∀ᶠ e in 𝓝 e0, f e < x :=
  hf.continuousAt.eventually_lt continuousAt_const h

theorem ev_gt {x : ℝ} (hf : FD e0 f df) (h : x < f e0) : ∀ᶠ e in 𝓝 e0, x < f e :=
  continuousAt_const.eventually_lt hf.continuousAt h

theorem ev_lt_lt (hf : FD e0 f df) (hg : FD e0 g dg) (h : f e0 < g e0) :
    ∀ᶠ e in 𝓝 e0, f e < g e := hf.continuousAt.eventually_lt hg.continuousAt h
end FD

/-- The family `S` of value states near `e0` has the family `F` of tangent states as its
linearization. -/
structure Lin (e0 : E) (S : E → ZS ℝ) (F : E → FS ℝ) (i m : Nat) : Prop where
  T0 : ∀ w, (F w).T = (S e0).T
  ii : ∀ e, (S e).ii = i
  fii : ∀ w, (F w).ii = i
  der : ∀ l, FD e0 (fun e => (S e).T l) (fun w => (F w).dT l)
  ylen : ∀ e, (S e).y.length = m
  dylen : ∀ w, (F w).dy.length = m
  yder : ∀ j : Nat, FD e0 (fun e => (S e).y[j]?.getD 0) (fun w => (F w).dy[j]?.getD 0)

variable {e0 : E} {S S' : E → ZS ℝ} {F F' : E → FS ℝ} {i m : Nat}

/-- Same values and tangents, other components arbitrary. -/
theorem Lin.same (h : Lin e0 S F i m)
    (hS : ∀ e, (S' e).T = (S e).T ∧ (S' e).ii = (S e).ii ∧ (S' e).y = (S e).y)
    (hF : ∀ w, (F' w).T = (F w).T ∧ (F' w).dT = (F w).dT ∧ (F' w).ii = (F w).ii ∧
      (F' w).dy = (F w).dy) : Lin e0 S' F' i m := by
  obtain ⟨h1, h2, h3, h4, h5, h6, h7⟩ := h
  constructor
  · intro w; rw [(hF w).1, (hS e0).1]; exact h1 w
  · intro e; rw [(hS e).2.1]; exact h2 e
  · intro w; rw [(hF w).2.2.1]; exact h3 w
  · intro l; simp only [(hS _).1, (hF _).2.1]; exact h4 l
  · intro e; rw [(hS e).2.2]; exact h5 e
  · intro w; rw [(hF w).2.2.2]; exact h6 w
  · intro j; simp only [(hS _).2.2, (hF _).2.2.2]; exact h7 j

/-- One assignment. -/
theorem Lin.assign (h : Lin e0 S F i m) {r : Nat} {val d : E → ℝ} (hv : FD e0 val d)
    (hS : ∀ e, (S' e).T = upd (S e).T r (val e) ∧ (S' e).ii = (S e).ii ∧ (S' e).y = (S e).y)
    (hF : ∀ w, (F' w).T = upd (F w).T r (val e0) ∧ (F' w).dT = upd (F w).dT r (d w) ∧
      (F' w).ii = (F w).ii ∧ (F' w).dy = (F w).dy) : Lin e0 S' F' i m := by
  obtain ⟨h1, h2, h3, h4, h5, h6, h7⟩ := h
  constructor
  · intro w; rw [(hF w).1, (hS e0).1, h1 w]
  · intro e; rw [(hS e).2.1]; exact h2 e
  · intro w; rw [(hF w).2.2.1]; exact h3 w
  · intro l
    simp only [(hS _).1, (hF _).2.1, upd_apply]
    split_ifs
    · exact hv
    · exact h4 l
  · intro e; rw [(hS e).2.2]; exact h5 e
  · intro w; rw [(hF w).2.2.2]; exact h6 w
  · intro j; simp only [(hS _).2.2, (hF _).2.2.2]; exact h7 j

/-- Not one of the arguments at which a `Quad` operation returns a special tangent
(uni5_for.cpp:2760, 2860, 3020, 3105). -/
def quadEdge (q : Quad) (x : ℝ) : Prop :=
  match q with
  | .asin | .acos | .atanh => x ≠ 1 ∧ x ≠ -1
  | .acosh => x ≠ 1
  | _ => True

/-- Where the elementary operation, with the other operands it stores, is differentiable in
a neighbourhood and consistent: operands inside the open domain, no branch taken at its
boundary, and beside a `Quad` operation the value of its derivative. -/
def smooth (o : Base ℝ) (T : Nat → ℝ) : Prop :=
  match o with
  | .cmp _ a => T a ≠ 0
  | .divAA _ b _ => T b ≠ 0
  | .divDA a _ _ => T a ≠ 0
  | .sinOp a b r | .cosOp a b r => a ≠ b ∧ b ≠ r
  | .quad q a b r => quadDom q (T a) ∧ T b = quadDer q (T a) ∧ b ≠ r ∧
      (a = r → quadEdge q (q.fn (T a)))
  | .logOp a _ => 0 < T a
  | .powOp a _ k => 0 < T a ∨ (T a < 0 ∧ ∃ n : ℤ, k = n) ∨ (T a = 0 ∧ 1 ≤ k)
  | .sqrtOp a _ => 0 < T a
  | .cbrtOp a _ => T a ≠ 0
  | .genQuad _ _ _ _ _ => False
  | .minOp a b _ _ => T a ≠ T b ∨ a = b
  | .absVal a _ _ => T a ≠ 0
  | .ceilOp a _ _ | .floorOp a _ _ => ∀ n : ℤ, T a ≠ n
  | .condAssign a _ _ _ _ | .condEqAssign a _ _ _ _ | .condAssignS a _ _ _
  | .condEqAssignS a _ _ _ => T a ≠ 0
  | _ => True


theorem Lin.foldl {γ : Type} {f : E → ZS ℝ → γ → ZS ℝ} {g : E → FS ℝ → γ → FS ℝ} {J : List γ}
    (hf : ∀ S F, ∀ q ∈ J, Lin e0 S F i m →
      Lin e0 (fun e => f e (S e) q) (fun w => g w (F w) q) i m)
    (h : Lin e0 S F i m) :
    Lin e0 (fun e => J.foldl (f e) (S e)) (fun w => J.foldl (g w) (F w)) i m := by
  induction J generalizing S F with
  | nil => exact h
  | cons x J ih =>
    exact ih (fun S F q hq => hf S F q (by simp [hq])) (hf S F x (by simp) h)

theorem Lin.stock {vs : List ℝ} {r : Nat} (h : Lin e0 S F i m) :
    Lin e0 (fun e => (vs.foldl (fun (p : Nat × ZS ℝ) v => (p.1 + 1, p.2.set p.1 v)) (r, S e)).2)
      (fun w => (vs.foldl (fun (p : Nat × FS ℝ) k => (p.1 + 1, (p.2.set p.1 k).setD p.1 0)) (r, F w)).2)
      i m := by
  induction vs generalizing S F r with
  | nil => exact h
  | cons x vs ih =>
    exact ih (r := r + 1) (S := fun e => (S e).set r x) (F := fun w => ((F w).set r x).setD r 0)
      (h.assign (r := r) (FD.const x) (fun e => ⟨rfl, rfl, rfl⟩) (fun w => ⟨rfl, rfl, rfl, rfl⟩))

theorem hasDerivAt_ceil {x : ℝ} (hx : ∀ n : ℤ, x ≠ n) :
    HasDerivAt (fun y : ℝ => ((⌈y⌉ : ℤ) : ℝ)) 0 x := by
  refine (hasDerivAt_const x ((⌈x⌉ : ℤ) : ℝ)).congr_of_eventuallyEq ?_
  have h1 : x < ⌈x⌉ := lt_of_le_of_ne (Int.le_ceil x) (hx _)
  have h2 : (⌈x⌉ : ℝ) - 1 < x := by linarith [Int.ceil_lt_add_one x]
  filter_upwards [Iio_mem_nhds h1, Ioi_mem_nhds h2] with y hy1 hy2
  have : ⌈y⌉ = ⌈x⌉ := by rw [Int.ceil_eq_iff]; exact ⟨hy2, le_of_lt hy1⟩
  rw [this]

theorem hasDerivAt_floor {x : ℝ} (hx : ∀ n : ℤ, x ≠ n) :
    HasDerivAt (fun y : ℝ => ((⌊y⌋ : ℤ) : ℝ)) 0 x := by
  refine (hasDerivAt_const x ((⌊x⌋ : ℤ) : ℝ)).congr_of_eventuallyEq ?_
  have h1 : (⌊x⌋ : ℝ) < x := lt_of_le_of_ne (Int.floor_le x) (Ne.symm (hx _))
  have h2 : x < (⌊x⌋ : ℝ) + 1 := Int.lt_floor_add_one x
  filter_upwards [Ioi_mem_nhds h1, Iio_mem_nhds h2] with y hy1 hy2
  have : ⌊y⌋ = ⌊x⌋ := by rw [Int.floor_eq_iff]; exact ⟨le_of_lt hy1, hy2⟩
  rw [this]

/-- closes the bookkeeping goals of an assignment case -/
macro "lin_auto" h:ident fd:term : tactic => `(tactic|
  exact ⟨_, _, .of_forall fun e => rfl, fun w => rfl,
    Lin.assign $h $fd (fun e => ⟨rfl, rfl, rfl⟩)
      (fun w => ⟨by simp only [FS.setD, FS.set, FS.push, Lin.T0 $h, upd_same, upd_upd],
        by simp only [FS.setD, FS.set, FS.push, Lin.T0 $h, upd_same, upd_self], rfl, rfl⟩)⟩)

set_option maxHeartbeats 4000000 in
theorem lin_step {c : E → Cfg ℝ} {v : E → Nat → ℝ} (hpar : ∀ e, (c e).par = (c e0).par)
    (hx : ∀ i, FD e0 (fun e => (c e).x i) (fun w => v w i))
    {o : Base ℝ} (h : Lin e0 S F i m) (hs : smooth o (S e0).T)
    (href : ∀ r k, o = .setRef r k → ∀ w, (F w).dT r = 0)
    (hok : ∃ z, zosStep (c e0) o (S e0) = .ok z) :
    ∃ S' F', (∀ᶠ e in 𝓝 e0, zosStep (c e) o (S e) = .ok (S' e)) ∧
      (∀ w, fosStep (c e0) (v w) o (F w) = .ok (F' w)) ∧
      Lin e0 S' F' (i + o.nInd) (m + o.nDep) := by
  have hT := h.T0
  cases o
  case assignA a r => lin_auto h (h.der a)
  case posSign a r => lin_auto h (h.der a)
  case assignD r k => lin_auto h (FD.const k)
  case assignD0 r => lin_auto h (FD.const 0)
  case assignD1 r => lin_auto h (FD.const 1)
  case assignP p r =>
    exact ⟨_, _, .of_forall fun e => rfl, fun w => rfl,
      h.assign (FD.const ((c e0).par p)) (fun e => ⟨by simp only [ZS.set, ZS.push, hpar], rfl, rfl⟩)
      (fun w => ⟨rfl, rfl, rfl, rfl⟩)⟩
  case eqPlusD r k => lin_auto h (((h.der r).add (FD.const k)).congr fun w => add_zero _)
  case eqPlusA a r => lin_auto h ((h.der r).add (h.der a))
  case eqMinD r k => lin_auto h (((h.der r).sub (FD.const k)).congr fun w => sub_zero _)
  case eqMinA a r => lin_auto h ((h.der r).sub (h.der a))
  case eqMultD r k => lin_auto h (((h.der r).mul (FD.const k)).congr (d' := fun w => (F w).dT r * k) fun w => by ring)
  case eqMultA a r => lin_auto h ((h.der r).mul (h.der a))
  case incrA r => lin_auto h (((h.der r).add (FD.const 1)).congr fun w => add_zero _)
  case decrA r => lin_auto h (((h.der r).sub (FD.const 1)).congr fun w => sub_zero _)
  case plusAA a b r => lin_auto h ((h.der a).add (h.der b))
  case plusDA a r k => lin_auto h (((h.der a).add (FD.const k)).congr fun w => add_zero _)
  case minAA a b r => lin_auto h ((h.der a).sub (h.der b))
  case minDA a r k => lin_auto h (((FD.const k).sub (h.der a)).congr fun w => zero_sub _)
  case multAA a b r => lin_auto h ((h.der a).mul (h.der b))
  case eqPlusProd a b r => lin_auto h ((h.der r).add ((h.der a).mul (h.der b)))
  case eqMinProd a b r => lin_auto h ((h.der r).sub ((h.der a).mul (h.der b)))
  case multDA a r k => lin_auto h (((h.der a).mul (FD.const k)).congr (d' := fun w => (F w).dT a * k) fun w => by ring)
  case negSign a r => lin_auto h ((h.der a).neg)
  case expOp a r =>
    exact ⟨_, _, .of_forall fun e => rfl, fun w => rfl,
      h.assign ((h.der a).comp (Real.hasDerivAt_exp _)) (fun e => ⟨rfl, rfl, rfl⟩)
      (fun w => ⟨by simp only [FS.setD, FS.set, FS.push, hT]; rfl,
        by simp only [FS.setD, FS.set, FS.push, hT, upd_same]; rfl, rfl, rfl⟩)⟩
  case divAA a b r => lin_auto h ((h.der a).div (h.der b) hs)
  case divDA a r k =>
    lin_auto h (((FD.const k).div (h.der a) hs).congr
      (d' := fun w => k / (S e0).T a * (-(F w).dT a * (1 / (S e0).T a))) fun w => by ring)
  case logOp a r =>
    have hs : 0 < (S e0).T a := hs
    have hne := hs.ne'
    refine ⟨_, _, .of_forall fun e => rfl, fun w => rfl,
      h.assign (((h.der a).comp (Real.hasDerivAt_log hs.ne')).congr
        (d' := fun w => (F w).dT a * (1 / (S e0).T a)) fun w => by ring) (fun e => ⟨rfl, rfl, rfl⟩)
      (fun w => ⟨by simp only [FS.setD, FS.set, FS.push, hT]; rfl, ?_, rfl, rfl⟩)⟩
    simp [FS.setD, FS.set, FS.push, hT, hne]
  case sqrtOp a r =>
    have hs : 0 < (S e0).T a := hs
    have hne := hs.ne'
    refine ⟨_, _, .of_forall fun e => rfl, fun w => rfl,
      h.assign (((h.der a).comp (Real.hasDerivAt_sqrt hs.ne')).congr
        (d' := fun w => 1 / 2 / √((S e0).T a) * (F w).dT a) fun w => by rw [div_div])
      (fun e => ⟨rfl, rfl, rfl⟩)
      (fun w => ⟨by simp only [FS.setD, FS.set, FS.push, hT]; rfl, ?_, rfl, rfl⟩)⟩
    have hne' : √((S e0).T a) ≠ 0 := (Real.sqrt_pos.2 hs).ne'
    simp only [FS.setD, FS.set, FS.push, hT, upd_same]
    rw [if_neg]
    · rfl
    · rw [upd_apply]; split_ifs
      · exact hne'
      · exact hne
  case cbrtOp a r =>
    have hne : (S e0).T a ≠ 0 := hs
    refine ⟨_, _, .of_forall fun e => rfl, fun w => rfl,
      h.assign ((h.der a).comp (hasDerivAt_rcbrt hne))
      (fun e => ⟨rfl, rfl, rfl⟩)
      (fun w => ⟨by simp only [FS.setD, FS.set, FS.push, hT]; rfl, ?_, rfl, rfl⟩)⟩
    simp only [FS.setD, FS.set, FS.push, hT, upd_same]
    rw [if_neg]
    · rfl
    · rw [upd_apply]; split_ifs
      · show rcbrt _ ≠ 0
        unfold rcbrt
        exact mul_ne_zero (by rcases lt_or_gt_of_ne hne with h | h <;> simp [sign_neg, sign_pos, h])
          (Real.rpow_pos_of_pos (abs_pos.2 hne) _).ne'
      · exact hne
  case assignInd r =>
    have hS' : Lin e0 S F i m := h
    refine ⟨_, _, .of_forall fun e => rfl, fun w => rfl, ?_⟩
    have := h.assign (S' := fun e => ((S e).push (c e) r).set r ((c e).x i))
      (F' := fun w => (((F w).push (c e0) r).set r ((c e0).x i)).setD r (v w i))
      (hx i) (fun e => ⟨rfl, rfl, rfl⟩) (fun w => ⟨rfl, rfl, rfl, rfl⟩)
    obtain ⟨h1, h2, h3, h4, h5, h6, h7⟩ := this
    simp only [FS.push, FS.set, FS.setD, ZS.push, ZS.set] at h1 h2 h3 h4 h5 h6 h7
    constructor
    · intro w; simp only [FS.push, FS.set, FS.setD, ZS.push, ZS.set, h.fii, h.ii]; exact h1 w
    · intro e; simp only [ZS.push, ZS.set, h.ii]; rfl
    · intro w; simp only [FS.push, FS.set, FS.setD, h.fii]; rfl
    · intro l; simp only [FS.push, FS.set, FS.setD, ZS.push, ZS.set, h.fii, h.ii]; exact h4 l
    · exact h5
    · exact h6
    · exact h7
  case assignDep r =>
    refine ⟨_, _, .of_forall fun e => rfl, fun w => rfl, ?_⟩
    refine ⟨h.T0, h.ii, h.fii, h.der, fun e => by simp [h.ylen, Base.nDep],
      fun w => by simp [h.dylen, Base.nDep], fun j => ?_⟩
    rcases lt_trichotomy j m with hj | hj | hj
    · simp only [List.getElem?_append, h.ylen, h.dylen, hj, if_true]
      exact h.yder j
    · subst hj
      simp only [List.getElem?_append, h.ylen, h.dylen, lt_irrefl, if_false, Nat.sub_self]
      exact h.der r
    · have : ¬ j < m := by omega
      simp only [List.getElem?_append, h.ylen, h.dylen, this, if_false]
      have e : ∀ x : ℝ, ([x] : List ℝ)[j - m]? = none := fun x => by simp; omega
      simp only [e]
      exact FD.const _
  case cmp q a =>
    have hne : (S e0).T a ≠ 0 := hs
    obtain ⟨z, hz⟩ := hok
    simp only [zosStep] at hz
    split at hz
    case isFalse => cases hz
    case isTrue hq =>
    refine ⟨S, F, ?_, ?_, h⟩
    · rcases lt_or_gt_of_ne hne with hlt | hgt
      · filter_upwards [(h.der a).ev_lt hlt] with e he
        have he' := he.le
        have hen := he.ne
        cases q <;> simp [Cmp.holds] at hq <;> simp [zosStep, Cmp.holds, he, he', hen] <;> linarith
      · filter_upwards [(h.der a).ev_gt hgt] with e he
        have he' := he.le
        have hen := he.ne'
        cases q <;> simp [Cmp.holds] at hq <;> simp [zosStep, Cmp.holds, he, he', hen] <;> linarith
    · intro w
      cases q <;> simp [Cmp.holds] at hq <;> simp [fosStep, Cmp.holds, hT, hq, hne]
      all_goals first | exact absurd hq hne | rw [← hT w]
  case sinOp a b r =>
    obtain ⟨hab, hbr⟩ := hs
    refine ⟨_, _, .of_forall fun e => rfl, fun w => rfl, ?_⟩
    have h1 := h.assign (r := b) (S' := fun e => ((((S e).push (c e) b).push (c e) r).set b (Real.cos ((S e).T a))))
      (F' := fun w => ((((F w).push (c e0) b).push (c e0) r).set b (Real.cos ((S e0).T a))).setD b
        (-Real.sin ((S e0).T a) * (F w).dT a))
      ((h.der a).comp (Real.hasDerivAt_cos _)) (fun e => ⟨rfl, rfl, rfl⟩)
      (fun w => ⟨rfl, rfl, rfl, rfl⟩)
    refine h1.assign (r := r) ((h.der a).comp (Real.hasDerivAt_sin _))
      (fun e => ⟨?_, rfl, rfl⟩) (fun w => ⟨?_, ?_, rfl, rfl⟩)
    · simp only [ZS.set, ZS.push, upd_ne _ _ hab]; rfl
    · simp only [FS.setD, FS.set, FS.push, hT, upd_ne _ _ hab]; rfl
    · simp only [FS.setD, FS.set, FS.push, hT, upd_ne _ _ hab, upd_same, upd_ne _ _ hbr]; rfl
  case cosOp a b r =>
    obtain ⟨hab, hbr⟩ := hs
    refine ⟨_, _, .of_forall fun e => rfl, fun w => rfl, ?_⟩
    have h1 := h.assign (r := b) (S' := fun e => ((((S e).push (c e) b).push (c e) r).set b (Real.sin ((S e).T a))))
      (F' := fun w => ((((F w).push (c e0) b).push (c e0) r).set b (Real.sin ((S e0).T a))).setD b
        (Real.cos ((S e0).T a) * (F w).dT a))
      ((h.der a).comp (Real.hasDerivAt_sin _)) (fun e => ⟨rfl, rfl, rfl⟩)
      (fun w => ⟨rfl, rfl, rfl, rfl⟩)
    refine h1.assign (r := r) ((h.der a).comp (Real.hasDerivAt_cos _))
      (fun e => ⟨?_, rfl, rfl⟩) (fun w => ⟨?_, ?_, rfl, rfl⟩)
    · simp only [ZS.set, ZS.push, upd_ne _ _ hab]; rfl
    · simp only [FS.setD, FS.set, FS.push, hT, upd_ne _ _ hab]; rfl
    · simp only [FS.setD, FS.set, FS.push, hT, upd_ne _ _ hab, upd_same, upd_ne _ _ hbr]; rfl
  case quad q a b r =>
    obtain ⟨hd, hb, hbr, hal⟩ := hs
    refine ⟨_, _, .of_forall fun e => rfl, fun w => rfl,
      h.assign ((h.der a).comp (hasDerivAt_quad hd))
      (fun e => ⟨rfl, rfl, rfl⟩)
      (fun w => ⟨by simp only [FS.setD, FS.set, FS.push, hT], ?_, rfl, rfl⟩)⟩
    simp only [FS.setD, FS.set, FS.push, hT, upd_ne _ _ hbr, hb]
    congr 1
    have key : ∀ x : ℝ, quadEdge q x → quadTangent q x ((F w).dT a) (quadDer q ((S e0).T a)) =
          quadDer q ((S e0).T a) * (F w).dT a := by
      intro x hx
      cases q <;> simp only [quadTangent] <;> simp only [quadEdge] at hx
      · rw [if_neg hx.1, if_neg hx.2]
      · rw [if_neg hx.1, if_neg hx.2]
      · rw [if_neg hx]
      · rw [if_neg hx.1, if_neg hx.2]
    refine key _ ?_
    rw [upd_apply]
    split_ifs with har
    · exact hal har
    · cases q <;> simp only [quadDom] at hd <;> simp only [quadEdge]
      · exact ⟨hd.2.ne, hd.1.ne'⟩
      · exact ⟨hd.2.ne, hd.1.ne'⟩
      · exact hd.ne'
      · exact ⟨hd.2.ne, hd.1.ne'⟩
  case powOp a r k =>
    have hk : (S e0).T a ≠ 0 ∨ ((S e0).T a = 0 ∧ 1 ≤ k) := by
      rcases hs with h1 | h1 | h1
      · exact .inl h1.ne'
      · exact .inl h1.1.ne
      · exact .inr h1
    have hd := (h.der a).comp (φ := fun x => x ^ k)
      (Real.hasDerivAt_rpow_const (x := (S e0).T a) (p := k) (hk.imp id And.right))
    rcases hk with hne | ⟨h0, hk1⟩
    · refine ⟨_, fun w => (((F w).push (c e0) r).set r ((S e0).T a ^ k)).setD r
          ((S e0).T a ^ k * (F w).dT a * k * (1 / (S e0).T a)), .of_forall fun e => rfl, fun w => ?_,
        h.assign (hd.congr (d' := fun w => (S e0).T a ^ k * (F w).dT a * k * (1 / (S e0).T a)) ?_)
          (fun e => ⟨rfl, rfl, rfl⟩) (fun w => ⟨rfl, rfl, rfl, rfl⟩)⟩
      · simp only [fosStep, FS.setD, FS.set, FS.push, hT, if_neg hne, upd_same]; rfl
      · intro w
        show k * (S e0).T a ^ (k - 1) * _ = _
        rw [Real.rpow_sub_one hne]
        field_simp
    · refine ⟨_, fun w => (((F w).push (c e0) r).set r ((S e0).T a ^ k)).setD r
          (powZeroTangent k ((F w).dT a) ((F w).dT r)), .of_forall fun e => rfl, fun w => ?_,
        h.assign (hd.congr (d' := fun w => powZeroTangent k ((F w).dT a) ((F w).dT r)) ?_)
          (fun e => ⟨rfl, rfl, rfl⟩) (fun w => ⟨rfl, rfl, rfl, rfl⟩)⟩
      · simp only [fosStep, FS.setD, FS.set, FS.push, hT, if_pos h0]; rfl
      · intro w
        show k * (S e0).T a ^ (k - 1) * _ = _
        rw [h0]
        have hk0 : 0 < k := by linarith
        rcases hk1.eq_or_lt with rfl | hk1
        · simp [powZeroTangent]
        · have hz : (0:ℝ) ^ (k - 1) = 0 := Real.zero_rpow (by linarith)
          rw [hz]
          unfold powZeroTangent
          rw [if_neg (by linarith), if_pos (by rw [if_pos hk0.ne']; linarith)]
          simp only [if_pos hk1]
          rw [if_neg (by linarith), if_neg (fun h => by linarith [h.1])]
          ring
  case ceilOp a r k =>
    exact ⟨_, _, .of_forall fun e => rfl, fun w => rfl,
      h.assign (((h.der a).comp (hasDerivAt_ceil hs)).congr fun w => zero_mul _) (fun e => ⟨rfl, rfl, rfl⟩)
      (fun w => ⟨by simp only [FS.setD, FS.set, FS.push, FS.dec, hT]; rfl, rfl, rfl, rfl⟩)⟩
  case floorOp a r k =>
    exact ⟨_, _, .of_forall fun e => rfl, fun w => rfl,
      h.assign (((h.der a).comp (hasDerivAt_floor hs)).congr fun w => zero_mul _) (fun e => ⟨rfl, rfl, rfl⟩)
      (fun w => ⟨by simp only [FS.setD, FS.set, FS.push, FS.dec, hT]; rfl, rfl, rfl, rfl⟩)⟩
  case genQuad => exact hs.elim
  case setRef r k =>
    exact ⟨_, _, .of_forall fun e => rfl, fun w => rfl,
      h.assign (FD.const k) (fun e => ⟨rfl, rfl, rfl⟩)
      (fun w => ⟨rfl, by
        have := href r k rfl w
        simp only [FS.set, FS.push]
        conv_lhs => rw [← upd_self (F w).dT r, this], rfl, rfl⟩)⟩
  case vecCopy a n r =>
    refine ⟨_, _, .of_forall fun e => rfl, fun w => rfl, Lin.foldl (fun S F q hq h => ?_) h⟩
    exact h.assign (h.der (a + q)) (fun e => ⟨rfl, rfl, rfl⟩)
      (fun w => ⟨by simp only [FS.setD, FS.set, FS.push, h.T0], rfl, rfl, rfl⟩)
  case vecDot a b n r =>
    have h1 := h.assign (r := r) (S' := fun e => (((S e).push (c e) r).set r 0))
      (F' := fun w => ((((F w).push (c e0) r).set r 0)).setD r 0)
      (FD.const 0) (fun e => ⟨rfl, rfl, rfl⟩) (fun w => ⟨rfl, rfl, rfl, rfl⟩)
    refine ⟨_, _, .of_forall fun e => rfl, fun w => rfl, Lin.foldl (fun S F q hq h => ?_) h1⟩
    exact h.assign ((h.der r).add ((h.der (a + q)).mul (h.der (b + q)))) (fun e => ⟨rfl, rfl, rfl⟩)
      (fun w => ⟨by simp only [FS.setD, FS.set, FS.push, h.T0], by simp only [FS.setD, FS.set, FS.push, h.T0], rfl, rfl⟩)
  case vecAxpy a a1 a2 n r =>
    refine ⟨_, _, .of_forall fun e => rfl, fun w => rfl, Lin.foldl (fun S F q hq h => ?_) h⟩
    exact h.assign (((h.der a).mul (h.der (a1 + q))).add (h.der (a2 + q))) (fun e => ⟨rfl, rfl, rfl⟩)
      (fun w => ⟨by simp only [FS.setD, FS.set, FS.push, h.T0], by simp only [FS.setD, FS.set, FS.push, h.T0], rfl, rfl⟩)
  case takeStock r vs => exact ⟨_, _, .of_forall fun e => rfl, fun w => rfl, h.stock⟩
  case deathNot a b =>
    exact ⟨_, _, .of_forall fun e => rfl, fun w => rfl, Lin.foldl (fun S F q hq h => 
      h.same (fun e => ⟨rfl, rfl, rfl⟩) (fun w => ⟨rfl, rfl, rfl, rfl⟩)) h⟩
  case absVal a r k =>
    have hne : (S e0).T a ≠ 0 := hs
    rcases lt_or_gt_of_ne hne with hlt | hgt
    · refine ⟨_, _, .of_forall fun e => rfl, fun w => rfl,
        h.assign (r := r) ((h.der a).comp (hasDerivAt_abs_neg hlt)) (fun e => ⟨?_, ?_, ?_⟩) (fun w => ⟨?_, ?_, ?_, ?_⟩)⟩
      · split_ifs <;> rfl
      · split_ifs <;> rfl
      · split_ifs <;> rfl
      all_goals simp [FS.setD, FS.set, FS.push, FS.dec, hT, hlt, hne]
      rfl
    · have hgt' := hgt.not_gt
      refine ⟨_, _, .of_forall fun e => rfl, fun w => rfl,
        h.assign (r := r) ((h.der a).comp (hasDerivAt_abs_pos hgt)) (fun e => ⟨?_, ?_, ?_⟩) (fun w => ⟨?_, ?_, ?_, ?_⟩)⟩
      · split_ifs <;> rfl
      · split_ifs <;> rfl
      · split_ifs <;> rfl
      all_goals simp [FS.setD, FS.set, FS.push, FS.dec, hT, hgt, hgt.le, hgt', hne]
      rfl
  case minOp a b r k =>
    have hs : (S e0).T a ≠ (S e0).T b ∨ a = b := hs
    have hv : FD e0 (fun e => if (S e).T a > (S e).T b then (S e).T b else (S e).T a)
        (fun w => if (S e0).T a > (S e0).T b then (F w).dT b
          else if (S e0).T a < (S e0).T b then (F w).dT a
          else if (F w).dT a > (F w).dT b then (F w).dT b else (F w).dT a) := by
      rcases hs with hne | rfl
      · rcases lt_or_gt_of_ne hne with hlt | hgt
        · refine ((h.der a).congr fun w => ?_).congrF ?_
          · rw [if_neg hlt.not_gt, if_pos hlt]
          · filter_upwards [(h.der a).ev_lt_lt (h.der b) hlt] with e he
            rw [if_neg he.not_gt]
        · refine ((h.der b).congr fun w => ?_).congrF ?_
          · rw [if_pos hgt]
          · filter_upwards [(h.der b).ev_lt_lt (h.der a) hgt] with e he
            rw [if_pos he]
      · refine ((h.der a).congr fun w => ?_).congrF ?_
        · simp
        · exact .of_forall fun e => by simp
    refine ⟨_, _, .of_forall fun e => rfl, fun w => rfl,
        h.assign (r := r) hv (fun e => ⟨?_, ?_, ?_⟩) (fun w => ⟨?_, ?_, ?_, ?_⟩)⟩
    · split_ifs <;> first | rfl | (exfalso; simp only [ZS.push, ZS.dec, FS.push, FS.dec, FS.setD, FS.set] at *; contradiction)
    · split_ifs <;> first | rfl | (exfalso; simp only [ZS.push, ZS.dec, FS.push, FS.dec, FS.setD, FS.set] at *; contradiction)
    · split_ifs <;> first | rfl | (exfalso; simp only [ZS.push, ZS.dec, FS.push, FS.dec, FS.setD, FS.set] at *; contradiction)
    · simp only [← hT w]; split_ifs <;> first | rfl | (exfalso; simp only [ZS.push, ZS.dec, FS.push, FS.dec, FS.setD, FS.set] at *; contradiction)
    · simp only [← hT w]; split_ifs <;> first | rfl | (exfalso; simp only [ZS.push, ZS.dec, FS.push, FS.dec, FS.setD, FS.set] at *; contradiction)
    · split_ifs <;> first | rfl | (exfalso; simp only [ZS.push, ZS.dec, FS.push, FS.dec, FS.setD, FS.set] at *; contradiction)
    · split_ifs <;> first | rfl | (exfalso; simp only [ZS.push, ZS.dec, FS.push, FS.dec, FS.setD, FS.set] at *; contradiction)
  case condAssign a a1 a2 r k =>
    have hne : (S e0).T a ≠ 0 := hs
    rcases lt_or_gt_of_ne hne with hlt | hgt
    · refine ⟨fun e => ((((S e).push (c e) r).dec (k > 0) 2).dec false 0).set r ((S e).T a2),
        fun w => ((((((F w).push (c e0) r).setD r ((F w).dT a2)).dec (k > 0) 2).dec false 0).set r
          ((F w).T a2)), ?_, ?_, h.assign (h.der a2) (fun e => ⟨rfl, rfl, rfl⟩)
          (fun w => ⟨by simp only [FS.setD, FS.set, FS.push, FS.dec, hT], rfl, rfl, rfl⟩)⟩
      · filter_upwards [(h.der a).ev_lt hlt] with e he
        simp [zosStep, ZS.push, ZS.set, ZS.dec, he.not_gt, he.ne]
      · intro w
        simp [fosStep, FS.push, FS.set, FS.setD, FS.dec, hT, hlt.not_gt, hlt.ne]
    · refine ⟨fun e => ((((S e).push (c e) r).dec (k ≤ 0) 2)).set r ((S e).T a1),
        fun w => ((((((F w).push (c e0) r).setD r ((F w).dT a1)).dec (k ≤ 0) 2)).set r
          ((F w).T a1)), ?_, ?_, h.assign (h.der a1) (fun e => ⟨rfl, rfl, rfl⟩)
          (fun w => ⟨by simp only [FS.setD, FS.set, FS.push, FS.dec, hT], rfl, rfl, rfl⟩)⟩
      · filter_upwards [(h.der a).ev_gt hgt] with e he
        simp [zosStep, ZS.push, ZS.set, ZS.dec, he]
      · intro w
        have hgt' : 0 < (S e0).T a := hgt
        simp [fosStep, FS.push, FS.set, FS.setD, FS.dec, hT, hgt']
  case condEqAssign a a1 a2 r k =>
    have hne : (S e0).T a ≠ 0 := hs
    rcases lt_or_gt_of_ne hne with hlt | hgt
    · refine ⟨fun e => ((((S e).push (c e) r).dec (k ≥ 0) 2)).set r ((S e).T a2),
        fun w => ((((((F w).push (c e0) r).setD r ((F w).dT a2)).dec (k ≥ 0) 2)).set r
          ((F w).T a2)), ?_, ?_, h.assign (h.der a2) (fun e => ⟨rfl, rfl, rfl⟩)
          (fun w => ⟨by simp only [FS.setD, FS.set, FS.push, FS.dec, hT], rfl, rfl, rfl⟩)⟩
      · filter_upwards [(h.der a).ev_lt hlt] with e he
        simp [zosStep, ZS.push, ZS.set, ZS.dec, he.not_ge]
      · intro w
        simp [fosStep, FS.push, FS.set, FS.setD, FS.dec, hT, hlt.not_ge]
    · refine ⟨fun e => ((((S e).push (c e) r).dec (k < 0) 2)).set r ((S e).T a1),
        fun w => ((((((F w).push (c e0) r).setD r ((F w).dT a1)).dec (k < 0) 2)).set r
          ((F w).T a1)), ?_, ?_, h.assign (h.der a1) (fun e => ⟨rfl, rfl, rfl⟩)
          (fun w => ⟨by simp only [FS.setD, FS.set, FS.push, FS.dec, hT], rfl, rfl, rfl⟩)⟩
      · filter_upwards [(h.der a).ev_gt hgt] with e he
        simp [zosStep, ZS.push, ZS.set, ZS.dec, he.le]
      · intro w
        have hgt' : 0 ≤ (S e0).T a := hgt.le
        simp [fosStep, FS.push, FS.set, FS.setD, FS.dec, hT, hgt']
  case condAssignS a a1 r k =>
    have hne : (S e0).T a ≠ 0 := hs
    rcases lt_or_gt_of_ne hne with hlt | hgt
    · refine ⟨fun e => (((S e).push (c e) r).dec false 0),
        fun w => (((F w).push (c e0) r).dec false 0), ?_, ?_, h.same (fun e => ⟨rfl, rfl, rfl⟩)
          (fun w => ⟨rfl, rfl, rfl, rfl⟩)⟩
      · filter_upwards [(h.der a).ev_lt hlt] with e he
        simp [zosStep, ZS.push, ZS.set, ZS.dec, he.not_gt, he.ne]
      · intro w
        simp [fosStep, FS.push, FS.set, FS.setD, FS.dec, hT, hlt.not_gt, hlt.ne]
    · refine ⟨fun e => ((((S e).push (c e) r).dec (k ≤ 0) 2)).set r ((S e).T a1),
        fun w => ((((((F w).push (c e0) r).setD r ((F w).dT a1)).dec (k ≤ 0) 2)).set r
          ((F w).T a1)), ?_, ?_, h.assign (h.der a1) (fun e => ⟨rfl, rfl, rfl⟩)
          (fun w => ⟨by simp only [FS.setD, FS.set, FS.push, FS.dec, hT], rfl, rfl, rfl⟩)⟩
      · filter_upwards [(h.der a).ev_gt hgt] with e he
        simp [zosStep, ZS.push, ZS.set, ZS.dec, he]
      · intro w
        have hgt' : 0 < (S e0).T a := hgt
        simp [fosStep, FS.push, FS.set, FS.setD, FS.dec, hT, hgt']
  case condEqAssignS a a1 r k =>
    have hne : (S e0).T a ≠ 0 := hs
    rcases lt_or_gt_of_ne hne with hlt | hgt
    · refine ⟨fun e => (((S e).push (c e) r)),
        fun w => (((F w).push (c e0) r)), ?_, ?_, h.same (fun e => ⟨rfl, rfl, rfl⟩)
          (fun w => ⟨rfl, rfl, rfl, rfl⟩)⟩
      · filter_upwards [(h.der a).ev_lt hlt] with e he
        simp [zosStep, ZS.push, ZS.set, ZS.dec, he.not_ge]
      · intro w
        simp [fosStep, FS.push, FS.set, FS.setD, FS.dec, hT, hlt.not_ge]
    · refine ⟨fun e => ((((S e).push (c e) r).dec (k < 0) 2)).set r ((S e).T a1),
        fun w => ((((((F w).push (c e0) r).setD r ((F w).dT a1)).dec (k < 0) 2)).set r
          ((F w).T a1)), ?_, ?_, h.assign (h.der a1) (fun e => ⟨rfl, rfl, rfl⟩)
          (fun w => ⟨by simp only [FS.setD, FS.set, FS.push, FS.dec, hT], rfl, rfl, rfl⟩)⟩
      · filter_upwards [(h.der a).ev_gt hgt] with e he
        simp [zosStep, ZS.push, ZS.set, ZS.dec, he.le]
      · intro w
        have hgt' : 0 ≤ (S e0).T a := hgt.le
        simp [fosStep, FS.push, FS.set, FS.setD, FS.dec, hT, hgt']

/-- `tan_step` for every operation, also the vector ones with any operands. -/
theorem tan_step' {c : Cfg ℝ} {v : Nat → ℝ} {o : Base ℝ} {s s' : FS ℝ}
    (h : fosStep c v o s = .ok s') {Z : Set Nat} (hz : ∀ l ∈ Z, s.dT l = 0) :
    ∀ l ∈ o.tanStep Z, s'.dT l = 0 := by
  have gen : o.nInd = 0 → o.nDep = 0 → (∀ l ∈ o.tanStep Z, l ∈ Z ∧ ¬ o.writes l) →
      ∀ l ∈ o.tanStep Z, s'.dT l = 0 := fun h1 h2 h3 l hl => by
    rw [(fos_frame h h1 h2).dT l (h3 l hl).2]; exact hz l (h3 l hl).1
  cases o
  case assignA a r => exact gen rfl rfl fun l hl => hl
  case sinOp a b r => exact gen rfl rfl fun l hl => hl
  case cosOp a b r => exact gen rfl rfl fun l hl => hl
  case quad q a b r => exact gen rfl rfl fun l hl => hl
  case genQuad a b r _ _ => exact gen rfl rfl fun l hl => hl
  case eqPlusProd a b r => exact gen rfl rfl fun l hl => hl
  case eqMinProd a b r => exact gen rfl rfl fun l hl => hl
  case vecCopy a b r => exact gen rfl rfl fun l hl => hl
  case vecDot a b _ r => exact gen rfl rfl fun l hl => hl
  case vecAxpy a b _ _ r => exact gen rfl rfl fun l hl => hl
  case takeStock r vs =>
    simp only [fosStep, Except.ok.injEq] at h
    subst h
    have key : ∀ (vs : List ℝ) (r : Nat) (s : FS ℝ) (l : Nat), (s.dT l = 0 ∨ (r ≤ l ∧ l < r + vs.length)) →
        ((vs.foldl (fun (p : Nat × FS ℝ) k => (p.1 + 1, (p.2.set p.1 k).setD p.1 0)) (r, s)).2).dT l = 0 := by
      intro vs
      induction vs with
      | nil => intro r s l h; rcases h with h | h
               · exact h
               · simp at h; omega
      | cons x vs ih =>
        intro r s l h
        refine ih (r + 1) ((s.set r x).setD r 0) l ?_
        by_cases hl : l = r
        · left; subst hl; exact upd_same _ _ _
        · rcases h with h | h
          · left; exact (upd_ne _ _ hl).trans h
          · right; simp at h; omega
    intro l hl
    exact key vs r s l (hl.imp (hz l) id)
  all_goals exact tan_step h trivial hz

/-- The cells written by `setRef` (the cells of adubrefs, which are not variables) have zero
tangent by then: the recorder creates an adubref cell with a constant assignment
(advector.cpp / adouble.cpp: `adubref::adubref`). -/
def RefOk : Set Nat → List (Base ℝ) → Prop
  | _, [] => True
  | Z, o :: os => (∀ r k, o = .setRef r k → r ∈ Z) ∧ RefOk (o.tanStep Z) os

theorem lin_run {c : E → Cfg ℝ} {v : E → Nat → ℝ} (hpar : ∀ e, (c e).par = (c e0).par)
    (hx : ∀ i, FD e0 (fun e => (c e).x i) (fun w => v w i))
    {ops : List (Base ℝ)} (h : Lin e0 S F i m) (hs : Along smooth (c e0) ops (S e0))
    {Z : Set Nat} (hz : ∀ w, ∀ l ∈ Z, (F w).dT l = 0) (href : RefOk Z ops)
    (hok : ∃ z, zosRun (c e0) ops (S e0) = .ok z) :
    ∃ S' F', (∀ᶠ e in 𝓝 e0, zosRun (c e) ops (S e) = .ok (S' e)) ∧
      (∀ w, fosRun (c e0) (v w) ops (F w) = .ok (F' w)) ∧
      Lin e0 S' F' (i + numInd ops) (m + numDep ops) := by
  induction ops generalizing S F i m Z with
  | nil => exact ⟨S, F, .of_forall fun e => rfl, fun w => rfl, h⟩
  | cons o os ih =>
    obtain ⟨hs1, hs2⟩ := hs
    obtain ⟨hr1, hr2⟩ := href
    obtain ⟨z, hz1⟩ := hok
    simp only [zosRun] at hz1
    split at hz1
    · cases hz1
    · rename_i z1 hz2
      obtain ⟨S1, F1, e1, e2, e3⟩ := lin_step hpar hx h hs1
        (fun r k ho w => hz w r (hr1 r k ho)) ⟨z1, hz2⟩
      have e4 := e1.self_of_nhds
      rw [e4] at hz2
      cases hz2
      obtain ⟨S2, F2, f1, f2, f3⟩ := ih e3 (hs2 _ e4) (fun w => tan_step' (e2 w) (hz w)) hr2 ⟨z, hz1⟩
      refine ⟨S2, F2, ?_, ?_, ?_⟩
      · filter_upwards [e1, f1] with e h1 h2
        simp only [zosRun, h1, h2]
      · intro w; simp only [fosRun, e2 w, f2 w]
      · simpa only [numInd, numDep, List.map_cons, List.sum_cons, Nat.add_assoc] using f3

/-- `fos_forward` computes directional derivatives of the outputs of `zos_forward`. -/
theorem fos_derivative {n : Nat} {x0 : Fin n → ℝ} (par T0 : Nat → ℝ) (keep : Bool)
    {ops : List (Base ℝ)} (ext : (Fin n → ℝ) → Nat → ℝ)
    (hext : ∀ x i, ext x i = if h : i < n then x ⟨i, h⟩ else 0)
    {z0 : ZS ℝ} (hok : zosRun ⟨ext x0, par, keep⟩ ops (ZS.start T0) = .ok z0)
    (hs : Along smooth ⟨ext x0, par, keep⟩ ops (ZS.start T0)) (href : RefOk Set.univ ops) :
    ∃ (Y : (Fin n → ℝ) → ZS ℝ) (dY : (Fin n → ℝ) → FS ℝ),
      (∀ᶠ x in 𝓝 x0, zosRun ⟨ext x, par, keep⟩ ops (ZS.start T0) = .ok (Y x)) ∧
      (∀ v, fosRun ⟨ext x0, par, keep⟩ (ext v) ops (FS.start T0) = .ok (dY v)) ∧
      (∀ x, (Y x).y.length = numDep ops) ∧ (∀ v, (dY v).dy.length = numDep ops) ∧
      ∀ j : Nat, ∃ D : (Fin n → ℝ) →L[ℝ] ℝ, HasFDerivAt (fun x => (Y x).y[j]?.getD 0) D x0 ∧
        ∀ v, (dY v).dy[j]?.getD 0 = D v := by
  have h0 : Lin (E := Fin n → ℝ) x0 (fun _ => (ZS.start T0)) (fun _ => (FS.start T0)) 0 0 := by
    refine ⟨fun w => rfl, fun e => rfl, fun w => rfl, fun l => FD.const _, fun e => rfl,
      fun w => rfl, fun j => ?_⟩
    simp only [ZS.start, FS.start, List.getElem?_nil, Option.getD_none]
    exact FD.const 0
  have hx : ∀ i, FD x0 (fun e => ext e i) (fun w => ext w i) := by
    intro i
    by_cases h : i < n
    · simp only [hext, h, dif_pos]
      exact ⟨_, hasFDerivAt_apply (𝕜 := ℝ) (⟨i, h⟩ : Fin n) x0, fun w => rfl⟩
    · simp only [hext, h, dif_neg, not_false_eq_true]
      exact FD.const 0
  obtain ⟨S', F', e1, e2, e3⟩ := lin_run (E := Fin n → ℝ) (c := fun e => ⟨ext e, par, keep⟩)
    (v := fun w => ext w) (fun e => rfl) hx h0 hs (Z := Set.univ) (fun w l _ => rfl) href ⟨z0, hok⟩
  refine ⟨S', F', e1, e2, fun x => by rw [e3.ylen]; simp, fun w => by rw [e3.dylen]; simp, fun j => ?_⟩
  obtain ⟨D, h1, h2⟩ := e3.yder j
  exact ⟨D, h1, fun v => (h2 v).symm⟩

end Verif.AD
