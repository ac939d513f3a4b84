import Verif.AD.HosRun

/-! The outputs of a traced program are smooth functions of all inputs together. -/
set_option linter.all false
namespace Verif.AD
open Elem Filter Topology ContDiff

variable {E : Type} [NormedAddCommGroup E] [NormedSpace ℝ E]

/-- A function whose derivative is smooth is smooth (at any point). -/
theorem smooth_of_deriv_at {f f' : ℝ → ℝ} {x : ℝ} (h : ∀ᶠ t in 𝓝 x, HasDerivAt f (f' t) t)
    (h' : ContDiffAt ℝ ∞ f' x) : ContDiffAt ℝ ∞ f x := by
  rw [contDiffAt_infty]
  intro n
  have : ContDiffAt ℝ (n + 1) f x := by
    rw [contDiffAt_succ_iff_hasFDerivAt]
    refine ⟨fun t => ContinuousLinearMap.toSpanSingleton ℝ (f' t), ?_, ?_⟩
    · obtain ⟨U, hU, hU'⟩ := h.exists_mem
      exact ⟨U, hU, fun t ht => (hU' t ht).hasFDerivAt⟩
    · have e : (fun t => ContinuousLinearMap.toSpanSingleton ℝ (f' t)) =
          fun t => f' t • ContinuousLinearMap.toSpanSingleton ℝ (1:ℝ) := by
        funext t; ext; simp
      rw [e]
      exact (contDiffAt_infty.1 h' n).smul contDiffAt_const
  exact this.of_le (by exact_mod_cast Nat.le_succ n)

theorem quadDom_open {q : Quad} {x : ℝ} (h : quadDom q x) : ∀ᶠ t in 𝓝 x, quadDom q t := by
  cases q <;> simp only [quadDom] at h ⊢ <;> try exact .of_forall fun t => trivial
  · exact Filter.Eventually.and (Ioi_mem_nhds h.1) (Iio_mem_nhds h.2)
  · exact Filter.Eventually.and (Ioi_mem_nhds h.1) (Iio_mem_nhds h.2)
  · exact Ioi_mem_nhds h
  · exact Filter.Eventually.and (Ioi_mem_nhds h.1) (Iio_mem_nhds h.2)

theorem quad_smooth {q : Quad} {x : ℝ} (h : quadDom q x) : ContDiffAt ℝ ∞ (q.fn : ℝ → ℝ) x := by
  refine smooth_of_deriv_at ((quadDom_open h).mono fun t ht => hasDerivAt_quad ht) ?_
  have hm : ContDiffAt ℝ ∞ (fun t : ℝ => t * t) x := contDiffAt_id.mul contDiffAt_id
  have hc : ∀ c : ℝ, ContDiffAt ℝ ∞ (fun _ : ℝ => c) x := fun c => contDiffAt_const
  cases q <;> simp only [quadDom] at h <;> unfold quadDer <;> dsimp only
  · exact (hc 1).div ((hc 1).add hm) (by nlinarith [mul_self_nonneg x])
  · have hp : 0 < 1 - x * x := by nlinarith [h.1, h.2]
    exact (hc 1).div (((hc 1).sub hm).sqrt hp.ne') (Real.sqrt_pos.2 hp).ne'
  · have hp : 0 < 1 - x * x := by nlinarith [h.1, h.2]
    exact (hc (-1)).div (((hc 1).sub hm).sqrt hp.ne') (Real.sqrt_pos.2 hp).ne'
  · have hp : 0 < 1 + x * x := by nlinarith [mul_self_nonneg x]
    exact (hc 1).div (((hc 1).add hm).sqrt hp.ne') (Real.sqrt_pos.2 hp).ne'
  · have hp : 0 < x * x - 1 := by nlinarith
    exact (hc 1).div ((hm.sub (hc 1)).sqrt hp.ne') (Real.sqrt_pos.2 hp).ne'
  · have hp : 0 < 1 - x * x := by nlinarith [h.1, h.2]
    exact (hc 1).div ((hc 1).sub hm) hp.ne'
  · exact (hc _).mul (Real.contDiff_exp.contDiffAt.comp x (contDiffAt_id.neg.mul contDiffAt_id))
  · exact (hc _).mul (Real.contDiff_exp.contDiffAt.comp x (contDiffAt_id.neg.mul contDiffAt_id))

theorem floor_smooth {x : ℝ} (hx : ∀ n : ℤ, x ≠ n) : ContDiffAt ℝ ∞ (fun y : ℝ => ((⌊y⌋ : ℤ) : ℝ)) x := by
  refine (contDiffAt_const (c := ((⌊x⌋ : ℤ) : ℝ))).congr_of_eventuallyEq ?_
  have h1 : (⌊x⌋ : ℝ) < x := lt_of_le_of_ne (Int.floor_le x) (Ne.symm (hx _))
  have h2 : x < (⌊x⌋ : ℝ) + 1 := Int.lt_floor_add_one x
  filter_upwards [Ioi_mem_nhds h1, Iio_mem_nhds h2] with y hy1 hy2
  have : ⌊y⌋ = ⌊x⌋ := by rw [Int.floor_eq_iff]; exact ⟨le_of_lt hy1, hy2⟩
  rw [this]

theorem ceil_smooth {x : ℝ} (hx : ∀ n : ℤ, x ≠ n) : ContDiffAt ℝ ∞ (fun y : ℝ => ((⌈y⌉ : ℤ) : ℝ)) x := by
  refine (contDiffAt_const (c := ((⌈x⌉ : ℤ) : ℝ))).congr_of_eventuallyEq ?_
  have h1 : x < ⌈x⌉ := lt_of_le_of_ne (Int.le_ceil x) (hx _)
  have h2 : (⌈x⌉ : ℝ) - 1 < x := by linarith [Int.ceil_lt_add_one x]
  filter_upwards [Iio_mem_nhds h1, Ioi_mem_nhds h2] with y hy1 hy2
  have : ⌈y⌉ = ⌈x⌉ := by rw [Int.ceil_eq_iff]; exact ⟨hy2, le_of_lt hy1⟩
  rw [this]

/-- The family `S` of value states depends smoothly on the parameter. -/
structure CD (e0 : E) (S : E → ZS ℝ) (i : Nat) : Prop where
  sm : ∀ l, ContDiffAt ℝ ∞ (fun e => (S e).T l) e0
  ii : ∀ e, (S e).ii = i
  y : ∃ fy : List (E → ℝ), (∀ e, (S e).y = fy.map (fun f => f e)) ∧ ∀ f ∈ fy, ContDiffAt ℝ ∞ f e0

variable {e0 : E} {S S' : E → ZS ℝ} {i : Nat}

theorem CD.same (h : CD e0 S i) (hS : ∀ e, (S' e).T = (S e).T ∧ (S' e).ii = (S e).ii ∧ (S' e).y = (S e).y) : CD e0 S' i := by
  obtain ⟨h1, h2, fy, h3, h4⟩ := h
  refine ⟨fun l => ?_, fun e => by rw [(hS e).2.1]; exact h2 e, fy, fun e => by rw [(hS e).2.2]; exact h3 e, h4⟩
  simp only [(hS _).1]; exact h1 l

theorem CD.assign (h : CD e0 S i) {r : Nat} {val : E → ℝ} (hv : ContDiffAt ℝ ∞ val e0)
    (hS : ∀ e, (S' e).T = upd (S e).T r (val e) ∧ (S' e).ii = (S e).ii ∧ (S' e).y = (S e).y) : CD e0 S' i := by
  obtain ⟨h1, h2, fy, h3, h4⟩ := h
  refine ⟨fun l => ?_, fun e => by rw [(hS e).2.1]; exact h2 e, fy, fun e => by rw [(hS e).2.2]; exact h3 e, h4⟩
  simp only [(hS _).1, upd_apply]
  split_ifs
  · exact hv
  · exact h1 l

theorem CD.foldl {γ : Type} {f : E → ZS ℝ → γ → ZS ℝ} {J : List γ}
    (hf : ∀ S, ∀ q ∈ J, CD e0 S i → CD e0 (fun e => f e (S e) q) i) (h : CD e0 S i) :
    CD e0 (fun e => J.foldl (f e) (S e)) i := by
  induction J generalizing S with
  | nil => exact h
  | cons x J ih => exact ih (fun S q hq => hf S q (by simp [hq])) (hf S x (by simp) h)

theorem CD.stock {vs : List ℝ} {r : Nat} (h : CD e0 S i) :
    CD e0 (fun e => (vs.foldl (fun (p : Nat × ZS ℝ) v => (p.1 + 1, p.2.set p.1 v)) (r, S e)).2) i := by
  induction vs generalizing S r with
  | nil => exact h
  | cons x vs ih =>
    exact ih (r := r + 1) (S := fun e => (S e).set r x) (h.assign (r := r) (val := fun _ => x) contDiffAt_const fun e => ⟨rfl, rfl, rfl⟩)

theorem CD.ev_lt (h : CD e0 S i) {a : Nat} (hlt : (S e0).T a < 0) : ∀ᶠ e in 𝓝 e0, (S e).T a < 0 :=
  (h.sm a).continuousAt.eventually_lt continuousAt_const hlt
theorem CD.ev_gt (h : CD e0 S i) {a : Nat} (hgt : 0 < (S e0).T a) : ∀ᶠ e in 𝓝 e0, 0 < (S e).T a :=
  continuousAt_const.eventually_lt (h.sm a).continuousAt hgt

theorem cd_comp {f : E → ℝ} {φ : ℝ → ℝ} (hf : ContDiffAt ℝ ∞ f e0) (hφ : ContDiffAt ℝ ∞ φ (f e0)) : ContDiffAt ℝ ∞ (fun e => φ (f e)) e0 :=
  hφ.comp e0 hf

macro "cd_auto" h:ident fd:term : tactic => `(tactic|
  exact ⟨_, .of_forall fun e => rfl, CD.assign $h $fd (fun e => ⟨rfl, rfl, rfl⟩)⟩)

theorem cd_step {c : E → Cfg ℝ} (hpar : ∀ e, (c e).par = (c e0).par) (hx : ∀ i, ContDiffAt ℝ ∞ (fun e => (c e).x i) e0)
    {o : Base ℝ} (h : CD e0 S i) (hs : smoothS .ho o (S e0).T) (hok : ∃ z, zosStep (c e0) o (S e0) = .ok z) :
    ∃ S', (∀ᶠ e in 𝓝 e0, zosStep (c e) o (S e) = .ok (S' e)) ∧ CD e0 S' (i + o.nInd) := by
  have hc : ∀ c : ℝ, ContDiffAt ℝ ∞ (fun _ : E => c) e0 := fun c => contDiffAt_const
  obtain ⟨hs, hpw, hcb, hrest⟩ := hs
  clear hrest
  cases o
  case assignA a r => cd_auto h (h.sm a)
  case posSign a r => cd_auto h (h.sm a)
  case assignD r k => cd_auto h (hc k)
  case assignD0 r => cd_auto h (hc 0)
  case assignD1 r => cd_auto h (hc 1)
  case assignP p r =>
    exact ⟨_, .of_forall fun e => rfl, h.assign (r := r) (hc ((c e0).par p)) (fun e => ⟨by simp only [ZS.set, ZS.push, hpar], rfl, rfl⟩)⟩
  case eqPlusD r k => cd_auto h ((h.sm r).add (hc k))
  case eqPlusA a r => cd_auto h ((h.sm r).add (h.sm a))
  case eqMinD r k => cd_auto h ((h.sm r).sub (hc k))
  case eqMinA a r => cd_auto h ((h.sm r).sub (h.sm a))
  case eqMultD r k => cd_auto h ((h.sm r).mul (hc k))
  case eqMultA a r => cd_auto h ((h.sm r).mul (h.sm a))
  case incrA r => cd_auto h ((h.sm r).add (hc 1))
  case decrA r => cd_auto h ((h.sm r).sub (hc 1))
  case plusAA a b r => cd_auto h ((h.sm a).add (h.sm b))
  case plusDA a r k => cd_auto h ((h.sm a).add (hc k))
  case minAA a b r => cd_auto h ((h.sm a).sub (h.sm b))
  case minDA a r k => cd_auto h ((hc k).sub (h.sm a))
  case multAA a b r => cd_auto h ((h.sm a).mul (h.sm b))
  case eqPlusProd a b r => cd_auto h ((h.sm r).add ((h.sm a).mul (h.sm b)))
  case eqMinProd a b r => cd_auto h ((h.sm r).sub ((h.sm a).mul (h.sm b)))
  case multDA a r k => cd_auto h ((h.sm a).mul (hc k))
  case negSign a r => cd_auto h ((h.sm a).neg)
  case expOp a r => cd_auto h (h.sm a).exp
  case divAA a b r => cd_auto h ((h.sm a).div (h.sm b) hs)
  case divDA a r k => cd_auto h ((hc k).div (h.sm a) hs)
  case logOp a r =>
    have hs : 0 < (S e0).T a := hs
    cd_auto h ((h.sm a).log hs.ne')
  case sqrtOp a r =>
    have hs : 0 < (S e0).T a := hs
    cd_auto h ((h.sm a).sqrt hs.ne')
  case cbrtOp a r => exact absurd rfl (hcb a r rfl).1
  case assignInd r =>
    refine ⟨_, .of_forall fun e => rfl, ?_⟩
    have := h.assign (S' := fun e => ((S e).push (c e) r).set r ((c e).x i)) (hx i) (fun e => ⟨rfl, rfl, rfl⟩)
    obtain ⟨h1, h2, fy, h3, h4⟩ := this
    simp only [ZS.push, ZS.set] at h1 h2 h3
    refine ⟨fun l => ?_, fun e => ?_, fy, fun e => ?_, h4⟩
    · simp only [ZS.push, ZS.set, h.ii]; exact h1 l
    · simp only [ZS.push, ZS.set, h.ii]; rfl
    · simp only [ZS.push, ZS.set]; exact h3 e
  case assignDep r =>
    obtain ⟨fy, h3, h4⟩ := h.y
    refine ⟨_, .of_forall fun e => rfl, h.sm, h.ii, fy ++ [fun e => (S e).T r], fun e => by simp [h3], fun f hf => ?_⟩
    rcases List.mem_append.1 hf with hf | hf
    · exact h4 f hf
    · obtain rfl := List.mem_singleton.1 hf; exact h.sm r
  case cmp q a =>
    have hne : (S e0).T a ≠ 0 := hs
    obtain ⟨z, hz⟩ := hok
    simp only [zosStep] at hz
    split at hz
    case isFalse => cases hz
    case isTrue hq =>
    refine ⟨S, ?_, h⟩
    rcases lt_or_gt_of_ne hne with hlt | hgt
    · filter_upwards [h.ev_lt hlt] with e he
      have he' := he.le
      have hen := he.ne
      cases q <;> simp [Cmp.holds] at hq <;> simp [zosStep, Cmp.holds, he, he', hen] <;> linarith
    · filter_upwards [h.ev_gt hgt] with e he
      have he' := he.le
      have hen := he.ne'
      cases q <;> simp [Cmp.holds] at hq <;> simp [zosStep, Cmp.holds, he, he', hen] <;> linarith
  case sinOp a b r =>
    obtain ⟨hab, hbr⟩ := hs
    refine ⟨_, .of_forall fun e => rfl, ?_⟩
    have h1 := h.assign (r := b) (S' := fun e => ((((S e).push (c e) b).push (c e) r).set b (Real.cos ((S e).T a)))) (h.sm a).cos (fun e => ⟨rfl, rfl, rfl⟩)
    refine h1.assign (r := r) (h.sm a).sin (fun e => ⟨?_, rfl, rfl⟩)
    simp only [ZS.set, ZS.push, upd_ne _ _ hab]; rfl
  case cosOp a b r =>
    obtain ⟨hab, hbr⟩ := hs
    refine ⟨_, .of_forall fun e => rfl, ?_⟩
    have h1 := h.assign (r := b) (S' := fun e => ((((S e).push (c e) b).push (c e) r).set b (Real.sin ((S e).T a)))) (h.sm a).sin (fun e => ⟨rfl, rfl, rfl⟩)
    refine h1.assign (r := r) (h.sm a).cos (fun e => ⟨?_, rfl, rfl⟩)
    simp only [ZS.set, ZS.push, upd_ne _ _ hab]; rfl
  case quad q a b r => cd_auto h (cd_comp (h.sm a) (quad_smooth hs.1))
  case powOp a r k =>
    have hne : (S e0).T a ≠ 0 := by
      rcases hs with h1 | h1 | h1
      · exact h1.ne'
      · exact h1.1.ne
      · exact (hpw a r k rfl h1.1).elim
    cd_auto h (ContDiffAt.rpow_const_of_ne (h.sm a) hne)
  case ceilOp a r k =>
    exact ⟨_, .of_forall fun e => rfl, h.assign (cd_comp (h.sm a) (ceil_smooth hs)) (fun e => ⟨rfl, rfl, rfl⟩)⟩
  case floorOp a r k =>
    exact ⟨_, .of_forall fun e => rfl, h.assign (cd_comp (h.sm a) (floor_smooth hs)) (fun e => ⟨rfl, rfl, rfl⟩)⟩
  case genQuad => exact hs.elim
  case setRef r k => cd_auto h (hc k)
  case vecCopy a n r =>
    exact ⟨_, .of_forall fun e => rfl, CD.foldl (fun S q hq h => h.assign (h.sm (a + q)) (fun e => ⟨rfl, rfl, rfl⟩)) h⟩
  case vecDot a b n r =>
    have h1 := h.assign (r := r) (S' := fun e => (((S e).push (c e) r).set r 0)) (hc 0) (fun e => ⟨rfl, rfl, rfl⟩)
    exact ⟨_, .of_forall fun e => rfl, CD.foldl (fun S q hq h => h.assign ((h.sm r).add ((h.sm (a + q)).mul (h.sm (b + q)))) (fun e => ⟨rfl, rfl, rfl⟩)) h1⟩
  case vecAxpy a a1 a2 n r =>
    exact ⟨_, .of_forall fun e => rfl, CD.foldl (fun S q hq h => h.assign (((h.sm a).mul (h.sm (a1 + q))).add (h.sm (a2 + q))) (fun e => ⟨rfl, rfl, rfl⟩)) h⟩
  case takeStock r vs => exact ⟨_, .of_forall fun e => rfl, h.stock⟩
  case deathNot a b =>
    exact ⟨_, .of_forall fun e => rfl, CD.foldl (fun S q hq h => h.same (fun e => ⟨rfl, rfl, rfl⟩)) h⟩
  case absVal a r k =>
    have hne : (S e0).T a ≠ 0 := hs
    refine ⟨_, .of_forall fun e => rfl, h.assign (r := r) (cd_comp (h.sm a) (contDiffAt_abs hne)) (fun e => ⟨?_, ?_, ?_⟩)⟩
    · split_ifs <;> rfl
    · split_ifs <;> rfl
    · split_ifs <;> rfl
  case minOp a b r k =>
    have hs : (S e0).T a ≠ (S e0).T b ∨ a = b := hs
    have hv : ContDiffAt ℝ ∞ (fun e => if (S e).T a > (S e).T b then (S e).T b else (S e).T a) e0 := by
      rcases hs with hne | rfl
      · rcases lt_or_gt_of_ne hne with hlt | hgt
        · refine (h.sm a).congr_of_eventuallyEq ?_
          filter_upwards [(h.sm a).continuousAt.eventually_lt (h.sm b).continuousAt hlt] with e he
          rw [if_neg he.not_gt]
        · refine (h.sm b).congr_of_eventuallyEq ?_
          filter_upwards [(h.sm b).continuousAt.eventually_lt (h.sm a).continuousAt hgt] with e he
          rw [if_pos he]
      · simpa using h.sm a
    refine ⟨_, .of_forall fun e => rfl, h.assign (r := r) hv (fun e => ⟨?_, ?_, ?_⟩)⟩
    · split_ifs <;> first | rfl | (exfalso; simp only [ZS.push, ZS.dec] at *; contradiction)
    · split_ifs <;> first | rfl | (exfalso; simp only [ZS.push, ZS.dec] at *; contradiction)
    · split_ifs <;> first | rfl | (exfalso; simp only [ZS.push, ZS.dec] at *; contradiction)
  case condAssign a a1 a2 r k =>
    have hne : (S e0).T a ≠ 0 := hs
    rcases lt_or_gt_of_ne hne with hlt | hgt
    · refine ⟨fun e => ((((S e).push (c e) r).dec (k > 0) 2).dec false 0).set r ((S e).T a2), ?_, h.assign (h.sm a2) (fun e => ⟨rfl, rfl, rfl⟩)⟩
      filter_upwards [h.ev_lt hlt] with e he
      simp [zosStep, ZS.push, ZS.set, ZS.dec, he.not_gt, he.ne]
    · refine ⟨fun e => ((((S e).push (c e) r).dec (k ≤ 0) 2)).set r ((S e).T a1), ?_, h.assign (h.sm a1) (fun e => ⟨rfl, rfl, rfl⟩)⟩
      filter_upwards [h.ev_gt hgt] with e he
      simp [zosStep, ZS.push, ZS.set, ZS.dec, he]
  case condEqAssign a a1 a2 r k =>
    have hne : (S e0).T a ≠ 0 := hs
    rcases lt_or_gt_of_ne hne with hlt | hgt
    · refine ⟨fun e => ((((S e).push (c e) r).dec (k ≥ 0) 2)).set r ((S e).T a2), ?_, h.assign (h.sm a2) (fun e => ⟨rfl, rfl, rfl⟩)⟩
      filter_upwards [h.ev_lt hlt] with e he
      simp [zosStep, ZS.push, ZS.set, ZS.dec, he.not_ge]
    · refine ⟨fun e => ((((S e).push (c e) r).dec (k < 0) 2)).set r ((S e).T a1), ?_, h.assign (h.sm a1) (fun e => ⟨rfl, rfl, rfl⟩)⟩
      filter_upwards [h.ev_gt hgt] with e he
      simp [zosStep, ZS.push, ZS.set, ZS.dec, he.le]
  case condAssignS a a1 r k =>
    have hne : (S e0).T a ≠ 0 := hs
    rcases lt_or_gt_of_ne hne with hlt | hgt
    · refine ⟨fun e => (((S e).push (c e) r).dec false 0), ?_, h.same (fun e => ⟨rfl, rfl, rfl⟩)⟩
      filter_upwards [h.ev_lt hlt] with e he
      simp [zosStep, ZS.push, ZS.set, ZS.dec, he.not_gt, he.ne]
    · refine ⟨fun e => ((((S e).push (c e) r).dec (k ≤ 0) 2)).set r ((S e).T a1), ?_, h.assign (h.sm a1) (fun e => ⟨rfl, rfl, rfl⟩)⟩
      filter_upwards [h.ev_gt hgt] with e he
      simp [zosStep, ZS.push, ZS.set, ZS.dec, he]
  case condEqAssignS a a1 r k =>
    have hne : (S e0).T a ≠ 0 := hs
    rcases lt_or_gt_of_ne hne with hlt | hgt
    · refine ⟨fun e => (((S e).push (c e) r)), ?_, h.same (fun e => ⟨rfl, rfl, rfl⟩)⟩
      filter_upwards [h.ev_lt hlt] with e he
      simp [zosStep, ZS.push, ZS.set, ZS.dec, he.not_ge]
    · refine ⟨fun e => ((((S e).push (c e) r).dec (k < 0) 2)).set r ((S e).T a1), ?_, h.assign (h.sm a1) (fun e => ⟨rfl, rfl, rfl⟩)⟩
      filter_upwards [h.ev_gt hgt] with e he
      simp [zosStep, ZS.push, ZS.set, ZS.dec, he.le]

theorem cd_run {c : E → Cfg ℝ} (hpar : ∀ e, (c e).par = (c e0).par) (hx : ∀ i, ContDiffAt ℝ ∞ (fun e => (c e).x i) e0)
    {ops : List (Base ℝ)} (h : CD e0 S i) (hs : Along (smoothS .ho) (c e0) ops (S e0)) (hok : ∃ z, zosRun (c e0) ops (S e0) = .ok z) :
    ∃ S' i', (∀ᶠ e in 𝓝 e0, zosRun (c e) ops (S e) = .ok (S' e)) ∧ CD e0 S' i' := by
  induction ops generalizing S i with
  | nil => exact ⟨S, i, .of_forall fun t => rfl, h⟩
  | cons o os ih =>
    obtain ⟨z, hz⟩ := hok
    simp only [zosRun] at hz
    split at hz
    · cases hz
    · rename_i z1 hz1
      obtain ⟨S1, e1, e3⟩ := cd_step hpar hx h hs.1 ⟨z1, hz1⟩
      have e4 := e1.self_of_nhds
      rw [hz1] at e4
      cases e4
      obtain ⟨S2, i2, f1, f3⟩ := ih e3 (hs.2 _ hz1) ⟨z, hz⟩
      refine ⟨S2, i2, ?_, f3⟩
      filter_upwards [e1, f1] with t t1 t2
      simp only [zosRun, t1, t2]

variable {s s' : Rec ℝ} {stock : List (Nat × List ℝ)} {cfg : RCfg ℝ}

/-- Every output of a traced program is infinitely differentiable at a point where its elementary functions are. -/
theorem recorded_contDiff (hal : ∀ k L, cfg.alloc k L ∉ L) (p : Prog ℝ) (hs : s.Start stock)
    (hrec : p.record cfg s = some s') (par : Nat → ℝ) {n : Nat} (x0 : Fin n → ℝ) {e0 : SE ℝ}
    (hpath : p.spec (ext x0) par s.se = some (e0, p.path cfg s))
    (hsm : p.smooth .ho (ext x0) par s.se) (j : Nat) :
    ContDiffAt ℝ ∞ (fun x => p.out (ext x) par s.se j) x0 ∧
    ∀ᶠ x in 𝓝 x0, ∃ e, p.spec (ext x) par s.se = some (e, p.path cfg s) ∧ e.ys.length = e0.ys.length := by
  have hA := recorded_smooth hal p hs hrec (fun _ => 0) ⟨ext x0, par, false⟩ hpath hsm 0
  rcases recorded_forward hal p hs hrec (fun _ => 0) ⟨ext x0, par, false⟩ 0 with ⟨e, z, g1, g2, g3, g4⟩ | ⟨g1, g2⟩
  · have hx : ∀ i, ContDiffAt ℝ ∞ (fun x : Fin n → ℝ => ext x i) x0 := by
      intro i
      by_cases hi : i < n
      · simp only [ext, hi, dif_pos]; exact contDiffAt_apply _ _ _ _
      · simp only [ext, hi, dif_neg, not_false_eq_true]; exact contDiffAt_const
    obtain ⟨S', i', f1, f2⟩ := cd_run (E := Fin n → ℝ) (e0 := x0) (c := fun x => ⟨ext x, par, false⟩) (fun e => rfl) hx
      (S := fun _ => ZS.start fun _ => 0) (i := 0) ⟨fun l => contDiffAt_const, fun e => rfl, [], fun e => rfl, by simp⟩ hA ⟨z, g2⟩
    have hev : ∀ᶠ x in 𝓝 x0, ∃ e, p.spec (ext x) par s.se = some (e, p.path cfg s) ∧ e.ys = (S' x).y := by
      filter_upwards [f1] with x t1
      rcases recorded_forward hal p hs hrec (fun _ => 0) ⟨ext x, par, false⟩ 0 with ⟨e', z', k1, k2, k3, k4⟩ | ⟨k1, k2⟩
      · rw [t1] at k2; cases k2
        exact ⟨e', k1, k3.symm⟩
      · rw [t1] at k1; cases k1
    obtain ⟨fy, y1, y2⟩ := f2.y
    refine ⟨?_, hev.mono fun x ⟨e, h, h'⟩ => ⟨e, h, ?_⟩⟩
    rotate_left
    · obtain ⟨e1, h1, h1'⟩ := hev.self_of_nhds
      rw [hpath] at h1; cases h1
      rw [h', h1', y1, y1, List.length_map, List.length_map]
    have h1 : ContDiffAt ℝ ∞ (fun x => (S' x).y[j]?.getD 0) x0 := by
      simp only [y1, List.getElem?_map]
      rcases hq : fy[j]? with _ | f
      · simpa using contDiffAt_const
      · simpa using y2 f (List.mem_of_getElem? hq)
    refine h1.congr_of_eventuallyEq (hev.mono fun x ⟨e, h, h'⟩ => ?_)
    simp only [Prog.out, h, h']
  · exact absurd rfl (g2 _ _ hpath)

end Verif.AD
