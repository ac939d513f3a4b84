import Verif.Drivers.OdeRun
import Verif.Drivers.Accode
import Mathlib.Analysis.Calculus.FDeriv.Symmetric

/-! The coefficients `forodec` computes as functions of the initial value, and their derivatives. -/
set_option linter.all false
namespace Verif.Drivers
open Verif.AD Verif.Props.AD Verif.Props.Drivers Elem Filter Topology ContDiff

section exchange
variable {E : Type} [NormedAddCommGroup E] [NormedSpace ℝ E] {x0 : E}

theorem ev_cd {E' : Type} [NormedAddCommGroup E'] [NormedSpace ℝ E'] {G : E' → ℝ} {z : E'} (hG : ContDiffAt ℝ ∞ G z) : ∀ᶠ y in 𝓝 z, ContDiffAt ℝ 2 G y :=
  (contDiffAt_infty.1 hG 2).eventually (by decide)

theorem fderiv_left {G : E × ℝ → ℝ} {x : E} {t : ℝ} (hG : DifferentiableAt ℝ G (x, t)) (v : E) :
    fderiv ℝ (fun x => G (x, t)) x v = fderiv ℝ G (x, t) (v, 0) := by
  have h2 : HasFDerivAt (fun x : E => (x, t)) (ContinuousLinearMap.inl ℝ E ℝ) x := hasFDerivAt_prodMk_left x t
  have h3 := hG.hasFDerivAt.comp x h2
  rw [show (fun x => G (x, t)) = G ∘ fun x => (x, t) from rfl, h3.fderiv]
  simp

theorem deriv_right {G : E × ℝ → ℝ} {x : E} {t : ℝ} (hG : DifferentiableAt ℝ G (x, t)) :
    deriv (fun t => G (x, t)) t = fderiv ℝ G (x, t) (0, 1) := by
  have h2 : HasFDerivAt (fun t : ℝ => (x, t)) (ContinuousLinearMap.inr ℝ E ℝ) t := hasFDerivAt_prodMk_right x t
  have h3 := hG.hasFDerivAt.comp t h2
  rw [show (fun t => G (x, t)) = G ∘ fun t => (x, t) from rfl, ← fderiv_apply_one_eq_deriv, h3.fderiv]
  simp

theorem smooth_pd {G : E × ℝ → ℝ} (hG : ContDiffAt ℝ ∞ G (x0, 0)) (w : E × ℝ) : ContDiffAt ℝ ∞ (fun z => fderiv ℝ G z w) (x0, 0) :=
  (hG.fderiv_right (m := ∞) (by simp)).clm_apply contDiffAt_const

theorem exchange (k : Nat) : ∀ (G : E × ℝ → ℝ), ContDiffAt ℝ ∞ G (x0, 0) →
    ContDiffAt ℝ ∞ (fun x => iteratedDeriv k (fun t => G (x, t)) 0) x0 ∧
    ∀ v, fderiv ℝ (fun x => iteratedDeriv k (fun t => G (x, t)) 0) x0 v = iteratedDeriv k (fun t => fderiv ℝ (fun x => G (x, t)) x0 v) 0 := by
  induction k with
  | zero =>
    intro G hG
    simp only [iteratedDeriv_zero, implies_true, and_true]
    exact hG.comp x0 (contDiffAt_id.prodMk contDiffAt_const)
  | succ k ih =>
    intro G hG
    have hd := ev_cd hG
    obtain ⟨i1, i2⟩ := ih (fun z => fderiv ℝ G z (0, 1)) (smooth_pd hG _)
    have e1 : (fun x => iteratedDeriv (k + 1) (fun t => G (x, t)) 0) =ᶠ[𝓝 x0] fun x => iteratedDeriv k (fun t => fderiv ℝ G (x, t) (0, 1)) 0 := by
      filter_upwards [hd.curry_nhds] with x hx
      rw [iteratedDeriv_succ']
      refine EventuallyEq.iteratedDeriv_eq k ?_
      filter_upwards [hx] with t ht
      exact deriv_right (ht.differentiableAt (by decide))
    refine ⟨i1.congr_of_eventuallyEq e1, fun v => ?_⟩
    rw [e1.fderiv_eq, i2 v, iteratedDeriv_succ']
    refine EventuallyEq.iteratedDeriv_eq k ?_
    have hd' : ∀ᶠ t in 𝓝 (0:ℝ), ContDiffAt ℝ 2 G (x0, t) := hd.curry_nhds.self_of_nhds
    filter_upwards [hd'.eventually_nhds] with t ht
    have h2 : ContDiffAt ℝ 1 (fderiv ℝ G) (x0, t) := ht.self_of_nhds.fderiv_right (by norm_num)
    have h3 : DifferentiableAt ℝ (fderiv ℝ G) (x0, t) := h2.differentiableAt (by decide)
    have a1 : deriv (fun t => fderiv ℝ (fun x => G (x, t)) x0 v) t = fderiv ℝ (fderiv ℝ G) (x0, t) (0, 1) (v, 0) := by
      have : (fun t => fderiv ℝ (fun x => G (x, t)) x0 v) =ᶠ[𝓝 t] fun t => fderiv ℝ G (x0, t) (v, 0) := by
        filter_upwards [ht] with t' ht'
        exact fderiv_left (ht'.differentiableAt (by decide)) v
      rw [this.deriv_eq]
      have h4 := (ContinuousLinearMap.apply ℝ ℝ ((v, 0) : E × ℝ)).hasFDerivAt.comp (x0, t) h3.hasFDerivAt
      have h5 := deriv_right (G := fun z => fderiv ℝ G z (v, 0)) (x := x0) (t := t) h4.differentiableAt
      rw [h5]
      exact congrArg (fun L => L (0, 1)) h4.fderiv
    have a2 : fderiv ℝ (fun x => fderiv ℝ G (x, t) (0, 1)) x0 v = fderiv ℝ (fderiv ℝ G) (x0, t) (v, 0) (0, 1) := by
      have h4 := (ContinuousLinearMap.apply ℝ ℝ ((0, 1) : E × ℝ)).hasFDerivAt.comp (x0, t) h3.hasFDerivAt
      have h5 := fderiv_left (G := fun z => fderiv ℝ G z (0, 1)) (x := x0) (t := t) h4.differentiableAt v
      rw [h5]
      exact congrArg (fun L => L (v, 0)) h4.fderiv
    rw [a1, a2]
    exact (ht.self_of_nhds.isSymmSndFDerivAt (by simp)).eq _ _

/-- For Taylor coefficients. -/
theorem exchange_tc {G : E × ℝ → ℝ} (hG : ContDiffAt ℝ ∞ G (x0, 0)) (k : Nat) :
    ContDiffAt ℝ ∞ (fun x => tc (fun t => G (x, t)) k) x0 ∧
    ∀ v, fderiv ℝ (fun x => tc (fun t => G (x, t)) k) x0 v = tc (fun t => fderiv ℝ (fun x => G (x, t)) x0 v) k := by
  obtain ⟨h1, h2⟩ := exchange k G hG
  have e : (fun x => tc (fun t => G (x, t)) k) = fun x => (k.factorial : ℝ)⁻¹ * iteratedDeriv k (fun t => G (x, t)) 0 := by
    funext x; simp only [tc]; rw [div_eq_inv_mul]
  rw [e]
  refine ⟨contDiffAt_const.mul h1, fun v => ?_⟩
  rw [fderiv_const_mul (h1.differentiableAt (by simp))]
  simp only [ContinuousLinearMap.smul_apply, smul_eq_mul, h2 v, tc]
  rw [div_eq_inv_mul]

end exchange

/-- The polynomials in `t` whose coefficients are those of the solution of `x' = τ f(x)` through `x`, up to order `d`. -/
noncomputable def odeP {n : Nat} (f : Fin n → (Fin n → ℝ) → ℝ) (tau : ℝ) : Nat → (Fin n → ℝ) → ℝ → Fin n → ℝ
  | 0, x, _ => x
  | d + 1, x, t => fun i => odeP f tau d x t i + t ^ (d + 1) * (tau / (d + 1) * tc (fun t => f i (odeP f tau d x t)) d)

section odeP
variable {n : Nat} {f : Fin n → (Fin n → ℝ) → ℝ} {tau : ℝ}

theorem odeP_zero (d : Nat) (x : Fin n → ℝ) : odeP f tau d x 0 = x := by
  induction d with
  | zero => rfl
  | succ d ih => funext i; simp [odeP, ih]

theorem odeP_smooth_t (d : Nat) (x : Fin n → ℝ) : ContDiffAt ℝ ∞ (odeP f tau d x) 0 := by
  induction d with
  | zero => exact contDiffAt_const
  | succ d ih =>
    refine contDiffAt_pi.2 fun i => ?_
    simp only [odeP]
    exact (contDiffAt_pi.1 ih i).add ((contDiffAt_id.pow _).mul contDiffAt_const)

theorem odeP_tc_succ (d : Nat) (x : Fin n → ℝ) (i : Fin n) (m : Nat) :
    tc (fun t => odeP f tau (d + 1) x t i) m = tc (fun t => odeP f tau d x t i) m +
      if m = d + 1 then tau / (d + 1) * tc (fun t => f i (odeP f tau d x t)) d else 0 := by
  simp only [odeP]
  have hp : ContDiffAt ℝ ∞ (fun t : ℝ => t ^ (d + 1)) 0 := contDiffAt_id.pow _
  rw [tc_add (contDiffAt_pi.1 (odeP_smooth_t d x) i) (hp.mul contDiffAt_const), tc_mulc hp, tc_pow]
  split_ifs <;> simp

theorem odeP_tc_high (d : Nat) (x : Fin n → ℝ) (i : Fin n) (m : Nat) (hm : d < m) : tc (fun t => odeP f tau d x t i) m = 0 := by
  induction d with
  | zero => simp only [odeP]; rw [tc_const]; rw [if_neg (by omega)]
  | succ d ih => rw [odeP_tc_succ, ih (by omega), if_neg (by omega), add_zero]

theorem odeP_tc_low (d d' : Nat) (hd : d ≤ d') (x : Fin n → ℝ) (i : Fin n) (m : Nat) (hm : m ≤ d) :
    tc (fun t => odeP f tau d' x t i) m = tc (fun t => odeP f tau d x t i) m := by
  induction d' with
  | zero => have : d = 0 := by omega
            subst this; rfl
  | succ d' ih =>
    by_cases h : d = d' + 1
    · subst h; rfl
    · rw [odeP_tc_succ, ih (by omega), if_neg (by omega), add_zero]

theorem odeP_coef (d : Nat) (x : Fin n → ℝ) (i : Fin n) :
    tc (fun t => odeP f tau (d + 1) x t i) (d + 1) = tau / (d + 1) * tc (fun t => f i (odeP f tau d x t)) d := by
  rw [odeP_tc_succ, odeP_tc_high _ _ _ _ (by omega), if_pos rfl, zero_add]

theorem odeP_smooth {x0 : Fin n → ℝ} (hf : ∀ i, ContDiffAt ℝ ∞ (f i) x0) (d : Nat) :
    ContDiffAt ℝ ∞ (fun z : (Fin n → ℝ) × ℝ => odeP f tau d z.1 z.2) (x0, 0) := by
  induction d with
  | zero => exact contDiffAt_fst
  | succ d ih =>
    refine contDiffAt_pi.2 fun i => ?_
    simp only [odeP]
    refine (contDiffAt_pi.1 ih i).add ((contDiffAt_snd.pow _).mul (contDiffAt_const.mul ?_))
    have h1 : ContDiffAt ℝ ∞ (fun z : (Fin n → ℝ) × ℝ => f i (odeP f tau d z.1 z.2)) (x0, 0) := by
      refine ContDiffAt.comp (x0, (0:ℝ)) (g := f i) ?_ ih
      simp only [odeP_zero]; exact hf i
    exact (exchange_tc h1 d).1.comp (x0, (0:ℝ)) contDiffAt_fst

end odeP

/-- Both sides solve the recurrence of `accodec`. -/
theorem recur_unique {n deg : Nat} {tau : ℝ} {A B B' : Nat → Nat → Nat → ℝ}
    (hB : ∀ k ≤ deg, ∀ i < n, ∀ j < n, B i j k = recur n tau A B k i j)
    (hB' : ∀ k ≤ deg, ∀ i < n, ∀ j < n, B' i j k = recur n tau A B' k i j) :
    ∀ k ≤ deg, ∀ i < n, ∀ j < n, B i j k = B' i j k := by
  intro k
  induction k using Nat.strong_induction_on with
  | _ k ih =>
    intro hk i hi j hj
    rw [hB k hk i hi j hj, hB' k hk i hi j hj]
    unfold recur
    congr 2
    refine Finset.sum_congr rfl fun q hq => Finset.sum_congr rfl fun l hl => ?_
    have := Finset.mem_range.1 hq
    rw [ih (k - 1 - q) (by omega) (by omega) l (Finset.mem_range.1 hl) j hj]

variable {cfg : RCfg ℝ} {stock : List (Nat × List ℝ)} {s s' : Rec ℝ} {p : Prog ℝ} {N : Nat}

/-- The right-hand side. -/
noncomputable def rhs (p : Prog ℝ) (s : Rec ℝ) (par : Nat → ℝ) (n : Nat) (i : Fin n) : (Fin n → ℝ) → ℝ := F p s par n i

theorem odeP_formal (h : Traced cfg stock s p s' N) (par : Nat → ℝ) {n deg : Nat} {tau : ℝ} {x : Fin n → ℝ} {e0 : SE ℝ}
    (hspec : p.spec (ext x) par s.se = some (e0, p.path cfg s)) (hys : e0.ys.length = n)
    (hsm : ∀ᶠ x in 𝓝 x, p.smooth .ho (ext x) par s.se) : Formal p s par tau deg (odeP (rhs p s par n) tau deg x) := by
  intro d hd i
  have e1 := odeP_tc_low (f := rhs p s par n) (tau := tau) (d + 1) deg (by omega) x i (d + 1) (le_refl _)
  rw [e1, odeP_coef]
  have e2 := agree h par (k := d) (odeP_smooth_t (f := rhs p s par n) (tau := tau) d x) (odeP_smooth_t (f := rhs p s par n) (tau := tau) deg x)
    (fun i m hm => (odeP_tc_low d deg (by omega) x i m hm).symm) (by rw [odeP_zero]; exact hspec) (by rw [odeP_zero]; exact hsm)
    (j := i) (by omega) (le_refl d)
  rw [← e2]
  have : (0:ℝ) < d + 1 := by positivity
  simp only [rhs]
  field_simp

/-- The coefficients as functions of the initial value. -/
noncomputable def odeC (p : Prog ℝ) (s : Rec ℝ) (par : Nat → ℝ) {n : Nat} (tau : ℝ) (x : Fin n → ℝ) (i : Fin n) (d : Nat) : ℝ :=
  tc (fun t => odeP (rhs p s par n) tau d x t i) d

/-- The derivatives of the coefficients satisfy the recurrence of `accodec` with the Taylor coefficients of the
Jacobian along the solution. -/
theorem odeC_recur (h : Traced cfg stock s p s' N) (par : Nat → ℝ) {n deg : Nat} {tau : ℝ} {x0 : Fin n → ℝ} {e0 : SE ℝ}
    (hspec : p.spec (ext x0) par s.se = some (e0, p.path cfg s)) (hys : e0.ys.length = n)
    (hsm : ∀ᶠ x in 𝓝 x0, p.smooth .ho (ext x) par s.se) (hcd : ∀ i, ContDiffAt ℝ ∞ (rhs p s par n i) x0)
    (hev : ∀ᶠ x in 𝓝 x0, ∃ e, p.spec (ext x) par s.se = some (e, p.path cfg s) ∧ e.ys.length = n)
    {A : Nat → Nat → Nat → ℝ}
    (hA : ∀ i l : Fin n, ∀ q ≤ deg, A i l q = tc (fun t => fderiv ℝ (rhs p s par n i) (odeP (rhs p s par n) tau (deg + 1) x0 t) (Pi.single l 1)) q) :
    ∀ k ≤ deg, ∀ i < n, ∀ j < n,
      (if h : i < n ∧ j < n then fderiv ℝ (fun x => odeC p s par tau x ⟨i, h.1⟩ (k + 1)) x0 (Pi.single ⟨j, h.2⟩ 1) else 0) =
      recur n tau A (fun i j k => if h : i < n ∧ j < n then fderiv ℝ (fun x => odeC p s par tau x ⟨i, h.1⟩ (k + 1)) x0 (Pi.single ⟨j, h.2⟩ 1) else 0) k i j := by
  intro k hk i hi j hj
  rw [dif_pos ⟨hi, hj⟩]
  set f := rhs p s par n with hf
  set P := fun z : (Fin n → ℝ) × ℝ => odeP f tau (deg + 1) z.1 z.2 with hP
  have hPs : ContDiffAt ℝ ∞ P (x0, 0) := odeP_smooth hcd (deg + 1)
  have hP0 : P (x0, 0) = x0 := odeP_zero _ _
  set v : Fin n → ℝ := Pi.single ⟨j, hj⟩ 1 with hv
  -- the coefficient as a Taylor coefficient of `f ∘ P`
  have e1 : (fun x => odeC p s par tau x ⟨i, hi⟩ (k + 1)) =ᶠ[𝓝 x0] fun x => tau / (k + 1) * tc (fun t => f ⟨i, hi⟩ (P (x, t))) k := by
    filter_upwards [hev, hsm.eventually_nhds] with x ⟨e, hx, hx2⟩ hsx
    have := odeP_formal h par (deg := deg + 1) (tau := tau) hx hx2 hsx k (by omega) ⟨i, hi⟩
    have e2 := odeP_tc_low (f := f) (tau := tau) (k + 1) (deg + 1) (by omega) x ⟨i, hi⟩ (k + 1) (le_refl _)
    rw [e2] at this
    have hk0 : (0:ℝ) < k + 1 := by positivity
    simp only [odeC]
    rw [div_mul_eq_mul_div, eq_div_iff hk0.ne', mul_comm]
    exact this
  have hGs : ContDiffAt ℝ ∞ (fun z : (Fin n → ℝ) × ℝ => f ⟨i, hi⟩ (P z)) (x0, 0) :=
    ContDiffAt.comp (x0, (0:ℝ)) (g := f ⟨i, hi⟩) (by rw [hP0]; exact hcd _) hPs
  obtain ⟨g1, g2⟩ := exchange_tc hGs k
  rw [e1.fderiv_eq, fderiv_const_mul (g1.differentiableAt (by simp))]
  simp only [ContinuousLinearMap.smul_apply, smul_eq_mul, g2 v]
  unfold recur
  rw [show tau / (1 + (k:ℝ)) = tau / (k + 1) by rw [add_comm]]
  congr 1
  -- chain rule at `(x0, t)`
  have hPc : ∀ l : Fin n, ContDiffAt ℝ ∞ (fun z => P z l) (x0, 0) := fun l => contDiffAt_pi.1 hPs l
  have hPt : ContDiffAt ℝ ∞ (fun t => P (x0, t)) 0 := odeP_smooth_t _ _
  have e3 : (fun t => fderiv ℝ (fun x => f ⟨i, hi⟩ (P (x, t))) x0 v) =ᶠ[𝓝 0] fun t => ∑ l : Fin n,
      fderiv ℝ (f ⟨i, hi⟩) (P (x0, t)) (Pi.single l 1) * fderiv ℝ (fun x => P (x, t) l) x0 v := by
    have h1 : ∀ᶠ t in 𝓝 (0:ℝ), ∀ l, ContDiffAt ℝ 2 (fun z => P z l) (x0, t) :=
      eventually_all.2 fun l => (ev_cd (hPc l)).curry_nhds.self_of_nhds
    have h2 : ∀ᶠ t in 𝓝 (0:ℝ), ContDiffAt ℝ 2 (f ⟨i, hi⟩) (P (x0, t)) := by
      refine hPt.continuousAt.eventually ?_
      show ∀ᶠ y in 𝓝 (P (x0, 0)), _
      rw [hP0]; exact ev_cd (hcd _)
    filter_upwards [h1, h2] with t t1 t2
    have d1 : ∀ l, HasFDerivAt (fun x => P (x, t) l) (fderiv ℝ (fun x => P (x, t) l) x0) x0 := fun l =>
      have hc : ContDiffAt ℝ 2 (fun x : Fin n → ℝ => (x, t)) x0 := contDiffAt_id.prodMk contDiffAt_const
      DifferentiableAt.hasFDerivAt (ContDiffAt.differentiableAt (ContDiffAt.comp x0 (g := fun z => P z l) (t1 l) hc) (by decide))
    have d2 := (t2.differentiableAt (by decide)).hasFDerivAt.comp x0 (hasFDerivAt_pi.2 d1)
    rw [show (fun x => f ⟨i, hi⟩ (P (x, t))) = f ⟨i, hi⟩ ∘ fun x => P (x, t) from rfl]
    have d3 : fderiv ℝ (f ⟨i, hi⟩ ∘ fun x => P (x, t)) x0 = _ := d2.fderiv
    rw [d3]
    simp only [ContinuousLinearMap.comp_apply]
    set w : Fin n → ℝ := (ContinuousLinearMap.pi fun l => fderiv ℝ (fun x => P (x, t) l) x0) v with hw
    have hws : w = ∑ l, (fderiv ℝ (fun x => P (x, t) l) x0 v) • (Pi.single l 1 : Fin n → ℝ) := by
      funext m
      simp [hw, Finset.sum_apply, Pi.single_apply]
    rw [hws, map_sum]
    refine Finset.sum_congr rfl fun l _ => ?_
    rw [map_smul, smul_eq_mul, mul_comm]
  rw [tc_congr e3]
  -- Taylor coefficients of the two factors
  have hJ : ∀ l : Fin n, ContDiffAt ℝ ∞ (fun t => fderiv ℝ (f ⟨i, hi⟩) (P (x0, t)) (Pi.single l 1)) 0 := by
    intro l
    have h6 : ContDiffAt ℝ ∞ (fderiv ℝ (f ⟨i, hi⟩)) (P (x0, 0)) := by rw [hP0]; exact (hcd _).fderiv_right (by simp)
    exact (h6.comp 0 hPt).clm_apply contDiffAt_const
  have hW : ∀ l : Fin n, ContDiffAt ℝ ∞ (fun t => fderiv ℝ (fun x => P (x, t) l) x0 v) 0 := by
    intro l
    have h6 : ContDiffAt ℝ ∞ (fun t : ℝ => fderiv ℝ (fun z => P z l) (x0, t) (v, 0)) 0 :=
      (smooth_pd (hPc l) (v, 0)).comp 0 (contDiffAt_const.prodMk contDiffAt_id)
    refine h6.congr_of_eventuallyEq ?_
    filter_upwards [(ev_cd (hPc l)).curry_nhds.self_of_nhds] with t ht
    exact fderiv_left (ht.differentiableAt (by decide)) v
  have hWc : ∀ l : Fin n, ∀ m ≤ deg + 1, tc (fun t => fderiv ℝ (fun x => P (x, t) l) x0 v) m =
      fderiv ℝ (fun x => odeC p s par tau x l m) x0 v := by
    intro l m hm
    rw [← (exchange_tc (hPc l) m).2 v]
    congr 2
    funext x
    exact odeP_tc_low m (deg + 1) hm x l m (le_refl _)
  have hsum : tc (fun t => ∑ l : Fin n, fderiv ℝ (f ⟨i, hi⟩) (P (x0, t)) (Pi.single l 1) * fderiv ℝ (fun x => P (x, t) l) x0 v) k =
      ∑ l : Fin n, ∑ q ∈ Finset.range (k + 1), tc (fun t => fderiv ℝ (f ⟨i, hi⟩) (P (x0, t)) (Pi.single l 1)) q *
        tc (fun t => fderiv ℝ (fun x => P (x, t) l) x0 v) (k - q) := by
    have : ∀ S : Finset (Fin n), tc (fun t => ∑ l ∈ S, fderiv ℝ (f ⟨i, hi⟩) (P (x0, t)) (Pi.single l 1) * fderiv ℝ (fun x => P (x, t) l) x0 v) k =
      ∑ l ∈ S, ∑ q ∈ Finset.range (k + 1), tc (fun t => fderiv ℝ (f ⟨i, hi⟩) (P (x0, t)) (Pi.single l 1)) q *
        tc (fun t => fderiv ℝ (fun x => P (x, t) l) x0 v) (k - q) := by
      intro S
      induction S using Finset.induction_on with
      | empty => simp only [Finset.sum_empty]; rw [tc_const]; split_ifs <;> rfl
      | insert a S ha ih =>
        simp only [Finset.sum_insert ha]
        rw [tc_add ((hJ a).mul (hW a)) (ContDiffAt.sum fun l _ => (hJ l).mul (hW l)), ih, tc_mul (hJ a) (hW a)]
    exact this Finset.univ
  rw [hsum, Finset.sum_comm, Finset.sum_range_succ, add_comm]
  congr 1
  · -- the term with the initial value
    rw [Finset.sum_eq_single (⟨j, hj⟩ : Fin n)]
    · rw [hWc _ _ (by omega), Nat.sub_self]
      have : (fun x : Fin n → ℝ => odeC p s par tau x ⟨j, hj⟩ 0) = fun x => x ⟨j, hj⟩ := by
        funext x; simp [odeC, odeP]
      rw [this, show (fun x : Fin n → ℝ => x ⟨j, hj⟩) = ⇑(ContinuousLinearMap.proj (R := ℝ) (φ := fun _ : Fin n => ℝ) ⟨j, hj⟩) from rfl, ContinuousLinearMap.fderiv]
      simp only [ContinuousLinearMap.proj_apply, hv, Pi.single_eq_same, mul_one]
      exact (hA ⟨i, hi⟩ ⟨j, hj⟩ k hk).symm
    · intro l _ hl
      rw [hWc _ _ (by omega), Nat.sub_self]
      have : (fun x : Fin n → ℝ => odeC p s par tau x l 0) = fun x => x l := by
        funext x; simp [odeC, odeP]
      rw [this, show (fun x : Fin n → ℝ => x l) = ⇑(ContinuousLinearMap.proj (R := ℝ) (φ := fun _ : Fin n => ℝ) l) from rfl, ContinuousLinearMap.fderiv]
      simp only [ContinuousLinearMap.proj_apply, hv, Pi.single_eq_of_ne hl, mul_zero]
    · exact fun h => absurd (Finset.mem_univ _) h
  · refine Finset.sum_congr rfl fun q hq => ?_
    have hq := Finset.mem_range.1 hq
    rw [← Fin.sum_univ_eq_sum_range (fun l => A i l q * _) n]
    refine Finset.sum_congr rfl fun l _ => ?_
    rw [hWc _ _ (by omega)]
    beta_reduce
    rw [dif_pos ⟨l.2, hj⟩, show k - 1 - q + 1 = k - q by omega]
    rw [show A i l q = A (⟨i, hi⟩ : Fin n) l q from rfl, hA ⟨i, hi⟩ l q (by omega)]

end Verif.Drivers
