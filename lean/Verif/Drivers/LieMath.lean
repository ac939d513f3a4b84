import Verif.Drivers.Lie
import Verif.Drivers.OdeJac
import Mathlib.Analysis.ODE.ExistUnique

/-! Lie derivatives as derivatives along a solution: the mathematics behind the drivers. -/
set_option linter.all false
namespace Verif.Drivers
open Verif.AD Filter Topology ContDiff

/-! ## Specification -/

section spec
variable {n : Nat}

/-- The `k`-th Lie derivative of the function `h` along the vector field `f`: `L⁰h = h`, `L^{k+1}h = ∑_j f_j ∂_j (L^k h)`. -/
noncomputable def lieD (f : Fin n → (Fin n → ℝ) → ℝ) (h : (Fin n → ℝ) → ℝ) : Nat → (Fin n → ℝ) → ℝ
  | 0 => h
  | k + 1 => fun x => fderiv ℝ (lieD f h k) x fun j => f j x

/-- The `k`-th Lie derivative of the covector field `w` along `f`: `(L w)_i = ∑_j f_j ∂_j w_i + ∑_j w_j ∂_i f_j`. -/
noncomputable def lieW (f w : Fin n → (Fin n → ℝ) → ℝ) : Nat → Fin n → (Fin n → ℝ) → ℝ
  | 0 => w
  | k + 1 => fun i x => fderiv ℝ (lieW f w k i) x (fun j => f j x) + ∑ j, lieW f w k j x * fderiv ℝ (f j) x (Pi.single i 1)

/-- The iterated Lie bracket: `ad⁰ g = g`, `(ad^{k+1} g)_i = ∑_j f_j ∂_j (ad^k g)_i - ∑_j (ad^k g)_j ∂_j f_i`. -/
noncomputable def lieAd (f g : Fin n → (Fin n → ℝ) → ℝ) : Nat → Fin n → (Fin n → ℝ) → ℝ
  | 0 => g
  | k + 1 => fun i x => fderiv ℝ (lieAd f g k i) x (fun j => f j x) - ∑ j, lieAd f g k j x * fderiv ℝ (f i) x (Pi.single j 1)
end spec

/-! ## Smooth germs -/

section germs
variable {E : Type} [NormedAddCommGroup E] [NormedSpace ℝ E]

/-- Smooth in a neighbourhood. -/
def SmG (g : E → ℝ) (x0 : E) : Prop := ∀ᶠ x in 𝓝 x0, ContDiffAt ℝ ∞ g x

theorem SmG.add {g h : E → ℝ} {x0 : E} (hg : SmG g x0) (hh : SmG h x0) : SmG (fun x => g x + h x) x0 := by
  filter_upwards [hg, hh] with x a b using a.add b
theorem SmG.sub {g h : E → ℝ} {x0 : E} (hg : SmG g x0) (hh : SmG h x0) : SmG (fun x => g x - h x) x0 := by
  filter_upwards [hg, hh] with x a b using a.sub b
theorem SmG.neg {g : E → ℝ} {x0 : E} (hg : SmG g x0) : SmG (fun x => - g x) x0 := by
  filter_upwards [hg] with x a using a.neg
theorem SmG.mul {g h : E → ℝ} {x0 : E} (hg : SmG g x0) (hh : SmG h x0) : SmG (fun x => g x * h x) x0 := by
  filter_upwards [hg, hh] with x a b using a.mul b
theorem SmG.sum {ι : Type} {s : Finset ι} {g : ι → E → ℝ} {x0 : E} (hg : ∀ i ∈ s, SmG (g i) x0) : SmG (fun x => ∑ i ∈ s, g i x) x0 := by
  have := (Finset.eventually_all s).2 hg
  filter_upwards [this] with x a using ContDiffAt.sum fun i hi => a i hi
end germs

section lie
variable {n : Nat} {x0 : Fin n → ℝ}

theorem SmG.dir {f : Fin n → (Fin n → ℝ) → ℝ} {g : (Fin n → ℝ) → ℝ} (hg : SmG g x0) (hf : ∀ i, SmG (f i) x0) :
    SmG (fun x => fderiv ℝ g x fun j => f j x) x0 := by
  have := eventually_all.2 hf
  filter_upwards [hg, this] with x a b
  exact (a.fderiv_right (m := ∞) (by simp)).clm_apply (contDiffAt_pi.2 b)

theorem SmG.part {g : (Fin n → ℝ) → ℝ} (hg : SmG g x0) (v : Fin n → ℝ) : SmG (fun x => fderiv ℝ g x v) x0 := by
  filter_upwards [hg] with x a
  exact (a.fderiv_right (m := ∞) (by simp)).clm_apply contDiffAt_const

theorem lieD_smooth {f : Fin n → (Fin n → ℝ) → ℝ} {h : (Fin n → ℝ) → ℝ} (hf : ∀ i, SmG (f i) x0) (hh : SmG h x0) (k : Nat) :
    SmG (lieD f h k) x0 := by
  induction k with
  | zero => exact hh
  | succ k ih => exact ih.dir hf

theorem lieW_smooth {f w : Fin n → (Fin n → ℝ) → ℝ} (hf : ∀ i, SmG (f i) x0) (hw : ∀ i, SmG (w i) x0) (k : Nat) :
    ∀ i, SmG (lieW f w k i) x0 := by
  induction k with
  | zero => exact hw
  | succ k ih => exact fun i => ((ih i).dir hf).add (SmG.sum fun j _ => (ih j).mul ((hf j).part _))

theorem lieAd_smooth {f g : Fin n → (Fin n → ℝ) → ℝ} (hf : ∀ i, SmG (f i) x0) (hg : ∀ i, SmG (g i) x0) (k : Nat) :
    ∀ i, SmG (lieAd f g k i) x0 := by
  induction k with
  | zero => exact hg
  | succ k ih => exact fun i => ((ih i).dir hf).sub (SmG.sum fun j _ => (ih j).mul ((hf i).part _))

/-- A sum of partial derivatives is a directional derivative. -/
theorem sum_part (L : (Fin n → ℝ) →L[ℝ] ℝ) (v : Fin n → ℝ) : L v = ∑ j, v j * L (Pi.single j 1) := by
  conv_lhs => rw [show v = ∑ j, v j • (Pi.single j 1 : Fin n → ℝ) by
    funext m; simp [Finset.sum_apply, Pi.single_apply]]
  rw [map_sum]
  exact Finset.sum_congr rfl fun j _ => by rw [map_smul, smul_eq_mul]

/-- The gradient of the Lie derivatives is the Lie derivative of the gradient. -/
theorem lieW_grad {f : Fin n → (Fin n → ℝ) → ℝ} {h : (Fin n → ℝ) → ℝ} (hf : ∀ i, SmG (f i) x0) (hh : SmG h x0) (k : Nat) (i : Fin n) :
    ∀ᶠ x in 𝓝 x0, lieW f (fun i x => fderiv ℝ h x (Pi.single i 1)) k i x = fderiv ℝ (lieD f h k) x (Pi.single i 1) := by
  induction k generalizing i with
  | zero => exact Eventually.of_forall fun x => rfl
  | succ k ih =>
    have hg := lieD_smooth hf hh k
    set g := lieD f h k with hgd
    have hall := eventually_all.2 ih
    have hfa := eventually_all.2 hf
    filter_upwards [hall.eventually_nhds, hg.eventually_nhds, hfa] with x a b c
    have ha := a.self_of_nhds
    simp only [lieW, lieD]
    rw [← hgd]
    have e1 : fderiv ℝ (lieW f (fun i x => fderiv ℝ h x (Pi.single i 1)) k i) x = fderiv ℝ (fun y => fderiv ℝ g y (Pi.single i 1)) x :=
      Filter.EventuallyEq.fderiv_eq (a.mono fun y hy => hy i)
    have hb := b.self_of_nhds
    have hg2 : DifferentiableAt ℝ (fderiv ℝ g) x := (hb.fderiv_right (m := ∞) (by simp)).differentiableAt (by simp)
    have hfd : DifferentiableAt ℝ (fun y => fun j => f j y) x := differentiableAt_pi.2 fun j => (c j).differentiableAt (by simp)
    have e2 : HasFDerivAt (fun y => fderiv ℝ g y fun j => f j y)
        ((fderiv ℝ g x).comp (fderiv ℝ (fun y => fun j => f j y) x) + (fderiv ℝ (fderiv ℝ g) x).flip fun j => f j x) x :=
      hg2.hasFDerivAt.clm_apply hfd.hasFDerivAt
    have e3 : HasFDerivAt (fun y => fderiv ℝ g y (Pi.single i (1:ℝ)))
        ((fderiv ℝ (fderiv ℝ g) x).flip (Pi.single i 1)) x := by
      have := hg2.hasFDerivAt.clm_apply (hasFDerivAt_const (Pi.single i (1:ℝ)) x)
      simpa using this
    rw [e1, e3.fderiv, e2.fderiv]
    simp only [ContinuousLinearMap.add_apply, ContinuousLinearMap.comp_apply, ContinuousLinearMap.flip_apply]
    have hsym : IsSymmSndFDerivAt ℝ g x := hb.isSymmSndFDerivAt (by simp only [minSmoothness_of_isRCLikeNormedField]; exact WithTop.coe_le_coe.2 le_top)
    rw [hsym.eq (fun j => f j x) (Pi.single i 1), add_comm]
    congr 1
    rw [sum_part]
    refine Finset.sum_congr rfl fun j _ => ?_
    rw [ha j, mul_comm]
    congr 1
    rw [fderiv_pi fun j => (c j).differentiableAt (by simp)]
    rfl
end lie

/-! ## Solutions -/

section sol
variable {E : Type} [NormedAddCommGroup E] [NormedSpace ℝ E]

theorem sol_smooth {v : E → E} {z : ℝ → E} (hv : ContDiffAt ℝ ∞ v (z 0)) (hode : ∀ᶠ t in 𝓝 0, HasDerivAt z (v (z t)) t) :
    ContDiffAt ℝ ∞ z 0 := by
  rw [contDiffAt_infty]
  intro k
  induction k with
  | zero =>
    obtain ⟨U, hU, hU'⟩ := hode.exists_mem
    exact contDiffAt_zero.2 ⟨U, hU, fun t ht => (hU' t ht).continuousAt.continuousWithinAt⟩
  | succ k ih =>
    have hr : ContDiffAt ℝ k (fun t => v (z t)) 0 := (contDiffAt_infty.1 hv k).comp 0 ih
    push_cast
    rw [contDiffAt_succ_iff_hasFDerivAt]
    refine ⟨fun t => ContinuousLinearMap.toSpanSingleton ℝ (v (z t)), ?_, ?_⟩
    · obtain ⟨U, hU, hU'⟩ := hode.exists_mem
      exact ⟨U, hU, fun t ht => (hU' t ht).hasFDerivAt⟩
    · exact ((ContinuousLinearMap.toSpanSingletonCLE (𝕜 := ℝ) (E := E)).contDiff.contDiffAt).comp 0 hr

/-- A chain of functions each of which is the derivative of its predecessor. -/
theorem chain_tc {G : Nat → ℝ → ℝ} (hG : ∀ k, ∀ᶠ t in 𝓝 0, HasDerivAt (G k) (G (k + 1) t) t) (k : Nat) :
    tc (G 0) k = G k 0 / k.factorial := by
  have key : ∀ k, iteratedDeriv k (G 0) =ᶠ[𝓝 0] G k := by
    intro k
    induction k with
    | zero => simp [iteratedDeriv_zero]
    | succ k ih =>
      rw [iteratedDeriv_succ]
      refine ih.deriv.trans ?_
      filter_upwards [hG k] with t ht using ht.deriv
  unfold tc
  rw [(key k).self_of_nhds]

theorem tc_sum {ι : Type} {s : Finset ι} {w : ι → ℝ → ℝ} {k : Nat} (h : ∀ i ∈ s, ContDiffAt ℝ ∞ (w i) 0) :
    tc (fun t => ∑ i ∈ s, w i t) k = ∑ i ∈ s, tc (w i) k := by
  classical
  induction s using Finset.induction_on with
  | empty =>
    simp only [Finset.sum_empty]
    cases k with
    | zero => simp
    | succ k => simp [tc, iteratedDeriv_const]
  | insert a s ha ih =>
    simp only [Finset.sum_insert ha]
    rw [tc_add (h a (by simp)) (ContDiffAt.sum fun i hi => h i (by simp [hi])), ih fun i hi => h i (by simp [hi])]

variable {n : Nat} {x0 : Fin n → ℝ}

/-- A solution of `ξ' = f(ξ)` together with one of `Θ' = M(ξ) Θ`, `Θ(0) = 1`. -/
theorem sol_exists {f : Fin n → (Fin n → ℝ) → ℝ} {M : Fin n → Fin n → (Fin n → ℝ) → ℝ}
    (hf : ∀ i, ContDiffAt ℝ ∞ (f i) x0) (hM : ∀ i j, ContDiffAt ℝ ∞ (M i j) x0) :
    ∃ (ξ : ℝ → Fin n → ℝ) (Θ : ℝ → Fin n → Fin n → ℝ), ξ 0 = x0 ∧ ContDiffAt ℝ ∞ ξ 0 ∧
      (∀ᶠ t in 𝓝 0, HasDerivAt ξ (fun i => f i (ξ t)) t) ∧
      (∀ i j, Θ 0 i j = if i = j then 1 else 0) ∧ (∀ i j, ContDiffAt ℝ ∞ (fun t => Θ t i j) 0) ∧
      ∀ i j, ∀ᶠ t in 𝓝 0, HasDerivAt (fun t => Θ t i j) (∑ l, M i l (ξ t) * Θ t l j) t := by
  set v : (Fin n → ℝ) × (Fin n → Fin n → ℝ) → (Fin n → ℝ) × (Fin n → Fin n → ℝ) :=
    fun z => (fun i => f i z.1, fun i j => ∑ l, M i l z.1 * z.2 l j) with hv
  set z0 : (Fin n → ℝ) × (Fin n → Fin n → ℝ) := (x0, fun i j => if i = j then 1 else 0) with hz0
  have hvs : ContDiffAt ℝ ∞ v z0 := by
    refine ContDiffAt.prodMk (contDiffAt_pi.2 fun i => ?_) (contDiffAt_pi.2 fun i => contDiffAt_pi.2 fun j => ?_)
    · exact ContDiffAt.comp z0 (g := f i) (hf i) contDiffAt_fst
    · refine ContDiffAt.sum fun l _ => ContDiffAt.mul ?_ ?_
      · exact ContDiffAt.comp z0 (g := M i l) (hM i l) contDiffAt_fst
      · have : ContDiffAt ℝ ∞ (fun z : (Fin n → ℝ) × (Fin n → Fin n → ℝ) => z.2) z0 := contDiffAt_snd
        exact contDiffAt_pi.1 (contDiffAt_pi.1 this l) j
  obtain ⟨z, h1, ε, hε, h2⟩ := (contDiffAt_infty.1 hvs 1).exists_forall_mem_closedBall_exists_eq_forall_mem_Ioo_hasDerivAt₀ 0
  have hode : ∀ᶠ t in 𝓝 0, HasDerivAt z (v (z t)) t := by
    filter_upwards [Ioo_mem_nhds (show (0:ℝ) - ε < 0 by linarith) (show (0:ℝ) < 0 + ε by linarith)] with t ht
    exact h2 t ht
  have hzs : ContDiffAt ℝ ∞ z 0 := sol_smooth (by rw [h1]; exact hvs) hode
  refine ⟨fun t => (z t).1, fun t => (z t).2, by simp only [h1]; rfl, ?_, ?_, fun i j => by simp only [h1]; rfl, fun i j => ?_, fun i j => ?_⟩
  · exact (contDiff_fst.contDiffAt).comp 0 hzs
  · filter_upwards [hode] with t ht
    exact (hasFDerivAt_fst (𝕜 := ℝ) (p := z t)).comp_hasDerivAt t ht
  · have : ContDiffAt ℝ ∞ (fun t => (z t).2) 0 := (contDiff_snd.contDiffAt).comp 0 hzs
    exact contDiffAt_pi.1 (contDiffAt_pi.1 this i) j
  · filter_upwards [hode] with t ht
    have : HasDerivAt (fun t => (z t).2) (v (z t)).2 t := (hasFDerivAt_snd (𝕜 := ℝ) (p := z t)).comp_hasDerivAt t ht
    exact hasDerivAt_pi.1 (hasDerivAt_pi.1 this i) j

/-- The coefficients of `Θ` solve the recurrence of `accodec`. -/
theorem theta_recur {M : Fin n → Fin n → (Fin n → ℝ) → ℝ} {ξ : ℝ → Fin n → ℝ} {Θ : ℝ → Fin n → Fin n → ℝ}
    (hM : ∀ i j, ContDiffAt ℝ ∞ (fun t => M i j (ξ t)) 0) (h0 : ∀ i j, Θ 0 i j = if i = j then 1 else 0)
    (hs : ∀ i j, ContDiffAt ℝ ∞ (fun t => Θ t i j) 0)
    (hd : ∀ i j, ∀ᶠ t in 𝓝 0, HasDerivAt (fun t => Θ t i j) (∑ l, M i l (ξ t) * Θ t l j) t)
    {A : Nat → Nat → Nat → ℝ} {deg : Nat} (hA : ∀ i j : Fin n, ∀ k ≤ deg, A i j k = tc (fun t => M i j (ξ t)) k) :
    ∀ k ≤ deg, ∀ i < n, ∀ j < n,
      (if h : i < n ∧ j < n then tc (fun t => Θ t ⟨i, h.1⟩ ⟨j, h.2⟩) (k + 1) else 0) =
      recur n 1 A (fun i j k => if h : i < n ∧ j < n then tc (fun t => Θ t ⟨i, h.1⟩ ⟨j, h.2⟩) (k + 1) else 0) k i j := by
  intro k hk i hi j hj
  beta_reduce
  rw [dif_pos ⟨hi, hj⟩]
  have e1 : ((k:ℝ) + 1) * tc (fun t => Θ t ⟨i, hi⟩ ⟨j, hj⟩) (k + 1) = tc (fun t => ∑ l, M ⟨i, hi⟩ l (ξ t) * Θ t l ⟨j, hj⟩) k := by
    rw [← tc_deriv]
    exact tc_congr ((hd ⟨i, hi⟩ ⟨j, hj⟩).mono fun t ht => ht.deriv) k
  have e2 : tc (fun t => ∑ l, M ⟨i, hi⟩ l (ξ t) * Θ t l ⟨j, hj⟩) k = ∑ l, tc (fun t => M ⟨i, hi⟩ l (ξ t) * Θ t l ⟨j, hj⟩) k :=
    tc_sum fun l _ => (hM _ _).mul (hs _ _)
  have e3 : ∀ l : Fin n, tc (fun t => M ⟨i, hi⟩ l (ξ t) * Θ t l ⟨j, hj⟩) k =
      ∑ q ∈ Finset.range k, A i l q * tc (fun t => Θ t l ⟨j, hj⟩) (k - 1 - q + 1) + A i l k * (if l = ⟨j, hj⟩ then 1 else 0) := by
    intro l
    rw [tc_mul (hM _ _) (hs _ _), Finset.sum_range_succ, Nat.sub_self, tc_zero, h0, hA ⟨i, hi⟩ l k hk]
    congr 1
    refine Finset.sum_congr rfl fun q hq => ?_
    have := Finset.mem_range.1 hq
    rw [← hA ⟨i, hi⟩ l q (by omega), show k - q = k - 1 - q + 1 by omega]
  have hk0 : (0:ℝ) < (k:ℝ) + 1 := by positivity
  unfold recur
  rw [show (1:ℝ) / (1 + (k:ℝ)) = ((k:ℝ) + 1)⁻¹ by rw [add_comm, one_div], eq_inv_mul_iff_mul_eq₀ hk0.ne', e1, e2,
    Finset.sum_congr rfl fun l _ => e3 l, Finset.sum_add_distrib, add_comm]
  congr 1
  · rw [Finset.sum_eq_single ⟨j, hj⟩]
    · simp
    · intro b _ hb; simp [hb]
    · intro hb; exact absurd (Finset.mem_univ _) hb
  · rw [Finset.sum_comm]
    refine Finset.sum_congr rfl fun q _ => ?_
    rw [Finset.sum_range]
    refine Finset.sum_congr rfl fun l _ => ?_
    beta_reduce
    rw [dif_pos ⟨l.2, hj⟩]

/-- `∑_l w_l(ξ) Θ_{li}` in terms of the coefficients: `D_k = C_k + ∑_{q<k} C_{k-q-1} B_q`. -/
theorem out_tc {w : Fin n → ℝ → ℝ} {Θ : ℝ → Fin n → Fin n → ℝ} (hw : ∀ l, ContDiffAt ℝ ∞ (w l) 0)
    (h0 : ∀ i j, Θ 0 i j = if i = j then 1 else 0) (hs : ∀ i j, ContDiffAt ℝ ∞ (fun t => Θ t i j) 0)
    {C : Nat → Nat → ℝ} {B : Nat → Nat → Nat → ℝ} {k : Nat} (i : Fin n) (hC : ∀ l : Fin n, ∀ q ≤ k, C l q = tc (w l) q)
    (hB : ∀ l : Fin n, ∀ q < k, B l i q = tc (fun t => Θ t l i) (q + 1)) :
    C i k + ∑ q ∈ Finset.range k, ∑ l ∈ Finset.range n, C l (k - (q + 1)) * B l i q = tc (fun t => ∑ l, w l t * Θ t l i) k := by
  have e2 : tc (fun t => ∑ l, w l t * Θ t l i) k = ∑ l, tc (fun t => w l t * Θ t l i) k := tc_sum fun l _ => (hw _).mul (hs _ _)
  have e3 : ∀ l : Fin n, tc (fun t => w l t * Θ t l i) k = ∑ q ∈ Finset.range k, C l (k - (q + 1)) * B l i q + C l k * (if l = i then 1 else 0) := by
    intro l
    rw [show (fun t => w l t * Θ t l i) = fun t => Θ t l i * w l t by funext t; ring, tc_mul (hs _ _) (hw _), Finset.sum_range_succ',
      tc_zero, h0, Nat.sub_zero, hC l k (le_refl _), mul_comm]
    congr 1
    refine Finset.sum_congr rfl fun q hq => ?_
    have := Finset.mem_range.1 hq
    rw [hC l _ (by omega), hB l q (by omega), mul_comm]
  rw [e2, Finset.sum_congr rfl fun l _ => e3 l, Finset.sum_add_distrib, add_comm]
  congr 1
  · rw [Finset.sum_comm, Finset.sum_range]
  · rw [Finset.sum_eq_single i]
    · simp
    · intro b _ hb; simp [hb]
    · intro hb; exact absurd (Finset.mem_univ _) hb

section along
variable {f : Fin n → (Fin n → ℝ) → ℝ} {ξ : ℝ → Fin n → ℝ}

theorem SmG.along {g : (Fin n → ℝ) → ℝ} (hg : SmG g x0) (hξ : ContDiffAt ℝ ∞ ξ 0) (h0 : ξ 0 = x0)
    (hode : ∀ᶠ t in 𝓝 0, HasDerivAt ξ (fun i => f i (ξ t)) t) :
    ∀ᶠ t in 𝓝 0, HasDerivAt (fun t => g (ξ t)) (fderiv ℝ g (ξ t) fun j => f j (ξ t)) t := by
  have h1 : ∀ᶠ t in 𝓝 0, ContDiffAt ℝ ∞ g (ξ t) := hξ.continuousAt.eventually (by rw [h0]; exact hg)
  filter_upwards [h1, hode] with t a b
  exact (a.differentiableAt (by simp)).hasFDerivAt.comp_hasDerivAt t b

theorem SmG.comp_smooth {g : (Fin n → ℝ) → ℝ} (hg : SmG g x0) (hξ : ContDiffAt ℝ ∞ ξ 0) (h0 : ξ 0 = x0) :
    ContDiffAt ℝ ∞ (fun t => g (ξ t)) 0 := ContDiffAt.comp (0:ℝ) (g := g) (by rw [h0]; exact hg.self_of_nhds) hξ

/-- `L^k h (x0) = k! [t^k] h(ξ(t))`. -/
theorem lieD_tc {h : (Fin n → ℝ) → ℝ} (hf : ∀ i, SmG (f i) x0) (hh : SmG h x0) (hξ : ContDiffAt ℝ ∞ ξ 0) (h0 : ξ 0 = x0)
    (hode : ∀ᶠ t in 𝓝 0, HasDerivAt ξ (fun i => f i (ξ t)) t) (k : Nat) :
    tc (fun t => h (ξ t)) k = lieD f h k x0 / k.factorial := by
  have := chain_tc (G := fun k t => lieD f h k (ξ t)) (fun k => (lieD_smooth hf hh k).along hξ h0 hode) k
  rw [h0] at this
  exact this

/-- `(L^k w)_i (x0) = k! [t^k] ∑_l w_l(ξ) Φ_{li}` for the solution `Φ` of the variational equation. -/
theorem lieW_tc {w : Fin n → (Fin n → ℝ) → ℝ} (hf : ∀ i, SmG (f i) x0) (hw : ∀ i, SmG (w i) x0) (hξ : ContDiffAt ℝ ∞ ξ 0) (h0 : ξ 0 = x0)
    (hode : ∀ᶠ t in 𝓝 0, HasDerivAt ξ (fun i => f i (ξ t)) t) {Θ : ℝ → Fin n → Fin n → ℝ} (hΘ0 : ∀ i j, Θ 0 i j = if i = j then 1 else 0)
    (hd : ∀ i j, ∀ᶠ t in 𝓝 0, HasDerivAt (fun t => Θ t i j) (∑ l, fderiv ℝ (f i) (ξ t) (Pi.single l 1) * Θ t l j) t) (i : Fin n) (k : Nat) :
    tc (fun t => ∑ l, w l (ξ t) * Θ t l i) k = lieW f w k i x0 / k.factorial := by
  have := chain_tc (G := fun k t => ∑ l, lieW f w k l (ξ t) * Θ t l i) (fun k => ?_) k
  · rw [h0] at this
    simp only [hΘ0] at this
    refine Eq.trans this ?_
    simp
  · have h1 := eventually_all.2 fun l => (lieW_smooth hf hw k l).along hξ h0 hode
    have h2 := eventually_all.2 fun l => hd l i
    filter_upwards [h1, h2] with t a b
    have := HasDerivAt.fun_sum (u := Finset.univ) fun l _ => (a l).mul (b l)
    refine this.congr_deriv ?_
    simp only [lieW, add_mul, Finset.sum_add_distrib]
    congr 1
    simp only [Finset.mul_sum, Finset.sum_mul]
    rw [Finset.sum_comm]
    refine Finset.sum_congr rfl fun l _ => Finset.sum_congr rfl fun j _ => ?_
    ring

/-- `(ad^k g)_i (x0) = k! [t^k] ∑_l g_l(ξ) Ψ_{li}` for the solution `Ψ` of the adjoint variational equation. -/
theorem lieAd_tc {g : Fin n → (Fin n → ℝ) → ℝ} (hf : ∀ i, SmG (f i) x0) (hg : ∀ i, SmG (g i) x0) (hξ : ContDiffAt ℝ ∞ ξ 0) (h0 : ξ 0 = x0)
    (hode : ∀ᶠ t in 𝓝 0, HasDerivAt ξ (fun i => f i (ξ t)) t) {Θ : ℝ → Fin n → Fin n → ℝ} (hΘ0 : ∀ i j, Θ 0 i j = if i = j then 1 else 0)
    (hd : ∀ i j, ∀ᶠ t in 𝓝 0, HasDerivAt (fun t => Θ t i j) (∑ l, - fderiv ℝ (f l) (ξ t) (Pi.single i 1) * Θ t l j) t) (i : Fin n) (k : Nat) :
    tc (fun t => ∑ l, g l (ξ t) * Θ t l i) k = lieAd f g k i x0 / k.factorial := by
  have := chain_tc (G := fun k t => ∑ l, lieAd f g k l (ξ t) * Θ t l i) (fun k => ?_) k
  · rw [h0] at this
    simp only [hΘ0] at this
    refine Eq.trans this ?_
    simp
  · have h1 := eventually_all.2 fun l => (lieAd_smooth hf hg k l).along hξ h0 hode
    have h2 := eventually_all.2 fun l => hd l i
    filter_upwards [h1, h2] with t a b
    have := HasDerivAt.fun_sum (u := Finset.univ) fun l _ => (a l).mul (b l)
    refine this.congr_deriv ?_
    simp only [lieAd, sub_mul, Finset.sum_sub_distrib, Finset.sum_add_distrib]
    rw [sub_eq_add_neg, ← Finset.sum_neg_distrib]
    congr 1
    simp only [Finset.mul_sum, Finset.sum_mul, ← Finset.sum_neg_distrib]
    rw [Finset.sum_comm]
    refine Finset.sum_congr rfl fun l _ => Finset.sum_congr rfl fun j _ => ?_
    ring
end along

end sol

end Verif.Drivers
