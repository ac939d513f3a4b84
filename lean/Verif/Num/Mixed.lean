import Verif.Num.Simplex
import Mathlib.Analysis.Calculus.TaylorIntegral
import Mathlib.GroupTheory.Perm.DomMulAct
import Mathlib.Analysis.Calculus.FDeriv.Symmetric

/-!
# Mixed partial derivatives from directional Taylor coefficients
-/
set_option linter.all false
namespace Verif.Num.Mixed
open Finset Filter Topology Simplex

section sym
variable {E : Type} [NormedAddCommGroup E] [NormedSpace ℝ E] {f : E → ℝ}

theorem swap_sym (n : Nat) : ∀ {x : E}, ContDiffAt ℝ ((n + 1 : ℕ)) f x → ∀ (i : Fin n) (v : Fin (n + 1) → E),
    iteratedFDeriv ℝ (n + 1) f x (v ∘ Equiv.swap i.castSucc i.succ) = iteratedFDeriv ℝ (n + 1) f x v := by
  induction n with
  | zero => intro x _ i; exact i.elim0
  | succ n ih =>
    intro x hf i v
    have hd : DifferentiableAt ℝ (iteratedFDeriv ℝ (n + 1) f) x :=
      hf.differentiableAt_iteratedFDeriv (by exact_mod_cast Nat.lt_succ_self _)
    rw [hd.iteratedFDeriv_succ_apply_left', hd.iteratedFDeriv_succ_apply_left']
    have hev : ∀ᶠ y in 𝓝 x, ContDiffAt ℝ ((n + 1 : ℕ)) f y := by
      have := (hf.of_le (by exact_mod_cast Nat.le_succ _) : ContDiffAt ℝ ((n + 1 : ℕ)) f x)
      exact this.eventually (by simp)
    refine Fin.cases ?_ (fun i => ?_) i
    · -- the first two arguments
      have hG : ∀ w : Fin (n + 1) → E, fderiv ℝ (fun y => iteratedFDeriv ℝ (n + 1) f y w) x =
          fderiv ℝ (fun y => fderiv ℝ (fun y => iteratedFDeriv ℝ n f y (Fin.tail w)) y (w 0)) x := by
        intro w
        refine Filter.EventuallyEq.fderiv_eq ?_
        filter_upwards [hev] with y hy
        have hd' : DifferentiableAt ℝ (iteratedFDeriv ℝ n f) y :=
          hy.differentiableAt_iteratedFDeriv (by exact_mod_cast Nat.lt_succ_self _)
        exact hd'.iteratedFDeriv_succ_apply_left'
      rw [hG, hG]
      have hc2 : ∀ u : Fin n → E, ContDiffAt ℝ 2 (fun y => iteratedFDeriv ℝ n f y u) x := by
        intro u
        have h1 : ContDiffAt ℝ 2 (iteratedFDeriv ℝ n f) x := hf.iteratedFDeriv_right (by norm_cast; omega)
        exact ((ContinuousMultilinearMap.apply ℝ (fun _ : Fin n => E) ℝ u).contDiff.contDiffAt).comp x h1
      have hsw : ∀ (u : Fin n → E) (a b : E),
          fderiv ℝ (fun y => fderiv ℝ (fun y => iteratedFDeriv ℝ n f y u) y a) x b =
          fderiv ℝ (fun y => fderiv ℝ (fun y => iteratedFDeriv ℝ n f y u) y b) x a := by
        intro u a b
        have hs := (hc2 u).isSymmSndFDerivAt (by simp)
        have h1 : DifferentiableAt ℝ (fderiv ℝ fun y => iteratedFDeriv ℝ n f y u) x :=
          ((hc2 u).fderiv_right (m := 1) (by norm_num)).differentiableAt (by norm_num)
        have h2 : ∀ c, fderiv ℝ (fun y => fderiv ℝ (fun y => iteratedFDeriv ℝ n f y u) y c) x =
            (fderiv ℝ (fderiv ℝ fun y => iteratedFDeriv ℝ n f y u) x).flip c := by
          intro c
          ext d
          rw [fderiv_clm_apply h1 (differentiableAt_const c)]
          simp
        rw [h2, h2]
        exact hs b a
      have e0 : Fin.tail (Fin.tail (v ∘ Equiv.swap (Fin.castSucc 0) (Fin.succ 0))) = Fin.tail (Fin.tail v) := by
        funext l
        simp only [Fin.tail, Function.comp]
        congr 1
      have e1 : Fin.tail (v ∘ Equiv.swap (Fin.castSucc 0) (Fin.succ 0)) 0 = v 0 := by
        simp only [Fin.tail, Function.comp, Equiv.swap_apply_right]
        rfl
      have e2 : (v ∘ Equiv.swap (Fin.castSucc 0) (Fin.succ (0 : Fin (n + 1)))) 0 = Fin.tail v 0 := by
        simp only [Fin.tail, Function.comp]
        congr 1
      rw [e0, e1, e2]
      exact hsw _ _ _
    · have e0 : Fin.tail (v ∘ Equiv.swap i.succ.castSucc i.succ.succ) = (Fin.tail v) ∘ Equiv.swap i.castSucc i.succ := by
        funext l
        simp only [Fin.tail, Function.comp]
        congr 1
        rw [show i.succ.castSucc = i.castSucc.succ from rfl]
        simp only [Equiv.swap_apply_def, Fin.succ_inj]
        split_ifs <;> rfl
      have e1 : (v ∘ Equiv.swap i.succ.castSucc i.succ.succ) 0 = v 0 := by
        simp only [Function.comp]
        congr 1
      rw [e0, e1]
      congr 1
      refine Filter.EventuallyEq.fderiv_eq ?_
      filter_upwards [hev] with y hy
      exact ih hy i (Fin.tail v)

theorem perm_sym {n : Nat} {x : E} (hf : ContDiffAt ℝ (n : ℕ) f x) (σ : Equiv.Perm (Fin n)) (v : Fin n → E) :
    iteratedFDeriv ℝ n f x (v ∘ σ) = iteratedFDeriv ℝ n f x v := by
  cases n with
  | zero => congr 1; exact Subsingleton.elim _ _
  | succ n =>
    have : σ ∈ Submonoid.closure (Set.range fun i : Fin n => Equiv.swap i.castSucc i.succ) := by
      rw [Equiv.Perm.mclosure_swap_castSucc_succ]; trivial
    induction this using Submonoid.closure_induction generalizing v with
    | mem s hs =>
      obtain ⟨i, rfl⟩ := hs
      exact swap_sym n hf i v
    | one => rfl
    | mul a b _ _ ha hb =>
      rw [Equiv.Perm.coe_mul, ← Function.comp_assoc, hb, ha]

/-- Derivatives along a line. -/
theorem line {n : Nat} {x v : E} (hf : ContDiffAt ℝ (n : ℕ) f x) :
    iteratedDeriv n (fun t : ℝ => f (x + t • v)) 0 = iteratedFDeriv ℝ n f x fun _ => v := by
  have key : ∀ k, k ≤ n → ∀ᶠ t in 𝓝 (0 : ℝ), iteratedDeriv k (fun t : ℝ => f (x + t • v)) t = iteratedFDeriv ℝ k f (x + t • v) fun _ => v := by
    intro k
    induction k with
    | zero => intro _; simp
    | succ k ih =>
      intro hk
      have hc : Tendsto (fun t : ℝ => x + t • v) (𝓝 0) (𝓝 x) := by
        have : Continuous fun t : ℝ => x + t • v := by fun_prop
        simpa using this.tendsto 0
      have hev := hc.eventually ((hf.of_le (by exact_mod_cast hk) : ContDiffAt ℝ ((k + 1 : ℕ)) f x).eventually (by simp))
      filter_upwards [(ih (by omega)).eventually_nhds, hev] with t h1 h2
      rw [iteratedDeriv_succ, Filter.EventuallyEq.deriv_eq h1]
      exact ContDiffAt.deriv_fderiv_add_smul (by exact_mod_cast h2)
  have := (key n le_rfl).self_of_nhds
  simpa using this
end sym

section
variable {p e : Nat}

/-- How often each index occurs. -/
def cnt (φ : Fin e → Fin p) (m : Fin p) : Nat := Fintype.card {l // φ l = m}

theorem cnt_sum (φ : Fin e → Fin p) : ∑ m, cnt φ m = e := by
  unfold cnt
  rw [← Fintype.card_sigma, Fintype.card_congr (Equiv.sigmaFiberEquiv φ), Fintype.card_fin]

theorem prod_cnt (φ : Fin e → Fin p) (j : Fin p → ℚ) : ∏ l, j (φ l) = ∏ m, j m ^ cnt φ m := by
  rw [← Finset.prod_fiberwise (s := univ) (g := φ)]
  refine prod_congr rfl fun m _ => ?_
  rw [prod_congr rfl (g := fun _ => j m) (fun l hl => by rw [(mem_filter.mp hl).2]), prod_const]
  congr 1
  rw [cnt, Fintype.card_subtype]

theorem perm_of_cnt {φ ψ : Fin e → Fin p} (h : cnt φ = cnt ψ) : ∃ σ : Equiv.Perm (Fin e), φ = ψ ∘ σ := by
  have : ∀ c, Nonempty ({a // φ a = c} ≃ {b // ψ b = c}) := fun c => Fintype.card_eq.mp (congrFun h c)
  refine ⟨Equiv.ofFiberEquiv (fun c => (this c).some), ?_⟩
  funext a
  exact (Equiv.ofFiberEquiv_map _ a).symm

theorem cnt_perm (ψ : Fin e → Fin p) (σ : Equiv.Perm (Fin e)) : cnt (ψ ∘ σ) = cnt ψ := by
  funext m
  exact Fintype.card_congr (σ.subtypeEquiv fun a => Iff.rfl)

/-- Number of arrangements of a multi-index. -/
theorem arrangements (ψ : Fin e → Fin p) :
    (univ.filter fun φ : Fin e → Fin p => cnt φ = cnt ψ).card * ∏ m, (cnt ψ m).factorial = e.factorial := by
  have h1 : ∀ φ ∈ univ.filter (fun φ : Fin e → Fin p => cnt φ = cnt ψ),
      (univ.filter fun σ : Equiv.Perm (Fin e) => ψ ∘ σ = φ).card = ∏ m, (cnt ψ m).factorial := by
    intro φ hφ
    obtain ⟨τ, rfl⟩ := perm_of_cnt (mem_filter.mp hφ).2
    have := DomMulAct.stabilizer_card ψ
    rw [show (∏ m, (cnt ψ m).factorial) = ∏ i, (Fintype.card {a // ψ a = i}).factorial from rfl, ← this, Fintype.card_subtype]
    refine card_bij (fun σ _ => σ * τ⁻¹) ?_ ?_ ?_
    · intro σ hσ
      have h := (mem_filter.mp hσ).2
      refine mem_filter.mpr ⟨mem_univ _, ?_⟩
      funext a
      have := congrFun h (τ⁻¹ a)
      simpa using this
    · intro a _ b _ h
      exact mul_right_cancel h
    · intro σ hσ
      have h := (mem_filter.mp hσ).2
      refine ⟨σ * τ, mem_filter.mpr ⟨mem_univ _, ?_⟩, by simp⟩
      funext a
      exact congrFun h (τ a)
  have h2 := card_eq_sum_card_fiberwise (s := (univ : Finset (Equiv.Perm (Fin e)))) (f := fun σ : Equiv.Perm (Fin e) => ψ ∘ σ)
    (t := univ.filter fun φ : Fin e → Fin p => cnt φ = cnt ψ) (fun σ _ => by simp [cnt_perm])
  rw [sum_congr rfl h1, sum_const, smul_eq_mul, card_univ, Fintype.card_perm, Fintype.card_fin] at h2
  exact h2.symm

/-- The value on equal arguments. -/
theorem diag_expand (T : ContinuousMultilinearMap ℝ (fun _ : Fin e => Fin p → ℝ) ℝ) (v : Fin p → ℝ) :
    T (fun _ => v) = ∑ φ : Fin e → Fin p, (∏ l, v (φ l)) * T fun l => Pi.single (φ l) 1 := by
  have h : (fun _ : Fin e => v) = fun _ => ∑ m, v m • (Pi.single m 1 : Fin p → ℝ) := by
    funext l m
    simp [Finset.sum_apply, Pi.single_apply]
  rw [h, ContinuousMultilinearMap.map_sum]
  refine sum_congr rfl fun φ _ => ?_
  rw [ContinuousMultilinearMap.map_smul_univ]
  simp

/-- The mixed partial derivative in the coordinate directions `ψ` is the combination, with the coefficients `cOf`, of the
Taylor coefficients in the lattice directions. -/
theorem mixed {d : Nat} (hd : 0 < d) (he : 0 < e) (hed : e ≤ d) {g : (Fin p → ℝ) → ℝ} {z : Fin p → ℝ}
    (hg : ContDiffAt ℝ (e : ℕ) g z) (ψ : Fin e → Fin p) :
    ∑ j ∈ A p d, (cOf d (cnt ψ) j : ℝ) * (iteratedDeriv e (fun t : ℝ => g (z + t • fun l => (j l : ℝ))) 0 / e.factorial) =
      iteratedFDeriv ℝ e g z fun l => Pi.single (ψ l) 1 := by
  set T := iteratedFDeriv ℝ e g z
  have hTs : ∀ φ, cnt φ = cnt ψ → T (fun l => Pi.single (φ l) 1) = T fun l => Pi.single (ψ l) 1 := by
    intro φ h
    obtain ⟨σ, rfl⟩ := perm_of_cnt h
    exact perm_sym hg σ fun l => Pi.single (ψ l) 1
  have hf : (e.factorial : ℝ) ≠ 0 := by positivity
  have h1 : ∀ j ∈ A p d, (cOf d (cnt ψ) j : ℝ) * (iteratedDeriv e (fun t : ℝ => g (z + t • fun l => (j l : ℝ))) 0 / e.factorial) =
      ∑ φ : Fin e → Fin p, (T (fun l => Pi.single (φ l) 1) / e.factorial) * ((cOf d (cnt ψ) j * ∏ m, (j m : ℚ) ^ cnt φ m : ℚ) : ℝ) := by
    intro j _
    rw [line hg, diag_expand, sum_div, mul_sum]
    refine sum_congr rfl fun φ _ => ?_
    have := prod_cnt φ fun m => (j m : ℚ)
    have h' : ((∏ l, (j (φ l) : ℚ) : ℚ) : ℝ) = ((∏ m, (j m : ℚ) ^ cnt φ m : ℚ) : ℝ) := by rw [this]
    rw [Rat.cast_mul, ← h']
    push_cast
    ring
  rw [sum_congr rfl h1, sum_comm]
  have h2 : ∀ φ ∈ (univ : Finset (Fin e → Fin p)), ∑ j ∈ A p d,
      (T (fun l => Pi.single (φ l) 1) / e.factorial) * ((cOf d (cnt ψ) j * ∏ m, (j m : ℚ) ^ cnt φ m : ℚ) : ℝ) =
      if cnt φ = cnt ψ then T (fun l => Pi.single (ψ l) 1) / e.factorial * (∏ m, ((cnt ψ m).factorial : ℝ)) else 0 := by
    intro φ _
    rw [← mul_sum, ← Rat.cast_sum, cOf_monomial hd (cnt ψ) (cnt φ) (by rw [cnt_sum]; exact he) (by rw [cnt_sum]; exact hed)
      (by rw [cnt_sum, cnt_sum])]
    split
    · next h => rw [hTs φ h]; push_cast; rfl
    · simp
  rw [sum_congr rfl h2, ← sum_filter, sum_const, nsmul_eq_mul]
  have h3 := arrangements ψ
  have h4 : ((univ.filter fun φ : Fin e → Fin p => cnt φ = cnt ψ).card : ℝ) * ∏ m, ((cnt ψ m).factorial : ℝ) = e.factorial := by
    exact_mod_cast h3
  calc _ = T (fun l => Pi.single (ψ l) 1) / e.factorial *
        (((univ.filter fun φ : Fin e → Fin p => cnt φ = cnt ψ).card : ℝ) * ∏ m, ((cnt ψ m).factorial : ℝ)) := by ring
    _ = _ := by rw [h4]; field_simp

end
end Verif.Num.Mixed
