import Verif.Drivers.OdeJac
import Mathlib.Analysis.ODE.ExistUnique

/-!
# C27: `forode` and `accode`

`F p s par n i` is the `i`-th output of the traced program as a function of its `n` inputs.
-/
set_option linter.all false
namespace Verif.Props.Ode
open Verif.AD Verif.Props.AD Verif.Props.Drivers Verif.Drivers Elem Filter Topology ContDiff

variable {cfg : RCfg ℝ} {stock : List (Nat × List ℝ)} {s s' : Rec ℝ} {p : Prog ℝ} {N : Nat}

/-- A solution of an autonomous system with smooth right-hand side is smooth. -/
theorem solution_smooth {n : Nat} {f : Fin n → (Fin n → ℝ) → ℝ} {ξ : ℝ → Fin n → ℝ}
    (hf : ∀ i, ContDiffAt ℝ ∞ (f i) (ξ 0)) {tau : ℝ}
    (hode : ∀ᶠ t in 𝓝 0, HasDerivAt ξ (fun i => tau * f i (ξ t)) t) : ContDiffAt ℝ ∞ ξ 0 := by
  rw [contDiffAt_infty]
  intro k
  induction k with
  | zero =>
    obtain ⟨U, hU, hU'⟩ := hode.exists_mem
    exact contDiffAt_zero.2 ⟨U, hU, fun t ht => (hU' t ht).continuousAt.continuousWithinAt⟩
  | succ k ih =>
    have hr : ContDiffAt ℝ k (fun t => fun i => tau * f i (ξ t)) 0 :=
      contDiffAt_pi.2 fun i => contDiffAt_const.mul ((contDiffAt_infty.1 (hf i) k).comp 0 ih)
    push_cast
    rw [contDiffAt_succ_iff_hasFDerivAt]
    refine ⟨fun t => ContinuousLinearMap.toSpanSingleton ℝ (fun i => tau * f i (ξ t)), ?_, ?_⟩
    · obtain ⟨U, hU, hU'⟩ := hode.exists_mem
      exact ⟨U, hU, fun t ht => (hU' t ht).hasFDerivAt⟩
    · exact ((ContinuousLinearMap.toSpanSingletonCLE (𝕜 := ℝ) (E := Fin n → ℝ)).contDiff.contDiffAt).comp 0 hr

/-- C27, `forode` (partial: same restrictions on the elementary functions as C17, here in a neighbourhood of the
initial value).  For every traced program with as many outputs as inputs, every initial value on the recorded path,
every `tau`, every solution `ξ` of `ξ' = tau F(ξ)`, `ξ(0) = x0`, and all degrees `dol ≤ deg`: if the array contains the
coefficients of `ξ` up to degree `dol`, then on return it contains those up to degree `deg`. -/
theorem C27_forode_partial (h : Traced cfg stock s p s' N) (par : Nat → ℝ) {n : Nat} (x0 : Fin n → ℝ) {e0 : SE ℝ}
    (hspec : p.spec (ext x0) par s.se = some (e0, p.path cfg s)) (hys : e0.ys.length = n)
    (hsm : ∀ᶠ x in 𝓝 x0, p.smooth .ho (ext x) par s.se) (tau : ℝ)
    (ξ : ℝ → Fin n → ℝ) (hξ : ξ 0 = x0) (hode : ∀ᶠ t in 𝓝 0, HasDerivAt ξ (fun i => tau * F p s par n i (ξ t)) t)
    {dol deg : Nat} (hdd : dol ≤ deg) (Y : Fin n → Nat → ℝ)
    (hY : ∀ i, ∀ d ≤ dol, Y i d = iteratedDeriv d (fun t => ξ t i) 0 / d.factorial) :
    ∃ Y' rows, forodec (tapeOf s' N par n n) tau dol deg (extX Y) = .ok (Y', rows) ∧
      ∀ i : Fin n, ∀ d ≤ deg, Y' i d = iteratedDeriv d (fun t => ξ t i) 0 / d.factorial := by
  subst hξ
  have hcd : ∀ i : Fin n, ContDiffAt ℝ ∞ (F p s par n i) (ξ 0) := fun i =>
    (recorded_contDiff h.alloc p h.start h.recorded par (ξ 0) hspec hsm.self_of_nhds i).1
  have hs := solution_smooth (f := fun i => F p s par n i) hcd hode
  have hf : Formal p s par tau deg ξ := by
    intro d hd i
    have e : deriv (fun t => ξ t i) =ᶠ[𝓝 0] fun t => F p s par n i (ξ t) * tau := by
      filter_upwards [hode] with t ht
      rw [mul_comm]
      exact (hasDerivAt_pi.1 ht i).deriv
    have e1 : ContDiffAt ℝ ∞ (fun t => F p s par n i (ξ t)) 0 := (hcd i).comp 0 hs
    have := tc_congr e d
    rw [tc_deriv, tc_mulc e1] at this
    rw [this, mul_comm]
  obtain ⟨Y', rows, h1, h2, _⟩ := forodec_formal h par hdd hs hf hspec hys hsm Y hY
  exact ⟨Y', rows, h1, h2⟩

/-- A solution as in `C27_forode_partial` always exists (Picard–Lindelöf). -/
theorem C27_solution_exists (h : Traced cfg stock s p s' N) (par : Nat → ℝ) {n : Nat} (x0 : Fin n → ℝ) {e0 : SE ℝ}
    (hspec : p.spec (ext x0) par s.se = some (e0, p.path cfg s))
    (hsm : p.smooth .ho (ext x0) par s.se) (tau : ℝ) :
    ∃ ξ : ℝ → Fin n → ℝ, ξ 0 = x0 ∧ ∀ᶠ t in 𝓝 0, HasDerivAt ξ (fun i => tau * F p s par n i (ξ t)) t := by
  have hcd : ContDiffAt ℝ 1 (fun x => fun i : Fin n => tau * F p s par n i x) x0 := contDiffAt_pi.2 fun i =>
    contDiffAt_const.mul (contDiffAt_infty.1 (recorded_contDiff h.alloc p h.start h.recorded par x0 hspec hsm i).1 1)
  obtain ⟨ξ, h1, ε, hε, h2⟩ := hcd.exists_forall_mem_closedBall_exists_eq_forall_mem_Ioo_hasDerivAt₀ 0
  refine ⟨ξ, h1, ?_⟩
  filter_upwards [Ioo_mem_nhds (show (0:ℝ) - ε < 0 by linarith) (show (0:ℝ) < 0 + ε by linarith)] with t ht
  exact h2 t ht

/-- C27, `accode` after `forode` (partial: restrictions as in C18, in a neighbourhood of the initial value; the
Jacobian tensor is built by one `hos_reverse` per row, `hov_reverse` is not modelled here).
For every traced program with `n` inputs and `n` outputs, every initial value `x0` on the recorded path and every
`tau` and degree: there are coefficient functions `C x i d` such that
* at every `x` near `x0`, `forode` of degree `deg + 1` returns `C x`,
* after `forode` at `x0`, a `hos_reverse` of degree `deg` for every row succeeds on the values `forode` has kept, and
  `accode`, applied to the results `A`, without or with any pattern that describes `A`, returns in `B[i][j][k]` the
  derivative of the `(k+1)`-st coefficient of component `i` with respect to component `j` of the initial value. -/
theorem C27_accode_partial (h : Traced cfg stock s p s' N) (hd : p.disc ⟨Set.univ, ∅⟩) (par : Nat → ℝ) {n : Nat} (x0 : Fin n → ℝ) {e0 : SE ℝ}
    (hspec : p.spec (ext x0) par s.se = some (e0, p.path cfg s)) (hn : e0.ii = n) (hys : e0.ys.length = n)
    (hsm : ∀ᶠ x in 𝓝 x0, p.smooth .hor (ext x) par s.se) (tau : ℝ) (deg : Nat) :
    ∃ C : (Fin n → ℝ) → Fin n → Nat → ℝ,
      (∀ᶠ x in 𝓝 x0, ∀ Y : Fin n → Nat → ℝ, (∀ i, Y i 0 = x i) →
        ∃ Y' rows, forodec (tapeOf s' N par n n) tau 0 (deg + 1) (extX Y) = .ok (Y', rows) ∧
          ∀ i : Fin n, ∀ d ≤ deg + 1, Y' i d = C x i d) ∧
      ∀ Y : Fin n → Nat → ℝ, (∀ i, Y i 0 = x0 i) →
      ∃ Y' rows, forodec (tapeOf s' N par n n) tau 0 (deg + 1) (extX Y) = .ok (Y', rows) ∧
      ∃ R : Fin n → HRS ℝ,
        (∀ i : Fin n, hosRevRun (deg + 1) (lagr fun j => if j = i then 1 else 0) (s'.tape N) (HRS.init n n rows) = .ok (R i)) ∧
        ∀ A : Nat → Nat → Nat → ℝ, (∀ i j : Fin n, ∀ k ≤ deg, A i j k = (R i).Z j k) → ∀ B0 : Nat → Nat → Nat → ℝ, ∀ i j : Fin n, ∀ k ≤ deg,
          accDense n tau deg (fun _ => A) B0 i j k = fderiv ℝ (fun x => C x i (k + 1)) x0 (Pi.single j 1) ∧
          ∀ nz, Pattern n A nz → (accSparse n tau deg (fun _ => A) ⟨B0, nz⟩).B i j k = fderiv ℝ (fun x => C x i (k + 1)) x0 (Pi.single j 1) := by
  have hho : ∀ᶠ x in 𝓝 x0, p.smooth .ho (ext x) par s.se := hsm.mono fun x h => Prog.smooth_ho h
  have hcd : ∀ i : Fin n, ContDiffAt ℝ ∞ (rhs p s par n i) x0 := fun i =>
    (recorded_contDiff h.alloc p h.start h.recorded par x0 hspec hho.self_of_nhds i).1
  have hev := (recorded_contDiff h.alloc p h.start h.recorded par x0 hspec hho.self_of_nhds 0).2
  rw [hys] at hev
  have hfor : ∀ x : Fin n → ℝ, (∃ e, p.spec (ext x) par s.se = some (e, p.path cfg s) ∧ e.ys.length = n) →
      (∀ᶠ x in 𝓝 x, p.smooth .ho (ext x) par s.se) → ∀ Y : Fin n → Nat → ℝ, (∀ i, Y i 0 = x i) →
      ∃ Y' rows, forodec (tapeOf s' N par n n) tau 0 (deg + 1) (extX Y) = .ok (Y', rows) ∧
        (∀ i : Fin n, ∀ d ≤ deg + 1, Y' i d = odeC p s par tau x i d) ∧
        RowsOk s' N par (deg + 1) (odeP (rhs p s par n) tau (deg + 1) x) rows := by
    rintro x ⟨e, hx, hx2⟩ hxs Y hY
    have hz := odeP_zero (f := rhs p s par n) (tau := tau) (deg + 1) x
    obtain ⟨Y', rows, h1, h2, h3⟩ := forodec_formal h par (dol := 0) (deg := deg + 1) (by omega) (odeP_smooth_t (deg + 1) x)
      (odeP_formal h par hx hx2 hxs) (by rw [hz]; exact hx) hx2 (by rw [hz]; exact hxs) Y (fun i d hd => by
        have : d = 0 := by omega
        subst this
        rw [tc_zero, hz, hY])
    refine ⟨Y', rows, h1, fun i d hd => ?_, h3 (by omega)⟩
    rw [h2 i d hd]
    exact odeP_tc_low d (deg + 1) hd x i d (le_refl _)
  refine ⟨odeC p s par tau, ?_, fun Y hY => ?_⟩
  · filter_upwards [hev, hho.eventually_nhds] with x hx hxs Y hY
    obtain ⟨Y', rows, h1, h2, _⟩ := hfor x hx hxs Y hY
    exact ⟨Y', rows, h1, h2⟩
  · obtain ⟨Y', rows, h1, h2, X, H, r1, r2, r3⟩ := hfor x0 ⟨e0, hspec, hys⟩ hho Y hY
    refine ⟨Y', rows, h1, ?_⟩
    have hz := odeP_zero (f := rhs p s par n) (tau := tau) (deg + 1) x0
    have hc := (odeP_smooth_t (f := rhs p s par n) (tau := tau) (deg + 1) x0).continuousAt
    have hR : ∀ i : Fin n, ∃ R, hosRevRun (deg + 1) (lagr fun j => if j = i then 1 else 0) (s'.tape N) (HRS.init n n rows) = .ok R ∧
        ∀ l : Fin n, ∀ q ≤ deg, R.Z l q = tc (fun t => fderiv ℝ (rhs p s par n i) (odeP (rhs p s par n) tau (deg + 1) x0 t) (Pi.single l 1)) q := by
      intro i
      obtain ⟨H', g1, g2⟩ := recorded_hrev_rows h.alloc p h.start h.recorded hd par (k := deg) (d := deg) (le_refl _)
        (odeP (rhs p s par n) tau (deg + 1) x0) hc X r1 (by rw [hz]; exact hspec) hn
        (hc.eventually (by rw [hz]; exact hsm)) h.pos h.size (u := fun _ j => if j = i then 1 else 0)
        (L := lagr fun j => if j = i then 1 else 0) (fun j => (Jet.const _).coefs fun q hq => by simp [lagr])
      rw [Nat.add_sub_cancel] at r2
      rw [r2] at g1
      cases g1
      obtain ⟨R, k1, k2, k3, k4⟩ := g2 rows r3
      rw [hys] at k1 k4
      refine ⟨R, k1, fun l q hq => ?_⟩
      rw [← (k4 l).coef q hq]
      congr 1
      funext t
      rw [Finset.sum_eq_single (i : Nat)]
      · simp [rhs, Drivers.F]
        rfl
      · intro b _ hb; simp [hb]
      · intro hb; exact absurd (Finset.mem_range.2 i.2) hb
    choose R hR1 hR2 using hR
    refine ⟨R, hR1, fun A hA B0 i j k hk => ?_⟩
    have hrec := odeC_recur h par (deg := deg) (tau := tau) hspec hys hho hcd hev (A := A)
      (fun i l q hq => by rw [hA i l q hq, hR2 i l q hq])
    constructor
    · have := recur_unique (accDense_recur n tau deg A B0) hrec k hk i i.2 j j.2
      rw [this, dif_pos ⟨i.2, j.2⟩]
    · intro nz hnz
      have := recur_unique (accSparse_recur n tau deg A B0 nz hnz).1 hrec k hk i i.2 j j.2
      rw [this, dif_pos ⟨i.2, j.2⟩]

/-- The recurrence in the comment of `accodec` holds for every input tensor (odedrivers.cpp:154-156),
`B_k = τ/(k+1) (A_k + ∑_{j=1..k} A_{j-1} B_{k-j})`, into a separate array, without pattern. -/
theorem C27_accode_recurrence {K : Type} [Field K] (n : Nat) (tau : K) (deg : Nat) (A B0 : Nat → Nat → Nat → K) :
    ∀ k ≤ deg, ∀ i < n, ∀ j < n, accDense n tau deg (fun _ => A) B0 i j k =
      tau / (1 + (k : K)) * (A i j k + ∑ m ∈ Finset.range k, ∑ l ∈ Finset.range n, A i l m * accDense n tau deg (fun _ => A) B0 l j (k - 1 - m)) :=
  accDense_recur n tau deg A B0

/-- With a pattern of nonnegative entries that describes the input, into a separate array: the same recurrence, and
the pattern on return tells where the output vanishes: `k < -nonzero[i][j]` implies `B[i][j][k] = 0`. -/
theorem C27_accode_pattern_partial {K : Type} [Field K] (n : Nat) (tau : K) (deg : Nat) (A B0 : Nat → Nat → Nat → K) (nz : Nat → Nat → Int)
    (hpos : ∀ i < n, ∀ j < n, 0 ≤ nz i j) (h0 : ∀ i < n, ∀ j < n, nz i j ≤ 0 → ∀ k, A i j k = 0)
    (h1 : ∀ i < n, ∀ j < n, nz i j = 1 → ∀ k, 0 < k → A i j k = 0) :
    (∀ k ≤ deg, ∀ i < n, ∀ j < n, (accSparse n tau deg (fun _ => A) ⟨B0, nz⟩).B i j k =
      tau / (1 + (k : K)) * (A i j k + ∑ m ∈ Finset.range k, ∑ l ∈ Finset.range n, A i l m * (accSparse n tau deg (fun _ => A) ⟨B0, nz⟩).B l j (k - 1 - m))) ∧
    ∀ i < n, ∀ j < n, ∀ k : Nat, (k : Int) < - (accSparse n tau deg (fun _ => A) ⟨B0, nz⟩).nz i j → (accSparse n tau deg (fun _ => A) ⟨B0, nz⟩).B i j k = 0 :=
  accSparse_recur n tau deg A B0 nz ⟨hpos, fun i hi j hj h => h0 i hi j hj (le_of_eq h), h1⟩

/-- The output condition in the comment of `accodec` and in the manual, `k ≤ -nonzero[i][j]` implies
`B[i][j][k] = 0`, is wrong: for `A_0 = (0 1; 1 0)` and `tau = 1` it returns `nonzero[0][0] = -1` and `B[0][0][1] = 1/2`. -/
theorem C27_accode_pattern_bound :
    let A : Nat → Nat → Nat → ℚ := fun i j k => if i ≠ j ∧ k = 0 then 1 else 0
    let nz : Nat → Nat → Int := fun i j => if i ≠ j then 1 else 0
    let R := accSparse 2 1 1 (fun _ => A) ⟨fun _ _ _ => 0, nz⟩
    (∀ i < 2, ∀ j < 2, nz i j ≤ 0 → ∀ k, A i j k = 0) ∧ (∀ i < 2, ∀ j < 2, nz i j = 1 → ∀ k, 0 < k → A i j k = 0) ∧
    R.nz 0 0 = -1 ∧ R.B 0 0 1 = 1 / 2 := by
  refine ⟨fun i _ j _ h k => ?_, fun i _ j _ h k hk => ?_, ?_, ?_⟩
  · simp only at h ⊢
    split_ifs at h with h1
    · omega
    · rw [if_neg (by tauto)]
  · simp only
    rw [if_neg (by omega)]
  · decide +kernel
  · decide +kernel

/-- "A may directly be overwritten by B, i.e. their pointer arguments may coincide" (odedrivers.cpp:131-133) is wrong:
for `n = 1`, `tau = 2`, `A_0 = 1`, `A_1 = 0` the total Jacobians are `2` and `2`, but in place the second one becomes 4. -/
theorem C27_accode_in_place :
    let A : Nat → Nat → Nat → ℚ := fun _ _ k => if k = 0 then 1 else 0
    accDense 1 2 1 (fun _ => A) (fun _ _ _ => 0) 0 0 1 = 2 ∧ accDense 1 2 1 id A 0 0 1 = 4 := by
  constructor <;> decide +kernel

/-- A pattern left by an earlier call (with negative entries) makes `accodec` drop contributions. -/
theorem C27_accode_pattern_reused :
    let A : Nat → Nat → Nat → ℚ := fun i j k => if i ≠ j ∧ k = 0 then 1 else 0
    let nz : Nat → Nat → Int := fun i j => if i ≠ j then 1 else -2
    (∀ i < 2, ∀ j < 2, nz i j ≤ 0 → ∀ k, A i j k = 0) ∧ (∀ i < 2, ∀ j < 2, nz i j = 1 → ∀ k, 0 < k → A i j k = 0) ∧
    (accSparse 2 1 1 (fun _ => A) ⟨fun _ _ _ => 0, nz⟩).B 0 0 1 = 0 ∧ accDense 2 1 1 (fun _ => A) (fun _ _ _ => 0) 0 0 1 = 1 / 2 := by
  refine ⟨fun i _ j _ h k => ?_, fun i _ j _ h k hk => ?_, ?_, ?_⟩
  · simp only at h ⊢
    split_ifs at h with h1
    · omega
    · rw [if_neg (by tauto)]
  · simp only
    rw [if_neg (by omega)]
  · decide +kernel
  · decide +kernel

/-! ### A concrete program meeting the hypotheses -/

/-- `x' = x y, y' = exp(x)` -/
noncomputable def sys : Prog ℝ :=
  .stmt (.new 0) <| .stmt (.indep 0) <| .stmt (.new 1) <| .stmt (.indep 1) <|
  .stmt (.new 2) <| .stmt (.bin .mult true 0 1 2) <| .stmt (.dep 2) <| .stmt (.new 3) <| .stmt (.un .exp 0 3) <| .stmt (.dep 3) .done

example : ∃ s', Traced demoCfg [] demoStart sys s' (s'.hw + 1) ∧ sys.disc ⟨Set.univ, ∅⟩ ∧ ∀ x0 : Fin 2 → ℝ,
    (∃ e0, sys.spec (ext x0) (fun _ => 0) demoStart.se = some (e0, sys.path demoCfg demoStart) ∧ e0.ii = 2 ∧ e0.ys.length = 2) ∧
    ∀ b, ∀ᶠ x in 𝓝 x0, sys.smooth b (ext x) (fun _ => 0) demoStart.se := by
  have hspec : ∀ x par : Nat → ℝ, ∃ e, sys.spec x par demoStart.se = some (e, []) ∧ e.ii = 2 ∧ e.ys.length = 2 := by
    intro x par
    simp [sys, Prog.spec, Stmt.spec, demoStart, Rec.se, SE.set, SE.del, upd_apply, Bin.fn, Un.fn, Elem.exp, Cmp.holds]
  obtain ⟨e, h1, h2, h3⟩ := hspec demoCfg.x demoCfg.par
  obtain ⟨s', h4, h5⟩ := traced_exists (stock := []) demo_alloc demo_start
    (by simp [sys, Prog.noFminLL, Stmt.notFminLL]) h1
  refine ⟨s', h4, by simp [sys, Prog.disc, Stmt.disc, Stmt.discNext, Stmt.uses], fun x0 => ⟨?_, fun b => Eventually.of_forall fun x => ?_⟩⟩
  · rw [h5]; exact hspec _ _
  · simp [sys, Prog.smooth, Stmt.smooth, Stmt.spec, demoStart, Rec.se, SE.set, SE.del, upd_apply, Bin.fn,
      Un.fn, Un.smooth, Elem.exp, Cmp.holds]

/-- The tensor `A_0 = (0 1; 1 0)`, `A_1 = 0` with its pattern meets the hypotheses of `C27_accode_pattern_partial`. -/
example : let A : Nat → Nat → Nat → ℚ := fun i j k => if i ≠ j ∧ k = 0 then 1 else 0
    let nz : Nat → Nat → Int := fun i j => if i ≠ j then 1 else 0
    (∀ i < 2, ∀ j < 2, 0 ≤ nz i j) ∧ (∀ i < 2, ∀ j < 2, nz i j ≤ 0 → ∀ k, A i j k = 0) ∧
      ∀ i < 2, ∀ j < 2, nz i j = 1 → ∀ k, 0 < k → A i j k = 0 := by
  refine ⟨fun i _ j _ => ?_, fun i _ j _ h k => ?_, fun i _ j _ h k hk => ?_⟩
  · simp only; split_ifs <;> omega
  · simp only at h ⊢
    split_ifs at h with h1
    · omega
    · rw [if_neg (by tauto)]
  · simp only
    rw [if_neg (by omega)]

end Verif.Props.Ode
