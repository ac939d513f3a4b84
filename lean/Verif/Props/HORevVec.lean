import Verif.AD.HoRevLin
import Verif.Props.HORev
import Verif.Props.HOVec
import Verif.Sparse.Program
import Verif.Drivers.Model

/-! # C41: several weight vectors at once, C42: several directions at once, in higher-order reverse mode -/
set_option linter.all false
namespace Verif.Props.HORevVec
open Verif.Drivers (ovRows)
open Verif.AD
open Verif.Props.AD Verif.Props.HORev Elem Filter Topology ContDiff

/-- C41 (partial: not for `ceil` and `floor`, and for two rows or more not for `abs` and for `a * x + y` of vectors; see
`C41_abs`, `C41_axpy`).  On every trace, for every number `p` of weight vectors, every degree `k - 1`, all weights and every contents of the
value stack, `hov_ti_reverse` either stops for the same reason as `hos_ti_reverse` with the weights of row `l` does, or both return
with the same results for row `l` and what is left on the stack. -/
theorem C41_rows_partial {K : Type} [Scalar K] (k p : Nat) (hk : 0 < k) (L : Nat → Nat → Nat → K) (ops : List (Base K)) (n m : Nat)
    (stk : List (Nat → K)) (l : Nat) (hl : l < p)
    (h1 : ∀ o ∈ ops, (∀ a r c, o ≠ .ceilOp a r c) ∧ (∀ a r c, o ≠ .floorOp a r c))
    (h2 : p ≤ 1 ∨ ∀ o ∈ ops, (∀ a r c, o ≠ .absVal a r c) ∧ ∀ a a1 a2 n r, o ≠ .vecAxpy a a1 a2 n r) :
    match hvrRun ⟨false, k, p, L⟩ ops (RVS.init n m (stk.map fun x _ => x)), hosRevRun k (L l) ops (HRS.init n m stk) with
    | .ok V, .ok h => (∀ j i, i < k → V.Z l j i = h.Z j i) ∧ V.stk.map (fun x => x 0) = h.stk
    | .error e, .error e' => e = e'
    | _, _ => False := by
  set c : RVCfg K := ⟨false, k, p, L⟩ with hc
  have ha : ∀ ops : List (Base K), (∀ o ∈ ops, o.rowOk c (RVS.init n m (stk.map fun x _ => x)) ∧ ∀ V, o.rowOk c V) → ∀ V, AlongRV c ops V := by
    intro ops h V
    induction ops with
    | nil => trivial
    | cons o os ih => exact ⟨ih fun o ho => h o (by simp [ho]), fun V1 _ => (h o (by simp)).2 V1⟩
  have hok : ∀ o ∈ ops, ∀ V, o.rowOk c V := by
    intro o ho V
    have e1 := h1 o ho
    cases o
    all_goals first | trivial | exact Or.inl rfl | skip
    case absVal a r w =>
      rcases h2 with h2 | h2
      · exact Or.inr h2
      · exact absurd rfl ((h2 _ ho).1 a r w)
    case ceilOp a r w => exact absurd rfl (e1.1 a r w)
    case floorOp a r w => exact absurd rfl (e1.2 a r w)
    case vecAxpy a a1 a2 n r =>
      rcases h2 with h2 | h2
      · exact h2
      · exact absurd rfl ((h2 _ ho).2 a a1 a2 n r)
  have hr := hvr_run (c := c) hk (fun h => by cases h) hl (RJ.init (n := n) (m := m) c l (stk.map fun x _ => x) fun h => by cases h) ops
    (ha ops (fun o ho => ⟨hok o ho _, hok o ho⟩) _)
  have e : (stk.map fun (x : Nat → K) (_ : Nat) => x).map (fun x => x (c.adv * l)) = stk := by
    rw [List.map_map]; exact List.map_id _
  rw [e] at hr
  revert hr
  show ESim c l _ (hosRevRun k (L l) ops _) → _
  cases hvrRun c ops (RVS.init n m (stk.map fun x _ => x)) <;> cases hosRevRun k (L l) ops (HRS.init n m stk) <;> intro hr
  · exact hr
  · exact hr
  · exact hr
  · refine ⟨fun j i hi => RRow.Z hr.toRRow j i hi, ?_⟩
    have := hr.stk
    rw [this]
    simp [RVCfg.adv, hc]

section
variable {cfg : RCfg ℝ} {stock : List (Nat × List ℝ)} {s s' : Rec ℝ} {p : Prog ℝ} {N : Nat}

/-- The program never calls `fabs`. -/
def noAbs (p : Prog ℝ) : Prop := Verif.Sparse.allStmts (Verif.Sparse.emits fun o => ∀ a r c, o ≠ .absVal a r c) p

/-- `hov_ti_reverse` on rows that agree with those of `hos_forward` up to the degree of the sweep, along any curve. -/
theorem hov_rows_path (h : Traced cfg stock s p s' N) (hd : p.disc ⟨Set.univ, ∅⟩) (par : Nat → ℝ) {n k d q : Nat} (hdk : d ≤ k)
    (hq : 0 < q) (habs : q ≤ 1 ∨ noAbs p)
    (ξ : ℝ → Fin n → ℝ) (hξ : ContinuousAt ξ 0) (X : Nat → Nat → ℝ)
    (hj : ∀ i, Jet k (fun t => ext (ξ t) i) (hcons (ext (ξ 0) i) (X i))) (L : Nat → Nat → Nat → ℝ) {e0 : SE ℝ}
    (hspec : p.spec (ext (ξ 0)) par s.se = some (e0, p.path cfg s)) (hn : e0.ii = n)
    (hsm : ∀ᶠ t in 𝓝 0, p.smooth .hor (ext (ξ t)) par s.se) :
    ∃ H, hosRun ⟨ext (ξ 0), X, par, k, d + 1⟩ (s'.tape N) HS.init = .ok H ∧
      ∀ st, List.Forall₂ (fun a b : Nat → ℝ => ∀ q ≤ d, a q = b q) st H.stk →
      ∃ V, hvrRun ⟨false, d + 1, q, L⟩ (s'.tape N) (RVS.init n e0.ys.length (st.map fun x _ => x)) = .ok V ∧ V.stk = [] ∧
      ∀ l, l < q → ∀ i : Fin n,
        (∀ e ≤ d, V.Z l i e = iteratedDeriv e (fun t => ∑ j ∈ Finset.range e0.ys.length,
          weight d (L l) t j * fderiv ℝ (fun x => p.out (ext x) par s.se j) (ξ t) (Pi.single i 1)) 0 / e.factorial) ∧
        (V.nz l i = 0 → ∀ e ≤ d, V.Z l i e = 0) ∧ (V.nz l i < 2 → ∀ e ≤ d, 0 < e → V.Z l i e = 0) := by
  set c : RVCfg ℝ := ⟨false, d + 1, q, L⟩ with hc
  have hrow : ∀ l, ∃ H, hosRun ⟨ext (ξ 0), X, par, k, d + 1⟩ (s'.tape N) HS.init = .ok H ∧ _ := fun l => by
    exact recorded_hrev_rows_ok h.alloc p h.start h.recorded hd par hdk ξ hξ X hj hspec hn hsm h.pos h.size
      (u := weight d (L l)) (L := L l) (fun j => jet_poly' d (L l j))
  have hops : ∀ o ∈ s'.tape N, ∀ live, o.planOk c live := by
    intro o ho live
    cases o
    all_goals first | trivial | exact Or.inl rfl | skip
    case absVal a r w =>
      rcases habs with h2 | h2
      · exact Or.inr h2
      · exact absurd rfl (Verif.Sparse.emits_tape h.alloc (P := fun o : Base ℝ => ∀ a r c, o ≠ .absVal a r c) (by simp) (by simp) (by simp) p h2
          h.start h.recorded N _ ho a r w)
  obtain ⟨H, hH, _⟩ := hrow 0
  refine ⟨H, hH, fun st hst0 => ?_⟩
  have e : ∀ l, (st.map fun (x : Nat → ℝ) (_ : Nat) => x).map (fun x => x (c.adv * l)) = st := by
    intro l; rw [List.map_map]; exact List.map_id _
  have key : ∀ l, l < q → ∃ R V, hosRevRun (d + 1) (L l) (s'.tape N) (HRS.init n e0.ys.length st) = .ok R ∧ R.stk = [] ∧
      (∀ i : Fin n, Jet d (fun t => ∑ j ∈ Finset.range e0.ys.length,
        weight d (L l) t j * fderiv ℝ (fun x => p.out (ext x) par s.se j) (ξ t) (Pi.single i 1)) (R.Z i)) ∧
      hvrRun c (s'.tape N) (RVS.init n e0.ys.length (st.map fun x _ => x)) = .ok V ∧ RJ c l V R ∧
      (∀ j, V.nz l j = 0 → ∀ i, i < c.k → V.Z l j i = 0) ∧ ∀ j, V.nz l j < 2 → ∀ i, 0 < i → i < c.k → V.Z l j i = 0 := by
    intro l hl
    obtain ⟨H', hH', hst⟩ := hrow l
    rw [hH] at hH'; cases hH'
    obtain ⟨R, r1, r2, r3, r4, r5⟩ := hst st hst0
    have hJ := RJ.init (n := n) (m := e0.ys.length) c l (st.map fun x _ => x) fun h => by cases h
    rw [e l] at hJ
    have hal := hvr_along (d := d) rfl (fun h => by cases h) hl hJ (s'.tape N)
      (fun pre o os he => hops o (by rw [he]; simp) _) r5
    have hr := hvr_run (c := c) (Nat.succ_pos d) (fun h => by cases h) hl hJ (s'.tape N) hal
    have r1' : hosRevRun c.k (c.L l) (s'.tape N) (HRS.init n e0.ys.length st) = .ok R := r1
    rw [r1'] at hr
    cases hV : hvrRun c (s'.tape N) (RVS.init n e0.ys.length (st.map fun x _ => x)) with
    | error e => rw [hV] at hr; exact hr.elim
    | ok V =>
      rw [hV] at hr
      exact ⟨R, V, r1, r2, r4, rfl, hr, hvr_nz (d := d) rfl rfl hl hJ (fun _ _ _ _ => rfl) (s'.tape N) hal r5 hV,
        hvr_nz1 (d := d) rfl rfl hl hJ (.init _ _ _ _) (fun _ _ _ _ _ => rfl) (s'.tape N) hal r5 hV⟩
  obtain ⟨R0, V, k1, k2, k3, k4, k5, k6⟩ := key 0 hq
  refine ⟨V, k4, ?_, fun l hl i => ?_⟩
  · have := k5.stk
    rw [k2] at this
    exact List.map_eq_nil_iff.1 this.symm
  · obtain ⟨R, V', g1, g2, g3, g4, g5, g6⟩ := key l hl
    rw [k4] at g4; cases g4
    refine ⟨fun e he => ?_, fun hz e he => g6.1 i hz e (by show e < d + 1; omega), fun hz e he h0 => g6.2 i hz e h0 (by show e < d + 1; omega)⟩
    rw [g5.Z i e (by show e < d + 1; omega)]
    exact ((g3 i).coef e he).symm

/-- `hov_ti_reverse` on rows that agree with those of `hos_forward` up to the degree of the sweep. -/
theorem hov_rows_any (h : Traced cfg stock s p s' N) (hd : p.disc ⟨Set.univ, ∅⟩) (par : Nat → ℝ) {n k d q : Nat} (hdk : d ≤ k)
    (hq : 0 < q) (habs : q ≤ 1 ∨ noAbs p)
    (x0 : Fin n → ℝ) (X : Fin n → Nat → ℝ) (L : Nat → Nat → Nat → ℝ) {e0 : SE ℝ}
    (hspec : p.spec (ext x0) par s.se = some (e0, p.path cfg s)) (hn : e0.ii = n)
    (hsm : ∀ᶠ t in 𝓝 0, p.smooth .hor (ext (curve k x0 X t)) par s.se) :
    ∃ H, hosRun ⟨ext x0, extX X, par, k, d + 1⟩ (s'.tape N) HS.init = .ok H ∧
      ∀ st, List.Forall₂ (fun a b : Nat → ℝ => ∀ q ≤ d, a q = b q) st H.stk →
      ∃ V, hvrRun ⟨false, d + 1, q, L⟩ (s'.tape N) (RVS.init n e0.ys.length (st.map fun x _ => x)) = .ok V ∧ V.stk = [] ∧
      ∀ l, l < q → ∀ i : Fin n,
        (∀ e ≤ d, V.Z l i e = iteratedDeriv e (fun t => ∑ j ∈ Finset.range e0.ys.length,
          weight d (L l) t j * fderiv ℝ (fun x => p.out (ext x) par s.se j) (curve k x0 X t) (Pi.single i 1)) 0 / e.factorial) ∧
        (V.nz l i = 0 → ∀ e ≤ d, V.Z l i e = 0) ∧ (V.nz l i < 2 → ∀ e ≤ d, 0 < e → V.Z l i e = 0) := by
  have hc0 := curve_zero k x0 X
  have := hov_rows_path h hd par hdk hq habs (curve k x0 X) (curve_cont k x0 X) (extX X)
    (by rw [hc0]; exact curve_jet k x0 X) L (by rw [hc0]; exact hspec) hn hsm
  rw [hc0] at this
  exact this

/-- C41 for traced programs (partial: the restrictions of `C18_hos_ti_reverse_partial`, and no `fabs` with two rows or more).
After `hos_forward` with `keep = d + 1`, `hov_ti_reverse` with `q` weight vectors `L l` succeeds, consumes the stack, and `Z[l][i][e]` is
the `e`-th Taylor coefficient at 0 of `∑_j u_{lj}(t) ∂F_j/∂x_i (x(t))`; if `nz[l][i]` is 0, then all of these coefficients are, and if it is 1 ("linear"), then those of order
at least 1 are: the derivative is constant along the curve. -/
theorem C41_hov_ti_reverse_partial (h : Traced cfg stock s p s' N) (hd : p.disc ⟨Set.univ, ∅⟩) (par : Nat → ℝ) {n k d q : Nat} (hdk : d ≤ k)
    (hq : 0 < q) (habs : q ≤ 1 ∨ noAbs p)
    (x0 : Fin n → ℝ) (X : Fin n → Nat → ℝ) (L : Nat → Nat → Nat → ℝ) {e0 : SE ℝ}
    (hspec : p.spec (ext x0) par s.se = some (e0, p.path cfg s)) (hn : e0.ii = n)
    (hsm : ∀ᶠ t in 𝓝 0, p.smooth .hor (ext (curve k x0 X t)) par s.se) :
    ∃ H V, hosRun ⟨ext x0, extX X, par, k, d + 1⟩ (s'.tape N) HS.init = .ok H ∧
      hvrRun ⟨false, d + 1, q, L⟩ (s'.tape N) (RVS.init n e0.ys.length (H.stk.map fun x _ => x)) = .ok V ∧ V.stk = [] ∧
      ∀ l, l < q → ∀ i : Fin n,
        (∀ e ≤ d, V.Z l i e = iteratedDeriv e (fun t => ∑ j ∈ Finset.range e0.ys.length,
          weight d (L l) t j * fderiv ℝ (fun x => p.out (ext x) par s.se j) (curve k x0 X t) (Pi.single i 1)) 0 / e.factorial) ∧
        (V.nz l i = 0 → ∀ e ≤ d, V.Z l i e = 0) ∧ (V.nz l i < 2 → ∀ e ≤ d, 0 < e → V.Z l i e = 0) := by
  obtain ⟨H, hH, hst⟩ := hov_rows_any h hd par hdk hq habs x0 X L hspec hn hsm
  obtain ⟨V, hV⟩ := hst H.stk (List.forall₂_same.2 fun _ _ _ _ => rfl)
  exact ⟨H, V, hH, hV⟩

/-- C41 (partial, see above) for `hov_reverse`: constant weight vectors `u l`. -/
theorem C41_hov_reverse_partial (h : Traced cfg stock s p s' N) (hd : p.disc ⟨Set.univ, ∅⟩) (par : Nat → ℝ) {n k d q : Nat} (hdk : d ≤ k)
    (hq : 0 < q) (habs : q ≤ 1 ∨ noAbs p)
    (x0 : Fin n → ℝ) (X : Fin n → Nat → ℝ) (u : Nat → Nat → ℝ) {e0 : SE ℝ}
    (hspec : p.spec (ext x0) par s.se = some (e0, p.path cfg s)) (hn : e0.ii = n)
    (hsm : ∀ᶠ t in 𝓝 0, p.smooth .hor (ext (curve k x0 X t)) par s.se) :
    ∃ H V, hosRun ⟨ext x0, extX X, par, k, d + 1⟩ (s'.tape N) HS.init = .ok H ∧
      hvrRun ⟨false, d + 1, q, fun l => lagr (u l)⟩ (s'.tape N) (RVS.init n e0.ys.length (H.stk.map fun x _ => x)) = .ok V ∧ V.stk = [] ∧
      ∀ l, l < q → ∀ i : Fin n,
        (∀ e ≤ d, V.Z l i e = iteratedDeriv e (fun t => ∑ j ∈ Finset.range e0.ys.length,
          u l j * fderiv ℝ (fun x => p.out (ext x) par s.se j) (curve k x0 X t) (Pi.single i 1)) 0 / e.factorial) ∧
        (V.nz l i = 0 → ∀ e ≤ d, V.Z l i e = 0) ∧ (V.nz l i < 2 → ∀ e ≤ d, 0 < e → V.Z l i e = 0) := by
  obtain ⟨H, V, h1, h2, h3, h4⟩ := C41_hov_ti_reverse_partial h hd par hdk hq habs x0 X (fun l => lagr (u l)) hspec hn hsm
  refine ⟨H, V, h1, h2, h3, fun l hl i => ⟨fun e he => ?_, (h4 l hl i).2⟩⟩
  rw [(h4 l hl i).1 e he]
  congr 3
  funext t
  refine Finset.sum_congr rfl fun j _ => ?_
  congr 1
  simp [weight, lagr, Finset.sum_ite_eq', ite_mul]

/-- The hypotheses of C41 hold for the demo program with three weight vectors, degree 3. -/
example : ∃ s', Traced demoCfg [] demoStart demo s' (s'.hw + 1) ∧ demo.disc ⟨Set.univ, ∅⟩ ∧ noAbs demo ∧
    (∃ e, demo.spec (ext (fun _ : Fin 2 => 1)) (fun _ => 0) demoStart.se = some (e, demo.path demoCfg demoStart) ∧ e.ii = 2) ∧
    ∀ᶠ t in 𝓝 0, demo.smooth .hor (ext (curve 3 (fun _ : Fin 2 => 1) (fun i j => (i : ℝ) + j) t)) (fun _ => 0) demoStart.se := by
  obtain ⟨e, h1, h2, h3⟩ := demo_spec demoCfg.x demoCfg.par (by
    simp only [demoCfg]; positivity)
  obtain ⟨s', h4, h5⟩ := traced_exists (stock := []) demo_alloc demo_start
    (by simp [demo, Prog.noFminLL, Stmt.notFminLL]) h1
  refine ⟨s', h4, demo_disc, ?_, ?_, ?_⟩
  · simp [noAbs, demo, Verif.Sparse.allStmts, Verif.Sparse.emits, Bin.op, Un.op, Acc.opA]
  · obtain ⟨e', g1, g2, g3⟩ := demo_spec (ext (fun _ : Fin 2 => 1)) (fun _ => 0) (by simp [ext]; positivity)
    exact ⟨e', by rw [h5]; exact g1, g2⟩
  · have hj := fun i => (curve_jet 3 (fun _ : Fin 2 => (1:ℝ)) (fun i j => (i : ℝ) + j) i)
    have hc : ContinuousAt (fun t => ext (curve 3 (fun _ : Fin 2 => (1:ℝ)) (fun i j => (i : ℝ) + j) t) 0 *
        ext (curve 3 (fun _ : Fin 2 => (1:ℝ)) (fun i j => (i : ℝ) + j) t) 1 +
        ext (curve 3 (fun _ : Fin 2 => (1:ℝ)) (fun i j => (i : ℝ) + j) t) 0 *
          Real.exp (ext (curve 3 (fun _ : Fin 2 => (1:ℝ)) (fun i j => (i : ℝ) + j) t) 0)) 0 :=
      ((hj 0).smooth.continuousAt.mul (hj 1).smooth.continuousAt).add
        ((hj 0).smooth.continuousAt.mul (hj 0).smooth.exp.continuousAt)
    filter_upwards [continuousAt_const.eventually_lt hc (by
      rw [curve_zero]; simp [ext]; positivity)] with t ht
    exact demo_smooth .hor _ _ ht

/-! ### C42 -/

/-- The sums to which the program adds a product are not dead: when the reverse sweep meets the operation, the result's flag is not zero. -/
def sumsLive (k : Nat) (L : Nat → Nat → ℝ) (ops : List (Base ℝ)) (h : HRS ℝ) : Prop :=
  ∀ pre a b r os, (ops = pre ++ .eqPlusProd a b r :: os ∨ ops = pre ++ .eqMinProd a b r :: os) →
    ∀ h1, hosRevRun k L os h = .ok h1 → h1.fl r ≠ 0

/-- C42 for traced programs (partial: the restrictions of `C18_hos_ti_reverse_partial`, no `fmin` of a location with itself, and every sum to which
products are added must be live, see `C42_dead_sum`, `C42_fmin`).  After `hov_wk_forward` of degree `k` with `keep = d + 1` in `q` directions,
`hos_ov_reverse` with the weights `u` succeeds, consumes the stack, and `Z[l][i][e]` is the `e`-th Taylor coefficient at 0 of
`∑_j u_j ∂F_j/∂x_i` along the `l`-th polynomial. -/
theorem C42_trace_partial (h : Traced cfg stock s p s' N) (hd : p.disc ⟨Set.univ, ∅⟩) (par : Nat → ℝ) {n k d q : Nat} (hdk : d ≤ k)
    (hq : 0 < q) (x0 : Fin n → ℝ) (X : Fin n → Nat → Nat → ℝ) (u : Nat → ℝ) {e0 : SE ℝ}
    (hspec : p.spec (ext x0) par s.se = some (e0, p.path cfg s)) (hn : e0.ii = n)
    (hsm : ∀ l, l < q → ∀ᶠ t in 𝓝 0, p.smooth .hor (ext (curve k x0 (fun i => X i l) t)) par s.se)
    (hmin : ∀ a r c, .minOp a a r c ∉ s'.tape N)
    (hlive : ∀ l, l < q → ∀ H, hosRun ⟨ext x0, extX (fun i => X i l), par, k, d + 1⟩ (s'.tape N) HS.init = .ok H →
      sumsLive (d + 1) (lagr u) (s'.tape N) (HRS.init n e0.ys.length H.stk)) :
    ∃ S V, hovRun ⟨ext x0, fun i l => extX (fun i => X i l) i, par, k, q, d + 1⟩ (s'.tape N) HVS.init = .ok S ∧
      hvrRun ⟨true, d + 1, q, fun _ => lagr u⟩ (s'.tape N) (RVS.init n e0.ys.length (ovRows S.stk)) = .ok V ∧ V.stk = [] ∧
      ∀ l, l < q → ∀ i : Fin n, ∀ e ≤ d, V.Z l i e = iteratedDeriv e (fun t => ∑ j ∈ Finset.range e0.ys.length,
          u j * fderiv ℝ (fun x => p.out (ext x) par s.se j) (curve k x0 (fun i => X i l) t) (Pi.single i 1)) 0 / e.factorial := by
  obtain ⟨S, hS, col⟩ := HOVec.traced_hov h par hq (keep := d + 1) (by omega) x0 X hspec (fun l hl => (hsm l hl).mono fun t ht => Prog.smooth_ho ht)
  set c : RVCfg ℝ := ⟨true, d + 1, q, fun _ => lagr u⟩ with hc
  have hstk0 : ∀ x ∈ ovRows S.stk, ∀ d, d < c.p → x d 0 = x 0 0 := by
    intro x hx d _
    obtain ⟨r, _, rfl⟩ := List.mem_map.1 hx
    rfl
  have e : ∀ l, l < q → ∀ H, HCol (d + 1) l S H → (ovRows S.stk).map (fun x => x (c.adv * l)) = H.stk := by
    intro l hl H hH
    rw [hH.stk, ovRows, List.map_map]
    refine List.map_congr_left fun r _ => ?_
    funext i
    have : c.adv * l = l := by simp [RVCfg.adv, hc]
    cases i <;> simp [this]
  have key : ∀ l, l < q → ∃ R V, R.stk = [] ∧
      (∀ i : Fin n, ∀ e ≤ d, R.Z i e = iteratedDeriv e (fun t => ∑ j ∈ Finset.range e0.ys.length,
        u j * fderiv ℝ (fun x => p.out (ext x) par s.se j) (curve k x0 (fun i => X i l) t) (Pi.single i 1)) 0 / e.factorial) ∧
      hvrRun c (s'.tape N) (RVS.init n e0.ys.length (ovRows S.stk)) = .ok V ∧ RJ c l V R := by
    intro l hl
    obtain ⟨H, hH, hcol⟩ := col l hl
    have hc0 := curve_zero k x0 (fun i => X i l)
    have hrow := recorded_hrev_rows_ok h.alloc p h.start h.recorded hd par hdk (curve k x0 fun i => X i l) (curve_cont k x0 fun i => X i l)
      (extX fun i => X i l) (by rw [hc0]; exact curve_jet k x0 fun i => X i l) (by rw [hc0]; exact hspec) hn (hsm l hl) h.pos h.size
      (u := weight d (lagr u)) (L := lagr u) (fun j => jet_poly' d (lagr u j))
    rw [hc0] at hrow
    obtain ⟨H', hH', hst⟩ := hrow
    rw [hH] at hH'; cases hH'
    obtain ⟨R, r1, r2, r3, r4, r5⟩ := hst H.stk (List.forall₂_same.2 fun _ _ _ _ => rfl)
    have hJ := RJ.init (n := n) (m := e0.ys.length) c l (ovRows S.stk) fun _ => hstk0
    rw [e l hl H hcol] at hJ
    have hal := hvr_along (d := d) rfl (fun _ _ _ _ => rfl) hl hJ (s'.tape N) (fun pre o os he => by
      have hlv := hlive l hl H hH
      cases o
      all_goals first | trivial | exact Or.inl rfl | skip
      case eqPlusProd a b r => exact Or.inr (hlv pre a b r os (Or.inl he))
      case eqMinProd a b r => exact Or.inr (hlv pre a b r os (Or.inr he))
      case minOp a b r w =>
        refine Or.inr fun hab => ?_
        subst hab
        exact hmin a r w (by rw [he]; simp)) r5
    have hr := hvr_run (c := c) (Nat.succ_pos d) (fun _ _ _ _ => rfl) hl hJ (s'.tape N) hal
    have r1' : hosRevRun c.k (c.L l) (s'.tape N) (HRS.init n e0.ys.length H.stk) = .ok R := r1
    rw [r1'] at hr
    cases hV : hvrRun c (s'.tape N) (RVS.init n e0.ys.length (ovRows S.stk)) with
    | error e => rw [hV] at hr; exact hr.elim
    | ok V =>
      rw [hV] at hr
      refine ⟨R, V, r2, fun i e he => ?_, rfl, hr⟩
      rw [← (r4 i).coef e he]
      show iteratedDeriv e _ 0 / _ = _
      congr 3
      funext t
      refine Finset.sum_congr rfl fun j _ => ?_
      congr 1
      simp [weight, lagr, Finset.sum_ite_eq', ite_mul]
  obtain ⟨R0, V, k2, k3, k4, k5⟩ := key 0 hq
  refine ⟨S, V, hS, k4, ?_, fun l hl i e he => ?_⟩
  · have := k5.stk
    rw [k2] at this
    exact List.map_eq_nil_iff.1 this.symm
  · obtain ⟨R, V', g2, g3, g4, g5⟩ := key l hl
    rw [k4] at g4; cases g4
    rw [g5.Z i e (by show e < d + 1; omega)]
    exact g3 i e he

/-- The program never adds a product directly to a variable (`a += b * c`, `a -= b * c`) and never calls `fmin`. -/
def noSums (p : Prog ℝ) : Prop :=
  Verif.Sparse.allStmts (Verif.Sparse.emits fun o => (∀ a b r, o ≠ .eqPlusProd a b r ∧ o ≠ .eqMinProd a b r) ∧ ∀ a b r c, o ≠ .minOp a b r c) p

/-- C42 for programs without `a += b * c`, `a -= b * c` and `fmin` (partial: the restrictions of `C18_hos_ti_reverse_partial`). -/
theorem C42_hos_ov_reverse_partial (h : Traced cfg stock s p s' N) (hd : p.disc ⟨Set.univ, ∅⟩) (hns : noSums p) (par : Nat → ℝ) {n k d q : Nat} (hdk : d ≤ k)
    (hq : 0 < q) (x0 : Fin n → ℝ) (X : Fin n → Nat → Nat → ℝ) (u : Nat → ℝ) {e0 : SE ℝ}
    (hspec : p.spec (ext x0) par s.se = some (e0, p.path cfg s)) (hn : e0.ii = n)
    (hsm : ∀ l, l < q → ∀ᶠ t in 𝓝 0, p.smooth .hor (ext (curve k x0 (fun i => X i l) t)) par s.se) :
    ∃ S V, hovRun ⟨ext x0, fun i l => extX (fun i => X i l) i, par, k, q, d + 1⟩ (s'.tape N) HVS.init = .ok S ∧
      hvrRun ⟨true, d + 1, q, fun _ => lagr u⟩ (s'.tape N) (RVS.init n e0.ys.length (ovRows S.stk)) = .ok V ∧ V.stk = [] ∧
      ∀ l, l < q → ∀ i : Fin n, ∀ e ≤ d, V.Z l i e = iteratedDeriv e (fun t => ∑ j ∈ Finset.range e0.ys.length,
          u j * fderiv ℝ (fun x => p.out (ext x) par s.se j) (curve k x0 (fun i => X i l) t) (Pi.single i 1)) 0 / e.factorial := by
  have hops := Verif.Sparse.emits_tape h.alloc (P := fun o : Base ℝ => (∀ a b r, o ≠ .eqPlusProd a b r ∧ o ≠ .eqMinProd a b r) ∧ ∀ a b r c, o ≠ .minOp a b r c)
    (by simp) (by simp) (by simp) p hns h.start h.recorded N
  refine C42_trace_partial h hd par hdk hq x0 X u hspec hn hsm (fun a r c hm => (hops _ hm).2 a a r c rfl) fun l hl H hH pre a b r os he => ?_
  rcases he with he | he
  · exact absurd rfl ((hops (.eqPlusProd a b r) (by rw [he]; simp)).1 a b r).1
  · exact absurd rfl ((hops (.eqMinProd a b r) (by rw [he]; simp)).1 a b r).2

/-- `y = exp(x0 * x1) + x0` with one branch on the sign of `x0`. -/
noncomputable def demoOv : Prog ℝ :=
  .stmt (.new 0) <| .stmt (.indep 0) <| .stmt (.new 1) <| .stmt (.indep 1) <|
  .stmt (.new 2) <| .stmt (.bin .mult true 0 1 2) <| .stmt (.un .exp 2 2) <|
  .branch .gt 0 (.stmt (.accA .plus 2 0) <| .stmt (.dep 2) .done) (.stmt (.dep 2) .done)

theorem demoOv_spec (x par : Nat → ℝ) (h : 0 < x 0) :
    ∃ e, demoOv.spec x par demoStart.se = some (e, [true]) ∧ e.ii = 2 ∧ e.ys = [Real.exp (x 0 * x 1) + x 0] := by
  simp [demoOv, Prog.spec, Stmt.spec, demoStart, Rec.se, SE.set, SE.del, upd_apply, Bin.fn, Un.fn, Acc.fn, Elem.exp, Cmp.holds]
  rw [if_pos h]
  simp

theorem demoOv_smooth (b : Sm) (x par : Nat → ℝ) (h : 0 < x 0) : demoOv.smooth b x par demoStart.se := by
  simp [demoOv, Prog.smooth, Stmt.smooth, Stmt.spec, demoStart, Rec.se, SE.set, SE.del, upd_apply, Bin.fn,
    Un.fn, Un.smooth, Elem.exp, Cmp.holds]
  exact h.ne'

/-- The hypotheses of C42 hold for this program in three directions, degree 2. -/
example : ∃ s', Traced demoCfg [] demoStart demoOv s' (s'.hw + 1) ∧ demoOv.disc ⟨Set.univ, ∅⟩ ∧ noSums demoOv ∧
    (∃ e, demoOv.spec (ext (fun _ : Fin 2 => 1)) (fun _ => 0) demoStart.se = some (e, demoOv.path demoCfg demoStart) ∧ e.ii = 2) ∧
    ∀ l, l < 3 → ∀ᶠ t in 𝓝 0, demoOv.smooth .hor (ext (curve 2 (fun _ : Fin 2 => 1) (fun i j => (i : ℝ) + j + l) t)) (fun _ => 0) demoStart.se := by
  obtain ⟨e, h1, h2, h3⟩ := demoOv_spec demoCfg.x demoCfg.par (by simp [demoCfg])
  obtain ⟨s', h4, h5⟩ := traced_exists (stock := []) demo_alloc demo_start
    (by simp [demoOv, Prog.noFminLL, Stmt.notFminLL]) h1
  refine ⟨s', h4, ?_, ?_, ?_, fun l _ => ?_⟩
  · simp [demoOv, Prog.disc, Stmt.disc, Stmt.discNext, Stmt.uses]
  · simp [noSums, demoOv, Verif.Sparse.allStmts, Verif.Sparse.emits, Bin.op, Un.op, Acc.opA]
  · obtain ⟨e', g1, g2, g3⟩ := demoOv_spec (ext (fun _ : Fin 2 => 1)) (fun _ => 0) (by simp [ext])
    exact ⟨e', by rw [h5]; exact g1, g2⟩
  · have hj := (curve_jet 2 (fun _ : Fin 2 => (1:ℝ)) (fun i j => (i : ℝ) + j + l) 0)
    filter_upwards [(continuousAt_const (y := (0:ℝ))).eventually_lt hj.smooth.continuousAt (by
      rw [curve_zero]; simp [ext])] with t ht
    exact demoOv_smooth .hor _ _ ht

end

/-- C41 fails for `a * x + y` of vectors with two rows or more: there is no loop over the rows in this case (ho_rev.cpp:2507-2548), so that whatever the state,
the adjoints of the rows other than the first are left as they are. -/
theorem C41_axpy {K : Type} [Scalar K] (c : RVCfg K) (a a1 a2 n r : Nat) (V V' : RVS K) (h : hvrStep c (.vecAxpy a a1 a2 n r) V = .ok V') (l : Nat) (hl : l ≠ 0) (q : Nat) :
    V'.M (.A q) l = V.M (.A q) l ∧ V'.fl q l = V.fl q l := by
  simp only [hvrStep] at h
  generalize List.range n = J at h
  induction J generalizing V with
  | nil => cases h; exact ⟨rfl, rfl⟩
  | cons x J ih =>
    rw [List.foldlM_cons] at h
    cases hp : RVS.pop c (r + x) (if V.fl (r + x) 0 = 0 then V
        else V.onRow 0 0 (mkB (fun fl =>
            let comp := if fl (r + x) > 2 then fl (r + x) else 2
            maxdec (maxdec (upd (maxdec fl (a2 + x) (fl (r + x))) (r + x) 0) a comp) (a1 + x) comp) fun M =>
          let M := cpzR c.k (.A (r + x)) .at1 M
          let M := inconvR c.k .at1 (.T (a1 + x)) (.A a) M
          let M := inconvR c.k .at1 (.T a) (.A (a1 + x)) M
          accR' c.k (.A (a2 + x)) .at1 (fun x t => x + t) M)) with
    | error e => rw [hp] at h; cases h
    | ok V1 =>
      rw [hp] at h
      have := ih V1 h
      rw [this.1, this.2]
      unfold RVS.pop at hp
      split at hp
      · cases hp
      · cases hp
        split_ifs
        · simp
        · simp [RVS.onRow, plane, hl]

/-- C42 fails for `fmin(x, x)`: ties are not implemented in `hos_ov_reverse` (ho_rev.cpp:1669-1674). -/
theorem C42_fmin (k p : Nat) (hp : 0 < p) (hk : 0 < k) (L : Nat → Nat → Nat → ℝ) (x1 x2 x3 : Nat → Nat → ℝ) (st : List (Nat → Nat → ℝ)) (w : ℝ) :
    hvrRun ⟨true, k, p, L⟩ [.assignInd 0, .minOp 0 0 1 w, .assignDep 1, .deathNot 0 1] (RVS.init 1 1 (x1 :: x2 :: x3 :: st)) = .error .notImplemented := by
  obtain ⟨s1, h1, k1⟩ : ∃ s1, hvrRun ⟨true, k, p, L⟩ [.assignDep 1, .deathNot 0 1] (RVS.init 1 1 (x1 :: x2 :: x3 :: st)) = .ok s1 ∧ s1.stk = x3 :: st :=
    ⟨_, rfl, rfl⟩
  have hmp : ∀ t : Nat → ℝ, minPick k t t = none := by
    intro t
    unfold minPick
    rw [if_neg (lt_irrefl _), if_neg (lt_irrefl _), List.find?_eq_none.2 (by simp)]
  have h2 : hvrStep ⟨true, k, p, L⟩ (.minOp 0 0 1 w) s1 = .error .notImplemented := by
    simp only [hvrStep, RVS.pop, k1, ok_bind', hmp, if_true]
  simp only [hvrRun] at h1 ⊢
  simp only [h1, h2]

/-- C41 fails for `abs` with two rows or more: `x` and `jj` have one entry and are read at `l` (ho_rev.cpp:352, 450-451, 1796-1806). -/
theorem C41_abs (k p : Nat) (hp : 1 < p) (L : Nat → Nat → Nat → ℝ) (hL : ∃ e < k, L 1 0 e ≠ 0) (x1 x2 x3 : Nat → Nat → ℝ) (st : List (Nat → Nat → ℝ)) (w : ℝ) :
    hvrRun ⟨false, k, p, L⟩ [.assignInd 0, .absVal 0 1 w, .assignDep 1, .deathNot 0 1] (RVS.init 1 1 (x1 :: x2 :: x3 :: st)) = .error .undefined := by
  obtain ⟨s1, h1, f1, k1⟩ : ∃ s1, hvrRun ⟨false, k, p, L⟩ [.assignDep 1, .deathNot 0 1] (RVS.init 1 1 (x1 :: x2 :: x3 :: st)) = .ok s1 ∧ s1.fl 1 1 ≠ 0 ∧ s1.stk = x3 :: st := by
    refine ⟨_, rfl, ?_, rfl⟩
    show (if _ then (match (List.range k).reverse.find? (fun i => L 1 (1 - 1) i ≠ 0) with | none => (0 : ℝ) | some 0 => 1 | some _ => 2) else _) ≠ 0
    rw [if_pos ⟨rfl, hp⟩]
    obtain ⟨q, hq, hne⟩ := hL
    rcases e : (List.range k).reverse.find? (fun i => L 1 (1 - 1) i ≠ 0) with _ | _ | _
    · have := List.find?_eq_none.1 e q (by simpa using hq)
      simp at this; exact absurd this hne
    · simp
    · simp
  have h2 : hvrStep ⟨false, k, p, L⟩ (.absVal 0 1 w) s1 = .error .undefined := by
    simp only [hvrStep, RVS.pop, k1, ok_bind']
    rw [if_neg (by simp), if_pos ⟨1, by simpa using hp, by simp, f1⟩]
  simp only [hvrRun] at h1 ⊢
  simp only [h1, h2]

/-- C42 fails for a sum that is dead when a product is added to it (ho_rev.cpp:994-1024): the polynomials of the sum are restored in
the loop before the test of the flag, with pointers that advance only if the flag is not zero.  For `acc = x; y = acc * acc; acc += x * x` at
`x = 1` in two equal directions (the second derivative of `y` is 2), `hos_ov_reverse` returns -2 in direction 0. -/
theorem C42_dead_sum : ∃ V, hvrRun (⟨true, 2, 2, fun _ => lagr fun _ => 1⟩ : RVCfg ℝ)
      [.assignInd 0, .assignA 0 1, .multAA 1 1 2, .eqPlusProd 0 0 1, .assignDep 2, .deathNot 0 2]
      (RVS.init 1 1 [fun _ _ => 1, fun _ i => if i = 0 then 2 else 3, fun _ i => if i = 0 then 1 else 2, fun _ _ => 0, fun _ _ => 0, fun _ _ => 0]) = .ok V ∧
    V.Z 0 0 1 = -2 := by
  obtain ⟨s0, h0, k0, i0, a1, a2, a2', a3, a3', a4, a5, a6, a7, a7'⟩ : ∃ s, hvrRun (⟨true, 2, 2, fun _ => lagr fun _ => 1⟩ : RVCfg ℝ) [.assignDep 2, .deathNot 0 2]
      (RVS.init 1 1 [fun _ _ => 1, fun _ i => if i = 0 then 2 else 3, fun _ i => if i = 0 then 1 else 2, fun _ _ => 0, fun _ _ => 0, fun _ _ => 0]) = .ok s ∧
      s.stk = [fun _ _ => 0, fun _ _ => 0, fun _ _ => 0] ∧ s.ii = 1 ∧
      (∀ l, s.fl 0 l = 0 ∧ s.fl 1 l = 0) ∧ s.fl 2 0 = 1 ∧ s.fl 2 1 = 1 ∧ s.M (.T 0) 0 0 = 1 ∧ s.M (.T 0) 0 1 = 1 ∧
      s.M (.T 1) 0 0 = 2 ∧ s.M (.T 1) 0 1 = 3 ∧
      (∀ l i, s.M (.A 0) l i = 0 ∧ s.M (.A 1) l i = 0) ∧ s.M (.A 2) 0 0 = 1 ∧ s.M (.A 2) 0 1 = 0 := by
    refine ⟨_, rfl, rfl, rfl, ?_, ?_, ?_, ?_, ?_, ?_, ?_, ?_, ?_, ?_⟩
    all_goals simp [RVS.init, RVS.zero, List.range_succ, lagr, RVCfg.pT]
  obtain ⟨s1, h1, k1, i1, b1, b2, b2', b4, b5, b6, b7, b7'⟩ : ∃ s, hvrStep (⟨true, 2, 2, fun _ => lagr fun _ => 1⟩ : RVCfg ℝ) (.eqPlusProd 0 0 1) s0 = .ok s ∧
      s.stk = [fun _ _ => 0, fun _ _ => 0, fun _ _ => 0] ∧ s.ii = 1 ∧
      (∀ l, s.fl 0 l = 0 ∧ s.fl 1 l = 0) ∧ s.fl 2 0 = 1 ∧ s.fl 2 1 = 1 ∧
      s.M (.T 1) 0 0 = 0 ∧ s.M (.T 1) 0 1 = -1 ∧
      (∀ l i, s.M (.A 0) l i = 0 ∧ s.M (.A 1) l i = 0) ∧ s.M (.A 2) 0 0 = 1 ∧ s.M (.A 2) 0 1 = 0 := by
    refine ⟨_, rfl, ?_, ?_, ?_, ?_, ?_, ?_, ?_, ?_, ?_, ?_⟩
    all_goals simp [RVS.rowsPre, forUp, List.range_succ, RVS.onRow, RVS.view, mkB, deconvR_eq, ovR, cv, plane, Finset.sum_range_succ, k0, i0, a1, a2, a2', a3, a3', a4, a5, a6, a7, a7']
    all_goals norm_num
  obtain ⟨s2, h2, k2, i2, c1, c1', c2, c3⟩ : ∃ s, hvrStep (⟨true, 2, 2, fun _ => lagr fun _ => 1⟩ : RVCfg ℝ) (.multAA 1 1 2) s1 = .ok s ∧
      s.stk = [fun _ _ => 0, fun _ _ => 0] ∧ s.ii = 1 ∧ s.fl 1 0 = 2 ∧ s.fl 1 1 = 2 ∧ s.M (.A 1) 0 1 = -2 ∧ s.M (.A 0) 0 1 = 0 := by
    obtain ⟨s', e1, e2⟩ : ∃ s', s1.pop (⟨true, 2, 2, fun _ => lagr fun _ => 1⟩ : RVCfg ℝ) 2 = .ok s' ∧ s' = { s1 with M := fun q d i => if q = .T 2 ∧ d < RVCfg.pT (⟨true, 2, 2, fun _ => lagr fun _ => 1⟩ : RVCfg ℝ) ∧ i < 2 then 0 else s1.M q d i, stk := [fun _ _ => 0, fun _ _ => 0] } :=
      ⟨_, by simp only [RVS.pop, k1], rfl⟩
    simp only [hvrStep, e1, ok_bind']
    refine ⟨_, rfl, ?_⟩
    rw [e2]
    simp [RVS.rows, forUp, List.range_succ, RVS.onRow, RVS.view, mkB, inconvR_eq, cpzR_eq, ovR, cv, plane, Finset.sum_range_succ, maxdec, upd_apply, i1, b1, b2, b2', b4, b5, b6, b7, b7']
    norm_num
  obtain ⟨s3, h3, k3, i3, d1⟩ : ∃ s, hvrStep (⟨true, 2, 2, fun _ => lagr fun _ => 1⟩ : RVCfg ℝ) (.assignA 0 1) s2 = .ok s ∧
      s.stk = [fun _ _ => 0] ∧ s.ii = 1 ∧ s.M (.A 0) 0 1 = -2 := by
    simp only [hvrStep]
    obtain ⟨s', e1, e2⟩ : ∃ s', s' = s2.rows (⟨true, 2, 2, fun _ => lagr fun _ => 1⟩ : RVCfg ℝ) 1 (moveB 2 0 1) ∧ s'.M (.A 0) 0 1 = -2 ∧ s'.stk = [fun _ _ => 0, fun _ _ => 0] ∧ s'.ii = 1 := by
      refine ⟨_, rfl, ?_⟩
      simp [RVS.rows, moveB, forUp, List.range_succ, RVS.onRow, RVS.view, mkB, moveR_eq, ovR, cv, plane, gMove, maxdec, upd_apply, k2, i2, c1, c1', c2, c3]
    rw [← e1]
    simp only [RVS.pop, e2.2.1]
    exact ⟨_, rfl, rfl, e2.2.2, by simp [e2.1]⟩
  obtain ⟨s4, h4, d4⟩ : ∃ s, hvrStep (⟨true, 2, 2, fun _ => lagr fun _ => 1⟩ : RVCfg ℝ) (.assignInd 0) s3 = .ok s ∧ s.Z 0 0 1 = -2 := by
    simp only [hvrStep, RVS.pop, k3, ok_bind']
    refine ⟨_, rfl, ?_⟩
    simp [i3, d1]
  refine ⟨s4, ?_, d4⟩
  simp only [hvrRun] at h0 ⊢
  simp only [h0, h1, h2, h3, h4]
end Verif.Props.HORevVec
