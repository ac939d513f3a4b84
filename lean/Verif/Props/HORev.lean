import Verif.AD.HoRevRun
import Verif.Props.HO

/-! # C18: higher-order reverse mode -/
set_option linter.all false
namespace Verif.Props.HORev
open Verif.AD Verif.Props.AD Elem Filter Topology ContDiff

variable {cfg : RCfg ℝ} {stock : List (Nat × List ℝ)} {s s' : Rec ℝ} {p : Prog ℝ} {N : Nat}

/-- The weights given to `hos_ti_reverse` as a polynomial in `t`: `u_j(t) = ∑_{q ≤ d} L_{jq} t^q`. -/
noncomputable def weight (d : Nat) (L : Nat → Nat → ℝ) (t : ℝ) (j : Nat) : ℝ := ∑ q ∈ Finset.range (d + 1), L j q * t ^ q

/-- C18 (partial: not for programs calling `cbrt`, `ceil`, `floor`, nor `pow` at a base of absolute
value at most 10⁻¹⁹; see the theorems below, which show that the claim is false there).  For every traced
program, every point `x0` on the recorded path, all Taylor coefficients `X` of degree `k` and all
weights `L`, such that near `t = 0` the program's elementary functions are smooth along
`x(t) = x0 + X₁ t + … + X_k t^k`: after `hos_forward` of degree `k` with `keep = d + 1 ≤ k + 1`,
`hos_ti_reverse` of degree `d` succeeds, consumes exactly the values the forward sweep left, and
`Z[i][q]` is the `q`-th Taylor coefficient at `t = 0` of `∑_j u_j(t) ∂F_j/∂x_i (x(t))`. -/
theorem C18_hos_ti_reverse_partial (h : Traced cfg stock s p s' N) (hd : p.disc ⟨Set.univ, ∅⟩) (par : Nat → ℝ) {n k d : Nat} (hdk : d ≤ k)
    (x0 : Fin n → ℝ) (X : Fin n → Nat → ℝ) (L : Nat → Nat → ℝ) {e0 : SE ℝ}
    (hspec : p.spec (ext x0) par s.se = some (e0, p.path cfg s)) (hn : e0.ii = n)
    (hsm : ∀ᶠ t in 𝓝 0, p.smooth .hor (ext (curve k x0 X t)) par s.se) :
    ∃ H R, hosRun ⟨ext x0, extX X, par, k, d + 1⟩ (s'.tape N) HS.init = .ok H ∧
      hosRevRun (d + 1) L (s'.tape N) (HRS.init n e0.ys.length H.stk) = .ok R ∧ R.stk = [] ∧
      (∀ᶠ t in 𝓝 0, ∀ j, DifferentiableAt ℝ (fun x => p.out (ext x) par s.se j) (curve k x0 X t)) ∧
      ∀ i : Fin n, ∀ q ≤ d, R.Z i q = iteratedDeriv q (fun t => ∑ j ∈ Finset.range e0.ys.length,
        weight d L t j * fderiv ℝ (fun x => p.out (ext x) par s.se j) (curve k x0 X t) (Pi.single i 1)) 0 / q.factorial := by
  have hc := curve_zero k x0 X
  obtain ⟨H, R, h1, h2, h3, h4, h5⟩ := recorded_hrev h.alloc p h.start h.recorded hd par hdk (curve k x0 X) (curve_cont k x0 X)
    (extX X) (by rw [hc]; exact curve_jet k x0 X) (by rw [hc]; exact hspec) hn hsm h.pos h.size
    (u := weight d L) (L := L) (fun j => jet_poly' d (L j))
  rw [hc] at h1
  exact ⟨H, R, h1, h2, h3, h4, fun i q hq => ((h5 i).coef q hq).symm⟩

/-- C18 (partial, see above) for `hos_reverse`: constant weights `u`.  `Z[i][q]` is the `q`-th Taylor
coefficient of `∑_j u_j ∂F_j/∂x_i` along the curve. -/
theorem C18_hos_reverse_partial (h : Traced cfg stock s p s' N) (hd : p.disc ⟨Set.univ, ∅⟩) (par : Nat → ℝ) {n k d : Nat} (hdk : d ≤ k)
    (x0 : Fin n → ℝ) (X : Fin n → Nat → ℝ) (u : Nat → ℝ) {e0 : SE ℝ}
    (hspec : p.spec (ext x0) par s.se = some (e0, p.path cfg s)) (hn : e0.ii = n)
    (hsm : ∀ᶠ t in 𝓝 0, p.smooth .hor (ext (curve k x0 X t)) par s.se) :
    ∃ H R, hosRun ⟨ext x0, extX X, par, k, d + 1⟩ (s'.tape N) HS.init = .ok H ∧
      hosRevRun (d + 1) (lagr u) (s'.tape N) (HRS.init n e0.ys.length H.stk) = .ok R ∧ R.stk = [] ∧
      ∀ i : Fin n, ∀ q ≤ d, R.Z i q = iteratedDeriv q (fun t => ∑ j ∈ Finset.range e0.ys.length,
        u j * fderiv ℝ (fun x => p.out (ext x) par s.se j) (curve k x0 X t) (Pi.single i 1)) 0 / q.factorial := by
  obtain ⟨H, R, h1, h2, h3, h4, h5⟩ := C18_hos_ti_reverse_partial h hd par hdk x0 X (lagr u) hspec hn hsm
  refine ⟨H, R, h1, h2, h3, fun i q hq => ?_⟩
  rw [h5 i q hq]
  congr 3
  funext t
  refine Finset.sum_congr rfl fun j _ => ?_
  congr 1
  simp [weight, lagr, Finset.sum_ite_eq', ite_mul]

theorem assignInd_step {k : Nat} {L : Nat → Nat → ℝ} {r : Nat} {s : HRS ℝ} {x : Nat → ℝ} {st : List (Nat → ℝ)} (h : s.stk = x :: st) :
    ∃ R, hosRevStep k L (.assignInd r) s = .ok R ∧ ∀ i < k, R.Z (s.ii - 1) i = s.M (.A r) i := by
  refine ⟨{ s with M := setRowR k (.T r) x s.M, stk := st, ii := s.ii - 1, Z := fun j i => if j = s.ii - 1 ∧ i < k then s.M (.A r) i else s.Z j i }, ?_, ?_⟩
  · simp only [hosRevStep, HRS.pop, h]; rfl
  · intro i hi; simp [hi]

theorem hosRevRun_cons_ok {k : Nat} {L : Nat → Nat → ℝ} {o : Base ℝ} {os : List (Base ℝ)} {s s1 : HRS ℝ} (h : hosRevRun k L os s = .ok s1) :
    hosRevRun k L (o :: os) s = hosRevStep k L o s1 := by
  simp only [hosRevRun, h]

/-- `pow(x, 4)` at `x = 0`, along `x(t) = t` with weight 1: the gradient is `4 t³`, with first-order
coefficient 0, but `hos_reverse` returns 2 (ho_rev.cpp:1505-1524).  The stack holds the rows the forward
sweep saved: the values of both locations at the end, and what they contained before. -/
theorem C18_pow_at_zero : ∃ R, hosRevRun 2 (lagr fun _ => 1) [.assignInd 0, .powOp 0 1 4, .assignDep 1, .deathNot 0 1]
      (HRS.init 1 1 [fun i => if i = 1 then 1 else 0, fun _ => 0, fun _ => 0, fun _ => 0] : HRS ℝ) = .ok R ∧ R.Z 0 1 = 2 := by
  have hf : Elem.floor (4:ℝ) = 4 := by
    show ((⌊(4:ℝ)⌋ : ℤ) : ℝ) = 4
    norm_num
  obtain ⟨s1, h1, f1, t0, t1, a0, a1, b0, b1, hst, hii⟩ : ∃ s1, hosRevRun 2 (lagr fun _ => 1) [.assignDep 1, .deathNot 0 1]
      (HRS.init 1 1 [fun i => if i = 1 then 1 else 0, fun _ => 0, fun _ => 0, fun _ => 0] : HRS ℝ) = .ok s1 ∧ s1.fl 1 ≠ 0 ∧
      s1.M (.T 0) 0 = 0 ∧ s1.M (.T 0) 1 = 1 ∧ s1.M (.A 1) 0 = 1 ∧ s1.M (.A 1) 1 = 0 ∧ s1.M (.A 0) 0 = 0 ∧ s1.M (.A 0) 1 = 0 ∧
      s1.stk = [fun _ => 0, fun _ => 0] ∧ s1.ii = 1 := by
    refine ⟨_, rfl, ?_, ?_, ?_, ?_, ?_, ?_, ?_, rfl, rfl⟩
    all_goals simp [setRowR_eq, ovR, HRS.init, HRS.zero, List.range_succ, lagr, upd_apply]
  have heps : ¬ ((0:ℝ) > adolcEps ∨ (0:ℝ) < - adolcEps) := by norm_num [adolcEps]
  have e4 : ¬ ((4:ℝ) ≤ 0) := by norm_num
  have e41 : ¬ ((4:ℝ) = 1) := by norm_num
  have e43 : ¬ ((4:ℝ) = 3) := by norm_num
  obtain ⟨s2, h2, g1, g2, g3⟩ : ∃ s2, hosRevStep 2 (lagr fun _ => 1) (.powOp 0 1 4) s1 = .ok s2 ∧ s2.M (.A 0) 1 = 2 ∧ s2.stk = [fun _ => 0] ∧ s2.ii = 1 := by
    simp only [hosRevStep, zero_ne_one, if_false, ne_eq, not_false_eq_true, if_true]
    refine ⟨{ s1 with fl := HRS.flUn 0 1 4 s1, M := setRowR 2 (.T 1) (fun _ => 0) (powSmall 2 0 1 4 s1.M), stk := [fun _ => 0] }, ?_, ?_, rfl, hii⟩
    · show HRS.pop 2 1 (if s1.fl 1 = 0 then s1 else _) = _
      rw [if_neg f1, t0, if_neg heps]
      unfold HRS.pop
      simp only [hst]
    · simp only [setRowR_eq, powSmall, e4, e41, e43, hf, if_false, sub_self, ne_eq, not_true_eq_false, cpzR_eq, inconvR_eq]
      simp [ovR, cv, Finset.sum_range_succ, t0, t1, a0, a1, b0, b1]
      norm_num
  obtain ⟨s3, h3, k1⟩ := assignInd_step (k := 2) (L := lagr fun _ => 1) (r := 0) g2
  rw [g3] at k1
  refine ⟨s3, ?_, (k1 1 (by norm_num)).trans g1⟩
  rw [hosRevRun_cons_ok (hosRevRun_cons_ok h1 |>.trans h2), h3]

/-- `ceil(x)`: `hos_reverse` writes through a pointer that the operation did not set
(ho_rev.cpp:1814-1838), for every degree and every weight that is not zero. -/
theorem C18_ceil (k : Nat) (L : Nat → Nat → ℝ) (x1 x2 x3 : Nat → ℝ) (st : List (Nat → ℝ)) (hL : ∃ q < k, L 0 q ≠ 0) (c : ℝ) :
    hosRevRun k L [.assignInd 0, .ceilOp 0 1 c, .assignDep 1, .deathNot 0 1] (HRS.init 1 1 (x1 :: x2 :: x3 :: st)) = .error .undefined := by
  have hf : ∀ s : HRS ℝ, s.di = 1 → ∃ s1, hosRevStep k L (.assignDep 1) s = .ok s1 ∧ s1.fl 1 ≠ 0 ∧ s1.stk = s.stk := by
    intro s hs
    refine ⟨_, rfl, ?_, rfl⟩
    obtain ⟨q, hq, hne⟩ := hL
    simp only [hs, upd_same]
    rcases e : (List.range k).reverse.find? (fun i => L (1 - 1) i ≠ 0) with _ | _ | _
    · have := List.find?_eq_none.1 e q (by simpa using hq)
      simp at this; exact absurd this hne
    · simp
    · simp
  obtain ⟨s0, h0, e1, e2⟩ : ∃ s0, hosRevRun k L [.deathNot 0 1] (HRS.init 1 1 (x1 :: x2 :: x3 :: st)) = .ok s0 ∧ s0.di = 1 ∧ s0.stk = x3 :: st :=
    ⟨_, rfl, rfl, rfl⟩
  obtain ⟨s1, h1, f1, k1⟩ := hf s0 e1
  have h2 : hosRevStep k L (.ceilOp 0 1 c) s1 = .error .undefined := by
    simp only [hosRevStep, HRS.pop, k1, e2]
    show (if s1.fl 1 = 0 then _ else _) = _
    rw [if_neg f1]
  have h3 := (hosRevRun_cons_ok h0).trans h1
  have h4 := (hosRevRun_cons_ok (o := .ceilOp 0 1 c) h3).trans h2
  simp only [hosRevRun] at h4 ⊢
  simp only [h4]

/-- `floor`: the last coefficient of the result's adjoint is not cleared (ho_rev.cpp:1859).  The
program `t = x; s = +t; t = floor(x); y = s + t` has derivative 1 at every `x` that is not an
integer, so that the weight `t` gives the coefficients 0, 1; `hos_ti_reverse` returns 2 for the second, whatever `x` is. -/
theorem C18_floor (c : ℝ) (x : Fin 10 → Nat → ℝ) : ∃ R, hosRevRun 2 (fun _ q => if q = 1 then 1 else 0)
      [.assignInd 0, .assignA 0 1, .posSign 1 2, .floorOp 0 1 c, .plusAA 2 1 3, .assignDep 3, .deathNot 0 3]
      (HRS.init 1 1 (List.ofFn x) : HRS ℝ) = .ok R ∧ R.Z 0 1 = 2 := by
  obtain ⟨s0, h0, k0, i0, a00, a01, a02, a03, a04, a05, a06, a07⟩ : ∃ s, hosRevRun 2 (fun _ q => if q = 1 then 1 else 0) [.assignDep 3, .deathNot 0 3] (HRS.init 1 1 (List.ofFn x) : HRS ℝ) = .ok s ∧ s.stk = [x 4, x 5, x 6, x 7, x 8, x 9] ∧ s.ii = 1 ∧ s.fl 0 = 0 ∧ s.fl 1 = 0 ∧ s.fl 2 = 0 ∧ s.fl 3 = 2 ∧ s.M (.A 0) 1 = 0 ∧ s.M (.A 1) 1 = 0 ∧ s.M (.A 2) 1 = 0 ∧ s.M (.A 3) 1 = 1 := by
    refine ⟨_, rfl, rfl, rfl, ?_, ?_, ?_, ?_, ?_, ?_, ?_, ?_⟩
    all_goals simp [HRS.init, HRS.zero, setRowR, forUp, wrR, List.range_succ, upd_apply]
  obtain ⟨s1, h1, k1, i1, a10, a11, a12, a13, a14, a15⟩ : ∃ s, hosRevStep 2 (fun _ q => if q = 1 then 1 else 0) (.plusAA 2 1 3) s0 = .ok s ∧ s.stk = [x 5, x 6, x 7, x 8, x 9] ∧ s.ii = 1 ∧ s.fl 0 = 0 ∧ s.fl 1 = 2 ∧ s.fl 2 = 2 ∧ s.M (.A 0) 1 = 0 ∧ s.M (.A 1) 1 = 1 ∧ s.M (.A 2) 1 = 1 := by
    simp [hosRevStep, HRS.pop, HRS.move, HRS.flLin, HRS.flLin2, maxdec, upd_apply, setRowR, moveR, spreadR, spread2R, forUp, wrR, List.range_succ, k0, a00, a01, a02, a03, a04, a05, a06, a07, i0]
    try norm_num
  obtain ⟨s2, h2, k2, i2, a20, a21, a22, a23, a24, a25⟩ : ∃ s, hosRevStep 2 (fun _ q => if q = 1 then 1 else 0) (.floorOp 0 1 c) s1 = .ok s ∧ s.stk = [x 6, x 7, x 8, x 9] ∧ s.ii = 1 ∧ s.fl 0 = 5 ∧ s.fl 1 = 0 ∧ s.fl 2 = 2 ∧ s.M (.A 0) 1 = 0 ∧ s.M (.A 1) 1 = 1 ∧ s.M (.A 2) 1 = 1 := by
    obtain ⟨s', e1, e2⟩ : ∃ s', s1.pop 2 1 = .ok s' ∧ s' = { s1 with M := setRowR 2 (.T 1) (x 5) s1.M, stk := [x 6, x 7, x 8, x 9] } :=
      ⟨_, by simp only [HRS.pop, k1], rfl⟩
    have e3 : ¬ s'.fl 1 = 0 := by rw [e2]; simp [a11]
    refine ⟨_, by simp only [hosRevStep, e1]; exact if_neg e3, ?_⟩
    simp [e2, upd_apply, setRowR, forUp, wrR, List.range_succ, i1, a10, a11, a12, a13, a14, a15]
  obtain ⟨s3, h3, k3, i3, a30, a31, a32, a33⟩ : ∃ s, hosRevStep 2 (fun _ q => if q = 1 then 1 else 0) (.posSign 1 2) s2 = .ok s ∧ s.stk = [x 7, x 8, x 9] ∧ s.ii = 1 ∧ s.fl 0 = 5 ∧ s.fl 1 = 2 ∧ s.M (.A 0) 1 = 0 ∧ s.M (.A 1) 1 = 2 := by
    simp [hosRevStep, HRS.pop, HRS.move, HRS.flLin, HRS.flLin2, maxdec, upd_apply, setRowR, moveR, spreadR, spread2R, forUp, wrR, List.range_succ, k2, a20, a21, a22, a23, a24, a25, i2]
    try norm_num
  obtain ⟨s4, h4, k4, i4, a40⟩ : ∃ s, hosRevStep 2 (fun _ q => if q = 1 then 1 else 0) (.assignA 0 1) s3 = .ok s ∧ s.stk = [x 8, x 9] ∧ s.ii = 1 ∧ s.M (.A 0) 1 = 2 := by
    simp [hosRevStep, HRS.pop, HRS.move, HRS.flLin, HRS.flLin2, maxdec, upd_apply, setRowR, moveR, spreadR, spread2R, forUp, wrR, List.range_succ, k3, a30, a31, a32, a33, i3]
    try norm_num
  obtain ⟨R, h5, k5⟩ := assignInd_step (k := 2) (L := (fun _ q => if q = 1 then 1 else 0)) (r := 0) k4
  rw [i4] at k5
  refine ⟨R, ?_, (k5 1 (by norm_num)).trans a40⟩
  rw [hosRevRun_cons_ok ((hosRevRun_cons_ok ((hosRevRun_cons_ok ((hosRevRun_cons_ok ((hosRevRun_cons_ok h0).trans h1)).trans h2)).trans h3)).trans h4), h5]

/-- `cbrt` is not implemented in `ho_rev.cpp` (1579): every reverse sweep that reaches it fails. -/
theorem C18_cbrt (k : Nat) (L : Nat → Nat → ℝ) (pre post : List (Base ℝ)) (a r : Nat) (s s1 : HRS ℝ) (h : hosRevRun k L post s = .ok s1) :
    hosRevRun k L (pre ++ .cbrtOp a r :: post) s = .error .notImplemented := by
  have h0 : hosRevRun k L (.cbrtOp a r :: post) s = .error .notImplemented := by simp only [hosRevRun, h]; rfl
  induction pre with
  | nil => exact h0
  | cons o os ih => simp only [List.cons_append, hosRevRun, ih]

/-- The hypotheses hold for the demo program (degree 3, a curve that is not a line). -/
example : ∃ s', Traced demoCfg [] demoStart demo s' (s'.hw + 1) ∧ demo.disc ⟨Set.univ, ∅⟩ ∧
    (∃ e, demo.spec (ext (fun _ : Fin 2 => 1)) (fun _ => 0) demoStart.se = some (e, demo.path demoCfg demoStart) ∧ e.ii = 2) ∧
    ∀ᶠ t in 𝓝 0, demo.smooth .hor (ext (curve 3 (fun _ : Fin 2 => 1) (fun i j => (i : ℝ) + j) t)) (fun _ => 0) demoStart.se := by
  obtain ⟨e, h1, h2, h3⟩ := demo_spec demoCfg.x demoCfg.par (by
    simp only [demoCfg]; positivity)
  obtain ⟨s', h4, h5⟩ := traced_exists (stock := []) demo_alloc demo_start
    (by simp [demo, Prog.noFminLL, Stmt.notFminLL]) h1
  refine ⟨s', h4, demo_disc, ?_, ?_⟩
  · obtain ⟨e', g1, g2, g3⟩ := demo_spec (ext (fun _ : Fin 2 => 1)) (fun _ => 0) (by simp [ext]; positivity)
    exact ⟨e', by rw [h5]; exact g1, g2⟩
  · have hj := fun i => (curve_jet 3 (fun _ : Fin 2 => (1:ℝ)) (fun i j => (i : ℝ) + j) i)
    have hc : ContinuousAt (fun t => ext (curve 3 (fun _ : Fin 2 => (1:ℝ)) (fun i j => (i : ℝ) + j) t) 0 *
        ext (curve 3 (fun _ : Fin 2 => (1:ℝ)) (fun i j => (i : ℝ) + j) t) 1 +
        ext (curve 3 (fun _ : Fin 2 => (1:ℝ)) (fun i j => (i : ℝ) + j) t) 0 *
          Real.exp (ext (curve 3 (fun _ : Fin 2 => (1:ℝ)) (fun i j => (i : ℝ) + j) t) 0)) 0 :=
      ((hj 0).smooth.continuousAt.mul (hj 1).smooth.continuousAt).add
        ((hj 0).smooth.continuousAt.mul (hj 0).smooth.exp.continuousAt)
    filter_upwards [continuousAt_const.eventually_lt hc (by
      rw [curve_zero]; simp [ext]; positivity)] with t ht
    exact demo_smooth .hor _ _ ht

end Verif.Props.HORev
