import Verif.AD.AbsMain
import Verif.Props.AD

/-!
# C47: abs-normal form

`Prog.swSpec` is the program in which the result of the `k`-th call of `fabs` is replaced by an input `w k`; `swOut`
are its outputs and `swArg` the arguments of `fabs`, as functions of `(x, w)`.
-/
set_option linter.all false
namespace Verif.Props.AbsNormal
open Verif.AD Elem Verif.Props.AD

variable {s s' : Rec ℝ} {stock : List (Nat × List ℝ)} {cfg : RCfg ℝ} {p : Prog ℝ} {N : Nat}

/-- With `w = |z|` the switching function is the program: same outputs, same path, arguments `z`. -/
theorem C47_switching_function (par : Nat → ℝ) (x w : Nat → ℝ) {e e' : SE ℝ} {bs : List Bool} (h : p.spec x par e = some (e', bs))
    (hw : ∀ k, k < (p.switches x par e).length → w k = |(p.switches x par e)[k]?.getD 0|) :
    p.swSpec x w par e [] = some (e', p.switches x par e, bs) := by
  have := Prog.swSpec_of_spec (w := w) (zs := []) p h (fun k v hv => by
    have hk := (List.getElem?_eq_some_iff.1 hv).1
    simp only [List.length_nil, Nat.zero_add]
    rw [hw k hk, hv]; rfl)
  simpa using this

theorem dot_zero_ext {n : Nat} (A : Nat → ℝ) : dot n A (ext (0 : Fin n → ℝ)) = 0 := by
  rw [dot_ext]; simp

/-- **C47**: `abs_normal` returns the values of the dependents and of the switching variables and the partial derivatives
`Y = ∂y/∂x`, `J = ∂y/∂|z|`, `Z = ∂z/∂x`, `L = ∂z/∂|z|` of the switching function at `(x, |z|)`, also at kinks; `L` is
strictly lower triangular. -/
theorem C47_abs_normal_form (h : Traced cfg stock s p s' N) (hd : p.disc ⟨Set.univ, ∅⟩) (par : Nat → ℝ) {n : Nat}
    (x0 : Fin n → ℝ) {e0 : SE ℝ} (hpath : p.spec (ext x0) par s.se = some (e0, p.path cfg s)) (hn : e0.ii = n)
    (hsm : p.smoothAN (ext x0) par s.se) {q : Nat} (hq : (p.switches (ext x0) par s.se).length = q)
    (w0 : Fin q → ℝ) (hw0 : ∀ k : Fin q, w0 k = |(p.switches (ext x0) par s.se)[(k : Nat)]?.getD 0|)
    (hpos : 0 < e0.ys.length + q) :
    ∃ a, absNormal (s'.tape N) par true e0.ys.length n q (ext x0) = .ok a ∧
      a.y = e0.ys ∧ a.z = p.switches (ext x0) par s.se ∧
      (∀ j < e0.ys.length, HasFDerivAt (fun b : (Fin n → ℝ) × (Fin q → ℝ) => p.swOut (ext b.1) (ext b.2) par s.se j)
        (rowMap (a.Y j) (a.J j)) (x0, w0)) ∧
      (∀ k < q, HasFDerivAt (fun b : (Fin n → ℝ) × (Fin q → ℝ) => p.swArg (ext b.1) (ext b.2) par s.se k)
        (rowMap (a.Z k) (a.L k)) (x0, w0)) ∧
      ∀ k l, k < q → l < q → k ≤ l → a.L k l = 0 := by
  obtain ⟨z, D, Dz, h1, h2, h3, h4, h5, h6, h7, h8⟩ := recorded_sw_derivative h.alloc p h.start h.recorded (fun _ => 0) par x0 hpath hsm N true q hq w0 hw0
  obtain ⟨body, hb1, hb2⟩ := recorded_wf h.alloc p h.start hd h.recorded h.pos h.size
  have hA : Along regularAN ⟨ext x0, par, true⟩ (fullTrace stock body N) (ZS.start fun _ => 0) := by
    rw [← hb1]
    exact Along_mono (fun o T h => smoothB_regularAN h) (recorded_smoothB h.alloc p h.start h.recorded (fun _ => 0) ⟨ext x0, par, true⟩ hpath hsm N)
  -- counts
  obtain ⟨f0, f1, f2, f3, f4, f5, _⟩ := h8 0
  obtain ⟨c1, c2, c3⟩ := sw_counts f1
  have hI : n = numInd (s'.tape N) := by rw [← hn, ← f3, c1]; simp [FS.start]
  have hM : e0.ys.length = numDep (s'.tape N) := by rw [← f4, c2]; simp [FS.start]
  have hS : numSw (s'.tape N) = q := by rw [← f5, c3]; simp
  -- rows
  let U : Nat → Nat → ℝ := fun row j => if row < e0.ys.length ∧ j = row then 1 else 0
  let Us : Nat → Nat → ℝ := fun row k => if e0.ys.length ≤ row ∧ k = row - e0.ys.length then 1 else 0
  have key : ∀ row, ∃ r, plRevRun (U row) (Us row) (s'.tape N) ⟨RS.init n e0.ys.length z.z.stk, q, fun _ => 0⟩ = .ok r ∧
      ∀ a : (Fin n → ℝ) × (Fin q → ℝ), rowMap r.r.bar r.sbar a =
        if row < e0.ys.length then D row a else if row < e0.ys.length + q then Dz (row - e0.ys.length) a else 0 := by
    intro row
    have one : ∀ a : (Fin n → ℝ) × (Fin q → ℝ), ∃ r, plRevRun (U row) (Us row) (s'.tape N) ⟨RS.init n e0.ys.length z.z.stk, q, fun _ => 0⟩ = .ok r ∧
        rowMap r.r.bar r.sbar a =
        if row < e0.ys.length then D row a else if row < e0.ys.length + q then Dz (row - e0.ys.length) a else 0 := by
      intro a
      obtain ⟨f, g1, g2, g3, g4, g5, g6, g7⟩ := h8 a
      rw [hb1] at g1
      obtain ⟨r, r1, r2, r3⟩ := pl_full_reverse hb2 rfl (U row) (Us row) (ext a.1) (ext a.2) (fun _ => 0) (fun _ _ => rfl) g1 hA
      rw [g3, g4, g5, g2, hn] at r1
      rw [g3, g5, hn] at r3
      refine ⟨r, by rw [hb1]; exact r1, ?_⟩
      rw [rowMap_apply, r3]
      by_cases hr : row < e0.ys.length
      · rw [if_pos hr, wsum_single (j := row) (by rw [g4]; exact hr) (fun k hk => by simp [U, hr]),
          wsum_zero (fun k hk => by simp only [Us]; rw [if_neg (by omega)]), add_zero, g6]
      · rw [if_neg hr, wsum_zero (fun k hk => by simp only [U]; rw [if_neg (by omega)]), zero_add]
        split_ifs with hr2
        · rw [wsum_single (j := row - e0.ys.length) (by rw [g5]; omega) (fun k hk => by
            simp only [Us, show e0.ys.length ≤ row by omega, true_and]), g7]
        · rw [wsum_zero]
          intro k hk
          rw [g5] at hk
          simp only [Us]
          rw [if_neg (by omega)]
    obtain ⟨r, r1, _⟩ := one 0
    refine ⟨r, r1, fun a => ?_⟩
    obtain ⟨r', r2, r3⟩ := one a
    rw [r1] at r2
    cases r2
    exact r3
  -- the vector sweep
  have hrun : ∃ r, fovPlRevRun (e0.ys.length + q) U Us (s'.tape N) ⟨VRS.init n e0.ys.length z.z.stk, q, fun _ _ => 0⟩ = .ok r := by
    obtain ⟨r, r1, _⟩ := key 0
    have := pl_row_run hpos U Us (s'.tape N) ⟨VRS.init n e0.ys.length z.z.stk, q, fun _ _ => 0⟩
    have e : VPRS.row 0 (⟨VRS.init n e0.ys.length z.z.stk, q, fun _ _ => 0⟩ : VPRS ℝ) = ⟨RS.init n e0.ys.length z.z.stk, q, fun _ => 0⟩ := rfl
    rw [e, r1] at this
    cases hf : fovPlRevRun (e0.ys.length + q) U Us (s'.tape N) ⟨VRS.init n e0.ys.length z.z.stk, q, fun _ _ => 0⟩ with
    | error e => rw [hf] at this; cases this
    | ok r => exact ⟨r, rfl⟩
  obtain ⟨r, hr⟩ := hrun
  have hrow : ∀ row, row < e0.ys.length + q → ∀ a : (Fin n → ℝ) × (Fin q → ℝ), rowMap (r.r.bar row) (r.sbar row) a =
        if row < e0.ys.length then D row a else if row < e0.ys.length + q then Dz (row - e0.ys.length) a else 0 := by
    intro row hl a
    obtain ⟨t, t1, t2⟩ := key row
    have := pl_row_run hl U Us (s'.tape N) ⟨VRS.init n e0.ys.length z.z.stk, q, fun _ _ => 0⟩
    have e : VPRS.row row (⟨VRS.init n e0.ys.length z.z.stk, q, fun _ _ => 0⟩ : VPRS ℝ) = ⟨RS.init n e0.ys.length z.z.stk, q, fun _ => 0⟩ := rfl
    rw [e, t1, hr] at this
    simp only [Except.map, Except.ok.injEq] at this
    rw [← t2 a, ← this]
    rfl
  refine ⟨⟨z.z.y, z.sw, fun j i => r.r.bar j i, fun j k => r.sbar j k, fun k i => r.r.bar (e0.ys.length + k) i,
    fun k l => r.sbar (e0.ys.length + k) l⟩, ?_, h3, h2, fun j hj => ?_, fun k hk => ?_, fun k l hk hl hkl => ?_⟩
  · have h1' : zosPlRun ⟨ext x0, par, true⟩ (s'.tape N) ⟨ZS.init, []⟩ = .ok z := h1
    simp only [absNormal, if_true, hS, ne_eq, not_true, if_false, ← hI, ← hM, and_self, h1']
    rw [show fovPlRevRun (e0.ys.length + q) (fun row j => if row < e0.ys.length ∧ j = row then 1 else 0)
      (fun row k => if e0.ys.length ≤ row ∧ k = row - e0.ys.length then 1 else 0) (s'.tape N)
      ⟨VRS.init n e0.ys.length z.z.stk, q, fun _ _ => 0⟩ = .ok r from hr]
  · have : rowMap (r.r.bar j) (r.sbar j) = D j := by
      ext1
      · ext v; simp [hrow j (by omega), hj]
      · ext v; simp [hrow j (by omega), hj]
    show HasFDerivAt _ (rowMap (r.r.bar j) (r.sbar j)) _
    rw [this]
    exact h5 j
  · have : rowMap (r.r.bar (e0.ys.length + k)) (r.sbar (e0.ys.length + k)) = Dz k := by
      ext1
      · ext v; simp [hrow (e0.ys.length + k) (by omega), hk]
      · ext v; simp [hrow (e0.ys.length + k) (by omega), hk]
    show HasFDerivAt _ (rowMap (r.r.bar (e0.ys.length + k)) (r.sbar (e0.ys.length + k))) _
    rw [this]
    exact h6 k
  · have := hrow (e0.ys.length + k) (by omega) (0, Pi.single ⟨l, hl⟩ 1)
    rw [if_neg (by omega), if_pos (by omega), Nat.add_sub_cancel_left, h7 k l hl hkl, rowMap_apply, dot_single, dot_zero_ext, zero_add] at this
    exact this

/-- **C47**: `fos_pl_forward` evaluates the piecewise linear model given by the abs-normal form: with `Δz` its output
`swtaylors` and `Δy` its output `taylors`, `Δz = Z v + L (|z + Δz| - |z|)` and `Δy = Y v + J (|z + Δz| - |z|)`. -/
theorem C47_piecewise_linear (h : Traced cfg stock s p s' N) (par : Nat → ℝ) {n : Nat}
    (x0 : Fin n → ℝ) {e0 : SE ℝ} (hpath : p.spec (ext x0) par s.se = some (e0, p.path cfg s))
    (hsm : p.smoothAN (ext x0) par s.se) {q : Nat} (hq : (p.switches (ext x0) par s.se).length = q)
    (w0 : Fin q → ℝ) (hw0 : ∀ k : Fin q, w0 k = |(p.switches (ext x0) par s.se)[(k : Nat)]?.getD 0|)
    {Y J Z L : Nat → Nat → ℝ}
    (hY : ∀ j < e0.ys.length, HasFDerivAt (fun b : (Fin n → ℝ) × (Fin q → ℝ) => p.swOut (ext b.1) (ext b.2) par s.se j)
        (rowMap (Y j) (J j)) (x0, w0))
    (hZ : ∀ k < q, HasFDerivAt (fun b : (Fin n → ℝ) × (Fin q → ℝ) => p.swArg (ext b.1) (ext b.2) par s.se k)
        (rowMap (Z k) (L k)) (x0, w0)) (keep : Bool) (v : Fin n → ℝ) :
    ∃ f, fosPlRun ⟨ext x0, par, keep⟩ (ext v) (s'.tape N) ⟨FS.init, [], []⟩ = .ok f ∧
      f.sw = p.switches (ext x0) par s.se ∧ f.swT.length = q ∧ f.f.y = e0.ys ∧ f.f.dy.length = e0.ys.length ∧
      let zz : Nat → ℝ := fun k => f.sw[k]?.getD 0
      let dz : Nat → ℝ := fun k => f.swT[k]?.getD 0
      (∀ k < q, dz k = ∑ i : Fin n, Z k i * v i + ∑ l : Fin q, L k l * (|zz l + dz l| - |zz l|)) ∧
      ∀ j < e0.ys.length, f.f.dy[j]?.getD 0 = ∑ i : Fin n, Y j i * v i + ∑ l : Fin q, J j l * (|zz l + dz l| - |zz l|) := by
  obtain ⟨z, D, Dz, h1, h2, h3, h4, h5, h6, h7, h8⟩ := recorded_sw_derivative h.alloc p h.start h.recorded (fun _ => 0) par x0 hpath hsm N keep q hq w0 hw0
  have hz := zosPl_zos h1
  obtain ⟨f, hf⟩ := fosPl_total (v := ext v) (s := ⟨FS.init, [], []⟩) hz ⟨rfl, rfl, rfl, rfl, le_refl _⟩
  have hsw0 := fosPl_sw (dw := fun k => fabs (f.sw[k]?.getD 0 + f.swT[k]?.getD 0) - fabs (f.sw[k]?.getD 0)) hf rfl
    (fun k z dz h1 h2 => by simp only [h1, h2, Option.getD_some])
  obtain ⟨g0, g1, _, g3, g4, g5, _⟩ := h8 0
  obtain ⟨_, _, c3⟩ := sw_counts g1
  obtain ⟨_, _, c6⟩ := sw_counts hsw0
  have hlq : f.swT.length = q := by
    rw [c6, ← g5, c3]
  have hsw : swRun ⟨ext x0, par, keep⟩ (ext v) (ext fun l : Fin q => |f.sw[(l : Nat)]?.getD 0 + f.swT[(l : Nat)]?.getD 0| - |f.sw[(l : Nat)]?.getD 0|)
      (s'.tape N) ⟨FS.init, [], []⟩ = .ok f := by
    refine fosPl_sw hf rfl fun k z dz h1 h2 => ?_
    have hk : k < q := by rw [← hlq]; exact (List.getElem?_eq_some_iff.1 h2).1
    simp only [ext, hk, dif_pos, h1, h2, Option.getD_some]
    rfl
  obtain ⟨f', k1, k2, k3, k4, k5, k6, k7⟩ := h8 (v, fun l : Fin q => |f.sw[(l : Nat)]?.getD 0 + f.swT[(l : Nat)]?.getD 0| - |f.sw[(l : Nat)]?.getD 0|)
  have k1' : Except.ok f = Except.ok f' := hsw.symm.trans k1
  cases k1'
  obtain ⟨m1, m2⟩ := sw_zosPl_run hsw h1 ⟨rfl, rfl, rfl, rfl, le_refl _⟩ rfl
  refine ⟨f, hf, by rw [m2, h2], k5, by rw [m1.y, h3], k4, fun k hk => ?_, fun j hj => ?_⟩
  · have e := (h6 k).unique (hZ k hk)
    show f.swT[k]?.getD 0 = _
    rw [k7, e, rowMap_apply, dot_ext, dot_ext]
  · have e := (h5 j).unique (hY j hj)
    show f.f.dy[j]?.getD 0 = _
    rw [k6, e, rowMap_apply, dot_ext, dot_ext]

/-! ### A concrete program meeting the hypotheses, at a kink -/

/-- `a <<= x0; b <<= x1; c = fabs(a); b = b - c; b = fabs(b); c = c * b; c >>= y` -/
noncomputable def kink : Prog ℝ :=
  .stmt (.new 0) <| .stmt (.indep 0) <| .stmt (.new 1) <| .stmt (.indep 1) <|
  .stmt (.new 2) <| .stmt (.un .fabs 0 2) <| .stmt (.new 3) <| .stmt (.bin .minus true 1 2 3) <|
  .stmt (.new 4) <| .stmt (.un .fabs 3 4) <| .stmt (.new 5) <| .stmt (.bin .mult true 2 4 5) <| .stmt (.dep 5) .done

theorem kink_spec (x par : Nat → ℝ) :
    ∃ e, kink.spec x par demoStart.se = some (e, []) ∧ e.ii = 2 ∧ e.ys = [abs (x 0) * abs (x 1 - abs (x 0))] := by
  simp [kink, Prog.spec, Stmt.spec, demoStart, Rec.se, SE.set, SE.del, upd_apply, Bin.fn, Un.fn, Elem.fabs]

theorem kink_switches (x par : Nat → ℝ) : kink.switches x par demoStart.se = [x 0, x 1 - |x 0|] := by
  simp [kink, Prog.switches, Stmt.switches, Stmt.spec, demoStart, Rec.se, SE.set, SE.del, upd_apply, Bin.fn, Un.fn, Elem.fabs]

theorem kink_smooth (x par : Nat → ℝ) : kink.smoothAN x par demoStart.se := by
  simp [kink, Prog.smoothAN, Stmt.smoothAN, Stmt.smooth, Stmt.spec, demoStart, Rec.se, SE.set, SE.del, upd_apply, Bin.fn,
    Un.fn, Un.smooth]

/-- All hypotheses of `C47_abs_normal_form` hold at every point, in particular at the kinks. -/
example : ∃ s', Traced demoCfg [] demoStart kink s' (s'.hw + 1) ∧ kink.disc ⟨Set.univ, ∅⟩ ∧
    ∀ x0 : Fin 2 → ℝ, ∃ e0, kink.spec (ext x0) (fun _ => 0) demoStart.se = some (e0, kink.path demoCfg demoStart) ∧ e0.ii = 2 ∧
      kink.smoothAN (ext x0) (fun _ => 0) demoStart.se ∧ (kink.switches (ext x0) (fun _ => 0) demoStart.se).length = 2 ∧
      0 < e0.ys.length + 2 := by
  obtain ⟨e, h1, h2, h3⟩ := kink_spec demoCfg.x demoCfg.par
  obtain ⟨s', h4, h5⟩ := traced_exists (stock := []) demo_alloc demo_start
    (by simp [kink, Prog.noFminLL, Stmt.notFminLL]) h1
  refine ⟨s', h4, by simp [kink, Prog.disc, Stmt.disc, Stmt.discNext, Stmt.uses], fun x0 => ?_⟩
  obtain ⟨e', g1, g2, g3⟩ := kink_spec (ext x0) (fun _ => 0)
  exact ⟨e', by rw [h5]; exact g1, g2, kink_smooth _ _, by rw [kink_switches]; rfl, by omega⟩

/-! ### Where the code deviates -/

/-- `fos_pl_sig_reverse` (`directional_active_gradient`) sets the adjoint of the result of `fabs` to zero before using
it: for `y = fabs(x)` the gradient is zero whatever signature is prescribed, the forward sweep having been run at any `x`. -/
theorem C47_active_gradient_lost {K : Type} [Scalar K] (u sg x par : Nat → K) (k : K) :
    ∃ z r, zosRun ⟨x, par, true⟩ [.assignInd 0, .absVal 0 1 k, .assignDep 1, .deathNot 0 1] ZS.init = .ok z ∧
      plSigRevRun u sg [.assignInd 0, .absVal 0 1 k, .assignDep 1, .deathNot 0 1] (RS.init 1 1 z.stk, 1) = .ok r ∧
      r.1.bar 0 = 0 := by
  have hz : ∃ z, zosRun ⟨x, par, true⟩ [.assignInd 0, .absVal 0 1 k, .assignDep 1, .deathNot 0 1] ZS.init = .ok z ∧
      z.stk = [x 0, fabs (x 0), 0, 0] := by
    refine ⟨_, rfl, ?_⟩
    simp only [List.range_succ, List.range_zero, List.nil_append, List.cons_append, List.foldl, ZS.push, ZS.set, ZS.init, ZS.dec, if_true, upd_apply]
    split_ifs <;> simp_all
  obtain ⟨z, h1, h2⟩ := hz
  refine ⟨z, _, h1, by rw [h2]; rfl, ?_⟩
  simp [RS.setA, RS.addA, upd_apply, RS.init, List.range_succ]

/-- `abs_normal` does not look at what `zos_pl_forward` returns: the sweep over a trace recorded with `x > 0` stops at
the comparison when `x = -1`, and there is no result. -/
theorem C47_off_path :
    absNormal [.assignInd 0, .cmp .gt 0, .absVal 0 1 1, .assignDep 1, .deathNot 0 1] (fun _ => 0) true 1 1 1 (fun _ => (-1 : ℝ)) =
      .error .stopped := by
  have h : zosPlRun ⟨fun _ => (-1 : ℝ), fun _ => 0, true⟩ [.assignInd 0, .cmp .gt 0, .absVal 0 1 1, .assignDep 1, .deathNot 0 1] ⟨ZS.init, []⟩ =
      .error .branchSwitch := by
    have hc : ∀ (z : ZS ℝ) (sw : List ℝ) (os : List (Base ℝ)), z.T 0 = -1 →
        zosPlRun ⟨fun _ => (-1 : ℝ), fun _ => 0, true⟩ (.cmp .gt 0 :: os) ⟨z, sw⟩ = .error .branchSwitch := by
      intro z sw os hz
      have hn : ¬ (0 : ℝ) < -1 := by norm_num
      simp only [zosPlRun, zosPlStep, zosStep, Cmp.holds, hz, decide_eq_true_eq, gt_iff_lt]
      rw [if_neg hn]
    exact hc _ _ _ (by simp [ZS.set, ZS.push, ZS.init, upd_apply])
  simp [absNormal, numSw, numInd, numDep, h, Base.nInd, Base.nDep]

end Verif.Props.AbsNormal
