import Verif.AD.HovRun
import Verif.Props.HO

/-! # C40: several directions at once, higher order -/
set_option linter.all false
namespace Verif.Props.HOVec
open Verif.AD Verif.Props.AD Elem Filter Topology ContDiff

/-- C40 (partial: no `log` at 0 and no `pow` at base 0, see `C40_log_at_zero`, `C40_pow_at_zero`).  On every trace, for
every number `p` of directions, every degree and every `keep`, `hov_forward` and `hov_wk_forward` either stop for the
same reason as `hos_forward` does in direction `l`, or both return, with the same values and the same Taylor
coefficients in direction `l`, a value stack whose rows contain for direction `l` the rows written by
`hos_forward`, and a return code that is at most the one of `hos_forward`. -/
theorem C40_directions_partial {K : Type} [Scalar K] (c : HVCfg K) (ops : List (Base K)) (T0 : Nat → K) (l : Nat) (hl : l < c.p)
    (hok : AlongV Base.colOk c ops (HVS.start T0)) :
    match hovRun c ops (HVS.start T0), hosRun ⟨c.x, fun i j => c.X i l j, c.par, c.k, c.keep⟩ ops (HS.start T0) with
    | .ok s, .ok h =>
      h.y = s.y.map (fun r n => if n = 0 then r.1 else r.2 l (n - 1)) ∧
      h.stk = s.stk.map (fun r n => if n = 0 then r.1 else r.2 l (n - 1)) ∧ s.rc ≤ h.rc
    | .error e, .error e' => e = e'
    | _, _ => False := by
  have h := hov_run hl hok (HCol.start (keep := c.keep) (l := l) T0)
  have hm : ∀ L : List (K × (Nat → Nat → K)), (L.map fun r => fun n => match n with
      | 0 => r.1
      | n + 1 => r.2 l n) = L.map (fun r n => if n = 0 then r.1 else r.2 l (n - 1)) := by
    intro L
    refine List.map_congr_left fun r _ => ?_
    funext n
    cases n <;> simp
  unfold HVCfg.col at h
  revert h
  cases hovRun c ops (HVS.start T0) <;> cases hosRun ⟨c.x, fun i j => c.X i l j, c.par, c.k, c.keep⟩ ops (HS.start T0) <;>
    intro h
  · exact h
  · exact h
  · exact h
  · exact ⟨h.y.trans (hm _), h.stk.trans (hm _), h.rc⟩

section
variable {cfg : RCfg ℝ} {stock : List (Nat × List ℝ)} {s s' : Rec ℝ} {p : Prog ℝ} {N : Nat}

/-- Every direction of the vector sweep over a recorded trace is the scalar sweep. -/
theorem traced_hov (h : Traced cfg stock s p s' N) (par : Nat → ℝ) {n k q keep : Nat} (hq : 0 < q)
    (hkk : keep ≤ k + 1) (x0 : Fin n → ℝ) (X : Fin n → Nat → Nat → ℝ) {e0 : SE ℝ}
    (hspec : p.spec (ext x0) par s.se = some (e0, p.path cfg s))
    (hsm : ∀ l, l < q → ∀ᶠ t in 𝓝 0, p.smooth .ho (ext (curve k x0 (fun i => X i l) t)) par s.se) :
    ∃ S, hovRun ⟨ext x0, fun i l => extX (fun i => X i l) i, par, k, q, keep⟩ (s'.tape N) HVS.init = .ok S ∧
      ∀ l, l < q → ∃ H, hosRun ⟨ext x0, extX (fun i => X i l), par, k, keep⟩ (s'.tape N) HS.init = .ok H ∧ HCol keep l S H := by
  set c : HVCfg ℝ := ⟨ext x0, fun i l => extX (fun i => X i l) i, par, k, q, keep⟩ with hc
  have key : ∀ l, l < q → ∃ S H, hovRun c (s'.tape N) HVS.init = .ok S ∧
      hosRun (c.col l) (s'.tape N) HS.init = .ok H ∧ HCol keep l S H := by
    intro l hl
    have hc0 := curve_zero k x0 (fun i => X i l)
    have hcc := curve_cont k x0 (fun i => X i l)
    have hj := curve_jet k x0 (fun i => X i l)
    have hsp : p.spec (ext (curve k x0 (fun i => X i l) 0)) par s.se = some (e0, p.path cfg s) := by rw [hc0]; exact hspec
    obtain ⟨S', H, h1, h2, h3, h4, h5⟩ := recorded_jets h.alloc p h.start h.recorded (fun _ => 0) par hkk
      (curve k x0 (fun i => X i l)) hcc (extX fun i => X i l) (by rw [hc0]; exact hj) hsp (hsm l hl) N
    rw [hc0] at h2 h3
    have hal := recorded_along h.alloc p h.start h.recorded (fun _ => 0) par (decide (0 < keep)) (curve k x0 (fun i => X i l)) hcc
      hsp (hsm l hl) N
    have hok : ∃ z, zosRun ⟨ext (curve k x0 (fun i => X i l) 0), par, decide (0 < keep)⟩ (s'.tape N) (ZS.start fun _ => 0) = .ok z := by
      have := h1.self_of_nhds
      exact ⟨_, this⟩
    have hJ0 : JetS (c.col l) (fun _ => ZS.start fun _ => 0) (HS.start fun _ => 0) := by
      refine ⟨fun l => (Jet.const 0).coefs fun m hm => ?_, fun t => rfl, ⟨[], fun t => rfl, .nil⟩, ⟨[], fun t => rfl, .nil⟩⟩
      cases m <;> simp [HS.row, HS.start]
    have hA := hov_along (c := c) hl (zc := fun t => ⟨ext (curve k x0 (fun i => X i l) t), par, decide (0 < keep)⟩) hkk
      (fun t => rfl) (fun t => rfl) hj hJ0 (HCol.start (keep := keep) (l := l) fun _ => 0) (hal.mono fun t h => h.2) hok
    have hr := hov_run (c := c) hl hA (HCol.start (keep := keep) (l := l) fun _ => 0)
    have h2' : hosRun (c.col l) (s'.tape N) (HS.start fun _ => 0) = .ok H := h2
    rw [h2'] at hr
    cases e : hovRun c (s'.tape N) (HVS.start fun _ => 0) with
    | error e' => rw [e] at hr; exact hr.elim
    | ok S => rw [e] at hr; exact ⟨S, H, e, h2, hr⟩
  obtain ⟨S, H0, hS, hH0, hC0⟩ := key 0 hq
  have col : ∀ l, l < q → ∃ H, hosRun (c.col l) (s'.tape N) HS.init = .ok H ∧ HCol keep l S H := by
    intro l hl
    obtain ⟨S2, H, g1, g2, g3⟩ := key l hl
    rw [hS] at g1; cases g1
    exact ⟨H, g2, g3⟩
  exact ⟨S, hS, col⟩

/-- C40 for traced programs (partial: restrictions of `C17_hos_forward_partial`).  `X i l` are the Taylor coefficients of the
`i`-th independent in direction `l`. -/
theorem C40_hov_forward_partial (h : Traced cfg stock s p s' N) (par : Nat → ℝ) {n k q keep : Nat} (hq : 0 < q)
    (hkk : keep ≤ k + 1) (x0 : Fin n → ℝ) (X : Fin n → Nat → Nat → ℝ) {e0 : SE ℝ}
    (hspec : p.spec (ext x0) par s.se = some (e0, p.path cfg s))
    (hsm : ∀ l, l < q → ∀ᶠ t in 𝓝 0, p.smooth .ho (ext (curve k x0 (fun i => X i l) t)) par s.se) :
    ∃ S, hovRun ⟨ext x0, fun i l => extX (fun i => X i l) i, par, k, q, keep⟩ (s'.tape N) HVS.init = .ok S ∧
      S.y.length = e0.ys.length ∧
      ∀ j (hj : j < S.y.length), S.y[j].1 = p.out (ext x0) par s.se j ∧ ∀ l, l < q →
        ContDiffAt ℝ ∞ (fun t => p.out (ext (curve k x0 (fun i => X i l) t)) par s.se j) 0 ∧
        ∀ d, 1 ≤ d → d ≤ k → S.y[j].2 l (d - 1) =
          iteratedDeriv d (fun t => p.out (ext (curve k x0 (fun i => X i l) t)) par s.se j) 0 / d.factorial := by
  obtain ⟨S, hS, col⟩ := traced_hov h par hq hkk x0 X hspec hsm
  set c : HVCfg ℝ := ⟨ext x0, fun i l => extX (fun i => X i l) i, par, k, q, keep⟩ with hc
  refine ⟨S, hS, ?_, fun j hj => ⟨?_, fun l hl => ?_⟩⟩
  · obtain ⟨H, g1, g2, g3⟩ := HO.C17_hos_forward_partial h par hkk x0 (fun i => X i 0) hspec (hsm 0 hq)
    obtain ⟨H', f1, f2⟩ := col 0 hq
    rw [f1] at g1; cases g1
    rw [← g2, f2.y, List.length_map]
  · obtain ⟨H, g1, g2, g3⟩ := HO.C17_hos_forward_partial h par hkk x0 (fun i => X i 0) hspec (hsm 0 hq)
    obtain ⟨H', f1, f2⟩ := col 0 hq
    rw [f1] at g1; cases g1
    have hj' : j < H.y.length := by rw [f2.y, List.length_map]; exact hj
    have := (g3 j hj').2 0 (Nat.zero_le _)
    have hh := List.getElem_of_eq f2.y hj'
    rw [List.getElem_map] at hh
    rw [hh] at this
    refine Eq.trans ?_ (this.trans ?_)
    · rfl
    · simp [curve_zero]
  · obtain ⟨H, g1, g2, g3⟩ := HO.C17_hos_forward_partial h par hkk x0 (fun i => X i l) hspec (hsm l hl)
    obtain ⟨H', f1, f2⟩ := col l hl
    rw [f1] at g1; cases g1
    have hj' : j < H.y.length := by rw [f2.y, List.length_map]; exact hj
    refine ⟨(g3 j hj').1, fun d hd hdk => ?_⟩
    have := (g3 j hj').2 d hdk
    obtain ⟨d, rfl⟩ : ∃ d', d = d' + 1 := ⟨d - 1, by omega⟩
    have hh := List.getElem_of_eq f2.y hj'
    rw [List.getElem_map] at hh
    rw [hh] at this
    rw [← this]; simp

/-- The hypotheses hold for the demo program (degree 2, three different directions). -/
example : ∃ s', Traced demoCfg [] demoStart demo s' (s'.hw + 1) ∧
    (∃ e, demo.spec (ext (fun _ : Fin 2 => 1)) (fun _ => 0) demoStart.se = some (e, demo.path demoCfg demoStart)) ∧
    ∀ l, l < 3 → ∀ᶠ t in 𝓝 0, demo.smooth .ho (ext (curve 2 (fun _ : Fin 2 => 1) (fun i j => (i : ℝ) + j + l) t)) (fun _ => 0) demoStart.se := by
  obtain ⟨e, h1, h2, h3⟩ := demo_spec demoCfg.x demoCfg.par (by
    simp only [demoCfg]; positivity)
  obtain ⟨s', h4, h5⟩ := traced_exists (stock := []) demo_alloc demo_start
    (by simp [demo, Prog.noFminLL, Stmt.notFminLL]) h1
  refine ⟨s', h4, ?_, fun l _ => ?_⟩
  · obtain ⟨e', g1, _⟩ := demo_spec (ext (fun _ : Fin 2 => 1)) (fun _ => 0) (by simp [ext]; positivity)
    exact ⟨e', by rw [h5]; exact g1⟩
  · have hj := fun i => (curve_jet 2 (fun _ : Fin 2 => (1:ℝ)) (fun i j => (i : ℝ) + j + l) i)
    have hc : ContinuousAt (fun t => ext (curve 2 (fun _ : Fin 2 => (1:ℝ)) (fun i j => (i : ℝ) + j + l) t) 0 *
        ext (curve 2 (fun _ : Fin 2 => (1:ℝ)) (fun i j => (i : ℝ) + j + l) t) 1 +
        ext (curve 2 (fun _ : Fin 2 => (1:ℝ)) (fun i j => (i : ℝ) + j + l) t) 0 *
          Real.exp (ext (curve 2 (fun _ : Fin 2 => (1:ℝ)) (fun i j => (i : ℝ) + j + l) t) 0)) 0 :=
      ((hj 0).smooth.continuousAt.mul (hj 1).smooth.continuousAt).add
        ((hj 0).smooth.continuousAt.mul (hj 0).smooth.exp.continuousAt)
    filter_upwards [continuousAt_const.eventually_lt hc (by
      rw [curve_zero]; simp [ext]; positivity)] with t ht
    exact demo_smooth .ho _ _ ht

end

/-- C40 fails for `log` at 0 once an earlier direction has a negative coefficient: `divs` keeps the value nan written
for that direction (uni5_for.cpp:3318-3328), so that direction 1 gets `nan` where `hos_forward` gives `1 / 0`. -/
theorem C40_log_at_zero {K : Type} [Scalar K] (hn : (nan : K) ≠ 1 / 0) :
    ∃ S H : _, hovRun (⟨fun _ => 0, fun _ l _ => if l = 0 then -1 else 1, fun _ => 0, 1, 2, 0⟩ : HVCfg K)
        [.assignInd 0, .logOp 0 1, .assignDep 1] HVS.init = .ok S ∧
      hosRun (⟨fun _ => 0, fun _ _ => 1, fun _ => 0, 1, 0⟩ : HCfg K)
        [.assignInd 0, .logOp 0 1, .assignDep 1] HS.init = .ok H ∧
      S.y.map (fun r => r.2 1 0) ≠ H.y.map (fun r => r 1) := by
  refine ⟨_, _, rfl, rfl, ?_⟩
  simp [forUp, HVS.set, HVS.push, HVS.cols, HVS.onCol, HVS.view, HVS.init, logBody, HS.setC, HS.setZ, HS.set, HS.push, HS.init,
    List.range_succ, HS.row, updC, upd_apply]
  simpa using hn

/-- C40 fails for `pow` at base 0: one pointer serves all directions and does not advance where nothing is written
(uni5_for.cpp:3405-3414).  For `x = pow(x, 2)` at 0 with degree 2, direction 1 keeps its first coefficient 1, which
`hos_forward` sets to 0. -/
theorem C40_pow_at_zero :
    ∃ S H : _, hovRun (⟨fun _ => 0, fun _ _ _ => 1, fun _ => 0, 2, 2, 0⟩ : HVCfg ℝ)
        [.assignInd 0, .powOp 0 0 2, .assignDep 0] HVS.init = .ok S ∧
      hosRun (⟨fun _ => 0, fun _ _ => 1, fun _ => 0, 2, 0⟩ : HCfg ℝ)
        [.assignInd 0, .powOp 0 0 2, .assignDep 0] HS.init = .ok H ∧
      S.y.map (fun r => r.2 1 0) = [1] ∧ H.y.map (fun r => r 1) = [0] := by
  simp only [hosRun, hosStep, hovRun, hovStep, HS.init, HS.set, HS.push, HS.setC, HVS.init, HVS.set, HVS.push, HVS.cols, HVS.onCol, HVS.view,
    HVS.setFlat, powZeroCols, forUp, powZeroLoop, List.range_succ, List.range_zero,
    List.nil_append, List.cons_append, List.foldl_cons, List.foldl_nil, upd_apply]
  norm_num [HS.row, updC]
  exact ⟨_, _, ⟨rfl, rfl⟩, rfl⟩

end Verif.Props.HOVec
