import Verif.AD.FosKeep
import Verif.AD.HoRevRun
import Verif.AD.SmoothRun

/-! `fos_forward` with `keep = 2` followed by `hos_reverse` of degree 1. -/
set_option linter.all false
namespace Verif.AD
open Elem Filter Topology ContDiff Finset

variable {s s' : Rec ℝ} {stock : List (Nat × List ℝ)} {cfg : RCfg ℝ}

theorem curve_one {n : Nat} (x0 v : Fin n → ℝ) (t : ℝ) : curve 1 x0 (fun i _ => v i) t = x0 + t • v := by
  funext i; simp [curve, mul_comm]

/-- The second derivative along a line. -/
theorem recorded_hess_line (hal : ∀ k L, cfg.alloc k L ∉ L) (p : Prog ℝ) (hs : s.Start stock)
    (hrec : p.record cfg s = some s') (par : Nat → ℝ) {n : Nat} (x0 v : Fin n → ℝ) {e0 : SE ℝ}
    (hpath : p.spec (ext x0) par s.se = some (e0, p.path cfg s)) (hsm : p.smooth .hor (ext x0) par s.se) (i : Fin n) (j : Nat) :
    HasDerivAt (fun t => fderiv ℝ (fun x => p.out (ext x) par s.se j) (curve 1 x0 (fun i _ => v i) t) (Pi.single i 1))
      (fderiv ℝ (fderiv ℝ (fun x => p.out (ext x) par s.se j)) x0 v (Pi.single i 1)) 0 := by
  have hξ0 : curve 1 x0 (fun i _ => v i) 0 = x0 := curve_zero _ _ _
  have hcd := (recorded_contDiff hal p hs hrec par x0 hpath (Prog.smooth_ho hsm) j).1
  have h6 : ContDiffAt ℝ ∞ (fderiv ℝ (fun x => p.out (ext x) par s.se j)) x0 := hcd.fderiv_right (by simp)
  have h7 : HasFDerivAt (fderiv ℝ (fun x => p.out (ext x) par s.se j)) (fderiv ℝ (fderiv ℝ (fun x => p.out (ext x) par s.se j)) x0)
      (curve 1 x0 (fun i _ => v i) 0) := by
    rw [hξ0]; exact (h6.differentiableAt (by simp)).hasFDerivAt
  have h8 : HasDerivAt (curve 1 x0 (fun i _ => v i)) v 0 := by
    have : HasDerivAt (fun t : ℝ => x0 + t • v) ((1:ℝ) • v) 0 := ((hasDerivAt_id (0:ℝ)).smul_const v).const_add x0
    simpa [funext (curve_one x0 v)] using this
  have h9 := h7.comp_hasDerivAt 0 h8
  exact ((ContinuousLinearMap.apply ℝ ℝ (Pi.single i (1:ℝ))).hasFDerivAt.comp_hasDerivAt 0 h9)

/-- `fos_forward` with keep leaves the same rows as `hos_forward` of degree 1 with `keep = 2`. -/
theorem recorded_fos_rows (hal : ∀ k L, cfg.alloc k L ∉ L) (p : Prog ℝ) (hs : s.Start stock)
    (hrec : p.record cfg s = some s') (par : Nat → ℝ) {n : Nat}
    (x0 v : Fin n → ℝ) {e0 : SE ℝ}
    (hpath : p.spec (ext x0) par s.se = some (e0, p.path cfg s))
    (hsm : ∀ᶠ t in 𝓝 (0:ℝ), p.smooth .hor (ext (x0 + t • v)) par s.se) (N : Nat) {H : HS ℝ}
    (h1 : hosRun ⟨ext x0, extX fun i _ => v i, par, 1, 2⟩ (s'.tape N) HS.init = .ok H) :
    ∃ f, fosRun ⟨ext x0, par, true⟩ (ext v) (s'.tape N) FS.init = .ok f ∧ f.y = e0.ys ∧
      List.Forall₂ (fun a b : Nat → ℝ => ∀ q ≤ 1, a q = b q) f.rows H.stk := by
  set ξ : ℝ → Fin n → ℝ := curve 1 x0 (fun i _ => v i) with hξd
  have hξ0 : ξ 0 = x0 := curve_zero _ _ _
  have hξt : ∀ t, ξ t = x0 + t • v := fun t => curve_one x0 v t
  have hsm' : ∀ᶠ t in 𝓝 (0:ℝ), p.smooth .hor (ext (ξ t)) par s.se := hsm.mono fun t h => by rw [hξt]; exact h
  have hal' := recorded_along hal p hs hrec (fun _ => 0) par true ξ (curve_cont _ _ _) (by rw [hξ0]; exact hpath) hsm' N
  have hok : ∃ z, zosRun ⟨ext x0, par, true⟩ (s'.tape N) (ZS.start fun _ => 0) = .ok z ∧ z.y = e0.ys := by
    rcases recorded_forward hal p hs hrec (fun _ => 0) ⟨ext x0, par, true⟩ N with ⟨e, z', k1, k2, k3, k4⟩ | ⟨k1, k2⟩
    · rw [hpath] at k1; cases k1; exact ⟨z', k2, k3⟩
    · exact absurd rfl (k2 _ _ hpath)
  obtain ⟨z, hz, hzy⟩ := hok
  obtain ⟨S1', S2', F', H', i', m', g1, g2, g3, g4⟩ := fos2_run (c := ⟨ext x0, extX fun i _ => v i, par, 1, 2⟩)
    (zc := fun t => ⟨ext (ξ t), par, true⟩) rfl rfl (fun t => rfl) (fun t => rfl) (curve_jet 1 x0 _)
    (ops := s'.tape N) (S1 := fun _ => ZS.start fun _ => 0) (S2 := fun _ => ZS.start fun _ => 0) (F := fun _ => FS.init) (H := HS.init) (i := 0) (m := 0)
    ⟨⟨fun w => rfl, fun e => rfl, fun w => rfl, fun l => FD.const _, fun e => rfl, fun w => rfl, fun j => FD.const 0⟩,
      ⟨fun l => (Jet.const 0).coefs fun m hm => by cases m <;> simp [HS.row, HS.init], fun t => rfl, ⟨[], fun t => rfl, .nil⟩, ⟨[], fun t => rfl, .nil⟩⟩,
      EventuallyEq.rfl, .nil⟩ (hal'.mono fun t h => h.2) ⟨z, by simp only [hξ0]; exact hz⟩
  simp only [hξ0] at g1
  rw [show (fun i => 1 * extX (fun i (_ : Nat) => v i) i 0) = ext v by
    funext i; simp only [extX, ext]; split_ifs <;> simp] at g1
  rw [h1] at g2
  cases g2
  refine ⟨F' 1, g1, ?_, g3.rows⟩
  have hh := fos_zos_run ⟨ext x0, par, true⟩ (ext v) (s'.tape N) (s := FS.init) (z := ZS.start fun _ => 0) ⟨rfl, rfl, rfl, rfl, le_refl _⟩
  rw [g1, hz] at hh
  exact (SameZ.y hh).trans hzy

/-- `fos_forward` with `keep = 2`, then `hos_reverse` of degree 1, along a line. -/
theorem recorded_hess_jet (hal : ∀ k L, cfg.alloc k L ∉ L) (p : Prog ℝ) (hs : s.Start stock)
    (hrec : p.record cfg s = some s') (hdi : p.disc ⟨Set.univ, ∅⟩) (par : Nat → ℝ) {n : Nat}
    (x0 v : Fin n → ℝ) {e0 : SE ℝ}
    (hpath : p.spec (ext x0) par s.se = some (e0, p.path cfg s)) (hn : e0.ii = n)
    (hsm : ∀ᶠ t in 𝓝 (0:ℝ), p.smooth .hor (ext (x0 + t • v)) par s.se) {N : Nat} (hN : 0 < N) (hNw : s'.hw ≤ N)
    (u : Nat → ℝ) :
    ∃ f R, fosRun ⟨ext x0, par, true⟩ (ext v) (s'.tape N) FS.init = .ok f ∧ f.y = e0.ys ∧
      hosRevRun 2 (lagr u) (s'.tape N) (HRS.init n e0.ys.length f.rows) = .ok R ∧ R.stk = [] ∧
      ∀ i : Fin n, Jet 1 (fun t => ∑ j ∈ range e0.ys.length,
        u j * fderiv ℝ (fun x => p.out (ext x) par s.se j) (curve 1 x0 (fun i _ => v i) t) (Pi.single i 1)) (R.Z i) := by
  set ξ : ℝ → Fin n → ℝ := curve 1 x0 (fun i _ => v i) with hξd
  have hξ0 : ξ 0 = x0 := curve_zero _ _ _
  have hξt : ∀ t, ξ t = x0 + t • v := fun t => curve_one x0 v t
  have hsm' : ∀ᶠ t in 𝓝 (0:ℝ), p.smooth .hor (ext (ξ t)) par s.se := hsm.mono fun t h => by rw [hξt]; exact h
  obtain ⟨H, h1, h2⟩ := recorded_hrev_rows hal p hs hrec hdi par (k := 1) (d := 1) (le_refl _) ξ (curve_cont _ _ _)
    (extX fun i _ => v i) (by rw [hξ0]; exact curve_jet 1 x0 _) (by rw [hξ0]; exact hpath) hn hsm' hN hNw
    (u := fun _ => u) (L := lagr u) (fun j => (Jet.const (u j)).coefs fun q hq => by
      interval_cases q <;> simp [lagr, hcons])
  rw [hξ0] at h1
  obtain ⟨f, f1, f2, f3⟩ := recorded_fos_rows hal p hs hrec par x0 v hpath hsm N h1
  obtain ⟨R, r1, r2, r3, r4⟩ := h2 f.rows f3
  exact ⟨f, R, f1, f2, r1, r2, r4⟩

theorem recorded_hess (hal : ∀ k L, cfg.alloc k L ∉ L) (p : Prog ℝ) (hs : s.Start stock)
    (hrec : p.record cfg s = some s') (hdi : p.disc ⟨Set.univ, ∅⟩) (par : Nat → ℝ) {n : Nat}
    (x0 v : Fin n → ℝ) {e0 : SE ℝ}
    (hpath : p.spec (ext x0) par s.se = some (e0, p.path cfg s)) (hn : e0.ii = n)
    (hsm : ∀ᶠ t in 𝓝 (0:ℝ), p.smooth .hor (ext (x0 + t • v)) par s.se) {N : Nat} (hN : 0 < N) (hNw : s'.hw ≤ N)
    (u : Nat → ℝ) :
    ∃ f R, fosRun ⟨ext x0, par, true⟩ (ext v) (s'.tape N) FS.init = .ok f ∧ f.y = e0.ys ∧
      hosRevRun 2 (lagr u) (s'.tape N) (HRS.init n e0.ys.length f.rows) = .ok R ∧ R.stk = [] ∧
      ∀ i : Fin n, R.Z i 1 = ∑ j ∈ range e0.ys.length,
        u j * fderiv ℝ (fderiv ℝ (fun x => p.out (ext x) par s.se j)) x0 v (Pi.single i 1) := by
  obtain ⟨f, R, h1, h2, h3, h4, h5⟩ := recorded_hess_jet hal p hs hrec hdi par x0 v hpath hn hsm hN hNw u
  refine ⟨f, R, h1, h2, h3, h4, fun i => ?_⟩
  rw [← (h5 i).coef 1 (le_refl _), tc_one]
  have hd := fun j => recorded_hess_line hal p hs hrec par x0 v hpath (by simpa using hsm.self_of_nhds) i j
  have := (HasDerivAt.fun_sum (u := range e0.ys.length) fun j _ => (hd j).const_mul (u j)).deriv
  simp only [curve_one] at this ⊢
  exact this

end Verif.AD
