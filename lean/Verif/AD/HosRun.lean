import Verif.AD.HosStep
import Verif.AD.RecordDeriv

/-! `hos_forward` over a recorded trace. -/
set_option linter.all false
namespace Verif.AD
open Elem Filter Topology ContDiff Finset

theorem jet_run {c : HCfg ℝ} {zc : ℝ → Cfg ℝ} (hkk : c.keep ≤ c.k + 1) (hk : ∀ t, (zc t).keep = decide (0 < c.keep))
    (hpar : ∀ t, (zc t).par = c.par) (hx : ∀ i, Jet c.k (fun t => (zc t).x i) (hcons (c.x i) (c.X i)))
    {ops : List (Base ℝ)} {S : ℝ → ZS ℝ} {H : HS ℝ} (h : JetS c S H)
    (hs : ∀ᶠ t in 𝓝 0, Along (smoothS .ho) (zc t) ops (S t)) (hok : ∃ z, zosRun (zc 0) ops (S 0) = .ok z) :
    ∃ S' H', (∀ᶠ t in 𝓝 0, zosRun (zc t) ops (S t) = .ok (S' t)) ∧ hosRun c ops H = .ok H' ∧ JetS c S' H' := by
  induction ops generalizing S H with
  | nil => exact ⟨S, H, .of_forall fun t => rfl, rfl, h⟩
  | cons o os ih =>
    obtain ⟨z, hz⟩ := hok
    simp only [zosRun] at hz
    split at hz
    · cases hz
    · rename_i z1 hz1
      obtain ⟨S1, H1, e1, e2, e3⟩ := jet_step hkk hk hpar hx h (hs.mono fun t ht => ht.1) ⟨z1, hz1⟩
      have e4 := e1.self_of_nhds
      rw [hz1] at e4
      cases e4
      obtain ⟨S2, H2, f1, f2, f3⟩ := ih e3 (by filter_upwards [hs, e1] with t t1 t2; exact t1.2 _ t2) ⟨z, hz⟩
      refine ⟨S2, H2, ?_, by simp only [hosRun, e2, f2], f3⟩
      filter_upwards [e1, f1] with t t1 t2
      simp only [zosRun, t1, t2]

/-- The curve given by the Taylor coefficients passed to `hos_forward`. -/
noncomputable def curve {n : Nat} (k : Nat) (x0 : Fin n → ℝ) (X : Fin n → Nat → ℝ) (t : ℝ) : Fin n → ℝ :=
  fun i => x0 i + ∑ j ∈ range k, X i j * t ^ (j + 1)

/-- Coefficients per independent as passed to the sweep. -/
def extX {n : Nat} (X : Fin n → Nat → ℝ) (i : Nat) : Nat → ℝ := if h : i < n then X ⟨i, h⟩ else fun _ => 0

theorem tc_pow (m n : Nat) : tc (fun t : ℝ => t ^ m) n = if n = m then 1 else 0 := by
  induction m generalizing n with
  | zero => simp only [pow_zero]; exact tc_const 1 n
  | succ m ih =>
    have hid : ContDiffAt ℝ ∞ (fun t : ℝ => t) 0 := contDiffAt_id
    have hp : ContDiffAt ℝ ∞ (fun t : ℝ => t ^ m) 0 := contDiffAt_id.pow m
    have e : (fun t : ℝ => t ^ (m + 1)) = fun t => t * t ^ m := by funext t; rw [pow_succ']
    rw [e]
    cases n with
    | zero => simp
    | succ n =>
      rw [tc_mul hid hp]
      have t0 : tc (fun t : ℝ => t) 0 = 0 := by simp
      have t1 : tc (fun t : ℝ => t) 1 = 1 := by simp [tc, iteratedDeriv_one]
      rw [Finset.sum_range_succ', Finset.sum_range_succ', t0, t1]
      have : ∀ j ∈ range n, tc (fun t : ℝ => t) (j + 1 + 1) * tc (fun t : ℝ => t ^ m) (n + 1 - (j + 1 + 1)) = 0 := by
        intro j _
        have : tc (fun t : ℝ => t) (j + 1 + 1) = 0 := by
          unfold tc
          rw [iteratedDeriv_succ']
          simp [iteratedDeriv_const]
        rw [this, zero_mul]
      rw [Finset.sum_eq_zero this, zero_mul, one_mul, zero_add, add_zero, ih]
      simp

theorem jet_poly (k : Nat) (a : ℝ) (b : Nat → ℝ) :
    Jet k (fun t => a + ∑ j ∈ range k, b j * t ^ (j + 1)) (hcons a b) := by
  have hsum : ∀ m, ContDiffAt ℝ ∞ (fun t : ℝ => ∑ j ∈ range m, b j * t ^ (j + 1)) 0 := fun m =>
    ContDiffAt.sum fun j _ => contDiffAt_const.mul (contDiffAt_id.pow _)
  have hm : ∀ m n, tc (fun t : ℝ => ∑ j ∈ range m, b j * t ^ (j + 1)) n = if 1 ≤ n ∧ n ≤ m then b (n - 1) else 0 := by
    intro m n
    induction m with
    | zero => simp only [Finset.range_zero, Finset.sum_empty]; rw [tc_const]; split_ifs <;> first | rfl | omega
    | succ m ih =>
      simp only [Finset.sum_range_succ]
      have hpw : ContDiffAt ℝ ∞ (fun t : ℝ => b m * t ^ (m + 1)) 0 := contDiffAt_const.mul (contDiffAt_id.pow _)
      have hpw' : ContDiffAt ℝ ∞ (fun t : ℝ => t ^ (m + 1)) 0 := contDiffAt_id.pow _
      rw [tc_add (hsum m) hpw, ih]
      have e : tc (fun t : ℝ => b m * t ^ (m + 1)) n = b m * (if n = m + 1 then 1 else 0) := by
        rw [← tc_pow, mul_comm, ← tc_mulc hpw']
        simp only [mul_comm]
      rw [e]
      by_cases h1 : n = m + 1
      · subst h1; simp
      · have : (1 ≤ n ∧ n ≤ m + 1) ↔ (1 ≤ n ∧ n ≤ m) := by omega
        simp [h1, this]
  refine ⟨contDiffAt_const.add (hsum k), fun n hn => ?_⟩
  rw [tc_add contDiffAt_const (hsum k), hm, tc_const]
  cases n with
  | zero => simp [hcons]
  | succ n => simp [hcons]; intro h; omega

theorem curve_zero {n : Nat} (k : Nat) (x0 : Fin n → ℝ) (X : Fin n → Nat → ℝ) : curve k x0 X 0 = x0 := by
  funext i; simp [curve]

theorem curve_cont {n : Nat} (k : Nat) (x0 : Fin n → ℝ) (X : Fin n → Nat → ℝ) :
    ContinuousAt (curve k x0 X) 0 := by
  refine continuousAt_pi.2 fun i => ?_
  exact (jet_poly k (x0 i) (X i)).smooth.continuousAt

theorem curve_jet {n : Nat} (k : Nat) (x0 : Fin n → ℝ) (X : Fin n → Nat → ℝ) (i : Nat) :
    Jet k (fun t => ext (curve k x0 X t) i) (hcons (ext x0 i) (extX X i)) := by
  by_cases hi : i < n
  · simp only [ext, extX, hi, dif_pos]
    exact jet_poly k (x0 ⟨i, hi⟩) (X ⟨i, hi⟩)
  · simp only [ext, extX, hi, dif_neg, not_false_eq_true]
    refine (Jet.const 0).coefs fun m hm => ?_
    cases m <;> simp [hcons]

variable {s s' : Rec ℝ} {stock : List (Nat × List ℝ)} {cfg : RCfg ℝ}

/-- Near a point on the recorded path the trace stays valid along the curve. -/
theorem recorded_along (hal : ∀ k L, cfg.alloc k L ∉ L) (p : Prog ℝ) (hs : s.Start stock)
    (hrec : p.record cfg s = some s') (T0 par : Nat → ℝ) (keep : Bool) {n : Nat} {b : Sm}
    (ξ : ℝ → Fin n → ℝ) (hξ : ContinuousAt ξ 0) {e0 : SE ℝ}
    (hpath : p.spec (ext (ξ 0)) par s.se = some (e0, p.path cfg s))
    (hsm : ∀ᶠ t in 𝓝 0, p.smooth b (ext (ξ t)) par s.se) (N : Nat) :
    ∀ᶠ t in 𝓝 0, (∃ e, p.spec (ext (ξ t)) par s.se = some (e, p.path cfg s)) ∧
      Along (smoothS b) ⟨ext (ξ t), par, keep⟩ (s'.tape N) (ZS.start T0) := by
  have hA := recorded_smooth hal p hs hrec T0 ⟨ext (ξ 0), par, keep⟩ hpath hsm.self_of_nhds N
  rcases recorded_forward hal p hs hrec T0 ⟨ext (ξ 0), par, keep⟩ N with ⟨e, z, g1, g2, g3, g4⟩ | ⟨g1, g2⟩
  · obtain ⟨Y, dY, h1, _⟩ := fos_derivative (x0 := ξ 0) par T0 keep ext (fun x i => rfl) g2
      (Along_mono (fun o T h => h.1) hA) (RefOk_of hA g2 _)
    filter_upwards [hξ.eventually h1, hsm] with t ht hs'
    rcases recorded_forward hal p hs hrec T0 ⟨ext (ξ t), par, keep⟩ N with ⟨e, z', k1, k2, k3, k4⟩ | ⟨k1, k2⟩
    · exact ⟨⟨e, k1⟩, recorded_smooth hal p hs hrec T0 ⟨ext (ξ t), par, keep⟩ k1 hs' N⟩
    · rw [ht] at k1; cases k1
  · exact absurd rfl (g2 _ _ hpath)

/-- The forward sweep of degree `k` along a curve. -/
theorem recorded_jets (hal : ∀ k L, cfg.alloc k L ∉ L) (p : Prog ℝ) (hs : s.Start stock)
    (hrec : p.record cfg s = some s') (T0 par : Nat → ℝ) {n k keep : Nat} (hkk : keep ≤ k + 1)
    (ξ : ℝ → Fin n → ℝ) (hξ : ContinuousAt ξ 0) (X : Nat → Nat → ℝ)
    (hj : ∀ i, Jet k (fun t => ext (ξ t) i) (hcons (ext (ξ 0) i) (X i))) {e0 : SE ℝ}
    (hpath : p.spec (ext (ξ 0)) par s.se = some (e0, p.path cfg s))
    (hsm : ∀ᶠ t in 𝓝 0, p.smooth .ho (ext (ξ t)) par s.se) (N : Nat) :
    ∃ S' H', (∀ᶠ t in 𝓝 0, zosRun ⟨ext (ξ t), par, decide (0 < keep)⟩ (s'.tape N) (ZS.start T0) = .ok (S' t)) ∧
      hosRun ⟨ext (ξ 0), X, par, k, keep⟩ (s'.tape N) (HS.start T0) = .ok H' ∧
      JetS ⟨ext (ξ 0), X, par, k, keep⟩ S' H' ∧
      (∀ j, (fun t => p.out (ext (ξ t)) par s.se j) =ᶠ[𝓝 0] fun t => (S' t).y[j]?.getD 0) ∧
      H'.y.length = e0.ys.length := by
  have hal' := recorded_along hal p hs hrec T0 par (decide (0 < keep)) ξ hξ hpath hsm N
  have h0 : JetS ⟨ext (ξ 0), X, par, k, keep⟩ (fun _ => ZS.start T0) (HS.start T0) := by
    refine ⟨fun l => (Jet.const (T0 l)).coefs fun m hm => ?_, fun t => rfl, ⟨[], fun t => rfl, .nil⟩, ⟨[], fun t => rfl, .nil⟩⟩
    cases m <;> simp [HS.row, HS.start]
  have hok : ∃ z, zosRun ⟨ext (ξ 0), par, decide (0 < keep)⟩ (s'.tape N) (ZS.start T0) = .ok z ∧ z.y = e0.ys := by
    rcases recorded_forward hal p hs hrec T0 ⟨ext (ξ 0), par, decide (0 < keep)⟩ N with ⟨e, z', k1, k2, k3, k4⟩ | ⟨k1, k2⟩
    · rw [hpath] at k1; cases k1; exact ⟨z', k2, k3⟩
    · exact absurd rfl (k2 _ _ hpath)
  obtain ⟨z, hz1, hz2⟩ := hok
  obtain ⟨S', H', f1, f2, f3⟩ := jet_run (c := ⟨ext (ξ 0), X, par, k, keep⟩) (zc := fun t => ⟨ext (ξ t), par, decide (0 < keep)⟩)
    hkk (fun t => rfl) (fun t => rfl) hj h0 (hal'.mono fun t h => h.2) ⟨z, hz1⟩
  refine ⟨S', H', f1, f2, f3, fun j => ?_, ?_⟩
  · filter_upwards [f1, hal'] with t t1 t2
    obtain ⟨⟨e, t3⟩, _⟩ := t2
    rcases recorded_forward hal p hs hrec T0 ⟨ext (ξ t), par, decide (0 < keep)⟩ N with ⟨e', z', k1, k2, k3, k4⟩ | ⟨k1, k2⟩
    · rw [t1] at k2; cases k2
      simp only [Prog.out, k1, k3]
    · rw [t1] at k1; cases k1
  · have e1 := f1.self_of_nhds
    rw [hz1] at e1
    cases e1
    obtain ⟨fy, g1, g2⟩ := f3.y
    rw [← hz2, g1 0, List.length_map, g2.length_eq]

theorem JetS.yj {c : HCfg ℝ} {S : ℝ → ZS ℝ} {H : HS ℝ} (h : JetS c S H) (j : Nat) (hj : j < H.y.length) :
    Jet c.k (fun t => (S t).y[j]?.getD 0) H.y[j] := by
  obtain ⟨fy, g1, g2⟩ := h.y
  have hl := g2.length_eq
  have := List.Forall₂.get g2 (i := j) (by omega) (by omega)
  refine this.congr (.of_forall fun t => ?_)
  have hj' : j < fy.length := by omega
  simp [g1, List.getElem?_eq_getElem hj']

end Verif.AD
