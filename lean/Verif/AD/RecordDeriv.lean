import Verif.AD.RecordFull

/-! Derivatives of recorded programs. -/
set_option linter.all false
namespace Verif.AD
open Elem Filter Topology

/-- A point of `ℝⁿ` as an input sequence. -/
def ext {n : Nat} (x : Fin n → ℝ) (i : Nat) : ℝ := if h : i < n then x ⟨i, h⟩ else 0

/-- The `j`-th output of a program run on plain numbers. -/
def Prog.out {K : Type} [Scalar K] (p : Prog K) (x par : Nat → K) (e0 : SE K) (j : Nat) : K :=
  match p.spec x par e0 with
  | some (e, _) => e.ys[j]?.getD 0
  | none => 0

variable {s s' : Rec ℝ} {stock : List (Nat × List ℝ)} {cfg : RCfg ℝ}

theorem recorded_derivative (hal : ∀ k L, cfg.alloc k L ∉ L) (p : Prog ℝ) (hs : s.Start stock)
    (hrec : p.record cfg s = some s') {b : Sm} (T0 par : Nat → ℝ) (keep : Bool) {n : Nat}
    (x0 : Fin n → ℝ) {e0 : SE ℝ}
    (hpath : p.spec (ext x0) par s.se = some (e0, p.path cfg s))
    (hsm : p.smooth b (ext x0) par s.se) (N : Nat) :
    ∃ D : Nat → (Fin n → ℝ) →L[ℝ] ℝ,
      (∀ j, HasFDerivAt (fun x => p.out (ext x) par s.se j) (D j) x0) ∧
      ∀ v : Fin n → ℝ, ∃ f, fosRun ⟨ext x0, par, keep⟩ (ext v) (s'.tape N) (FS.start T0) = .ok f ∧
        f.y = e0.ys ∧ f.dy.length = e0.ys.length ∧ ∀ j, f.dy[j]?.getD 0 = D j v := by
  have hA := recorded_smooth hal p hs hrec T0 ⟨ext x0, par, keep⟩ hpath hsm N
  rcases recorded_forward hal p hs hrec T0 ⟨ext x0, par, keep⟩ N with ⟨e, z, g1, g2, g3, g4⟩ | ⟨g1, g2⟩
  · rw [hpath] at g1
    cases g1
    obtain ⟨Y, dY, h1, h2, h3, h4, h5⟩ := fos_derivative (x0 := x0) par T0 keep ext (fun x i => rfl) g2
      (Along_mono (fun o T h => h.1) hA) (RefOk_of hA g2 _)
    choose D hD1 hD2 using h5
    refine ⟨D, fun j => ?_, fun v => ⟨dY v, h2 v, ?_, ?_, fun j => hD2 j v⟩⟩
    · refine (hD1 j).congr_of_eventuallyEq ?_
      filter_upwards [h1] with x hx
      rcases recorded_forward hal p hs hrec T0 ⟨ext x, par, keep⟩ N with
        ⟨e, z', k1, k2, k3, k4⟩ | ⟨k1, k2⟩
      · rw [hx] at k2
        cases k2
        simp only [Prog.out, k1, k3]
      · rw [hx] at k1; cases k1
    · have := fos_zos_run ⟨ext x0, par, keep⟩ (ext v) (s'.tape N) (s := FS.start T0) (z := ZS.start T0)
        ⟨rfl, rfl, rfl, rfl, le_refl _⟩
      rw [h2 v, g2] at this
      rw [this.y, g3]
    · have e1 := h1.self_of_nhds
      rw [g2] at e1
      cases e1
      rw [h4 v, ← h3 x0, g3]
  · exact absurd rfl (g2 _ _ hpath)

theorem dot_single {n : Nat} (A : Nat → ℝ) (i : Fin n) : dot n A (ext (Pi.single i 1)) = A i := by
  unfold dot
  rw [Finset.sum_eq_single i.1]
  · simp [ext, i.2]
  · intro b hb hne
    have hb' : b < n := Finset.mem_range.1 hb
    have : (⟨b, hb'⟩ : Fin n) ≠ i := fun h => hne (by rw [← h])
    simp [ext, hb', Pi.single_apply, this]
  · intro h; exact absurd (Finset.mem_range.2 i.2) h

/-- The reverse sweep after any forward sweep with keep. -/
theorem recorded_gradient (hal : ∀ k L, cfg.alloc k L ∉ L) (p : Prog ℝ) (hs : s.Start stock)
    (hrec : p.record cfg s = some s') (hd : p.disc ⟨Set.univ, ∅⟩) (T0 par : Nat → ℝ) {n : Nat}
    (x0 : Fin n → ℝ) {e0 : SE ℝ}
    (hpath : p.spec (ext x0) par s.se = some (e0, p.path cfg s))
    (hn : e0.ii = n) (hsm : p.smooth .rev (ext x0) par s.se) {N : Nat} (hN : 0 < N)
    (hNw : s'.hw ≤ N) (hT0 : ∀ l, N ≤ l → T0 l = 0) {z : ZS ℝ}
    (hz : zosRun ⟨ext x0, par, true⟩ (s'.tape N) (ZS.start T0) = .ok z) (u : Nat → ℝ) :
    ∃ D : Nat → (Fin n → ℝ) →L[ℝ] ℝ,
      (∀ j, HasFDerivAt (fun x => p.out (ext x) par s.se j) (D j) x0) ∧
      ∃ r, revRun u (s'.tape N) (RS.init n e0.ys.length z.stk) = .ok r ∧ r.stk = [] ∧
        ∀ i : Fin n, r.bar i = ∑ j ∈ Finset.range e0.ys.length, u j * D j (Pi.single i 1) := by
  obtain ⟨D, hD1, hD2⟩ := recorded_derivative hal p hs hrec T0 par true x0 hpath hsm N
  refine ⟨D, hD1, ?_⟩
  obtain ⟨body, hb1, hb2⟩ := recorded_wf hal p hs hd hrec hN hNw
  have hA : Along regular ⟨ext x0, par, true⟩ (fullTrace stock body N) (ZS.start T0) := by
    rw [← hb1]
    exact Along_mono (fun o T h => smoothS_regular h)
      (recorded_smooth hal p hs hrec T0 ⟨ext x0, par, true⟩ hpath hsm N)
  have hzz : z.ii = n ∧ z.y = e0.ys := by
    rcases recorded_forward hal p hs hrec T0 ⟨ext x0, par, true⟩ N with
      ⟨e, z', k1, k2, k3, k4⟩ | ⟨k1, k2⟩
    · rw [hz] at k2; cases k2
      rw [hpath] at k1; cases k1
      exact ⟨by rw [k4, hn], k3⟩
    · rw [hz] at k1; cases k1
  have key : ∀ v : Fin n → ℝ, ∃ r, revRun u (s'.tape N) (RS.init n e0.ys.length z.stk) = .ok r ∧
      r.stk = [] ∧ dot n r.bar (ext v) = ∑ j ∈ Finset.range e0.ys.length, u j * D j v := by
    intro v
    obtain ⟨f, f1, f2, f3, f4⟩ := hD2 v
    have hsame := fos_zos_run ⟨ext x0, par, true⟩ (ext v) (s'.tape N) (s := FS.start T0)
      (z := ZS.start T0) ⟨rfl, rfl, rfl, rfl, le_refl _⟩
    rw [f1, hz] at hsame
    have hcnt := fos_ii_le f1
    simp only [FS.start, Nat.zero_add, List.length_nil] at hcnt
    rw [hb1] at f1 hcnt
    obtain ⟨r, r1, r2, r3⟩ := full_reverse_from hb2 rfl u (ext v) T0 hT0 f1 hA
    rw [← hcnt.1, ← hcnt.2.1, f3, hsame.ii, hzz.1, hsame.stk] at r1
    rw [← hcnt.1, hsame.ii, hzz.1] at r3
    refine ⟨r, by rw [hb1]; exact r1, r2, ?_⟩
    rw [r3, wsum, f3]
    exact Finset.sum_congr rfl fun j _ => by rw [f4 j]
  obtain ⟨r, r1, r2, _⟩ := key 0
  refine ⟨r, r1, r2, fun i => ?_⟩
  obtain ⟨r', q1, q2, q3⟩ := key (Pi.single i 1)
  rw [r1] at q1
  cases q1
  rw [← dot_single r.bar i, q3]

end Verif.AD
