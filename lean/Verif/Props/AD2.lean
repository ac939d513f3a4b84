import Verif.Props.AD
import Verif.AD.ReverseVec
import Verif.AD.RecordRc

/-!
Property C14 (vector reverse mode); C10 at the recording point.  Reading guide: see `Props/AD.lean`.
-/
set_option linter.all false
namespace Verif.Props.AD
open Verif.AD Elem

section general
variable {K : Type} [Scalar K]

/-- C14.  For every trace, value stack, number `q` of weight vectors and weight matrix `U`:
`fov_reverse` runs into an empty value stack exactly when `fos_reverse` does, and otherwise row
`l` of its result is the result of `fos_reverse` with row `l` of `U`. -/
theorem C14_fov_reverse_rows (q : Nat) (U : Nat → Nat → K) (ops : List (Base K)) (n m : Nat)
    (stk : List K) (l : Nat) (hl : l < q) :
    (∃ e, fovRevRun q U ops (VRS.init n m stk) = .error e ∧
      revRun (U l) ops (RS.init n m stk) = .error e) ∨
    (∃ w r, fovRevRun q U ops (VRS.init n m stk) = .ok w ∧
      revRun (U l) ops (RS.init n m stk) = .ok r ∧ (∀ i, w.bar l i = r.bar i) ∧ w.stk = r.stk) := by
  have h := row_run hl U ops (VRS.init n m stk)
  rw [show (VRS.init n m stk).row l = RS.init n m stk from rfl] at h
  rw [← h]
  cases fovRevRun q U ops (VRS.init n m stk) with
  | error e => exact .inl ⟨e, rfl, rfl⟩
  | ok w => exact .inr ⟨w, _, rfl, rfl, fun i => rfl, rfl⟩

end general

section real
variable {cfg : RCfg ℝ} {stock : List (Nat × List ℝ)} {s s' : Rec ℝ} {p : Prog ℝ} {N : Nat}

/-- C14 with C13 (same restrictions as `C13_fos_reverse_partial`): `fov_reverse` returns the
matrix product `U F'(x0)`. -/
theorem C14_fov_reverse_matrix (h : Traced cfg stock s p s' N) (hd : p.disc ⟨Set.univ, ∅⟩)
    (par : Nat → ℝ) {n : Nat} (x0 : Fin n → ℝ) {e0 : SE ℝ}
    (hspec : p.spec (ext x0) par s.se = some (e0, p.path cfg s)) (hn : e0.ii = n)
    (hsm : p.smooth .rev (ext x0) par s.se) (q : Nat) (hq : 0 < q) (U : Nat → Nat → ℝ) :
    ∃ z, zosRun ⟨ext x0, par, true⟩ (s'.tape N) ZS.init = .ok z ∧
    ∃ D : Nat → (Fin n → ℝ) →L[ℝ] ℝ,
      (∀ j, HasFDerivAt (fun x => p.out (ext x) par s.se j) (D j) x0) ∧
      ∃ w, fovRevRun q U (s'.tape N) (VRS.init n e0.ys.length z.stk) = .ok w ∧ w.stk = [] ∧
        ∀ l < q, ∀ i : Fin n,
          w.bar l i = ∑ j ∈ Finset.range e0.ys.length, U l j * D j (Pi.single i 1) := by
  obtain ⟨z, hz, D, hD, r0, hr0, hst0, _⟩ := C13_fos_reverse_partial h hd par x0 hspec hn hsm (U 0)
  refine ⟨z, hz, D, hD, ?_⟩
  rcases C14_fov_reverse_rows q U (s'.tape N) n e0.ys.length z.stk 0 hq with ⟨e, _, h2⟩ | ⟨w, r, h1, h2, h3, h4⟩
  · rw [hr0] at h2; cases h2
  · rw [hr0] at h2; cases h2
    refine ⟨w, h1, by rw [h4, hst0], fun l hl i => ?_⟩
    obtain ⟨z', hz', D', hD', r', hr', _, hb'⟩ := C13_fos_reverse_partial h hd par x0 hspec hn hsm (U l)
    rw [hz] at hz'; cases hz'
    rcases C14_fov_reverse_rows q U (s'.tape N) n e0.ys.length z.stk l hl with ⟨e, h5, _⟩ | ⟨w', r'', h5, h6, h7, _⟩
    · rw [h1] at h5; cases h5
    · rw [h1] at h5; cases h5
      rw [hr'] at h6; cases h6
      rw [h7, hb']
      refine Finset.sum_congr rfl fun j _ => ?_
      rw [(hD' j).unique (hD j)]

/-- Two weight vectors on `y = x0 * x1` at `(3, 5)`: both rows are computed. -/
example : ∃ z w, zosRun (⟨fun i => if i = 0 then 3 else 5, fun _ => 0, true⟩ : Cfg ℝ)
      [.assignInd 0, .assignInd 1, .multAA 0 1 2, .assignDep 2, .deathNot 0 2] ZS.init = .ok z ∧
    fovRevRun 2 (fun l _ => if l = 0 then 1 else 10)
      [.assignInd 0, .assignInd 1, .multAA 0 1 2, .assignDep 2, .deathNot 0 2] (VRS.init 2 1 z.stk) = .ok w ∧
    w.bar 0 0 = 5 ∧ w.bar 0 1 = 3 ∧ w.bar 1 0 = 50 ∧ w.bar 1 1 = 30 := by
  simp [zosRun, zosStep, ZS.init, ZS.set, ZS.push, fovRevRun, fovRevStep, VRS.init,
    VRS.pop, VRS.setA, VRS.addA, VRS.setB, VRS.up, List.range_succ, upd_apply, bind, Except.bind, pure, Except.pure]
  norm_num
end real
section real
variable {cfg : RCfg ℝ} {stock : List (Nat × List ℝ)} {s s' : Rec ℝ} {p : Prog ℝ} {N : Nat}

/-- C10 at the recording point (programs without the defective `fmin`).  Evaluated at
the point where it was recorded, a trace never reports a branch switch (negative code) and never
reports that fabs, min, ceil, floor or condassign takes another branch than when recorded (code
2): the code is 0, 1 or 3. -/
theorem C10_recording_point (h : Traced cfg stock s p s' N) (hf : p.noFminLL) (keep : Bool) :
    retCode (zosRun ⟨cfg.x, cfg.par, keep⟩ (s'.tape N) ZS.init) ∈ ([0, 1, 3] : List Int) := by
  have hfabs : ∀ v : ℝ, fabs v = v ↔ 0 ≤ v := fun v => abs_eq_self
  obtain ⟨z0, h1, h2, h3⟩ := h.start.sweep (fun _ => 0) ⟨cfg.x, cfg.par, keep⟩
  have hr := rc_run (z := ZS.start fun _ => (0 : ℝ)) h1 (by simp [ZS.start]) (by simp [ZS.start])
  have hr0 : RcOk z0.rc := by
    have key : ∀ (st : List (Nat × List ℝ)) (z z' : ZS ℝ), RcOk z.rc →
        zosRun ⟨cfg.x, cfg.par, keep⟩ (st.map fun q => .takeStock q.1 q.2) z = .ok z' → RcOk z'.rc := by
      intro st
      induction st with
      | nil => intro z z' hz hh; cases hh; exact hz
      | cons q st ih =>
        intro z z' hz hh
        simp only [List.map_cons, zosRun] at hh
        split at hh
        · cases hh
        · rename_i z1 hz1
          exact ih z1 z' (hz.step hz1 (by simp [Base.degree])) hh
    have htr : zosRun ⟨cfg.x, cfg.par, keep⟩ s.tr.reverse (ZS.start fun _ => (0 : ℝ)) = .ok z0 := h1
    rw [h.start.tr, List.reverse_reverse] at htr
    exact key stock _ _ ⟨by simp [ZS.start], by simp [ZS.start], by simp [ZS.start]⟩ htr
  obtain ⟨z, g1, g2⟩ := Prog.rc hfabs keep h.alloc p hf h.start.ok h1 h2
    ⟨fun a => rfl, by rw [h.start.ii]; rfl⟩ hr0 h.recorded
  obtain ⟨z', k1, k2, k3, k4, k5⟩ := Rec.tape_run (N := N) g1
  have : zosRun ⟨cfg.x, cfg.par, keep⟩ (s'.tape N) ZS.init = .ok z' := k1
  rw [this]
  obtain ⟨b1, b2, b3⟩ := g2
  simp only [retCode, k5, List.mem_cons, List.not_mem_nil, or_false]
  omega

/-- The hypotheses hold for the demo program. -/
example : ∃ s', Traced demoCfg [] demoStart demo s' (s'.hw + 1) ∧ demo.noFminLL := by
  obtain ⟨e, h1, h2, h3⟩ := demo_spec demoCfg.x demoCfg.par (by simp only [demoCfg]; positivity)
  obtain ⟨s', h4, h5⟩ := traced_exists (stock := []) demo_alloc demo_start
    (by simp [demo, Prog.noFminLL, Stmt.notFminLL]) h1
  exact ⟨s', h4, by simp [demo, Prog.noFminLL, Stmt.notFminLL]⟩

end real

end Verif.Props.AD
