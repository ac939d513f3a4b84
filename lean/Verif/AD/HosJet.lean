import Verif.AD.HosLoops
import Verif.AD.Jet
import Verif.AD.RecordSmooth

/-! `hos_forward` computes the Taylor coefficients of what `zos_forward` computes along the curve. -/
set_option linter.all false
namespace Verif.AD
open Elem Filter Topology ContDiff Finset

/-- A value and its coefficients as one row. -/
def hcons (v : ℝ) (W : Nat → ℝ) : Nat → ℝ
  | 0 => v
  | n + 1 => W n

/-- The family `S t` of value states has the coefficients `H`. -/
structure JetS (c : HCfg ℝ) (S : ℝ → ZS ℝ) (H : HS ℝ) : Prop where
  jet : ∀ l, Jet c.k (fun t => (S t).T l) (H.row l)
  ii : ∀ t, (S t).ii = H.ii
  y : ∃ fy : List (ℝ → ℝ), (∀ t, (S t).y = fy.map (fun f => f t)) ∧ List.Forall₂ (Jet c.k) fy H.y
  stk : ∃ fs : List (ℝ → ℝ), (∀ t, (S t).stk = fs.map (fun f => f t)) ∧
    List.Forall₂ (Jet (c.keep - 1)) fs H.stk

variable {c : HCfg ℝ} {S S' : ℝ → ZS ℝ} {H H' : HS ℝ}

theorem JetS.same (h : JetS c S H)
    (hS : ∀ t, (S' t).T = (S t).T ∧ (S' t).ii = (S t).ii ∧ (S' t).y = (S t).y ∧ (S' t).stk = (S t).stk)
    (hH : H'.T = H.T ∧ H'.D = H.D ∧ H'.ii = H.ii ∧ H'.y = H.y ∧ H'.stk = H.stk) : JetS c S' H' := by
  obtain ⟨h1, h2, ⟨fy, h3, h4⟩, fs, h5, h6⟩ := h
  refine ⟨fun l => ?_, fun t => by rw [(hS t).2.1, hH.2.2.1]; exact h2 t,
    ⟨fy, fun t => by rw [(hS t).2.2.1]; exact h3 t, by rw [hH.2.2.2.1]; exact h4⟩,
    ⟨fs, fun t => by rw [(hS t).2.2.2]; exact h5 t, by rw [hH.2.2.2.2]; exact h6⟩⟩
  have e : H'.row l = H.row l := by funext n; cases n <;> simp [HS.row, hH.1, hH.2.1]
  rw [e]; simp only [(hS _).1]; exact h1 l

theorem JetS.push (h : JetS c S H) (hkk : c.keep ≤ c.k + 1) {zc : ℝ → Cfg ℝ}
    (hk : ∀ t, (zc t).keep = decide (0 < c.keep)) (r : Nat) :
    JetS c (fun t => (S t).push (zc t) r) (H.push c r) := by
  obtain ⟨h1, h2, h3, fs, h5, h6⟩ := h
  refine ⟨h1, h2, h3, ?_⟩
  by_cases h0 : 0 < c.keep
  · refine ⟨(fun t => (S t).T r) :: fs, fun t => by simp [ZS.push, hk, h0, h5], ?_⟩
    simp only [HS.push, if_pos h0]
    refine .cons ?_ h6
    refine ((h1 r).mono (by omega)).coefs fun n hn => ?_
    rw [if_pos (by omega)]
  · refine ⟨fs, fun t => by simp [ZS.push, hk, h0, h5], ?_⟩
    simp only [HS.push, if_neg h0]
    exact h6

theorem JetS.asg (h : JetS c S H) {r : Nat} {val : ℝ → ℝ} (hv : ContDiffAt ℝ ∞ val 0)
    (hS : ∀ t, (S' t).T = upd (S t).T r (val t) ∧ (S' t).ii = (S t).ii ∧ (S' t).y = (S t).y ∧ (S' t).stk = (S t).stk)
    (hT : H'.T = upd H.T r (val 0)) (hD : H'.D = ovC H.D r c.k fun i => tc val (i + 1))
    (hH : H'.ii = H.ii ∧ H'.y = H.y ∧ H'.stk = H.stk) : JetS c S' H' := by
  obtain ⟨h1, h2, ⟨fy, h3, h4⟩, fs, h5, h6⟩ := h
  refine ⟨fun l => ?_, fun t => by rw [(hS t).2.1, hH.1]; exact h2 t,
    ⟨fy, fun t => by rw [(hS t).2.2.1]; exact h3 t, by rw [hH.2.1]; exact h4⟩,
    ⟨fs, fun t => by rw [(hS t).2.2.2]; exact h5 t, by rw [hH.2.2]; exact h6⟩⟩
  simp only [(hS _).1, upd_apply]
  split_ifs with hl
  · subst hl
    refine ⟨hv, fun n hn => ?_⟩
    cases n with
    | zero => simp [HS.row, hT]
    | succ n => simp only [HS.row, hD]; rw [ovC_lt _ _ _ _ (by omega)]
  · refine (h1 l).coefs fun n hn => ?_
    cases n with
    | zero => simp [HS.row, hT, upd_ne _ _ hl]
    | succ n => simp only [HS.row, hD]; rw [ovC_ne _ _ _ _ hl]

theorem JetS.D (h : JetS c S H) (l : Nat) {i : Nat} (hi : i < c.k) :
    H.D l i = tc (fun t => (S t).T l) (i + 1) := ((h.jet l).coef (i + 1) hi).symm

theorem JetS.T (h : JetS c S H) (l : Nat) : H.T l = (S 0).T l := (h.jet l).zero.symm

theorem JetS.sm (h : JetS c S H) (l : Nat) : ContDiffAt ℝ ∞ (fun t => (S t).T l) 0 := (h.jet l).smooth

end Verif.AD
