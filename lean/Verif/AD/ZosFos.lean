import Verif.AD.Forward
import Mathlib.Tactic.SplitIfs

/-! The value part of `fos_forward` is `zos_forward`. -/
set_option linter.all false
namespace Verif.AD
open Elem

variable {K : Type} [Scalar K]

/-- Two outcomes agree: both stop with the same code, or both continue in related
states. -/
def ExRel {ε α β : Type} (R : α → β → Prop) : Except ε α → Except ε β → Prop
  | .ok a, .ok b => R a b
  | .error e, .error e' => e = e'
  | _, _ => False

theorem mindec_le_left (a b : Int) : mindec a b ≤ a := by unfold mindec; split <;> omega

theorem mindec_mono {a a' b : Int} (h : a ≤ a') : mindec a b ≤ mindec a' b := by
  unfold mindec; split <;> split <;> omega

/-- The value part of a fos state, with a return code that is at most the zos one. -/
structure SameZ (s : FS K) (z : ZS K) : Prop where
  T : s.T = z.T
  stk : s.stk = z.stk
  ii : s.ii = z.ii
  y : s.y = z.y
  rc : s.rc ≤ z.rc

theorem SameZ.push {c : Cfg K} {r : Nat} {s : FS K} {z : ZS K} (h : SameZ s z) :
    SameZ (s.push c r) (z.push c r) := by
  obtain ⟨hT, hs, hi, hy, hr⟩ := h
  constructor <;> simp [FS.push, ZS.push, *]

theorem SameZ.set {r : Nat} {v w : K} {s : FS K} {z : ZS K} (h : SameZ s z) (hv : v = w) :
    SameZ (s.set r v) (z.set r w) := by
  obtain ⟨hT, hs, hi, hy, hr⟩ := h
  constructor <;> simp [FS.set, ZS.set, *]

theorem SameZ.setD {r : Nat} {v : K} {s : FS K} {z : ZS K} (h : SameZ s z) :
    SameZ (s.setD r v) z := by
  obtain ⟨hT, hs, hi, hy, hr⟩ := h
  constructor <;> simp [FS.setD, *]

theorem SameZ.dec {b b' : Bool} {n : Int} {s : FS K} {z : ZS K} (h : SameZ s z) (hb : b = b') :
    SameZ (s.dec b n) (z.dec b' n) := by
  obtain ⟨hT, hs, hi, hy, hr⟩ := h
  subst hb
  constructor <;> simp [FS.dec, ZS.dec, *]
  split
  · exact mindec_mono hr
  · exact hr

theorem SameZ.decL {b : Bool} {n : Int} {s : FS K} {z : ZS K} (h : SameZ s z) :
    SameZ (s.dec b n) z := by
  obtain ⟨hT, hs, hi, hy, hr⟩ := h
  constructor <;> simp [FS.dec, *]
  split
  · exact le_trans (mindec_le_left _ _) hr
  · exact hr

theorem foldl_rel {α β γ : Type} {R : α → β → Prop} {f : α → γ → α} {g : β → γ → β}
    (h : ∀ a b x, R a b → R (f a x) (g b x)) :
    ∀ (l : List γ) (a : α) (b : β), R a b → R (l.foldl f a) (l.foldl g b)
  | [], _, _, hab => hab
  | x :: l, a, b, hab => foldl_rel h l _ _ (h a b x hab)

theorem fos_zos_step (c : Cfg K) (v : Nat → K) (o : Base K) {s : FS K} {z : ZS K}
    (h : SameZ s z) : ExRel SameZ (fosStep c v o s) (zosStep c o z) := by
  have hT := h.T
  cases o
  case cmp q a =>
    obtain ⟨hT, hs, hi, hy, hr⟩ := h
    simp only [fosStep, zosStep, hT]
    split
    · cases q <;> simp only [ExRel] <;> constructor <;> simp [*]
      all_goals split <;> simp [*]
    · simp [ExRel]
  case assignInd r =>
    obtain ⟨hT, hs, hi, hy, hr⟩ := h
    simp only [fosStep, zosStep, ExRel]
    constructor <;> simp [FS.set, FS.setD, FS.push, ZS.set, ZS.push, *]
  case assignDep r =>
    obtain ⟨hT, hs, hi, hy, hr⟩ := h
    simp only [fosStep, zosStep, ExRel]
    constructor <;> simp [*]
  case genQuad =>
    simp only [fosStep, zosStep, hT]
    split
    · simp [ExRel]
    · exact (h.push.set rfl).setD
  case minOp a b r k =>
    have h := h.push (c := c) (r := r)
    have hT := h.T
    simp only [fosStep, zosStep, ExRel]
    refine SameZ.set (SameZ.setD ?_) ?_
    · simp only [hT]; split_ifs
      · exact h.dec rfl
      · exact h.dec rfl
      · exact h.dec rfl
    · simp only [hT, FS.dec, ZS.dec, FS.setD]; split_ifs <;> simp_all
  case absVal a r k =>
    have h := h.push (c := c) (r := r)
    have hT := h.T
    simp only [fosStep, zosStep, ExRel]
    refine SameZ.set (SameZ.setD (SameZ.decL ?_)) ?_
    · simp only [hT]; split_ifs
      · exact h.dec rfl
      · exact h.dec rfl
      · exact h
    · simp only [hT, FS.dec, ZS.dec, FS.setD]; split_ifs <;> simp_all
  case condAssign a a1 a2 r k =>
    have h := h.push (c := c) (r := r)
    have hT := h.T
    simp only [fosStep, zosStep]
    by_cases hc : (s.push c r).T a > 0
    · have hc' := hc; rw [hT] at hc'
      simp only [hc, hc', if_true, FS.setD]
      exact (h.setD.dec rfl).set (by simp [FS.dec, ZS.dec, FS.setD, hT])
    · have hc' := hc; rw [hT] at hc'
      simp only [hc, hc', if_false, FS.setD]
      exact ((h.setD.dec rfl).dec (by simp [FS.dec, ZS.dec, FS.setD, hT])).set
        (by simp [FS.dec, ZS.dec, FS.setD, hT])
  case condEqAssign a a1 a2 r k =>
    have h := h.push (c := c) (r := r)
    have hT := h.T
    simp only [fosStep, zosStep]
    by_cases hc : (s.push c r).T a ≥ 0
    · have hc' := hc; rw [hT] at hc'
      simp only [hc, hc', if_true, FS.setD]
      exact (h.setD.dec rfl).set (by simp [FS.dec, ZS.dec, FS.setD, hT])
    · have hc' := hc; rw [hT] at hc'
      simp only [hc, hc', if_false, FS.setD]
      exact (h.setD.dec rfl).set (by simp [FS.dec, ZS.dec, FS.setD, hT])
  case condAssignS a a1 r k =>
    have h := h.push (c := c) (r := r)
    have hT := h.T
    simp only [fosStep, zosStep]
    by_cases hc : (s.push c r).T a > 0
    · have hc' := hc; rw [hT] at hc'
      simp only [hc, hc', if_true, FS.setD]
      exact (h.setD.dec rfl).set (by simp [FS.dec, ZS.dec, FS.setD, hT])
    · have hc' := hc; rw [hT] at hc'
      simp only [hc, hc', if_false, FS.setD]
      exact h.dec (by simp [hT])
  case condEqAssignS a a1 r k =>
    have h := h.push (c := c) (r := r)
    have hT := h.T
    simp only [fosStep, zosStep]
    by_cases hc : (s.push c r).T a ≥ 0
    · have hc' := hc; rw [hT] at hc'
      simp only [hc, hc', if_true, FS.setD]
      exact (h.setD.dec rfl).set (by simp [FS.dec, ZS.dec, FS.setD, hT])
    · have hc' := hc; rw [hT] at hc'
      simp only [hc, hc', if_false, FS.setD]
      exact h
  case vecCopy a n r =>
    simp only [fosStep, zosStep, ExRel]
    refine foldl_rel (R := SameZ) ?_ _ _ _ h
    intro s z q h
    exact (h.push.set (by rw [h.push.T])).setD
  case vecDot a b n r =>
    simp only [fosStep, zosStep, ExRel]
    refine foldl_rel (R := SameZ) ?_ _ _ _ ((h.push.set rfl).setD)
    intro s z q h
    exact h.setD.set (by simp [FS.setD, h.T])
  case vecAxpy a a1 a2 n r =>
    simp only [fosStep, zosStep, ExRel]
    refine foldl_rel (R := SameZ) ?_ _ _ _ h
    intro s z q h
    exact h.push.setD.set (by simp [FS.setD, h.push.T])
  case takeStock r vs =>
    simp only [fosStep, zosStep, ExRel]
    refine (foldl_rel (R := fun (a : Nat × FS K) (b : Nat × ZS K) => a.1 = b.1 ∧ SameZ a.2 b.2)
      ?_ _ _ _ ⟨rfl, h⟩).2
    rintro ⟨i, s⟩ ⟨j, z⟩ x ⟨rfl, h⟩
    exact ⟨rfl, (h.set rfl).setD⟩
  case deathNot a b =>
    simp only [fosStep, zosStep, ExRel]
    refine foldl_rel (R := SameZ) ?_ _ _ _ h
    intro s z q h
    exact h.push
  case powOp a r k =>
    simp only [fosStep, zosStep]
    split_ifs <;> exact ((h.push.set (by rw [h.push.T])).setD)
  case ceilOp a r k =>
    exact ((h.push.set (by rw [h.push.T])).dec (by simp [FS.set, ZS.set, FS.push, ZS.push, hT])).setD
  case floorOp a r k =>
    exact ((h.push.set (by rw [h.push.T])).dec (by simp [FS.set, ZS.set, FS.push, ZS.push, hT])).setD
  case sinOp a b r =>
    exact ((h.push.push.set (by rw [h.push.push.T])).set (by simp [FS.set, ZS.set, FS.push, ZS.push, hT])).setD.setD
  case cosOp a b r =>
    exact ((h.push.push.set (by rw [h.push.push.T])).set (by simp [FS.set, ZS.set, FS.push, ZS.push, hT])).setD.setD
  case eqPlusD => exact h.push.set (by rw [h.push.T])
  case eqMinD => exact h.push.set (by rw [h.push.T])
  case incrA => exact h.push.set (by rw [h.push.T])
  case decrA => exact h.push.set (by rw [h.push.T])
  case setRef => exact h.push.set rfl
  case eqMultA => exact h.push.setD.set (by simp [FS.setD, h.push.T])
  case multAA => exact h.push.setD.set (by simp [FS.setD, h.push.T])
  case logOp => exact h.push.setD.set (by simp [FS.setD, h.push.T])
  case eqPlusProd => exact h.setD.set (by simp [FS.setD, h.T])
  case eqMinProd => exact h.setD.set (by simp [FS.setD, h.T])
  all_goals first
    | exact (h.push.set rfl).setD
    | exact (h.push.set (by rw [h.push.T])).setD

theorem fos_zos_run (c : Cfg K) (v : Nat → K) (ops : List (Base K)) {s : FS K} {z : ZS K}
    (h : SameZ s z) : ExRel SameZ (fosRun c v ops s) (zosRun c ops z) := by
  induction ops generalizing s z with
  | nil => exact h
  | cons o os ih =>
    have hs := fos_zos_step c v o h
    simp only [fosRun, zosRun]
    cases h1 : fosStep c v o s <;> cases h2 : zosStep c o z <;> simp only [h1, h2, ExRel] at hs ⊢
    · exact hs
    · exact ih hs

end Verif.AD
