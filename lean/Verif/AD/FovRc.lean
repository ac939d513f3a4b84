import Verif.AD.ForwardVec
import Mathlib.Tactic.SplitIfs
/-!
The code of `fov_forward` is never negative when the sweep reaches the end.
-/
set_option linter.all false
namespace Verif.AD
open Elem
variable {K : Type} [Scalar K]

theorem VS.foldl_rc {α : Type} (L : List α) (f : VS K → α → VS K) (hf : ∀ s a, 0 ≤ s.rc → 0 ≤ (f s a).rc) :
    ∀ s : VS K, 0 ≤ s.rc → 0 ≤ (L.foldl f s).rc := by
  induction L with
  | nil => intro s h; exact h
  | cons a L ih => intro s h; exact ih _ (hf s a h)

theorem VS.up_rc (p : Nat) (f : Nat → VS K → VS K) (hf : ∀ l s, 0 ≤ s.rc → 0 ≤ (f l s).rc) {s : VS K} (h : 0 ≤ s.rc) :
    0 ≤ (s.up p f).rc := VS.foldl_rc _ _ (fun s l h => hf l s h) s h
theorem VS.down_rc (p : Nat) (f : Nat → VS K → VS K) (hf : ∀ l s, 0 ≤ s.rc → 0 ≤ (f l s).rc) {s : VS K} (h : 0 ≤ s.rc) :
    0 ≤ (s.down p f).rc := VS.foldl_rc _ _ (fun s l h => hf l s h) s h
theorem VS.dec_rc (b : Bool) (n : Int) (hn : 0 ≤ n) {s : VS K} (h : 0 ≤ s.rc) : 0 ≤ (s.dec b n).rc := by
  simp only [VS.dec, mindec]; split_ifs <;> omega

theorem VS.set_rc (r : Nat) (v : K) {s : VS K} (h : 0 ≤ s.rc) : 0 ≤ (s.set r v).rc := h
theorem VS.setC_rc (r l : Nat) (v : K) {s : VS K} (h : 0 ≤ s.rc) : 0 ≤ (s.setC r l v).rc := h

macro "rcs" : tactic => `(tactic| repeat' first
  | assumption
  | intro _
  | (refine VS.set_rc _ _ ?_)
  | (refine VS.setC_rc _ _ _ ?_)
  | (refine VS.up_rc _ _ ?_ ?_)
  | (refine VS.down_rc _ _ ?_ ?_)
  | (refine VS.dec_rc _ _ (by decide) ?_)
  | (refine VS.foldl_rc _ _ ?_ _ ?_)
  | split)

theorem fov_rc_step {c : Cfg K} {p : Nat} {V : Nat → Nat → K} {o : Base K} {s s' : VS K}
    (h : fovStep c p V o s = .ok s') (h0 : 0 ≤ s.rc) : 0 ≤ s'.rc := by
  cases o <;> simp only [fovStep] at h
  case cmp q a => cases q <;> simp only at h <;> split_ifs at h <;> cases h <;> simp_all
  case logOp a r =>
    cases h
    have : ∀ (L : List Nat) (ps : K × VS K), 0 ≤ ps.2.rc → 0 ≤ (L.foldl (fun (ps : K × VS K) l =>
      (if ps.2.T a = 0 ∧ ps.2.dT a l < 0 then nan else ps.1, ps.2.setC r l (ps.2.dT a l * (if ps.2.T a = 0 ∧ ps.2.dT a l < 0 then nan else ps.1)))) ps).2.rc := by
      intro L
      induction L with
      | nil => intro ps h; exact h
      | cons l L ih => intro ps h; exact ih _ h
    exact this _ _ h0
  case takeStock r vs =>
    cases h
    have : ∀ (L : List K) (ps : Nat × VS K), 0 ≤ ps.2.rc → 0 ≤ (L.foldl (fun (ps : Nat × VS K) k =>
      (ps.1 + 1, (ps.2.set ps.1 k).up p fun l s => s.setC ps.1 l 0)) ps).2.rc := by
      intro L
      induction L with
      | nil => intro ps h; exact h
      | cons l L ih =>
        intro ps h
        refine ih _ ?_
        show 0 ≤ ((ps.2.set ps.1 l).up p fun l s => s.setC ps.1 l 0).rc
        rcs
    exact this _ _ h0
  case assignInd r =>
    cases h
    show 0 ≤ (((s.set r (c.x s.ii)).up p fun l s => s.setC r l (V s.ii l))).rc
    rcs
  all_goals (repeat' split at h) <;> cases h <;> rcs

theorem fov_rc {c : Cfg K} {p : Nat} {V : Nat → Nat → K} : ∀ (ops : List (Base K)) {s s' : VS K},
    fovRun c p V ops s = .ok s' → 0 ≤ s.rc → 0 ≤ s'.rc := by
  intro ops
  induction ops with
  | nil => intro s s' h h0; cases h; exact h0
  | cons o os ih =>
    intro s s' h h0
    simp only [fovRun] at h
    split at h
    · cases h
    · rename_i s1 h1
      exact ih h (fov_rc_step h1 h0)

end Verif.AD
