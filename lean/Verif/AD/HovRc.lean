import Verif.AD.HigherVec
import Mathlib.Tactic.SplitIfs
/-!
The code of `hov_forward`/`hov_wk_forward` is never negative when the sweep reaches the end.
-/
set_option linter.all false
namespace Verif.AD
open Elem
variable {K : Type} [Scalar K]

theorem forUp_pred {α : Type} (P : α → Prop) {m : Nat} {f : Nat → α → α} (hf : ∀ i s, P s → P (f i s)) {s : α} (h : P s) :
    P (forUp m f s) := by
  unfold forUp
  generalize List.range m = L
  induction L generalizing s with
  | nil => exact h
  | cons a L ih => exact ih (hf a s h)

theorem forDown_pred {α : Type} (P : α → Prop) {m : Nat} {f : Nat → α → α} (hf : ∀ i s, P s → P (f i s)) {s : α} (h : P s) :
    P (forDown m f s) := by
  unfold forDown
  generalize List.range m = L
  induction L generalizing s with
  | nil => exact h
  | cons a L ih => exact ih (hf (m - 1 - a) s h)

/-- The code is not negative. -/
def HS.nn (s : HS K) : Prop := 0 ≤ s.rc
/-- The code is not negative. -/
def HVS.nn (s : HVS K) : Prop := 0 ≤ s.rc

theorem HS.nn_setC (r i : Nat) (v : K) {s : HS K} (h : s.nn) : (s.setC r i v).nn := h
theorem HS.nn_setZ (i : Nat) (v : K) {s : HS K} (h : s.nn) : (s.setZ i v).nn := h
theorem HS.nn_dec (b : Bool) (n : Int) (hn : 0 ≤ n) {s : HS K} (h : s.nn) : (s.dec b n).nn := by
  unfold HS.nn at *; simp only [HS.dec, mindec]; split_ifs <;> omega
theorem HS.nn_up {m : Nat} {f : Nat → HS K → HS K} (hf : ∀ i s, s.nn → (f i s).nn) {s : HS K} (h : s.nn) : (forUp m f s).nn :=
  forUp_pred HS.nn hf h
theorem HS.nn_down {m : Nat} {f : Nat → HS K → HS K} (hf : ∀ i s, s.nn → (f i s).nn) {s : HS K} (h : s.nn) : (forDown m f s).nn :=
  forDown_pred HS.nn hf h
theorem HS.nn_upP {m : Nat} {f : Nat → HS K × K → HS K × K} (hf : ∀ i (s : HS K × K), s.1.nn → (f i s).1.nn) {s : HS K × K} (h : s.1.nn) :
    (forUp m f s).1.nn := forUp_pred (fun s : HS K × K => s.1.nn) hf h

macro "nns" : tactic => `(tactic| repeat' first
  | assumption
  | intro _
  | (refine HS.nn_setC _ _ _ ?_)
  | (refine HS.nn_setZ _ _ ?_)
  | (refine HS.nn_dec _ _ (by decide) ?_)
  | (refine HS.nn_up ?_ ?_)
  | (refine HS.nn_down ?_ ?_)
  | (refine HS.nn_upP ?_ ?_)
  | split)

theorem nn_copyRow (k a r : Nat) {s : HS K} (h : s.nn) : (copyRow k a r s).nn := by unfold copyRow; nns
theorem nn_fillRow (k r : Nat) (v : K) {s : HS K} (h : s.nn) : (fillRow k r v s).nn := by unfold fillRow; nns
theorem nn_prodBody (k a b r : Nat) (i) {s : HS K} (h : s.nn) : (prodBody k a b r i s).nn := by unfold prodBody; nns
theorem nn_prodBodySub (k a b r : Nat) (i) {s : HS K} (h : s.nn) : (prodBodySub k a b r i s).nn := by unfold prodBodySub; nns
theorem nn_divBody (k b r : Nat) (d : K) (i) {s : HS K} (h : s.nn) : (divBody k b r d i s).nn := by unfold divBody; nns
theorem nn_expBody (k a r : Nat) {s : HS K} (h : s.nn) : (expBody k a r s).nn := by unfold expBody; nns
theorem nn_sinBody (k a b r : Nat) {s : HS K} (h : s.nn) : (sinBody k a b r s).nn := by unfold sinBody; nns
theorem nn_cosBody (k a b r : Nat) {s : HS K} (h : s.nn) : (cosBody k a b r s).nn := by unfold cosBody; nns
theorem nn_logBody (k a r : Nat) (d : K) {s : HS K} (h : s.nn) : (logBody k a r d s).nn := by unfold logBody; nns
theorem nn_powBody (k a r : Nat) (v r0 : K) {s : HS K} (h : s.nn) : (powBody k a r v r0 s).nn := by unfold powBody; nns
theorem nn_sqrtBody (k a r : Nat) {s : HS K} (h : s.nn) : (sqrtBody k a r s).nn := by unfold sqrtBody; nns
theorem nn_minBody (k a b r : Nat) {s : HS K} (h : s.nn) : (minBody k a b r s).nn := by unfold minBody; exact nn_copyRow _ _ _ h
theorem nn_absBody (k a r : Nat) {s : HS K} (h : s.nn) : (absBody k a r s).nn := by unfold absBody; nns
theorem nn_quadLoop (k a b r : Nat) {s : HS K} (h : s.nn) : (quadLoop k a b r s).nn := by unfold quadLoop; nns
theorem nn_quadHO (q : Quad) (k a b r : Nat) {s : HS K} (h : s.nn) : (quadHO q k a b r s).nn := by
  have := nn_quadLoop k a b r h
  cases q <;> simp only [quadHO] <;> nns

theorem HVS.nn_push (c : HVCfg K) (r : Nat) {s : HVS K} (h : s.nn) : (s.push c r).nn := h
theorem HVS.nn_set (r : Nat) (v : K) {s : HVS K} (h : s.nn) : (s.set r v).nn := h
theorem HVS.nn_dec (b : Bool) (n : Int) (hn : 0 ≤ n) {s : HVS K} (h : s.nn) : (s.dec b n).nn := by
  unfold HVS.nn at *; simp only [HVS.dec, mindec]; split_ifs <;> omega
theorem HVS.nn_onCol (l : Nat) {f : HS K → HS K} (hf : ∀ s : HS K, s.nn → (f s).nn) {s : HVS K} (h : s.nn) : (s.onCol l f).nn :=
  hf (s.view l) h
theorem HVS.nn_cols (p : Nat) {f : Nat → HS K → HS K} (hf : ∀ l s, s.nn → (f l s).nn) {s : HVS K} (h : s.nn) : (s.cols p f).nn :=
  forUp_pred HVS.nn (fun l s h => HVS.nn_onCol l (hf l) h) h
theorem HVS.nn_colsDown (p : Nat) {f : Nat → HS K → HS K} (hf : ∀ l s, s.nn → (f l s).nn) {s : HVS K} (h : s.nn) : (s.colsDown p f).nn :=
  forDown_pred HVS.nn (fun l s h => HVS.nn_onCol l (hf l) h) h
theorem HVS.nn_up {m : Nat} {f : Nat → HVS K → HVS K} (hf : ∀ i s, s.nn → (f i s).nn) {s : HVS K} (h : s.nn) : (forUp m f s).nn :=
  forUp_pred HVS.nn hf h
theorem HVS.nn_setFlat (k r q : Nat) (v : K) {s : HVS K} (h : s.nn) : (s.setFlat k r q v).nn := h
theorem nn_powZeroCols (p k r : Nat) (v : K) {s : HVS K} (h : s.nn) : (powZeroCols p k r v s).nn := by
  unfold powZeroCols
  refine forUp_pred (fun ps : HVS K × Nat => ps.1.nn) (fun _ ps h => ?_) h
  refine forUp_pred (fun ps : HVS K × Nat => ps.1.nn) (fun i ps h => ?_) h
  simp only
  split_ifs <;> exact h

attribute [local irreducible] copyRow fillRow prodBody prodBodySub divBody expBody sinBody cosBody logBody powBody sqrtBody minBody
  absBody quadLoop quadHO powZeroCols HVS.cols HVS.colsDown

macro "hns" : tactic => `(tactic| repeat' first
  | assumption
  | intro _
  | (refine HVS.nn_push _ _ ?_)
  | (refine HVS.nn_set _ _ ?_)
  | (refine HVS.nn_dec _ _ (by decide) ?_)
  | (refine HVS.nn_cols _ ?_ ?_)
  | (refine HVS.nn_colsDown _ ?_ ?_)
  | (refine HVS.nn_up ?_ ?_)
  | (refine nn_copyRow _ _ _ ?_) | (refine nn_fillRow _ _ _ ?_) | (refine nn_prodBody _ _ _ _ _ ?_) | (refine nn_prodBodySub _ _ _ _ _ ?_)
  | (refine nn_divBody _ _ _ _ _ ?_) | (refine nn_expBody _ _ _ ?_) | (refine nn_sinBody _ _ _ _ ?_) | (refine nn_cosBody _ _ _ _ ?_)
  | (refine nn_logBody _ _ _ _ ?_) | (refine nn_powBody _ _ _ _ _ ?_) | (refine nn_sqrtBody _ _ _ ?_) | (refine nn_minBody _ _ _ _ ?_)
  | (refine nn_absBody _ _ _ ?_) | (refine nn_quadLoop _ _ _ _ ?_) | (refine nn_quadHO _ _ _ _ _ ?_) | (refine nn_powZeroCols _ _ _ _ ?_)
  | (refine HS.nn_up ?_ ?_)
  | (refine HS.nn_setC _ _ _ ?_)
  | split)

theorem hov_nn_step {c : HVCfg K} {o : Base K} {s s' : HVS K} (h : hovStep c o s = .ok s') (h0 : s.nn) : s'.nn := by
  cases o <;> simp only [hovStep] at h
  case cmp q a =>
    unfold HVS.nn at *
    cases q <;> simp only at h <;> split_ifs at h <;> cases h <;> simp_all
  case logOp a r =>
    cases h
    refine HVS.nn_set _ _ ?_
    exact forUp_pred (fun ps : K × HVS K => ps.2.nn) (fun l ps h => HVS.nn_onCol _ (fun s hs => nn_logBody _ _ _ _ hs) h) h0
  case takeStock r vs =>
    cases h
    have : ∀ (L : List K) (ps : Nat × HVS K), ps.2.nn → (L.foldl (fun (q : Nat × HVS K) v =>
      (q.1 + 1, (q.2.set q.1 v).cols c.p fun _ => fillRow c.k q.1 0)) ps).2.nn := by
      intro L
      induction L with
      | nil => intro ps h; exact h
      | cons l L ih =>
        intro ps h
        refine ih _ ?_
        show HVS.nn ((ps.2.set ps.1 l).cols c.p fun _ => fillRow c.k ps.1 0)
        hns
    exact this _ _ h0
  case assignInd r =>
    cases h
    show HVS.nn (HVS.cols _ _ _)
    hns
  all_goals
    first
    | (cases h; hns; done)
    | (split_ifs at h <;> cases h <;> hns)

/-- A sweep that reaches the end returns a code that is not negative. -/
theorem hov_nn {c : HVCfg K} (ops : List (Base K)) : ∀ {s s' : HVS K}, hovRun c ops s = .ok s' → s.nn → s'.nn := by
  induction ops with
  | nil => intro s s' h h0; cases h; exact h0
  | cons o os ih =>
    intro s s' h h0
    simp only [hovRun] at h
    split at h
    · cases h
    · rename_i s1 h1; exact ih h (hov_nn_step h1 h0)

end Verif.AD
