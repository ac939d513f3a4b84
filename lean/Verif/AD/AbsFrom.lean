import Verif.AD.AbsLin

/-!
# `abs_normal` into arrays that are not zero

`fov_pl_reverse` writes `results[row][i]` at every `assign_ind` and `resultsSwitch[row][k]` at every `abs_val`, and never
reads them: what the caller's arrays contained before does not matter, and every entry of the `(m+s) x n` and `(m+s) x s`
arrays is overwritten.
-/
set_option linter.all false
namespace Verif.AD
open Elem

section
variable {K : Type} [Scalar K]

/-- The same state with other contents of `results` and another counter of independents. -/
def RS.wb (b : Nat → K) (i : Nat) (s : RS K) : RS K := { s with bar := b, ii := i }

variable (b : Nat → K) (i : Nat)

theorem wb_setA (s : RS K) (r : Nat) (v : K) : (s.wb b i).setA r v = (s.setA r v).wb b i := rfl
theorem wb_addA (s : RS K) (r : Nat) (v : K) : (s.wb b i).addA r v = (s.addA r v).wb b i := rfl
theorem wb_un (s : RS K) (a r : Nat) (v : K) : (s.wb b i).un a r v = (s.un a r v).wb b i := rfl
theorem wb_A (s : RS K) : (s.wb b i).A = s.A := rfl
theorem wb_T (s : RS K) : (s.wb b i).T = s.T := rfl
theorem wb_di (s : RS K) : (s.wb b i).di = s.di := rfl
theorem wb_pop (s : RS K) (r : Nat) : (s.wb b i).pop r = (s.pop r).map (RS.wb b i) := by
  obtain ⟨T, A, stk, ii, di, bar⟩ := s
  cases stk <;> rfl

theorem wb_bind (e : Except RStop (RS K)) (f g : RS K → Except RStop (RS K)) (h : ∀ s, f (s.wb b i) = (g s).map (RS.wb b i)) :
    (match e.map (RS.wb b i) with | .error e => .error e | .ok s => f s) =
      (match e with | .error e => .error e | .ok s => g s : Except RStop (RS K)).map (RS.wb b i) := by
  cases e with
  | error e => rfl
  | ok s => exact h s

theorem wb_foldl (l : List Nat) (f : RS K → Nat → RS K) (h : ∀ s q, f (s.wb b i) q = (f s q).wb b i) (s : RS K) :
    l.foldl f (s.wb b i) = (l.foldl f s).wb b i := by
  induction l generalizing s with
  | nil => rfl
  | cons q l ih => rw [List.foldl_cons, List.foldl_cons, h, ih]

theorem wb_foldlM (l : List Nat) (f : RS K → Nat → Except RStop (RS K)) (h : ∀ s q, f (s.wb b i) q = (f s q).map (RS.wb b i)) (s : RS K) :
    l.foldlM f (s.wb b i) = (l.foldlM f s).map (RS.wb b i) := by
  induction l generalizing s with
  | nil => rfl
  | cons q l ih =>
    rw [List.foldlM_cons, List.foldlM_cons, h]
    cases f s q with
    | error e => rfl
    | ok s' => exact ih s'

theorem revStep_wb (u : Nat → K) (o : Base K) (s : RS K) (h : ∀ r, o ≠ .assignInd r) :
    revStep u o (s.wb b i) = (revStep u o s).map (RS.wb b i) := by
  cases o with
  | assignInd r => exact absurd rfl (h r)
  | vecCopy a n r => exact wb_foldlM b i _ _ (fun s q => by simp only [wb_setA, wb_addA, wb_A, wb_pop]) s
  | vecAxpy a a1 a2 n r => exact wb_foldlM b i _ _ (fun s q => by simp only [wb_setA, wb_addA, wb_A, wb_T, wb_pop]) s
  | vecDot a c n r =>
    simp only [revStep]
    rw [wb_foldl b i _ _ (fun s q => rfl), wb_pop]
  | takeStock r vs =>
    simp only [revStep]
    rw [wb_foldl b i _ _ (fun s q => rfl)]
    rfl
  | deathNot a c =>
    simp only [revStep]
    rw [wb_foldl b i _ _ (fun s q => rfl)]
    exact wb_foldlM b i _ _ (fun s q => wb_pop b i s _) _
  | divDA a r k =>
    simp only [revStep]
    split_ifs with h1
    · rw [wb_pop, wb_T]; exact wb_bind b i _ _ _ fun s => rfl
    · rw [wb_T, wb_un, wb_pop]
  | powOp a r k =>
    simp only [revStep, wb_T]
    by_cases h1 : a = r
    · rw [if_pos h1, if_pos h1, wb_pop]
      exact wb_bind b i _ _ _ fun s => rfl
    · rw [if_neg h1, if_neg h1, wb_un, wb_pop]
      rfl
  | _ =>
    first
      | rfl
      | (simp only [revStep, wb_setA, wb_addA, wb_un, wb_A, wb_T, wb_di, wb_pop]; done)
      | (simp only [revStep, wb_setA, wb_addA, wb_un, wb_A, wb_T, wb_di, wb_pop]; rfl)
      | (simp only [revStep, wb_setA, wb_addA, wb_un, wb_A, wb_T, wb_di, wb_pop]
         refine wb_bind b i _ _ _ fun s => ?_
         simp only [wb_setA, wb_addA, wb_un, wb_A, wb_T, wb_di, wb_pop]
         first
           | done
           | rfl
           | (simp only [apply_ite (Except.map (RS.wb b i))]; rfl))

/-- A step other than `assign_ind` leaves `results` and the counter alone. -/
theorem revStep_same (u : Nat → K) (o : Base K) (s s' : RS K) (h : ∀ r, o ≠ .assignInd r) (h1 : revStep u o s = .ok s') :
    s'.bar = s.bar ∧ s'.ii = s.ii := by
  have := revStep_wb s.bar s.ii u o s h
  rw [show s.wb s.bar s.ii = s from rfl, h1] at this
  have e : s' = s'.wb s.bar s.ii := by simpa [Except.map] using this
  rw [e]
  exact ⟨rfl, rfl⟩

/-- Number of `abs_val` operations: 0 or 1. -/
def Base.nSw (o : Base K) : Nat := match o with | .absVal _ _ _ => 1 | _ => 0

/-- Two states of the sweep that differ only in entries not yet written. -/
structure Unw (n q : Nat) (s t : PRS K) : Prop where
  r : ∃ bar, t.r = s.r.wb bar s.r.ii ∧ ∀ i, s.r.ii ≤ i → i < n → bar i = s.r.bar i
  sw : t.sw = s.sw
  sb : ∀ k, s.sw ≤ k → k < q → t.sbar k = s.sbar k

theorem plRevStep_fr {n q : Nat} (u us : Nat → K) (o : Base K) {s t s' : PRS K} (h : Unw n q s t) (h1 : plRevStep u us o s = .ok s') :
    ∃ t', plRevStep u us o t = .ok t' ∧ Unw n q s' t' ∧
      s'.r.ii = s.r.ii - Base.nInd o ∧ s'.sw = s.sw - Base.nSw o := by
  obtain ⟨r, sw, sb⟩ := s
  obtain ⟨r', sw', sb'⟩ := t
  obtain ⟨⟨bar, e1, e2⟩, e3, e4⟩ := h
  simp only at e1 e2 e3 e4
  subst e1 e3
  by_cases ha : ∃ a l k, o = .absVal a l k
  · obtain ⟨a, l, k, rfl⟩ := ha
    simp only [plRevStep] at h1 ⊢
    rw [wb_pop]
    cases hp : r.pop l with
    | error e => rw [hp] at h1; cases h1
    | ok p =>
      rw [hp] at h1
      simp only [Except.map] at h1 ⊢
      cases h1
      have hb : p.bar = r.bar ∧ p.ii = r.ii := by
        have hp := hp
        obtain ⟨T, A, stk, ii, di, bar⟩ := r
        cases stk with
        | nil => cases hp
        | cons x st => cases hp; exact ⟨rfl, rfl⟩
      refine ⟨_, rfl, ⟨⟨bar, ?_, ?_⟩, rfl, ?_⟩, ?_, rfl⟩
      · simp only [RS.addA, RS.setA, RS.wb, hb]
      · intro i h1 h2
        simp only [RS.addA, RS.setA, hb] at h1 ⊢
        exact e2 i h1 h2
      · intro k h1 h2
        simp only [upd_apply] at h1 ⊢
        split_ifs with hk
        · rfl
        · exact e4 k (by omega) h2
      · simp only [RS.addA, RS.setA, hb, Base.nInd, Nat.sub_zero]
  · have hs : ∀ x : PRS K, plRevStep u us o x = match revStep u o x.r with | .error e => .error e | .ok t => .ok ⟨t, x.sw, x.sbar⟩ := by
      intro x
      cases o <;> first | rfl | exact absurd ⟨_, _, _, rfl⟩ ha
    have hz : Base.nSw o = 0 := by
      cases o <;> first | rfl | exact absurd ⟨_, _, _, rfl⟩ ha
    rw [hs] at h1 ⊢
    rw [hz]
    by_cases hi : ∃ l, o = .assignInd l
    · obtain ⟨l, rfl⟩ := hi
      obtain ⟨T, A, stk, ii, di, bar0⟩ := r
      cases stk with
      | nil => simp [revStep, RS.pop] at h1
      | cons x st =>
        simp only [revStep, RS.pop, RS.wb] at h1 ⊢
        cases h1
        refine ⟨_, rfl, ⟨⟨_, rfl, ?_⟩, rfl, ?_⟩, rfl, rfl⟩
        · intro i h1 h2
          simp only [upd_apply] at h1 ⊢
          split_ifs with hk
          · rfl
          · exact e2 i (by simp only; omega) h2
        · exact e4
    · have hn : ∀ l, o ≠ .assignInd l := fun l hl => hi ⟨l, hl⟩
      have hz : Base.nInd o = 0 := by
        cases o <;> first | rfl | exact absurd rfl (hn _)
      simp only at h1 ⊢
      rw [revStep_wb bar r.ii u o r hn]
      cases hp : revStep u o r with
      | error e => rw [hp] at h1; cases h1
      | ok p =>
        rw [hp] at h1
        cases h1
        obtain ⟨b1, b2⟩ := revStep_same u o r p hn hp
        refine ⟨_, rfl, ⟨⟨bar, ?_, ?_⟩, rfl, e4⟩, ?_, rfl⟩
        · simp only [b2]
        · simp only [b1, b2]; exact e2
        · rw [hz]; exact b2

/-- `NUM_INDEPENDENTS` and `NUM_SWITCHES` one operation at a time. -/
theorem plRevRun_fr {n q : Nat} (u us : Nat → K) (ops : List (Base K)) {s t s' : PRS K} (h : Unw n q s t) (h1 : plRevRun u us ops s = .ok s') :
    ∃ t', plRevRun u us ops t = .ok t' ∧ Unw n q s' t' ∧ s'.r.ii = s.r.ii - numInd ops ∧ s'.sw = s.sw - numSw ops := by
  induction ops generalizing s' with
  | nil => cases h1; exact ⟨t, rfl, h, by simp [numInd], by simp [numSw]⟩
  | cons o os ih =>
    unfold plRevRun at h1 ⊢
    cases hr : plRevRun u us os s with
    | error e => rw [hr] at h1; cases h1
    | ok s1 =>
      rw [hr] at h1
      obtain ⟨t1, g1, g2, g3, g4⟩ := ih hr
      obtain ⟨t2, k1, k2, k3, k4⟩ := plRevStep_fr u us o g2 h1
      rw [g1]
      refine ⟨t2, k1, k2, ?_, ?_⟩
      · rw [k3, g3, Nat.sub_sub]; congr 1
        simp only [numInd, List.map_cons, List.sum_cons]
        rw [Nat.add_comm]
      · rw [k4, g4, Nat.sub_sub]; congr 1
        simp only [numSw, List.countP_cons]
        cases o <;> rfl
end
end Verif.AD
