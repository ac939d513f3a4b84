import Verif.Sparse.RevBits

/-!
Soundness of the reverse bit pattern sweeps: bit `b` of word `l` is set wherever the adjoint
computed by `fos_reverse` does not vanish.
-/
set_option linter.all false
namespace Verif.Sparse
open Verif.AD Elem

variable {K : Type} [Scalar K] {n p l b : Nat}

theorem CovA.bin' {u : Nat → Word} {A : Nat → K} (h : CovA b u A) (a c r : Nat) {v w : K} (hv : A r = 0 → v = 0)
    (hw : A r = 0 → w = 0) :
    CovA b (bBin a c r u)
      (upd (upd (upd A r 0) c (upd A r 0 c + w)) a (upd (upd A r 0) c (upd A r 0 c + w) a + v)) := by
  have : (upd (upd (upd A r 0) c (upd A r 0 c + w)) a (upd (upd A r 0) c (upd A r 0 c + w) a + v)) =
      (upd (upd (upd A r 0) a (upd A r 0 a + v)) c (upd (upd A r 0) a (upd A r 0 a + v) c + w)) := by
    generalize upd A r 0 = B
    funext x
    simp only [upd_apply]
    by_cases h1 : x = a <;> by_cases h2 : x = c <;> by_cases h3 : a = c <;> simp_all
    ring1
  rw [this]
  exact h.bin a c r hv hw

theorem CovA.weaken {u : Nat → Word} {A : Nat → K} (h : CovA b u A) (a r : Nat) : CovA b (bOr a r u) A := by
  intro x hx
  simp only [bOr, upd_apply] at hx
  split_ifs at hx with hxa
  · simp only [BitVec.getLsbD_or, Bool.or_eq_false_iff] at hx
    rw [hxa]; exact h a hx.1
  · exact h x hx

/-- Safe mode: both alternatives of a conditional assignment are covered. -/
theorem rcov_cond {s : RBS} {r r' : RS K} {a1 a2 r0 : Nat} (hl : l < p) {hc : Prop} [Decidable hc]
    (h : RCov n l b s r)
    (hr : (if hc then if r0 ≠ a1 then Except.ok ((r.addA a1 (r.A r0)).setA r0 0) else .ok r
      else if r0 ≠ a2 then .ok ((r.addA a2 (r.A r0)).setA r0 0) else .ok r) = (Except.ok r' : Except RStop (RS K))) :
    RCov n l b (if r0 ≠ a1 ∧ r0 ≠ a2 then
        (if r0 ≠ a2 then (if r0 ≠ a1 then s.loop p (bOr a1 r0) else s).loop p (bOr a2 r0)
          else if r0 ≠ a1 then s.loop p (bOr a1 r0) else s).loop p (bClr r0)
      else if r0 ≠ a2 then (if r0 ≠ a1 then s.loop p (bOr a1 r0) else s).loop p (bOr a2 r0)
          else if r0 ≠ a1 then s.loop p (bOr a1 r0) else s) r' := by
  have hA := h.A
  have hid : ∀ {x : K}, x = 0 → x = 0 := fun h => h
  by_cases h1 : r0 = a1
  · have n1 : ¬ r0 ≠ a1 := fun h => h h1
    rw [if_neg (show ¬ (r0 ≠ a1 ∧ r0 ≠ a2) from fun h => n1 h.1)]
    simp only [if_neg n1] at hr ⊢
    by_cases h2 : r0 = a2
    · have n2 : ¬ r0 ≠ a2 := fun h => h h2
      simp only [if_neg n2] at hr ⊢
      split_ifs at hr <;> cases hr <;> exact h
    · simp only [if_pos (show r0 ≠ a2 from h2)] at hr ⊢
      split_ifs at hr <;> cases hr
      · exact h.A' hl (hA.weaken _ _) rfl rfl rfl
      · exact h.A' hl ((hA.orR a2 hid).scale fun _ => rfl) rfl rfl rfl
  · simp only [if_pos (show r0 ≠ a1 from h1)] at hr ⊢
    by_cases h2 : r0 = a2
    · have n2 : ¬ r0 ≠ a2 := fun h => h h2
      rw [if_neg (show ¬ (r0 ≠ a1 ∧ r0 ≠ a2) from fun h => n2 h.2)]
      simp only [if_neg n2] at hr ⊢
      split_ifs at hr <;> cases hr
      · exact h.A' hl ((hA.orR a1 hid).scale fun _ => rfl) rfl rfl rfl
      · exact h.A' hl (hA.weaken _ _) rfl rfl rfl
    · rw [if_pos (show (r0 ≠ a1 ∧ r0 ≠ a2) from ⟨h1, h2⟩)]
      simp only [if_pos (show r0 ≠ a2 from h2)] at hr ⊢
      have hloop : ∀ (g g' : (Nat → Word) → Nat → Word) (s : RBS),
          (s.loop p g).loop p g' = s.loop p (fun u => g' (g u)) := by
        intro g g' s
        simp only [RBS.loop]
        congr 1
        funext l
        split_ifs <;> rfl
      rw [hloop, hloop]
      split_ifs at hr <;> cases hr
      · exact h.A' hl ((((hA.orR a1 hid).weaken a2 r0)).clr r0) rfl rfl rfl
      · exact h.A' hl ((((hA.weaken a1 r0).orR a2 hid)).clr r0) rfl rfl rfl

theorem rcov_step {u : Nat → K} {X : Nat → Nat → Word} {o : Base K} {s s' : RBS} {r r' : RS K}
    (hl : l < p) (hX : ∀ j, (X l j).getLsbD b = false → u j = 0) (hok : Base.revOk o)
    (h : RCov n l b s r) (hs : revSafeStep p X o s = .ok s') (hr : revStep u o r = .ok r') :
    RCov n l b s' r' := by
  have hA := h.A
  cases o
  all_goals simp only [revSafeStep, Except.ok.injEq, reduceCtorEq] at hs
  all_goals simp only [revStep] at hr
  all_goals first | exact (show False from hok).elim | skip
  all_goals try subst hs
  case cmp => cases hr; exact h
  case assignInd r0 =>
    split at hr
    · cases hr
    rename_i r1 h1
    have h2 := hr
    cases h2
    obtain ⟨g1, g2, g3, g4⟩ := RS.pop_ok h1
    refine ⟨?_, ?_, ?_, ?_⟩
    · show CovA b (s.A l) r1.A; rw [g1]; exact hA
    · show s.ii - 1 = r1.ii - 1; rw [g2]; exact congrArg (· - 1) h.ii
    · show s.di = r1.di; rw [g3]; exact h.di
    · intro i hi hin
      have hi' : r1.ii - 1 ≤ i := hi
      rw [g2] at hi'
      have hi' : r.ii - 1 ≤ i := hi'
      simp only [hl, if_true, g4, upd_apply, h.ii]
      split_ifs with hii
      · exact hA r0
      · exact h.out i (by omega) hin
  case assignDep r0 =>
    cases hr
    refine ⟨?_, h.ii, ?_, h.out⟩
    · simp only [hl, if_true, RS.setA, h.di]
      exact hA.set (hX _)
    · show s.di - 1 = r.di - 1; rw [h.di]
  case eqPlusD => exact h.pop hr
  case eqMinD => exact h.pop hr
  case incrA => exact h.pop hr
  case decrA => exact h.pop hr
  case eqMultD r0 k =>
    exact (h.scale (r' := r.setA r0 (r.A r0 * k)) (hA.scale fun h => by rw [h, zero_mul]) rfl rfl rfl).pop hr
  case eqMultA a r0 =>
    split at hr
    · cases hr
    rename_i r1 h1
    have h2 := hr
    cases h2
    obtain ⟨g1, g2, g3, g4⟩ := RS.pop_ok h1
    refine h.A' hl ?_ g2 g3 g4
    simp only [RS.setA, RS.addA, g1]
    exact (hA.scale fun h => by rw [h, zero_mul]).or fun hb => by rw [hA _ hb, zero_mul]
  case assignA a r0 =>
    (refine RCov.pop ?_ hr; refine h.A' hl ?_ rfl rfl rfl; exact (hA.orR a fun h => h).clr r0)
  case eqPlusA a r0 => (refine RCov.pop ?_ hr; refine h.A' hl ?_ rfl rfl rfl; exact hA.orR a fun h => h)
  case eqMinA a r0 => (refine RCov.pop ?_ hr; refine h.A' hl ?_ rfl rfl rfl; exact hA.orR a fun h => by rw [h, neg_zero])
  case multAA a c r0 =>
    split at hr
    · cases hr
    rename_i r1 h1
    have h2 := hr
    cases h2
    obtain ⟨g1, g2, g3, g4⟩ := RS.pop_ok h1
    refine h.A' hl ?_ g2 g3 g4
    simp only [RS.setA, RS.addA, g1]
    exact hA.bin c a r0 (fun h => by rw [h, zero_mul]) (fun h => by rw [h, zero_mul])
  case divAA a c r0 =>
    split at hr
    · cases hr
    rename_i r1 h1
    have h2 := hr
    cases h2
    obtain ⟨g1, g2, g3, g4⟩ := RS.pop_ok h1
    refine h.A' hl ?_ g2 g3 g4
    simp only [RS.setA, RS.addA, g1]
    exact hA.bin a c r0 (fun h => by rw [h, zero_mul]) (fun h => by rw [h, zero_mul])
  case eqPlusProd a c r0 =>
    cases hr
    refine h.A' hl ?_ rfl rfl rfl
    simp only [RS.setA, RS.addA]
    refine (hA.orR c fun h => by rw [h, zero_mul]).orR a fun h => by rw [h, zero_mul]
  case eqMinProd a c r0 =>
    cases hr
    refine h.A' hl ?_ rfl rfl rfl
    simp only [RS.setA, RS.addA]
    refine (hA.orR c fun h => by rw [h, zero_mul, neg_zero]).orR a fun h => by rw [h, zero_mul, neg_zero]
  case divDA a r0 k =>
    split_ifs at hr
    · split at hr
      · cases hr
      rename_i r1 h1
      have h2 := hr
      cases h2
      obtain ⟨g1, g2, g3, g4⟩ := RS.pop_ok h1
      refine h.A' hl ?_ g2 g3 g4
      simp only [RS.un, RS.setA, RS.addA, g1]
      exact hA.un a r0 fun h => by rw [h, zero_mul]
    · (refine RCov.pop ?_ hr; refine h.A' hl ?_ rfl rfl rfl; exact hA.un a r0 fun h => by rw [h, zero_mul])
  case powOp a r0 k =>
    split_ifs at hr
    · split at hr
      · cases hr
      rename_i r1 h1
      have h2 := hr
      cases h2
      obtain ⟨g1, g2, g3, g4⟩ := RS.pop_ok h1
      refine h.A' hl ?_ g2 g3 g4
      simp only [RS.un, RS.setA, RS.addA, g1]
      exact hA.un a r0 fun h => by rw [h, zero_mul]
    · (refine RCov.pop ?_ hr; refine h.A' hl ?_ rfl rfl rfl; exact hA.un a r0 fun h => by rw [h, zero_mul])
    · (refine RCov.pop ?_ hr; refine h.A' hl ?_ rfl rfl rfl; exact hA.un a r0 fun h => by rw [h, zero_mul])
  case sinOp a c r0 =>
    split at hr
    · cases hr
    rename_i r1 h1
    have h2 := hr
    refine RCov.pop (RCov.pop ?_ h1) h2; refine h.A' hl ?_ rfl rfl rfl; exact hA.un a r0 fun h => by rw [h, zero_mul]
  case cosOp a c r0 =>
    split at hr
    · cases hr
    rename_i r1 h1
    have h2 := hr
    refine RCov.pop (RCov.pop ?_ h1) h2; refine h.A' hl ?_ rfl rfl rfl; exact hA.un a r0 fun h => by rw [h, zero_mul, neg_zero]
  case quad q a c r0 =>
    split at hr
    · cases hr
    rename_i r1 h1
    have h2 := hr
    cases h2
    obtain ⟨g1, g2, g3, g4⟩ := RS.pop_ok h1
    refine h.A' hl ?_ g2 g3 g4
    simp only [RS.un, RS.setA, RS.addA, g1]
    exact hA.un a r0 fun h => by rw [h, zero_mul]
  case logOp a r0 =>
    split at hr
    · cases hr
    rename_i r1 h1
    have h2 := hr
    cases h2
    obtain ⟨g1, g2, g3, g4⟩ := RS.pop_ok h1
    refine h.A' hl ?_ g2 g3 g4
    simp only [RS.un, RS.setA, RS.addA, g1]
    exact hA.un a r0 fun h => by rw [h, zero_mul]
  case minOp a c r0 k =>
    split at hr
    · cases hr
    rename_i r1 h1
    have h2 := hr
    have hp := h.pop h1
    obtain ⟨g1, g2, g3, g4⟩ := RS.pop_ok h1
    have hA1 := hp.A
    have hz : ∀ (A : Nat → K) (x y : Nat), upd A x (A x + 0) = A := by
      intro A x y; funext z; rw [upd_apply]; split_ifs with hz
      · rw [hz, add_zero]
      · rfl
    split_ifs at h2
    · cases h2
      refine hp.A' hl ?_ rfl rfl rfl
      have := hA1.bin a c r0 (v := 0) (w := r1.A r0) (fun _ => rfl) (fun h => h)
      rw [hz _ _ 0] at this
      exact this
    · cases h2
      refine hp.A' hl ?_ rfl rfl rfl
      have := hA1.bin a c r0 (v := r1.A r0) (w := 0) (fun h => h) (fun _ => rfl)
      rw [hz _ _ 0] at this
      exact this
    · cases h2
      refine hp.A' hl ?_ rfl rfl rfl
      exact hA1.bin' a c r0 (fun h => by rw [h, zero_div]) (fun h => by rw [h, zero_div])
  case absVal a r0 k =>
    split at hr
    · cases hr
    rename_i r1 h1
    have h2 := hr
    have hp := h.pop h1
    have hA1 := hp.A
    split_ifs at h2
    · cases h2
      exact hp.A' hl (hA1.un a r0 fun h => by rw [h, neg_zero]) rfl rfl rfl
    · cases h2
      exact hp.A' hl (hA1.un a r0 fun h => h) rfl rfl rfl
    · cases h2
      refine hp.A' hl ?_ rfl rfl rfl
      intro x hx
      have := hA1.un a r0 (v := 0) (fun _ => rfl) x hx
      simp only [RS.setA, upd_apply] at this ⊢
      split_ifs at this ⊢ <;> simp_all
  case ceilOp a r0 k =>
    split at hr
    · cases hr
    rename_i r1 h1
    have h2 := hr
    cases h2
    exact (h.pop h1).A' hl ((h.pop h1).A.clr r0) rfl rfl rfl
  case floorOp a r0 k =>
    split at hr
    · cases hr
    rename_i r1 h1
    have h2 := hr
    cases h2
    exact (h.pop h1).A' hl ((h.pop h1).A.clr r0) rfl rfl rfl
  case condAssign a a1 a2 r0 k =>
    split at hr
    · cases hr
    rename_i r1 h1
    have h2 := hr
    have hp := h.pop h1
    exact rcov_cond hl hp (hc := r1.T a > 0) h2
  case condEqAssign a a1 a2 r0 k =>
    split at hr
    · cases hr
    rename_i r1 h1
    have h2 := hr
    have hp := h.pop h1
    exact rcov_cond hl hp (hc := r1.T a ≥ 0) h2
  case takeStock r0 vs =>
    cases hr
    refine RCov.foldl _ (fun s r q h => ?_) h
    refine h.A' hl ?_ rfl rfl rfl
    exact h.A.clr _
  case deathNot a c =>
    refine RCov.pops _ ?_ hr
    refine RCov.foldl _ (fun s r q h => ?_) h
    refine h.A' hl ?_ rfl rfl rfl
    exact h.A.clr _
  case assignD r0 k => refine RCov.pop ?_ hr; refine h.A' hl ?_ rfl rfl rfl; exact hA.clr r0
  case assignP q r0 => refine RCov.pop ?_ hr; refine h.A' hl ?_ rfl rfl rfl; exact hA.clr r0
  case assignD0 r0 => refine RCov.pop ?_ hr; refine h.A' hl ?_ rfl rfl rfl; exact hA.clr r0
  case assignD1 r0 => refine RCov.pop ?_ hr; refine h.A' hl ?_ rfl rfl rfl; exact hA.clr r0
  case plusDA a r0 k => refine RCov.pop ?_ hr; refine h.A' hl ?_ rfl rfl rfl; exact hA.un a r0 fun h => h
  case minDA a r0 k => refine RCov.pop ?_ hr; refine h.A' hl ?_ rfl rfl rfl; exact hA.un a r0 fun h => by rw [h, neg_zero]
  case multDA a r0 k => refine RCov.pop ?_ hr; refine h.A' hl ?_ rfl rfl rfl; exact hA.un a r0 fun h => by rw [h, mul_zero]
  case posSign a r0 => refine RCov.pop ?_ hr; refine h.A' hl ?_ rfl rfl rfl; exact hA.un a r0 fun h => h
  case negSign a r0 => refine RCov.pop ?_ hr; refine h.A' hl ?_ rfl rfl rfl; exact hA.un a r0 fun h => by rw [h, neg_zero]
  case expOp a r0 => refine RCov.pop ?_ hr; refine h.A' hl ?_ rfl rfl rfl; exact hA.un a r0 fun h => by rw [h, zero_mul]
  case sqrtOp a r0 => refine RCov.pop ?_ hr; refine h.A' hl ?_ rfl rfl rfl; exact hA.un a r0 fun h => by rw [h, zero_mul]
  case cbrtOp a r0 => refine RCov.pop ?_ hr; refine h.A' hl ?_ rfl rfl rfl; exact hA.un a r0 fun h => by rw [h, zero_mul]
  case genQuad a c r0 k k' => refine RCov.pop ?_ hr; refine h.A' hl ?_ rfl rfl rfl; exact hA.un a r0 fun h => by rw [h, zero_mul]
  case plusAA a c r0 => refine RCov.pop ?_ hr; refine h.A' hl ?_ rfl rfl rfl; exact hA.bin a c r0 (fun h => h) fun h => h
  case minAA a c r0 => refine RCov.pop ?_ hr; refine h.A' hl ?_ rfl rfl rfl; exact hA.bin a c r0 (fun h => h) fun h => by rw [h, neg_zero]

theorem rcov_run {u : Nat → K} {X : Nat → Nat → Word} (hl : l < p)
    (hX : ∀ j, (X l j).getLsbD b = false → u j = 0) {ops : List (Base K)} (hok : ∀ o ∈ ops, Base.revOk o)
    {s s' : RBS} {r r' : RS K} (h : RCov n l b s r) (hs : revSafeRun p X ops s = .ok s')
    (hr : revRun u ops r = .ok r') : RCov n l b s' r' := by
  induction ops generalizing s' r' with
  | nil => cases hs; cases hr; exact h
  | cons o os ih =>
    simp only [revSafeRun] at hs
    simp only [revRun] at hr
    split at hs
    · cases hs
    split at hr
    · cases hr
    rename_i s1 h1 _ r1 h3
    have h2 := hs
    have h4 := hr
    exact rcov_step hl hX (hok o (by simp)) (ih (fun o h => hok o (List.mem_cons_of_mem _ h)) h1 h3) h2 h4

end Verif.Sparse
