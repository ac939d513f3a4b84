import Verif.AD.RevPair

/-!
Static conditions on a trace under which the reverse sweep undoes the forward
sweep and computes the transposed linear map.
-/
set_option linter.all false
namespace Verif.AD
open Elem Finset

variable {K : Type} [Scalar K]

/-- Locations whose tangent is certainly zero after `o`, given those before it. -/
def Base.tanStep (o : Base K) (Z : Set Nat) : Set Nat :=
  match o with
  | .cmp _ _ | .assignDep _ | .eqPlusD _ _ | .eqMinD _ _ | .eqMultD _ _ | .incrA _ | .decrA _
  | .setRef _ _ | .deathNot _ _ => Z
  | .assignD r _ | .assignP _ r | .assignD0 r | .assignD1 r | .ceilOp _ r _ | .floorOp _ r _ =>
    insert r Z
  | .assignA _ r | .assignInd r | .eqPlusA _ r | .eqMinA _ r | .eqMultA _ r | .plusAA _ _ r
  | .plusDA _ r _ | .minAA _ _ r | .minDA _ r _ | .multAA _ _ r | .eqPlusProd _ _ r
  | .eqMinProd _ _ r | .multDA _ r _ | .divAA _ _ r | .divDA _ r _ | .posSign _ r | .negSign _ r
  | .expOp _ r | .quad _ _ _ r | .logOp _ r | .powOp _ r _ | .sqrtOp _ r | .cbrtOp _ r
  | .genQuad _ _ r _ _ | .minOp _ _ r _ | .absVal _ r _ | .condAssign _ _ _ r _
  | .condEqAssign _ _ _ r _ | .condAssignS _ _ r _ | .condEqAssignS _ _ r _
  | .vecDot _ _ _ r => Z \ {r}
  | .sinOp _ b r | .cosOp _ b r => Z \ {b, r}
  | .vecCopy _ n r | .vecAxpy _ _ _ n r => Z \ {l | r ≤ l ∧ l < r + n}
  | .takeStock r vs => Z ∪ {l | r ≤ l ∧ l < r + vs.length}

/-- Locations whose adjoint can be nonzero before `o`, given those after it. -/
def Base.adjStep (o : Base K) (L : Set Nat) : Set Nat :=
  match o with
  | .cmp _ _ | .eqPlusD _ _ | .eqMinD _ _ | .eqMultD _ _ | .incrA _ | .decrA _
  | .setRef _ _ | .assignInd _ => L
  | .assignD r _ | .assignP _ r | .assignD0 r | .assignD1 r | .ceilOp _ r _ | .floorOp _ r _ =>
    L \ {r}
  | .assignDep r => insert r L
  | .assignA a r | .plusDA a r _ | .minDA a r _ | .multDA a r _ | .divDA a r _ | .posSign a r
  | .negSign a r | .expOp a r | .logOp a r | .powOp a r _ | .sqrtOp a r | .cbrtOp a r
  | .absVal a r _ | .sinOp a _ r | .cosOp a _ r | .quad _ a _ r | .genQuad a _ r _ _ =>
    insert a (L \ {r})
  | .eqPlusA a _ | .eqMinA a _ | .eqMultA a _ => insert a L
  | .plusAA a b r | .minAA a b r | .multAA a b r | .divAA a b r | .minOp a b r _ =>
    insert a (insert b (L \ {r}))
  | .eqPlusProd a b _ | .eqMinProd a b _ => insert a (insert b L)
  | .condAssign _ a1 a2 _ _ | .condEqAssign _ a1 a2 _ _ => insert a1 (insert a2 L)
  | .condAssignS _ a1 _ _ | .condEqAssignS _ a1 _ _ => insert a1 L
  | .vecCopy a n _ => L ∪ {l | a ≤ l ∧ l < a + n}
  | .vecDot a b n _ => L ∪ {l | a ≤ l ∧ l < a + n} ∪ {l | b ≤ l ∧ l < b + n}
  | .vecAxpy a a1 a2 n _ =>
    insert a (L ∪ {l | a1 ≤ l ∧ l < a1 + n} ∪ {l | a2 ≤ l ∧ l < a2 + n})
  | .takeStock _ _ => L
  | .deathNot _ _ => L

/-- Locations whose adjoint can be nonzero at the start of a stretch of trace. -/
def liveAdj : List (Base K) → Set Nat
  | [] => ∅
  | o :: os => o.adjStep (liveAdj os)

/-- The static conditions, `Z` being the locations with zero tangent at the start. -/
def WfFrom (N : Nat) : Set Nat → List (Base K) → Prop
  | _, [] => True
  | Z, o :: os => o.bounded N ∧ o.okT ∧ o.zeroTan ⊆ Z ∧ (∀ l ∈ o.zeroAdj, l ∉ liveAdj os) ∧
      WfFrom N (o.tanStep Z) os

theorem tan_step {c : Cfg K} {v : Nat → K} {o : Base K} {s s' : FS K}
    (h : fosStep c v o s = .ok s') (hT : o.okT) {Z : Set Nat} (hz : ∀ l ∈ Z, s.dT l = 0) :
    ∀ l ∈ o.tanStep Z, s'.dT l = 0 := by
  cases o
  case cmp q a =>
    simp only [fosStep] at h
    split at h
    · cases q <;> simp only [Except.ok.injEq] at h <;> subst h <;> exact hz
    · cases h
  case genQuad a b r old k =>
    simp only [fosStep] at h
    split at h
    · cases h
    · simp only [FS.push, FS.set, FS.setD, Except.ok.injEq] at h
      subst h
      intro l hl
      exact (upd_ne _ _ hl.2).trans (hz l hl.1)
  case powOp a r k =>
    simp only [fosStep] at h
    split at h <;> simp only [FS.push, FS.set, FS.setD, Except.ok.injEq] at h <;> subst h <;>
      exact fun l hl => (upd_ne _ _ hl.2).trans (hz l hl.1)
  case vecDot a b n r =>
    obtain ⟨hT1, hT2⟩ := hT
    simp only [fosStep, Except.ok.injEq] at h
    rw [dot_fold_fwd r a b _ fun q h => by rw [List.mem_range] at h; omega] at h
    subst h
    intro l hl
    simp only [FS.push, FS.set, FS.setD, upd_same, upd_upd]
    exact (upd_ne _ _ hl.2).trans (hz l hl.1)
  case vecCopy a n r =>
    simp only [fosStep, Except.ok.injEq] at h
    rcases hT with rfl | ⟨rfl, har⟩
    · subst h; intro l hl; exact hz l hl.1
    · subst h; intro l hl
      have h2 : ¬ (r ≤ l ∧ l < r + 1) := hl.2
      exact (upd_ne _ _ (show l ≠ r + 0 by omega)).trans (hz l hl.1)
  case vecAxpy a a1 a2 n r =>
    simp only [fosStep, Except.ok.injEq] at h
    rcases hT with rfl | ⟨rfl, har⟩
    · subst h; intro l hl; exact hz l hl.1
    · subst h; intro l hl
      have h2 : ¬ (r ≤ l ∧ l < r + 1) := hl.2
      exact (upd_ne _ _ (show l ≠ r + 0 by omega)).trans (hz l hl.1)
  case takeStock => exact hT.elim
  case deathNot a b =>
    simp only [fosStep, Except.ok.injEq] at h
    subst h
    have : ∀ (L : List Nat) (s : FS K), (L.foldl (fun s q => FS.push c (b - q) s) s).dT = s.dT := by
      intro L
      induction L with
      | nil => intro s; rfl
      | cons x L ih => intro s; rw [List.foldl_cons, ih]; rfl
    rw [this]; exact hz
  case sinOp a b r =>
    simp only [fosStep, Except.ok.injEq] at h
    subst h
    intro l hl
    have h2 : l ≠ b ∧ l ≠ r := by simpa using hl.2
    exact (upd_ne _ _ h2.2).trans ((upd_ne _ _ h2.1).trans (hz l hl.1))
  case cosOp a b r =>
    simp only [fosStep, Except.ok.injEq] at h
    subst h
    intro l hl
    have h2 : l ≠ b ∧ l ≠ r := by simpa using hl.2
    exact (upd_ne _ _ h2.2).trans ((upd_ne _ _ h2.1).trans (hz l hl.1))
  case minOp a b r k =>
    simp only [fosStep, Except.ok.injEq] at h
    subst h
    intro l hl
    refine (upd_ne _ _ hl.2).trans ?_
    split_ifs <;> exact hz l hl.1
  case absVal a r k =>
    simp only [fosStep, Except.ok.injEq] at h
    subst h
    intro l hl
    refine (upd_ne _ _ hl.2).trans ?_
    split_ifs <;> exact hz l hl.1
  case condAssign a a1 a2 r k =>
    simp only [fosStep, Except.ok.injEq] at h
    intro l hl
    split_ifs at h <;> cases h <;> exact (upd_ne _ _ hl.2).trans (hz l hl.1)
  case condEqAssign a a1 a2 r k =>
    simp only [fosStep, Except.ok.injEq] at h
    intro l hl
    split_ifs at h <;> cases h <;> exact (upd_ne _ _ hl.2).trans (hz l hl.1)
  case condAssignS a a1 r k =>
    simp only [fosStep, Except.ok.injEq] at h
    intro l hl
    split_ifs at h <;> cases h <;> first
      | exact (upd_ne _ _ hl.2).trans (hz l hl.1)
      | exact hz l hl.1
  case condEqAssignS a a1 r k =>
    simp only [fosStep, Except.ok.injEq] at h
    intro l hl
    split_ifs at h <;> cases h <;> first
      | exact (upd_ne _ _ hl.2).trans (hz l hl.1)
      | exact hz l hl.1
  all_goals
    simp only [fosStep, Except.ok.injEq] at h
    subst h
    intro l hl
    first
      | exact hz l hl
      | exact (upd_ne _ _ hl.2).trans (hz l hl.1)
      | (simp only [FS.push, FS.set, FS.setD, FS.dec, upd_apply]
         rcases hl with rfl | hl
         · simp
         · split_ifs
           · rfl
           · exact hz l hl)
      | (simp only [FS.push, FS.set, FS.setD, FS.dec, upd_apply]
         split_ifs with h
         · subst h; simp [hz _ hl]
         · exact hz l hl)


set_option maxHeartbeats 4000000 in
theorem adj_step {u : Nat → K} {o : Base K} {r r' : RS K} (h : revStep u o r = .ok r')
    {L : Set Nat} (hL : ∀ l, l ∉ L → r.A l = 0) :
    ∀ l, l ∉ o.adjStep L → r'.A l = 0 := by
  have pop_A : ∀ {q : Nat} {s s' : RS K}, RS.pop q s = .ok s' → s'.A = s.A := by
    intro q s s' h
    unfold RS.pop at h
    split at h
    · cases h
    · cases h; rfl
  have fold_inv : ∀ {f : RS K → Nat → RS K} (S : Set Nat) (J : List Nat),
      (∀ s q, q ∈ J → (∀ l, l ∉ S → s.A l = 0) → ∀ l, l ∉ S → (f s q).A l = 0) →
      ∀ s, (∀ l, l ∉ S → s.A l = 0) → ∀ l, l ∉ S → (J.foldl f s).A l = 0 := by
    intro f S J
    induction J with
    | nil => intro _ s h; exact h
    | cons x J ih =>
      intro hf s h
      exact ih (fun s q hq => hf s q (by simp [hq])) _ (hf s x (by simp) h)
  have foldM_inv : ∀ {f : RS K → Nat → Except RStop (RS K)} (S : Set Nat) (J : List Nat),
      (∀ s q s', q ∈ J → f s q = .ok s' → (∀ l, l ∉ S → s.A l = 0) → ∀ l, l ∉ S → s'.A l = 0) →
      ∀ s s', J.foldlM f s = .ok s' → (∀ l, l ∉ S → s.A l = 0) → ∀ l, l ∉ S → s'.A l = 0 := by
    intro f S J
    induction J with
    | nil => intro _ s s' h; cases h; exact id
    | cons x J ih =>
      intro hf s s' h hs
      rw [List.foldlM_cons] at h
      cases h1 : f s x with
      | error e => rw [h1] at h; cases h
      | ok s1 =>
        rw [h1] at h
        exact ih (fun s q s' hq => hf s q s' (by simp [hq])) s1 s' h (hf s x s1 (by simp) h1 hs)
  obtain ⟨T, A, stk, ii, di, bar⟩ := r
  dsimp only at hL
  cases o
  case vecCopy a n r =>
    simp only [revStep] at h
    refine foldM_inv _ _ ?_ _ _ h (fun l hl => hL l fun h => hl (Or.inl h))
    intro s q s' hq h hs l hl
    rw [List.mem_range] at hq
    rw [pop_A h]
    simp only [RS.setA, RS.addA, upd_apply]
    have : l ≠ a + q := by rintro rfl; exact hl (Or.inr ⟨by omega, by omega⟩)
    rw [if_neg this, hs l hl]; split_ifs <;> rfl
  case vecDot a b n r =>
    simp only [revStep] at h
    rw [pop_A h]
    refine fold_inv _ _ ?_ _ (fun l hl => hL l fun h => hl (Or.inl (Or.inl h)))
    intro s q hq hs l hl
    rw [List.mem_range] at hq
    simp only [RS.setA, RS.addA, upd_apply]
    have h1 : l ≠ a + q := by rintro rfl; exact hl (Or.inl (Or.inr ⟨by omega, by omega⟩))
    have h2 : l ≠ b + q := by rintro rfl; exact hl (Or.inr ⟨by omega, by omega⟩)
    rw [if_neg h1, if_neg h2]; exact hs l hl
  case vecAxpy a a1 a2 n r =>
    simp only [revStep] at h
    refine foldM_inv _ _ ?_ _ _ h (fun l hl => hL l fun h => hl (Or.inr (Or.inl (Or.inl h))))
    intro s q s' hq h hs l hl
    rw [List.mem_range] at hq
    rw [pop_A h]
    simp only [RS.setA, RS.addA, upd_apply]
    have h0 : l ≠ a := by rintro rfl; exact hl (Or.inl rfl)
    have h1 : l ≠ a1 + q := by rintro rfl; exact hl (Or.inr (Or.inl (Or.inr ⟨by omega, by omega⟩)))
    have h2 : l ≠ a2 + q := by rintro rfl; exact hl (Or.inr (Or.inr ⟨by omega, by omega⟩))
    rw [if_neg h0, if_neg h1, if_neg h2]; exact hs l hl
  case takeStock r vs =>
    simp only [revStep, Except.ok.injEq] at h
    subst h
    refine fold_inv _ _ ?_ _ hL
    intro s q hq hs l hl
    simp only [RS.setA, upd_apply]
    split_ifs
    · rfl
    · exact hs l hl
  case deathNot a b =>
    simp only [revStep] at h
    refine foldM_inv (f := fun s q => RS.pop (a + q) s) _ _ ?_ _ _ h ?_
    · intro s q s' hq h hs l hl
      rw [pop_A h]; exact hs l hl
    · refine fold_inv _ _ ?_ _ hL
      intro s q hq hs l hl
      simp only [RS.setA, upd_apply]
      split_ifs
      · rfl
      · exact hs l hl
  all_goals
    clear fold_inv foldM_inv pop_A
    rcases stk with _ | ⟨x, _ | ⟨y, st⟩⟩
  all_goals
    simp only [revStep, RS.pop, RS.un, RS.setA, RS.addA] at h
  all_goals first
    | (cases h; done)
    | skip
  all_goals
    try split_ifs at h
  all_goals
    cases h
    intro l hl
    have hA := hL l
    clear hL
    simp only [Base.adjStep, Set.mem_insert_iff, Set.mem_diff, Set.mem_singleton_iff, not_or,
      not_and_or, not_not] at hl
    first
      | exact hA hl
      | exact hA hl.2
      | exact hA hl.2.2
      | (simp only [upd_apply]; split_ifs <;> first | rfl | tauto | (simp_all; done))

end Verif.AD
