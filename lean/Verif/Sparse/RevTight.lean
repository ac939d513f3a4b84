import Verif.Sparse.RevCov

/-!
Soundness of `int_reverse_tight`.  As long as every operation fetches the value the forward sweep
has kept for it, the values the sweep uses are those of `fos_reverse` (`TCov`).  After an operation that
does not fetch its value (`a / b` of two variables, `x = c / x`, `x = pow(x, c)` in place) the values are
no longer right, but the bit patterns are still sound as long as no operation looks at the values
(`DCov`).
-/
set_option linter.all false
namespace Verif.Sparse
open Verif.AD Elem

variable {K : Type} [Scalar K] {n p l b : Nat}

/-- The operation fetches its value from the stack in `int_reverse_tight`. -/
def Base.fetches : Base K → Prop
  | .divAA _ _ _ => False
  | .divDA a r _ => a ≠ r
  | .powOp a r _ => a ≠ r
  | .vecCopy _ _ _ | .vecDot _ _ _ _ | .vecAxpy _ _ _ _ _ => False
  | _ => True

/-- The bit pattern update of the operation depends on the values (`fmin`, `fabs`, the
conditional assignments); vector operations and references are excluded too. -/
def Base.looks : Base K → Prop
  | .minOp _ _ _ _ | .absVal _ _ _ => True
  | .condAssign _ _ _ _ _ | .condEqAssign _ _ _ _ _ => True
  | .condAssignS _ _ _ _ | .condEqAssignS _ _ _ _ => True
  | .vecCopy _ _ _ | .vecDot _ _ _ _ | .vecAxpy _ _ _ _ _ | .setRef _ _ => True
  | _ => False

theorem TRS.pop_b {a : Nat} {s s' : TRS K} (h : s.pop a = .ok s') : s'.b = s.b := by
  unfold TRS.pop at h
  split at h <;> cases h
  rfl

theorem TRS.pops_b {g : Nat → Nat} (J : List Nat) {s s' : TRS K}
    (h : J.foldlM (fun s q => TRS.pop (g q) s) s = .ok s') : s'.b = s.b := by
  induction J generalizing s with
  | nil => cases h; rfl
  | cons q J ih =>
    rw [List.foldlM_cons] at h
    cases h1 : s.pop (g q) with
    | error e => rw [h1] at h; cases h
    | ok s1 => rw [h1] at h; rw [ih h, TRS.pop_b h1]

theorem TRS.foldl_b {g : Nat → (Nat → Word) → Nat → Word} (J : List Nat) (s : TRS K) :
    (J.foldl (fun s q => s.loop p (g q)) s).b = J.foldl (fun s q => s.loop p (g q)) s.b := by
  induction J generalizing s with
  | nil => rfl
  | cons q J ih => rw [List.foldl_cons, List.foldl_cons, ih]; rfl

theorem TRS.foldl_v {g : Nat → (Nat → Word) → Nat → Word} (J : List Nat) (s : TRS K) :
    (J.foldl (fun s q => s.loop p (g q)) s).T = s.T ∧ (J.foldl (fun s q => s.loop p (g q)) s).stk = s.stk := by
  induction J generalizing s with
  | nil => exact ⟨rfl, rfl⟩
  | cons q J ih => rw [List.foldl_cons]; exact ih _

theorem RS.foldl_v {g : Nat → Nat} (J : List Nat) (s : RS K) :
    (J.foldl (fun s q => s.setA (g q) 0) s).T = s.T ∧ (J.foldl (fun s q => s.setA (g q) 0) s).stk = s.stk := by
  induction J generalizing s with
  | nil => exact ⟨rfl, rfl⟩
  | cons q J ih => rw [List.foldl_cons]; exact ih _

/-- Where the values do not matter the tight sweep updates the bit patterns as the safe one does. -/
theorem tight_safe_step {X : Nat → Nat → Word} {o : Base K} {s s' : TRS K} (ho : ¬ Base.looks o)
    (h : revTightStep p X o s = .ok s') : revSafeStep p X o s.b = .ok s'.b := by
  cases o
  all_goals first | exact absurd trivial ho | skip
  all_goals simp only [revTightStep] at h
  all_goals simp only [revSafeStep]
  case divDA a r k =>
    split_ifs at h
    · rw [TRS.pop_b h]; rfl
    · cases h; rfl
  case powOp a r k =>
    split_ifs at h
    · rw [TRS.pop_b h]; rfl
    · cases h; rfl
  case sinOp a c r =>
    split at h
    · cases h
    rename_i s1 h1
    rw [TRS.pop_b h, TRS.pop_b h1]; rfl
  case cosOp a c r =>
    split at h
    · cases h
    rename_i s1 h1
    rw [TRS.pop_b h, TRS.pop_b h1]; rfl
  case takeStock r vs => cases h; rw [TRS.foldl_b]
  case deathNot a c => rw [TRS.pops_b _ h, TRS.foldl_b]
  all_goals
    first
    | (cases h; rfl; done)
    | (rw [TRS.pop_b h]; done)
    | (rw [TRS.pop_b h]; rfl)

/-- Same values and same stack. -/
def SameV (s : TRS K) (r : RS K) : Prop := s.T = r.T ∧ s.stk = r.stk

theorem SameV.pop {s : TRS K} {r r' : RS K} {a : Nat} (h : SameV s r) (hr : r.pop a = .ok r') :
    ∃ s', s.pop a = .ok s' ∧ SameV s' r' := by
  obtain ⟨h1, h2⟩ := h
  unfold RS.pop at hr
  unfold TRS.pop
  rw [h2]
  split at hr <;> cases hr
  rename_i x st hst
  rw [hst]
  exact ⟨_, rfl, congrArg (upd · a x) h1, rfl⟩

theorem SameV.pops {g : Nat → Nat} (J : List Nat) {s : TRS K} {r r' : RS K} (h : SameV s r)
    (hr : J.foldlM (fun s q => RS.pop (g q) s) r = .ok r') :
    ∃ s', J.foldlM (fun s q => TRS.pop (g q) s) s = .ok s' ∧ SameV s' r' := by
  induction J generalizing s r with
  | nil => cases hr; exact ⟨s, rfl, h⟩
  | cons q J ih =>
    rw [List.foldlM_cons] at hr ⊢
    cases h1 : r.pop (g q) with
    | error e => rw [h1] at hr; cases hr
    | ok r1 =>
      rw [h1] at hr
      obtain ⟨s1, h2, h3⟩ := h.pop h1
      rw [h2]
      exact ih h3 hr

theorem sameV_step {u : Nat → K} {X : Nat → Nat → Word} {o : Base K} {s : TRS K} {r r' : RS K}
    (ho : Base.fetches o) (h : SameV s r) (hr : revStep u o r = .ok r') :
    ∃ s', revTightStep p X o s = .ok s' ∧ SameV s' r' := by
  have hT := h.1
  have hK := h.2
  cases o
  all_goals simp only [revStep] at hr
  all_goals first | exact (show False from ho).elim | skip
  all_goals simp only [revTightStep]
  case cmp => cases hr; exact ⟨s, rfl, h⟩
  case assignDep => cases hr; exact ⟨_, rfl, h⟩
  case assignInd r0 =>
    split at hr
    · cases hr
    rename_i r1 h1
    cases hr
    refine SameV.pop (r' := r1) ?_ h1; exact h
  case eqMultA a r0 =>
    split at hr
    · cases hr
    rename_i r1 h1
    cases hr
    (refine SameV.pop (r' := r1) ?_ h1; exact h)
  case multAA a c r0 =>
    split at hr
    · cases hr
    rename_i r1 h1
    cases hr
    (refine SameV.pop (r' := r1) ?_ h1; exact h)
  case eqPlusProd a c r0 => cases hr; exact ⟨_, rfl, by simp only [RS.addA, RS.setA, hT], hK⟩
  case eqMinProd a c r0 => cases hr; exact ⟨_, rfl, by simp only [RS.addA, RS.setA, hT], hK⟩
  case divDA a r0 k =>
    have ha : a ≠ r0 := ho
    rw [if_neg ha] at hr
    rw [if_pos ha]
    (refine SameV.pop ?_ hr; exact h)
  case powOp a r0 k =>
    have ha : a ≠ r0 := ho
    rw [if_neg ha] at hr
    rw [if_pos (Ne.symm ha)]
    (refine SameV.pop ?_ hr; exact h)
  case sinOp a c r0 =>
    split at hr
    · cases hr
    rename_i r1 h1
    obtain ⟨s1, h2, h3⟩ := SameV.pop (s := s.loop p (bUn a r0)) (by exact h) h1
    rw [h2]
    exact h3.pop hr
  case cosOp a c r0 =>
    split at hr
    · cases hr
    rename_i r1 h1
    obtain ⟨s1, h2, h3⟩ := SameV.pop (s := s.loop p (bUn a r0)) (by exact h) h1
    rw [h2]
    exact h3.pop hr
  case quad q a c r0 =>
    split at hr
    · cases hr
    rename_i r1 h1
    cases hr
    (refine SameV.pop (r' := r1) ?_ h1; exact h)
  case logOp a r0 =>
    split at hr
    · cases hr
    rename_i r1 h1
    cases hr
    (refine SameV.pop (r' := r1) ?_ h1; exact h)
  case minOp a c r0 k =>
    split at hr
    · cases hr
    rename_i r1 h1
    obtain ⟨s1, h2, h3⟩ := SameV.pop h h1
    rw [h2]
    simp only [h3.1]
    split_ifs at hr ⊢ <;> cases hr <;> exact ⟨_, rfl, h3⟩
  case absVal a r0 k =>
    split at hr
    · cases hr
    rename_i r1 h1
    obtain ⟨s1, h2, h3⟩ := SameV.pop h h1
    rw [h2]
    simp only [h3.1]
    split_ifs at hr ⊢ <;> cases hr <;> exact ⟨_, rfl, h3⟩
  case ceilOp a r0 k =>
    split at hr
    · cases hr
    rename_i r1 h1
    cases hr
    (refine SameV.pop (r' := r1) ?_ h1; exact h)
  case floorOp a r0 k =>
    split at hr
    · cases hr
    rename_i r1 h1
    cases hr
    (refine SameV.pop (r' := r1) ?_ h1; exact h)
  case condAssign a a1 a2 r0 k =>
    split at hr
    · cases hr
    rename_i r1 h1
    obtain ⟨s1, h2, h3⟩ := SameV.pop h h1
    rw [h2]
    simp only [h3.1]
    split_ifs at hr ⊢ <;> cases hr <;> exact ⟨_, rfl, h3⟩
  case condEqAssign a a1 a2 r0 k =>
    split at hr
    · cases hr
    rename_i r1 h1
    obtain ⟨s1, h2, h3⟩ := SameV.pop h h1
    rw [h2]
    simp only [h3.1]
    split_ifs at hr ⊢ <;> cases hr <;> exact ⟨_, rfl, h3⟩
  case condAssignS a a1 r0 k =>
    split at hr
    · cases hr
    rename_i r1 h1
    obtain ⟨s1, h2, h3⟩ := SameV.pop h h1
    rw [h2]
    simp only [h3.1]
    split_ifs at hr ⊢ <;> cases hr <;> exact ⟨_, rfl, h3⟩
  case condEqAssignS a a1 r0 k =>
    split at hr
    · cases hr
    rename_i r1 h1
    obtain ⟨s1, h2, h3⟩ := SameV.pop h h1
    rw [h2]
    simp only [h3.1]
    split_ifs at hr ⊢ <;> cases hr <;> exact ⟨_, rfl, h3⟩
  case takeStock r0 vs =>
    cases hr
    refine ⟨_, rfl, ?_, ?_⟩
    · rw [(TRS.foldl_v _ s).1, (RS.foldl_v _ r).1]; exact hT
    · rw [(TRS.foldl_v _ s).2, (RS.foldl_v _ r).2]; exact hK
  case deathNot a c =>
    refine SameV.pops _ ⟨?_, ?_⟩ hr
    · rw [(TRS.foldl_v _ s).1, (RS.foldl_v _ r).1]; exact hT
    · rw [(TRS.foldl_v _ s).2, (RS.foldl_v _ r).2]; exact hK
  all_goals
    (refine SameV.pop ?_ hr; exact h)

/-- The stack of the tight sweep is at least as long. -/
def LenV (s : TRS K) (r : RS K) : Prop := r.stk.length ≤ s.stk.length

theorem LenV.pop {s : TRS K} {r r' : RS K} {a : Nat} (h : LenV s r) (hr : r.pop a = .ok r') :
    ∃ s', s.pop a = .ok s' ∧ LenV s' r' := by
  unfold LenV at h
  unfold RS.pop at hr
  unfold TRS.pop
  split at hr <;> cases hr
  rename_i x st hst
  rw [hst] at h
  cases hs : s.stk with
  | nil => rw [hs] at h; simp at h
  | cons y sy =>
    rw [hs] at h
    simp only [List.length_cons] at h
    exact ⟨_, rfl, show st.length ≤ sy.length by omega⟩

theorem LenV.skip {s : TRS K} {r r' : RS K} {a : Nat} (h : LenV s r) (hr : r.pop a = .ok r') : LenV s r' := by
  unfold LenV at h ⊢
  unfold RS.pop at hr
  split at hr <;> cases hr
  rename_i x st hst
  rw [hst] at h
  simp only [List.length_cons] at h
  show st.length ≤ _
  omega

theorem LenV.pops {g : Nat → Nat} (J : List Nat) {s : TRS K} {r r' : RS K} (h : LenV s r)
    (hr : J.foldlM (fun s q => RS.pop (g q) s) r = .ok r') :
    ∃ s', J.foldlM (fun s q => TRS.pop (g q) s) s = .ok s' ∧ LenV s' r' := by
  induction J generalizing s r with
  | nil => cases hr; exact ⟨s, rfl, h⟩
  | cons q J ih =>
    rw [List.foldlM_cons] at hr ⊢
    cases h1 : r.pop (g q) with
    | error e => rw [h1] at hr; cases hr
    | ok r1 =>
      rw [h1] at hr
      obtain ⟨s1, h2, h3⟩ := h.pop h1
      rw [h2]
      exact ih h3 hr

theorem lenV_step {u : Nat → K} {X : Nat → Nat → Word} {o : Base K} {s : TRS K} {r r' : RS K}
    (ho : ¬ Base.looks o) (h : LenV s r) (hr : revStep u o r = .ok r') :
    ∃ s', revTightStep p X o s = .ok s' ∧ LenV s' r' := by
  cases o
  all_goals first | exact absurd trivial ho | skip
  all_goals simp only [revStep] at hr
  all_goals simp only [revTightStep]
  case cmp => cases hr; exact ⟨s, rfl, h⟩
  case assignDep => cases hr; exact ⟨_, rfl, h⟩
  case assignInd r0 =>
    split at hr
    · cases hr
    rename_i r1 h1
    cases hr
    refine LenV.pop (r' := r1) ?_ h1; exact h
  case eqPlusProd a c r0 => cases hr; exact ⟨_, rfl, h⟩
  case eqMinProd a c r0 => cases hr; exact ⟨_, rfl, h⟩
  case divAA a c r0 =>
    split at hr
    · cases hr
    rename_i r1 h1
    cases hr
    exact ⟨_, rfl, LenV.skip (s := s.loop p _) (r := r) (r' := r1) h h1⟩
  case divDA a r0 k =>
    by_cases ha : a = r0
    · rw [if_pos ha] at hr
      rw [if_neg (fun h => h ha)]
      split at hr
      · cases hr
      rename_i r1 h1
      cases hr
      exact ⟨_, rfl, LenV.skip (s := s.loop p _) (r := r) (r' := r1) h h1⟩
    · rw [if_neg ha] at hr
      rw [if_pos ha]
      (refine LenV.pop ?_ hr; exact h)
  case powOp a r0 k =>
    by_cases ha : a = r0
    · rw [if_pos ha] at hr
      rw [if_neg (fun h => h ha.symm)]
      split at hr
      · cases hr
      rename_i r1 h1
      cases hr
      exact ⟨_, rfl, LenV.skip (s := s.loop p _) (r := r) (r' := r1) h h1⟩
    · rw [if_neg ha] at hr
      rw [if_pos (Ne.symm ha)]
      (refine LenV.pop ?_ hr; exact h)
  case eqMultA a r0 =>
    split at hr
    · cases hr
    rename_i r1 h1
    cases hr
    (refine LenV.pop (r' := r1) ?_ h1; exact h)
  case multAA a c r0 =>
    split at hr
    · cases hr
    rename_i r1 h1
    cases hr
    (refine LenV.pop (r' := r1) ?_ h1; exact h)
  case sinOp a c r0 =>
    split at hr
    · cases hr
    rename_i r1 h1
    obtain ⟨s1, h2, h3⟩ := LenV.pop (s := s.loop p (bUn a r0)) (by exact h) h1
    rw [h2]
    exact h3.pop hr
  case cosOp a c r0 =>
    split at hr
    · cases hr
    rename_i r1 h1
    obtain ⟨s1, h2, h3⟩ := LenV.pop (s := s.loop p (bUn a r0)) (by exact h) h1
    rw [h2]
    exact h3.pop hr
  case quad q a c r0 =>
    split at hr
    · cases hr
    rename_i r1 h1
    cases hr
    (refine LenV.pop (r' := r1) ?_ h1; exact h)
  case logOp a r0 =>
    split at hr
    · cases hr
    rename_i r1 h1
    cases hr
    (refine LenV.pop (r' := r1) ?_ h1; exact h)
  case ceilOp a r0 k =>
    split at hr
    · cases hr
    rename_i r1 h1
    cases hr
    (refine LenV.pop (r' := r1) ?_ h1; exact h)
  case floorOp a r0 k =>
    split at hr
    · cases hr
    rename_i r1 h1
    cases hr
    (refine LenV.pop (r' := r1) ?_ h1; exact h)
  case takeStock r0 vs =>
    cases hr
    refine ⟨_, rfl, ?_⟩
    unfold LenV
    rw [(TRS.foldl_v _ s).2, (RS.foldl_v _ r).2]; exact h
  case deathNot a c =>
    refine LenV.pops _ ?_ hr
    unfold LenV
    rw [(TRS.foldl_v _ s).2, (RS.foldl_v _ r).2]; exact h
  all_goals
    (refine LenV.pop ?_ hr; exact h)

theorem revOk_of_not_looks {o : Base K} (ho : ¬ Base.looks o) : Base.revOk o := by
  cases o <;> first | trivial | exact absurd trivial ho

/-- Phase 1: the values are right. -/
theorem tcov_step {u : Nat → K} {X : Nat → Nat → Word} {o : Base K} {s : TRS K} {r r' : RS K}
    (hl : l < p) (hX : ∀ j, (X l j).getLsbD b = false → u j = 0) (ho : Base.fetches o)
    (h : RCov n l b s.b r) (hv : SameV s r) (hr : revStep u o r = .ok r') :
    ∃ s', revTightStep p X o s = .ok s' ∧ RCov n l b s'.b r' ∧ SameV s' r' := by
  obtain ⟨s', h1, h2⟩ := sameV_step (p := p) (X := X) ho hv hr
  refine ⟨s', h1, ?_, h2⟩
  by_cases hlk : Base.looks o
  · cases o
    all_goals first | exact (show False from hlk).elim | exact (show False from ho).elim | skip
    all_goals simp only [revStep] at hr
    all_goals simp only [revTightStep] at h1
    case setRef r0 k => rw [TRS.pop_b h1]; exact h.pop hr
    case minOp a c r0 k =>
      split at hr
      · cases hr
      rename_i r1 g1
      obtain ⟨s1, g2, g3⟩ := SameV.pop hv g1
      rw [g2] at h1
      have hp : RCov n l b s1.b r1 := by rw [TRS.pop_b g2]; exact h.pop g1
      have hA := hp.A
      simp only [g3.1] at h1
      split_ifs at hr h1 <;> cases hr <;> cases h1
      · exact hp.A' hl (hA.un c r0 fun h => h) rfl rfl rfl
      · exact hp.A' hl (hA.un a r0 fun h => h) rfl rfl rfl
      · exact hp.A' hl (hA.bin c a r0 (fun h => by rw [h, zero_div]) (fun h => by rw [h, zero_div])) rfl rfl rfl
    case absVal a r0 k =>
      split at hr
      · cases hr
      rename_i r1 g1
      obtain ⟨s1, g2, g3⟩ := SameV.pop hv g1
      rw [g2] at h1
      have hp : RCov n l b s1.b r1 := by rw [TRS.pop_b g2]; exact h.pop g1
      have hA := hp.A
      simp only [g3.1] at h1
      split_ifs at hr h1 <;> cases hr <;> cases h1
      · exact hp.A' hl (hA.un a r0 fun h => by rw [h, neg_zero]) rfl rfl rfl
      · exact hp.A' hl (hA.un a r0 fun h => h) rfl rfl rfl
      · exact hp.A' hl (hA.clr r0) rfl rfl rfl
    all_goals
      split at hr
      · cases hr
      rename_i r1 g1
      obtain ⟨s1, g2, g3⟩ := SameV.pop hv g1
      rw [g2] at h1
      have hp : RCov n l b s1.b r1 := by rw [TRS.pop_b g2]; exact h.pop g1
      have hA := hp.A
      simp only [g3.1] at h1
      split_ifs at hr h1 <;> cases hr <;> cases h1
      all_goals first
        | exact hp
        | exact hp.A' hl ((hA.orR _ fun h => h).clr _) rfl rfl rfl
  · exact rcov_step hl hX (revOk_of_not_looks hlk) h (tight_safe_step hlk h1) hr

theorem tcov_run {u : Nat → K} {X : Nat → Nat → Word} (hl : l < p)
    (hX : ∀ j, (X l j).getLsbD b = false → u j = 0) {ops : List (Base K)} (hok : ∀ o ∈ ops, Base.fetches o)
    {s : TRS K} {r r' : RS K} (h : RCov n l b s.b r) (hv : SameV s r) (hr : revRun u ops r = .ok r') :
    ∃ s', revTightRun p X ops s = .ok s' ∧ RCov n l b s'.b r' ∧ SameV s' r' := by
  induction ops generalizing r' with
  | nil => cases hr; exact ⟨s, rfl, h, hv⟩
  | cons o os ih =>
    simp only [revRun] at hr
    split at hr
    · cases hr
    rename_i r1 h3
    obtain ⟨s1, h1, h2, h4⟩ := ih (fun o h => hok o (List.mem_cons_of_mem _ h)) h3
    simp only [revTightRun, h1]
    exact tcov_step hl hX (hok o (by simp)) h2 h4 hr

/-- Phase 2: the values do not matter. -/
theorem dcov_run {u : Nat → K} {X : Nat → Nat → Word} (hl : l < p)
    (hX : ∀ j, (X l j).getLsbD b = false → u j = 0) {ops : List (Base K)} (hok : ∀ o ∈ ops, ¬ Base.looks o)
    {s : TRS K} {r r' : RS K} (h : RCov n l b s.b r) (hv : LenV s r) (hr : revRun u ops r = .ok r') :
    ∃ s', revTightRun p X ops s = .ok s' ∧ RCov n l b s'.b r' ∧ LenV s' r' := by
  induction ops generalizing r' with
  | nil => cases hr; exact ⟨s, rfl, h, hv⟩
  | cons o os ih =>
    simp only [revRun] at hr
    split at hr
    · cases hr
    rename_i r1 h3
    obtain ⟨s1, h1, h2, h4⟩ := ih (fun o h => hok o (List.mem_cons_of_mem _ h)) h3
    simp only [revTightRun, h1]
    obtain ⟨s2, h5, h6⟩ := lenV_step (p := p) (X := X) (hok o (by simp)) h4 hr
    exact ⟨s2, h5, rcov_step hl hX (revOk_of_not_looks (hok o (by simp))) h2
      (tight_safe_step (hok o (by simp)) h5) hr, h6⟩

theorem revRun_append (u : Nat → K) (a c : List (Base K)) (r : RS K) :
    revRun u (a ++ c) r = (match revRun u c r with
      | .error e => .error e
      | .ok r' => revRun u a r') := by
  induction a with
  | nil => simp only [List.nil_append, revRun]; split <;> simp_all
  | cons o os ih =>
    simp only [List.cons_append, revRun, ih]
    cases revRun u c r <;> rfl

theorem revTightRun_append (X : Nat → Nat → Word) (a c : List (Base K)) (s : TRS K) :
    revTightRun p X (a ++ c) s = (match revTightRun p X c s with
      | .error e => .error e
      | .ok s' => revTightRun p X a s') := by
  induction a with
  | nil => simp only [List.nil_append, revTightRun]; split <;> simp_all
  | cons o os ih =>
    simp only [List.cons_append, revTightRun, ih]
    cases revTightRun p X c s <;> rfl

/-- Traces for which `int_reverse_tight` is sound: an operation whose pattern depends on the values
must not precede an operation that does not fetch its value. -/
def tightOk (ops : List (Base K)) : Prop :=
  ∃ pre post, ops = pre ++ post ∧ (∀ o ∈ pre, ¬ Base.looks o) ∧ ∀ o ∈ post, Base.fetches o

theorem tight_run {u : Nat → K} {X : Nat → Nat → Word} (hl : l < p)
    (hX : ∀ j, (X l j).getLsbD b = false → u j = 0) {ops : List (Base K)} (hok : tightOk ops)
    {s : TRS K} {r r' : RS K} (h : RCov n l b s.b r) (hv : SameV s r) (hr : revRun u ops r = .ok r') :
    ∃ s', revTightRun p X ops s = .ok s' ∧ RCov n l b s'.b r' := by
  obtain ⟨pre, post, rfl, h1, h2⟩ := hok
  rw [revRun_append] at hr
  rw [revTightRun_append]
  split at hr
  · cases hr
  rename_i r1 h3
  obtain ⟨s1, h4, h5, h6⟩ := tcov_run hl hX h2 h hv h3
  rw [h4]
  obtain ⟨s2, h7, h8, _⟩ := dcov_run hl hX h1 h5 (show LenV s1 r1 from by unfold LenV; rw [h6.2]) hr
  exact ⟨s2, h7, h8⟩

end Verif.Sparse
