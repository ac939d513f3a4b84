import Verif.Sparse.HessOld
import Verif.Sparse.HessAbs
import Verif.Sparse.HessRun

/-! The sweeps of the modes `OldSafe` and `OldTight` on recorded traces. -/
set_option linter.all false
namespace Verif.Sparse
open Verif.AD Elem Filter Topology ContDiff

section
variable {K : Type} [Scalar K]

/-- Operations covered: no vector operations and references, and not `erf_op`, `erfc_op`, which record no interaction. -/
def oldOk : Base K → Prop
  | .quad .erf _ _ _ | .quad .erfc _ _ _ => False
  | .vecCopy _ _ _ | .vecDot _ _ _ _ | .vecAxpy _ _ _ _ _ | .setRef _ _ => False
  | _ => True

theorem oldStep_eq {T : Option (Nat → K)} {o : Base K} (ho : oldOk o) {s s' : OS} (h : oldStep T o s = .ok s') :
    (isDep o = true ∧ s' = s) ∨ (isDep o = false ∧ ∃ d, idStep T o s.is = .ok d ∧ OS.exts (oldExts o) { s with is := d } = .ok s') := by
  cases o
  case assignDep => left; cases h; exact ⟨rfl, rfl⟩
  case vecDot => exact ho.elim
  case vecAxpy => exact ho.elim
  all_goals
    right
    refine ⟨rfl, ?_⟩
    unfold oldStep at h
    simp only at h
    split at h
    · cases h
    · rename_i d hd; exact ⟨d, hd, h⟩

theorem oldExts_swap (o : Base K) (p : Nat × Nat) (h : p ∈ oldExts o) : (p.2, p.1) ∈ oldExts o := by
  cases o
  case quad q a b r => cases q <;> simp_all [oldExts, unaryP, binaryP]
  all_goals simp only [oldExts, unaryP, binaryP, List.cons_append, List.nil_append, List.mem_cons, List.not_mem_nil, or_false] at h ⊢
  all_goals first
    | exact h.elim
    | (subst h; simp)
    | (rcases h with rfl | rfl <;> simp)
    | (rcases h with rfl | rfl | rfl <;> simp)

/-! ## Shape of the lists -/

/-- Domains and lists are strictly increasing; rows of independents not met yet are as initialised; while no list
dangles, the interactions recorded are symmetric and concern independents met so far. -/
structure OInv (s : OS) : Prop where
  ok : s.is.Ok
  sort : nsort s.nonl
  new : ∀ k, s.is.ii ≤ k → s.nonl k = some (NUMNNZ, [])
  lt : ∀ i j, s.rel i j → j < s.is.ii
  sym : s.alive → ∀ i j, s.rel i j → s.rel j i

/-- Entries of the lists stem from the domains. -/
theorem extOne_lt {L : List Nat} {i n : Nat} {nl nl' : Nat → Option (Nat × List Nat)} (h : extOne L i nl = .ok nl')
    (hL : ∀ j ∈ L, j < n) (hn : ∀ k j, nrel nl k j → j < n) : ∀ k j, nrel nl' k j → j < n := by
  unfold extOne at h
  split at h
  · cases h
  all_goals rename_i hi
  · split at h
    all_goals
      cases h
      rintro k j ⟨cap', L', hk, hj⟩
      rw [upd_apply] at hk
      split_ifs at hk
    · exact hn k j ⟨_, _, hk, hj⟩
    · cases hk; exact hL j hj
    · exact hn k j ⟨_, _, hk, hj⟩
  · cases h
    rintro k j ⟨cap', L', hk, hj⟩
    rw [upd_apply] at hk
    by_cases hki : k = i
    · rw [if_pos hki] at hk
      simp only [Option.some.injEq, Prod.mk.injEq] at hk
      obtain ⟨_, rfl⟩ := hk
      rcases (mem_mergeU _ _ _).1 hj with hj | hj
      · exact hL j hj
      · exact hn i j ⟨_, _, hi, hj⟩
    · rw [if_neg hki] at hk; exact hn k j ⟨_, _, hk, hj⟩

theorem exts_lt {ps : List (Nat × Nat)} {s s' : OS} {n : Nat} (h : OS.exts ps s = .ok s')
    (hL : ∀ a, ∀ j ∈ s.is.dom a, j < n) (hn : ∀ k j, s.rel k j → j < n) : ∀ k j, s'.rel k j → j < n := by
  induction ps generalizing s with
  | nil => cases h; exact hn
  | cons p ps ih =>
    obtain ⟨a, b⟩ := p
    simp only [OS.exts] at h
    split at h
    · cases h
    · rename_i s1 h1
      unfold OS.ext at h1
      split at h1
      · cases h1
      · rename_i nl h2
        cases h1
        refine ih h hL ?_
        show ∀ k j, nrel nl k j → j < n
        have hn' : ∀ k j, nrel s.nonl k j → j < n := hn
        clear h hn ih
        revert h2 hn'
        generalize s.is.dom a = A
        generalize s.nonl = nl0
        intro h2 hn'
        induction A generalizing nl0 with
        | nil => cases h2; exact hn'
        | cons i A ih =>
          simp only [extLoop] at h2
          split at h2
          · cases h2
          · rename_i nl1 h3
            exact ih nl1 h2 (extOne_lt h3 (hL b) hn')

theorem old_step_inv {T : Option (Nat → K)} {o : Base K} (ho : oldOk o) {s s' : OS} (h : OInv s) (hn : oldStep T o s = .ok s') :
    OInv s' ∧ s'.is.ii = s.is.ii + o.nInd ∧ (s'.alive → s.alive) := by
  rcases oldStep_eq ho hn with ⟨h1, rfl⟩ | ⟨h1, d, h2, h3⟩
  · refine ⟨h, ?_, id⟩
    cases o <;> simp_all [isDep, Base.nInd]
  · have hns : noStop o := by
      cases o
      case genQuad => cases h2
      case setRef => exact ho
      all_goals trivial
    obtain ⟨d', k1, k2, k3, k4⟩ := idStep_total T hns h.ok
    rw [h2] at k1; cases k1
    obtain ⟨e1, e2, e3, e4⟩ := exts_spec h3
    simp only at e1 e2 e3 e4
    have hle : s.is.ii ≤ d.ii := by omega
    refine ⟨⟨by rw [e1]; exact k2, e3 (fun a => (k2.dom a).1) h.sort, fun k hk => ?_, fun i j hij => ?_, fun ha i j hij => ?_⟩,
      by rw [e1, k4], fun ha => (e2 ha).1⟩
    · rw [e1] at hk
      rw [e4 k fun a hka => by have := (k2.dom a).2 k hka; omega]
      exact h.new k (hle.trans hk)
    · rw [e1]
      exact exts_lt h3 (fun a => (k2.dom a).2) (fun k j hkj => lt_of_lt_of_le (h.lt k j hkj) hle) i j hij
    · obtain ⟨f1, f2⟩ := e2 ha
      rcases (f2 i j).1 hij with g | ⟨p, hp, g1, g2⟩
      · exact (f2 j i).2 (.inl (h.sym f1 i j g))
      · exact (f2 j i).2 (.inr ⟨_, oldExts_swap o p hp, g2, g1⟩)

/-- With at most `NUMNNZ` independents the sweep does not fail. -/
theorem old_step_total {T : Option (Nat → K)} {o : Base K} (ho : oldOk o) (hns : noStop o) {s : OS} (h : OInv s) (ha : s.alive)
    (hn : s.is.ii + o.nInd ≤ NUMNNZ) : ∃ s', oldStep T o s = .ok s' ∧ s'.alive := by
  by_cases hd : isDep o = true
  · cases o <;> simp [isDep] at hd
    exact ⟨s, rfl, ha⟩
  · obtain ⟨d, k1, k2, k3, k4⟩ := idStep_total T hns h.ok
    obtain ⟨s', g1, g2⟩ := exts_total (ps := oldExts o) (s := { s with is := d })
      (fun a => ⟨(k2.dom a).1, (sorted_length (k2.dom a).1 (k2.dom a).2).trans (by omega)⟩) ha h.sort
    refine ⟨s', ?_, g2⟩
    cases o <;> first
      | exact ho.elim
      | (simp only [isDep] at hd; exact absurd trivial hd)
      | (unfold oldStep; simp only [k1]; exact g1)

theorem old_safe_inv {ops : List (Base K)} (ho : ∀ o ∈ ops, oldOk o) {s s' : OS} (h : OInv s) (hn : oldSafeRun ops s = .ok s') :
    OInv s' ∧ s'.is.ii = s.is.ii + numInd ops ∧ (s'.alive → s.alive) := by
  induction ops generalizing s with
  | nil => cases hn; exact ⟨h, rfl, id⟩
  | cons o os ih =>
    simp only [oldSafeRun] at hn
    split at hn
    · cases hn
    · rename_i s1 h1
      obtain ⟨a1, a2, a3⟩ := old_step_inv (ho o (by simp)) h h1
      obtain ⟨b1, b2, b3⟩ := ih (fun o h => ho o (List.mem_cons_of_mem _ h)) a1 hn
      refine ⟨b1, ?_, a3 ∘ b3⟩
      rw [b2, a2]; simp only [numInd, List.map_cons, List.sum_cons]; omega

theorem old_tight_inv {c : Cfg K} {ops : List (Base K)} (ho : ∀ o ∈ ops, oldOk o) {z : ZS K} {s s' : OS} (h : OInv s)
    (hn : oldTightRun c ops z s = .ok s') : OInv s' ∧ s'.is.ii = s.is.ii + numInd ops ∧ (s'.alive → s.alive) := by
  induction ops generalizing s z with
  | nil => cases hn; exact ⟨h, rfl, id⟩
  | cons o os ih =>
    simp only [oldTightRun] at hn
    split at hn
    · cases hn
    · split at hn
      · cases hn
      · rename_i s1 h1
        obtain ⟨a1, a2, a3⟩ := old_step_inv (ho o (by simp)) h h1
        obtain ⟨b1, b2, b3⟩ := ih (fun o h => ho o (List.mem_cons_of_mem _ h)) a1 hn
        refine ⟨b1, ?_, a3 ∘ b3⟩
        rw [b2, a2]; simp only [numInd, List.map_cons, List.sum_cons]; omega

theorem old_safe_total {ops : List (Base K)} (ho : ∀ o ∈ ops, oldOk o ∧ noStop o) {s : OS} (h : OInv s) (ha : s.alive)
    (hn : s.is.ii + numInd ops ≤ NUMNNZ) : ∃ s', oldSafeRun ops s = .ok s' ∧ s'.alive := by
  induction ops generalizing s with
  | nil => exact ⟨s, rfl, ha⟩
  | cons o os ih =>
    simp only [numInd, List.map_cons, List.sum_cons] at hn
    obtain ⟨s1, h1, h2⟩ := old_step_total (T := (none : Option (Nat → K))) (ho o (by simp)).1 (ho o (by simp)).2 h ha (by omega)
    obtain ⟨a1, a2, _⟩ := old_step_inv (ho o (by simp)).1 h h1
    obtain ⟨s2, b1, b2⟩ := ih (fun o h => ho o (List.mem_cons_of_mem _ h)) a1 h2 (by rw [a2]; simp only [numInd]; omega)
    exact ⟨s2, by simp only [oldSafeRun, h1, b1], b2⟩

theorem old_tight_total {c : Cfg K} {ops : List (Base K)} (ho : ∀ o ∈ ops, oldOk o ∧ noStop o ∧ notCondS o) {s : OS} (h : OInv s) (ha : s.alive)
    (hn : s.is.ii + numInd ops ≤ NUMNNZ) {z z' : ZS K} (hz : zosRun c ops z = .ok z') :
    ∃ s', oldTightRun c ops z s = .ok s' ∧ s'.alive := by
  induction ops generalizing s z with
  | nil => exact ⟨s, rfl, ha⟩
  | cons o os ih =>
    simp only [numInd, List.map_cons, List.sum_cons] at hn
    simp only [zosRun] at hz
    split at hz
    · cases hz
    · rename_i z1 hz1
      obtain ⟨s1, h1, h2⟩ := old_step_total (T := some z.T) (ho o (by simp)).1 (ho o (by simp)).2.1 h ha (by omega)
      obtain ⟨a1, a2, _⟩ := old_step_inv (ho o (by simp)).1 h h1
      obtain ⟨s2, b1, b2⟩ := ih (fun o h => ho o (List.mem_cons_of_mem _ h)) a1 h2 (by rw [a2]; simp only [numInd]; omega) hz
      exact ⟨s2, by simp only [oldTightRun, tightVal_eq (ho o (by simp)).2.2, hz1, h1, b1], b2⟩

/-! ## The rows -/

theorem oldRows_spec {s : OS} (h : OInv s) {n : Nat} (hn : n = s.is.ii) {rows : List (List Nat)} (hr : oldRows n s = .ok rows) :
    s.alive ∧ ∃ cols : Nat → List Nat, rows = (List.range n).map (fun i => (cols i).length :: cols i) ∧
      (∀ i, (cols i).Pairwise (· < ·) ∧ ∀ j ∈ cols i, j < n) ∧ ∀ i j, j ∈ cols i ↔ s.rel i j := by
  set cols : Nat → List Nat := fun i => ((s.nonl i).getD (0, [])).2 with hc
  have key : ∀ (A : List Nat) (rows : List (List Nat)), A.foldr (fun i acc => match s.nonl i, acc with
      | some (_, L), .ok rs => .ok ((L.length :: L) :: rs)
      | none, _ => .error .undef
      | _, .error e => .error e) (.ok []) = (.ok rows : Except NErr (List (List Nat))) →
      (∀ i ∈ A, s.nonl i ≠ none) ∧ rows = A.map (fun i => (cols i).length :: cols i) := by
    intro A
    induction A with
    | nil => intro rows h; cases h; simp
    | cons x A ih =>
      intro rows h
      rw [List.foldr_cons] at h
      split at h
      · rename_i cap L rs h1 h2
        cases h
        obtain ⟨g1, g2⟩ := ih _ h2
        refine ⟨fun i hi => ?_, ?_⟩
        · rcases List.mem_cons.1 hi with rfl | hi
          · rw [h1]; simp
          · exact g1 i hi
        · rw [List.map_cons, ← g2]; simp [hc, h1]
      · cases h
      · cases h
  obtain ⟨k1, k2⟩ := key _ _ hr
  have ha : s.alive := by
    intro i
    by_cases hi : i < n
    · exact k1 i (by simpa using hi)
    · rw [h.new i (by omega)]; simp
  have hrel : ∀ i j, j ∈ cols i ↔ s.rel i j := by
    intro i j
    simp only [hc, OS.rel]
    rcases hq : s.nonl i with _ | ⟨cap, L⟩
    · exact absurd hq (ha i)
    · simp
  refine ⟨ha, cols, k2, fun i => ⟨?_, fun j hj => ?_⟩, hrel⟩
  · simp only [hc]
    rcases hq : s.nonl i with _ | ⟨cap, L⟩
    · simp
    · exact (h.sort i cap L hq).1
  · rw [hn]; exact h.lt i j ((hrel i j).1 hj)

theorem oldRows_total {s : OS} (h : s.alive) (n : Nat) : ∃ rows, oldRows n s = .ok rows := by
  unfold oldRows
  generalize List.range n = A
  induction A with
  | nil => exact ⟨_, rfl⟩
  | cons x A ih =>
    obtain ⟨rows, hr⟩ := ih
    rw [List.foldr_cons, hr]
    rcases hq : s.nonl x with _ | ⟨cap, L⟩
    · exact absurd hq (h x)
    · exact ⟨_, rfl⟩

theorem oinv_init : OInv OS.init := by
  refine ⟨⟨fun a => by simp [OS.init, IS.init], by simp [OS.init, IS.init]⟩, ?_, fun k _ => rfl, ?_, ?_⟩
  · intro i cap L h; cases h; simp [NUMNNZ]
  · rintro i j ⟨cap, L, h, hj⟩; cases h; simp at hj
  · rintro _ i j ⟨cap, L, h, hj⟩; cases h; simp at hj

theorem alive_init : OS.init.alive := fun i => by simp [OS.init]
end

/-! ## All interactions are listed -/

section
variable {n : Nat} {x0 : Fin n → ℝ} {s s' : OS} {S : (Fin n → ℝ) → ZS ℝ}

def OS.D (s : OS) (l i : Nat) : Prop := i ∈ s.is.dom l

/-- What a step of the sweep records suffices. -/
theorem old_step_need {T : Option (Nat → ℝ)} {o : Base ℝ} {t : Nat → ℝ} (hT : ∀ t', T = some t' → t' = t) (ho : oldOk o) (hs : smoothS .ho o t)
    (hd : domOk T o) (ha : s'.alive) (hn : oldStep T o s = .ok s') :
    (∀ l i, needD o t s.is.ii s.D l i → s'.D l i) ∧ (∀ i j, s.rel i j → s'.rel i j) ∧ ∀ i j, needR o s.D i j → s'.rel i j := by
  rcases oldStep_eq ho hn with ⟨h1, rfl⟩ | ⟨h1, d, h2, h3⟩
  · cases o <;> simp_all [isDep, needD, needR]
  · obtain ⟨e1, e2, _, _⟩ := exts_spec h3
    obtain ⟨f1, f2⟩ := e2 ha
    have hD : ∀ l i, s'.D l i ↔ i ∈ d.dom l := fun l i => by simp only [OS.D, e1]
    refine ⟨fun l i hh => (hD l i).2 ?_, fun i j hij => (f2 i j).2 (.inl hij), fun i j hij => (f2 i j).2 (.inr ?_)⟩
    · obtain ⟨hs, -⟩ := hs
      cases o
      all_goals simp only [domOk] at hd
      all_goals simp only [needD, upd_apply] at hh
      case setRef r k => exact ho.elim
      case minOp a b r k =>
        have hs : t a ≠ t b ∨ a = b := hs
        have hc : i ∈ d.dom l ↔ i ∈ d.dom l := Iff.rfl
        cases T with
        | none =>
          have hd' : r ≠ b ∨ r = a := by simpa using hd
          simp only [idStep, Except.ok.injEq] at h2
          subst h2
          simp only [IS.map, mem_combine2 hd']
          split_ifs at hh ⊢ with h4 h5
          · exact .inr hh
          · exact .inl hh
          · exact hh
        | some t' =>
          obtain rfl := hT t' rfl
          simp only [idStep] at h2
          split_ifs at h2 with g1 g2
          · cases h2
            simp only [IS.map, mem_copyDom]
            simp only [g1.not_gt, if_false] at hh
            split_ifs at hh ⊢ <;> exact hh
          · cases h2
            simp only [IS.map, mem_copyDom]
            simp only [g2, if_true] at hh
            split_ifs at hh ⊢ <;> exact hh
          · cases h2
            have hab : a = b := by
              rcases hs with h | h
              · exact absurd (le_antisymm (not_lt.1 g2) (not_lt.1 g1)) h
              · exact h
            subst hab
            simp only [ite_self] at hh
            simp only [IS.map, mem_combine2 (show r ≠ a ∨ r = a from ne_or_eq r a)]
            split_ifs at hh ⊢
            · exact .inl hh
            · exact hh
      case ceilOp a r k | floorOp a r k =>
        cases T <;> simp only [idStep, Except.ok.injEq] at h2 <;> subst h2 <;> simp only [IS.map, mem_copyDom, upd_apply] <;>
          split_ifs at hh ⊢ <;> first | exact hh | exact hh.elim
      case condAssign a a1 a2 r k =>
        have hne : t a ≠ 0 := hs
        cases T with
        | none =>
          have hd' : r ≠ a2 ∨ r = a1 := by simpa using hd
          simp only [idStep, Except.ok.injEq] at h2
          subst h2
          simp only [IS.map, mem_combine2 hd']
          split_ifs at hh ⊢
          · exact .inl hh
          · exact .inr hh
          · exact hh
        | some t' =>
          obtain rfl := hT t' rfl
          simp only [idStep, Except.ok.injEq] at h2
          subst h2
          simp only [IS.map, mem_copyDom]
          split_ifs at hh ⊢ <;> exact hh
      case condEqAssign a a1 a2 r k =>
        have hne : t a ≠ 0 := hs
        cases T with
        | none =>
          have hd' : r ≠ a2 ∨ r = a1 := by simpa using hd
          simp only [idStep, Except.ok.injEq] at h2
          subst h2
          simp only [IS.map, mem_combine2 hd']
          split_ifs at hh ⊢
          · exact .inl hh
          · exact .inr hh
          · exact hh
        | some t' =>
          obtain rfl := hT t' rfl
          simp only [idStep, Except.ok.injEq] at h2
          subst h2
          have hiff : t' a ≥ 0 ↔ t' a > 0 := ⟨fun h => lt_of_le_of_ne h (Ne.symm hne), le_of_lt⟩
          simp only [IS.map, mem_copyDom, hiff]
          split_ifs at hh ⊢ <;> exact hh
      case condAssignS a a1 r k =>
        have hne : t a ≠ 0 := hs
        cases T with
        | none =>
          simp only [idStep, Except.ok.injEq] at h2
          subst h2
          simp only [IS.map, mem_merge2]
          split_ifs at hh ⊢
          · exact .inr hh
          · exact .inl hh
          · exact hh
        | some t' =>
          obtain rfl := hT t' rfl
          simp only [idStep, Except.ok.injEq] at h2
          subst h2
          by_cases h5 : t' a > 0
          · simp only [h5, if_true, IS.map, mem_copyDom] at hh ⊢
            split_ifs at hh ⊢ <;> exact hh
          · simp only [h5, if_false] at hh ⊢
            split_ifs at hh with h6
            · rw [h6]; exact hh
            · exact hh
      case condEqAssignS a a1 r k =>
        have hne : t a ≠ 0 := hs
        cases T with
        | none =>
          simp only [idStep, Except.ok.injEq] at h2
          subst h2
          simp only [IS.map, mem_merge2]
          split_ifs at hh ⊢
          · exact .inr hh
          · exact .inl hh
          · exact hh
        | some t' =>
          obtain rfl := hT t' rfl
          have hiff : t' a ≥ 0 ↔ t' a > 0 := ⟨fun h => lt_of_le_of_ne h (Ne.symm hne), le_of_lt⟩
          simp only [idStep, Except.ok.injEq, hiff] at h2
          subst h2
          by_cases h5 : t' a > 0
          · simp only [h5, if_true, IS.map, mem_copyDom] at hh ⊢
            split_ifs at hh ⊢ <;> exact hh
          · simp only [h5, if_false] at hh ⊢
            split_ifs at hh with h6
            · rw [h6]; exact hh
            · exact hh
      case assignInd r =>
        simp only [idStep, Except.ok.injEq] at h2
        subst h2
        simp only [IS.map, upd_apply]
        split_ifs at hh ⊢
        · simpa using hh
        · exact hh
      case plusAA a b r | minAA a b r | multAA a b r | divAA a b r =>
        simp only [idStep, Except.ok.injEq] at h2
        subst h2
        simp only [IS.map, mem_combine2 hd]
        split_ifs at hh ⊢ <;> exact hh
      case genQuad => cases h2
      case assignDep => simp [isDep] at h1
      all_goals
        simp only [idStep, Except.ok.injEq] at h2
        subst h2
        try simp only [IS.map, mem_copyDom, mem_merge2, mem_merge3, upd_apply]
        first
          | exact hh
          | (split_ifs at hh ⊢ <;> first | exact hh | exact hh.elim)
    · obtain ⟨hs, -⟩ := hs
      cases o
      case multAA a b r | divAA a b r =>
        simp only [needR, domOk, OS.D] at hij hd
        simp only [idStep, Except.ok.injEq] at h2
        subst h2
        have hh : ∀ l i, i ∈ s.is.dom l → l = a ∨ l = b → i ∈ (s.is.map (combine2 r a b)).dom l := by
          intro l i hi hl
          simp only [IS.map, mem_combine2 hd]
          split_ifs with hlr
          · rcases hl with rfl | rfl
            exacts [.inl hi, .inr hi]
          · exact hi
        simp only [oldExts, binaryP, unaryP, List.cons_append, List.nil_append, List.mem_cons, List.not_mem_nil, or_false, exists_eq_or_imp, exists_eq_left]
        rcases hij with ⟨g1, g2⟩ | hij
        · exact .inl ⟨hh a i g1 (.inl rfl), hh b j g2 (.inr rfl)⟩
        · first
            | exact .inr ⟨hh b i hij.1 (.inr rfl), hh a j hij.2 (.inl rfl)⟩
            | (rcases hij with ⟨g1, g2⟩ | ⟨g1, g2⟩
               · exact .inr (.inl ⟨hh b i g1 (.inr rfl), hh a j g2 (.inl rfl)⟩)
               · exact .inr (.inr ⟨hh b i g1 (.inr rfl), hh b j g2 (.inr rfl)⟩))
      case eqMultA a r =>
        simp only [needR, OS.D] at hij
        simp only [idStep, Except.ok.injEq] at h2
        subst h2
        have hh : ∀ l i, i ∈ s.is.dom l → i ∈ (s.is.map (merge2 r a)).dom l := by
          intro l i hi
          simp only [IS.map, mem_merge2]
          split_ifs with hlr
          · subst hlr; exact .inl hi
          · exact hi
        simp only [oldExts, binaryP, unaryP, List.mem_cons, List.not_mem_nil, or_false, exists_eq_or_imp, exists_eq_left]
        exact hij.imp (fun g => ⟨hh _ _ g.1, hh _ _ g.2⟩) (fun g => ⟨hh _ _ g.1, hh _ _ g.2⟩)
      case eqPlusProd a b r | eqMinProd a b r =>
        simp only [needR, OS.D] at hij
        simp only [idStep, Except.ok.injEq] at h2
        subst h2
        have hh : ∀ l i, i ∈ s.is.dom l → i ∈ (s.is.map (merge3 r a b)).dom l := by
          intro l i hi
          simp only [IS.map, mem_merge3]
          split_ifs with hlr
          · subst hlr; exact .inl hi
          · exact hi
        simp only [oldExts, binaryP, unaryP, List.mem_cons, List.not_mem_nil, or_false, exists_eq_or_imp, exists_eq_left]
        exact hij.imp (fun g => ⟨hh _ _ g.1, hh _ _ g.2⟩) (fun g => ⟨hh _ _ g.1, hh _ _ g.2⟩)
      case divDA a r k | expOp a r | sinOp a b r | cosOp a b r | logOp a r | powOp a r k | sqrtOp a r | cbrtOp a r =>
        simp only [needR, OS.D] at hij
        simp only [idStep, Except.ok.injEq] at h2
        subst h2
        have hh : ∀ i, i ∈ s.is.dom a → i ∈ (s.is.map (copyDom r a)).dom a := by
          intro i hi
          simp only [IS.map, mem_copyDom]
          split_ifs <;> exact hi
        exact ⟨(a, a), by simp [oldExts, unaryP], hh _ hij.1, hh _ hij.2⟩
      case quad q a b r =>
        simp only [needR, OS.D] at hij
        simp only [idStep, Except.ok.injEq] at h2
        subst h2
        have hh : ∀ i, i ∈ s.is.dom a → i ∈ (s.is.map (copyDom r a)).dom a := by
          intro i hi
          simp only [IS.map, mem_copyDom]
          split_ifs <;> exact hi
        refine ⟨(a, a), ?_, hh _ hij.1, hh _ hij.2⟩
        cases q <;> first | exact ho.elim | simp [oldExts, unaryP]
      all_goals exact hij.elim

theorem old_safe_run {c : (Fin n → ℝ) → Cfg ℝ} (hpar : ∀ e, (c e).par = (c x0).par)
    (hx : ∀ k R, Sp x0 (fun e => (c e).x k) (· = k) R) {N : Nat} {Z : Set Nat} {ops : List (Base ℝ)}
    (hwf : WfFrom N Z ops) (hok : ∀ o ∈ ops, oldOk o ∧ domOk (none : Option (Nat → ℝ)) o ∧ absOk o) (hi : OInv s)
    (h : HA x0 (liveAdj ops) s.D s.rel s.is.ii S) (hs : Along (smoothS .ho) (c x0) ops (S x0)) (hz : ∃ z, zosRun (c x0) ops (S x0) = .ok z)
    (ha : s'.alive) (hn : oldSafeRun ops s = .ok s') :
    ∃ S', (∀ᶠ e in 𝓝 x0, zosRun (c e) ops (S e) = .ok (S' e)) ∧ HA x0 ∅ s'.D s'.rel s'.is.ii S' := by
  induction ops generalizing S s Z with
  | nil => cases hn; exact ⟨S, .of_forall fun e => rfl, h⟩
  | cons o os ih =>
    obtain ⟨z, hz⟩ := hz
    simp only [zosRun] at hz
    simp only [oldSafeRun] at hn
    split at hz
    · cases hz
    · rename_i z1 hz1
      split at hn
      · cases hn
      · rename_i s1 hs1
        obtain ⟨_, w2, _, w4, w5⟩ := hwf
        obtain ⟨o1, o2, o3⟩ := hok o (by simp)
        obtain ⟨i1, i2, i3⟩ := old_step_inv o1 hi hs1
        have ha1 : s1.alive := (old_safe_inv (fun o ho => (hok o (List.mem_cons_of_mem _ ho)).1) i1 hn).2.2 ha
        obtain ⟨n1, n2, n3⟩ := old_step_need (t := (S x0).T) (by simp) o1 hs.1 o2 ha1 hs1
        obtain ⟨S1, e1, e2⟩ := hessA_step hpar hx o3 w4 h hs.1 ⟨z1, hz1⟩ (fun l _ => n1 l) n2 n3
        rw [← i2] at e2
        have e3 := e1.self_of_nhds
        rw [hz1] at e3
        cases e3
        obtain ⟨S2, f1, f2⟩ := ih w5 (fun o ho => hok o (List.mem_cons_of_mem _ ho)) i1 e2 (hs.2 _ hz1) ⟨z, hz⟩ hn
        refine ⟨S2, ?_, f2⟩
        filter_upwards [e1, f1] with t t1 t2
        simp only [zosRun, t1, t2]

theorem old_tight_run {c : (Fin n → ℝ) → Cfg ℝ} (hpar : ∀ e, (c e).par = (c x0).par)
    (hx : ∀ k R, Sp x0 (fun e => (c e).x k) (· = k) R) {N : Nat} {Z : Set Nat} {ops : List (Base ℝ)}
    (hwf : WfFrom N Z ops) (hok : ∀ o ∈ ops, oldOk o ∧ (∀ T, domOk (some T) o) ∧ absOk o ∧ notCondS o) (hi : OInv s)
    (h : HA x0 (liveAdj ops) s.D s.rel s.is.ii S) (hs : Along (smoothS .ho) (c x0) ops (S x0)) (hz : ∃ z, zosRun (c x0) ops (S x0) = .ok z)
    (ha : s'.alive) (hn : oldTightRun (c x0) ops (S x0) s = .ok s') :
    ∃ S', (∀ᶠ e in 𝓝 x0, zosRun (c e) ops (S e) = .ok (S' e)) ∧ HA x0 ∅ s'.D s'.rel s'.is.ii S' := by
  induction ops generalizing S s Z with
  | nil => cases hn; exact ⟨S, .of_forall fun e => rfl, h⟩
  | cons o os ih =>
    obtain ⟨z, hz⟩ := hz
    obtain ⟨o1, o2, o3, o4⟩ := hok o (by simp)
    simp only [zosRun] at hz
    simp only [oldTightRun, tightVal_eq o4] at hn
    split at hz
    · cases hz
    · rename_i z1 hz1
      rw [hz1] at hn
      simp only at hn
      split at hn
      · cases hn
      · rename_i s1 hs1
        obtain ⟨_, w2, _, w4, w5⟩ := hwf
        obtain ⟨i1, i2, i3⟩ := old_step_inv o1 hi hs1
        have ha1 : s1.alive := (old_tight_inv (fun o ho => (hok o (List.mem_cons_of_mem _ ho)).1) i1 hn).2.2 ha
        obtain ⟨n1, n2, n3⟩ := old_step_need (t := (S x0).T) (by simp) o1 hs.1 (o2 _) ha1 hs1
        obtain ⟨S1, e1, e2⟩ := hessA_step hpar hx o3 w4 h hs.1 ⟨z1, hz1⟩ (fun l _ => n1 l) n2 n3
        rw [← i2] at e2
        have e3 := e1.self_of_nhds
        rw [hz1] at e3
        cases e3
        obtain ⟨S2, f1, f2⟩ := ih w5 (fun o ho => hok o (List.mem_cons_of_mem _ ho)) i1 e2 (hs.2 _ hz1) ⟨z, hz⟩ hn
        refine ⟨S2, ?_, f2⟩
        filter_upwards [e1, f1] with t t1 t2
        simp only [zosRun, t1, t2]
end
end Verif.Sparse
