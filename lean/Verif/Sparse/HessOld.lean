import Verif.Sparse.Hess

/-!
Sparsity pattern of the Hessian, control flow modes `OldSafe` and `OldTight`: `nonl_ind_old_forward_safe`
and `nonl_ind_old_forward_tight` (uni5_for.cpp with `_INDOPRO_`, `_NONLIND_OLD_` and `_NTIGHT_` / `_TIGHT_`).

The sweep propagates index domains as `indopro_forward_*` does (`idStep`), and keeps for every
independent `i` the list `nonl_dom[i]` of its nonlinear interactions, with the capacity of the list.
-/
set_option linter.all false
namespace Verif.Sparse
open Verif.AD Elem

/-- Index domains, and the lists `nonl_dom[i]`: capacity `nonl_dom[i][1]` and entries
`nonl_dom[i][2 …]`; `none` if `nonl_dom[i]` points to memory that was given back. -/
structure OS where
  is : IS
  nonl : Nat → Option (Nat × List Nat)

/-- `NUMNNZ` (uni5_for.cpp:155) -/
def NUMNNZ : Nat := 20

/-- uni5_for.cpp:1182-1189, 1208-1216 -/
def OS.init : OS := ⟨IS.init, fun _ => some (NUMNNZ, [])⟩

/-- The body of the loop of `extend_nonlinearity_domain_binary_step` for one `index`, `L` being
`ind_dom[arg2]` (uni5_for.cpp:6144-6198).  If the list is empty and too short, its memory is given back and the new
memory is assigned to the local variable only (6148-6152), so that `nonl_dom[index]` dangles. -/
def extOne (L : List Nat) (i : Nat) (nl : Nat → Option (Nat × List Nat)) : Except NErr (Nat → Option (Nat × List Nat)) :=
  match nl i with
  | none => .error .undef
  | some (cap, []) => if cap < L.length then .ok (upd nl i none) else .ok (upd nl i (some (cap, L)))
  | some (cap, x :: xs) =>
    .ok (upd nl i (some (if cap < (x :: xs).length + L.length then (x :: xs).length + L.length else cap, mergeU L (x :: xs))))

/-- The loop over `ind_dom[arg1]` (uni5_for.cpp:6143). -/
def extLoop (L : List Nat) : List Nat → (Nat → Option (Nat × List Nat)) → Except NErr (Nat → Option (Nat × List Nat))
  | [], nl => .ok nl
  | i :: is, nl =>
    match extOne L i nl with
    | .error e => .error e
    | .ok nl => extLoop L is nl

/-- `extend_nonlinearity_domain_binary_step` (uni5_for.cpp:6130-6200). -/
def OS.ext (a b : Nat) (s : OS) : Except NErr OS :=
  match extLoop (s.is.dom b) (s.is.dom a) s.nonl with
  | .error e => .error e
  | .ok nl => .ok { s with nonl := nl }

/-- Several calls in a row. -/
def OS.exts : List (Nat × Nat) → OS → Except NErr OS
  | [], s => .ok s
  | (a, b) :: ps, s =>
    match s.ext a b with
    | .error e => .error e
    | .ok s => OS.exts ps s

/-- `extend_nonlinearity_domain_unary` (uni5_for.cpp:6202-6205). -/
def unaryP (a : Nat) : List (Nat × Nat) := [(a, a)]

/-- `extend_nonlinearity_domain_binary` (uni5_for.cpp:6207-6211). -/
def binaryP (a b : Nat) : List (Nat × Nat) := [(a, b), (b, a)]

/-- The same reasons to stop as for index domains. -/
def IErr.toN : IErr → NErr
  | .refs => .refs
  | .genQuad => .genQuad
  | .stop e => .stop e

variable {K : Type} [Scalar K]

/-- The calls of `extend_nonlinearity_domain_*` in the `case`s; they come after the operation on the index
domains. -/
def oldExts : Base K → List (Nat × Nat)
  -- 1825
  | .eqMultA a r => binaryP r a
  -- 2051, 2118, 2184
  | .multAA a b _ | .eqPlusProd a b _ | .eqMinProd a b _ => binaryP a b
  -- 2288-2289
  | .divAA a b _ => binaryP a b ++ unaryP b
  -- 2354, 2478, 2540, 2612
  | .divDA a _ _ | .expOp a _ | .sinOp a _ _ | .cosOp a _ _ => unaryP a
  -- none for `erf_op` and `erfc_op` (3172-3286); 2682, 2743, 2843, 2943, 3004, 3089
  | .quad q a _ _ =>
    match q with
    | .erf | .erfc => []
    | _ => unaryP a
  -- 3307, 3389, 3517, 3599
  | .logOp a _ | .powOp a _ _ | .sqrtOp a _ | .cbrtOp a _ => unaryP a
  | _ => []

/-- A loop over a vector. -/
def oldLoop (f : Nat → OS → Except NErr OS) : List Nat → OS → Except NErr OS
  | [], s => .ok s
  | q :: qs, s =>
    match f q s with
    | .error e => .error e
    | .ok s => oldLoop f qs s

/-- What the `case`s do with index domains and nonlinear interactions. -/
def oldStep (T : Option (Nat → K)) (o : Base K) (s : OS) : Except NErr OS :=
  match o with
  -- 1634: the rows are written by the sweep for index domains only
  | .assignDep _ => .ok s
  -- 5003, 5018-5045
  | .vecDot a b n r =>
    oldLoop (fun q s => OS.exts (binaryP (a + q) (b + q)) { s with is := s.is.map (merge3 r (a + q) (b + q)) })
      (List.range n) { s with is := s.is.map fun d => upd d r [] }
  -- 5087-5092, 5113-5115
  | .vecAxpy a a1 a2 n r =>
    oldLoop (fun q s => OS.exts (binaryP a (a1 + q))
      { s with is := (s.is.map (combine2 (r + q) a (a1 + q))).map (merge2 (r + q) (a2 + q)) }) (List.range n) s
  | o =>
    match idStep T o s.is with
    | .error e => .error e.toN
    | .ok d => OS.exts (oldExts o) { s with is := d }

/-- `nonl_ind_old_forward_safe`, the loop over the trace. -/
def oldSafeRun : List (Base K) → OS → Except NErr OS
  | [], s => .ok s
  | o :: os, s =>
    match oldStep (none : Option (Nat → K)) o s with
    | .error e => .error e
    | .ok s' => oldSafeRun os s'

/-- `nonl_ind_old_forward_tight`, the loop over the trace; the values are those of `indopro_forward_tight`. -/
def oldTightRun (c : Cfg K) : List (Base K) → ZS K → OS → Except NErr OS
  | [], _, s => .ok s
  | o :: os, z, s =>
    match tightVal c o z with
    | .error e => .error (.stop e)
    | .ok z' =>
      match oldStep (some z.T) o s with
      | .error e => .error e
      | .ok s' => oldTightRun c os z' s'

/-- The rows of `crs` are copied from `nonl_dom` (uni5_for.cpp:5892-5898). -/
def oldRows (n : Nat) (s : OS) : Except NErr (List (List Nat)) :=
  (List.range n).foldr (fun i acc => match s.nonl i, acc with
    | some (_, L), .ok rs => .ok ((L.length :: L) :: rs)
    | none, _ => .error .undef
    | _, .error e => .error e) (.ok [])

/-- `hess_pat` in mode `OldSafe` (sparsedrivers.h:1147-1149) for a trace with `n` independents. -/
def hessPatOldSafe (n : Nat) (ops : List (Base K)) : Except NErr (List (List Nat)) :=
  match oldSafeRun ops OS.init with
  | .error e => .error e
  | .ok s => oldRows n s

/-- `hess_pat` in mode `OldTight` (sparsedrivers.h:1144-1146) at the base point `x`. -/
def hessPatOldTight (x par : Nat → K) (n : Nat) (ops : List (Base K)) : Except NErr (List (List Nat)) :=
  match oldTightRun ⟨x, par, false⟩ ops ZS.init OS.init with
  | .error e => .error e
  | .ok s => oldRows n s

/-! ## Effect of the building blocks, while no list dangles -/

/-- No list dangles. -/
def OS.alive (s : OS) : Prop := ∀ i, s.nonl i ≠ none

/-- `j` is listed in row `i`. -/
def OS.rel (s : OS) (i j : Nat) : Prop := ∃ cap L, s.nonl i = some (cap, L) ∧ j ∈ L

def nrel (nl : Nat → Option (Nat × List Nat)) (i j : Nat) : Prop := ∃ cap L, nl i = some (cap, L) ∧ j ∈ L

/-- All lists strictly increasing, capacity at least `NUMNNZ`. -/
def nsort (nl : Nat → Option (Nat × List Nat)) : Prop :=
  ∀ i cap L, nl i = some (cap, L) → L.Pairwise (· < ·) ∧ NUMNNZ ≤ cap

theorem extOne_alive {L : List Nat} {i : Nat} {nl nl' : Nat → Option (Nat × List Nat)} (h : extOne L i nl = .ok nl')
    (ha : ∀ i, nl' i ≠ none) : ∀ i, nl i ≠ none := by
  unfold extOne at h
  split at h
  · cases h
  all_goals rename_i hi
  · split at h
    · cases h; exact absurd (upd_same _ _ _) (ha i)
    · cases h
      intro k hk
      by_cases hki : k = i
      · subst hki; rw [hk] at hi; cases hi
      · exact ha k (by rw [upd_apply, if_neg hki]; exact hk)
  · cases h
    intro k hk
    by_cases hki : k = i
    · subst hki; rw [hk] at hi; cases hi
    · exact ha k (by rw [upd_apply, if_neg hki]; exact hk)

theorem extOne_rel {L : List Nat} {i : Nat} {nl nl' : Nat → Option (Nat × List Nat)} (h : extOne L i nl = .ok nl')
    (ha : ∀ i, nl' i ≠ none) (k j : Nat) : nrel nl' k j ↔ nrel nl k j ∨ (k = i ∧ j ∈ L) := by
  unfold extOne at h
  split at h
  · cases h
  all_goals rename_i hi
  · split at h
    · cases h; exact absurd (upd_same _ _ _) (ha i)
    · cases h
      unfold nrel
      by_cases hki : k = i
      · subst hki; simp [upd_same, hi]
      · simp [upd_apply, hki]
  · cases h
    unfold nrel
    by_cases hki : k = i
    · subst hki
      simp [upd_same, hi, mem_mergeU]; tauto
    · simp [upd_apply, hki]

theorem extOne_sort {L : List Nat} {i : Nat} {nl nl' : Nat → Option (Nat × List Nat)} (h : extOne L i nl = .ok nl')
    (hL : L.Pairwise (· < ·)) (hs : nsort nl) : nsort nl' := by
  unfold extOne at h
  split at h
  · cases h
  all_goals rename_i hi
  · split at h
    all_goals
      cases h
      intro k cap' L' hk
      rw [upd_apply] at hk
      split_ifs at hk
    · exact hs _ _ _ hk
    · cases hk; exact ⟨hL, (hs _ _ _ hi).2⟩
    · exact hs _ _ _ hk
  · cases h
    intro k cap' L' hk
    rw [upd_apply] at hk
    by_cases hki : k = i
    · rw [if_pos hki] at hk
      obtain ⟨h1, h2⟩ := hs _ _ _ hi
      simp only [Option.some.injEq, Prod.mk.injEq] at hk
      obtain ⟨rfl, rfl⟩ := hk
      refine ⟨mergeU_sorted hL h1, ?_⟩
      split_ifs <;> omega
    · rw [if_neg hki] at hk; exact hs _ _ _ hk

/-- Rows of indices not in the loop are not touched. -/
theorem extOne_other {L : List Nat} {i : Nat} {nl nl' : Nat → Option (Nat × List Nat)} (h : extOne L i nl = .ok nl')
    (k : Nat) (hk : k ≠ i) : nl' k = nl k := by
  unfold extOne at h
  split at h
  · cases h
  · split at h <;> cases h <;> rw [upd_apply, if_neg hk]
  · cases h; rw [upd_apply, if_neg hk]

theorem extLoop_spec {L A : List Nat} {nl nl' : Nat → Option (Nat × List Nat)} (h : extLoop L A nl = .ok nl') :
    ((∀ i, nl' i ≠ none) → (∀ i, nl i ≠ none) ∧ ∀ k j, nrel nl' k j ↔ nrel nl k j ∨ (k ∈ A ∧ j ∈ L)) ∧
      (L.Pairwise (· < ·) → nsort nl → nsort nl') ∧ ∀ k, k ∉ A → nl' k = nl k := by
  induction A generalizing nl with
  | nil => cases h; exact ⟨fun h => ⟨h, by simp⟩, fun _ h => h, by simp⟩
  | cons i A ih =>
    simp only [extLoop] at h
    split at h
    · cases h
    · rename_i nl1 h1
      obtain ⟨a1, a2, a3⟩ := ih h
      refine ⟨fun ha => ?_, fun hL hs => a2 hL (extOne_sort h1 hL hs), fun k hk => ?_⟩
      · obtain ⟨b1, b2⟩ := a1 ha
        refine ⟨extOne_alive h1 b1, fun k j => ?_⟩
        rw [b2, extOne_rel h1 b1, List.mem_cons]; tauto
      · rw [a3 k (fun hh => hk (List.mem_cons_of_mem _ hh)), extOne_other h1 k (fun hh => hk (by simp [hh]))]

theorem exts_spec {ps : List (Nat × Nat)} {s s' : OS} (h : OS.exts ps s = .ok s') :
    s'.is = s.is ∧ (s'.alive → s.alive ∧ ∀ k j, s'.rel k j ↔ s.rel k j ∨ ∃ p ∈ ps, k ∈ s.is.dom p.1 ∧ j ∈ s.is.dom p.2) ∧
      ((∀ a, (s.is.dom a).Pairwise (· < ·)) → nsort s.nonl → nsort s'.nonl) ∧
      ∀ k, (∀ a, k ∉ s.is.dom a) → s'.nonl k = s.nonl k := by
  induction ps generalizing s with
  | nil => cases h; exact ⟨rfl, fun h => ⟨h, by simp⟩, fun _ h => h, fun _ _ => rfl⟩
  | cons p ps ih =>
    obtain ⟨a, b⟩ := p
    simp only [OS.exts] at h
    split at h
    · cases h
    · rename_i s1 h1
      unfold OS.ext at h1
      split at h1
      · cases h1
      · rename_i nl h2
        cases h1
        obtain ⟨c1, c2, c3, c4⟩ := ih h
        obtain ⟨d1, d2, d3⟩ := extLoop_spec h2
        refine ⟨c1, fun ha => ?_, fun hd hs => c3 hd (d2 (hd b) hs), fun k hk => ?_⟩
        · obtain ⟨e1, e2⟩ := c2 ha
          obtain ⟨f1, f2⟩ := d1 e1
          refine ⟨f1, fun k j => ?_⟩
          rw [e2]
          have : ({ s with nonl := nl } : OS).rel k j ↔ s.rel k j ∨ (k ∈ s.is.dom a ∧ j ∈ s.is.dom b) := f2 k j
          rw [this]
          simp only [List.mem_cons, exists_eq_or_imp, or_assoc]
        · rw [c4 k hk]; exact d3 k (hk a)

/-! ## No list dangles if there are at most `NUMNNZ` independents -/

theorem sorted_length {n : Nat} {L : List Nat} (h : L.Pairwise (· < ·)) (hL : ∀ i ∈ L, i < n) : L.length ≤ n := by
  have h1 : L.toFinset ⊆ Finset.range n := fun i hi => by simpa using hL i (by simpa using hi)
  have h2 := Finset.card_le_card h1
  rwa [List.toFinset_card_of_nodup (h.imp fun h => Nat.ne_of_lt h), Finset.card_range] at h2

theorem extLoop_total {L A : List Nat} {nl : Nat → Option (Nat × List Nat)} (hL : L.length ≤ NUMNNZ) (hp : L.Pairwise (· < ·))
    (ha : ∀ i, nl i ≠ none) (hs : nsort nl) :
    ∃ nl', extLoop L A nl = .ok nl' ∧ (∀ i, nl' i ≠ none) := by
  induction A generalizing nl with
  | nil => exact ⟨nl, rfl, ha⟩
  | cons i A ih =>
    have : ∃ nl1, extOne L i nl = .ok nl1 ∧ ∀ i, nl1 i ≠ none := by
      unfold extOne
      split
      · rename_i h; exact absurd h (ha i)
      · rename_i cap h
        have := (hs _ _ _ h).2
        rw [if_neg (by omega)]
        refine ⟨_, rfl, fun k => ?_⟩
        rw [upd_apply]; split_ifs
        · simp
        · exact ha k
      · refine ⟨_, rfl, fun k => ?_⟩
        rw [upd_apply]
        by_cases hk : k = i
        · simp [hk]
        · simp [hk, ha k]
    obtain ⟨nl1, h1, h2⟩ := this
    obtain ⟨nl2, h3, h4⟩ := ih h2 (extOne_sort h1 hp hs)
    exact ⟨nl2, by simp only [extLoop, h1, h3], h4⟩

theorem exts_total {ps : List (Nat × Nat)} {s : OS} (hd : ∀ a, (s.is.dom a).Pairwise (· < ·) ∧ (s.is.dom a).length ≤ NUMNNZ)
    (ha : s.alive) (hs : nsort s.nonl) : ∃ s', OS.exts ps s = .ok s' ∧ s'.alive := by
  induction ps generalizing s with
  | nil => exact ⟨s, rfl, ha⟩
  | cons p ps ih =>
    obtain ⟨a, b⟩ := p
    obtain ⟨nl, h1, h2⟩ := extLoop_total (A := s.is.dom a) (hd b).2 (hd b).1 ha hs
    obtain ⟨s', h3, h4⟩ := ih (s := { s with nonl := nl }) hd h2 ((extLoop_spec h1).2.1 (hd b).1 hs)
    exact ⟨s', by simp only [OS.exts, OS.ext, h1, h3], h4⟩

end Verif.Sparse
