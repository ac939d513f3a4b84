import Verif.AD.FovFos
import Mathlib.Tactic.SplitIfs
import Mathlib.Tactic.Ring
import Mathlib.Data.Nat.Init

/-!
# Bit pattern propagation: `int_forward_safe`, `int_forward_tight` (`uni5_for.cpp`)

`up_T[loc][l]` is `U l loc` (word `l` of the row of location `loc`).  The rows of `up_T` are
disjoint (`myalloc2_ulong`) and every `FOR_0_LE_l_LT_p` loop reads and writes only word `l` of the
rows in iteration `l`, so a loop is modelled as one simultaneous update of all words `l < p`
(`row`).  `IF_KEEP_WRITE_TAYLOR` expands to nothing in these sweeps.
-/
set_option linter.all false
namespace Verif.Sparse
open Verif.AD Elem

/-- `bitword_t` = `size_t`, 64 bits (uni5_for.cpp:558-640, `BITS_PER_WORD`). -/
abbrev Word := BitVec 64

/-- Variables of a bit pattern sweep: `up_T`, `indexi`, and the rows written to `taylors`. -/
structure BS where
  U : Nat → Nat → Word
  ii : Nat
  Y : List (Nat → Word)

/-- `up_T = myalloc2_ulong(NUM_MAX_LIVES, p)` is zero-initialised (uni5_for.cpp:1174,
adalloc.cpp:226). -/
def BS.init : BS := ⟨fun _ _ => 0, 0, []⟩

/-- `FOR_0_LE_l_LT_p *Tres++ = f(words l of the argument rows)`. -/
def BS.row (p r : Nat) (f : (Nat → Word) → Word) (s : BS) : BS :=
  { s with U := fun l => if l < p then upd (s.U l) r (f (s.U l)) else s.U l }

/-- Why a safe-mode sweep throws. -/
inductive BErr where
  /-- `ACTIVE_SUBSCRIPTING` / `ADUBREF_VE_REF` (uni5_for.cpp:4528, 4557, 4586, …) -/
  | refs
  deriving DecidableEq, Repr

variable {K : Type}

/-- One `case` of the switch in `int_forward_safe` (uni5_for.cpp with `_INT_FOR_`, `_NTIGHT_`);
`X i l` is `argument[i][l]`. -/
def safeStep (p : Nat) (X : Nat → Nat → Word) (o : Base K) (s : BS) : Except BErr BS :=
  match o with
  -- 1313-1423: comparisons read their operand and do nothing
  | .cmp _ _ => .ok s
  -- 1453
  | .assignA a r => .ok (s.row p r fun u => u a)
  -- 1487
  | .assignD r _ => .ok (s.row p r fun _ => 0)
  -- 1521
  | .assignP _ r => .ok (s.row p r fun _ => 0)
  -- 1551
  | .assignD0 r => .ok (s.row p r fun _ => 0)
  -- 1581
  | .assignD1 r => .ok (s.row p r fun _ => 0)
  -- 1611-1620
  | .assignInd r =>
    .ok { s with U := fun l => if l < p then upd (s.U l) r (X s.ii l) else s.U l, ii := s.ii + 1 }
  -- 1648-1663
  | .assignDep r => .ok { s with Y := s.Y ++ [fun l => s.U l r] }
  -- 1672-1685
  | .eqPlusD _ _ => .ok s
  -- 1715
  | .eqPlusA a r => .ok (s.row p r fun u => u r ||| u a)
  -- 1724-1737
  | .eqMinD _ _ => .ok s
  -- 1767
  | .eqMinA a r => .ok (s.row p r fun u => u r ||| u a)
  -- 1776-1800
  | .eqMultD _ _ => .ok s
  -- 1835
  | .eqMultA a r => .ok (s.row p r fun u => u r ||| u a)
  -- 1858-1877
  | .incrA _ => .ok s
  | .decrA _ => .ok s
  -- 1912
  | .plusAA a b r => .ok (s.row p r fun u => u a ||| u b)
  -- 1948
  | .plusDA a r _ => .ok (s.row p r fun u => u a)
  -- 1983
  | .minAA a b r => .ok (s.row p r fun u => u a ||| u b)
  -- 2020
  | .minDA a r _ => .ok (s.row p r fun u => u a)
  -- 2060
  | .multAA a b r => .ok (s.row p r fun u => u b ||| u a)
  -- 2127
  | .eqPlusProd a b r => .ok (s.row p r fun u => u r ||| (u b ||| u a))
  -- 2193
  | .eqMinProd a b r => .ok (s.row p r fun u => u r ||| (u b ||| u a))
  -- 2248
  | .multDA a r _ => .ok (s.row p r fun u => u a)
  -- 2298
  | .divAA a b r => .ok (s.row p r fun u => u a ||| u b)
  -- 2362
  | .divDA a r _ => .ok (s.row p r fun u => u a)
  -- 2413
  | .posSign a r => .ok (s.row p r fun u => u a)
  -- 2442
  | .negSign a r => .ok (s.row p r fun u => u a)
  -- 2486
  | .expOp a r => .ok (s.row p r fun u => u a)
  -- 2549-2551: `*Targ2++ = *Targ1; *Tres++ = *Targ1++`
  | .sinOp a b r => .ok ((s.row p b fun u => u a).row p r fun u => u a)
  -- 2622-2624
  | .cosOp a b r => .ok ((s.row p b fun u => u a).row p r fun u => u a)
  -- 2689, 2750, 2850, 2950, 3011, 3096, 3200, 3258
  | .quad _ a _ r => .ok (s.row p r fun u => u a)
  -- 3315
  | .logOp a r => .ok (s.row p r fun u => u a)
  -- 3397
  | .powOp a r _ => .ok (s.row p r fun u => u a)
  -- 3525
  | .sqrtOp a r => .ok (s.row p r fun u => u a)
  -- 3607
  | .cbrtOp a r => .ok (s.row p r fun u => u a)
  -- 3683
  | .genQuad a _ r _ _ => .ok (s.row p r fun u => u a)
  -- 3822: `*Tres++ = *Targ1++ | *Targ2++;` without a loop: only word 0 is written
  | .minOp a b r _ => .ok (s.row (min p 1) r fun u => u a ||| u b)
  -- 3950
  | .absVal a r _ => .ok (s.row p r fun u => u a)
  -- 4028
  | .ceilOp _ r _ => .ok (s.row p r fun _ => 0)
  -- 4066
  | .floorOp _ r _ => .ok (s.row p r fun _ => 0)
  -- 4162
  | .condAssign _ a1 a2 r _ => .ok (s.row p r fun u => u a1 ||| u a2)
  -- 4267
  | .condEqAssign _ a1 a2 r _ => .ok (s.row p r fun u => u a1 ||| u a2)
  -- 4327: `*Tres++ = *Targ1++`
  | .condAssignS _ a1 r _ => .ok (s.row p r fun u => u a1)
  -- 4388
  | .condEqAssignS _ a1 r _ => .ok (s.row p r fun u => u a1)
  -- 4557
  | .setRef _ _ => .error .refs
  -- 4967-4985
  | .vecCopy a n r =>
    .ok ((List.range n).foldl (fun s q => s.row p (r + q) fun u => u (a + q)) s)
  -- 5013-5053
  | .vecDot a b n r =>
    .ok ((List.range n).foldl (fun s q => s.row p r fun u => u r ||| (u (b + q) ||| u (a + q)))
      (s.row p r fun _ => 0))
  -- 5087-5123
  | .vecAxpy a a1 a2 n r =>
    .ok ((List.range n).foldl (fun s q => s.row p (r + q) fun u => u (a2 + q) ||| u (a1 + q) ||| u a) s)
  -- 5476-5487
  | .takeStock r vs =>
    .ok ((vs.foldl (fun (q : Nat × BS) _ => (q.1 + 1, q.2.row p q.1 fun _ => 0)) (r, s)).2)
  -- 5496-5507
  | .deathNot _ _ => .ok s

/-- The sweep loop of `int_forward_safe` (uni5_for.cpp:1279-5820). -/
def safeRun (p : Nat) (X : Nat → Nat → Word) : List (Base K) → BS → Except BErr BS
  | [], s => .ok s
  | o :: os, s =>
    match safeStep p X o s with
    | .error e => .error e
    | .ok s' => safeRun p X os s'

/-! ## Soundness -/

/-- Bit `b` of word `l` covers the tangents `dT`. -/
def Cov (l b : Nat) (U : Nat → Nat → Word) (dT : Nat → K) [Zero K] : Prop :=
  ∀ a, (U l a).getLsbD b = false → dT a = 0

section
variable [Scalar K] {p l b : Nat} {U : Nat → Nat → Word} {dT : Nat → K}

theorem Cov.upd (h : Cov l b U dT) {f : (Nat → Word) → Word} {r : Nat} {d : K} {q : Nat} (hl : l < q)
    (hd : (f (U l)).getLsbD b = false → d = 0) :
    Cov l b (fun l => if l < q then AD.upd (U l) r (f (U l)) else U l) (AD.upd dT r d) := by
  intro a
  simp only [hl, if_true, upd_apply]
  split_ifs with ha
  · exact hd
  · exact h a

theorem Cov.row {s : BS} (h : Cov l b s.U dT) {f : (Nat → Word) → Word} {r : Nat} {d : K} (hl : l < p)
    (hd : (f (s.U l)).getLsbD b = false → d = 0) :
    Cov l b (s.row p r f).U (AD.upd dT r d) := h.upd hl hd

/-- Operations the soundness theorem for the safe bit pattern sweep does not cover:
`fmin` with more than one word, and the two-argument `condassign` (see the witnesses). -/
def Base.safeOk (p : Nat) : Base K → Prop
  | .minOp _ _ _ _ => p ≤ 1
  | .condAssignS _ _ _ _ | .condEqAssignS _ _ _ _ => False
  | _ => True

/-- At base 0 the derivative of `pow` must exist: `pow(0, c)` with `c < 1` has none. -/
def powOk (o : Base K) (T : Nat → K) : Prop :=
  match o with
  | .powOp a _ k => T a = 0 → 1 ≤ k
  | _ => True

theorem quadTangent_zero (q : Quad) (x p : K) : quadTangent q x 0 p = 0 := by
  cases q <;> simp [quadTangent]

theorem powZeroTangent_zero {v old : K} (h : 1 ≤ v) : powZeroTangent v 0 old = 0 := by
  have h0 : ¬ v ≤ 0 := not_le.mpr (lt_of_lt_of_le one_pos h)
  have h1 : ¬ v < 1 := not_lt.mpr h
  have hv : v ≠ 0 := fun hh => h0 hh.le
  unfold powZeroTangent
  rw [if_neg h0, if_pos hv]
  by_cases h2 : v = 1
  · simp [h2]
  · have : 1 < v := lt_of_le_of_ne h (Ne.symm h2)
    simp [sub_eq_zero, h2, this, h1, not_lt.mpr (le_of_lt (lt_trans one_pos this))]

theorem rootZero_zero : rootZero (0 : K) = 0 := by simp [rootZero]

/-- Coupling of a bit pattern sweep with a tangent sweep: bit `b` of word `l` is set wherever the
tangent is nonzero. -/
structure Covers (l b : Nat) (s : BS) (f : FS K) : Prop where
  cov : Cov l b s.U f.dT
  ii : s.ii = f.ii
  len : s.Y.length = f.dy.length
  out : ∀ j : Nat, ∀ y : Nat → Word, s.Y[j]? = some y → (y l).getLsbD b = false → f.dy[j]? = some 0

theorem Covers.foldl {γ : Type} {g : BS → γ → BS} {h : FS K → γ → FS K} {J : List γ}
    (hs : ∀ s f, ∀ q ∈ J, Covers l b s f → Covers l b (g s q) (h f q)) {s : BS} {f : FS K}
    (h0 : Covers l b s f) : Covers l b (J.foldl g s) (J.foldl h f) := by
  induction J generalizing s f with
  | nil => exact h0
  | cons q J ih =>
    simp only [List.foldl_cons]
    exact ih (fun s f q hq => hs s f q (List.mem_cons_of_mem _ hq)) (hs s f q (by simp) h0)

theorem Covers.set {s s' : BS} {f f' : FS K} (h : Covers l b s f) {r : Nat} {d : K} {g : (Nat → Word) → Word}
    {q : Nat} (hs : s' = s.row q r g) (hl : l < q)
    (hf : f'.dT = AD.upd f.dT r d) (hi : f'.ii = f.ii) (hy : f'.dy = f.dy)
    (hd : (g (s.U l)).getLsbD b = false → d = 0) : Covers l b s' f' := by
  obtain ⟨h1, h2, h3, h4⟩ := h
  subst hs
  refine ⟨?_, ?_, ?_, ?_⟩
  · rw [hf]; exact h1.row hl hd
  · rw [hi]; exact h2
  · rw [hy]; exact h3
  · rw [hy]; exact h4

theorem Covers.skip {s : BS} {f f' : FS K} (h : Covers l b s f) 
    (hf : f'.dT = f.dT) (hi : f'.ii = f.ii) (hy : f'.dy = f.dy) : Covers l b s f' := by
  obtain ⟨h1, h2, h3, h4⟩ := h
  exact ⟨by rw [hf]; exact h1, by rw [hi]; exact h2, by rw [hy]; exact h3, by rw [hy]; exact h4⟩

theorem Covers.scale {s : BS} {f f' : FS K} (h : Covers l b s f) {r : Nat} {d : K}
    (hf : f'.dT = AD.upd f.dT r d) (hi : f'.ii = f.ii) (hy : f'.dy = f.dy)
    (hd : f.dT r = 0 → d = 0) : Covers l b s f' := by
  obtain ⟨h1, h2, h3, h4⟩ := h
  refine ⟨?_, by rw [hi]; exact h2, by rw [hy]; exact h3, by rw [hy]; exact h4⟩
  rw [hf]
  intro a ha
  rw [upd_apply]
  split_ifs with hr
  · subst hr; exact hd (h1 _ ha)
  · exact h1 _ ha

theorem covers_step {c : Cfg K} {v : Nat → K} {X : Nat → Nat → Word} {o : Base K} {s s' : BS} {f f' : FS K}
    (hl : l < p) (hX : ∀ i, (X i l).getLsbD b = false → v i = 0)
    (hok : Base.safeOk p o) (hpow : powOk o f.T) (h : Covers l b s f)
    (hs : safeStep p X o s = .ok s') (hf : fosStep c v o f = .ok f') : Covers l b s' f' := by
  have hc : ∀ a, (s.U l a).getLsbD b = false → f.dT a = 0 := h.cov
  cases o
  all_goals simp only [safeStep, fosStep, Except.ok.injEq, reduceCtorEq] at hs hf
  case cmp q a =>
    subst hs
    by_cases hq : q.holds (f.T a)
    · rw [if_pos hq] at hf
      cases q <;> simp only [Except.ok.injEq] at hf <;> subst hf <;> exact h.skip rfl rfl rfl
    · rw [if_neg hq] at hf; cases hf
  case assignInd r =>
    subst hs hf
    obtain ⟨h1, h2, h3, h4⟩ := h
    refine ⟨?_, ?_, h3, h4⟩
    · show Cov l b _ (AD.upd f.dT r (v f.ii))
      intro a ha
      simp only [hl, if_true, upd_apply] at ha ⊢
      split_ifs at ha ⊢ with har
      · rw [← h2]; exact hX _ ha
      · exact h1 _ ha
    · show s.ii + 1 = f.ii + 1
      rw [h2]
  case assignDep r =>
    subst hs hf
    obtain ⟨h1, h2, h3, h4⟩ := h
    refine ⟨h1, h2, ?_, ?_⟩
    · simp [h3]
    · intro j y hj hy
      simp only [List.getElem?_append, h3] at hj ⊢
      split_ifs at hj ⊢ with hlt
      · exact h4 j y hj hy
      · rcases Nat.eq_zero_or_pos (j - f.dy.length) with hz | hz
        · rw [hz] at hj ⊢; simp only [List.getElem?_cons_zero, Option.some.injEq] at hj ⊢
          subst hj; exact hc r hy
        · rw [List.getElem?_eq_none (by simp only [List.length_singleton]; omega)] at hj; cases hj
  case eqPlusD r k => subst hs hf; exact h.skip rfl rfl rfl
  case eqMinD r k => subst hs hf; exact h.skip rfl rfl rfl
  case incrA r => subst hs hf; exact h.skip rfl rfl rfl
  case decrA r => subst hs hf; exact h.skip rfl rfl rfl
  case eqMultD r k =>
    subst hs hf; exact h.scale (r := r) rfl rfl rfl (fun hd => by simp [FS.push, FS.set, hd])
  case sinOp a c' r =>
    subst hs hf
    refine ⟨fun x hx => ?_, h.ii, h.len, h.out⟩
    simp only [BS.row, hl, if_true, upd_apply, ite_self, FS.push, FS.set, FS.setD] at hx ⊢
    by_cases h1 : x = r <;> by_cases h2 : x = c' <;> by_cases h3 : a = c' <;>
      simp only [h1, h2, h3, if_true, if_false, ite_self] at hx ⊢ <;> simp_all
  case cosOp a c' r =>
    subst hs hf
    refine ⟨fun x hx => ?_, h.ii, h.len, h.out⟩
    simp only [BS.row, hl, if_true, upd_apply, ite_self, FS.push, FS.set, FS.setD] at hx ⊢
    by_cases h1 : x = r <;> by_cases h2 : x = c' <;> by_cases h3 : a = c' <;>
      simp only [h1, h2, h3, if_true, if_false, ite_self] at hx ⊢ <;> simp_all
  case quad q a c' r =>
    subst hs hf
    refine h.set rfl hl rfl rfl rfl fun hb => ?_
    simp only [FS.push, FS.set, hc _ hb, quadTangent_zero]
  case powOp a r k =>
    subst hs
    by_cases h0 : f.T a = 0
    · have h0' : (f.push c r).T a = 0 := h0
      simp only [h0', if_true, Except.ok.injEq] at hf
      subst hf
      exact h.set rfl hl rfl rfl rfl fun hb => by
        simp only [FS.push, FS.set, hc _ hb]; exact powZeroTangent_zero (hpow h0)
    · have h0' : ¬ (f.push c r).T a = 0 := h0
      simp only [h0', if_false, Except.ok.injEq] at hf
      subst hf
      exact h.set rfl hl rfl rfl rfl fun hb => by simp [FS.push, FS.set, hc _ hb]
  case logOp a r =>
    subst hs hf
    exact h.set rfl hl rfl rfl rfl fun hb => by simp [FS.push, FS.set, hc _ hb]
  case sqrtOp a r =>
    subst hs hf
    exact h.set rfl hl rfl rfl rfl fun hb => by simp [FS.push, FS.set, hc _ hb]
  case cbrtOp a r =>
    subst hs hf
    exact h.set rfl hl rfl rfl rfl fun hb => by simp [FS.push, FS.set, hc _ hb]
  case genQuad a b' r old k =>
    subst hs
    split_ifs at hf
    cases hf
    exact h.set rfl hl rfl rfl rfl fun hb => by simp [FS.push, FS.set, hc _ hb]
  case minOp a b' r k =>
    subst hs hf
    have hp : p ≤ 1 := hok
    have hm : l < min p 1 := by omega
    have hb2 : ∀ u : Nat → Word, (u a ||| u b').getLsbD b = false →
        (u a).getLsbD b = false ∧ (u b').getLsbD b = false := by
      intro u; simp [BitVec.getLsbD_or]
    rcases lt_trichotomy (f.T a) (f.T b') with h1 | h1 | h1
    · have h2 : ¬ f.T a > f.T b' := not_lt.mpr h1.le
      simp only [FS.push, FS.dec, FS.set, FS.setD, gt_iff_lt, h1, h2, if_true, if_false]
      exact h.set (r := r) (d := f.dT a) rfl hm rfl rfl rfl fun hb => hc _ (hb2 _ hb).1
    · simp only [FS.push, FS.dec, FS.set, FS.setD, gt_iff_lt, h1, lt_irrefl, if_true, if_false]
      exact h.set (r := r) rfl hm rfl rfl rfl fun hb => by simp [hc _ (hb2 _ hb).1, hc _ (hb2 _ hb).2]
    · have h2 : ¬ f.T a < f.T b' := not_lt.mpr h1.le
      simp only [FS.push, FS.dec, FS.set, FS.setD, gt_iff_lt, h1, h2, if_true, if_false]
      exact h.set (r := r) (d := f.dT b') rfl hm rfl rfl rfl fun hb => hc _ (hb2 _ hb).2
  case absVal a r k =>
    subst hs hf
    rcases lt_trichotomy (f.T a) 0 with h1 | h1 | h1
    · simp only [FS.push, FS.dec, FS.set, FS.setD, h1, if_true]
      exact h.set (r := r) rfl hl rfl rfl rfl fun hb => by rw [hc _ hb, mul_zero]
    · simp only [FS.push, FS.dec, FS.set, FS.setD, gt_iff_lt, h1, lt_irrefl, if_true, if_false]
      exact h.set (r := r) rfl hl rfl rfl rfl fun hb => by rw [hc _ hb, mul_zero]
    · have h2 : ¬ f.T a < 0 := not_lt.mpr h1.le
      simp only [FS.push, FS.dec, FS.set, FS.setD, gt_iff_lt, h1, h2, if_true, if_false]
      exact h.set (r := r) rfl hl rfl rfl rfl fun hb => by rw [hc _ hb, mul_zero]
  case condAssign a a1 a2 r k =>
    subst hs
    by_cases h1 : f.T a > 0
    · have h2 : (f.push c r).T a > 0 := h1
      have h3 : ((f.push c r).setD r ((f.push c r).dT a1)).T a > 0 := h1
      simp only [h2, h3, if_true, Except.ok.injEq] at hf
      subst hf
      exact h.set (r := r) rfl hl rfl rfl rfl fun hb => by
        simp only [BitVec.getLsbD_or, Bool.or_eq_false_iff] at hb
        exact hc _ hb.1
    · have h2 : ¬ (f.push c r).T a > 0 := h1
      have h3 : ¬ ((f.push c r).setD r ((f.push c r).dT a2)).T a > 0 := h1
      simp only [h2, h3, if_false, Except.ok.injEq] at hf
      subst hf
      exact h.set (r := r) rfl hl rfl rfl rfl fun hb => by
        simp only [BitVec.getLsbD_or, Bool.or_eq_false_iff] at hb
        exact hc _ hb.2
  case condEqAssign a a1 a2 r k =>
    subst hs
    by_cases h1 : f.T a ≥ 0
    · have h2 : (f.push c r).T a ≥ 0 := h1
      have h3 : ((f.push c r).setD r ((f.push c r).dT a1)).T a ≥ 0 := h1
      simp only [h2, h3, if_true, Except.ok.injEq] at hf
      subst hf
      exact h.set (r := r) rfl hl rfl rfl rfl fun hb => by
        simp only [BitVec.getLsbD_or, Bool.or_eq_false_iff] at hb
        exact hc _ hb.1
    · have h2 : ¬ (f.push c r).T a ≥ 0 := h1
      have h3 : ¬ ((f.push c r).setD r ((f.push c r).dT a2)).T a ≥ 0 := h1
      simp only [h2, h3, if_false, Except.ok.injEq] at hf
      subst hf
      exact h.set (r := r) rfl hl rfl rfl rfl fun hb => by
        simp only [BitVec.getLsbD_or, Bool.or_eq_false_iff] at hb
        exact hc _ hb.2
  case condAssignS => exact hok.elim
  case condEqAssignS => exact hok.elim
  case vecCopy a n r =>
    subst hs hf
    refine Covers.foldl (fun s f q _ h => ?_) h
    exact h.set (r := r + q) rfl hl rfl rfl rfl fun hb => h.cov _ hb
  case vecDot a a2 n r =>
    subst hs hf
    refine Covers.foldl (fun s f q _ h => ?_) (h.set (r := r) rfl hl rfl rfl rfl fun _ => rfl)
    exact h.set (r := r) rfl hl rfl rfl rfl fun hb => by 
      simp only [BitVec.getLsbD_or, Bool.or_eq_false_iff] at hb
      simp [h.cov _ hb.1, h.cov _ hb.2.1, h.cov _ hb.2.2]
  case vecAxpy a a1 a2 n r =>
    subst hs hf
    refine Covers.foldl (fun s f q _ h => ?_) h
    exact h.set (r := r + q) rfl hl rfl rfl rfl fun hb => by 
      simp only [BitVec.getLsbD_or, Bool.or_eq_false_iff] at hb
      simp [FS.push, h.cov _ hb.1.1, h.cov _ hb.1.2, h.cov _ hb.2]
  case takeStock r vs =>
    subst hs hf
    have : ∀ (vs : List K) (r : Nat) (s : BS) (f : FS K), Covers l b s f → Covers l b
        (vs.foldl (fun (q : Nat × BS) _ => (q.1 + 1, q.2.row p q.1 fun _ => 0)) (r, s)).2
        (vs.foldl (fun (p : Nat × FS K) k => (p.1 + 1, (p.2.set p.1 k).setD p.1 0)) (r, f)).2 := by
      intro vs
      induction vs with
      | nil => intro r s f h; exact h
      | cons x vs ih =>
        intro r s f h
        simp only [List.foldl_cons]
        exact ih _ _ _ (h.set (r := r) (d := 0) rfl hl rfl rfl rfl fun _ => rfl)
    exact this _ _ _ _ h
  case deathNot a a2 =>
    subst hs hf
    have : ∀ (J : List Nat) (f : FS K), Covers l b s f → Covers l b s (J.foldl (fun s q => s.push c (a2 - q)) f) := by
      intro J
      induction J with
      | nil => intro f h; exact h
      | cons q J ih => intro f h; exact ih _ (h.skip rfl rfl rfl)
    exact this _ _ h
  all_goals
    subst hs hf
    refine h.set rfl hl rfl rfl rfl fun hb => ?_
    first
    | rfl
    | (simp only [BitVec.getLsbD_or, Bool.or_eq_false_iff] at hb
       simp [FS.push, FS.set, hc, hb])
    | simp [FS.push, FS.set, hc _ hb]

theorem covers_run {c : Cfg K} {v : Nat → K} {X : Nat → Nat → Word} (hl : l < p)
    (hX : ∀ i, (X i l).getLsbD b = false → v i = 0) {ops : List (Base K)}
    (hok : ∀ o ∈ ops, Base.safeOk p o) {s s' : BS} {f f' : FS K} {z : ZS K} (h : Covers l b s f)
    (hz : SameZ f z) (hpow : Along powOk c ops z)
    (hs : safeRun p X ops s = .ok s') (hf : fosRun c v ops f = .ok f') : Covers l b s' f' := by
  induction ops generalizing s f z with
  | nil => cases hs; cases hf; exact h
  | cons o os ih =>
    simp only [safeRun] at hs
    simp only [fosRun] at hf
    have hzz := fos_zos_step c v o hz
    cases h1 : safeStep p X o s with
    | error e => rw [h1] at hs; cases hs
    | ok s1 =>
      cases h2 : fosStep c v o f with
      | error e => rw [h2] at hf; cases hf
      | ok f1 =>
        rw [h1] at hs
        rw [h2] at hf hzz
        cases h3 : zosStep c o z with
        | error e => rw [h3] at hzz; exact hzz.elim
        | ok z1 =>
          rw [h3] at hzz
          refine ih (fun o ho => hok o (List.mem_cons_of_mem _ ho)) ?_ hzz (hpow.2 z1 h3) hs hf
          exact covers_step hl hX (hok o (by simp)) (by have := hpow.1; rwa [← hz.T] at this) h h1 h2

end

/-! ## No spurious bits; when the sweep runs through -/

section
variable {p l b : Nat}

/-- Bit `b` of word `l` is set nowhere. -/
structure NoBit (l b : Nat) (s : BS) : Prop where
  U : ∀ a, (s.U l a).getLsbD b = false
  Y : ∀ y ∈ s.Y, (y l).getLsbD b = false

theorem NoBit.row {s : BS} (h : NoBit l b s) {q r : Nat} {g : (Nat → Word) → Word}
    (hg : (g (s.U l)).getLsbD b = false) : NoBit l b (s.row q r g) := by
  refine ⟨fun a => ?_, h.Y⟩
  simp only [BS.row]
  split_ifs
  · rw [upd_apply]; split_ifs
    · exact hg
    · exact h.U a
  · exact h.U a

theorem NoBit.foldl {γ : Type} {g : BS → γ → BS} (J : List γ)
    (hs : ∀ s, ∀ q, NoBit l b s → NoBit l b (g s q)) {s : BS} (h0 : NoBit l b s) :
    NoBit l b (J.foldl g s) := by
  induction J generalizing s with
  | nil => exact h0
  | cons q J ih => exact ih (hs s q h0)

theorem noBit_step {X : Nat → Nat → Word} {o : Base K} {s s' : BS}
    (hX : ∀ i, (X i l).getLsbD b = false) (h : NoBit l b s) (hs : safeStep p X o s = .ok s') :
    NoBit l b s' := by
  have hU := h.U
  cases o
  all_goals simp only [safeStep, Except.ok.injEq, reduceCtorEq] at hs
  all_goals subst hs
  case assignInd r =>
    refine ⟨fun a => ?_, h.Y⟩
    simp only []
    split_ifs
    · rw [upd_apply]; split_ifs
      · exact hX _
      · exact h.U a
    · exact h.U a
  case assignDep r =>
    refine ⟨h.U, fun y hy => ?_⟩
    rcases List.mem_append.1 hy with hy | hy
    · exact h.Y y hy
    · rw [List.mem_singleton.1 hy]; exact h.U r
  case sinOp => exact (h.row (hU _)).row ((h.row (hU _)).U _)
  case cosOp => exact (h.row (hU _)).row ((h.row (hU _)).U _)
  case vecCopy => exact NoBit.foldl _ (fun s q h => h.row (h.U _)) h
  case vecDot =>
    exact NoBit.foldl _ (fun s q h => h.row (by simp [BitVec.getLsbD_or, h.U])) (h.row (by simp))
  case vecAxpy =>
    exact NoBit.foldl _ (fun s q h => h.row (by simp [BitVec.getLsbD_or, h.U])) h
  case takeStock r vs =>
    have : ∀ (vs : List K) (r : Nat) (s : BS), NoBit l b s → NoBit l b
        (vs.foldl (fun (q : Nat × BS) _ => (q.1 + 1, q.2.row p q.1 fun _ => 0)) (r, s)).2 := by
      intro vs
      induction vs with
      | nil => intro r s h; exact h
      | cons x vs ih => intro r s h; exact ih _ _ (h.row (by simp))
    exact this _ _ _ h
  all_goals
    first
    | exact h
    | (refine h.row ?_; simp [BitVec.getLsbD_or, hU]; done)

theorem noBit_run {X : Nat → Nat → Word} {ops : List (Base K)} {s s' : BS}
    (hX : ∀ i, (X i l).getLsbD b = false) (h : NoBit l b s) (hs : safeRun p X ops s = .ok s') :
    NoBit l b s' := by
  induction ops generalizing s with
  | nil => cases hs; exact h
  | cons o os ih =>
    simp only [safeRun] at hs
    cases h1 : safeStep p X o s with
    | error e => rw [h1] at hs; cases hs
    | ok s1 => rw [h1] at hs; exact ih (noBit_step hX h h1) hs

theorem safeRun_append {X : Nat → Nat → Word} (a b : List (Base K)) (s : BS) :
    safeRun p X (a ++ b) s = (match safeRun p X a s with
      | .error e => .error e
      | .ok s' => safeRun p X b s') := by
  induction a generalizing s with
  | nil => rfl
  | cons o os ih =>
    simp only [List.cons_append, safeRun]
    cases safeStep p X o s with
    | error e => rfl
    | ok s1 => exact ih s1

/-- Number of `assign_dep` operations. -/
def isDep : Base K → Bool
  | .assignDep _ => true
  | _ => false

theorem BS.foldl_Y {γ : Type} {g : BS → γ → BS} (J : List γ) (hs : ∀ s q, (g s q).Y = s.Y) (s : BS) :
    (J.foldl g s).Y = s.Y := by
  induction J generalizing s with
  | nil => rfl
  | cons q J ih => rw [List.foldl_cons, ih, hs]

theorem safe_total (X : Nat → Nat → Word) {o : Base K} (ho : ∀ r k, o ≠ .setRef r k) (s : BS) :
    ∃ s', safeStep p X o s = .ok s' ∧ s'.Y.length = s.Y.length + (if isDep o then 1 else 0) := by
  cases o
  case setRef r k => exact absurd rfl (ho r k)
  case takeStock r vs =>
    refine ⟨_, rfl, ?_⟩
    have : ∀ (vs : List K) (r : Nat) (s : BS),
        (vs.foldl (fun (q : Nat × BS) _ => (q.1 + 1, q.2.row p q.1 fun _ => 0)) (r, s)).2.Y = s.Y := by
      intro vs
      induction vs with
      | nil => intro r s; rfl
      | cons x vs ih => intro r s; exact ih _ _
    exact (congrArg List.length (this vs r s)).trans (by simp [isDep])
  case vecCopy =>
    refine ⟨_, rfl, Eq.trans (congrArg List.length (BS.foldl_Y _ ?_ _)) ?_⟩
    · intro s q; rfl
    · simp [isDep]
  case vecDot =>
    refine ⟨_, rfl, Eq.trans (congrArg List.length (BS.foldl_Y _ ?_ _)) ?_⟩
    · intro s q; rfl
    · simp [isDep, BS.row]
  case vecAxpy =>
    refine ⟨_, rfl, Eq.trans (congrArg List.length (BS.foldl_Y _ ?_ _)) ?_⟩
    · intro s q; rfl
    · simp [isDep]
  case assignDep => exact ⟨_, rfl, by simp [isDep]⟩
  all_goals exact ⟨_, rfl, by simp [isDep, BS.row]⟩

theorem safe_run_total (X : Nat → Nat → Word) {ops : List (Base K)}
    (ho : ∀ o ∈ ops, ∀ r k, o ≠ .setRef r k) (s : BS) :
    ∃ s', safeRun p X ops s = .ok s' ∧ s'.Y.length = s.Y.length + ops.countP isDep := by
  induction ops generalizing s with
  | nil => exact ⟨s, rfl, by simp⟩
  | cons o os ih =>
    obtain ⟨s1, h1, h2⟩ := safe_total (p := p) X (ho o (by simp)) s
    obtain ⟨s2, h3, h4⟩ := ih (fun o h => ho o (List.mem_cons_of_mem _ h)) s1
    refine ⟨s2, by simp only [safeRun, h1, h3], ?_⟩
    rw [h4, h2, List.countP_cons]; omega
end

end Verif.Sparse
