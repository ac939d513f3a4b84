import Verif.AD.Reverse
import Verif.AD.ZosFos
import Mathlib.Algebra.BigOperators.Group.Finset.Basic
import Mathlib.Algebra.BigOperators.Ring.Finset
import Mathlib.Tactic.Ring
import Mathlib.Tactic.FieldSimp
import Mathlib.Tactic.LinearCombination
import Mathlib.Tactic.SplitIfs

/-!
One step back: reverse undoes the forward step on the values and transposes it on the
tangents.
-/
set_option linter.all false
namespace Verif.AD
open Elem Finset

variable {K : Type} [Scalar K]

/-- `Σ_{l<N} A l * d l`. -/
def dot (N : Nat) (A d : Nat → K) : K := ∑ l ∈ range N, A l * d l

theorem dot_upd_left {N r : Nat} (hr : r < N) (A d : Nat → K) (x : K) :
    dot N (upd A r x) d = dot N A d + (x - A r) * d r := by
  unfold dot
  rw [← Finset.sum_erase_add _ _ (mem_range.2 hr), ← Finset.sum_erase_add (range N) (fun l => A l * d l) (mem_range.2 hr)]
  have : ∑ l ∈ (range N).erase r, upd A r x l * d l = ∑ l ∈ (range N).erase r, A l * d l := by
    refine sum_congr rfl fun l hl => ?_
    rw [upd_ne _ _ (ne_of_mem_erase hl)]
  rw [this, upd_same]; ring

theorem dot_upd_right {N r : Nat} (hr : r < N) (A d : Nat → K) (x : K) :
    dot N A (upd d r x) = dot N A d + A r * (x - d r) := by
  unfold dot
  rw [← Finset.sum_erase_add _ _ (mem_range.2 hr), ← Finset.sum_erase_add (range N) (fun l => A l * d l) (mem_range.2 hr)]
  have : ∑ l ∈ (range N).erase r, A l * upd d r x l = ∑ l ∈ (range N).erase r, A l * d l := by
    refine sum_congr rfl fun l hl => ?_
    rw [upd_ne _ _ (ne_of_mem_erase hl)]
  rw [this, upd_same]; ring

theorem dot_zero_left (N : Nat) (d : Nat → K) : dot N (fun _ => 0) d = 0 := by simp [dot]
theorem dot_zero_right (N : Nat) (A : Nat → K) : dot N A (fun _ => 0) = 0 := by simp [dot]

theorem dot_congr_left {N : Nat} {A B d : Nat → K} (h : ∀ l < N, A l * d l = B l * d l) :
    dot N A d = dot N B d := sum_congr rfl fun l hl => h l (mem_range.1 hl)

/-- `Σ_j u_j * dy_j` over the dependents met so far. -/
def wsum (u : Nat → K) (dy : List K) : K := ∑ j ∈ range dy.length, u j * dy[j]?.getD 0

theorem wsum_append (u : Nat → K) (dy : List K) (x : K) :
    wsum u (dy ++ [x]) = wsum u dy + u dy.length * x := by
  unfold wsum
  rw [List.length_append, List.length_singleton, sum_range_succ]
  congr 1
  · refine sum_congr rfl fun j hj => ?_
    rw [List.getElem?_append_left (mem_range.1 hj)]
  · simp

/-- All locations of an operation are below `N` (the `NUM_MAX_LIVES` of the trace). -/
def Base.bounded (N : Nat) (o : Base K) : Prop :=
  match o with
  | .cmp _ a => a < N
  | .assignA a r => a < N ∧ r < N
  | .assignD r _ | .assignP _ r | .assignD0 r | .assignD1 r | .assignInd r | .assignDep r
  | .eqPlusD r _ | .eqMinD r _ | .eqMultD r _ | .incrA r | .decrA r | .setRef r _ => r < N
  | .eqPlusA a r | .eqMinA a r | .eqMultA a r | .plusDA a r _ | .minDA a r _ | .multDA a r _
  | .divDA a r _ | .posSign a r | .negSign a r | .expOp a r | .logOp a r | .powOp a r _
  | .sqrtOp a r | .cbrtOp a r | .absVal a r _ | .ceilOp a r _ | .floorOp a r _ => a < N ∧ r < N
  | .plusAA a b r | .minAA a b r | .multAA a b r | .eqPlusProd a b r | .eqMinProd a b r
  | .divAA a b r | .sinOp a b r | .cosOp a b r | .quad _ a b r | .genQuad a b r _ _
  | .minOp a b r _ | .condAssignS a b r _ | .condEqAssignS a b r _ => a < N ∧ b < N ∧ r < N
  | .condAssign a a1 a2 r _ | .condEqAssign a a1 a2 r _ => a < N ∧ a1 < N ∧ a2 < N ∧ r < N
  | .vecCopy a n r => a + n ≤ N ∧ r + n ≤ N
  | .vecDot a b n r => a + n ≤ N ∧ b + n ≤ N ∧ r < N
  | .vecAxpy a a1 a2 n r => a < N ∧ a1 + n ≤ N ∧ a2 + n ≤ N ∧ r + n ≤ N
  | .takeStock r vs => r + vs.length ≤ N
  | .deathNot a b => a ≤ b ∧ b < N

/-- Location patterns for which the reverse code undoes the forward code.  Excluded:
aliased operands the recorder never produces, `vecCopy`/`vecAxpy` of two or more
elements (the reverse sweep pops their values in the wrong order, see
`Verif.Props.AD.C16_vec_copy_order`), and `takeStock` (values not restored). -/
def Base.okT (o : Base K) : Prop :=
  match o with
  | .assignA a r => a ≠ r
  | .sinOp a b r | .cosOp a b r => a ≠ b ∧ b ≠ r
  | .quad _ _ b r | .genQuad _ b r _ _ => b ≠ r
  | .eqPlusProd a b r | .eqMinProd a b r => a ≠ r ∧ b ≠ r
  | .vecCopy a n r => n = 0 ∨ (n = 1 ∧ a ≠ r)
  | .vecDot a b n r => (r < a ∨ a + n ≤ r) ∧ (r < b ∨ b + n ≤ r)
  | .vecAxpy a a1 a2 n r => n = 0 ∨ (n = 1 ∧ a ≠ r ∧ a1 ≠ r ∧ a2 ≠ r)
  | .takeStock _ _ => False
  | _ => True

/-- The elementary operation has a derivative at the current point (and it is the
one the code computes): no kink, no pole, no argument at which a special value is
returned. `T` are the values before the operation. -/
def regular (o : Base K) (T : Nat → K) : Prop :=
  match o with
  | .divAA _ b _ => T b ≠ 0
  | .divDA a _ _ => T a ≠ 0
  | .quad q a _ r =>
    let x := if a = r then q.fn (T a) else T a
    match q with
    | .asin | .acos | .atanh => x ≠ 1 ∧ x ≠ -1
    | .acosh => x ≠ 1
    | _ => True
  | .logOp a _ => T a ≠ 0
  | .powOp a _ k => T a ≠ 0 ∨ 1 < k
  | .sqrtOp a _ => T a ≠ 0 ∧ sqrt (T a) ≠ 0
  | .cbrtOp a _ => T a ≠ 0 ∧ cbrt (T a) ≠ 0
  | .minOp a b _ _ => T a ≠ T b ∨ a = b
  | .absVal a _ _ => T a ≠ 0
  | _ => True

/-- Locations whose tangent must vanish before the operation. -/
def Base.zeroTan (o : Base K) : Set Nat :=
  match o with
  | .assignInd r => {r}
  | .vecDot _ _ _ r => {r}
  | .vecAxpy _ _ _ n r => {l | r ≤ l ∧ l < r + n}
  | _ => ∅

/-- Locations whose adjoint must vanish after the operation (in reverse order:
before it is undone). -/
def Base.zeroAdj (o : Base K) : Set Nat :=
  match o with
  | .assignDep r => {r}
  | .sinOp _ b _ | .cosOp _ b _ => {b}
  | .setRef r _ => {r}
  | .deathNot a b => {l | a ≤ l ∧ l ≤ b}
  | _ => ∅

/-- The outcome of undoing one forward step `s → s'`. -/
structure Undo (N n : Nat) (u v : Nat → K) (s s' : FS K) (A b0 : Nat → K) (r : RS K) : Prop where
  T : r.T = s.T
  stk : r.stk = s.stk
  ii : r.ii = s.ii
  di : r.di = s.dy.length
  bar : ∀ i < s.ii, r.bar i = b0 i
  pair : dot N r.A s.dT + dot n r.bar v + wsum u s.dy
    = dot N A s'.dT + dot n b0 v + wsum u s'.dy

theorem quadTangent_reg {q : Quad} {x d p : K}
    (h : match q with
      | .asin | .acos | .atanh => x ≠ 1 ∧ x ≠ -1
      | .acosh => x ≠ 1
      | _ => True) : quadTangent q x d p = p * d := by
  cases q <;> simp_all [quadTangent]

theorem powZero_gt {k d old : K} (h : 1 < k) : powZeroTangent k d old = 0 := by
  have h0 : (0 : K) < k := lt_trans one_pos h
  have h2 : k ≠ 0 := ne_of_gt h0
  have h3 : k - 1 ≠ 0 := sub_ne_zero.2 (ne_of_gt h)
  simp [powZeroTangent, not_le.2 h0, h2, h3, h, not_lt.2 h.le, not_lt.2 h0.le]

set_option hygiene false in
macro "undoT" : tactic => `(tactic| (
  first
    | done
    | rfl
    | (funext l; simp only [upd_apply]; split_ifs <;> simp_all; done)))

set_option hygiene false in
macro "undoP" : tactic => `(tactic| (
  try simp only [dot_upd_left, dot_upd_right, *]
  try simp only [upd_apply]
  first
    | done
    | ring1
    | (split_ifs <;> first
        | (subst_vars; ring1)
        | (exfalso; simp_all; done))))

set_option hygiene false in
macro "undo" : tactic => `(tactic| (
  simp only [Base.bounded] at hb
  simp only [fosStep, FS.push, FS.set, FS.setD, hk, if_true, Except.ok.injEq] at h
  subst h
  simp only [revStep, RS.pop, RS.un, RS.setA, RS.addA, if_true, upd_upd, upd_self, upd_same]
  refine ⟨_, rfl, ⟨?_, rfl, rfl, rfl, fun _ _ => rfl, ?_⟩⟩
  · undoT
  · try simp only [dot_upd_left, dot_upd_right, *]
    undoP))

theorem push_fold {c : Cfg K} (hk : c.keep = true) (g : Nat → Nat) (L : List Nat) (s : FS K) :
    L.foldl (fun s q => s.push c (g q)) s
      = { s with stk := (L.map fun q => s.T (g q)).reverse ++ s.stk, rows := (L.map fun q i => if i = 0 then s.T (g q) else s.dT (g q)).reverse ++ s.rows } := by
  induction L generalizing s with
  | nil => simp
  | cons x L ih =>
    rw [List.foldl_cons, ih]
    simp [FS.push, hk]

theorem rev_map_range (T : Nat → K) {a b : Nat} (hab : a ≤ b) :
    ((List.range (b - a + 1)).map fun q => T (b - q)).reverse
      = (List.range (b + 1 - a)).map fun q => T (a + q) := by
  apply List.ext_getElem
  · simp; omega
  · intro i h1 h2
    simp at h1 h2
    simp
    congr 1; omega

theorem pop_fold (F : Nat → K) (g : Nat → Nat) (st : List K) (L : List Nat) (r : RS K)
    (h : r.stk = (L.map fun q => F (g q)) ++ st) :
    ∃ r', L.foldlM (fun s q => RS.pop (g q) s) r = .ok r' ∧ r'.stk = st ∧ r'.A = r.A ∧
      r'.ii = r.ii ∧ r'.di = r.di ∧ r'.bar = r.bar ∧
      ∀ l, r'.T l = if l ∈ L.map g then F l else r.T l := by
  induction L generalizing r with
  | nil => exact ⟨r, rfl, by simpa using h, rfl, rfl, rfl, rfl, by simp⟩
  | cons x L ih =>
    simp only [List.map_cons, List.cons_append] at h
    have hp : RS.pop (g x) r = .ok ⟨upd r.T (g x) (F (g x)), r.A, (L.map fun q => F (g q)) ++ st, r.ii, r.di, r.bar⟩ := by
      simp [RS.pop, h]
    obtain ⟨r', h1, h2, h3, h4, h5, h6, h7⟩ := ih ⟨upd r.T (g x) (F (g x)), r.A, (L.map fun q => F (g q)) ++ st, r.ii, r.di, r.bar⟩ rfl
    refine ⟨r', ?_, h2, h3, h4, h5, h6, ?_⟩
    · rw [List.foldlM_cons, hp]; exact h1
    · intro l
      rw [h7 l]
      simp only [upd_apply, List.map_cons, List.mem_cons]
      by_cases h1 : l ∈ L.map g <;> by_cases h2 : l = g x <;> simp [h1, h2]

theorem setA_zero_fold (g : Nat → Nat) (L : List Nat) (r : RS K) (h : ∀ q ∈ L, r.A (g q) = 0) :
    L.foldl (fun s q => RS.setA (g q) 0 s) r = r := by
  induction L with
  | nil => rfl
  | cons x L ih =>
    have : RS.setA (g x) 0 r = r := by
      simp only [RS.setA]
      rw [← h x (by simp), upd_self]
    rw [List.foldl_cons, this]
    exact ih fun q hq => h q (by simp [hq])

/-- `death_not`: the popped values overwrite whatever the reverse sweep had there. -/
theorem undo_deathNot {N n : Nat} {c : Cfg K} (hk : c.keep = true) {u v : Nat → K} {a b : Nat}
    (hab : a ≤ b) {s s' : FS K} (h : fosStep c v (.deathNot a b) s = .ok s')
    {A bar T0 : Nat → K} (hA : ∀ l, a ≤ l → l ≤ b → A l = 0)
    (hT0 : ∀ l, ¬ (a ≤ l ∧ l ≤ b) → T0 l = s.T l) :
    ∃ r, revStep u (.deathNot a b) ⟨T0, A, s'.stk, s'.ii, s'.dy.length, bar⟩ = .ok r ∧
      Undo N n u v s s' A bar r := by
  simp only [fosStep, push_fold hk, Except.ok.injEq, rev_map_range _ hab] at h
  subst h
  simp only [revStep]
  rw [setA_zero_fold _ _ _ (by
    intro q hq
    rw [List.mem_range] at hq
    exact hA _ (by omega) (by omega))]
  obtain ⟨r, h1, h2, h3, h4, h5, h6, h7⟩ := pop_fold s.T (fun q => a + q) s.stk
    (List.range (b + 1 - a)) ⟨T0, A, (List.range (b + 1 - a)).map (fun q => s.T (a + q)) ++ s.stk,
      s.ii, s.dy.length, bar⟩ rfl
  refine ⟨r, h1, ⟨?_, h2, h4, h5, fun i _ => by rw [h6], by rw [h3, h6]⟩⟩
  funext l
  rw [h7 l]
  split_ifs with hm
  · rfl
  · refine hT0 l fun hl => hm ?_
    rw [List.mem_map]
    exact ⟨l - a, List.mem_range.2 (by omega), by omega⟩

theorem dot_fold_fwd (r a b : Nat) (L : List Nat)
    (hL : ∀ q ∈ L, a + q ≠ r ∧ b + q ≠ r) (s : FS K) :
    L.foldl (fun (s : FS K) q =>
      (s.setD r (s.dT r + (s.T (a + q) * s.dT (b + q) + s.dT (a + q) * s.T (b + q)))).set r
        ((s.setD r (s.dT r + (s.T (a + q) * s.dT (b + q) + s.dT (a + q) * s.T (b + q)))).T r +
         (s.setD r (s.dT r + (s.T (a + q) * s.dT (b + q) + s.dT (a + q) * s.T (b + q)))).T (a + q) *
         (s.setD r (s.dT r + (s.T (a + q) * s.dT (b + q) + s.dT (a + q) * s.T (b + q)))).T (b + q))) s
      = { s with
          T := upd s.T r (s.T r + (L.map fun q => s.T (a + q) * s.T (b + q)).sum)
          dT := upd s.dT r (s.dT r +
            (L.map fun q => s.T (a + q) * s.dT (b + q) + s.dT (a + q) * s.T (b + q)).sum) } := by
  induction L generalizing s with
  | nil => simp
  | cons x L ih =>
    rw [List.foldl_cons, ih fun q hq => hL q (by simp [hq])]
    have e1 : ∀ q ∈ x :: L, a + q ≠ r := fun q hq => (hL q hq).1
    have e2 : ∀ q ∈ x :: L, b + q ≠ r := fun q hq => (hL q hq).2
    simp only [FS.set, FS.setD, upd_same, upd_upd]
    have m1 : L.map (fun q => upd s.T r (s.T r + s.T (a + x) * s.T (b + x)) (a + q)
        * upd s.T r (s.T r + s.T (a + x) * s.T (b + x)) (b + q))
        = L.map (fun q => s.T (a + q) * s.T (b + q)) := by
      refine List.map_congr_left fun q hq => ?_
      rw [upd_ne _ _ (e1 q (by simp [hq])), upd_ne _ _ (e2 q (by simp [hq]))]
    have m2 : ∀ w z : K, L.map (fun q => upd s.T r w (a + q) * upd s.dT r z (b + q)
        + upd s.dT r z (a + q) * upd s.T r w (b + q))
        = L.map (fun q => s.T (a + q) * s.dT (b + q) + s.dT (a + q) * s.T (b + q)) := by
      intro w z
      refine List.map_congr_left fun q hq => ?_
      rw [upd_ne _ _ (e1 q (by simp [hq])), upd_ne _ _ (e2 q (by simp [hq])),
        upd_ne _ _ (e1 q (by simp [hq])), upd_ne _ _ (e2 q (by simp [hq]))]
    simp only [m1, m2, List.map_cons, List.sum_cons, add_assoc]

theorem dot_fold_rev (N r a b : Nat) (d : Nat → K) (L : List Nat)
    (hL : ∀ q ∈ L, a + q ≠ r ∧ b + q ≠ r ∧ a + q < N ∧ b + q < N) (s : RS K) :
    ∃ A', L.foldl (fun (s : RS K) q =>
        (s.addA (b + q) (s.A r * s.T (a + q))).addA (a + q)
          ((s.addA (b + q) (s.A r * s.T (a + q))).A r * (s.addA (b + q) (s.A r * s.T (a + q))).T (b + q))) s
        = { s with A := A' } ∧ A' r = s.A r ∧
      dot N A' d = dot N s.A d
        + s.A r * (L.map fun q => s.T (a + q) * d (b + q) + d (a + q) * s.T (b + q)).sum := by
  induction L generalizing s with
  | nil => exact ⟨s.A, rfl, rfl, by simp⟩
  | cons x L ih =>
    obtain ⟨h1, h2, h3, h4⟩ := hL x (by simp)
    obtain ⟨A', e1, e2, e3⟩ := ih (fun q hq => hL q (by simp [hq]))
      ((s.addA (b + x) (s.A r * s.T (a + x))).addA (a + x)
          ((s.addA (b + x) (s.A r * s.T (a + x))).A r * (s.addA (b + x) (s.A r * s.T (a + x))).T (b + x)))
    refine ⟨A', ?_, ?_, ?_⟩
    · rw [List.foldl_cons, e1]; rfl
    · rw [e2]; simp [RS.addA, RS.setA, upd_ne _ _ h1.symm, upd_ne _ _ h2.symm]
    · rw [e3]
      simp only [RS.addA, RS.setA, upd_ne _ _ h1.symm, upd_ne _ _ h2.symm, dot_upd_left h3,
        dot_upd_left h4, List.map_cons, List.sum_cons]
      ring

/-- Undoing one step. -/
theorem undo_step {N n : Nat} {c : Cfg K} (hk : c.keep = true) {u v : Nat → K} {o : Base K}
    {s s' : FS K} (h : fosStep c v o s = .ok s') (hb : o.bounded N) (hT : o.okT)
    (hreg : regular o s.T) (hz : ∀ l ∈ o.zeroTan, s.dT l = 0)
    {A bar : Nat → K} (hA : ∀ l ∈ o.zeroAdj, A l = 0) (hn : s'.ii ≤ n)
    (hbar : ∀ i < s'.ii, bar i = 0) :
    ∃ r, revStep u o ⟨s'.T, A, s'.stk, s'.ii, s'.dy.length, bar⟩ = .ok r ∧
      Undo N n u v s s' A bar r := by
  obtain ⟨T, dT, stk, rc, ii, y, dy⟩ := s
  cases o
  case cmp q a =>
    simp only [fosStep] at h
    refine ⟨_, rfl, ?_⟩
    split at h
    · cases q <;> simp only [Except.ok.injEq] at h <;> subst h <;> constructor <;> simp
    · cases h
  case assignInd r =>
    simp only [fosStep, FS.push, FS.set, FS.setD, hk, if_true, Except.ok.injEq] at h
    subst h
    simp only [Base.zeroTan, Set.mem_singleton_iff, forall_eq] at hz
    simp only [Base.bounded] at hb
    simp only [revStep, RS.pop, Nat.add_sub_cancel]
    refine ⟨_, rfl, ?_⟩
    constructor <;> simp only [upd_upd, upd_self]
    · intro i hi; exact upd_ne _ _ (by omega)
    · have hn' : ii + 1 ≤ n := hn
      have hbar' : ∀ i < ii + 1, bar i = 0 := hbar
      rw [dot_upd_right hb, dot_upd_left (show ii < n by omega), hbar' ii (by omega), hz]; ring
  case assignDep r =>
    simp only [fosStep, Except.ok.injEq] at h
    subst h
    simp only [Base.zeroAdj, Set.mem_singleton_iff, forall_eq] at hA
    simp only [Base.bounded] at hb
    simp only [revStep, RS.setA]
    refine ⟨_, rfl, ?_⟩
    constructor <;> simp
    rw [wsum_append, dot_upd_left hb, hA]; ring
  case deathNot a b =>
    have h' := h
    simp only [fosStep, push_fold hk, Except.ok.injEq] at h'
    refine undo_deathNot hk hb.1 h (fun l h1 h2 => hA l ⟨h1, h2⟩) ?_
    intro l _
    rw [← h']
  case vecDot a b m r =>
    obtain ⟨hT1, hT2⟩ := hT
    obtain ⟨hb1, hb2, hb3⟩ := hb
    simp only [Base.zeroTan, Set.mem_singleton_iff, forall_eq] at hz
    have hq : ∀ q ∈ List.range m, a + q ≠ r ∧ b + q ≠ r ∧ a + q < N ∧ b + q < N := by
      intro q hq
      rw [List.mem_range] at hq
      omega
    simp only [fosStep, Except.ok.injEq] at h
    rw [dot_fold_fwd r a b _ fun q h => ⟨(hq q h).1, (hq q h).2.1⟩] at h
    simp only [FS.push, FS.set, FS.setD, hk, if_true, upd_same, upd_upd, zero_add] at h
    subst h
    simp only [revStep]
    obtain ⟨A', e1, e2, e3⟩ := dot_fold_rev N r a b dT (List.range m) hq
      ⟨upd T r (List.map (fun q => upd T r 0 (a + q) * upd T r 0 (b + q)) (List.range m)).sum,
        A, T r :: stk, ii, dy.length, bar⟩
    rw [e1]
    simp only [RS.pop, upd_upd, upd_self]
    refine ⟨_, rfl, ⟨rfl, rfl, rfl, rfl, fun _ _ => rfl, ?_⟩⟩
    simp only
    rw [e3, dot_upd_right hb3]
    have m1 : (List.range m).map (fun q => upd T r (List.map (fun q => upd T r 0 (a + q) * upd T r 0 (b + q))
          (List.range m)).sum (a + q) * dT (b + q) + dT (a + q) * upd T r (List.map (fun q =>
          upd T r 0 (a + q) * upd T r 0 (b + q)) (List.range m)).sum (b + q))
        = (List.range m).map (fun q => upd T r 0 (a + q) * upd dT r 0 (b + q)
          + upd dT r 0 (a + q) * upd T r 0 (b + q)) := by
      refine List.map_congr_left fun q h => ?_
      obtain ⟨h1, h2, _⟩ := hq q h
      simp only [upd_ne _ _ h1, upd_ne _ _ h2]
    simp only [m1]
    rw [hz]
    ring
  case vecCopy a m r =>
    obtain ⟨hb1, hb2⟩ := hb
    rcases hT with rfl | ⟨rfl, har⟩
    · simp only [fosStep, List.range_zero, List.foldl_nil, Except.ok.injEq] at h
      subst h
      exact ⟨_, rfl, ⟨rfl, rfl, rfl, rfl, fun _ _ => rfl, rfl⟩⟩
    · have ha : a < N := by omega
      have hr : r < N := by omega
      simp only [fosStep, List.range_one, List.foldl_cons, List.foldl_nil, Nat.add_zero,
        FS.push, FS.set, FS.setD, hk, if_true, Except.ok.injEq] at h
      subst h
      simp only [revStep, List.range_one, List.foldlM_cons, List.foldlM_nil, Nat.add_zero,
        RS.pop, RS.un, RS.setA, RS.addA, if_true, upd_upd, upd_self, upd_same]
      refine ⟨_, rfl, ⟨rfl, rfl, rfl, rfl, fun _ _ => rfl, ?_⟩⟩
      undoP
  case vecAxpy a a1 a2 m r =>
    obtain ⟨hb0, hb1, hb2, hb3⟩ := hb
    rcases hT with rfl | ⟨rfl, har, h1r, h2r⟩
    · simp only [fosStep, List.range_zero, List.foldl_nil, Except.ok.injEq] at h
      subst h
      exact ⟨_, rfl, ⟨rfl, rfl, rfl, rfl, fun _ _ => rfl, rfl⟩⟩
    · have ha : a1 < N := by omega
      have ha2 : a2 < N := by omega
      have hr : r < N := by omega
      have hz : dT r = 0 := hz r (by simp [Base.zeroTan])
      simp only [fosStep, List.range_one, List.foldl_cons, List.foldl_nil, Nat.add_zero,
        FS.push, FS.set, FS.setD, hk, if_true, Except.ok.injEq] at h
      subst h
      simp only [revStep, List.range_one, List.foldlM_cons, List.foldlM_nil, Nat.add_zero,
        RS.pop, RS.un, RS.setA, RS.addA, if_true, upd_upd, upd_self, upd_same]
      refine ⟨_, rfl, ⟨rfl, rfl, rfl, rfl, fun _ _ => rfl, ?_⟩⟩
      undoP
  case takeStock => exact hT.elim
  case sinOp a b r =>
    obtain ⟨hab, hbr⟩ := hT
    simp only [Base.zeroAdj, Set.mem_singleton_iff, forall_eq] at hA
    undo
  case cosOp a b r =>
    obtain ⟨hab, hbr⟩ := hT
    simp only [Base.zeroAdj, Set.mem_singleton_iff, forall_eq] at hA
    undo
  case powOp a r k =>
    simp only [regular] at hreg
    simp only [Base.bounded] at hb
    simp only [fosStep, FS.push, FS.set, FS.setD, hk, if_true] at h
    by_cases h0 : T a = 0
    · rw [if_pos h0, Except.ok.injEq, powZero_gt (hreg.resolve_left (by simp [h0]))] at h
      subst h
      by_cases har : a = r
      · subst har
        simp only [revStep, RS.pop, RS.un, RS.setA, RS.addA, if_true, upd_upd, upd_self, upd_same, h0]
        refine ⟨_, rfl, ⟨?_, rfl, rfl, rfl, fun _ _ => rfl, ?_⟩⟩
        · rw [← h0]; exact upd_self _ _
        · undoP
      · simp only [revStep, RS.pop, RS.un, RS.setA, RS.addA, if_true, upd_upd, upd_self, upd_same,
          if_neg har, upd_ne _ _ har, h0]
        refine ⟨_, rfl, ⟨rfl, rfl, rfl, rfl, fun _ _ => rfl, ?_⟩⟩
        undoP
    · rw [if_neg h0, Except.ok.injEq] at h
      subst h
      by_cases har : a = r
      · subst har
        simp only [revStep, RS.pop, RS.un, RS.setA, RS.addA, if_true, upd_upd, upd_self, upd_same, h0, if_false]
        refine ⟨_, rfl, ⟨rfl, rfl, rfl, rfl, fun _ _ => rfl, ?_⟩⟩
        undoP
      · simp only [revStep, RS.pop, RS.un, RS.setA, RS.addA, if_true, upd_upd, upd_self, upd_same,
          if_neg har, upd_ne _ _ har, h0, if_false]
        refine ⟨_, rfl, ⟨rfl, rfl, rfl, rfl, fun _ _ => rfl, ?_⟩⟩
        undoP
  case divDA a r k =>
    simp only [Base.bounded] at hb
    simp only [fosStep, FS.push, FS.set, FS.setD, hk, if_true, Except.ok.injEq] at h
    subst h
    by_cases har : a = r
    · subst har
      simp only [revStep, RS.pop, RS.un, RS.setA, RS.addA, if_true, upd_upd, upd_self, upd_same]
      refine ⟨_, rfl, ⟨rfl, rfl, rfl, rfl, fun _ _ => rfl, ?_⟩⟩
      undoP
    · simp only [revStep, RS.pop, RS.un, RS.setA, RS.addA, if_true, upd_upd, upd_self, upd_same,
        if_neg har, upd_ne _ _ har]
      refine ⟨_, rfl, ⟨rfl, rfl, rfl, rfl, fun _ _ => rfl, ?_⟩⟩
      undoP
  case quad q a b r =>
    have hT : b ≠ r := hT
    simp only [Base.bounded] at hb
    simp only [fosStep, FS.push, FS.set, FS.setD, hk, if_true, Except.ok.injEq] at h
    have hq := quadTangent_reg (q := q) (x := upd T r (q.fn (T a)) a) (d := dT a)
      (p := upd T r (q.fn (T a)) b) (by
        simp only [regular] at hreg
        cases q <;> simp_all [upd_apply])
    rw [hq] at h
    subst h
    simp only [revStep, RS.pop, RS.un, RS.setA, RS.addA, if_true, upd_upd, upd_self, upd_same]
    refine ⟨_, rfl, ⟨rfl, rfl, rfl, rfl, fun _ _ => rfl, ?_⟩⟩
    rw [upd_ne _ _ hT]
    undoP
  case logOp a r =>
    simp only [regular] at hreg
    simp only [Base.bounded] at hb
    simp only [fosStep, FS.push, FS.set, FS.setD, hk, if_true, Except.ok.injEq, hreg, false_and,
      if_false] at h
    subst h
    simp only [revStep, RS.pop, RS.un, RS.setA, RS.addA, if_true, upd_upd, upd_self, upd_same]
    refine ⟨_, rfl, ⟨rfl, rfl, rfl, rfl, fun _ _ => rfl, ?_⟩⟩
    undoP
  case sqrtOp a r =>
    obtain ⟨h1, h2⟩ := hreg
    simp only [Base.bounded] at hb
    have h3 : upd T r (sqrt (T a)) a ≠ 0 := by rw [upd_apply]; split_ifs <;> assumption
    simp only [fosStep, FS.push, FS.set, FS.setD, hk, if_true, Except.ok.injEq, h3, if_false] at h
    subst h
    simp only [upd_same] at h2
    simp only [revStep, RS.pop, RS.un, RS.setA, RS.addA, if_true, upd_upd, upd_self, upd_same]
    rw [if_pos h2]
    refine ⟨_, rfl, ⟨rfl, rfl, rfl, rfl, fun _ _ => rfl, ?_⟩⟩
    undoP
  case cbrtOp a r =>
    obtain ⟨h1, h2⟩ := hreg
    simp only [Base.bounded] at hb
    have h3 : upd T r (cbrt (T a)) a ≠ 0 := by rw [upd_apply]; split_ifs <;> assumption
    simp only [fosStep, FS.push, FS.set, FS.setD, hk, if_true, Except.ok.injEq, h3, if_false] at h
    subst h
    simp only [upd_same] at h2
    simp only [revStep, RS.pop, RS.un, RS.setA, RS.addA, if_true, upd_upd, upd_self, upd_same]
    rw [if_pos h2]
    refine ⟨_, rfl, ⟨rfl, rfl, rfl, rfl, fun _ _ => rfl, ?_⟩⟩
    undoP
  case genQuad a b r old k =>
    have hT : b ≠ r := hT
    simp only [Base.bounded] at hb
    simp only [fosStep] at h
    split_ifs at h
    simp only [FS.push, FS.set, FS.setD, hk, if_true, Except.ok.injEq] at h
    subst h
    simp only [revStep, RS.pop, RS.un, RS.setA, RS.addA, if_true, upd_upd, upd_self, upd_same]
    refine ⟨_, rfl, ⟨rfl, rfl, rfl, rfl, fun _ _ => rfl, ?_⟩⟩
    rw [upd_ne _ _ hT]
    undoP
  case minOp a b r k =>
    simp only [regular] at hreg
    simp only [Base.bounded] at hb
    simp only [fosStep, FS.push, FS.set, FS.setD, FS.dec, hk, if_true, Except.ok.injEq] at h
    rcases lt_trichotomy (T a) (T b) with hlt | heq | hgt
    · have hnn : ¬ T b < T a := not_lt.2 hlt.le
      simp only [gt_iff_lt, hnn, hlt, if_true, if_false] at h
      subst h
      simp only [revStep, RS.pop, RS.un, RS.setA, RS.addA, if_true, if_false, upd_upd, upd_self, upd_same,
        gt_iff_lt, hlt, if_neg hnn, if_false]
      refine ⟨_, rfl, ⟨rfl, rfl, rfl, rfl, fun _ _ => rfl, ?_⟩⟩
      undoP
    · have hab := hreg.resolve_left (by simp [heq])
      subst hab
      simp only [gt_iff_lt, lt_irrefl, if_true, if_false] at h
      subst h
      simp only [revStep, RS.pop, RS.un, RS.setA, RS.addA, if_true, if_false, upd_upd, upd_self, upd_same,
        gt_iff_lt, lt_irrefl]
      refine ⟨_, rfl, ⟨rfl, rfl, rfl, rfl, fun _ _ => rfl, ?_⟩⟩
      undoP
    · simp only [gt_iff_lt, hgt, if_true, if_false] at h
      subst h
      simp only [revStep, RS.pop, RS.un, RS.setA, RS.addA, if_true, if_false, upd_upd, upd_self, upd_same,
        gt_iff_lt, hgt]
      refine ⟨_, rfl, ⟨rfl, rfl, rfl, rfl, fun _ _ => rfl, ?_⟩⟩
      undoP
  case absVal a r k =>
    simp only [regular] at hreg
    simp only [Base.bounded] at hb
    simp only [fosStep, FS.push, FS.set, FS.setD, FS.dec, hk, if_true, Except.ok.injEq] at h
    rcases lt_trichotomy (T a) 0 with hlt | heq | hgt
    · simp only [gt_iff_lt, hlt, hreg, if_true, if_false, neg_eq_zero, one_ne_zero, false_and] at h
      subst h
      simp only [revStep, RS.pop, RS.un, RS.setA, RS.addA, if_true, if_false, upd_upd, upd_self, upd_same,
        gt_iff_lt, hlt]
      refine ⟨_, rfl, ⟨rfl, rfl, rfl, rfl, fun _ _ => rfl, ?_⟩⟩
      undoP
    · exact absurd heq hreg
    · have hnn : ¬ T a < 0 := not_lt.2 hgt.le
      simp only [gt_iff_lt, hnn, hgt, hreg, if_true, if_false, one_ne_zero, false_and] at h
      subst h
      simp only [revStep, RS.pop, RS.un, RS.setA, RS.addA, if_true, if_false, upd_upd, upd_self, upd_same,
        gt_iff_lt, hgt, hnn]
      refine ⟨_, rfl, ⟨rfl, rfl, rfl, rfl, fun _ _ => rfl, ?_⟩⟩
      undoP
  case ceilOp a r k =>
    simp only [Base.bounded] at hb
    simp only [fosStep, FS.push, FS.set, FS.setD, FS.dec, hk, if_true, Except.ok.injEq] at h
    subst h
    simp only [revStep, RS.pop, RS.un, RS.setA, RS.addA, if_true, if_false, upd_upd, upd_self, upd_same]
    refine ⟨_, rfl, ⟨rfl, rfl, rfl, rfl, fun _ _ => rfl, ?_⟩⟩
    undoP
  case floorOp a r k =>
    simp only [Base.bounded] at hb
    simp only [fosStep, FS.push, FS.set, FS.setD, FS.dec, hk, if_true, Except.ok.injEq] at h
    subst h
    simp only [revStep, RS.pop, RS.un, RS.setA, RS.addA, if_true, if_false, upd_upd, upd_self, upd_same]
    refine ⟨_, rfl, ⟨rfl, rfl, rfl, rfl, fun _ _ => rfl, ?_⟩⟩
    undoP
  case condAssign a a1 a2 r k =>
    simp only [Base.bounded] at hb
    simp only [fosStep, FS.push, FS.set, FS.setD, FS.dec, hk, if_true] at h
    by_cases hc : T a > 0
    · simp only [hc, if_true, Except.ok.injEq] at h
      subst h
      simp only [revStep, RS.pop, RS.un, RS.setA, RS.addA, if_true, if_false, upd_upd, upd_self, upd_same, hc]
      split
      · refine ⟨_, rfl, ⟨rfl, rfl, rfl, rfl, fun _ _ => rfl, ?_⟩⟩
        undoP
      · refine ⟨_, rfl, ⟨rfl, rfl, rfl, rfl, fun _ _ => rfl, ?_⟩⟩
        simp_all
    · simp only [hc, if_false, Except.ok.injEq] at h
      subst h
      simp only [revStep, RS.pop, RS.un, RS.setA, RS.addA, if_true, if_false, upd_upd, upd_self, upd_same, hc]
      split
      · refine ⟨_, rfl, ⟨rfl, rfl, rfl, rfl, fun _ _ => rfl, ?_⟩⟩
        undoP
      · refine ⟨_, rfl, ⟨rfl, rfl, rfl, rfl, fun _ _ => rfl, ?_⟩⟩
        simp_all
  case condEqAssign a a1 a2 r k =>
    simp only [Base.bounded] at hb
    simp only [fosStep, FS.push, FS.set, FS.setD, FS.dec, hk, if_true] at h
    by_cases hc : T a ≥ 0
    · simp only [hc, if_true, Except.ok.injEq] at h
      subst h
      simp only [revStep, RS.pop, RS.un, RS.setA, RS.addA, if_true, if_false, upd_upd, upd_self, upd_same, hc]
      split
      · refine ⟨_, rfl, ⟨rfl, rfl, rfl, rfl, fun _ _ => rfl, ?_⟩⟩
        undoP
      · refine ⟨_, rfl, ⟨rfl, rfl, rfl, rfl, fun _ _ => rfl, ?_⟩⟩
        simp_all
    · simp only [hc, if_false, Except.ok.injEq] at h
      subst h
      simp only [revStep, RS.pop, RS.un, RS.setA, RS.addA, if_true, if_false, upd_upd, upd_self, upd_same, hc]
      split
      · refine ⟨_, rfl, ⟨rfl, rfl, rfl, rfl, fun _ _ => rfl, ?_⟩⟩
        undoP
      · refine ⟨_, rfl, ⟨rfl, rfl, rfl, rfl, fun _ _ => rfl, ?_⟩⟩
        simp_all
  case condAssignS a a1 r k =>
    simp only [Base.bounded] at hb
    simp only [fosStep, FS.push, FS.set, FS.setD, FS.dec, hk, if_true] at h
    by_cases hc : T a > 0
    · simp only [hc, if_true, Except.ok.injEq] at h
      subst h
      simp only [revStep, RS.pop, RS.un, RS.setA, RS.addA, if_true, if_false, upd_upd, upd_self, upd_same, hc]
      split
      · refine ⟨_, rfl, ⟨rfl, rfl, rfl, rfl, fun _ _ => rfl, ?_⟩⟩
        undoP
      · refine ⟨_, rfl, ⟨rfl, rfl, rfl, rfl, fun _ _ => rfl, ?_⟩⟩
        simp_all
    · simp only [hc, if_false, Except.ok.injEq] at h
      subst h
      simp only [revStep, RS.pop, RS.un, RS.setA, RS.addA, if_true, if_false, upd_upd, upd_self, upd_same, hc]
      exact ⟨_, rfl, ⟨rfl, rfl, rfl, rfl, fun _ _ => rfl, rfl⟩⟩
  case condEqAssignS a a1 r k =>
    simp only [Base.bounded] at hb
    simp only [fosStep, FS.push, FS.set, FS.setD, FS.dec, hk, if_true] at h
    by_cases hc : T a ≥ 0
    · simp only [hc, if_true, Except.ok.injEq] at h
      subst h
      simp only [revStep, RS.pop, RS.un, RS.setA, RS.addA, if_true, if_false, upd_upd, upd_self, upd_same, hc]
      split
      · refine ⟨_, rfl, ⟨rfl, rfl, rfl, rfl, fun _ _ => rfl, ?_⟩⟩
        undoP
      · refine ⟨_, rfl, ⟨rfl, rfl, rfl, rfl, fun _ _ => rfl, ?_⟩⟩
        simp_all
    · simp only [hc, if_false, Except.ok.injEq] at h
      subst h
      simp only [revStep, RS.pop, RS.un, RS.setA, RS.addA, if_true, if_false, upd_upd, upd_self, upd_same, hc]
      exact ⟨_, rfl, ⟨rfl, rfl, rfl, rfl, fun _ _ => rfl, rfl⟩⟩
  case eqPlusProd a b r =>
    obtain ⟨har, hbr⟩ := hT
    undo
  case eqMinProd a b r =>
    obtain ⟨har, hbr⟩ := hT
    undo
  case assignA a r =>
    have har : a ≠ r := hT
    undo
  all_goals undo

end Verif.AD
