import Verif.AD.ForwardVec
import Verif.AD.ZosFos
import Mathlib.Data.List.Nodup
import Mathlib.Data.List.Range

/-! Column `l` of `fov_forward` is `fos_forward` in direction `l`. -/
set_option linter.all false
namespace Verif.AD
open Elem

variable {K : Type} [Scalar K]

/-- Column `l0` of the vector state `s` is the scalar state `f`. -/
structure Col (l0 : Nat) (s : VS K) (f : FS K) : Prop where
  T : s.T = f.T
  dT : ∀ a, s.dT a l0 = f.dT a
  ii : s.ii = f.ii
  y : s.y = f.y
  dy : s.dy.map (fun row => row[l0]?.getD 0) = f.dy
  rc : s.rc ≤ f.rc

variable {l0 p : Nat} {s : VS K} {f : FS K}

theorem Col.push {c : Cfg K} {r : Nat} (h : Col l0 s f) : Col l0 s (f.push c r) := by
  obtain ⟨h1, h2, h3, h4, h5, h6⟩ := h
  constructor <;> simp [FS.push, *]

theorem Col.set {r : Nat} {v w : K} (h : Col l0 s f) (hv : v = w) :
    Col l0 (s.set r v) (f.set r w) := by
  obtain ⟨h1, h2, h3, h4, h5, h6⟩ := h
  constructor <;> simp [FS.set, VS.set, *]

theorem Col.dec {b b' : Bool} {n : Int} (h : Col l0 s f) (hb : b = b') :
    Col l0 (s.dec b n) (f.dec b' n) := by
  obtain ⟨h1, h2, h3, h4, h5, h6⟩ := h
  subst hb
  constructor <;> simp [FS.dec, VS.dec, *]
  split
  · exact mindec_mono h6
  · exact h6

theorem Col.decL {b : Bool} {n : Int} (h : Col l0 s f) : Col l0 (s.dec b n) f := by
  obtain ⟨h1, h2, h3, h4, h5, h6⟩ := h
  constructor <;> simp [VS.dec, *]
  split
  · exact le_trans (mindec_le_left _ _) h6
  · exact h6

theorem Col.setC_ne {r l : Nat} {v : K} (h : Col l0 s f) (hl : l ≠ l0) :
    Col l0 (s.setC r l v) f := by
  obtain ⟨h1, h2, h3, h4, h5, h6⟩ := h
  refine ⟨h1, fun a => ?_, h3, h4, h5, h6⟩
  simp only [VS.setC]
  rw [if_neg (by rintro ⟨_, h⟩; exact hl h.symm)]
  exact h2 a

theorem Col.setC {r : Nat} {v w : K} (h : Col l0 s f) (hv : v = w) :
    Col l0 (s.setC r l0 v) (f.setD r w) := by
  obtain ⟨h1, h2, h3, h4, h5, h6⟩ := h
  refine ⟨h1, fun a => ?_, h3, h4, h5, h6⟩
  simp only [VS.setC, FS.setD, upd, and_true]
  split
  · exact hv
  · exact h2 a

theorem foldl_col {l0 : Nat} {g : Nat → VS K → VS K} {P Q : VS K → Prop}
    (hP : ∀ l s, l ≠ l0 → P s → P (g l s)) (hPQ : ∀ s, P s → Q (g l0 s))
    (hQ : ∀ l s, l ≠ l0 → Q s → Q (g l s)) :
    ∀ (L : List Nat), L.Nodup → l0 ∈ L → ∀ s, P s → Q (L.foldl (fun s l => g l s) s) := by
  have keepQ : ∀ (L : List Nat), l0 ∉ L → ∀ s, Q s → Q (L.foldl (fun s l => g l s) s) := by
    intro L
    induction L with
    | nil => intro _ s h; exact h
    | cons x L ih =>
      intro hx s h
      simp only [List.mem_cons, not_or] at hx
      exact ih hx.2 _ (hQ x s (Ne.symm hx.1) h)
  intro L
  induction L with
  | nil => intro _ h; simp at h
  | cons x L ih =>
    intro hnd hm s hs
    rw [List.nodup_cons] at hnd
    by_cases hx : x = l0
    · subst hx
      exact keepQ L hnd.1 _ (hPQ s hs)
    · have : l0 ∈ L := by
        rcases List.mem_cons.1 hm with h | h
        · exact absurd h.symm hx
        · exact h
      exact ih hnd.2 this _ (hP x s hx hs)

theorem Col.up {g : Nat → VS K → VS K} {f' : FS K} (hl : l0 < p) (h : Col l0 s f)
    (hne : ∀ l s f, l ≠ l0 → Col l0 s f → Col l0 (g l s) f)
    (hself : ∀ s, Col l0 s f → Col l0 (g l0 s) f') : Col l0 (s.up p g) f' :=
  foldl_col (l0 := l0) (P := fun s => Col l0 s f) (Q := fun s => Col l0 s f')
    (fun l s hl h => hne l s f hl h) hself (fun l s hl h => hne l s f' hl h)
    _ List.nodup_range (List.mem_range.2 hl) s h

theorem Col.down {g : Nat → VS K → VS K} {f' : FS K} (hl : l0 < p) (h : Col l0 s f)
    (hne : ∀ l s f, l ≠ l0 → Col l0 s f → Col l0 (g l s) f)
    (hself : ∀ s, Col l0 s f → Col l0 (g l0 s) f') : Col l0 (s.down p g) f' :=
  foldl_col (l0 := l0) (P := fun s => Col l0 s f) (Q := fun s => Col l0 s f')
    (fun l s hl h => hne l s f hl h) hself (fun l s hl h => hne l s f' hl h)
    _ (List.nodup_reverse.2 List.nodup_range) (by simpa using hl) s h

/-- One statement per direction: `dpp_T[r][l] = …`. -/
theorem Col.up1 {r : Nat} {e : Nat → VS K → K} {w : K} (hl : l0 < p) (h : Col l0 s f)
    (he : ∀ s, Col l0 s f → e l0 s = w) :
    Col l0 (s.up p fun l s => s.setC r l (e l s)) (f.setD r w) :=
  h.up hl (fun l s f hl h => h.setC_ne hl) (fun s h => h.setC (he s h))

theorem Col.down1 {r : Nat} {e : Nat → VS K → K} {w : K} (hl : l0 < p) (h : Col l0 s f)
    (he : ∀ s, Col l0 s f → e l0 s = w) :
    Col l0 (s.down p fun l s => s.setC r l (e l s)) (f.setD r w) :=
  h.down hl (fun l s f hl h => h.setC_ne hl) (fun s h => h.setC (he s h))

/-- The condition under which the vector code for `log` treats directions
independently: the argument is nonzero. -/
def logArgNonzero (o : Base K) (T : Nat → K) : Prop :=
  match o with
  | .logOp a _ => T a ≠ 0
  | _ => True

theorem fov_fos_step (c : Cfg K) {V : Nat → Nat → K} (hl : l0 < p) (o : Base K)
    (h : Col l0 s f) (hlog : logArgNonzero o f.T) :
    ExRel (Col l0) (fovStep c p V o s) (fosStep c (fun i => V i l0) o f) := by
  have hT := h.T
  cases o
  case cmp q a =>
    obtain ⟨hT, h2, h3, h4, h5, h6⟩ := h
    simp only [fosStep, fovStep, hT]
    split
    · cases q <;> simp only [ExRel] <;> constructor <;> simp [*]
      all_goals split <;> simp [*]
    · simp [ExRel]
  case assignInd r =>
    have hii := h.ii
    simp only [fosStep, fovStep, ExRel]
    have h1 : Col l0 ((s.set r (c.x s.ii)).up p fun l s => s.setC r l (V s.ii l))
        ((((f.push c r).set r (c.x (f.push c r).ii))).setD r (V (f.push c r).ii l0)) := by
      refine (h.push.set (by rw [h.push.ii])).up1 hl ?_
      intro s' h'
      rw [h'.ii]
      rfl
    obtain ⟨a1, a2, a3, a4, a5, a6⟩ := h1
    constructor
    · exact a1
    · exact a2
    · exact congrArg (· + 1) a3
    · exact a4
    · exact a5
    · exact a6
  case assignDep r =>
    obtain ⟨h1, h2, h3, h4, h5, h6⟩ := h
    simp only [fosStep, fovStep, ExRel]
    constructor <;> simp [*]
    try simp [List.getElem?_range hl, h2]
  case genQuad a b r old k =>
    simp only [fosStep, fovStep, hT]
    split
    · simp [ExRel]
    · exact (h.push.set rfl).up1 hl fun s h => by simp [h.T, h.dT]
  case minOp a b r k =>
    have h := h.push (c := c) (r := r)
    have hT := h.T
    simp only [fosStep, fovStep, ExRel]
    refine Col.set (Col.up1 hl ?_ ?_) ?_
    · simp only [hT]; split_ifs <;> exact h.dec rfl
    · intro s h; simp only [h.T, h.dT]
    · have : ∀ (s : VS K) (g : Nat → VS K → K), (s.up p fun l s => s.setC r l (g l s)).T = s.T := by
        intro s g
        unfold VS.up
        induction (List.range p) generalizing s with
        | nil => rfl
        | cons x L ih => simp only [List.foldl_cons]; rw [ih]; rfl
      rw [this]
      simp only [hT, FS.dec, VS.dec, FS.setD]; split_ifs <;> simp_all
  case absVal a r k =>
    have h := h.push (c := c) (r := r)
    have hT := h.T
    simp only [fosStep, fovStep, ExRel]
    have h1 : Col l0 (if s.T a < 0 then s.dec (decide (k ≠ 0)) 2
          else if s.T a > 0 then s.dec (decide (k = 0)) 2 else s)
        (if (f.push c r).T a < 0 then (f.push c r).dec (decide (k ≠ 0)) 2
          else if (f.push c r).T a > 0 then (f.push c r).dec (decide (k = 0)) 2 else f.push c r) := by
      rw [hT]; split_ifs
      · exact h.dec rfl
      · exact h.dec rfl
      · exact h
    generalize (if s.T a < 0 then s.dec (decide (k ≠ 0)) 2
          else if s.T a > 0 then s.dec (decide (k = 0)) 2 else s) = s1 at h1 ⊢
    generalize (if (f.push c r).T a < 0 then (f.push c r).dec (decide (k ≠ 0)) 2
          else if (f.push c r).T a > 0 then (f.push c r).dec (decide (k = 0)) 2 else f.push c r)
          = f1 at h1 ⊢
    have hTT : ∀ (g : Nat → VS K → VS K), (∀ l s, (g l s).T = s.T) → (s1.up p g).T = s1.T := by
      intro g hg
      unfold VS.up
      generalize s1 = s1
      induction (List.range p) generalizing s1 with
      | nil => rfl
      | cons x L ih => simp only [List.foldl_cons]; rw [ih]; exact hg _ _
    refine Col.set (Col.up hl h1 (fun l s f hl h => h.decL.setC_ne hl) ?_) ?_
    · intro s' h'
      refine Col.setC (h'.dec ?_) ?_
      · simp only [h'.T, h'.dT]
      · simp only [VS.dec, FS.dec, h'.T, h'.dT]; congr
    · rw [hTT _ (by intros; rfl), h1.T]
      simp [FS.setD, FS.dec]
  case condAssign a a1 a2 r k =>
    have h := h.push (c := c) (r := r)
    have hT := h.T
    have hTT : ∀ (g : Nat → VS K → K), (s.up p fun l s => s.setC r l (g l s)).T = s.T := by
      intro g
      unfold VS.up
      generalize s = s
      induction (List.range p) generalizing s with
      | nil => rfl
      | cons x L ih => simp only [List.foldl_cons]; rw [ih]; rfl
    simp only [fosStep, fovStep]
    by_cases hc : s.T a > 0
    · have hc' := hc; rw [hT] at hc'
      simp only [hc, hc', if_true, FS.setD, hTT]
      refine ((h.up1 hl (w := (f.push c r).dT a1) ?_).dec rfl).set ?_
      · intro s h; simp [h.dT]
      · simp [FS.dec, VS.dec, hTT, hT]
    · have hc' := hc; rw [hT] at hc'
      simp only [hc, hc', if_false, FS.setD, hTT]
      refine (((h.up1 hl (w := (f.push c r).dT a2) ?_).dec rfl).dec ?_).set ?_
      · intro s h; simp [h.dT]
      · simp [FS.dec, VS.dec, hTT, hT]
      · simp [FS.dec, VS.dec, hTT, hT]
  case condEqAssign a a1 a2 r k =>
    have h := h.push (c := c) (r := r)
    have hT := h.T
    have hTT : ∀ (g : Nat → VS K → K), (s.up p fun l s => s.setC r l (g l s)).T = s.T := by
      intro g
      unfold VS.up
      generalize s = s
      induction (List.range p) generalizing s with
      | nil => rfl
      | cons x L ih => simp only [List.foldl_cons]; rw [ih]; rfl
    simp only [fosStep, fovStep]
    by_cases hc : s.T a ≥ 0
    · have hc' := hc; rw [hT] at hc'
      simp only [hc, hc', if_true, FS.setD, hTT]
      refine ((h.up1 hl (w := (f.push c r).dT a1) ?_).dec rfl).set ?_
      · intro s h; simp [h.dT]
      · simp [FS.dec, VS.dec, hTT, hT]
    · have hc' := hc; rw [hT] at hc'
      simp only [hc, hc', if_false, FS.setD, hTT]
      refine ((h.up1 hl (w := (f.push c r).dT a2) ?_).dec rfl).set ?_
      · intro s h; simp [h.dT]
      · simp [FS.dec, VS.dec, hTT, hT]
  case condAssignS a a1 r k =>
    have h := h.push (c := c) (r := r)
    have hT := h.T
    have hTT : ∀ (g : Nat → VS K → K), (s.up p fun l s => s.setC r l (g l s)).T = s.T := by
      intro g
      unfold VS.up
      generalize s = s
      induction (List.range p) generalizing s with
      | nil => rfl
      | cons x L ih => simp only [List.foldl_cons]; rw [ih]; rfl
    simp only [fosStep, fovStep]
    by_cases hc : s.T a > 0
    · have hc' := hc; rw [hT] at hc'
      simp only [hc, hc', if_true, FS.setD, hTT]
      refine ((h.up1 hl (w := (f.push c r).dT a1) ?_).dec rfl).set ?_
      · intro s h; simp [h.dT]
      · simp [FS.dec, VS.dec, hTT, hT]
    · have hc' := hc; rw [hT] at hc'
      simp only [hc, hc', if_false, FS.setD, hTT]
      exact h.dec (by simp [hT])
  case condEqAssignS a a1 r k =>
    have h := h.push (c := c) (r := r)
    have hT := h.T
    have hTT : ∀ (g : Nat → VS K → K), (s.up p fun l s => s.setC r l (g l s)).T = s.T := by
      intro g
      unfold VS.up
      generalize s = s
      induction (List.range p) generalizing s with
      | nil => rfl
      | cons x L ih => simp only [List.foldl_cons]; rw [ih]; rfl
    simp only [fosStep, fovStep]
    by_cases hc : s.T a ≥ 0
    · have hc' := hc; rw [hT] at hc'
      simp only [hc, hc', if_true, FS.setD, hTT]
      refine ((h.up1 hl (w := (f.push c r).dT a1) ?_).dec rfl).set ?_
      · intro s h; simp [h.dT]
      · simp [FS.dec, VS.dec, hTT, hT]
    · have hc' := hc; rw [hT] at hc'
      simp only [hc, hc', if_false, FS.setD, hTT]
      exact h
  case vecCopy a n r =>
    simp only [fosStep, fovStep, ExRel]
    refine foldl_rel (R := Col l0) ?_ _ _ _ h
    intro s f q h
    exact (h.push.set (by rw [h.push.T])).up1 hl fun s h => by rw [h.dT]
  case vecDot a b n r =>
    simp only [fosStep, fovStep, ExRel]
    refine foldl_rel (R := Col l0) ?_ _ _ _ ((h.push.set rfl).up1 hl fun s h => rfl)
    intro s f q h
    have h1 := h.down1 hl (r := r)
      (e := fun l s => s.dT r l + (s.T (a + q) * s.dT (b + q) l + s.dT (a + q) l * s.T (b + q)))
      (w := f.dT r + (f.T (a + q) * f.dT (b + q) + f.dT (a + q) * f.T (b + q)))
      fun s h => by simp only [h.dT, h.T]
    exact h1.set (by rw [h1.T])
  case vecAxpy a a1 a2 n r =>
    simp only [fosStep, fovStep, ExRel]
    refine foldl_rel (R := Col l0) ?_ _ _ _ h
    intro s f q h
    have h1 := (h.push (c := c) (r := r + q)).down1 hl (r := r + q)
      (e := fun l s => s.T a * s.dT (a1 + q) l + s.dT a l * s.T (a1 + q) + s.dT (a2 + q) l)
      (w := (f.push c (r + q)).T a * (f.push c (r + q)).dT (a1 + q)
        + (f.push c (r + q)).dT a * (f.push c (r + q)).T (a1 + q) + (f.push c (r + q)).dT (a2 + q))
      fun s h => by simp only [h.dT, h.T]
    exact h1.set (by rw [h1.T])
  case takeStock r vs =>
    simp only [fosStep, fovStep, ExRel]
    refine (foldl_rel (R := fun (a : Nat × VS K) (b : Nat × FS K) => a.1 = b.1 ∧ Col l0 a.2 b.2)
      ?_ _ _ _ ⟨rfl, h⟩).2
    rintro ⟨i, s⟩ ⟨j, z⟩ x ⟨rfl, h⟩
    exact ⟨rfl, (h.set rfl).up1 hl fun s h => rfl⟩
  case deathNot a b =>
    simp only [fosStep, fovStep, ExRel]
    clear hlog hT
    generalize List.range (b - a + 1) = L
    induction L generalizing f with
    | nil => exact h
    | cons x L ih => exact ih h.push
  case powOp a r k =>
    have h1 := h.push (c := c) (r := r)
    have h2 := h1.set (r := r) (v := Elem.pow (f.T a) k) (w := Elem.pow (f.T a) k) rfl
    have e : (f.push c r).T a = f.T a := rfl
    simp only [fosStep, fovStep]
    rw [hT, e]
    by_cases h0 : f.T a = 0
    · rw [if_pos h0, if_pos h0]
      by_cases hk : (k - (if k ≠ 0 then 1 else 0) ≠ 0 ∨ k = 1 ∨ k ≤ 0)
      · rw [if_pos hk]; exact h2.up1 hl fun s h => by simp only [h.dT, h.T]
      · rw [if_neg hk]; exact h2.down1 hl fun s h => by simp only [h.dT, h.T]
    · rw [if_neg h0, if_neg h0]
      exact h2.up1 hl fun s h => by simp only [h.dT, h.T]
  case logOp a r =>
    simp only [logArgNonzero] at hlog
    have h1 := h.push (c := c) (r := r)
    simp only [fosStep, fovStep, ExRel]
    have key : ∀ (L : List Nat) (s0 : VS K), s0.T = s.T →
        (L.foldl (fun (ps : K × VS K) l =>
          (if ps.2.T a = 0 ∧ ps.2.dT a l < 0 then (nan : K) else ps.1,
            ps.2.setC r l (ps.2.dT a l *
              (if ps.2.T a = 0 ∧ ps.2.dT a l < 0 then (nan : K) else ps.1)))) (1 / s.T a, s0)).2
        = L.foldl (fun s0 l => s0.setC r l (s0.dT a l * (1 / s.T a))) s0 := by
      intro L
      induction L with
      | nil => intro s0 _; rfl
      | cons x L ih =>
        intro s0 hs0
        have hz : ¬ (s0.T a = 0 ∧ s0.dT a x < 0) := by
          rintro ⟨hz, _⟩
          rw [hs0, hT] at hz
          exact hlog hz
        simp only [List.foldl_cons, hz, if_false]
        exact ih _ hs0
    rw [key _ _ rfl]
    have h2 := h1.up1 hl (r := r) (e := fun l s0 => s0.dT a l * (1 / s.T a))
      (w := (f.push c r).dT a * (if (f.push c r).T a = 0 ∧ (f.push c r).dT a < 0 then nan
          else 1 / (f.push c r).T a)) (by
        intro s0 h0
        rw [h0.dT, hT, if_neg]
        · rfl
        · rintro ⟨hz, _⟩; exact hlog hz)
    exact h2.set (by unfold VS.up at h2; rw [h2.T])
  case ceilOp a r k =>
    exact ((h.push.set (by rw [h.push.T])).dec
      (by simp [FS.set, VS.set, FS.push, hT])).up1 hl fun s h => rfl
  case floorOp a r k =>
    exact ((h.push.set (by rw [h.push.T])).dec
      (by simp [FS.set, VS.set, FS.push, hT])).up1 hl fun s h => rfl
  case sinOp a b r =>
    have h0 := (h.push (c := c) (r := b)).push (c := c) (r := r)
    have h1 := h0.set (r := b) (v := cos (s.T a))
      (w := cos (((f.push c b).push c r).T a)) (by rw [h0.T])
    have h2 := h1.set (r := r) (v := sin ((s.set b (cos (s.T a))).T a)) rfl
    rw [h1.T] at h2
    simp only [fosStep, fovStep, ExRel]
    rw [h1.T]
    refine h2.up hl ?_ ?_
    · intro l s f hl h; exact (h.setC_ne hl).setC_ne hl
    · intro s h
      have h3 := h.setC (r := b) (v := - s.T r * s.dT a l0) rfl
      refine Col.setC (h.setC (by simp only [h.T, h.dT])) ?_
      rw [h3.T, h3.dT]
      simp only [FS.setD, h.T, h.dT]
  case cosOp a b r =>
    have h0 := (h.push (c := c) (r := b)).push (c := c) (r := r)
    have h1 := h0.set (r := b) (v := sin (s.T a))
      (w := sin (((f.push c b).push c r).T a)) (by rw [h0.T])
    have h2 := h1.set (r := r) (v := cos ((s.set b (sin (s.T a))).T a)) rfl
    rw [h1.T] at h2
    simp only [fosStep, fovStep, ExRel]
    rw [h1.T]
    refine h2.up hl ?_ ?_
    · intro l s f hl h; exact (h.setC_ne hl).setC_ne hl
    · intro s h
      have h3 := h.setC (r := b) (v := s.T r * s.dT a l0) rfl
      refine Col.setC (h.setC (by simp only [h.T, h.dT])) ?_
      rw [h3.T, h3.dT]
      simp only [FS.setD, h.T, h.dT]
  case eqPlusD => exact h.push.set (by rw [h.push.T])
  case eqMinD => exact h.push.set (by rw [h.push.T])
  case incrA => exact h.push.set (by rw [h.push.T])
  case decrA => exact h.push.set (by rw [h.push.T])
  case setRef => exact h.push.set rfl
  case eqMultA a r =>
    have h1 := (h.push (c := c) (r := r)).down1 hl (r := r)
      (e := fun l s => s.T r * s.dT a l + s.dT r l * s.T a)
      fun s h => by simp only [h.dT, h.T]; rfl
    exact h1.set (by rw [h1.T])
  case multAA a b r =>
    have h1 := (h.push (c := c) (r := r)).down1 hl (r := r)
      (e := fun l s => s.T a * s.dT b l + s.dT a l * s.T b)
      fun s h => by simp only [h.dT, h.T]; rfl
    exact h1.set (by rw [h1.T])
  case eqPlusProd a b r =>
    have h1 := h.down1 hl (r := r)
      (e := fun l s => s.dT r l + (s.T a * s.dT b l + s.dT a l * s.T b))
      fun s h => by simp only [h.dT, h.T]; rfl
    exact h1.set (by rw [h1.T])
  case eqMinProd a b r =>
    have h1 := h.down1 hl (r := r)
      (e := fun l s => s.dT r l - (s.T a * s.dT b l + s.dT a l * s.T b))
      fun s h => by simp only [h.dT, h.T]; rfl
    exact h1.set (by rw [h1.T])
  case divAA a b r =>
    exact (h.push.set (by rw [h.push.T])).up1 hl fun s h => by simp only [h.dT, h.T]; rw [hT]; rfl
  case divDA a r k =>
    exact (h.push.set (by rw [h.push.T])).up1 hl fun s h => by simp only [h.dT, h.T]; rw [hT]; rfl
  all_goals first
    | exact (h.push.set rfl).up1 hl fun s h => by simp only [h.dT, h.T]
    | exact (h.push.set (by rw [h.push.T])).up1 hl fun s h => by simp only [h.dT, h.T]
    | exact (h.push.set (by rw [h.push.T])).up1 hl fun s h => by simp only [h.dT, h.T]; rfl

/-- `P o T` holds for every operation `o` a forward sweep executes, `T` being the
values just before it. -/
def Along (P : Base K → (Nat → K) → Prop) (c : Cfg K) : List (Base K) → ZS K → Prop
  | [], _ => True
  | o :: os, s => P o s.T ∧ ∀ s', zosStep c o s = .ok s' → Along P c os s'

theorem fov_fos_run (c : Cfg K) {V : Nat → Nat → K} (hl : l0 < p) (ops : List (Base K)) {z : ZS K}
    (h : Col l0 s f) (hz : SameZ f z) (hlog : Along logArgNonzero c ops z) :
    ExRel (Col l0) (fovRun c p V ops s) (fosRun c (fun i => V i l0) ops f) := by
  induction ops generalizing s f z with
  | nil => exact h
  | cons o os ih =>
    obtain ⟨hl1, hl2⟩ := hlog
    rw [← hz.T] at hl1
    have hs := fov_fos_step c hl o (V := V) h hl1
    have hz' := fos_zos_step c (fun i => V i l0) o hz
    simp only [fosRun, fovRun]
    cases h1 : fovStep c p V o s <;> cases h2 : fosStep c (fun i => V i l0) o f <;>
      simp only [h1, h2, ExRel] at hs ⊢
    · exact hs
    · cases h3 : zosStep c o z with
      | error e => simp [h2, h3, ExRel] at hz'
      | ok z' =>
        simp only [h2, h3, ExRel] at hz'
        exact ih hs hz' (hl2 z' h3)

end Verif.AD
