import Verif.Ext.Proofs

/-! # Sweeps over mixed traces -/
set_option linter.all false
namespace Verif.Ext
open Verif.AD Finset

variable {K : Type} [Scalar K]

/-- `fos_forward` computes what `zos_forward` computes. -/
theorem fos_zos_call (c : Cfg K) {e : Edf K} (he : e.Good) (X Y : List Nat) {s : FS K} {z : ZS K} (h : SameZ s z) :
    SameZ (callFos c e X Y s) (callZos c e X Y z) := by
  have hp : ∀ (L : List Nat) (s : FS K) (z : ZS K), SameZ s z →
      SameZ (L.foldl (fun s l => s.push c l) s) (L.foldl (fun s l => s.push c l) z) := by
    intro L
    induction L with
    | nil => intro s z h; exact h
    | cons l L ih => intro s z h; exact ih _ _ h.push
  obtain ⟨v1, v2, v3⟩ := he.val (rd s.T X) (rd s.dT X) (rd s.T Y) (rd s.dT Y)
  have key : ∀ (s1 : FS K) (z1 : ZS K), SameZ s1 z1 →
      SameZ { s1 with T := wr (wr s.T X (e.fos (rd s.T X) (rd s.dT X) (rd s.T Y) (rd s.dT Y)).2.1.1) Y
                            (e.fos (rd s.T X) (rd s.dT X) (rd s.T Y) (rd s.dT Y)).2.2.1,
                      dT := wr (wr s.dT X (e.fos (rd s.T X) (rd s.dT X) (rd s.T Y) (rd s.dT Y)).2.1.2) Y
                            (e.fos (rd s.T X) (rd s.dT X) (rd s.T Y) (rd s.dT Y)).2.2.2,
                      rc := mindec s1.rc (e.fos (rd s.T X) (rd s.dT X) (rd s.T Y) (rd s.dT Y)).1 }
        { z1 with T := wr (wr z.T X (e.fn (rd z.T X) (rd z.T Y)).2.1) Y (e.fn (rd z.T X) (rd z.T Y)).2.2,
                  rc := mindec z1.rc (e.fn (rd z.T X) (rd z.T Y)).1 } := by
    intro s1 z1 h1
    refine ⟨?_, h1.stk, h1.ii, h1.y, ?_⟩
    · show wr _ _ _ = wr _ _ _
      rw [v2, v3, h.T]
    · show mindec _ _ ≤ mindec _ _
      rw [v1, h.T]
      exact mindec_mono h1.rc
  unfold callFos callZos
  have h1 : SameZ (if e.xChanges then X.foldl (fun s l => s.push c l) s else s)
      (if e.xChanges then X.foldl (fun s l => s.push c l) z else z) := by
    cases e.xChanges
    · exact h
    · exact hp X _ _ h
  have h2 : SameZ (if e.yPrior then Y.foldl (fun s l => s.push c l) (if e.xChanges then X.foldl (fun s l => s.push c l) s else s)
        else (if e.xChanges then X.foldl (fun s l => s.push c l) s else s))
      (if e.yPrior then Y.foldl (fun s l => s.push c l) (if e.xChanges then X.foldl (fun s l => s.push c l) z else z)
        else (if e.xChanges then X.foldl (fun s l => s.push c l) z else z)) := by
    cases e.yPrior
    · exact h1
    · exact hp Y _ _ h1
  exact key _ _ h2

def Step.good : Step K → Prop
  | .base _ => True
  | .call e _ _ _ => e.Good

theorem fos_zos_runX (c : Cfg K) (v : Nat → K) (ops : List (Step K)) (hg : ∀ o ∈ ops, o.good) {s : FS K} {z : ZS K}
    (h : SameZ s z) : ExRel SameZ (fosRunX c v ops s) (zosRunX c ops z) := by
  induction ops generalizing s z with
  | nil => exact h
  | cons o os ih =>
    have hs : ExRel SameZ (fosStepX c v o s) (zosStepX c o z) := by
      cases o with
      | base o => exact fos_zos_step c v o h
      | call e X Y b => exact fos_zos_call c (hg (.call e X Y b) (by simp)) X Y h
    simp only [fosRunX, zosRunX]
    cases h1 : fosStepX c v o s <;> cases h2 : zosStepX c o z <;> rw [h1, h2] at hs
    · exact hs
    · exact hs.elim
    · exact hs.elim
    · exact ih (fun o ho => hg o (by simp [ho])) hs

/-! ## Static conditions -/

def Step.tanStep : Step K → Set Nat → Set Nat
  | .base o, Z => o.tanStep Z
  | .call _ X Y _, Z => Z \ {l | l ∈ X ∨ l ∈ Y}

def Step.adjStep : Step K → Set Nat → Set Nat
  | .base o, L => o.adjStep L
  | .call _ X Y _, L => (L \ {l | l ∈ Y}) ∪ {l | l ∈ X}

def liveAdjX : List (Step K) → Set Nat
  | [] => ∅
  | o :: os => o.adjStep (liveAdjX os)

/-- `WfFrom` for mixed traces; the variables of a call are all different. -/
def WfX (N : Nat) : Set Nat → List (Step K) → Prop
  | _, [] => True
  | Z, .base o :: os => o.bounded N ∧ o.okT ∧ o.zeroTan ⊆ Z ∧ (∀ l ∈ o.zeroAdj, l ∉ liveAdjX os) ∧ WfX N (o.tanStep Z) os
  | Z, .call e X Y b :: os => e.Good ∧ Sep N X Y ∧ WfX N (Step.tanStep (.call e X Y b) Z) os

/-- `regular` at every operation met. -/
def RegX (c : Cfg K) (v : Nat → K) : List (Step K) → FS K → Prop
  | [], _ => True
  | .base o :: os, s => regular o s.T ∧ ∀ s', fosStep c v o s = .ok s' → RegX c v os s'
  | .call e X Y b :: os, s => RegX c v os (callFos c e X Y s)

theorem callFos_frame (c : Cfg K) (e : Edf K) (X Y : List Nat) (s : FS K) :
    (callFos c e X Y s).ii = s.ii ∧ (callFos c e X Y s).dy = s.dy ∧
      ∀ l, l ∉ X → l ∉ Y → (callFos c e X Y s).dT l = s.dT l := by
  have hp : ∀ (L : List Nat) (s : FS K), (L.foldl (fun s l => s.push c l) s).ii = s.ii ∧
      (L.foldl (fun s l => s.push c l) s).dy = s.dy := by
    intro L
    induction L with
    | nil => intro s; exact ⟨rfl, rfl⟩
    | cons l L ih => intro s; exact ih _
  refine ⟨?_, ?_, fun l h1 h2 => ?_⟩
  · simp only [callFos]
    cases e.xChanges <;> cases e.yPrior <;> simp [hp]
  · simp only [callFos]
    cases e.xChanges <;> cases e.yPrior <;> simp [hp]
  · simp only [callFos]
    rw [wr_not_mem _ _ _ h2, wr_not_mem _ _ _ h1]

def Step.nInd : Step K → Nat | .base o => o.nInd | _ => 0

theorem fos_iiX {c : Cfg K} {v : Nat → K} {ops : List (Step K)} {s sf : FS K} (h : fosRunX c v ops s = .ok sf) :
    s.ii ≤ sf.ii := by
  induction ops generalizing s with
  | nil => cases h; exact le_refl _
  | cons o os ih =>
    simp only [fosRunX] at h
    split at h
    · cases h
    · rename_i s1 h1
      refine le_trans ?_ (ih h)
      cases o with
      | base o => rw [(fos_misc h1).1]; omega
      | call e X Y b => cases h1; rw [(callFos_frame c e X Y s).1]

theorem undo_runX {N n : Nat} {c : Cfg K} (hk : c.keep = true) {u v : Nat → K} {ops : List (Step K)} {s sf : FS K}
    (h : fosRunX c v ops s = .ok sf) {Z : Set Nat} (hwf : WfX N Z ops) (hreg : RegX c v ops s)
    (hz : ∀ l ∈ Z, s.dT l = 0) {A bar : Nat → K} (hA : ∀ l, A l = 0) (hn : sf.ii ≤ n)
    (hbar : ∀ i < sf.ii, bar i = 0) :
    ∃ r, revRunX u ops ⟨sf.T, A, sf.stk, sf.ii, sf.dy.length, bar⟩ = .ok r ∧
      Undo N n u v s sf A bar r ∧ ∀ l, l ∉ liveAdjX ops → r.A l = 0 := by
  induction ops generalizing s Z with
  | nil => cases h; exact ⟨_, rfl, ⟨rfl, rfl, rfl, rfl, fun _ _ => rfl, rfl⟩, fun l _ => hA l⟩
  | cons o os ih =>
    simp only [fosRunX] at h
    split at h
    · cases h
    rename_i s' h1
    have hle := fos_iiX h
    cases o with
    | base o =>
      obtain ⟨hb, hT, hzt, hza, hwf⟩ := hwf
      obtain ⟨hr1, hr2⟩ := hreg
      obtain ⟨r, e1, e2, e3⟩ := ih h hwf (hr2 s' h1) (tan_step h1 hT hz)
      obtain ⟨r', f1, f2⟩ := undo_step (N := N) (n := n) hk (u := u) h1 hb hT hr1
        (fun l hl => hz l (hzt hl)) (A := r.A) (bar := r.bar)
        (fun l hl => e3 l (hza l hl)) (by omega)
        (fun i hi => by rw [e2.bar i hi]; exact hbar i (by omega))
      refine ⟨r', ?_, ⟨f2.T, f2.stk, f2.ii, f2.di, ?_, ?_⟩, ?_⟩
      · simp only [revRunX, e1, revStepX]
        rw [← f1, ← e2.T, ← e2.stk, ← e2.ii, ← e2.di]
      · intro i hi
        have : s.ii ≤ s'.ii := by rw [(fos_misc h1).1]; omega
        rw [f2.bar i hi, e2.bar i (by omega)]
      · rw [f2.pair, e2.pair]
      · exact adj_step f1 e3
    | call e X Y b =>
      obtain ⟨he, hs, hwf⟩ := hwf
      cases h1
      obtain ⟨i1, i2, i3⟩ := callFos_frame c e X Y s
      obtain ⟨r, e1, e2, e3⟩ := ih h hwf hreg (by
        intro l hl
        have hl' : l ∈ Z ∧ ¬ (l ∈ X ∨ l ∈ Y) := hl
        rw [i3 l (fun h => hl'.2 (.inl h)) (fun h => hl'.2 (.inr h))]
        exact hz l hl'.1)
      obtain ⟨r', f1, f2, f3, f4⟩ := undo_call (N := N) (n := n) hk (u := u) (v := v) he b hs s r.A r.bar
      refine ⟨r', ?_, ⟨f2.T, f2.stk, f2.ii, f2.di, ?_, ?_⟩, ?_⟩
      · simp only [revRunX, e1, revStepX]
        rw [← f1, ← e2.T, ← e2.stk, ← e2.ii, ← e2.di]
      · intro i hi
        rw [f2.bar i hi, e2.bar i (by rw [i1]; exact hi)]
      · rw [f2.pair, e2.pair]
      · intro l hl
        have hl' : ¬ ((l ∈ liveAdjX os ∧ ¬ l ∈ Y) ∨ l ∈ X) := hl
        have hlX : l ∉ X := fun h => hl' (.inr h)
        by_cases hlY : l ∈ Y
        · exact f3 l hlY
        · rw [f4 l hlX hlY]
          exact e3 l (fun h => hl' (.inl ⟨h, hlY⟩))

theorem fosRunX_append {c : Cfg K} {v : Nat → K} {a b : List (Step K)} {s : FS K} :
    fosRunX c v (a ++ b) s = match fosRunX c v a s with
      | .error e => .error e
      | .ok s' => fosRunX c v b s' := by
  induction a generalizing s with
  | nil => rfl
  | cons o os ih =>
    simp only [List.cons_append, fosRunX]
    cases fosStepX c v o s with
    | error e => rfl
    | ok s' => exact ih

theorem revRunX_append {u : Nat → K} {a b : List (Step K)} {s : RS K} :
    revRunX u (a ++ b) s = match revRunX u b s with
      | .error e => .error e
      | .ok s' => revRunX u a s' := by
  induction a generalizing s with
  | nil => cases h : revRunX u b s <;> simp [revRunX, h]
  | cons o os ih =>
    simp only [List.cons_append, revRunX, ih]
    cases revRunX u b s <;> rfl

theorem fosRunX_beyond {N : Nat} {c : Cfg K} {v : Nat → K} {ops : List (Step K)} {s s' : FS K} {Z : Set Nat}
    (hwf : WfX N Z ops) (h : fosRunX c v ops s = .ok s') : ∀ l, N ≤ l → s'.T l = s.T l := by
  induction ops generalizing s Z with
  | nil => cases h; intro _ _; rfl
  | cons o os ih =>
    simp only [fosRunX] at h
    split at h
    · cases h
    · rename_i s1 h1
      intro l hl
      cases o with
      | base o =>
        obtain ⟨hb, hT, hzt, hza, hwf⟩ := hwf
        rw [ih hwf h l hl]
        refine (fos_misc h1).2.2.2 l fun hw => ?_
        have := writes_bounded hb hw
        omega
      | call e X Y b =>
        obtain ⟨he, hs, hwf⟩ := hwf
        rw [ih hwf h l hl]
        cases h1
        have h1 : l ∉ X := fun h => absurd (hs.lt l (by simp [h])) (by omega)
        have h2 : l ∉ Y := fun h => absurd (hs.lt l (by simp [h])) (by omega)
        simp only [callFos]
        rw [wr_not_mem _ _ _ h2, wr_not_mem _ _ _ h1]

/-- The complete reverse sweep over a mixed trace. -/
theorem full_reverseX {N : Nat} (hN : 0 < N) {c : Cfg K} (hk : c.keep = true) (u v : Nat → K) {ops : List (Step K)}
    {sf : FS K} (h : fosRunX c v (ops ++ [.base (.deathNot 0 (N - 1))]) FS.init = .ok sf) (hwf : WfX N Set.univ ops)
    (hreg : RegX c v ops FS.init) :
    ∃ r, revRunX u (ops ++ [.base (.deathNot 0 (N - 1))]) (RS.init sf.ii sf.dy.length sf.stk) = .ok r ∧
      r.stk = [] ∧ dot sf.ii r.bar v = wsum u sf.dy := by
  rw [fosRunX_append] at h
  split at h
  · cases h
  · rename_i s1 h1
    simp only [fosRunX, fosStepX] at h
    split at h
    · cases h
    · rename_i s2 h2
      cases h
      obtain ⟨r, e1, e2⟩ := undo_deathNot (N := N) (n := sf.ii) hk (u := u) (Nat.zero_le _) h2
        (A := fun _ => 0) (bar := fun _ => 0) (T0 := fun _ => 0) (fun _ _ _ => rfl) (by
          intro l hl
          rw [fosRunX_beyond hwf h1 l (by omega)]; rfl)
      have hA : ∀ l, r.A l = 0 := fun l =>
        adj_step e1 (L := ∅) (fun _ _ => rfl) l (by simp [Base.adjStep])
      have hm := fos_misc h2
      simp only [Base.nInd, Base.nDep, Nat.add_zero] at hm
      obtain ⟨r', f1, f2, f3⟩ := undo_runX (N := N) (n := sf.ii) hk (u := u) h1 hwf hreg (fun _ _ => rfl)
        (A := r.A) (bar := r.bar) hA (by omega) (fun i hi => e2.bar i hi)
      refine ⟨r', ?_, f2.stk, ?_⟩
      · rw [revRunX_append]
        simp only [revRunX, revStepX, RS.init, e1]
        rw [← f1, ← e2.T, ← e2.stk, ← e2.ii, ← e2.di]
      · have hp := f2.pair
        have hp2 := e2.pair
        rw [hp2, dot_zero_left, dot_zero_left] at hp
        have hd : (FS.init : FS K).dT = fun _ => 0 := rfl
        have hdy : (FS.init : FS K).dy = [] := rfl
        rw [hd, hdy, dot_zero_right] at hp
        simpa [wsum] using hp

end Verif.Ext
