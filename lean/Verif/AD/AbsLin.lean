import Verif.AD.AbsProg

/-! Derivatives of the switching function; rows of `fov_pl_reverse`. -/
set_option linter.all false
namespace Verif.AD
open Elem Filter Topology

section
variable {K : Type} [Scalar K]

theorem zswStep_prefix {c : Cfg K} {w : Nat → K} {o : Base K} {s q : PlZ K} (h : zswStep c w o s = .ok q) : s.sw <+: q.sw := by
  unfold zswStep at h
  split at h
  · cases h
  · split at h <;> cases h
    · exact List.prefix_append _ _
    · exact List.prefix_rfl

theorem zswRun_prefix {c : Cfg K} {w : Nat → K} {ops : List (Base K)} {s q : PlZ K} (h : zswRun c w ops s = .ok q) : s.sw <+: q.sw := by
  induction ops generalizing s with
  | nil => cases h; exact List.prefix_rfl
  | cons o os ih =>
    simp only [zswRun] at h
    split at h
    · cases h
    · rename_i s1 h1
      exact (zswStep_prefix h1).trans (ih h)

/-- Prescribed correctly, the sweep is `zos_pl_forward`. -/
theorem zsw_base {c : Cfg K} {w : Nat → K} {ops : List (Base K)} {s q : PlZ K} (h : zswRun c w ops s = .ok q)
    (hw : ∀ (k : Nat) v, q.sw[k]? = some v → w k = fabs v) : zosPlRun c ops s = .ok q := by
  induction ops generalizing s with
  | nil => exact h
  | cons o os ih =>
    simp only [zswRun] at h
    split at h
    · cases h
    · rename_i s1 h1
      have hp := zswRun_prefix h
      have : zosPlStep c o s = .ok s1 := by
        unfold zswStep at h1
        unfold zosPlStep
        cases hz : zosStep c o s.z with
        | error e => rw [hz] at h1; cases h1
        | ok z' =>
          rw [hz] at h1
          simp only at h1 ⊢
          split at h1
          · rename_i a r k
            cases h1
            obtain ⟨z2, f1, f2, _⟩ := fabs_dec (c := c) (a := a) (r := r) (v := k) (z := s.z)
            rw [hz] at f1
            cases f1
            have : w s.sw.length = fabs (s.z.T a) := by
              refine hw _ _ ?_
              obtain ⟨t, ht⟩ := hp
              rw [← ht]; simp
            rw [this, ← f2]
          · rename_i hne
            cases h1
            cases o <;> first | rfl | exact (hne _ _ _ rfl).elim
      simp only [zosPlRun, this]
      exact ih h

theorem zosPl_zos {c : Cfg K} {ops : List (Base K)} {s q : PlZ K} (h : zosPlRun c ops s = .ok q) : zosRun c ops s.z = .ok q.z := by
  induction ops generalizing s with
  | nil => cases h; rfl
  | cons o os ih =>
    simp only [zosPlRun] at h
    split at h
    · cases h
    · rename_i s1 h1
      unfold zosPlStep at h1
      split at h1
      · cases h1
      · rename_i z' hz
        cases h1
        simp only [zosRun, hz]
        exact ih h

/-- The arguments up to the `l`-th do not depend on the results from the `l`-th on. -/
theorem zsw_lower {c : Cfg K} {w w' : Nat → K} {l : Nat} (hw : ∀ k < l, w k = w' k) {ops : List (Base K)} {s q q' : PlZ K}
    (h : zswRun c w ops s = .ok q) (h' : zswRun c w' ops s = .ok q') : ∀ k ≤ l, q.sw[k]? = q'.sw[k]? := by
  induction ops generalizing s with
  | nil => cases h; cases h'; intro _ _; rfl
  | cons o os ih =>
    simp only [zswRun] at h h'
    split at h
    · cases h
    rename_i s1 h1
    split at h'
    · cases h'
    rename_i s2 h2
    have key : s1 = s2 ∨ (s1.sw = s2.sw ∧ l < s1.sw.length) := by
      unfold zswStep at h1 h2
      cases hz : zosStep c o s.z with
      | error e => rw [hz] at h1; cases h1
      | ok z' =>
        rw [hz] at h1 h2
        simp only at h1 h2
        split at h1
        · simp only at h2
          cases h1; cases h2
          by_cases hl : s.sw.length < l
          · left; rw [hw _ hl]
          · right; simp; omega
        · simp only at h2
          cases h1; cases h2; exact .inl rfl
    rcases key with rfl | ⟨e1, e2⟩
    · exact ih h h'
    · intro k hk
      obtain ⟨t, ht⟩ := zswRun_prefix h
      obtain ⟨t', ht'⟩ := zswRun_prefix h'
      rw [← ht, ← ht', ← e1, List.getElem?_append_left (by omega), List.getElem?_append_left (by omega)]

/-- Row `l` of `fov_pl_reverse`. -/
def VPRS.row (l : Nat) (s : VPRS K) : PRS K := ⟨s.r.row l, s.sw, s.sbar l⟩

theorem pl_row_abs {p l : Nat} (hl : l < p) (r k : Nat) (t : VRS K) (sb : Nat → Nat → K) :
    ((List.range p).foldl (fun (q : VRS K × (Nat → Nat → K)) row =>
        (q.1.setA r row 0, fun l i => if l = row ∧ i = k then q.1.A r row else q.2 l i)) (t, sb)).1.row l = (t.row l).setA r 0 ∧
    ((List.range p).foldl (fun (q : VRS K × (Nat → Nat → K)) row =>
        (q.1.setA r row 0, fun l i => if l = row ∧ i = k then q.1.A r row else q.2 l i)) (t, sb)).2 l = upd (sb l) k (t.A r l) := by
  have key : ∀ (L : List Nat), L.Nodup → ∀ (t : VRS K) (sb : Nat → Nat → K),
      (L.foldl (fun (q : VRS K × (Nat → Nat → K)) row =>
        (q.1.setA r row 0, fun l i => if l = row ∧ i = k then q.1.A r row else q.2 l i)) (t, sb)).1.row l =
          (if l ∈ L then (t.row l).setA r 0 else t.row l) ∧
      (L.foldl (fun (q : VRS K × (Nat → Nat → K)) row =>
        (q.1.setA r row 0, fun l i => if l = row ∧ i = k then q.1.A r row else q.2 l i)) (t, sb)).2 l =
          (if l ∈ L then upd (sb l) k (t.A r l) else sb l) := by
    intro L
    induction L with
    | nil => intro _ t sb; simp
    | cons j L ih =>
      intro hn t sb
      obtain ⟨hn1, hn2⟩ := List.nodup_cons.1 hn
      simp only [List.foldl_cons]
      obtain ⟨h1, h2⟩ := ih hn2 (t.setA r j 0) (fun l i => if l = j ∧ i = k then t.A r j else sb l i)
      rw [h1, h2]
      by_cases hlj : l = j
      · subst hlj
        simp only [hn1, if_false, List.mem_cons, true_or, if_true, VRS.row_setA, true_and]
        funext i
        simp [upd_apply]
      · simp only [List.mem_cons, hlj, false_or, VRS.row_setA_ne hlj, false_and, if_false]
        refine ⟨trivial, ?_⟩
        have : (t.setA r j 0).A r l = t.A r l := by simp [VRS.setA, hlj]
        rw [this]
  obtain ⟨h1, h2⟩ := key (List.range p) List.nodup_range t sb
  rw [h1, h2, if_pos (List.mem_range.2 hl), if_pos (List.mem_range.2 hl)]
  exact ⟨rfl, rfl⟩

theorem pl_row_step {p l : Nat} (hl : l < p) (U Us : Nat → Nat → K) (o : Base K) (s : VPRS K) :
    (fovPlRevStep p U Us o s).map (VPRS.row l) = plRevStep (U l) (Us l) o (s.row l) := by
  cases ho : o.isAbs
  · have h1 : fovPlRevStep p U Us o s = match fovRevStep p U o s.r with | .error e => .error e | .ok t => .ok ⟨t, s.sw, s.sbar⟩ := by
      cases o <;> simp only [Base.isAbs] at ho <;> first | rfl | cases ho
    rw [h1, plRevStep_other ho]
    have h2 := row_step hl U o s.r
    simp only [VPRS.row]
    rw [← h2]
    cases fovRevStep p U o s.r <;> rfl
  · cases o <;> simp only [Base.isAbs] at ho <;> first | (cases ho; done) | skip
    rename_i a r k
    simp only [fovPlRevStep, plRevStep, VPRS.row]
    rw [← VRS.row_pop]
    cases s.r.pop r with
    | error e => rfl
    | ok t =>
      obtain ⟨h1, h2⟩ := pl_row_abs hl r (s.sw - 1) t s.sbar
      simp only [Except.map, VPRS.row]
      rw [h2]
      have h3 := VRS.row_up hl (fun row t => t.addA a row (Us row (s.sw - 1))) (fun t => t.addA a (Us l (s.sw - 1)))
        (fun s => VRS.row_addA _ _ _ _) (fun k s h => VRS.row_addA_ne h _ _ _)
        ((List.range p).foldl (fun (q : VRS K × (Nat → Nat → K)) row =>
          (q.1.setA r row 0, fun l i => if l = row ∧ i = s.sw - 1 then q.1.A r row else q.2 l i)) (t, s.sbar)).1
      rw [h3, h1]
      rfl

theorem pl_row_run {p l : Nat} (hl : l < p) (U Us : Nat → Nat → K) (ops : List (Base K)) (s : VPRS K) :
    (fovPlRevRun p U Us ops s).map (VPRS.row l) = plRevRun (U l) (Us l) ops (s.row l) := by
  induction ops with
  | nil => rfl
  | cons o os ih =>
    unfold fovPlRevRun plRevRun
    rw [← ih]
    cases fovPlRevRun p U Us os s with
    | error e => rfl
    | ok s' => exact pl_row_step hl U Us o s'
end

section
variable {E : Type} [NormedAddCommGroup E] [NormedSpace ℝ E]

structure PLin (e0 : E) (S : E → PlZ ℝ) (F : E → PlF ℝ) (i m k : Nat) : Prop where
  lin : Lin e0 (fun e => (S e).z) (fun w => (F w).f) i m
  slen : ∀ e, (S e).sw.length = k
  tlen : ∀ w, (F w).swT.length = k
  sder : ∀ j : Nat, FD e0 (fun e => (S e).sw[j]?.getD 0) (fun w => (F w).swT[j]?.getD 0)

theorem fd_snoc {e0 : E} {L dL : E → List ℝ} {a da : E → ℝ} {k : Nat} (h1 : ∀ e, (L e).length = k) (h2 : ∀ e, (dL e).length = k)
    (h : ∀ j : Nat, FD e0 (fun e => (L e)[j]?.getD 0) (fun w => (dL w)[j]?.getD 0)) (ha : FD e0 a da) (j : Nat) :
    FD e0 (fun e => (L e ++ [a e])[j]?.getD 0) (fun w => (dL w ++ [da w])[j]?.getD 0) := by
  rcases lt_trichotomy j k with hj | hj | hj
  · have e1 : ∀ e, (L e ++ [a e])[j]? = (L e)[j]? := fun e => List.getElem?_append_left (by rw [h1]; exact hj)
    have e2 : ∀ e, (dL e ++ [da e])[j]? = (dL e)[j]? := fun e => List.getElem?_append_left (by rw [h2]; exact hj)
    simp only [e1, e2]
    exact h j
  · have e1 : ∀ e, (L e ++ [a e])[j]? = some (a e) := fun e => by rw [hj, ← h1 e]; simp
    have e2 : ∀ e, (dL e ++ [da e])[j]? = some (da e) := fun e => by rw [hj, ← h2 e]; simp
    simp only [e1, e2, Option.getD_some]
    exact ha
  · have e1 : ∀ e, (L e ++ [a e])[j]? = none := fun e => List.getElem?_eq_none (by simp [h1]; omega)
    have e2 : ∀ e, (dL e ++ [da e])[j]? = none := fun e => List.getElem?_eq_none (by simp [h2]; omega)
    simp only [e1, e2, Option.getD_none]
    exact FD.const 0

variable {e0 : E} {S : E → PlZ ℝ} {F : E → PlF ℝ} {i m k : Nat}

theorem plin_run {c : E → Cfg ℝ} {v : E → Nat → ℝ} {W dW : E → Nat → ℝ} (hpar : ∀ e, (c e).par = (c e0).par)
    (hx : ∀ i, FD e0 (fun e => (c e).x i) (fun w => v w i)) (hW : ∀ i, FD e0 (fun e => W e i) (fun w => dW w i))
    {ops : List (Base ℝ)} (h : PLin e0 S F i m k) (hs : Along smoothB (c e0) ops (S e0).z) {q : PlZ ℝ}
    (hok : zswRun (c e0) (W e0) ops (S e0) = .ok q) (hq : ∀ (j : Nat) u, q.sw[j]? = some u → W e0 j = fabs u) :
    ∃ S' F', (∀ᶠ e in 𝓝 e0, zswRun (c e) (W e) ops (S e) = .ok (S' e)) ∧
      (∀ w, swRun (c e0) (v w) (dW w) ops (F w) = .ok (F' w)) ∧
      PLin e0 S' F' (i + numInd ops) (m + numDep ops) (k + numSw ops) := by
  induction ops generalizing S F i m k with
  | nil => exact ⟨S, F, .of_forall fun e => rfl, fun w => rfl, h⟩
  | cons o os ih =>
    obtain ⟨hs1, hs2⟩ := hs
    simp only [zswRun] at hok
    split at hok
    · cases hok
    rename_i q1 hq1
    suffices H : ∃ S1 F1, (∀ᶠ e in 𝓝 e0, zswStep (c e) (W e) o (S e) = .ok (S1 e)) ∧
        (∀ w, swStep (c e0) (v w) (dW w) o (F w) = .ok (F1 w)) ∧
        PLin e0 S1 F1 (i + o.nInd) (m + o.nDep) (k + if o.isAbs then 1 else 0) ∧ zosStep (c e0) o (S e0).z = .ok (S1 e0).z by
      obtain ⟨S1, F1, e1, e2, e3, e5⟩ := H
      have e4 := e1.self_of_nhds
      rw [e4] at hq1
      cases hq1
      obtain ⟨S2, F2, f1, f2, f3⟩ := ih e3 (hs2 _ e5) hok
      refine ⟨S2, F2, ?_, ?_, ?_⟩
      · filter_upwards [e1, f1] with e h1 h2
        simp only [zswRun, h1, h2]
      · intro w; simp only [swRun, e2 w, f2 w]
      · have n3 : k + (if o.isAbs then 1 else 0) + numSw os = k + numSw (o :: os) := by rw [numSw_cons]; omega
        rw [n3] at f3
        simpa only [numInd, numDep, List.map_cons, List.sum_cons, Nat.add_assoc] using f3
    cases ho : o.isAbs
    · have hsm : smoothS .rev o (S e0).z.T := by
        rcases hs1 with h | h
        · rw [ho] at h; cases h
        · exact h
      have hz : ∃ z, zosStep (c e0) o (S e0).z = .ok z := by
        rw [zswStep_other ho] at hq1
        split at hq1
        · cases hq1
        · rename_i z' hz'; exact ⟨z', hz'⟩
      obtain ⟨S1, F1, e1, e2, e3⟩ := lin_step hpar hx h.lin hsm.1 (fun r k ho => absurd ho (hsm.2.2.2.1 r k)) hz
      refine ⟨fun e => ⟨S1 e, (S e).sw⟩, fun w => ⟨F1 w, (F w).sw, (F w).swT⟩, ?_, ?_, ⟨e3, ?_, ?_, ?_⟩, ?_⟩
      · filter_upwards [e1] with e h1
        rw [zswStep_other ho, h1]
      · intro w
        rw [swStep_eq _ _ _ ho, e2 w]
      · intro e; simpa using h.slen e
      · intro e; simpa using h.tlen e
      · exact h.sder
      · exact e1.self_of_nhds
    · cases o <;> simp only [Base.isAbs] at ho <;> first | (cases ho; done) | skip
      rename_i a r u
      have hab : ∀ e, ∃ z', zosStep (c e) (.absVal a r u) (S e).z = .ok z' ∧ z'.T = upd (S e).z.T r (fabs ((S e).z.T a)) ∧ z'.ii = (S e).z.ii ∧
          z'.y = (S e).z.y := fun e => fabs_dec
      choose Z hZ1 hZ2 hZ3 hZ4 using hab
      have hfs : ∀ w, ∃ f', swStep (c e0) (v w) (dW w) (.absVal a r u) (F w) = .ok f' := fun w => ⟨_, rfl⟩
      choose G hG using hfs
      have hW0 : W e0 k = fabs ((S e0).z.T a) := by
        have hp := zswRun_prefix hok
        unfold zswStep at hq1
        rw [hZ1 e0] at hq1
        cases hq1
        refine hq _ _ ?_
        obtain ⟨t, ht⟩ := hp
        rw [← ht, ← h.slen e0]
        simp
      refine ⟨fun e => ⟨{ Z e with T := upd (S e).z.T r (W e k) }, (S e).sw ++ [(S e).z.T a]⟩,
        G, .of_forall fun e => ?_, hG, ⟨?_, ?_, ?_, ?_⟩, ?_⟩
      · simp only [zswStep, hZ1 e, h.slen]
      · simp only [Base.nInd, Base.nDep, Nat.add_zero]
        refine h.lin.assign (hW k) (fun e => ⟨rfl, hZ3 e, hZ4 e⟩) (fun w => ?_)
        obtain ⟨g1, g2, g3, g4, g5, g6, g7, g8⟩ := swStep_abs (hG w)
        refine ⟨?_, ?_, g4, g6⟩
        · simp only [g1]
          rw [hW0, h.lin.T0 w]
        · rw [g2, h.tlen]
      · intro e; simp [h.slen]
      · intro e; rw [(swStep_abs (hG e)).2.2.2.2.2.2.2]; simp [h.tlen, Base.isAbs]
      · have g : ∀ w, (G w).swT = (F w).swT ++ [(F w).f.dT a] := fun w => (swStep_abs (hG w)).2.2.2.2.2.2.2
        simp only [g]
        exact fd_snoc h.slen h.tlen h.sder (h.lin.der a)
      · simp only [hZ1 e0, hW0, ← hZ2 e0]
end
end Verif.AD
