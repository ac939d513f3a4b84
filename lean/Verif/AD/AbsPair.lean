import Verif.AD.AbsNormal

/-! `fos_pl_reverse` transposes the tangent sweep in which the tangents of the results of `fabs` are prescribed. -/
set_option linter.all false
namespace Verif.AD
open Elem Finset

variable {K : Type} [Scalar K]

def Base.isAbs (o : Base K) : Bool := match o with | .absVal _ _ _ => true | _ => false

/-- Tangent sweep with prescribed tangents `dw` of the results of `fabs` (proof device). -/
def swStep (c : Cfg K) (v dw : Nat → K) (o : Base K) (s : PlF K) : Except Stop (PlF K) :=
  match o with
  | .absVal a r k =>
    let f := s.f.push c r
    let f :=
      if f.T a < 0 then f.dec (k ≠ 0) 2
      else if f.T a > 0 then f.dec (k = 0) 2
      else f
    let sw := s.sw ++ [f.T a]
    let swT := s.swT ++ [f.dT a]
    let f := f.setD r (dw s.swT.length)
    .ok ⟨f.set r (fabs (f.T a)), sw, swT⟩
  | o =>
    match fosStep c v o s.f with
    | .error e => .error e
    | .ok f' => .ok ⟨f', s.sw, s.swT⟩

def swRun (c : Cfg K) (v dw : Nat → K) : List (Base K) → PlF K → Except Stop (PlF K)
  | [], s => .ok s
  | o :: os, s =>
    match swStep c v dw o s with
    | .error e => .error e
    | .ok s' => swRun c v dw os s'

/-- Regularity of all operations but `abs_val`. -/
def regularAN (o : Base K) (T : Nat → K) : Prop := o.isAbs = true ∨ regular o T

theorem swStep_abs {c : Cfg K} {v dw : Nat → K} {a r : Nat} {k : K} {s s' : PlF K} (h : swStep c v dw (.absVal a r k) s = .ok s') :
    s'.f.T = upd s.f.T r (fabs (s.f.T a)) ∧ s'.f.dT = upd s.f.dT r (dw s.swT.length) ∧
    s'.f.stk = (if c.keep then s.f.T r :: s.f.stk else s.f.stk) ∧ s'.f.ii = s.f.ii ∧ s'.f.y = s.f.y ∧ s'.f.dy = s.f.dy ∧
    s'.sw = s.sw ++ [s.f.T a] ∧ s'.swT = s.swT ++ [s.f.dT a] := by
  simp only [swStep, Except.ok.injEq] at h
  subst h
  have push : ∀ s : FS K, (s.push c r).T = s.T ∧ (s.push c r).dT = s.dT ∧ (s.push c r).stk = (if c.keep then s.T r :: s.stk else s.stk) ∧ (s.push c r).ii = s.ii ∧
      (s.push c r).y = s.y ∧ (s.push c r).dy = s.dy := by
    intro s; unfold FS.push; split_ifs <;> simp
  have dec : ∀ (s : FS K) b n, (s.dec b n).T = s.T ∧ (s.dec b n).dT = s.dT ∧ (s.dec b n).stk = s.stk ∧ (s.dec b n).ii = s.ii ∧
      (s.dec b n).y = s.y ∧ (s.dec b n).dy = s.dy := by
    intro s b n; unfold FS.dec; split_ifs <;> simp
  obtain ⟨p1, p0, p2, p3, p4, p5⟩ := push s.f
  rw [← p2]
  clear p2
  split_ifs <;> simp [FS.set, FS.setD, dec, p0, p1, p3, p4, p5]

theorem swStep_eq (c : Cfg K) (v dw : Nat → K) {o : Base K} (ho : o.isAbs = false) (s : PlF K) :
    swStep c v dw o s = match fosStep c v o s.f with | .error e => .error e | .ok f' => .ok ⟨f', s.sw, s.swT⟩ := by
  cases o <;> first | rfl | (cases ho; done)

theorem swStep_other {c : Cfg K} {v dw : Nat → K} {o : Base K} (ho : o.isAbs = false) {s s' : PlF K}
    (h : swStep c v dw o s = .ok s') : fosStep c v o s.f = .ok s'.f ∧ s'.sw = s.sw ∧ s'.swT = s.swT := by
  rw [swStep_eq _ _ _ ho] at h
  split at h
  · cases h
  · rename_i f' h1
    cases h
    exact ⟨h1, rfl, rfl⟩

theorem plRevStep_other {u us : Nat → K} {o : Base K} (ho : o.isAbs = false) (s : PRS K) :
    plRevStep u us o s = match revStep u o s.r with | .error e => .error e | .ok t => .ok ⟨t, s.sw, s.sbar⟩ := by
  cases o <;> simp only [Base.isAbs] at ho <;> first | rfl | cases ho

theorem sw_zos {c : Cfg K} {v dw : Nat → K} {o : Base K} {s s' : PlF K} {z : ZS K} (h : swStep c v dw o s = .ok s') (hz : SameZ s.f z) :
    ∃ z', zosStep c o z = .ok z' ∧ SameZ s'.f z' := by
  cases ho : o.isAbs
  · have := fos_zos_step c v o hz
    rw [(swStep_other ho h).1] at this
    cases h3 : zosStep c o z with
    | error e => rw [h3] at this; exact this.elim
    | ok z' =>
      rw [h3] at this
      exact ⟨z', rfl, this⟩
  · cases o <;> simp only [Base.isAbs] at ho <;> first | (cases ho; done) | skip
    rename_i a r k
    have hp := hz.push (c := c) (r := r)
    have hT := hp.T
    simp only [swStep, Except.ok.injEq] at h
    subst h
    refine ⟨_, rfl, ?_⟩
    simp only
    refine SameZ.set (SameZ.setD ?_) ?_
    · simp only [hT]; split_ifs
      · exact hp.dec rfl
      · exact hp.dec rfl
      · exact hp
    · simp only [hT, FS.dec, ZS.dec, FS.setD]; split_ifs <;> simp_all

theorem sw_zos_run {c : Cfg K} {v dw : Nat → K} {ops : List (Base K)} {s s' : PlF K} {z : ZS K} (h : swRun c v dw ops s = .ok s') (hz : SameZ s.f z) :
    ∃ z', zosRun c ops z = .ok z' ∧ SameZ s'.f z' := by
  induction ops generalizing s z with
  | nil => cases h; exact ⟨z, rfl, hz⟩
  | cons o os ih =>
    simp only [swRun] at h
    split at h
    · cases h
    · rename_i s1 h1
      obtain ⟨z1, g1, g2⟩ := sw_zos h1 hz
      obtain ⟨z', k1, k2⟩ := ih h g2
      exact ⟨z', by simp only [zosRun, g1, k1], k2⟩

theorem sw_zosPl {c : Cfg K} {v dw : Nat → K} {o : Base K} {s s' : PlF K} {z z' : PlZ K} (h : swStep c v dw o s = .ok s')
    (h2 : zosPlStep c o z = .ok z') (hz : SameZ s.f z.z) (hw : s.sw = z.sw) : SameZ s'.f z'.z ∧ s'.sw = z'.sw := by
  obtain ⟨z1, g1, g2⟩ := sw_zos h hz
  unfold zosPlStep at h2
  rw [g1] at h2
  simp only [Except.ok.injEq] at h2
  subst h2
  refine ⟨g2, ?_⟩
  cases ho : o.isAbs
  · rw [(swStep_other ho h).2.1, hw]
    cases o <;> first | rfl | (cases ho; done)
  · cases o <;> simp only [Base.isAbs] at ho <;> first | (cases ho; done) | skip
    rename_i a r k
    have push : ∀ s : FS K, (s.push c r).T = s.T := by
      intro s; unfold FS.push; split_ifs <;> simp
    have dec : ∀ (s : FS K) b n, (s.dec b n).T = s.T := by
      intro s b n; unfold FS.dec; split_ifs <;> simp
    simp only [swStep, Except.ok.injEq] at h
    subst h
    simp only
    rw [← hz.T, hw]
    congr 2
    split_ifs <;> simp [dec, push]

theorem sw_zosPl_run {c : Cfg K} {v dw : Nat → K} {ops : List (Base K)} {s s' : PlF K} {z z' : PlZ K} (h : swRun c v dw ops s = .ok s')
    (h2 : zosPlRun c ops z = .ok z') (hz : SameZ s.f z.z) (hw : s.sw = z.sw) : SameZ s'.f z'.z ∧ s'.sw = z'.sw := by
  induction ops generalizing s z with
  | nil => cases h; cases h2; exact ⟨hz, hw⟩
  | cons o os ih =>
    simp only [swRun] at h
    simp only [zosPlRun] at h2
    split at h
    · cases h
    · rename_i s1 h1
      split at h2
      · cases h2
      · rename_i z1 h3
        obtain ⟨g1, g2⟩ := sw_zosPl h1 h3 hz hw
        exact ih h h2 g1 g2

theorem sw_prefix {c : Cfg K} {v dw : Nat → K} {ops : List (Base K)} {s s' : PlF K} (h : fosPlRun c v ops s = .ok s') :
    s.sw <+: s'.sw ∧ s.swT <+: s'.swT := by
  induction ops generalizing s with
  | nil => cases h; exact ⟨List.prefix_rfl, List.prefix_rfl⟩
  | cons o os ih =>
    simp only [fosPlRun] at h
    split at h
    · cases h
    · rename_i s1 h1
      have : s.sw <+: s1.sw ∧ s.swT <+: s1.swT := by
        unfold fosPlStep at h1
        split at h1
        · cases h1; exact ⟨List.prefix_append _ _, List.prefix_append _ _⟩
        · split at h1
          · cases h1
          · cases h1; exact ⟨List.prefix_rfl, List.prefix_rfl⟩
      exact ⟨this.1.trans (ih h).1, this.2.trans (ih h).2⟩

/-- `fos_pl_forward` is the tangent sweep with the increments of the absolute values prescribed. -/
theorem fosPl_sw {c : Cfg K} {v dw : Nat → K} {ops : List (Base K)} {s s' : PlF K} (h : fosPlRun c v ops s = .ok s')
    (hl : s.sw.length = s.swT.length)
    (hd : ∀ (k : Nat) z dz, s'.sw[k]? = some z → s'.swT[k]? = some dz → dw k = fabs (z + dz) - fabs z) :
    swRun c v dw ops s = .ok s' := by
  induction ops generalizing s with
  | nil => exact h
  | cons o os ih =>
    have hp := h
    simp only [fosPlRun] at hp
    split at hp
    · cases hp
    · rename_i s1 h1
      cases ho : o.isAbs
      · have e : swStep c v dw o s = .ok s1 := by
          rw [← h1]
          cases o <;> first | rfl | (cases ho; done)
        have hs1 : s1.sw = s.sw ∧ s1.swT = s.swT := (swStep_other ho e).2
        simp only [swRun, e]
        exact ih hp (by rw [hs1.1, hs1.2, hl])
      · cases o <;> simp only [Base.isAbs] at ho <;> first | (cases ho; done) | skip
        rename_i a r k
        have e0 := swStep_abs (c := c) (v := v) (dw := fun _ => fabs (s.f.T a + s.f.dT a) - fabs (s.f.T a)) (a := a) (r := r) (k := k) (s := s) rfl
        have hpre := (sw_prefix (dw := dw) hp)
        have hn : ∀ (f : FS K), f.T = s.f.T → f.dT = s.f.dT → fabs (f.T a + f.dT a) - fabs (f.T a) = fabs (s.f.T a + s.f.dT a) - fabs (s.f.T a) := by
          intro f h1 h2; rw [h1, h2]
        have push : ∀ s : FS K, (s.push c r).T = s.T ∧ (s.push c r).dT = s.dT := by
          intro s; unfold FS.push; split_ifs <;> simp
        have dec : ∀ (s : FS K) b n, (s.dec b n).T = s.T ∧ (s.dec b n).dT = s.dT := by
          intro s b n; unfold FS.dec; split_ifs <;> simp
        have hsw : s1.sw = s.sw ++ [s.f.T a] ∧ s1.swT = s.swT ++ [s.f.dT a] := by
          simp only [fosPlStep, Except.ok.injEq] at h1
          subst h1
          split_ifs <;> simp [dec, push]
        have hdw : dw s.swT.length = fabs (s.f.T a + s.f.dT a) - fabs (s.f.T a) := by
          refine hd _ _ _ ?_ ?_
          · obtain ⟨t, ht⟩ := hpre.1
            rw [← ht, hsw.1, ← hl]; simp
          · obtain ⟨t, ht⟩ := hpre.2
            rw [← ht, hsw.2]; simp
        have e : swStep c v dw (.absVal a r k) s = .ok s1 := by
          rw [← h1]
          simp only [fosPlStep, swStep, hdw]
          congr 3
          all_goals split_ifs <;> simp [dec, push]
        simp only [swRun, e]
        exact ih hp (by rw [hsw.1, hsw.2]; simp [hl])

theorem fosPl_total {c : Cfg K} {v : Nat → K} {ops : List (Base K)} {s : PlF K} {z z' : ZS K} (h : zosRun c ops z = .ok z') (hz : SameZ s.f z) :
    ∃ s', fosPlRun c v ops s = .ok s' := by
  induction ops generalizing s z with
  | nil => exact ⟨s, rfl⟩
  | cons o os ih =>
    simp only [zosRun] at h
    split at h
    · cases h
    · rename_i z1 h1
      have : ∃ s1, fosPlStep c v o s = .ok s1 ∧ SameZ s1.f z1 := by
        cases ho : o.isAbs
        · have g := fos_zos_step c v o hz
          rw [h1] at g
          cases h3 : fosStep c v o s.f with
          | error e => rw [h3] at g; exact g.elim
          | ok f' =>
            rw [h3] at g
            refine ⟨⟨f', s.sw, s.swT⟩, ?_, g⟩
            cases o <;> first | (simp only [fosPlStep, h3]; done) | (cases ho; done)
        · cases o <;> simp only [Base.isAbs] at ho <;> first | (cases ho; done) | skip
          rename_i a r k
          refine ⟨_, rfl, ?_⟩
          have hp := hz.push (c := c) (r := r)
          have hT := hp.T
          simp only [zosStep, Except.ok.injEq] at h1
          subst h1
          refine SameZ.set (SameZ.setD ?_) ?_
          · simp only [hT]; split_ifs
            · exact hp.dec rfl
            · exact hp.dec rfl
            · exact hp
          · simp only [hT, FS.dec, ZS.dec, FS.setD]; split_ifs <;> simp_all
      obtain ⟨s1, g1, g2⟩ := this
      obtain ⟨s', g3⟩ := ih h g2
      exact ⟨s', by simp only [fosPlRun, g1, g3]⟩

theorem sw_tan {c : Cfg K} {v dw : Nat → K} {o : Base K} {s s' : PlF K} (h : swStep c v dw o s = .ok s') (hT : o.okT)
    {Z : Set Nat} (hz : ∀ l ∈ Z, s.f.dT l = 0) : ∀ l ∈ o.tanStep Z, s'.f.dT l = 0 := by
  cases ho : o.isAbs
  · exact tan_step (swStep_other ho h).1 hT hz
  · cases o <;> simp only [Base.isAbs] at ho <;> try cases ho
    rename_i a r k
    rw [(swStep_abs h).2.1]
    intro l hl
    exact (upd_ne _ _ hl.2).trans (hz l hl.1)

theorem sw_misc {c : Cfg K} {v dw : Nat → K} {o : Base K} {s s' : PlF K} (h : swStep c v dw o s = .ok s') :
    s'.f.ii = s.f.ii + o.nInd ∧ s'.f.dy.length = s.f.dy.length + o.nDep ∧
    s'.swT.length = s.swT.length + (if o.isAbs then 1 else 0) ∧ ∀ l, ¬ o.writes l → s'.f.T l = s.f.T l := by
  cases ho : o.isAbs
  · obtain ⟨h1, h2, h3⟩ := swStep_other ho h
    obtain ⟨g1, g2, g3, g4⟩ := fos_misc h1
    exact ⟨g1, g2, by rw [h3]; simp, g4⟩
  · cases o <;> simp only [Base.isAbs] at ho <;> try cases ho
    rename_i a r k
    obtain ⟨h1, h2, h3, h4, h5, h6, h7, h8⟩ := swStep_abs h
    refine ⟨by rw [h4]; rfl, by rw [h6]; rfl, by rw [h8]; simp, fun l hl => ?_⟩
    rw [h1]
    exact upd_ne _ _ hl

theorem numSw_cons (o : Base K) (os : List (Base K)) : numSw (o :: os) = numSw os + (if o.isAbs then 1 else 0) := by
  unfold numSw
  rw [List.countP_cons]
  cases o <;> rfl

theorem sw_counts {c : Cfg K} {v dw : Nat → K} {ops : List (Base K)} {s sf : PlF K} (h : swRun c v dw ops s = .ok sf) :
    sf.f.ii = s.f.ii + numInd ops ∧ sf.f.dy.length = s.f.dy.length + numDep ops ∧ sf.swT.length = s.swT.length + numSw ops := by
  induction ops generalizing s with
  | nil => cases h; simp [numInd, numDep, numSw]
  | cons o os ih =>
    simp only [swRun] at h
    split at h
    · cases h
    · rename_i s' h1
      obtain ⟨h2, h3, h4⟩ := ih h
      obtain ⟨h5, h6, h7, _⟩ := sw_misc h1
      rw [numSw_cons]
      simp only [numInd, numDep, List.map_cons, List.sum_cons] at h2 h3 h4 ⊢
      omega

/-- The outcome of undoing a stretch of the sweep. -/
structure PUndo (N n q : Nat) (u us v dw : Nat → K) (s s' : PlF K) (A b0 sb0 : Nat → K) (r : PRS K) : Prop where
  T : r.r.T = s.f.T
  stk : r.r.stk = s.f.stk
  ii : r.r.ii = s.f.ii
  di : r.r.di = s.f.dy.length
  sw : r.sw = s.swT.length
  bar : ∀ i < s.f.ii, r.r.bar i = b0 i
  sbar : ∀ i < s.swT.length, r.sbar i = sb0 i
  pair : dot N r.r.A s.f.dT + dot n r.r.bar v + wsum u s.f.dy + dot q r.sbar dw + wsum us s.swT
    = dot N A s'.f.dT + dot n b0 v + wsum u s'.f.dy + dot q sb0 dw + wsum us s'.swT

theorem pl_undo_step {N n q : Nat} {c : Cfg K} (hk : c.keep = true) {u us v dw : Nat → K} {o : Base K}
    {s s' : PlF K} (h : swStep c v dw o s = .ok s') (hb : o.bounded N) (hT : o.okT)
    (hreg : regularAN o s.f.T) (hz : ∀ l ∈ o.zeroTan, s.f.dT l = 0)
    {A bar sbar : Nat → K} (hA : ∀ l ∈ o.zeroAdj, A l = 0) (hn : s'.f.ii ≤ n) (hq : s'.swT.length ≤ q)
    (hbar : ∀ i < s'.f.ii, bar i = 0) (hsbar : ∀ i < s'.swT.length, sbar i = 0) :
    ∃ r, plRevStep u us o ⟨⟨s'.f.T, A, s'.f.stk, s'.f.ii, s'.f.dy.length, bar⟩, s'.swT.length, sbar⟩ = .ok r ∧
      PUndo N n q u us v dw s s' A bar sbar r := by
  cases ho : o.isAbs
  · obtain ⟨h1, h2, h3⟩ := swStep_other ho h
    have hr : regular o s.f.T := by
      rcases hreg with h | h
      · rw [ho] at h; cases h
      · exact h
    obtain ⟨r, e1, e2⟩ := undo_step (N := N) (n := n) hk (u := u) h1 hb hT hr hz hA hn hbar
    rw [plRevStep_other ho]
    simp only [e1]
    refine ⟨_, rfl, e2.T, e2.stk, e2.ii, e2.di, by rw [h3], e2.bar, fun i hi => rfl, ?_⟩
    have := e2.pair
    rw [h3]
    simp only
    rw [this]
  · cases o <;> simp only [Base.isAbs] at ho <;> try cases ho
    rename_i a r k
    obtain ⟨h1, h2, h3, h4, h5, h6, h7, h8⟩ := swStep_abs h
    rw [hk, if_pos rfl] at h3
    simp only [Base.bounded] at hb
    have hl : s'.swT.length = s.swT.length + 1 := by rw [h8]; simp
    simp only [plRevStep, RS.pop, h3, RS.setA, RS.addA, hl, Nat.add_sub_cancel]
    refine ⟨_, rfl, ?_⟩
    have hs0 : sbar s.swT.length = 0 := hsbar _ (by omega)
    constructor <;> simp only
    · rw [h1, upd_upd, upd_self]
    · exact h4
    · rw [h6]
    · intro i hi; trivial
    · intro i hi; exact upd_ne _ _ (by omega)
    · rw [h2, h6, h8, wsum_append, dot_upd_left hb.1, dot_upd_left hb.2, dot_upd_right hb.2,
        dot_upd_left (show s.swT.length < q by omega), hs0]
      ring

theorem pl_adj_step {u us : Nat → K} {o : Base K} {s r : PRS K} (h : plRevStep u us o s = .ok r) {L : Set Nat}
    (hL : ∀ l, l ∉ L → s.r.A l = 0) : ∀ l, l ∉ o.adjStep L → r.r.A l = 0 := by
  cases ho : o.isAbs
  · rw [plRevStep_other ho] at h
    split at h
    · cases h
    · rename_i t h1
      cases h
      exact adj_step h1 hL
  · cases o <;> simp only [Base.isAbs] at ho <;> try cases ho
    rename_i a q k
    simp only [plRevStep] at h
    split at h
    · cases h
    · rename_i t h1
      cases h
      have ht : t.A = s.r.A := by
        unfold RS.pop at h1
        split at h1
        · cases h1
        · cases h1; rfl
      intro l hl
      simp only [Base.adjStep, Set.mem_insert_iff, Set.mem_diff, Set.mem_singleton_iff, not_or, not_and, not_not] at hl
      simp only [RS.addA, RS.setA, upd_ne _ _ hl.1, upd_apply, ht]
      split_ifs with hq
      · rfl
      · exact hL l fun hm => hq (hl.2 hm)

theorem pl_undo_run {N n q : Nat} {c : Cfg K} (hk : c.keep = true) {u us v dw : Nat → K}
    {ops : List (Base K)} {s sf : PlF K} {z : ZS K} (h : swRun c v dw ops s = .ok sf)
    (hsz : SameZ s.f z) {Z : Set Nat} (hwf : WfFrom N Z ops) (hreg : Along regularAN c ops z)
    (hz : ∀ l ∈ Z, s.f.dT l = 0) {A bar sbar : Nat → K} (hA : ∀ l, A l = 0) (hn : sf.f.ii ≤ n) (hq : sf.swT.length ≤ q)
    (hbar : ∀ i < sf.f.ii, bar i = 0) (hsbar : ∀ i < sf.swT.length, sbar i = 0) :
    ∃ r, plRevRun u us ops ⟨⟨sf.f.T, A, sf.f.stk, sf.f.ii, sf.f.dy.length, bar⟩, sf.swT.length, sbar⟩ = .ok r ∧
      PUndo N n q u us v dw s sf A bar sbar r ∧ ∀ l, l ∉ liveAdj ops → r.r.A l = 0 := by
  induction ops generalizing s z Z with
  | nil => cases h; exact ⟨_, rfl, ⟨rfl, rfl, rfl, rfl, rfl, fun _ _ => rfl, fun _ _ => rfl, rfl⟩, fun l _ => hA l⟩
  | cons o os ih =>
    simp only [swRun] at h
    split at h
    · cases h
    · rename_i s' h1
      obtain ⟨hb, hT, hzt, hza, hwf⟩ := hwf
      obtain ⟨hr1, hr2⟩ := hreg
      obtain ⟨z', h3, hsz'⟩ := sw_zos h1 hsz
      obtain ⟨r, e1, e2, e3⟩ := ih h hsz' hwf (hr2 z' h3) (sw_tan h1 hT hz)
      obtain ⟨c1, c2, c3⟩ := sw_counts h
      obtain ⟨m1, m2, m3, _⟩ := sw_misc h1
      rw [← hsz.T] at hr1
      obtain ⟨r', f1, f2⟩ := pl_undo_step (N := N) (n := n) (q := q) hk (u := u) (us := us) h1 hb hT hr1
        (fun l hl => hz l (hzt hl)) (A := r.r.A) (bar := r.r.bar) (sbar := r.sbar)
        (fun l hl => e3 l (hza l hl)) (by omega) (by omega)
        (fun i hi => by rw [e2.bar i hi]; exact hbar i (by omega))
        (fun i hi => by rw [e2.sbar i hi]; exact hsbar i (by omega))
      refine ⟨r', ?_, ⟨f2.T, f2.stk, f2.ii, f2.di, f2.sw, ?_, ?_, ?_⟩, ?_⟩
      · simp only [plRevRun, e1]
        rw [← f1, ← e2.T, ← e2.stk, ← e2.ii, ← e2.di, ← e2.sw]
      · intro i hi
        rw [f2.bar i hi, e2.bar i (by omega)]
      · intro i hi
        rw [f2.sbar i hi, e2.sbar i (by omega)]
      · rw [f2.pair, e2.pair]
      · exact pl_adj_step f1 e3

theorem swRun_append {c : Cfg K} {v dw : Nat → K} {a b : List (Base K)} {s : PlF K} :
    swRun c v dw (a ++ b) s = match swRun c v dw a s with
      | .error e => .error e
      | .ok s' => swRun c v dw b s' := by
  induction a generalizing s with
  | nil => rfl
  | cons o os ih =>
    simp only [List.cons_append, swRun]
    cases swStep c v dw o s with
    | error e => rfl
    | ok s' => exact ih

theorem plRevRun_append {u us : Nat → K} {a b : List (Base K)} {s : PRS K} :
    plRevRun u us (a ++ b) s = match plRevRun u us b s with
      | .error e => .error e
      | .ok s' => plRevRun u us a s' := by
  induction a generalizing s with
  | nil => cases h : plRevRun u us b s <;> simp [plRevRun, h]
  | cons o os ih =>
    simp only [List.cons_append, plRevRun, ih]
    cases plRevRun u us b s <;> rfl

theorem swRun_beyond {N : Nat} {c : Cfg K} {v dw : Nat → K} {ops : List (Base K)} {s s' : PlF K}
    (hb : ∀ o ∈ ops, o.bounded N) (h : swRun c v dw ops s = .ok s') : ∀ l, N ≤ l → s'.f.T l = s.f.T l := by
  induction ops generalizing s with
  | nil => cases h; intro _ _; rfl
  | cons o os ih =>
    simp only [swRun] at h
    split at h
    · cases h
    · rename_i s1 h1
      intro l hl
      rw [ih (fun o ho => hb o (by simp [ho])) h l hl]
      refine (sw_misc h1).2.2.2 l fun hw => ?_
      have := writes_bounded (hb o (by simp)) hw
      omega

theorem sw_stock {c : Cfg K} {v dw : Nat → K} (stock : List (Nat × List K)) (s : PlF K) :
    swRun c v dw (stock.map fun p => .takeStock p.1 p.2) s =
      match fosRun c v (stock.map fun p => .takeStock p.1 p.2) s.f with
      | .error e => .error e
      | .ok f => .ok ⟨f, s.sw, s.swT⟩ := by
  induction stock generalizing s with
  | nil => rfl
  | cons p stock ih =>
    simp only [List.map_cons, swRun, fosRun, swStep]
    cases fosStep c v (.takeStock p.1 p.2) s.f with
    | error e => rfl
    | ok f => simp only [ih]

theorem pl_stock_rev {u us : Nat → K} (stock : List (Nat × List K)) (s : PRS K) :
    plRevRun u us (stock.map fun p => .takeStock p.1 p.2) s =
      match revRun u (stock.map fun p => .takeStock p.1 p.2) s.r with
      | .error e => .error e
      | .ok t => .ok ⟨t, s.sw, s.sbar⟩ := by
  induction stock with
  | nil => rfl
  | cons p stock ih =>
    simp only [List.map_cons, plRevRun, revRun, ih]
    cases revRun u (stock.map fun p => .takeStock p.1 p.2) s.r with
    | error e => rfl
    | ok t =>
      simp only [plRevStep]
      cases revStep u (.takeStock p.1 p.2) t <;> rfl

/-- The complete `fos_pl_reverse`. -/
theorem pl_full_reverse {stock : List (Nat × List K)} {body : List (Base K)} {N : Nat}
    (hw : WfTrace stock body N) {c : Cfg K} (hk : c.keep = true) (u us v dw T0 : Nat → K)
    (hT0 : ∀ l, N ≤ l → T0 l = 0) {sf : PlF K}
    (h : swRun c v dw (fullTrace stock body N) ⟨FS.start T0, [], []⟩ = .ok sf)
    (hreg : Along regularAN c (fullTrace stock body N) (ZS.start T0)) :
    ∃ r, plRevRun u us (fullTrace stock body N) ⟨RS.init sf.f.ii sf.f.dy.length sf.f.stk, sf.swT.length, fun _ => 0⟩ = .ok r ∧
      r.r.stk = [] ∧ dot sf.f.ii r.r.bar v + dot sf.swT.length r.sbar dw = wsum u sf.f.dy + wsum us sf.swT := by
  have hh := h
  unfold fullTrace at h hreg ⊢
  rw [List.append_assoc] at h hreg ⊢
  rw [swRun_append] at h
  split at h
  · cases h
  rename_i s1 h1
  rw [sw_stock] at h1
  split at h1
  · cases h1
  rename_i f1 hf1
  cases h1
  obtain ⟨e1, e2, e3, e4, e5⟩ := stock_run stock hf1 (fun _ => rfl)
  have hz := fos_zos_run c v (stock.map fun p => .takeStock p.1 p.2) (s := (FS.start T0)) (z := (ZS.start T0)) ⟨rfl, rfl, rfl, rfl, le_refl _⟩
  have hf1' : fosRun c v (stock.map fun p => .takeStock p.1 p.2) (FS.start T0) = .ok f1 := hf1
  rw [hf1'] at hz
  cases h2 : zosRun c (stock.map fun p => .takeStock p.1 p.2) (ZS.start T0) with
  | error e => rw [h2] at hz; exact hz.elim
  | ok z1 =>
    rw [h2] at hz
    have hsz : SameZ f1 z1 := hz
    have hreg2 := Along_left (Along_append hreg h2)
    have hT1 : ∀ l, N ≤ l → f1.T l = 0 := fun l hl =>
      (fosRun_beyond (N := N) (fun o ho => by
        obtain ⟨p, hp, rfl⟩ := List.mem_map.1 ho
        exact hw.stock p hp) hf1 l hl).trans (hT0 l hl)
    rw [swRun_append] at h
    split at h
    · cases h
    rename_i s2 h3
    simp only [swRun] at h
    split at h
    · cases h
    rename_i s3 h4
    cases h
    obtain ⟨k1, k2, k3⟩ := swStep_other rfl h4
    have hN := hw.pos
    obtain ⟨r, g1, g2⟩ := undo_deathNot (N := N) (n := sf.f.ii) hk (u := u) (v := v) (Nat.zero_le _) k1
      (A := fun _ => 0) (bar := fun _ => 0) (T0 := fun _ => 0) (fun _ _ _ => rfl) (by
        intro l hl
        have : s2.f.T l = f1.T l := swRun_beyond (WfFrom_bounded hw.body) h3 l (by omega)
        rw [this, hT1 l (by omega)])
    have hA : ∀ l, r.A l = 0 := fun l =>
      adj_step g1 (L := ∅) (fun _ _ => rfl) l (by simp [Base.adjStep])
    have hm := fos_misc k1
    simp only [Base.nInd, Base.nDep, Nat.add_zero] at hm
    obtain ⟨r', q1, q2, q3⟩ := pl_undo_run (N := N) (n := sf.f.ii) (q := sf.swT.length) hk (u := u) (us := us) h3 hsz hw.body hreg2
      (fun l _ => e1 l) (A := r.A) (bar := r.bar) (sbar := fun _ => 0) hA (by omega) (by rw [k3]) (fun i hi => g2.bar i hi) (fun _ _ => rfl)
    obtain ⟨r2, p1, p2, p3⟩ := stock_rev_run (u := u) stock r'.r
    refine ⟨⟨r2, r'.sw, r'.sbar⟩, ?_, ?_, ?_⟩
    · rw [plRevRun_append, plRevRun_append]
      simp only [plRevRun, plRevStep]
      have : revStep u (.deathNot 0 (N - 1)) (RS.init sf.f.ii sf.f.dy.length sf.f.stk) = .ok r := g1
      simp only [this]
      rw [← g2.T, ← g2.stk, ← g2.ii, ← g2.di] at q1
      rw [k3, q1]
      simp only [pl_stock_rev, p1]
    · simp only
      rw [p3, q2.stk, e2]; rfl
    · simp only
      rw [p2]
      have hp := q2.pair
      have hp2 := g2.pair
      simp only at hp
      have hd : f1.dT = fun _ => 0 := funext e1
      have hdy : f1.dy = [] := e4
      rw [hd, hdy, dot_zero_right] at hp
      have hA' : r.A = fun _ => 0 := funext hA
      rw [hA', dot_zero_left, dot_zero_left] at hp
      rw [hA', dot_zero_left, dot_zero_left, dot_zero_left] at hp2
      rw [k3] at hp ⊢
      simp only [wsum, List.length_nil, Finset.range_zero, Finset.sum_empty] at hp hp2 ⊢
      linear_combination hp + hp2

end Verif.AD
