import Verif.AD.PlSig
import Verif.AD.FovFos
import Verif.AD.AbsLin

/-! Columns and signature of `fov_pl_forward`; `fos_pl_sig_reverse` is `fos_pl_reverse` with zero weights for the switches;
`fos_pl_sig_forward` with one sign. -/
set_option linter.all false
namespace Verif.AD
open Elem

variable {K : Type} [Scalar K]

/-- Column `l` of `fov_pl_forward`. -/
structure PCol (l : Nat) (s : VPF K) (f : PlF K) : Prop where
  base : Col l s.f f.f
  sw : s.sw = f.sw
  swT : s.swT.map (fun row => row[l]?.getD 0) = f.swT

theorem fovPlStep_other {c : Cfg K} {p : Nat} {V : Nat → Nat → K} {o : Base K} (ho : o.isAbs = false) (s : VPF K) :
    fovPlStep c p V o s = match fovStep c p V o s.f with | .error e => .error e | .ok f' => .ok ⟨f', s.sw, s.swT, s.sg⟩ := by
  cases o <;> first | rfl | (cases ho; done)

theorem fosPlStep_other {c : Cfg K} {v : Nat → K} {o : Base K} (ho : o.isAbs = false) (s : PlF K) :
    fosPlStep c v o s = match fosStep c v o s.f with | .error e => .error e | .ok f' => .ok ⟨f', s.sw, s.swT⟩ := by
  cases o <;> first | rfl | (cases ho; done)

theorem fovPl_fosPl_step {c : Cfg K} {p l : Nat} {V : Nat → Nat → K} (hl : l < p) (o : Base K) {s : VPF K} {f : PlF K}
    (h : PCol l s f) (hlog : logArgNonzero o f.f.T) :
    ExRel (PCol l) (fovPlStep c p V o s) (fosPlStep c (fun i => V i l) o f) := by
  cases ho : o.isAbs
  · rw [fovPlStep_other ho, fosPlStep_other ho]
    have := fov_fos_step c hl o (V := V) h.base hlog
    cases h1 : fovStep c p V o s.f <;> cases h2 : fosStep c (fun i => V i l) o f.f <;> rw [h1, h2] at this
    · exact this
    · exact this.elim
    · exact this.elim
    · exact ⟨this, h.sw, h.swT⟩
  · cases o <;> simp only [Base.isAbs] at ho <;> first | (cases ho; done) | skip
    rename_i a r k
    obtain ⟨h1, h2, h3⟩ := h
    have hT := h1.T
    have hd := h1.dT
    simp only [fovPlStep, fosPlStep, ExRel]
    have hp : Col l s.f (f.f.push c r) := h1.push
    have hpT : (f.f.push c r).T = f.f.T := by unfold FS.push; rfl
    have hpd : (f.f.push c r).dT = f.f.dT := by unfold FS.push; rfl
    rw [hT, hpT]
    have key : ∀ (F : VS K) (G : FS K), Col l F G → F.T = s.f.T → G.T = f.f.T → G.dT = f.f.dT → F.dT = s.f.dT →
        PCol l ⟨(F.up p fun l f => f.setC r l (fabs (f.T a + f.dT a l) - fabs (f.T a))).set r
            (fabs ((F.up p fun l f => f.setC r l (fabs (f.T a + f.dT a l) - fabs (f.T a))).T a)),
          s.sw ++ [F.T a], s.swT ++ [(List.range p).map (F.dT a)], s.sg ++ [firstsign (F.T a) ((List.range p).map (F.dT a))]⟩
        ⟨(G.setD r (fabs (G.T a + G.dT a) - fabs (G.T a))).set r (fabs ((G.setD r (fabs (G.T a + G.dT a) - fabs (G.T a))).T a)),
          f.sw ++ [G.T a], f.swT ++ [G.dT a]⟩ := by
      intro F G hFG e1 e2 e3 e4
      have hup : Col l (F.up p fun l f => f.setC r l (fabs (f.T a + f.dT a l) - fabs (f.T a))) (G.setD r (fabs (G.T a + G.dT a) - fabs (G.T a))) := by
        refine Col.up1 (e := fun l f => fabs (f.T a + f.dT a l) - fabs (f.T a)) hl hFG ?_
        intro t ht
        rw [ht.T, ht.dT]
      refine ⟨Col.set hup (by rw [hup.T]), ?_, ?_⟩
      · rw [h2, hFG.T]
      · rw [List.map_append, h3]
        simp [hFG.dT, hl]
    split_ifs with q1 q2
    · exact key _ _ (hp.dec rfl) (by simp [VS.dec]) (by simp [FS.dec, hpT]) (by simp [FS.dec, hpd]) (by simp [VS.dec])
    · exact key _ _ (hp.dec rfl) (by simp [VS.dec]) (by simp [FS.dec, hpT]) (by simp [FS.dec, hpd]) (by simp [VS.dec])
    · exact key _ _ hp rfl hpT hpd rfl


theorem fovPl_fosPl_run {c : Cfg K} {p l : Nat} {V : Nat → Nat → K} (hl : l < p) (ops : List (Base K)) {s : VPF K} {f : PlF K} {z : ZS K}
    (h : PCol l s f) (hz : SameZ f.f z) (hlog : Along logArgNonzero c ops z) :
    ExRel (PCol l) (fovPlRun c p V ops s) (fosPlRun c (fun i => V i l) ops f) := by
  induction ops generalizing s f z with
  | nil => exact h
  | cons o os ih =>
    obtain ⟨hl1, hl2⟩ := hlog
    rw [← hz.T] at hl1
    have hs := fovPl_fosPl_step (c := c) (V := V) hl o h hl1
    simp only [fosPlRun, fovPlRun]
    cases h1 : fovPlStep c p V o s <;> cases h2 : fosPlStep c (fun i => V i l) o f <;> rw [h1, h2] at hs
    · exact hs
    · exact hs.elim
    · exact hs.elim
    · rename_i s' f'
      have : ∃ z', zosStep c o z = .ok z' ∧ SameZ f'.f z' := by
        cases ho : o.isAbs
        · rw [fosPlStep_other ho] at h2
          have g := fos_zos_step c (fun i => V i l) o hz
          cases h3 : fosStep c (fun i => V i l) o f.f with
          | error e => rw [h3] at h2; cases h2
          | ok f1 =>
            rw [h3] at h2 g
            cases h2
            cases h4 : zosStep c o z with
            | error e => rw [h4] at g; exact g.elim
            | ok z' => rw [h4] at g; exact ⟨z', rfl, g⟩
        · cases o <;> simp only [Base.isAbs] at ho <;> first | (cases ho; done) | skip
          rename_i a r k
          refine ⟨_, rfl, ?_⟩
          have hp := hz.push (c := c) (r := r)
          have hT := hp.T
          simp only [fosPlStep, Except.ok.injEq] at h2
          subst h2
          refine SameZ.set (SameZ.setD ?_) ?_
          · simp only [hT]; split_ifs
            · exact hp.dec rfl
            · exact hp.dec rfl
            · exact hp
          · simp only [hT, FS.dec, ZS.dec, FS.setD]; split_ifs <;> simp_all
      obtain ⟨z', g1, g2⟩ := this
      exact ih hs g2 (hl2 z' g1)

/-- The signature is computed from `swargs` and `swtaylors`. -/
def SigOk (s : VPF K) : Prop := s.swT.length = s.sw.length ∧ s.sg = List.zipWith firstsign s.sw s.swT

theorem sigOk_step {c : Cfg K} {p : Nat} {V : Nat → Nat → K} {o : Base K} {s s' : VPF K} (h : SigOk s) (hs : fovPlStep c p V o s = .ok s') :
    SigOk s' := by
  cases ho : o.isAbs
  · rw [fovPlStep_other ho] at hs
    split at hs
    · cases hs
    · cases hs; exact h
  · cases o <;> simp only [Base.isAbs] at ho <;> first | (cases ho; done) | skip
    rename_i a r k
    obtain ⟨h1, h2⟩ := h
    simp only [fovPlStep, Except.ok.injEq] at hs
    subst hs
    refine ⟨by simp [h1], ?_⟩
    simp only
    rw [List.zipWith_append h1.symm, h2]; rfl

theorem sigOk_run {c : Cfg K} {p : Nat} {V : Nat → Nat → K} {ops : List (Base K)} {s s' : VPF K} (h : SigOk s)
    (hs : fovPlRun c p V ops s = .ok s') : SigOk s' := by
  induction ops generalizing s with
  | nil => cases hs; exact h
  | cons o os ih =>
    simp only [fovPlRun] at hs
    split at hs
    · cases hs
    · rename_i s1 h1
      exact ih (sigOk_step h h1) hs

/-! ### `fos_pl_sig_reverse` -/

theorem plSigRevStep_other {u sg : Nat → K} {o : Base K} (ho : o.isAbs = false) (s : RS K × Nat) :
    plSigRevStep u sg o s = match revStep u o s.1 with | .error e => .error e | .ok t => .ok (t, s.2) := by
  cases o <;> first | rfl | (cases ho; done)

/-- Whatever the signature: what `fos_pl_reverse` does with zero weights for the switching variables. -/
theorem sigRev_run (u sg : Nat → K) (ops : List (Base K)) (s : PRS K) :
    plSigRevRun u sg ops (s.r, s.sw) = (plRevRun u (fun _ => 0) ops s).map fun t => (t.r, t.sw) := by
  induction ops generalizing s with
  | nil => rfl
  | cons o os ih =>
    simp only [plSigRevRun, plRevRun, ih s]
    cases h : plRevRun u (fun _ => 0) os s with
    | error e => rfl
    | ok t =>
      simp only [Except.map]
      cases ho : o.isAbs
      · rw [plSigRevStep_other ho, plRevStep_other ho]
        cases revStep u o t.r <;> rfl
      · cases o <;> simp only [Base.isAbs] at ho <;> first | (cases ho; done) | skip
        rename_i a r k
        simp only [plSigRevStep, plRevStep]
        cases t.r.pop r with
        | error e => rfl
        | ok q =>
          simp only
          have : sg (t.sw - 1) * (q.setA r 0).A r = 0 := by simp [RS.setA, upd_apply]
          rw [this]

/-! ### `fos_pl_sig_forward` -/

/-- Tangent sweep in which the tangent of the result of `fabs` is a sign times the tangent of the argument (proof device). -/
def sdStep (c : Cfg K) (v : Nat → K) (o : Base K) (s : PlF K) : Except Stop (PlF K) :=
  match o with
  | .absVal a r k =>
    swStep c v (fun _ => ((firstsign (s.f.T a) [s.f.dT a] : ℤ) : K) * s.f.dT a) (.absVal a r k) s
  | o =>
    match fosStep c v o s.f with
    | .error e => .error e
    | .ok f' => .ok ⟨f', s.sw, s.swT⟩

def sdRun (c : Cfg K) (v : Nat → K) : List (Base K) → PlF K → Except Stop (PlF K)
  | [], s => .ok s
  | o :: os, s =>
    match sdStep c v o s with
    | .error e => .error e
    | .ok s' => sdRun c v os s'

theorem sdStep_other {c : Cfg K} {v : Nat → K} {o : Base K} (ho : o.isAbs = false) (s : PlF K) :
    sdStep c v o s = match fosStep c v o s.f with | .error e => .error e | .ok f' => .ok ⟨f', s.sw, s.swT⟩ := by
  cases o <;> first | rfl | (cases ho; done)

theorem fosSigStep_other {c : Cfg K} {v : Nat → K} {sb : Nat → ℤ} {sd : Option (Nat → ℤ)} {o : Base K} (ho : o.isAbs = false) (s : SgF K) :
    fosSigStep c v sb sd o s = match fosStep c v o s.f with | .error e => .error e | .ok f' => .ok ⟨f', s.sw, s.swT, s.sg⟩ := by
  cases o <;> first | rfl | (cases ho; done)

theorem sd_prefix {c : Cfg K} {v : Nat → K} {ops : List (Base K)} {s s' : PlF K} (h : sdRun c v ops s = .ok s') :
    s.sw <+: s'.sw ∧ s.swT <+: s'.swT := by
  induction ops generalizing s with
  | nil => cases h; exact ⟨List.prefix_rfl, List.prefix_rfl⟩
  | cons o os ih =>
    simp only [sdRun] at h
    split at h
    · cases h
    · rename_i s1 h1
      have : s.sw <+: s1.sw ∧ s.swT <+: s1.swT := by
        unfold sdStep at h1
        split at h1
        · have e := swStep_abs h1
          rw [e.2.2.2.2.2.2.1, e.2.2.2.2.2.2.2]
          exact ⟨List.prefix_append _ _, List.prefix_append _ _⟩
        · split at h1
          · cases h1
          · cases h1; exact ⟨List.prefix_rfl, List.prefix_rfl⟩
      exact ⟨this.1.trans (ih h).1, this.2.trans (ih h).2⟩

theorem swStep_congr {c : Cfg K} {v dw dw' : Nat → K} {o : Base K} {s : PlF K} (h : dw s.swT.length = dw' s.swT.length) :
    swStep c v dw o s = swStep c v dw' o s := by
  cases o <;> first | rfl | skip
  simp only [swStep, h]

/-- The tangents of the results of `fabs` are the signed tangents of the arguments. -/
theorem sd_sw {c : Cfg K} {v dw : Nat → K} {ops : List (Base K)} {s s' : PlF K} (h : sdRun c v ops s = .ok s')
    (hl : s.sw.length = s.swT.length)
    (hd : ∀ (k : Nat) z dz, s'.sw[k]? = some z → s'.swT[k]? = some dz → dw k = ((firstsign z [dz] : ℤ) : K) * dz) :
    swRun c v dw ops s = .ok s' := by
  induction ops generalizing s with
  | nil => exact h
  | cons o os ih =>
    have hp := h
    simp only [sdRun] at hp
    split at hp
    · cases hp
    · rename_i s1 h1
      cases ho : o.isAbs
      · have e : swStep c v dw o s = .ok s1 := by
          rw [← h1, sdStep_other ho, swStep_eq _ _ _ ho]
          cases fosStep c v o s.f <;> rfl
        have hs1 : s1.sw = s.sw ∧ s1.swT = s.swT := (swStep_other ho e).2
        simp only [swRun, e]
        exact ih hp (by rw [hs1.1, hs1.2, hl])
      · cases o <;> simp only [Base.isAbs] at ho <;> first | (cases ho; done) | skip
        rename_i a r k
        have h1' : swStep c v (fun _ => ((firstsign (s.f.T a) [s.f.dT a] : ℤ) : K) * s.f.dT a) (.absVal a r k) s = .ok s1 := h1
        have e0 := swStep_abs h1'
        have hpre := sd_prefix hp
        have hdw : dw s.swT.length = ((firstsign (s.f.T a) [s.f.dT a] : ℤ) : K) * s.f.dT a := by
          refine hd _ _ _ ?_ ?_
          · obtain ⟨t, ht⟩ := hpre.1
            rw [← ht, e0.2.2.2.2.2.2.1, ← hl]; simp
          · obtain ⟨t, ht⟩ := hpre.2
            rw [← ht, e0.2.2.2.2.2.2.2]; simp
        have e : swStep c v dw (.absVal a r k) s = .ok s1 := by
          rw [← h1']; exact swStep_congr hdw
        simp only [swRun, e]
        exact ih hp (by rw [e0.2.2.2.2.2.2.1, e0.2.2.2.2.2.2.2]; simp [hl])

/-- If no argument is changed, `fos_pl_sig_forward` is this sweep. -/
theorem sig_sd {v : Nat → K} {c : Cfg K} (hk : c.keep = false) {sb : Nat → ℤ} {sd : Option (Nat → ℤ)} (hsb : sb 0 ≠ 0) (ops : List (Base K)) (s : SgF K) (sw swT : List K) :
    (∃ e, fosSigRun c v sb sd ops s = .error e ∧ sdRun c v ops ⟨s.f, sw, swT⟩ = .error e) ∨
    ∃ s' t, fosSigRun c v sb sd ops s = .ok s' ∧ sdRun c v ops ⟨s.f, sw, swT⟩ = .ok t ∧ t.f = s'.f := by
  induction ops generalizing s sw swT with
  | nil => exact .inr ⟨s, _, rfl, rfl, rfl⟩
  | cons o os ih =>
    simp only [fosSigRun, sdRun]
    cases ho : o.isAbs
    · rw [fosSigStep_other ho, sdStep_other ho]
      cases fosStep c v o s.f with
      | error e => exact .inl ⟨e, rfl, rfl⟩
      | ok f' => exact ih ⟨f', s.sw, s.swT, s.sg⟩ sw swT
    · cases o <;> simp only [Base.isAbs] at ho <;> first | (cases ho; done) | skip
      rename_i a r k
      have hext : ∀ u d : K, extSign (sb 0) (sd.map fun d => d 0) u d = (u, d) := by
        intro u d
        unfold extSign
        cases sd <;> simp [hsb]
      have hid : ∀ f : FS K, (f.set a (f.T a)).setD a (f.dT a) = f := by
        intro f
        cases f
        simp [FS.set, FS.setD, upd_self]
      have : ∃ t q, fosSigStep c v sb sd (.absVal a r k) s = .ok t ∧ sdStep c v (.absVal a r k) ⟨s.f, sw, swT⟩ = .ok q ∧ q.f = t.f := by
        refine ⟨_, _, rfl, rfl, ?_⟩
        simp only [hext, hid, FS.push, hk, Bool.false_eq_true, if_false]
        split_ifs <;> simp [FS.dec]
      obtain ⟨t, q, h1, h2, h3⟩ := this
      rw [h1, h2]
      have := ih t q.sw q.swT
      rw [← h3] at this
      exact this

/-- Every row of `swtaylors` has `p` entries. -/
theorem swT_rows {c : Cfg K} {p : Nat} {V : Nat → Nat → K} {ops : List (Base K)} {s s' : VPF K} (h : ∀ row ∈ s.swT, row.length = p)
    (hs : fovPlRun c p V ops s = .ok s') : ∀ row ∈ s'.swT, row.length = p := by
  induction ops generalizing s with
  | nil => cases hs; exact h
  | cons o os ih =>
    simp only [fovPlRun] at hs
    split at hs
    · cases hs
    · rename_i s1 h1
      refine ih ?_ hs
      cases ho : o.isAbs
      · rw [fovPlStep_other ho] at h1
        split at h1
        · cases h1
        · cases h1; exact h
      · cases o <;> simp only [Base.isAbs] at ho <;> first | (cases ho; done) | skip
        simp only [fovPlStep, Except.ok.injEq] at h1
        subst h1
        intro row hr
        rcases List.mem_append.1 hr with hr | hr
        · exact h row hr
        · rw [List.mem_singleton.1 hr]; simp

theorem firstNonzero_range (l : List K) : firstNonzero l = 0 ∨ firstNonzero l = 1 ∨ firstNonzero l = -1 := by
  induction l with
  | nil => exact .inl rfl
  | cons d ds ih => simp only [firstNonzero]; split_ifs <;> simp [ih]

theorem firstsign_range (u : K) (l : List K) : firstsign u l = 0 ∨ firstsign u l = 1 ∨ firstsign u l = -1 := by
  unfold firstsign
  split_ifs
  · simp
  · simp
  · exact firstNonzero_range l

theorem sg_range {c : Cfg K} {p : Nat} {V : Nat → Nat → K} {ops : List (Base K)} {w : VPF K} (hs : fovPlRun c p V ops VPF.init = .ok w) :
    ∀ b ∈ w.sg, b = 0 ∨ b = 1 ∨ b = -1 := by
  obtain ⟨h1, h2⟩ := sigOk_run (s := VPF.init) ⟨rfl, rfl⟩ hs
  intro b hb
  rw [h2, List.mem_iff_getElem] at hb
  obtain ⟨i, hi, rfl⟩ := hb
  rw [List.getElem_zipWith]
  exact firstsign_range _ _

theorem sum_abs_le {l : List ℤ} (hr : ∀ b ∈ l, b = 0 ∨ b = 1 ∨ b = -1) : (l.map Int.natAbs).sum ≤ l.length := by
  induction l with
  | nil => simp
  | cons b l ih =>
    have := ih fun b hb => hr b (List.mem_cons_of_mem _ hb)
    rcases hr b List.mem_cons_self with rfl | rfl | rfl <;> simp <;> omega

theorem sum_abs_full {l : List ℤ} (h : (l.map Int.natAbs).sum = l.length) (hr : ∀ b ∈ l, b = 0 ∨ b = 1 ∨ b = -1) :
    ∀ b ∈ l, b = 1 ∨ b = -1 := by
  induction l with
  | nil => simp
  | cons b l ih =>
    have hl := sum_abs_le fun b hb => hr b (List.mem_cons_of_mem _ hb)
    have hb := hr b List.mem_cons_self
    simp only [List.map_cons, List.sum_cons, List.length_cons] at h
    intro c hc
    rcases List.mem_cons.1 hc with rfl | hc
    · rcases hb with rfl | hb
      · simp at h; omega
      · exact hb
    · refine ih ?_ (fun b hb => hr b (List.mem_cons_of_mem _ hb)) c hc
      rcases hb with rfl | rfl | rfl <;> simp at h <;> omega

end Verif.AD
