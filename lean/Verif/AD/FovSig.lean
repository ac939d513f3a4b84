import Verif.AD.PlSigCol
import Verif.AD.PlSigMain

/-!
# `fov_pl_sig_forward` (`uni5_for.cpp`)

All cases of the switch except `abs_val` are those of `fov_forward`.  The array `signature()` of the tape is not modelled.
-/
set_option linter.all false
namespace Verif.AD
open Elem

variable {K : Type} [Scalar K]

/-- `fov_pl_sig_forward`: the variables of `fov_forward`, and the user's arrays `swargs`, `swtaylors`, `sigsw`. -/
structure VgF (K : Type) where
  f : VS K
  sw : Nat → K
  swT : Nat → Nat → K
  sg : Nat → ℤ

/-- uni5_for.cpp:3872-3992 with `_ABS_NORM_SIG_` and `_FOV_`.  `switchnum` stays 0: line 3990 asks for `_ABS_NORN_SIG_`.
`ext_firstsign` (5919-5932) changes `dp_T0[arg]` and the first tangent of `arg` only; the sign is determined by all `p`
tangents.  The number of directions `p` is positive. -/
def fovSigStep (c : Cfg K) (p : Nat) (V : Nat → Nat → K) (sb : Nat → ℤ) (sd : Option (Nat → ℤ)) (o : Base K) (s : VgF K) :
    Except Stop (VgF K) :=
  match o with
  | .absVal a r k =>
    let f := s.f
    let f :=
      if f.T a < 0 then f.dec (k ≠ 0) 2
      else if f.T a > 0 then f.dec (k = 0) 2
      else f
    let sw := upd s.sw 0 (f.T a)
    let q := extSign (sb 0) (sd.map fun d => d 0) (f.T a) (f.dT a 0)
    let f := (f.set a q.1).setC a 0 q.2
    let y := firstsign (f.T a) ((List.range p).map (f.dT a))
    let swT := fun i l => if i = 0 ∧ l < p then f.dT a l else s.swT i l
    let f := f.up p fun l f => f.setC r l ((y : K) * f.dT a l)
    .ok ⟨f.set r (fabs (f.T a)), sw, swT, upd s.sg 0 y⟩
  | o =>
    match fovStep c p V o s.f with
    | .error e => .error e
    | .ok f' => .ok ⟨f', s.sw, s.swT, s.sg⟩

/-- The loop of `fov_pl_sig_forward`. -/
def fovSigRun (c : Cfg K) (p : Nat) (V : Nat → Nat → K) (sb : Nat → ℤ) (sd : Option (Nat → ℤ)) :
    List (Base K) → VgF K → Except Stop (VgF K)
  | [], s => .ok s
  | o :: os, s =>
    match fovSigStep c p V sb sd o s with
    | .error e => .error e
    | .ok s' => fovSigRun c p V sb sd os s'

/-- At the start of `fov_pl_sig_forward`; the user's arrays contain `z`, `d`, `g`. -/
def VgF.init (z : Nat → K) (d : Nat → Nat → K) (g : Nat → ℤ) : VgF K := ⟨VS.init, z, d, g⟩

theorem fovSigStep_other {c : Cfg K} {p : Nat} {V : Nat → Nat → K} {sb : Nat → ℤ} {sd : Option (Nat → ℤ)} {o : Base K} (ho : o.isAbs = false)
    (s : VgF K) : fovSigStep c p V sb sd o s = match fovStep c p V o s.f with | .error e => .error e | .ok f' => .ok ⟨f', s.sw, s.swT, s.sg⟩ := by
  cases o <;> first | rfl | (cases ho; done)

/-! ### The first column -/

/-- The first column of `fov_pl_sig_forward`. -/
structure GCol (s : VgF K) (f : SgF K) : Prop where
  base : Col 0 s.f f.f
  sw : s.sw = f.sw
  swT : ∀ i, s.swT i 0 = f.swT i

theorem firstsign_head (u d : K) (ds : List K) : ((firstsign u (d :: ds) : ℤ) : K) * d = ((firstsign u [d] : ℤ) : K) * d := by
  unfold firstsign
  split_ifs
  · rfl
  · rfl
  · simp only [firstNonzero]
    split_ifs with h1 h2
    · rfl
    · rfl
    · rw [show d = 0 from le_antisymm (not_lt.1 h1) (not_lt.1 h2)]; simp

theorem Col.setC0 {s : VS K} {f : FS K} {a : Nat} {v w : K} (h : Col 0 s f) (hv : v = w) : Col 0 (s.setC a 0 v) (f.setD a w) := h.setC hv

/-- The loop over the directions writes `y` times what it reads. -/
theorem up_dT {a r p : Nat} {y : K} (s : VS K) : (s.up p fun l f => f.setC r l (y * f.dT a l)).T = s.T := by
  unfold VS.up
  generalize List.range p = L
  induction L generalizing s with
  | nil => rfl
  | cons x L ih => simp only [List.foldl_cons]; rw [ih]; rfl

theorem fovSig_fosSig_step {c : Cfg K} (hk : c.keep = false) {p : Nat} {V : Nat → Nat → K} {sb : Nat → ℤ} {sd : Option (Nat → ℤ)} (hp : 0 < p) (o : Base K)
    {s : VgF K} {f : SgF K} (h : GCol s f) (hlog : logArgNonzero o f.f.T) :
    ExRel GCol (fovSigStep c p V sb sd o s) (fosSigStep c (fun i => V i 0) sb sd o f) := by
  cases ho : o.isAbs
  · rw [fovSigStep_other ho, fosSigStep_other ho]
    have := fov_fos_step c hp o (V := V) h.base hlog
    cases h1 : fovStep c p V o s.f <;> cases h2 : fosStep c (fun i => V i 0) o f.f <;> rw [h1, h2] at this
    · exact this
    · exact this.elim
    · exact this.elim
    · exact ⟨this, h.sw, h.swT⟩
  · cases o <;> simp only [Base.isAbs] at ho <;> first | (cases ho; done) | skip
    rename_i a r k
    obtain ⟨h1, h2, h3⟩ := h
    have hT := h1.T
    simp only [fovSigStep, fosSigStep, ExRel]
    have key : ∀ (F : VS K) (G : FS K), Col 0 F G →
        GCol ⟨(((F.set a (extSign (sb 0) (sd.map fun d => d 0) (F.T a) (F.dT a 0)).1).setC a 0 (extSign (sb 0) (sd.map fun d => d 0) (F.T a) (F.dT a 0)).2).up p
            fun l f => f.setC r l (((firstsign (((F.set a (extSign (sb 0) (sd.map fun d => d 0) (F.T a) (F.dT a 0)).1).setC a 0 (extSign (sb 0) (sd.map fun d => d 0) (F.T a) (F.dT a 0)).2).T a)
              ((List.range p).map (((F.set a (extSign (sb 0) (sd.map fun d => d 0) (F.T a) (F.dT a 0)).1).setC a 0 (extSign (sb 0) (sd.map fun d => d 0) (F.T a) (F.dT a 0)).2).dT a)) : ℤ) : K) * f.dT a l)).set r
            (fabs ((((F.set a (extSign (sb 0) (sd.map fun d => d 0) (F.T a) (F.dT a 0)).1).setC a 0 (extSign (sb 0) (sd.map fun d => d 0) (F.T a) (F.dT a 0)).2).up p
            fun l f => f.setC r l (((firstsign (((F.set a (extSign (sb 0) (sd.map fun d => d 0) (F.T a) (F.dT a 0)).1).setC a 0 (extSign (sb 0) (sd.map fun d => d 0) (F.T a) (F.dT a 0)).2).T a)
              ((List.range p).map (((F.set a (extSign (sb 0) (sd.map fun d => d 0) (F.T a) (F.dT a 0)).1).setC a 0 (extSign (sb 0) (sd.map fun d => d 0) (F.T a) (F.dT a 0)).2).dT a)) : ℤ) : K) * f.dT a l)).T a)),
          upd s.sw 0 (F.T a),
          fun i l => if i = 0 ∧ l < p then ((F.set a (extSign (sb 0) (sd.map fun d => d 0) (F.T a) (F.dT a 0)).1).setC a 0 (extSign (sb 0) (sd.map fun d => d 0) (F.T a) (F.dT a 0)).2).dT a l else s.swT i l,
          upd s.sg 0 (firstsign (((F.set a (extSign (sb 0) (sd.map fun d => d 0) (F.T a) (F.dT a 0)).1).setC a 0 (extSign (sb 0) (sd.map fun d => d 0) (F.T a) (F.dT a 0)).2).T a)
              ((List.range p).map (((F.set a (extSign (sb 0) (sd.map fun d => d 0) (F.T a) (F.dT a 0)).1).setC a 0 (extSign (sb 0) (sd.map fun d => d 0) (F.T a) (F.dT a 0)).2).dT a)))⟩
        ⟨(((G.set a (extSign (sb 0) (sd.map fun d => d 0) (G.T a) (G.dT a)).1).setD a (extSign (sb 0) (sd.map fun d => d 0) (G.T a) (G.dT a)).2).setD r
            (((firstsign (((G.set a (extSign (sb 0) (sd.map fun d => d 0) (G.T a) (G.dT a)).1).setD a (extSign (sb 0) (sd.map fun d => d 0) (G.T a) (G.dT a)).2).T a)
              [((G.set a (extSign (sb 0) (sd.map fun d => d 0) (G.T a) (G.dT a)).1).setD a (extSign (sb 0) (sd.map fun d => d 0) (G.T a) (G.dT a)).2).dT a] : ℤ) : K) *
              ((G.set a (extSign (sb 0) (sd.map fun d => d 0) (G.T a) (G.dT a)).1).setD a (extSign (sb 0) (sd.map fun d => d 0) (G.T a) (G.dT a)).2).dT a)).set r
            (fabs ((((G.set a (extSign (sb 0) (sd.map fun d => d 0) (G.T a) (G.dT a)).1).setD a (extSign (sb 0) (sd.map fun d => d 0) (G.T a) (G.dT a)).2).setD r
            (((firstsign (((G.set a (extSign (sb 0) (sd.map fun d => d 0) (G.T a) (G.dT a)).1).setD a (extSign (sb 0) (sd.map fun d => d 0) (G.T a) (G.dT a)).2).T a)
              [((G.set a (extSign (sb 0) (sd.map fun d => d 0) (G.T a) (G.dT a)).1).setD a (extSign (sb 0) (sd.map fun d => d 0) (G.T a) (G.dT a)).2).dT a] : ℤ) : K) *
              ((G.set a (extSign (sb 0) (sd.map fun d => d 0) (G.T a) (G.dT a)).1).setD a (extSign (sb 0) (sd.map fun d => d 0) (G.T a) (G.dT a)).2).dT a)).T a)),
          upd f.sw 0 (G.T a),
          upd f.swT 0 (((G.set a (extSign (sb 0) (sd.map fun d => d 0) (G.T a) (G.dT a)).1).setD a (extSign (sb 0) (sd.map fun d => d 0) (G.T a) (G.dT a)).2).dT a),
          upd f.sg 0 (firstsign (((G.set a (extSign (sb 0) (sd.map fun d => d 0) (G.T a) (G.dT a)).1).setD a (extSign (sb 0) (sd.map fun d => d 0) (G.T a) (G.dT a)).2).T a)
              [((G.set a (extSign (sb 0) (sd.map fun d => d 0) (G.T a) (G.dT a)).1).setD a (extSign (sb 0) (sd.map fun d => d 0) (G.T a) (G.dT a)).2).dT a])⟩ := by
      intro F G hFG
      have e1 : (F.T a) = G.T a := by rw [hFG.T]
      have e2 : (F.dT a 0) = G.dT a := hFG.dT a
      rw [e1, e2]
      generalize (extSign (sb 0) (sd.map fun d => d 0) (G.T a) (G.dT a)) = q
      have hq : Col 0 ((F.set a q.1).setC a 0 q.2) ((G.set a q.1).setD a q.2) := (hFG.set rfl).setC0 rfl
      generalize (F.set a q.1).setC a 0 q.2 = F' at hq ⊢
      generalize (G.set a q.1).setD a q.2 = G' at hq ⊢
      obtain ⟨p', rfl⟩ : ∃ p', p = p' + 1 := ⟨p - 1, by omega⟩
      have hy : ((firstsign (F'.T a) ((List.range (p' + 1)).map (F'.dT a)) : ℤ) : K) * G'.dT a = ((firstsign (G'.T a) [G'.dT a] : ℤ) : K) * G'.dT a := by
        rw [List.range_succ_eq_map, List.map_cons, hq.T, hq.dT a]
        exact firstsign_head _ _ _
      have hup : Col 0 (F'.up (p' + 1) fun l f => f.setC r l (((firstsign (F'.T a) ((List.range (p' + 1)).map (F'.dT a)) : ℤ) : K) * f.dT a l))
          (G'.setD r (((firstsign (G'.T a) [G'.dT a] : ℤ) : K) * G'.dT a)) := by
        refine Col.up1 (e := fun l f => ((firstsign (F'.T a) ((List.range (p' + 1)).map (F'.dT a)) : ℤ) : K) * f.dT a l) hp hq ?_
        intro t ht
        rw [ht.dT]
        exact hy
      refine ⟨Col.set hup (by rw [hup.T]), by rw [h2], fun i => ?_⟩
      by_cases hi : i = 0
      · subst hi; simp [hq.dT, upd_apply]
      · simp [hi, upd_apply, h3]
    rw [hT]
    split_ifs with q1 q2
    · exact key _ _ (h1.dec rfl)
    · exact key _ _ (h1.dec rfl)
    · exact key _ _ h1

/-- Holds before every step of `fos_pl_sig_forward`. -/
def AlongSig (P : Base K → (Nat → K) → Prop) (c : Cfg K) (v : Nat → K) (sb : Nat → ℤ) (sd : Option (Nat → ℤ)) : List (Base K) → SgF K → Prop
  | [], _ => True
  | o :: os, s => P o s.f.T ∧ ∀ s', fosSigStep c v sb sd o s = .ok s' → AlongSig P c v sb sd os s'

theorem fovSig_fosSig_run {c : Cfg K} (hk : c.keep = false) {p : Nat} {V : Nat → Nat → K} {sb : Nat → ℤ} {sd : Option (Nat → ℤ)} (hp : 0 < p)
    (ops : List (Base K)) {s : VgF K} {f : SgF K} (h : GCol s f) (hlog : AlongSig logArgNonzero c (fun i => V i 0) sb sd ops f) :
    ExRel GCol (fovSigRun c p V sb sd ops s) (fosSigRun c (fun i => V i 0) sb sd ops f) := by
  induction ops generalizing s f with
  | nil => exact h
  | cons o os ih =>
    have hs := fovSig_fosSig_step hk (V := V) (sb := sb) (sd := sd) hp o h hlog.1
    simp only [fovSigRun, fosSigRun]
    cases h1 : fovSigStep c p V sb sd o s <;> cases h2 : fosSigStep c (fun i => V i 0) sb sd o f <;> rw [h1, h2] at hs
    · exact hs
    · exact hs.elim
    · exact hs.elim
    · exact ih hs (hlog.2 _ h2)

/-! ### All columns, if no argument is changed -/

/-- Tangent sweep in which the tangents of the result of `fabs` are one sign times the tangents of the argument (proof
device). -/
def vsdStep (c : Cfg K) (p : Nat) (V : Nat → Nat → K) (o : Base K) (s : VPF K) : Except Stop (VPF K) :=
  match o with
  | .absVal a r k =>
    let f := s.f
    let f :=
      if f.T a < 0 then f.dec (k ≠ 0) 2
      else if f.T a > 0 then f.dec (k = 0) 2
      else f
    let y := firstsign (f.T a) ((List.range p).map (f.dT a))
    let sw := s.sw ++ [f.T a]
    let sg := s.sg ++ [y]
    let swT := s.swT ++ [(List.range p).map (f.dT a)]
    let f := f.up p fun l f => f.setC r l ((y : K) * f.dT a l)
    .ok ⟨f.set r (fabs (f.T a)), sw, swT, sg⟩
  | o =>
    match fovStep c p V o s.f with
    | .error e => .error e
    | .ok f' => .ok ⟨f', s.sw, s.swT, s.sg⟩

def vsdRun (c : Cfg K) (p : Nat) (V : Nat → Nat → K) : List (Base K) → VPF K → Except Stop (VPF K)
  | [], s => .ok s
  | o :: os, s =>
    match vsdStep c p V o s with
    | .error e => .error e
    | .ok s' => vsdRun c p V os s'

theorem vsdStep_other {c : Cfg K} {p : Nat} {V : Nat → Nat → K} {o : Base K} (ho : o.isAbs = false) (s : VPF K) :
    vsdStep c p V o s = match fovStep c p V o s.f with | .error e => .error e | .ok f' => .ok ⟨f', s.sw, s.swT, s.sg⟩ := by
  cases o <;> first | rfl | (cases ho; done)

theorem vs_id (f : VS K) (a : Nat) : (f.set a (f.T a)).setC a 0 (f.dT a 0) = f := by
  cases f
  simp only [VS.set, VS.setC, upd_self, VS.mk.injEq, true_and, and_true]
  funext i l
  split_ifs with h
  · rw [h.1, h.2]
  · rfl

/-- If no argument is changed, `fov_pl_sig_forward` is this sweep. -/
theorem fovSig_vsd {c : Cfg K} {p : Nat} {V : Nat → Nat → K} {sb : Nat → ℤ} {sd : Option (Nat → ℤ)} (hsb : sb 0 ≠ 0) (ops : List (Base K)) (s : VgF K)
    (sw : List K) (swT : List (List K)) (sg : List ℤ) {t : VPF K} (h : vsdRun c p V ops ⟨s.f, sw, swT, sg⟩ = .ok t) :
    ∃ s', fovSigRun c p V sb sd ops s = .ok s' ∧ t.f = s'.f := by
  induction ops generalizing s sw swT sg with
  | nil => cases h; exact ⟨s, rfl, rfl⟩
  | cons o os ih =>
    simp only [vsdRun] at h
    split at h
    · cases h
    rename_i t1 h1
    have hext : ∀ u d : K, extSign (sb 0) (sd.map fun d => d 0) u d = (u, d) := by
      intro u d
      unfold extSign
      cases sd <;> simp [hsb]
    have : ∃ s1, fovSigStep c p V sb sd o s = .ok s1 ∧ t1.f = s1.f := by
      cases ho : o.isAbs
      · rw [vsdStep_other ho] at h1
        rw [fovSigStep_other ho]
        cases h2 : fovStep c p V o s.f with
        | error e => simp only [h2] at h1; cases h1
        | ok f' => simp only [h2] at h1; cases h1; exact ⟨_, rfl, rfl⟩
      · cases o <;> simp only [Base.isAbs] at ho <;> first | (cases ho; done) | skip
        simp only [vsdStep, Except.ok.injEq] at h1
        subst h1
        refine ⟨_, rfl, ?_⟩
        simp only [hext, vs_id]
    obtain ⟨s1, g1, g2⟩ := this
    obtain ⟨s', g3, g4⟩ := ih s1 t1.sw t1.swT t1.sg (by rw [← g2]; exact h)
    exact ⟨s', by simp only [fovSigRun, g1, g3], g4⟩

theorem vsd_sw_step {c : Cfg K} {p l : Nat} {V : Nat → Nat → K} {dw : Nat → K} (hl : l < p) (o : Base K) {s : VPF K} {f : PlF K}
    (h : PCol l s f) (hlog : logArgNonzero o f.f.T) (hls : s.sg.length = f.swT.length) {s' : VPF K} (hs : vsdStep c p V o s = .ok s')
    (hdw : ∀ (row : List K) (y : ℤ), s'.swT[f.swT.length]? = some row → s'.sg[f.swT.length]? = some y → dw f.swT.length = (y : K) * row[l]?.getD 0) :
    ∃ f', swStep c (fun i => V i l) dw o f = .ok f' ∧ PCol l s' f' ∧ s'.sg.length = f'.swT.length := by
  cases ho : o.isAbs
  · rw [vsdStep_other ho] at hs
    rw [swStep_eq _ _ _ ho]
    have := fov_fos_step c hl o (V := V) h.base hlog
    cases h1 : fovStep c p V o s.f <;> cases h2 : fosStep c (fun i => V i l) o f.f <;> rw [h1, h2] at this <;> simp only [h1] at hs <;> cases hs
    · exact this.elim
    · exact ⟨_, rfl, ⟨this, h.sw, h.swT⟩, hls⟩
  · cases o <;> simp only [Base.isAbs] at ho <;> first | (cases ho; done) | skip
    rename_i a r k
    obtain ⟨h1, h2, h3⟩ := h
    have hT := h1.T
    have hd := h1.dT
    have hlen : s.swT.length = f.swT.length := by rw [← h3]; simp
    simp only [vsdStep, Except.ok.injEq] at hs
    simp only [swStep]
    have hp : Col l s.f (f.f.push c r) := h1.push
    have hpT : (f.f.push c r).T = f.f.T := by unfold FS.push; rfl
    have hpd : (f.f.push c r).dT = f.f.dT := by unfold FS.push; rfl
    have key : ∀ (F : VS K) (G : FS K), Col l F G → F.T = s.f.T → G.T = f.f.T → G.dT = f.f.dT → F.dT = s.f.dT →
        s' = ⟨(F.up p fun l f => f.setC r l (((firstsign (F.T a) ((List.range p).map (F.dT a)) : ℤ) : K) * f.dT a l)).set r
            (fabs ((F.up p fun l f => f.setC r l (((firstsign (F.T a) ((List.range p).map (F.dT a)) : ℤ) : K) * f.dT a l)).T a)),
          s.sw ++ [F.T a], s.swT ++ [(List.range p).map (F.dT a)], s.sg ++ [firstsign (F.T a) ((List.range p).map (F.dT a))]⟩ →
        PCol l s' ⟨(G.setD r (dw f.swT.length)).set r (fabs ((G.setD r (dw f.swT.length)).T a)), f.sw ++ [G.T a], f.swT ++ [G.dT a]⟩ := by
      intro F G hFG e1 e2 e3 e4 e5
      subst e5
      have hd' : dw f.swT.length = ((firstsign (F.T a) ((List.range p).map (F.dT a)) : ℤ) : K) * G.dT a := by
        rw [hdw ((List.range p).map (F.dT a)) (firstsign (F.T a) ((List.range p).map (F.dT a))) (by rw [← hlen]; simp) (by rw [← hls]; simp)]
        simp [hl, hFG.dT]
      have hup : Col l (F.up p fun l f => f.setC r l (((firstsign (F.T a) ((List.range p).map (F.dT a)) : ℤ) : K) * f.dT a l)) (G.setD r (dw f.swT.length)) := by
        refine Col.up1 (e := fun l f => ((firstsign (F.T a) ((List.range p).map (F.dT a)) : ℤ) : K) * f.dT a l) hl hFG ?_
        intro t ht
        rw [ht.dT, hd']
      refine ⟨Col.set hup (by rw [hup.T]), ?_, ?_⟩
      · rw [h2, hFG.T]
      · rw [List.map_append, h3]
        simp [hFG.dT, hl]
    refine ⟨_, rfl, ?_, ?_⟩
    · rw [hT] at hs
      rw [hpT]
      split_ifs at hs ⊢ with q1 q2
      · exact key _ _ (hp.dec rfl) (by simp [VS.dec]) (by simp [FS.dec, hpT]) (by simp [FS.dec, hpd]) (by simp [VS.dec]) (hs.symm.trans (by simp only [VS.dec]))
      · exact key _ _ (hp.dec rfl) (by simp [VS.dec]) (by simp [FS.dec, hpT]) (by simp [FS.dec, hpd]) (by simp [VS.dec]) (hs.symm.trans (by simp only [VS.dec]))
      · exact key _ _ hp rfl hpT hpd rfl (hs.symm.trans (by simp [hT]))
    · rw [← hs]; simp [hls]

theorem vsd_prefix {c : Cfg K} {p : Nat} {V : Nat → Nat → K} {ops : List (Base K)} {s s' : VPF K} (h : vsdRun c p V ops s = .ok s') :
    s.sw <+: s'.sw ∧ s.swT <+: s'.swT ∧ s.sg <+: s'.sg := by
  induction ops generalizing s with
  | nil => cases h; exact ⟨List.prefix_rfl, List.prefix_rfl, List.prefix_rfl⟩
  | cons o os ih =>
    simp only [vsdRun] at h
    split at h
    · cases h
    · rename_i s1 h1
      have : s.sw <+: s1.sw ∧ s.swT <+: s1.swT ∧ s.sg <+: s1.sg := by
        cases ho : o.isAbs
        · rw [vsdStep_other ho] at h1
          split at h1
          · cases h1
          · cases h1; exact ⟨List.prefix_rfl, List.prefix_rfl, List.prefix_rfl⟩
        · cases o <;> simp only [Base.isAbs] at ho <;> first | (cases ho; done) | skip
          simp only [vsdStep, Except.ok.injEq] at h1
          subst h1
          exact ⟨List.prefix_append _ _, List.prefix_append _ _, List.prefix_append _ _⟩
      exact ⟨this.1.trans (ih h).1, this.2.1.trans (ih h).2.1, this.2.2.trans (ih h).2.2⟩

/-- Every column is a tangent sweep with one and the same signature. -/
theorem vsd_sw_run {c : Cfg K} {p l : Nat} {V : Nat → Nat → K} {dw : Nat → K} (hl : l < p) (ops : List (Base K)) {s w : VPF K} {f : PlF K} {z : ZS K}
    (h : PCol l s f) (hz : SameZ f.f z) (hlog : Along logArgNonzero c ops z) (hls : s.sg.length = f.swT.length) (hw : vsdRun c p V ops s = .ok w)
    (hdw : ∀ (k : Nat) (row : List K) (y : ℤ), w.swT[k]? = some row → w.sg[k]? = some y → dw k = (y : K) * row[l]?.getD 0) :
    ∃ f', swRun c (fun i => V i l) dw ops f = .ok f' ∧ PCol l w f' := by
  induction ops generalizing s f z with
  | nil => cases hw; exact ⟨f, rfl, h⟩
  | cons o os ih =>
    obtain ⟨hl1, hl2⟩ := hlog
    rw [← hz.T] at hl1
    simp only [vsdRun] at hw
    split at hw
    · cases hw
    rename_i s1 h1
    have hpre := vsd_prefix hw
    obtain ⟨f1, g1, g2, g3⟩ := vsd_sw_step hl o h hl1 hls h1 (dw := dw) fun row y hr hy => by
      obtain ⟨t, ht⟩ := hpre.2.1
      obtain ⟨u, hu⟩ := hpre.2.2
      refine hdw _ row y ?_ ?_
      · rw [← ht, List.getElem?_append_left (List.getElem?_eq_some_iff.1 hr).1]; exact hr
      · rw [← hu, List.getElem?_append_left (List.getElem?_eq_some_iff.1 hy).1]; exact hy
    obtain ⟨z1, k1, k2⟩ := sw_zos g1 hz
    obtain ⟨f', m1, m2⟩ := ih g2 k2 (hl2 _ k1) g3 hw
    exact ⟨f', by simp only [swRun, g1, m1], m2⟩

/-- The sweep comes to the end. -/
theorem vsd_total {c : Cfg K} {p : Nat} {V : Nat → Nat → K} (hp : 0 < p) {ops : List (Base K)} {s : VPF K} {f : FS K} {z z' : ZS K} (h : Col 0 s.f f)
    (hz : SameZ f z) (hlog : Along logArgNonzero c ops z) (hr : zosRun c ops z = .ok z') : ∃ w, vsdRun c p V ops s = .ok w := by
  induction ops generalizing s f z with
  | nil => exact ⟨s, rfl⟩
  | cons o os ih =>
    obtain ⟨hl1, hl2⟩ := hlog
    rw [← hz.T] at hl1
    simp only [zosRun] at hr
    split at hr
    · cases hr
    rename_i z1 h1
    have : ∃ s1 f1, vsdStep c p V o s = .ok s1 ∧ Col 0 s1.f f1 ∧ SameZ f1 z1 := by
      cases ho : o.isAbs
      · have g := fos_zos_step c (fun i => V i 0) o hz
        have g' := fov_fos_step c hp o (V := V) h hl1
        rw [h1] at g
        cases h3 : fosStep c (fun i => V i 0) o f with
        | error e => rw [h3] at g; exact g.elim
        | ok f1 =>
          rw [h3] at g g'
          cases h4 : fovStep c p V o s.f with
          | error e => rw [h4] at g'; exact g'.elim
          | ok s1 =>
            rw [h4] at g'
            exact ⟨⟨s1, s.sw, s.swT, s.sg⟩, f1, by rw [vsdStep_other ho, h4], g', g⟩
      · cases o <;> simp only [Base.isAbs] at ho <;> first | (cases ho; done) | skip
        rename_i a r k
        have hw : ∃ s1, vsdStep c p V (.absVal a r k) ⟨s.f, [], [], []⟩ = .ok s1 := ⟨_, rfl⟩
        obtain ⟨s1, hs1⟩ := hw
        obtain ⟨f1, g1, g2, _⟩ := vsd_sw_step (l := 0) hp (.absVal a r k) (s := ⟨s.f, [], [], []⟩) (f := ⟨f, [], []⟩) (V := V)
          (dw := fun _ => ((s1.sg[0]?.getD 0 : ℤ) : K) * (s1.swT[0]?.getD [])[0]?.getD 0) ⟨h, rfl, rfl⟩ hl1 rfl hs1
          (fun row y hr hy => by
            have hr' : s1.swT[0]? = some row := hr
            have hy' : s1.sg[0]? = some y := hy
            simp only [hr', hy', Option.getD_some])
        obtain ⟨z2, k1, k2⟩ := sw_zos g1 hz
        have : Except.ok z2 = Except.ok z1 := k1.symm.trans h1
        cases this
        cases hs1
        exact ⟨_, f1.f, rfl, g2.base, k2⟩
    obtain ⟨s1, f1, g1, g2, g3⟩ := this
    obtain ⟨w, hw⟩ := ih g2 g3 (hl2 _ h1) hr
    exact ⟨w, by simp only [vsdRun, g1, hw]⟩

/-- The signs are those of the values and tangents. -/
theorem vsd_sig {c : Cfg K} {p : Nat} {V : Nat → Nat → K} {ops : List (Base K)} {s s' : VPF K} (h : SigOk s) (hr : ∀ row ∈ s.swT, row.length = p)
    (hs : vsdRun c p V ops s = .ok s') : SigOk s' ∧ ∀ row ∈ s'.swT, row.length = p := by
  induction ops generalizing s with
  | nil => cases hs; exact ⟨h, hr⟩
  | cons o os ih =>
    simp only [vsdRun] at hs
    split at hs
    · cases hs
    · rename_i s1 h1
      have : SigOk s1 ∧ ∀ row ∈ s1.swT, row.length = p := by
        cases ho : o.isAbs
        · rw [vsdStep_other ho] at h1
          split at h1
          · cases h1
          · cases h1; exact ⟨h, hr⟩
        · cases o <;> simp only [Base.isAbs] at ho <;> first | (cases ho; done) | skip
          simp only [vsdStep, Except.ok.injEq] at h1
          subst h1
          refine ⟨⟨by simp [h.1], ?_⟩, ?_⟩
          · simp only
            rw [List.zipWith_append h.1.symm, h.2]; rfl
          · intro row hrow
            simp only [List.mem_append, List.mem_singleton] at hrow
            rcases hrow with hrow | hrow
            · exact hr row hrow
            · rw [hrow]; simp
      exact ih this.1 this.2 hs

theorem vsd_abs {c : Cfg K} {p : Nat} {V : Nat → Nat → K} {a r : Nat} {k : K} {s s' : VPF K} (h : vsdStep c p V (.absVal a r k) s = .ok s') :
    s'.sw = s.sw ++ [s.f.T a] ∧ s'.swT = s.swT ++ [(List.range p).map (s.f.dT a)] ∧
    s'.sg = s.sg ++ [firstsign (s.f.T a) ((List.range p).map (s.f.dT a))] := by
  simp only [vsdStep, Except.ok.injEq] at h
  subst h
  simp only [VS.dec]
  split_ifs <;> exact ⟨rfl, rfl, rfl⟩

theorem firstsign_far {u : K} {l l' : List K} (h : tiny < u ∨ u < -tiny) : firstsign u l = firstsign u l' := by
  unfold firstsign
  rcases h with h | h
  · rw [if_pos h, if_pos h]
  · by_cases h2 : tiny < u
    · rw [if_pos h2, if_pos h2]
    · rw [if_neg h2, if_neg h2, if_pos h, if_pos h]

/-- The first column, and every column if no switching variable is within the tolerance, is a sweep for one direction. -/
theorem vsd_sd_run {c : Cfg K} {p l : Nat} {V : Nat → Nat → K} (hl : l < p) (ops : List (Base K)) {s w : VPF K} {f : PlF K} {z : ZS K}
    (h : PCol l s f) (hz : SameZ f.f z) (hlog : Along logArgNonzero c ops z) (hls : s.sg.length = f.swT.length) (hw : vsdRun c p V ops s = .ok w)
    (hfar : l = 0 ∨ ∀ u ∈ w.sw, tiny < u ∨ u < -tiny) :
    ∃ f', sdRun c (fun i => V i l) ops f = .ok f' ∧ PCol l w f' := by
  induction ops generalizing s f z with
  | nil => cases hw; exact ⟨f, rfl, h⟩
  | cons o os ih =>
    obtain ⟨hl1, hl2⟩ := hlog
    rw [← hz.T] at hl1
    simp only [vsdRun] at hw
    split at hw
    · cases hw
    rename_i s1 h1
    have hpre := vsd_prefix hw
    have : ∃ f1, sdStep c (fun i => V i l) o f = .ok f1 ∧ PCol l s1 f1 ∧ s1.sg.length = f1.swT.length ∧ ∃ z1, zosStep c o z = .ok z1 ∧ SameZ f1.f z1 := by
      cases ho : o.isAbs
      · obtain ⟨f1, g1, g2, g3⟩ := vsd_sw_step hl o h hl1 hls h1 (dw := fun k => ((s1.sg[k]?.getD 0 : ℤ) : K) * (s1.swT[k]?.getD [])[l]?.getD 0)
          (fun row y hr hy => by simp only [hr, hy, Option.getD_some])
        refine ⟨f1, ?_, g2, g3, sw_zos g1 hz⟩
        rw [swStep_eq _ _ _ ho] at g1
        rw [sdStep_other ho]
        exact g1
      · cases o <;> simp only [Base.isAbs] at ho <;> first | (cases ho; done) | skip
        rename_i a r k
        obtain ⟨e1, e2, e3⟩ := vsd_abs h1
        have hlen : s.swT.length = f.swT.length := by rw [← h.swT]; simp
        obtain ⟨f1, g1, g2, g3⟩ := vsd_sw_step hl (.absVal a r k) h hl1 hls h1 (dw := fun _ => ((firstsign (f.f.T a) [f.f.dT a] : ℤ) : K) * f.f.dT a)
          (fun row y hr hy => by
            have hr' : (List.range p).map (s.f.dT a) = row := by
              rw [e2, ← hlen] at hr; simpa using hr
            have hy' : firstsign (s.f.T a) ((List.range p).map (s.f.dT a)) = y := by
              rw [e3, ← hls] at hy; simpa using hy
            have hrl : row[l]?.getD 0 = f.f.dT a := by rw [← hr']; simp [hl, h.base.dT]
            rw [hrl, ← hy', h.base.T]
            rcases hfar with h0 | hf
            · subst h0
              obtain ⟨p', rfl⟩ : ∃ p', p = p' + 1 := ⟨p - 1, by omega⟩
              rw [List.range_succ_eq_map, List.map_cons, h.base.dT a]
              exact (firstsign_head _ _ _).symm
            · obtain ⟨t, ht⟩ := hpre.1
              have hm : s.f.T a ∈ w.sw := by rw [← ht, e1]; simp
              rw [firstsign_far (l' := (List.range p).map (s.f.dT a)) (by rw [← h.base.T]; exact hf _ hm)])
        exact ⟨f1, g1, g2, g3, sw_zos g1 hz⟩
    obtain ⟨f1, g1, g2, g3, z1, k1, k2⟩ := this
    obtain ⟨f', m1, m2⟩ := ih g2 k2 (hl2 _ k1) g3 hw
    exact ⟨f', by simp only [sdRun, g1, m1], m2⟩

end Verif.AD
