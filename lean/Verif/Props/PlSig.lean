import Verif.AD.PlSigMain
import Verif.Props.SparseANF
/-!
# C65: signed sweeps and the directional active gradient

Reading guide: `fovPlRun c p V ops VPF.init` is `fov_pl_forward` with the `p` directions `fun i => V i l`,
`fosSigRun c v sb sd ops (SgF.init ..)` is `fos_pl_sig_forward` (`sb`: `sigbase`, `sd`: `sigdir` or null),
`plSigRevRun` is `fos_pl_sig_reverse`, `dirActiveGrad ops par mm n x d` is `directional_active_gradient`.  `outFn` and `argFn`
are the outputs of the traced program and the arguments of its calls of `fabs` as functions of `x` and the results of
`fabs` (C47, C64); `F` are its outputs as functions of `x`.
-/
set_option linter.all false
noncomputable section
namespace Verif.Props.PlSig
open Verif.AD Elem Filter Topology Verif.Sparse Verif.Props.AD Verif.Props.Drivers Verif.Drivers Verif.Props.AbsNormal Verif.Props.SparseANF

variable {cfg : RCfg ℝ} {stock : List (Nat × List ℝ)} {s s' : Rec ℝ} {p : Prog ℝ} {N : Nat}

/-- `incZ`, `incY` are the increments of the switching variables and of the outputs of the piecewise linear model at `x0` in
direction `v`: the switching function is replaced by its linearisation, and `|z|` is kept. -/
structure IsPL (p : Prog ℝ) (s : Rec ℝ) (par : ℕ → ℝ) {n : ℕ} (q : ℕ) (x0 v : Fin n → ℝ) (incZ incY : ℕ → ℝ) : Prop where
  dz : ∀ k < q, incZ k = fderiv ℝ (argFn p s par n q k) (x0, absZ p s par q x0)
    (v, fun l => |(p.switches (ext x0) par s.se)[(l : ℕ)]?.getD 0 + incZ l| - |(p.switches (ext x0) par s.se)[(l : ℕ)]?.getD 0|)
  dy : ∀ j, incY j = fderiv ℝ (outFn p s par n q j) (x0, absZ p s par q x0)
    (v, fun l => |(p.switches (ext x0) par s.se)[(l : ℕ)]?.getD 0 + incZ l| - |(p.switches (ext x0) par s.se)[(l : ℕ)]?.getD 0|)

theorem fosPl_isPL (h : Traced cfg stock s p s' N) (par : Nat → ℝ) (x0 : Fin (numInd (s'.tape N)) → ℝ) {e0 : SE ℝ}
    (hpath : p.spec (ext x0) par s.se = some (e0, p.path cfg s)) (hsm : p.smoothAN (ext x0) par s.se) (keep : Bool)
    (v : Fin (numInd (s'.tape N)) → ℝ) :
    ∃ f, fosPlRun ⟨ext x0, par, keep⟩ (ext v) (s'.tape N) ⟨FS.init, [], []⟩ = .ok f ∧
      f.sw = p.switches (ext x0) par s.se ∧ f.swT.length = numSw (s'.tape N) ∧ f.f.y = e0.ys ∧
      IsPL p s par (numSw (s'.tape N)) x0 v (fun k => f.swT[k]?.getD 0) (fun j => f.f.dy[j]?.getD 0) := by
  obtain ⟨hq, hn, hm⟩ := counts h par x0 hpath hsm
  obtain ⟨z, D, Dz, h1, h2, h3, h4, h5, h6, h7, h8⟩ := recorded_sw_derivative h.alloc p h.start h.recorded (fun _ => 0) par x0 hpath hsm N keep _ hq
    (absZ p s par _ x0) (fun _ => rfl)
  have hz := zosPl_zos h1
  obtain ⟨f, hf⟩ := fosPl_total (v := ext v) (s := ⟨FS.init, [], []⟩) hz ⟨rfl, rfl, rfl, rfl, le_refl _⟩
  have hsw0 := fosPl_sw (dw := fun k => fabs (f.sw[k]?.getD 0 + f.swT[k]?.getD 0) - fabs (f.sw[k]?.getD 0)) hf rfl
    (fun k z dz h1 h2 => by simp only [h1, h2, Option.getD_some])
  have hlq : f.swT.length = numSw (s'.tape N) := by rw [(sw_counts hsw0).2.2]; simp
  obtain ⟨m1, m2⟩ := sw_zosPl_run hsw0 h1 ⟨rfl, rfl, rfl, rfl, le_refl _⟩ rfl
  have hsw : swRun ⟨ext x0, par, keep⟩ (ext v) (ext fun l : Fin (numSw (s'.tape N)) => |f.sw[(l : Nat)]?.getD 0 + f.swT[(l : Nat)]?.getD 0| - |f.sw[(l : Nat)]?.getD 0|)
      (s'.tape N) ⟨FS.init, [], []⟩ = .ok f := by
    refine fosPl_sw hf rfl fun k z dz h1 h2 => ?_
    have hk : k < numSw (s'.tape N) := by rw [← hlq]; exact (List.getElem?_eq_some_iff.1 h2).1
    simp only [ext, hk, dif_pos, h1, h2, Option.getD_some]
    rfl
  obtain ⟨f', k1, k2, k3, k4, k5, k6, k7⟩ := h8 (v, fun l : Fin (numSw (s'.tape N)) => |f.sw[(l : Nat)]?.getD 0 + f.swT[(l : Nat)]?.getD 0| - |f.sw[(l : Nat)]?.getD 0|)
  have k1' : Except.ok f = Except.ok f' := hsw.symm.trans k1
  cases k1'
  refine ⟨f, hf, by rw [m2, h2], hlq, by rw [m1.y, h3], ⟨fun k hk => ?_, fun j => ?_⟩⟩
  · rw [show fderiv ℝ (argFn p s par _ _ k) (x0, absZ p s par _ x0) = Dz k from (h6 k).fderiv, k7, m2, h2]
  · rw [show fderiv ℝ (outFn p s par _ _ j) (x0, absZ p s par _ x0) = D j from (h5 j).fderiv, k6, m2, h2]

theorem along_log_AN (h : Traced cfg stock s p s' N) (par : Nat → ℝ) {x : Nat → ℝ} {e0 : SE ℝ}
    (hpath : p.spec x par s.se = some (e0, p.path cfg s)) (hsm : p.smoothAN x par s.se) :
    Along logArgNonzero ⟨x, par, false⟩ (s'.tape N) (ZS.start fun _ => 0) := by
  refine Along_mono (fun o T h => ?_) (recorded_smoothB h.alloc p h.start h.recorded (fun _ => 0) ⟨x, par, false⟩ hpath hsm N)
  rcases h with h | h
  · cases o <;> simp [Base.isAbs] at h <;> trivial
  · have h := h.1
    cases o <;> simp only [logArgNonzero]
    exact ne_of_gt h

/-- **C65**: `fov_pl_forward` returns the values of the outputs and of the switching variables, for every direction the
increments of the piecewise linear model, and as signature the sign of `z_k` or, if it is zero (to the tolerance), the sign
of the first of its increments that is not zero. -/
theorem C65_fov_pl_forward (h : Traced cfg stock s p s' N) (par : Nat → ℝ) (x0 : Fin (numInd (s'.tape N)) → ℝ) {e0 : SE ℝ}
    (hpath : p.spec (ext x0) par s.se = some (e0, p.path cfg s)) (hsm : p.smoothAN (ext x0) par s.se) (d : ℕ) (hd : 0 < d)
    (V : Fin d → Fin (numInd (s'.tape N)) → ℝ) :
    ∃ w, fovPlRun ⟨ext x0, par, false⟩ d (fun i l => if hl : l < d then ext (V ⟨l, hl⟩) i else 0) (s'.tape N) VPF.init = .ok w ∧
      w.f.y = e0.ys ∧ w.sw = p.switches (ext x0) par s.se ∧
      (∀ l : Fin d, IsPL p s par (numSw (s'.tape N)) x0 (V l) (fun k => (w.swT[k]?.getD [])[(l : ℕ)]?.getD 0)
        (fun j => (w.f.dy[j]?.getD [])[(l : ℕ)]?.getD 0)) ∧
      w.sg.length = numSw (s'.tape N) ∧
      ∀ k < numSw (s'.tape N), (w.swT[k]?.getD []).length = d ∧
        w.sg[k]?.getD 0 = firstsign ((p.switches (ext x0) par s.se)[k]?.getD 0) (w.swT[k]?.getD []) := by
  obtain ⟨hq, hn, hm⟩ := counts h par x0 hpath hsm
  have hlog := along_log_AN h par hpath hsm
  have key : ∀ l : Fin d, ∃ f, ExRel (PCol (l : ℕ)) (fovPlRun ⟨ext x0, par, false⟩ d (fun i l => if hl : l < d then ext (V ⟨l, hl⟩) i else 0) (s'.tape N) VPF.init)
      (.ok f) ∧ f.sw = p.switches (ext x0) par s.se ∧ f.f.y = e0.ys ∧
      IsPL p s par (numSw (s'.tape N)) x0 (V l) (fun k => f.swT[k]?.getD 0) (fun j => f.f.dy[j]?.getD 0) := by
    intro l
    obtain ⟨f, f1, f2, f3, f4, f5⟩ := fosPl_isPL h par x0 hpath hsm false (V l)
    have := fovPl_fosPl_run (c := ⟨ext x0, par, false⟩) (V := fun i l => if hl : l < d then ext (V ⟨l, hl⟩) i else 0) l.2 (s'.tape N) (s := VPF.init)
      (f := ⟨FS.init, [], []⟩) (z := ZS.start fun _ => 0)
      ⟨⟨rfl, fun _ => rfl, rfl, rfl, rfl, le_refl _⟩, rfl, rfl⟩ ⟨rfl, rfl, rfl, rfl, le_refl _⟩ hlog
    have e : (fun i => if hl : (l : ℕ) < d then ext (V ⟨l, hl⟩) i else 0) = ext (V l) := by
      funext i; rw [dif_pos l.2]
    rw [show (fun i => (fun i (l : ℕ) => if hl : l < d then ext (V ⟨l, hl⟩) i else 0) i (l : ℕ)) = ext (V l) from e, f1] at this
    exact ⟨f, this, f2, f4, f5⟩
  obtain ⟨f, k1, k2, k3, k4⟩ := key ⟨0, hd⟩
  cases hw : fovPlRun ⟨ext x0, par, false⟩ d (fun i l => if hl : l < d then ext (V ⟨l, hl⟩) i else 0) (s'.tape N) VPF.init with
  | error e => rw [hw] at k1; exact k1.elim
  | ok w =>
    rw [hw] at k1
    obtain ⟨s1, s2⟩ := sigOk_run (s := VPF.init) ⟨rfl, rfl⟩ hw
    have hsw : w.sw = p.switches (ext x0) par s.se := k1.sw.trans k2
    have hrows : ∀ row ∈ w.swT, row.length = d := swT_rows (s := VPF.init) (by simp [VPF.init]) hw
    have hlen : w.swT.length = numSw (s'.tape N) := by rw [s1, hsw, hq]
    refine ⟨w, rfl, k1.base.y.trans k3, hsw, fun l => ?_, by rw [s2, List.length_zipWith, s1, hsw, hq, min_self], fun k hk => ⟨?_, ?_⟩⟩
    · obtain ⟨f, k1, k2, k3, k4⟩ := key l
      rw [hw] at k1
      have e1 : (fun k : ℕ => (w.swT[k]?.getD [])[(l : ℕ)]?.getD 0) = fun k => f.swT[k]?.getD 0 := by
        funext k
        rw [← k1.swT, List.getElem?_map]
        cases w.swT[k]? <;> simp
      have e2 : (fun k : ℕ => (w.f.dy[k]?.getD [])[(l : ℕ)]?.getD 0) = fun k => f.f.dy[k]?.getD 0 := by
        funext k
        rw [← k1.base.dy, List.getElem?_map]
        cases w.f.dy[k]? <;> simp
      rw [e1, e2]
      exact k4
    · have hk2 : k < w.swT.length := by rw [hlen]; exact hk
      rw [List.getElem?_eq_getElem hk2]
      exact hrows _ (List.getElem_mem hk2)
    · have hk2 : k < w.swT.length := by rw [hlen]; exact hk
      have hk1 : k < w.sw.length := by rw [← s1]; exact hk2
      rw [s2, List.getElem?_zipWith, ← hsw, List.getElem?_eq_getElem hk2, List.getElem?_eq_getElem hk1]
      rfl

/-- **C65**, `fos_pl_sig_forward` (the case that `sigbase[0]` is not zero, and that no switching variable is within the
tolerance without being zero): the results are the values and the one-sided directional derivatives of the traced function,
also at kinks. -/
theorem C65_sig_forward_partial (h : Traced cfg stock s p s' N) (par : Nat → ℝ) {n : ℕ} (x0 v : Fin n → ℝ) {e0 : SE ℝ}
    (hpath : p.spec (ext x0) par s.se = some (e0, p.path cfg s)) (hsm : p.smoothAN (ext x0) par s.se)
    (htol : ∀ z ∈ p.switches (ext x0) par s.se, z = 0 ∨ 1 / 10 ^ 12 < |z|)
    (sb : ℕ → ℤ) (hsb : sb 0 ≠ 0) (sd : Option (ℕ → ℤ)) (z d : ℕ → ℝ) (g : ℕ → ℤ) :
    ∃ S, fosSigRun ⟨ext x0, par, false⟩ (ext v) sb sd (s'.tape N) (SgF.init z d g) = .ok S ∧ S.f.y = e0.ys ∧
      S.f.dy.length = e0.ys.length ∧
      ∀ j, HasDerivWithinAt (fun t : ℝ => F p s par n j (x0 + t • v)) (S.f.dy[j]?.getD 0) (Set.Ici 0) 0 := by
  obtain ⟨t, t1, t2, t3, t4, t5, t6⟩ := recorded_oneSided h.alloc p h.start h.recorded (fun _ => 0) par x0 v hpath hsm N false htol
  rcases sig_sd (v := ext v) (c := ⟨ext x0, par, false⟩) rfl (sb := sb) (sd := sd) hsb (s'.tape N) (SgF.init z d g) [] [] with ⟨e, g1, g2⟩ | ⟨S, t', g1, g2, g3⟩
  · have : Except.error e = Except.ok t := g2.symm.trans t1
    cases this
  · have : Except.ok t' = Except.ok t := g2.symm.trans t1
    cases this
    rw [g3] at t3 t4 t6
    exact ⟨S, g1, t3, t4, t6⟩

/-- **C65**: `fos_pl_sig_forward` writes only the first elements of `swargs`, `swtaylors` and `sigsw`, however many
switching variables there are (line 3990 tests `_ABS_NORN_SIG_`). -/
theorem C65_sig_arrays {K : Type} [Scalar K] (c : Cfg K) (v : ℕ → K) (sb : ℕ → ℤ) (sd : Option (ℕ → ℤ)) (ops : List (Base K))
    (s S : SgF K) (h : fosSigRun c v sb sd ops s = .ok S) (k : ℕ) (hk : 1 ≤ k) : S.sw k = s.sw k ∧ S.swT k = s.swT k ∧ S.sg k = s.sg k := by
  induction ops generalizing s with
  | nil => cases h; exact ⟨rfl, rfl, rfl⟩
  | cons o os ih =>
    simp only [fosSigRun] at h
    split at h
    · cases h
    · rename_i s1 h1
      obtain ⟨i1, i2, i3⟩ := ih s1 h
      have : s1.sw k = s.sw k ∧ s1.swT k = s.swT k ∧ s1.sg k = s.sg k := by
        cases ho : o.isAbs
        · rw [fosSigStep_other ho] at h1
          split at h1
          · cases h1
          · cases h1; exact ⟨rfl, rfl, rfl⟩
        · cases o <;> simp only [Base.isAbs] at ho <;> first | (cases ho; done) | skip
          simp only [fosSigStep, Except.ok.injEq] at h1
          subst h1
          exact ⟨upd_ne _ _ (by omega), upd_ne _ _ (by omega), upd_ne _ _ (by omega)⟩
      exact ⟨i1.trans this.1, i2.trans this.2.1, i3.trans this.2.2⟩

/-- `sigbase[0]` is used for every switching variable: for `y = fabs(x1)` after `fabs(x0)`, at `x = (0, 2)` with the
signature `(0, 1)` of this point, `valuepoint[0]` is 0, not 2. -/
theorem C65_sig_spoiled : ∃ S, fosSigRun ⟨fun i => if i = 1 then (2 : ℝ) else 0, fun _ => 0, false⟩ (fun _ => 1) (fun k => if k = 0 then 0 else 1) none
    [.assignInd 0, .assignInd 1, .absVal 0 2 1, .absVal 1 3 1, .assignDep 3] (SgF.init (fun _ => 0) (fun _ => 0) (fun _ => 0)) = .ok S ∧
    S.f.y = [0] := by
  refine ⟨_, rfl, ?_⟩
  have h2 : ¬ (2 : ℝ) < 0 := by norm_num
  simp [SgF.init, FS.push, FS.set, FS.setD, FS.dec, extSign, upd_apply, FS.init, fabs, h2]

/-- **C65**: `fos_pl_sig_reverse` delivers, whatever signature it is given, the derivative of the weighted outputs with respect
to `x` with the results of `fabs` held constant. -/
theorem C65_sig_reverse (h : Traced cfg stock s p s' N) (hd : p.disc ⟨Set.univ, ∅⟩) (par : Nat → ℝ)
    (x0 : Fin (numInd (s'.tape N)) → ℝ) {e0 : SE ℝ} (hpath : p.spec (ext x0) par s.se = some (e0, p.path cfg s))
    (hsm : p.smoothAN (ext x0) par s.se) :
    ∃ z : PlZ ℝ, zosPlRun ⟨ext x0, par, true⟩ (s'.tape N) ⟨ZS.init, []⟩ = .ok z ∧ z.z.y = e0.ys ∧
      ∀ u sg : ℕ → ℝ, ∃ r, plSigRevRun u sg (s'.tape N)
        (RS.init (numInd (s'.tape N)) (numDep (s'.tape N)) z.z.stk, numSw (s'.tape N)) = .ok r ∧
        ∀ i < numInd (s'.tape N), r.1.bar i = ∑ j ∈ Finset.range (numDep (s'.tape N)), u j *
          fderiv ℝ (outFn p s par (numInd (s'.tape N)) (numSw (s'.tape N)) j) (x0, absZ p s par _ x0) (ex _ _ i) := by
  obtain ⟨z, z1, z2, z3, z4, z5, z6, _⟩ := rows_any h hd par x0 hpath hsm
  refine ⟨z, z1, z3, fun u sg => ?_⟩
  obtain ⟨r, r1, r2⟩ := z6 u (fun _ => 0)
  have := sigRev_run u sg (s'.tape N) ⟨RS.init (numInd (s'.tape N)) (numDep (s'.tape N)) z.z.stk, numSw (s'.tape N), fun _ => 0⟩
  rw [r1] at this
  refine ⟨_, this, fun i hi => ?_⟩
  have e := r2 (unit _ _ i)
  rw [rowMap_unit (by omega), if_pos hi] at e
  show r.r.bar i = _
  rw [e]
  simp only [zero_mul, Finset.sum_const_zero, add_zero, unit_x hi]

/-! ### The driver -/

theorem dag_ret {K : Type} [Scalar K] {ops : List (Base K)} {par : ℕ → K} {n q : ℕ} {x : ℕ → K} {md : ℕ} {g : ℕ → K} {sig : List ℤ} {fuel k j : ℕ} {E : ℕ → ℕ → K}
    (hk : 1 ≤ k) (h : dagLoop ops par n q x md fuel k j E = .ret g sig)
    (hE : ∀ l, 1 ≤ l → l < k → ∃ j < n, ∀ i, E i l = if i = j then 1 else 0) (hE0 : ∀ i l, k ≤ l → E i l = 0) :
    ∃ k' E' w f r, 1 ≤ k' ∧ (∀ i, E' i 0 = E i 0) ∧ (∀ i l, k' ≤ l → E' i l = 0) ∧ (∀ l, 1 ≤ l → l < k' → ∃ j < n, ∀ i, E' i l = if i = j then 1 else 0) ∧
      fovPlRun ⟨x, par, false⟩ k' E' ops VPF.init = .ok w ∧ ((w.sg.map Int.natAbs).sum) = q ∧ sig = w.sg ∧
      zosPlRun ⟨x, par, true⟩ ops ⟨ZS.init, []⟩ = .ok f ∧
      plSigRevRun (fun _ => 1) (fun i => ((w.sg[i]?.getD 0 : ℤ) : K)) ops (RS.init n 1 f.z.stk, q) = .ok r ∧ g = r.1.bar := by
  induction fuel generalizing k j E with
  | zero => cases h
  | succ fuel ih =>
    simp only [dagLoop] at h
    split at h
    · cases h
    rename_i w hw
    split at h
    · rename_i hsum
      split at h
      · cases h
      rename_i f hf
      split at h
      · cases h
      rename_i r hr
      cases h
      exact ⟨k, E, w, f, r, hk, fun i => rfl, hE0, hE, hw, hsum, rfl, hf, hr, rfl⟩
    · generalize (if j = md then j + 1 else j) = j2 at h
      by_cases hjk : n ≤ j2 ∨ n ≤ k
      · rw [if_pos hjk] at h; cases h
      rw [if_neg hjk] at h
      push Not at hjk
      obtain ⟨k', E', w', f', r', a1, a2, a3⟩ := ih (by omega) h (fun l h1 h2 => by
        by_cases hl : l = k
        · refine ⟨_, hjk.1, fun i => ?_⟩
          subst hl
          simp only [and_true]
          split_ifs
          · rfl
          · exact hE0 i l (le_refl _)
        · obtain ⟨j', j1, j2⟩ := hE l h1 (by omega)
          refine ⟨j', j1, fun i => ?_⟩
          simp only [hl, and_false, if_false]
          exact j2 i) (fun i l hl => by
          simp only [show l ≠ k by omega, and_false, if_false]
          exact hE0 i l (by omega))
      refine ⟨k', E', w', f', r', a1, fun i => ?_, a3⟩
      rw [a2 i]
      simp [show (0 : ℕ) ≠ k by omega]

/-- **C65**: what `directional_active_gradient` returns.  `sigma_g` is a signature without zeros: the sign of each switching
variable or else of the first nonzero increment of the piecewise linear model in the direction `d` and further
unit vectors.  `g` is the derivative of the output with respect to `x` with the results of `fabs` held constant (it does
not depend on `sigma_g`). -/
theorem C65_active_gradient (h : Traced cfg stock s p s' N) (hd : p.disc ⟨Set.univ, ∅⟩) (par : Nat → ℝ) (mm : Bool) (n : ℕ)
    (x0 : Fin (numInd (s'.tape N)) → ℝ) {e0 : SE ℝ} (hpath : p.spec (ext x0) par s.se = some (e0, p.path cfg s))
    (hsm : p.smoothAN (ext x0) par s.se) (d : Fin (numInd (s'.tape N)) → ℝ) (g : ℕ → ℝ) (sigma : List ℤ)
    (hret : dirActiveGrad (s'.tape N) par mm n (ext x0) (ext d) = .ret g sigma) :
    n = numInd (s'.tape N) ∧ e0.ys.length = 1 ∧ mm = true ∧
    (sigma.length = numSw (s'.tape N) ∧ (∀ b ∈ sigma, b = 1 ∨ b = -1) ∧
      ∃ (k : ℕ) (hk : 0 < k) (V : Fin k → Fin (numInd (s'.tape N)) → ℝ) (inc : ℕ → List ℝ),
        V ⟨0, hk⟩ = d ∧ (∀ l : Fin k, (l : ℕ) ≠ 0 → ∃ i, V l = Pi.single i 1) ∧
        (∀ l : Fin k, ∃ dy, IsPL p s par (numSw (s'.tape N)) x0 (V l) (fun i => (inc i)[(l : ℕ)]?.getD 0) dy) ∧
        ∀ i < numSw (s'.tape N), (inc i).length = k ∧
          sigma[i]?.getD 0 = firstsign ((p.switches (ext x0) par s.se)[i]?.getD 0) (inc i)) ∧
    ∀ i < n, g i = fderiv ℝ (outFn p s par (numInd (s'.tape N)) (numSw (s'.tape N)) 0) (x0, absZ p s par _ x0) (ex _ _ i) := by
  obtain ⟨hq, hni, hm⟩ := counts h par x0 hpath hsm
  unfold dirActiveGrad at hret
  split at hret
  · cases hret
  rename_i hc
  push Not at hc
  obtain ⟨c1, c2, c3⟩ := hc
  subst c1
  obtain ⟨k, E, w, f, r, a1, a2, a0, a3, a4, a5, a6, a7, a8, a9⟩ := dag_ret (by omega) hret (fun l h1 h2 => by omega) (fun i l hl => by simp; omega)
  let V : Fin k → Fin (numInd (s'.tape N)) → ℝ := fun l i => E i l
  have hV : fovPlRun ⟨ext x0, par, false⟩ k (fun i l => if hl : l < k then ext (V ⟨l, hl⟩) i else 0) (s'.tape N) VPF.init = .ok w := by
    rw [← a4]
    congr 1
    funext i l
    by_cases hl : l < k
    · rw [dif_pos hl]
      simp only [ext, V]
      split_ifs with hi
      · rfl
      · by_cases h0 : l = 0
        · subst h0
          rw [a2]
          simp [ext, hi]
        · obtain ⟨j, j1, j2⟩ := a3 l (by omega) hl
          rw [j2, if_neg (by omega)]
    · rw [dif_neg hl, a0 i l (by omega)]
  obtain ⟨w', w1, w2, w3, w4, w5, w6⟩ := C65_fov_pl_forward h par x0 hpath hsm k a1 V
  rw [hV] at w1
  cases w1
  refine ⟨rfl, by rw [hm, ← c2], c3, ⟨by rw [a6, w5], ?_, k, a1, V, fun i => w.swT[i]?.getD [], ?_, ?_, fun l => ⟨_, w4 l⟩, fun i hi => ?_⟩, ?_⟩
  · rw [a6]
    exact sum_abs_full (by rw [a5, w5]) (sg_range hV)
  · funext i
    show E i 0 = d i
    rw [a2]
    simp [ext]
  · intro l hl
    obtain ⟨j, j1, j2⟩ := a3 l (by omega) l.2
    refine ⟨⟨j, j1⟩, ?_⟩
    funext i
    show E i l = _
    rw [j2, Pi.single_apply]
    simp only [Fin.ext_iff]
  · rw [a6]; exact w6 i hi
  · obtain ⟨z, z1, z2, z3⟩ := C65_sig_reverse h hd par x0 hpath hsm
    obtain ⟨r', r1, r2⟩ := z3 (fun _ => 1) (fun i => ((w.sg[i]?.getD 0 : ℤ) : ℝ))
    rw [z1] at a7
    cases a7
    rw [← c2, a8] at r1
    cases r1
    intro i hi
    rw [a9, r2 i hi, ← c2]
    simp

/-- **C65** (the case of a function without `fabs`, `fmin`, `fmax` on its path; with one the gradient is wrong,
`C65_gradient_lost`): the driver returns, with the empty signature, and `g` is the gradient. -/
theorem C65_smooth_partial (h : Traced cfg stock s p s' N) (hd : p.disc ⟨Set.univ, ∅⟩) (par : Nat → ℝ)
    (x0 : Fin (numInd (s'.tape N)) → ℝ) {e0 : SE ℝ} (hpath : p.spec (ext x0) par s.se = some (e0, p.path cfg s))
    (hsm : p.smoothAN (ext x0) par s.se) (hns : p.switches (ext x0) par s.se = []) (hm1 : e0.ys.length = 1)
    (d : Fin (numInd (s'.tape N)) → ℝ) :
    ∃ g, dirActiveGrad (s'.tape N) par true (numInd (s'.tape N)) (ext x0) (ext d) = .ret g [] ∧
      DifferentiableAt ℝ (F p s par (numInd (s'.tape N)) 0) x0 ∧
      ∀ i : Fin (numInd (s'.tape N)), g i = fderiv ℝ (F p s par (numInd (s'.tape N)) 0) x0 (Pi.single i 1) := by
  obtain ⟨hq, hn, hm⟩ := counts h par x0 hpath hsm
  rw [hns] at hq
  have hq0 : numSw (s'.tape N) = 0 := hq.symm
  -- the call returns
  have hret : ∃ g, dirActiveGrad (s'.tape N) par true (numInd (s'.tape N)) (ext x0) (ext d) = .ret g [] := by
    obtain ⟨w, w1, w2, w3, w4, w5, w6⟩ := C65_fov_pl_forward h par x0 hpath hsm 1 (by omega) (fun _ => d)
    have hE : (fun (i l : ℕ) => if hl : l < 1 then ext ((fun _ : Fin 1 => d) ⟨l, hl⟩) i else 0) = fun i l => if l = 0 then ext d i else 0 := by
      funext i l
      by_cases hl : l = 0
      · subst hl; simp
      · rw [dif_neg (by omega), if_neg hl]
    rw [hE] at w1
    rw [hq0] at w5
    have hsg : w.sg = [] := List.length_eq_zero_iff.1 w5
    obtain ⟨z, z1, z2, z3⟩ := C65_sig_reverse h hd par x0 hpath hsm
    obtain ⟨r, r1, r2⟩ := z3 (fun _ => 1) (fun i => (((([] : List ℤ))[i]?.getD 0 : ℤ) : ℝ))
    refine ⟨r.1.bar, ?_⟩
    unfold dirActiveGrad
    rw [if_neg (by simp [← hm, hm1])]
    simp only [dagLoop, w1, hsg, List.map_nil, List.sum_nil, hq0, if_true, z1]
    rw [hq0, ← hm, hm1] at r1
    rw [r1]
  obtain ⟨g, hg⟩ := hret
  obtain ⟨_, _, _, _, hgrad⟩ := C65_active_gradient h hd par true _ x0 hpath hsm d g [] hg
  -- the switching function is the function
  obtain ⟨z, D, Dz, h1, h2, h3, h4, h5, h6, h7, h8, h9⟩ := recorded_sw_derivative_ev h.alloc p h.start h.recorded (fun _ => 0) par x0 hpath hsm N false (numSw (s'.tape N)) (by rw [hns]; exact hq)
    (absZ p s par _ x0) (fun _ => rfl)
  have hpair : HasFDerivAt (fun x : Fin (numInd (s'.tape N)) → ℝ => (x, absZ p s par (numSw (s'.tape N)) x0)) (ContinuousLinearMap.inl ℝ _ _) x0 :=
    hasFDerivAt_prodMk_left x0 _
  have hF : (fun x => outFn p s par (numInd (s'.tape N)) (numSw (s'.tape N)) 0 (x, absZ p s par _ x0)) =ᶠ[𝓝 x0] F p s par (numInd (s'.tape N)) 0 := by
    have := hpair.continuousAt.eventually h9
    filter_upwards [this] with x hx
    obtain ⟨S, S1, S2, S3, S4⟩ := hx
    have hz := zosPl_zos (zsw_base S1 (fun k v hv => by
      have := (List.getElem?_eq_some_iff.1 hv).1
      omega))
    rcases recorded_forward h.alloc p h.start h.recorded (fun _ => 0) ⟨ext x, par, false⟩ N with ⟨e, z', g1, g2, g3, g4⟩ | ⟨g1, g2⟩
    · have g2' : Except.ok S.z = Except.ok z' := hz.symm.trans g2
      cases g2'
      have g1' : p.spec (ext x) par s.se = some (e, p.path cfg s) := g1
      show p.swOut (ext x) _ par s.se 0 = p.out (ext x) par s.se 0
      rw [S3, g3]
      simp only [Prog.out, g1']
    · have : Except.ok S.z = Except.error _ := hz.symm.trans g1
      cases this
  have hD : HasFDerivAt (F p s par (numInd (s'.tape N)) 0) ((D 0).comp (ContinuousLinearMap.inl ℝ _ _)) x0 := by
    have := (h5 0).comp x0 hpair
    exact this.congr_of_eventuallyEq hF.symm
  refine ⟨g, hg, hD.differentiableAt, fun i => ?_⟩
  rw [hgrad i i.2, hD.fderiv, show fderiv ℝ (outFn p s par _ _ 0) (x0, absZ p s par _ x0) = D 0 from (h5 0).fderiv]
  show D 0 _ = D 0 (Pi.single i 1, 0)
  congr 1
  unfold ex
  congr 1
  funext l
  simp only [Pi.single_apply, Fin.ext_iff]

/-- `DIRGRAD_NOT_ENOUGH_DIRS` is reported for at least six independents only. -/
theorem C65_fails_only_large {K : Type} [Scalar K] (ops : List (Base K)) (par : ℕ → K) (mm : Bool) (n : ℕ) (x d : ℕ → K)
    (h : dirActiveGrad ops par mm n x d = .fails) : 6 ≤ n := by
  have key : ∀ (fuel k j : ℕ) (E : ℕ → ℕ → K), 1 ≤ fuel → dagLoop ops par n (numSw ops) x (maxDk n d) fuel k j E = .fails → k + fuel ≤ n := by
    intro fuel
    induction fuel with
    | zero => intro k j E h; omega
    | succ fuel ih =>
      intro k j E _ h
      simp only [dagLoop] at h
      split at h
      · cases h
      split at h
      · split at h
        · cases h
        · split at h <;> cases h
      · generalize (if j = maxDk n d then j + 1 else j) = j2 at h
        by_cases hjk : n ≤ j2 ∨ n ≤ k
        · rw [if_pos hjk] at h; cases h
        rw [if_neg hjk] at h
        push Not at hjk
        by_cases hf : 1 ≤ fuel
        · have := ih _ _ _ hf h
          omega
        · omega
  unfold dirActiveGrad at h
  split at h
  · cases h
  · exact key 5 1 0 _ (by omega) h

/-- With one independent there is no further direction: if the direction does not determine all signs, the driver writes
behind `E`. -/
theorem C65_outside_E {K : Type} [Scalar K] (ops : List (Base K)) (par : ℕ → K) (x d : ℕ → K) (hn : numInd ops = 1) (hm : numDep ops = 1)
    (w : VPF K) (hw : fovPlRun ⟨x, par, false⟩ 1 (fun i l => if l = 0 then d i else 0) ops VPF.init = .ok w)
    (hs : (w.sg.map Int.natAbs).sum ≠ numSw ops) : dirActiveGrad ops par true 1 x d = .undef := by
  unfold dirActiveGrad
  rw [if_neg (by simp [hn, hm])]
  simp only [dagLoop, hw, if_neg hs]
  rw [if_pos (.inr (le_refl 1))]

/-- The trace of `y = fabs(x)`. -/
def absTrace : List (Base ℝ) := [.assignInd 0, .absVal 0 1 1, .assignDep 1, .deathNot 0 1]

/-- The trace of `y = fabs(x - fabs(x))`. -/
def flatTrace : List (Base ℝ) := [.assignInd 0, .absVal 0 1 1, .minAA 0 1 2, .absVal 2 3 1, .assignDep 3, .deathNot 0 3]

/-- The trace of `y = fabs(fabs(x) - 1)`. -/
def scaleTrace : List (Base ℝ) := [.assignInd 0, .absVal 0 1 1, .plusDA 1 2 (-1), .absVal 2 3 1, .assignDep 3, .deathNot 0 3]

/-- `y = fabs(x - fabs(x))` at `x = 0` in direction 1: the second sign stays undetermined. -/
theorem C65_outside_E_witness : dirActiveGrad flatTrace (fun _ => 0) true 1 (fun _ => 0) (fun _ => (1 : ℝ)) = .undef := by
  have : ∃ w, fovPlRun ⟨fun _ => 0, fun _ => 0, false⟩ 1 (fun i l => if l = 0 then (fun _ => (1 : ℝ)) i else 0) flatTrace VPF.init = .ok w ∧ w.sg = [1, 0] := by
    refine ⟨_, rfl, ?_⟩
    simp [VPF.init, VS.init, VS.set, VS.setC, VS.up, VS.dec, upd_apply, firstsign, firstNonzero, tiny, fabs, List.range_succ]
    norm_num
  obtain ⟨w, h1, h2⟩ := this
  refine C65_outside_E _ _ _ _ rfl rfl w h1 ?_
  rw [h2]
  simp [flatTrace, numSw]

/-- The gradient is lost: for `y = fabs(x)` at `x = 1` the signature is 1 and the gradient 0. -/
theorem C65_gradient_lost : ∃ g, dirActiveGrad absTrace (fun _ => 0) true 1 (fun _ => 1) (fun _ => 1) = .ret g [1] ∧ g 0 = 0 := by
  have : ∃ w, fovPlRun ⟨fun _ => 1, fun _ => 0, false⟩ 1 (fun i l => if l = 0 then (fun _ => (1 : ℝ)) i else 0) absTrace VPF.init = .ok w ∧ w.sg = [1] := by
    refine ⟨_, rfl, ?_⟩
    simp [VPF.init, VS.init, VS.set, VS.setC, VS.up, VS.dec, upd_apply, firstsign, firstNonzero, tiny, fabs, List.range_succ]
    norm_num
  obtain ⟨w, h1, h2⟩ := this
  have : ∃ f, zosPlRun ⟨fun _ => (1 : ℝ), fun _ => 0, true⟩ absTrace ⟨ZS.init, []⟩ = .ok f ∧ f.z.stk = [1, 1, 0, 0] := by
    refine ⟨_, rfl, ?_⟩
    have hn : ¬ (1 : ℝ) < 0 := by norm_num
    simp [ZS.push, ZS.set, ZS.init, ZS.dec, upd_apply, fabs, List.range_succ, hn]
  obtain ⟨f, h3, h4⟩ := this
  refine ⟨?_, ?_, ?_⟩
  rotate_left
  · unfold dirActiveGrad
    rw [if_neg (by simp [absTrace, numInd, numDep, Base.nInd, Base.nDep])]
    simp only [dagLoop, h1, h2]
    rw [if_pos (by simp [absTrace, numSw])]
    simp only [h3, h4]
    rfl
  · simp [RS.setA, RS.addA, upd_apply, RS.init, List.range_succ]

/-- The signature depends on the length of the direction: `y = fabs(fabs(x) - 1)` at `x = 1`, directions -1 and -3. -/
theorem C65_scale : ∃ g g', dirActiveGrad scaleTrace (fun _ => 0) true 1 (fun _ => 1) (fun _ => -1) = .ret g [1, -1] ∧
    dirActiveGrad scaleTrace (fun _ => 0) true 1 (fun _ => 1) (fun _ => -3) = .ret g' [1, 1] := by
  have a1 : ∃ w, fovPlRun ⟨fun _ => 1, fun _ => 0, false⟩ 1 (fun i l => if l = 0 then (fun _ => (-1 : ℝ)) i else 0) scaleTrace VPF.init = .ok w ∧ w.sg = [1, -1] := by
    refine ⟨_, rfl, ?_⟩
    simp [VPF.init, VS.init, VS.set, VS.setC, VS.up, VS.dec, upd_apply, firstsign, firstNonzero, tiny, fabs, List.range_succ]
    norm_num
  have a2 : ∃ w, fovPlRun ⟨fun _ => 1, fun _ => 0, false⟩ 1 (fun i l => if l = 0 then (fun _ => (-3 : ℝ)) i else 0) scaleTrace VPF.init = .ok w ∧ w.sg = [1, 1] := by
    refine ⟨_, rfl, ?_⟩
    simp [VPF.init, VS.init, VS.set, VS.setC, VS.up, VS.dec, upd_apply, firstsign, firstNonzero, tiny, fabs, List.range_succ]
    norm_num
  have a3 : ∃ f, zosPlRun ⟨fun _ => (1 : ℝ), fun _ => 0, true⟩ scaleTrace ⟨ZS.init, []⟩ = .ok f ∧ ∃ a b c d e g h i, f.z.stk = [a, b, c, d, e, g, h, i] := by
    refine ⟨_, rfl, ?_⟩
    have hn : ¬ (1 : ℝ) < 0 := by norm_num
    simp [ZS.push, ZS.set, ZS.init, ZS.dec, upd_apply, fabs, List.range_succ, hn]
  obtain ⟨f, h3, a, b, c, d, e, g, h, i, h4⟩ := a3
  have key : ∀ dd : ℝ, ∀ w : VPF ℝ, fovPlRun ⟨fun _ => 1, fun _ => 0, false⟩ 1 (fun i l => if l = 0 then (fun _ => dd) i else 0) scaleTrace VPF.init = .ok w →
      (w.sg.map Int.natAbs).sum = 2 → ∃ g, dirActiveGrad scaleTrace (fun _ => 0) true 1 (fun _ => 1) (fun _ => dd) = .ret g w.sg := by
    intro dd w h1 h2
    refine ⟨?_, ?_⟩
    rotate_left
    · unfold dirActiveGrad
      rw [if_neg (by simp [scaleTrace, numInd, numDep, Base.nInd, Base.nDep])]
      simp only [dagLoop, h1, h2]
      rw [if_pos (by simp [scaleTrace, numSw])]
      simp only [h3, h4]
      rfl
  obtain ⟨w, h1, h2⟩ := a1
  obtain ⟨w', h1', h2'⟩ := a2
  obtain ⟨g1, k1⟩ := key _ w h1 (by rw [h2]; rfl)
  obtain ⟨g2, k2⟩ := key _ w' h1' (by rw [h2']; rfl)
  rw [h2] at k1
  rw [h2'] at k2
  exact ⟨g1, g2, k1, k2⟩

/-! ### A concrete program meeting the hypotheses -/

/-- `kink` (C47) at the point `(0, 0)`, where both switching variables vanish: all hypotheses of `C65_fov_pl_forward`,
`C65_sig_forward_partial` and `C65_sig_reverse` hold. -/
example : ∃ s', Traced demoCfg [] demoStart kink s' (s'.hw + 1) ∧ kink.disc ⟨Set.univ, ∅⟩ ∧ numInd (s'.tape (s'.hw + 1)) = 2 ∧
    ∃ e0, kink.spec (ext (0 : Fin 2 → ℝ)) (fun _ => 0) demoStart.se = some (e0, kink.path demoCfg demoStart) ∧
      kink.smoothAN (ext (0 : Fin 2 → ℝ)) (fun _ => 0) demoStart.se ∧ e0.ys.length = 1 ∧
      ∀ z ∈ kink.switches (ext (0 : Fin 2 → ℝ)) (fun _ => 0) demoStart.se, z = 0 ∨ 1 / 10 ^ 12 < |z| := by
  obtain ⟨e, h1, h2, h3⟩ := kink_spec demoCfg.x demoCfg.par
  obtain ⟨s', h4, h5⟩ := traced_exists (stock := []) demo_alloc demo_start
    (by simp [kink, Prog.noFminLL, Stmt.notFminLL]) h1
  obtain ⟨e', g1, g2, g3⟩ := kink_spec (ext (0 : Fin 2 → ℝ)) (fun _ => 0)
  have hp : kink.spec (ext (0 : Fin 2 → ℝ)) (fun _ => 0) demoStart.se = some (e', kink.path demoCfg demoStart) := by rw [h5]; exact g1
  refine ⟨s', h4, by simp [kink, Prog.disc, Stmt.disc, Stmt.discNext, Stmt.uses], ?_, e', hp, kink_smooth _ _, by rw [g3]; rfl, ?_⟩
  · have := (counts (n := 2) h4 (fun _ => 0) 0 hp (kink_smooth _ _)).2.1
    rw [← this, g2]
  · rw [kink_switches]
    intro z hz
    left
    simp [ext] at hz
    exact hz

/-- `demo` has no `fabs`: the hypotheses of `C65_smooth_partial`. -/
example (x : ℕ → ℝ) (par : ℕ → ℝ) : demo.switches x par demoStart.se = [] := by
  simp [demo, Prog.switches, Stmt.switches, Stmt.spec, demoStart, Rec.se, SE.set, SE.del, upd_apply]

end Verif.Props.PlSig
