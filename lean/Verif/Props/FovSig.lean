import Verif.AD.FovSig
import Verif.Props.PlSig
/-!
# C65: the vector version of the signed forward sweep

Reading guide: `fovSigRun c p V sb sd ops (VgF.init ..)` is `fov_pl_sig_forward` with the `p` directions `fun i => V i l`
(`sb`: `sigbase`, `sd`: `sigdir` or null), `fosSigRun` is `fos_pl_sig_forward`; `outFn`, `argFn`, `F` as in C65 for the
scalar sweep.
-/
set_option linter.all false
noncomputable section
namespace Verif.Props.FovSig
open Verif.AD Elem Filter Topology Verif.Sparse Verif.Props.AD Verif.Props.Drivers Verif.Drivers Verif.Props.AbsNormal Verif.Props.SparseANF Verif.Props.PlSig

variable {cfg : RCfg ℝ} {stock : List (Nat × List ℝ)} {s s' : Rec ℝ} {p : Prog ℝ} {N : Nat}

/-- `incZ`, `incY` are the derivatives, in direction `v`, of the switching variables and of the outputs of the smooth
function in which every `|z_k|` is replaced by `σ_k z_k`. -/
structure IsSel (p : Prog ℝ) (s : Rec ℝ) (par : ℕ → ℝ) {n : ℕ} (q : ℕ) (x0 : Fin n → ℝ) (σ : ℕ → ℤ) (v : Fin n → ℝ) (incZ incY : ℕ → ℝ) : Prop where
  dz : ∀ k < q, incZ k = fderiv ℝ (argFn p s par n q k) (x0, absZ p s par q x0) (v, fun l => (σ (l : ℕ) : ℝ) * incZ l)
  dy : ∀ j, incY j = fderiv ℝ (outFn p s par n q j) (x0, absZ p s par q x0) (v, fun l => (σ (l : ℕ) : ℝ) * incZ l)

theorem vsd_recorded (h : Traced cfg stock s p s' N) (par : Nat → ℝ) (x0 : Fin (numInd (s'.tape N)) → ℝ) {e0 : SE ℝ}
    (hpath : p.spec (ext x0) par s.se = some (e0, p.path cfg s)) (hsm : p.smoothAN (ext x0) par s.se) (d : ℕ) (hd : 0 < d)
    (V : Fin d → Fin (numInd (s'.tape N)) → ℝ) :
    ∃ w, vsdRun ⟨ext x0, par, false⟩ d (fun i l => if hl : l < d then ext (V ⟨l, hl⟩) i else 0) (s'.tape N) VPF.init = .ok w ∧
      w.f.y = e0.ys ∧ w.sw = p.switches (ext x0) par s.se ∧ SigOk w ∧ (∀ row ∈ w.swT, row.length = d) ∧ w.swT.length = numSw (s'.tape N) ∧
      ∀ l : Fin d, IsSel p s par (numSw (s'.tape N)) x0 (fun k => w.sg[k]?.getD 0) (V l) (fun k => (w.swT[k]?.getD [])[(l : ℕ)]?.getD 0)
        (fun j => (w.f.dy[j]?.getD [])[(l : ℕ)]?.getD 0) := by
  obtain ⟨hq, hn, hm⟩ := counts h par x0 hpath hsm
  have hlog := along_log_AN h par hpath hsm
  obtain ⟨z, D, Dz, h1, h2, h3, h4, h5, h6, h7, h8⟩ := recorded_sw_derivative h.alloc p h.start h.recorded (fun _ => 0) par x0 hpath hsm N false _ hq
    (absZ p s par _ x0) (fun _ => rfl)
  obtain ⟨w, hw⟩ := vsd_total (V := fun i l => if hl : l < d then ext (V ⟨l, hl⟩) i else 0) hd (s := VPF.init) (f := FS.init) (z := ZS.start fun _ => 0)
    ⟨rfl, fun _ => rfl, rfl, rfl, rfl, le_refl _⟩ ⟨rfl, rfl, rfl, rfl, le_refl _⟩ hlog (zosPl_zos h1)
  obtain ⟨s1, s2⟩ := vsd_sig (s := VPF.init) ⟨rfl, rfl⟩ (by simp [VPF.init]) hw
  have key : ∀ l : Fin d, ∃ f, swRun ⟨ext x0, par, false⟩ (ext (V l)) (fun k => ((w.sg[k]?.getD 0 : ℤ) : ℝ) * (w.swT[k]?.getD [])[(l : ℕ)]?.getD 0)
      (s'.tape N) ⟨FS.init, [], []⟩ = .ok f ∧ PCol (l : ℕ) w f := by
    intro l
    obtain ⟨f, f1, f2⟩ := vsd_sw_run (V := fun i l => if hl : l < d then ext (V ⟨l, hl⟩) i else 0) (dw := fun k => ((w.sg[k]?.getD 0 : ℤ) : ℝ) * (w.swT[k]?.getD [])[(l : ℕ)]?.getD 0)
      l.2 (s'.tape N) (s := VPF.init) (f := ⟨FS.init, [], []⟩) (z := ZS.start fun _ => 0)
      ⟨⟨rfl, fun _ => rfl, rfl, rfl, rfl, le_refl _⟩, rfl, rfl⟩ ⟨rfl, rfl, rfl, rfl, le_refl _⟩ hlog rfl hw
      (fun k row y hr hy => by simp only [hr, hy, Option.getD_some])
    have e : (fun i => if hl : (l : ℕ) < d then ext (V ⟨l, hl⟩) i else 0) = ext (V l) := by
      funext i; rw [dif_pos l.2]
    rw [show (fun i => (fun i (l : ℕ) => if hl : l < d then ext (V ⟨l, hl⟩) i else 0) i (l : ℕ)) = ext (V l) from e] at f1
    exact ⟨f, f1, f2⟩
  obtain ⟨f, k1, k2⟩ := key ⟨0, hd⟩
  obtain ⟨m1, m2⟩ := sw_zosPl_run k1 h1 ⟨rfl, rfl, rfl, rfl, le_refl _⟩ rfl
  have hsw : w.sw = p.switches (ext x0) par s.se := by rw [k2.sw, m2, h2]
  have hlen : w.swT.length = numSw (s'.tape N) := by rw [s1.1, hsw, hq]
  refine ⟨w, hw, by rw [k2.base.y, m1.y, h3], hsw, s1, s2, hlen, fun l => ?_⟩
  obtain ⟨f, k1, k2⟩ := key l
  have hsgl : w.sg.length = numSw (s'.tape N) := by rw [s1.2, List.length_zipWith, s1.1, hsw, hq, min_self]
  have hext : (fun k => ((w.sg[k]?.getD 0 : ℤ) : ℝ) * (w.swT[k]?.getD [])[(l : ℕ)]?.getD 0) =
      ext (fun k : Fin (numSw (s'.tape N)) => ((w.sg[(k : ℕ)]?.getD 0 : ℤ) : ℝ) * (w.swT[(k : ℕ)]?.getD [])[(l : ℕ)]?.getD 0) := by
    funext k
    unfold ext
    split_ifs with hk
    · rfl
    · rw [List.getElem?_eq_none (by omega)]; simp
  rw [hext] at k1
  obtain ⟨f', g1, g2, g3, g4, g5, g6, g7⟩ := h8 (V l, fun k : Fin (numSw (s'.tape N)) => ((w.sg[(k : ℕ)]?.getD 0 : ℤ) : ℝ) * (w.swT[(k : ℕ)]?.getD [])[(l : ℕ)]?.getD 0)
  have k1' : Except.ok f = Except.ok f' := k1.symm.trans g1
  cases k1'
  have e1 : ∀ k : ℕ, (w.swT[k]?.getD [])[(l : ℕ)]?.getD 0 = f.swT[k]?.getD 0 := by
    intro k
    rw [← k2.swT, List.getElem?_map]
    cases w.swT[k]? <;> simp
  have e2 : ∀ k : ℕ, (w.f.dy[k]?.getD [])[(l : ℕ)]?.getD 0 = f.f.dy[k]?.getD 0 := by
    intro k
    rw [← k2.base.dy, List.getElem?_map]
    cases w.f.dy[k]? <;> simp
  refine ⟨fun k hk => ?_, fun j => ?_⟩
  · rw [show fderiv ℝ (argFn p s par _ _ k) (x0, absZ p s par _ x0) = Dz k from (h6 k).fderiv, e1 k, g7]
  · rw [show fderiv ℝ (outFn p s par _ _ j) (x0, absZ p s par _ x0) = D j from (h5 j).fderiv]
    show (w.f.dy[j]?.getD [])[(l : ℕ)]?.getD 0 = _
    rw [e2 j, g6]

/-- **C65**, `fov_pl_sig_forward` (the case that `sigbase[0]` is not zero): there is one signature `σ` - the sign of each
switching variable or, if it is zero to the tolerance, the sign of the first of its `p` tangents that is not zero - such
that every direction gets the derivative of the smooth function in which `|z_k|` is replaced by `σ_k z_k`. -/
theorem C65_fov_sig_forward_partial (h : Traced cfg stock s p s' N) (par : Nat → ℝ) (x0 : Fin (numInd (s'.tape N)) → ℝ) {e0 : SE ℝ}
    (hpath : p.spec (ext x0) par s.se = some (e0, p.path cfg s)) (hsm : p.smoothAN (ext x0) par s.se) (d : ℕ) (hd : 0 < d)
    (V : Fin d → Fin (numInd (s'.tape N)) → ℝ) (sb : ℕ → ℤ) (hsb : sb 0 ≠ 0) (sd : Option (ℕ → ℤ)) (z : ℕ → ℝ) (dz : ℕ → ℕ → ℝ) (g : ℕ → ℤ) :
    ∃ S, fovSigRun ⟨ext x0, par, false⟩ d (fun i l => if hl : l < d then ext (V ⟨l, hl⟩) i else 0) sb sd (s'.tape N) (VgF.init z dz g) = .ok S ∧
      S.f.y = e0.ys ∧ ∃ (σ : ℕ → ℤ) (inc : ℕ → List ℝ),
      (∀ k < numSw (s'.tape N), (inc k).length = d ∧ σ k = firstsign ((p.switches (ext x0) par s.se)[k]?.getD 0) (inc k)) ∧
      ∀ l : Fin d, IsSel p s par (numSw (s'.tape N)) x0 σ (V l) (fun k => (inc k)[(l : ℕ)]?.getD 0) (fun j => (S.f.dy[j]?.getD [])[(l : ℕ)]?.getD 0) := by
  obtain ⟨w, w1, w2, w3, w4, w5, w6, w7⟩ := vsd_recorded h par x0 hpath hsm d hd V
  obtain ⟨S, S1, S2⟩ := fovSig_vsd hsb (sd := sd) (s'.tape N) (VgF.init z dz g) [] [] [] w1
  refine ⟨S, S1, by rw [← S2, w2], fun k => w.sg[k]?.getD 0, fun k => w.swT[k]?.getD [], fun k hk => ⟨?_, ?_⟩, fun l => ?_⟩
  · have hk2 : k < w.swT.length := by rw [w6]; exact hk
    show (w.swT[k]?.getD []).length = d
    rw [List.getElem?_eq_getElem hk2]
    exact w5 _ (List.getElem_mem hk2)
  · have hk2 : k < w.swT.length := by rw [w6]; exact hk
    have hk1 : k < w.sw.length := by rw [← w4.1]; exact hk2
    show w.sg[k]?.getD 0 = firstsign _ (w.swT[k]?.getD [])
    rw [w4.2, List.getElem?_zipWith, ← w3, List.getElem?_eq_getElem hk2, List.getElem?_eq_getElem hk1]
    rfl
  · rw [← S2]; exact w7 l

/-- **C65**, `fov_pl_sig_forward` (same case, and no switching variable within the tolerance without being zero): the first
direction, and every direction if no switching variable is zero, gets the one-sided directional derivatives of the traced
function. -/
theorem C65_fov_sig_oneSided_partial (h : Traced cfg stock s p s' N) (par : Nat → ℝ) (x0 : Fin (numInd (s'.tape N)) → ℝ) {e0 : SE ℝ}
    (hpath : p.spec (ext x0) par s.se = some (e0, p.path cfg s)) (hsm : p.smoothAN (ext x0) par s.se)
    (htol : ∀ z ∈ p.switches (ext x0) par s.se, z = 0 ∨ 1 / 10 ^ 12 < |z|) (d : ℕ) (hd : 0 < d)
    (V : Fin d → Fin (numInd (s'.tape N)) → ℝ) (sb : ℕ → ℤ) (hsb : sb 0 ≠ 0) (sd : Option (ℕ → ℤ)) (z : ℕ → ℝ) (dz : ℕ → ℕ → ℝ) (g : ℕ → ℤ) :
    ∃ S, fovSigRun ⟨ext x0, par, false⟩ d (fun i l => if hl : l < d then ext (V ⟨l, hl⟩) i else 0) sb sd (s'.tape N) (VgF.init z dz g) = .ok S ∧
      S.f.y = e0.ys ∧ S.f.dy.length = e0.ys.length ∧
      ∀ l : Fin d, ((l : ℕ) = 0 ∨ ∀ z ∈ p.switches (ext x0) par s.se, z ≠ 0) → ∀ j,
        HasDerivWithinAt (fun t : ℝ => F p s par (numInd (s'.tape N)) j (x0 + t • V l)) ((S.f.dy[j]?.getD [])[(l : ℕ)]?.getD 0) (Set.Ici 0) 0 := by
  obtain ⟨w, w1, w2, w3, w4, w5, w6, w7⟩ := vsd_recorded h par x0 hpath hsm d hd V
  obtain ⟨S, S1, S2⟩ := fovSig_vsd hsb (sd := sd) (s'.tape N) (VgF.init z dz g) [] [] [] w1
  have hlog := along_log_AN h par hpath hsm
  have key : ∀ l : Fin d, ((l : ℕ) = 0 ∨ ∀ z ∈ p.switches (ext x0) par s.se, z ≠ 0) → S.f.dy.length = e0.ys.length ∧ ∀ j,
        HasDerivWithinAt (fun t : ℝ => F p s par (numInd (s'.tape N)) j (x0 + t • V l)) ((S.f.dy[j]?.getD [])[(l : ℕ)]?.getD 0) (Set.Ici 0) 0 := by
    intro l hl
    have hfar : (l : ℕ) = 0 ∨ ∀ u ∈ w.sw, tiny < u ∨ u < -tiny := by
      refine hl.imp_right fun hz u hu => ?_
      rw [w3] at hu
      rcases htol u hu with h0 | h0
      · exact absurd h0 (hz u hu)
      · rcases lt_abs.1 h0 with h0 | h0
        · exact .inl h0
        · exact .inr (by unfold tiny; linarith)
    obtain ⟨f, f1, f2⟩ := vsd_sd_run (V := fun i l => if hl : l < d then ext (V ⟨l, hl⟩) i else 0) l.2 (s'.tape N) (s := VPF.init) (f := ⟨FS.init, [], []⟩)
      (z := ZS.start fun _ => 0) ⟨⟨rfl, fun _ => rfl, rfl, rfl, rfl, le_refl _⟩, rfl, rfl⟩ ⟨rfl, rfl, rfl, rfl, le_refl _⟩ hlog rfl w1 hfar
    have e : (fun i => if hl : (l : ℕ) < d then ext (V ⟨l, hl⟩) i else 0) = ext (V l) := by
      funext i; rw [dif_pos l.2]
    rw [show (fun i => (fun i (l : ℕ) => if hl : l < d then ext (V ⟨l, hl⟩) i else 0) i (l : ℕ)) = ext (V l) from e] at f1
    obtain ⟨t, t1, t2, t3, t4, t5, t6⟩ := recorded_oneSided h.alloc p h.start h.recorded (fun _ => 0) par x0 (V l) hpath hsm N false htol
    have : Except.ok f = Except.ok t := f1.symm.trans t1
    cases this
    have e2 : ∀ k : ℕ, (S.f.dy[k]?.getD [])[(l : ℕ)]?.getD 0 = f.f.dy[k]?.getD 0 := by
      intro k
      rw [← S2, ← f2.base.dy, List.getElem?_map]
      cases w.f.dy[k]? <;> simp
    refine ⟨by rw [← t4, ← S2, ← f2.base.dy]; simp, fun j => ?_⟩
    rw [e2 j]
    exact t6 j
  exact ⟨S, S1, by rw [← S2, w2], (key ⟨0, hd⟩ (.inl rfl)).1, fun l hl => (key l hl).2⟩

/-- **C65**: for all signatures - also those for which arguments are changed - the first direction of `fov_pl_sig_forward` is
`fos_pl_sig_forward` in this direction: return, values, tangents, `swargs`, `swtaylors` (`log` is not called with 0). -/
theorem C65_fov_sig_first {K : Type} [Scalar K] (c : Cfg K) (hk : c.keep = false) (d : ℕ) (hd : 0 < d) (V : ℕ → ℕ → K) (sb : ℕ → ℤ)
    (sd : Option (ℕ → ℤ)) (ops : List (Base K)) (z : ℕ → K) (dz : ℕ → ℕ → K) (g g' : ℕ → ℤ)
    (hlog : AlongSig logArgNonzero c (fun i => V i 0) sb sd ops (SgF.init z (fun i => dz i 0) g')) :
    match fovSigRun c d V sb sd ops (VgF.init z dz g), fosSigRun c (fun i => V i 0) sb sd ops (SgF.init z (fun i => dz i 0) g') with
    | .ok S, .ok S' => S.f.y = S'.f.y ∧ S.f.dy.map (fun row => row[0]?.getD 0) = S'.f.dy ∧ S.sw = S'.sw ∧ ∀ i, S.swT i 0 = S'.swT i
    | .error e, .error e' => e = e'
    | _, _ => False := by
  have := fovSig_fosSig_run hk hd ops (s := VgF.init z dz g) (V := V) ⟨⟨rfl, fun _ => rfl, rfl, rfl, rfl, le_refl _⟩, rfl, fun _ => rfl⟩ hlog
  cases h1 : fovSigRun c d V sb sd ops (VgF.init z dz g) <;>
    cases h2 : fosSigRun c (fun i => V i 0) sb sd ops (SgF.init z (fun i => dz i 0) g') <;> rw [h1, h2] at this
  · exact this
  · exact this.elim
  · exact this.elim
  · exact ⟨this.base.y, this.base.dy, this.sw, this.swT⟩

/-- **C65**: `fov_pl_sig_forward` writes only the first rows of `swargs`, `swtaylors` and `sigsw`, however many switching
variables there are. -/
theorem C65_fov_sig_arrays {K : Type} [Scalar K] (c : Cfg K) (d : ℕ) (V : ℕ → ℕ → K) (sb : ℕ → ℤ) (sd : Option (ℕ → ℤ)) (ops : List (Base K))
    (s S : VgF K) (h : fovSigRun c d V sb sd ops s = .ok S) (k : ℕ) (hk : 1 ≤ k) : S.sw k = s.sw k ∧ S.swT k = s.swT k ∧ S.sg k = s.sg k := by
  induction ops generalizing s with
  | nil => cases h; exact ⟨rfl, rfl, rfl⟩
  | cons o os ih =>
    simp only [fovSigRun] at h
    split at h
    · cases h
    · rename_i s1 h1
      obtain ⟨i1, i2, i3⟩ := ih s1 h
      have : s1.sw k = s.sw k ∧ s1.swT k = s.swT k ∧ s1.sg k = s.sg k := by
        cases ho : o.isAbs
        · rw [fovSigStep_other ho] at h1
          split at h1
          · cases h1
          · cases h1; exact ⟨rfl, rfl, rfl⟩
        · cases o <;> simp only [Base.isAbs] at ho <;> first | (cases ho; done) | skip
          simp only [fovSigStep, Except.ok.injEq] at h1
          subst h1
          refine ⟨upd_ne _ _ (by omega), ?_, upd_ne _ _ (by omega)⟩
          funext l
          exact if_neg (by omega)
      exact ⟨i1.trans this.1, i2.trans this.2.1, i3.trans this.2.2⟩

/-- `ext_firstsign` treats only the first of the directions: for `y = fabs(x)` at `x = 0` with `sigbase = 0`, `sigdir = 1`
and the two directions `-1`, `-1` the reported sign is `-1`, and the results for the two equal directions differ: 0
and 1. -/
theorem C65_fov_sig_first_only : ∃ S, fovSigRun ⟨fun _ => (0 : ℝ), fun _ => 0, false⟩ 2 (fun _ _ => -1) (fun _ => 0) (some fun _ => 1)
    [.assignInd 0, .absVal 0 1 0, .assignDep 1] (VgF.init (fun _ => 0) (fun _ _ => 0) (fun _ => 0)) = .ok S ∧
    S.sg 0 = -1 ∧ S.f.dy = [[0, 1]] := by
  refine ⟨_, rfl, ?_, ?_⟩
  all_goals norm_num [VgF.init, VS.init, VS.set, VS.setC, VS.dec, VS.up, List.range_succ, extSign, upd_apply, fabs, firstsign, firstNonzero, tiny]

/-! ### Concrete cases -/

/-- `kink` (C47) at `(0, 0)`, where both switching variables vanish, meets the hypotheses of the two partial theorems. -/
example : ∃ s', Traced demoCfg [] demoStart kink s' (s'.hw + 1) ∧ numInd (s'.tape (s'.hw + 1)) = 2 ∧
    ∃ e0, kink.spec (ext (0 : Fin 2 → ℝ)) (fun _ => 0) demoStart.se = some (e0, kink.path demoCfg demoStart) ∧
      kink.smoothAN (ext (0 : Fin 2 → ℝ)) (fun _ => 0) demoStart.se ∧ e0.ys.length = 1 ∧
      ∀ z ∈ kink.switches (ext (0 : Fin 2 → ℝ)) (fun _ => 0) demoStart.se, z = 0 ∨ 1 / 10 ^ 12 < |z| := by
  obtain ⟨e, h1, h2, h3⟩ := kink_spec demoCfg.x demoCfg.par
  obtain ⟨s', h4, h5⟩ := traced_exists (stock := []) demo_alloc demo_start
    (by simp [kink, Prog.noFminLL, Stmt.notFminLL]) h1
  obtain ⟨e', g1, g2, g3⟩ := kink_spec (ext (0 : Fin 2 → ℝ)) (fun _ => 0)
  have hp : kink.spec (ext (0 : Fin 2 → ℝ)) (fun _ => 0) demoStart.se = some (e', kink.path demoCfg demoStart) := by rw [h5]; exact g1
  refine ⟨s', h4, ?_, e', hp, kink_smooth _ _, by rw [g3]; rfl, ?_⟩
  · have := (counts (n := 2) h4 (fun _ => 0) 0 hp (kink_smooth _ _)).2.1
    rw [← this, g2]
  · rw [kink_switches]
    intro z hz
    left
    simp [ext] at hz
    exact hz

/-- `y = fabs(x)` at 0, directions `2` and `-3`: the sign of the first direction holds for both. -/
example : ∃ S, fovSigRun ⟨fun _ => (0 : ℝ), fun _ => 0, false⟩ 2 (fun _ l => if l = 0 then 2 else -3) (fun _ => 1) none
    [.assignInd 0, .absVal 0 1 0, .assignDep 1] (VgF.init (fun _ => 0) (fun _ _ => 0) (fun _ => 0)) = .ok S ∧
    S.sg 0 = 1 ∧ S.f.dy = [[2, -3]] := by
  refine ⟨_, rfl, ?_, ?_⟩
  all_goals norm_num [VgF.init, VS.init, VS.set, VS.setC, VS.dec, VS.up, List.range_succ, extSign, upd_apply, fabs, firstsign, firstNonzero, tiny]

/-- The hypothesis of `C65_fov_sig_first`. -/
example : AlongSig logArgNonzero ⟨fun _ => (0 : ℝ), fun _ => 0, false⟩ (fun _ => -1) (fun _ => 0) (some fun _ => 1)
    [.assignInd 0, .absVal 0 1 0, .assignDep 1] (SgF.init (fun _ => 0) (fun _ => 0) (fun _ => 0)) :=
  ⟨trivial, fun _ _ => ⟨trivial, fun _ _ => ⟨trivial, fun _ _ => trivial⟩⟩⟩

end Verif.Props.FovSig
