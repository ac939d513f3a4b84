import Verif.AD.PlSigCol
import Verif.AD.AbsMain
import Mathlib.Analysis.Calculus.Deriv.Abs

/-! One-sided directional derivatives by `fos_pl_sig_forward`. -/
set_option linter.all false
namespace Verif.AD
open Elem Filter Topology

section
variable {K : Type} [Scalar K]

theorem sd_total {c : Cfg K} {v : Nat → K} {ops : List (Base K)} {s : PlF K} {z z' : ZS K} (h : zosRun c ops z = .ok z') (hz : SameZ s.f z) :
    ∃ s', sdRun c v ops s = .ok s' := by
  induction ops generalizing s z with
  | nil => exact ⟨s, rfl⟩
  | cons o os ih =>
    simp only [zosRun] at h
    split at h
    · cases h
    · rename_i z1 h1
      have : ∃ s1, sdStep c v o s = .ok s1 ∧ SameZ s1.f z1 := by
        cases ho : o.isAbs
        · have g := fos_zos_step c v o hz
          rw [h1] at g
          cases h3 : fosStep c v o s.f with
          | error e => rw [h3] at g; exact g.elim
          | ok f' =>
            rw [h3] at g
            refine ⟨⟨f', s.sw, s.swT⟩, ?_, g⟩
            rw [sdStep_other ho, h3]
        · cases o <;> simp only [Base.isAbs] at ho <;> first | (cases ho; done) | skip
          rename_i a r k
          refine ⟨_, rfl, ?_⟩
          have hp := hz.push (c := c) (r := r)
          have hT := hp.T
          simp only [zosStep, Except.ok.injEq] at h1
          subst h1
          refine SameZ.set (SameZ.setD ?_) ?_
          · simp only [hT]; split_ifs
            · exact hp.dec rfl
            · exact hp.dec rfl
            · exact hp
          · simp only [hT, FS.dec, ZS.dec, FS.setD]; split_ifs <;> simp_all
      obtain ⟨s1, g1, g2⟩ := this
      obtain ⟨s', g3⟩ := ih h g2
      exact ⟨s', by simp only [sdRun, g1, g3]⟩
end

/-- `|g|` has the one-sided derivative `firstsign g(0) g'(0) * g'(0)`. -/
theorem abs_oneSided {g : ℝ → ℝ} {d : ℝ} (h : HasDerivWithinAt g d (Set.Ici 0) 0) (ht : g 0 = 0 ∨ tiny < |g 0|) :
    HasDerivWithinAt (fun t => |g t|) (((firstsign (g 0) [d] : ℤ) : ℝ) * d) (Set.Ici 0) 0 := by
  have htiny : (0 : ℝ) < tiny := by unfold tiny; positivity
  rcases ht with h0 | h0
  · have hs : (((firstsign (g 0) [d] : ℤ) : ℝ) * d) = |d| := by
      unfold firstsign
      rw [h0, if_neg (not_lt.2 htiny.le), if_neg (by linarith)]
      simp only [firstNonzero]
      rcases lt_trichotomy d 0 with hd | hd | hd
      · rw [if_neg (by linarith), if_pos hd, abs_of_neg hd]; simp
      · subst hd; simp
      · rw [if_pos hd, abs_of_pos hd]; simp
    rw [hs, hasDerivWithinAt_iff_tendsto_slope]
    rw [hasDerivWithinAt_iff_tendsto_slope] at h
    refine (h.abs).congr' ?_
    filter_upwards [self_mem_nhdsWithin] with t ht
    have ht' : 0 < t := lt_of_le_of_ne ht.1 (Ne.symm ht.2)
    simp only [slope, vsub_eq_sub, sub_zero, smul_eq_mul, h0, abs_zero, abs_mul, abs_inv, abs_of_pos ht']
  · by_cases hp : 0 < g 0
    · rw [abs_of_pos hp] at h0
      have : firstsign (g 0) [d] = 1 := by unfold firstsign; rw [if_pos h0]
      rw [this]
      have := (hasDerivAt_abs_pos hp).comp_hasDerivWithinAt 0 h
      rw [Int.cast_one]
      exact this
    · have hn : g 0 < 0 := by
        rcases lt_trichotomy (g 0) 0 with h | h | h
        · exact h
        · rw [h, abs_zero] at h0; linarith
        · exact absurd h hp
      rw [abs_of_neg hn] at h0
      have : firstsign (g 0) [d] = -1 := by unfold firstsign; rw [if_neg (by linarith), if_pos (by linarith)]
      rw [this]
      have := (hasDerivAt_abs_neg hn).comp_hasDerivWithinAt 0 h
      rw [Int.cast_neg, Int.cast_one]
      exact this

section
variable {s s' : Rec ℝ} {stock : List (Nat × List ℝ)} {cfg : RCfg ℝ}

/-- The results of `fabs` along the line `x0 + t v`, computed one after the other. -/
noncomputable def absCurve (p : Prog ℝ) (s : Rec ℝ) (par : Nat → ℝ) {n q : Nat} (x0 v : Fin n → ℝ) (w0 : Fin q → ℝ) : Nat → ℝ → Fin q → ℝ
  | 0, _ => w0
  | k + 1, t => fun i => if (i : Nat) = k then |p.swArg (ext (x0 + t • v)) (ext (absCurve p s par x0 v w0 k t)) par s.se k|
      else absCurve p s par x0 v w0 k t i

theorem absCurve_low {p : Prog ℝ} {par : Nat → ℝ} {n q : Nat} {x0 v : Fin n → ℝ} {w0 : Fin q → ℝ} {t : ℝ} {k m : Nat} (hkm : k ≤ m)
    (i : Fin q) (hi : (i : Nat) < k) : absCurve p s par x0 v w0 m t i = absCurve p s par x0 v w0 k t i := by
  induction m, hkm using Nat.le_induction with
  | base => rfl
  | succ m hkm ih =>
    simp only [absCurve]
    rw [if_neg (by omega), ih]

/-- The tangent of `absCurve`. -/
noncomputable def trunc {q : Nat} (w : Fin q → ℝ) (k : Nat) : Fin q → ℝ := fun i => if (i : Nat) < k then w i else 0

theorem Dz_trunc {n q : Nat} {D : ((Fin n → ℝ) × (Fin q → ℝ)) →L[ℝ] ℝ} {k : Nat}
    (h : ∀ l (hl : l < q), k ≤ l → D (0, Pi.single ⟨l, hl⟩ 1) = 0) (v : Fin n → ℝ) (w : Fin q → ℝ) : D (v, trunc w k) = D (v, w) := by
  have hd : (v, w) = (v, trunc w k) + ∑ l : Fin q, (if (l : Nat) < k then (0 : ℝ) else w l) • ((0, Pi.single l 1) : (Fin n → ℝ) × (Fin q → ℝ)) := by
    refine Prod.ext ?_ ?_
    · rw [Prod.fst_add, Prod.fst_sum]
      rw [Finset.sum_eq_zero fun l _ => by rw [Prod.smul_fst, smul_zero]]
      simp
    · funext i
      simp only [trunc, Prod.snd_add, Prod.snd_sum, Prod.smul_snd, Pi.add_apply, Finset.sum_apply, Pi.smul_apply, smul_eq_mul]
      rw [Finset.sum_eq_single i]
      · by_cases h : (i : Nat) < k <;> simp [h]
      · intro b _ hb
        rw [Pi.single_apply, if_neg (Ne.symm hb), mul_zero]
      · intro h; exact absurd (Finset.mem_univ i) h
  rw [hd, map_add, map_sum]
  have : ∑ l : Fin q, D ((if (l : Nat) < k then (0 : ℝ) else w l) • ((0, Pi.single l 1) : (Fin n → ℝ) × (Fin q → ℝ))) = 0 := by
    refine Finset.sum_eq_zero fun l _ => ?_
    rw [map_smul]
    by_cases hl : (l : Nat) < k
    · simp [hl]
    · rw [h l l.2 (by omega), smul_zero]
  rw [this, add_zero]

/-- The signed tangent sweep computes the one-sided derivatives along `v`. -/
theorem recorded_oneSided (hal : ∀ k L, cfg.alloc k L ∉ L) (p : Prog ℝ) (hs : s.Start stock)
    (hrec : p.record cfg s = some s') (T0 par : Nat → ℝ) {n : Nat} (x0 v : Fin n → ℝ) {e0 : SE ℝ}
    (hpath : p.spec (ext x0) par s.se = some (e0, p.path cfg s)) (hsm : p.smoothAN (ext x0) par s.se) (N : Nat) (keep : Bool)
    (htol : ∀ z ∈ p.switches (ext x0) par s.se, z = 0 ∨ tiny < |z|) :
    ∃ t, sdRun ⟨ext x0, par, keep⟩ (ext v) (s'.tape N) ⟨FS.start T0, [], []⟩ = .ok t ∧ t.sw = p.switches (ext x0) par s.se ∧
      t.f.y = e0.ys ∧ t.f.dy.length = e0.ys.length ∧ t.f.ii = e0.ii ∧
      ∀ j, HasDerivWithinAt (fun h : ℝ => p.out (ext (x0 + h • v)) par s.se j) (t.f.dy[j]?.getD 0) (Set.Ici 0) 0 := by
  set q := (p.switches (ext x0) par s.se).length with hq
  let w0 : Fin q → ℝ := fun k => |(p.switches (ext x0) par s.se)[(k : Nat)]?.getD 0|
  obtain ⟨z, D, Dz, h1, h2, h3, h4, h5, h6, h7, h8, h9⟩ := recorded_sw_derivative_ev hal p hs hrec T0 par x0 hpath hsm N keep q hq.symm w0 (fun _ => rfl)
  obtain ⟨t, ht⟩ := sd_total (v := ext v) (s := ⟨FS.start T0, [], []⟩) (zosPl_zos h1) ⟨rfl, rfl, rfl, rfl, le_refl _⟩
  -- the signed tangents
  let dw : Fin q → ℝ := fun k => ((firstsign (t.sw[(k : Nat)]?.getD 0) [t.swT[(k : Nat)]?.getD 0] : ℤ) : ℝ) * t.swT[(k : Nat)]?.getD 0
  have hsw0 := sd_sw (dw := fun k => ((firstsign (t.sw[k]?.getD 0) [t.swT[k]?.getD 0] : ℤ) : ℝ) * t.swT[k]?.getD 0) ht rfl
    (fun k z dz h1 h2 => by simp only [h1, h2, Option.getD_some])
  obtain ⟨g0, g1, _, g3, g4, g5, _⟩ := h8 0
  have hlq : t.swT.length = q := by rw [(sw_counts hsw0).2.2, ← g5, (sw_counts g1).2.2]
  have hsw : swRun ⟨ext x0, par, keep⟩ (ext v) (ext dw) (s'.tape N) ⟨FS.start T0, [], []⟩ = .ok t := by
    refine sd_sw ht rfl fun k z dz h1 h2 => ?_
    have hk : k < q := by rw [← hlq]; exact (List.getElem?_eq_some_iff.1 h2).1
    simp only [ext, hk, dif_pos, dw, h1, h2, Option.getD_some]
  obtain ⟨f', k1, k2, k3, k4, k5, k6, k7⟩ := h8 (v, dw)
  rw [show swRun ⟨ext x0, par, keep⟩ (ext (v, dw).1) (ext (v, dw).2) (s'.tape N) ⟨FS.start T0, [], []⟩ = .ok t from hsw] at k1
  cases k1
  obtain ⟨m1, m2⟩ := sw_zosPl_run hsw h1 ⟨rfl, rfl, rfl, rfl, le_refl _⟩ rfl
  refine ⟨t, ht, by rw [m2, h2], by rw [m1.y, h3], k4, k3, fun j => ?_⟩
  -- the curve
  have hx : HasDerivWithinAt (fun h : ℝ => x0 + h • v) v (Set.Ici 0) 0 := by
    have := ((hasDerivAt_id (0 : ℝ)).smul_const v).const_add x0
    simpa using this.hasDerivWithinAt
  have hsz : ∀ k, p.swArg (ext x0) (ext w0) par s.se k = t.sw[k]?.getD 0 := by
    intro k
    obtain ⟨S, e1, e2, e3, e4⟩ := h9.self_of_nhds
    have hz2 : zosPlRun ⟨ext x0, par, keep⟩ (s'.tape N) ⟨ZS.start T0, []⟩ = .ok z := h1
    have := Prog.swSpec_of_spec (w := ext w0) (zs := []) p hpath (fun k v hv => by
      have hk : k < q := by rw [hq]; exact (List.getElem?_eq_some_iff.1 hv).1
      simp only [List.length_nil, Nat.zero_add, ext, hk, dif_pos, w0, hv, Option.getD_some]
      rfl)
    simp only [Prog.swArg, this, List.nil_append]
    rw [m2, h2]
  have hcurve : ∀ k ≤ q, absCurve p s par x0 v w0 k 0 = w0 ∧
      HasDerivWithinAt (fun h => absCurve p s par x0 v w0 k h) (trunc dw k) (Set.Ici 0) 0 := by
    intro k
    induction k with
    | zero =>
      intro _
      refine ⟨rfl, ?_⟩
      have : trunc dw 0 = 0 := by funext i; simp [trunc]
      rw [this]
      exact hasDerivWithinAt_const _ _ _
    | succ k ih =>
      intro hk
      obtain ⟨ih1, ih2⟩ := ih (by omega)
      have hx0 : x0 + (0 : ℝ) • v = x0 := by simp
      have hpair : HasDerivWithinAt (fun h : ℝ => (x0 + h • v, absCurve p s par x0 v w0 k h)) (v, trunc dw k) (Set.Ici 0) 0 := hx.prodMk ih2
      have hg := HasFDerivAt.comp_hasDerivWithinAt_of_eq (x := (0 : ℝ)) (h6 k) hpair (by rw [hx0, ih1])
      rw [Dz_trunc (fun l hl hkl => h7 k l hl hkl), ← k7 k] at hg
      have hz0 : ((fun a : (Fin n → ℝ) × (Fin q → ℝ) => p.swArg (ext a.1) (ext a.2) par s.se k) ∘ fun h : ℝ => (x0 + h • v, absCurve p s par x0 v w0 k h)) 0 = t.sw[k]?.getD 0 := by
        simp only [Function.comp_apply, hx0, ih1, hsz]
      have hone := abs_oneSided hg (by
        rw [hz0, m2, h2]
        have : k < (p.switches (ext x0) par s.se).length := by omega
        rw [List.getElem?_eq_getElem this]
        exact htol _ (List.getElem_mem this))
      rw [hz0] at hone
      refine ⟨?_, ?_⟩
      · funext i
        simp only [absCurve]
        split_ifs with hi
        · rw [hx0, ih1, hsz, m2, h2, ← hi]
        · rw [ih1]
      · rw [hasDerivWithinAt_pi] at ih2 ⊢
        intro i
        by_cases hi : (i : Nat) = k
        · simp only [absCurve, hi, if_true, trunc, Nat.lt_succ_self, if_true, dw]
          exact hone
        · have : trunc dw (k + 1) i = trunc dw k i := by
            simp only [trunc]
            congr 1
            exact propext ⟨fun h => by omega, fun h => by omega⟩
          rw [this]
          simp only [absCurve, hi, if_false]
          exact ih2 i
  have hx0 : x0 + (0 : ℝ) • v = x0 := by simp
  have hpairq := hx.prodMk (hcurve q (le_refl _)).2
  have hy := HasFDerivAt.comp_hasDerivWithinAt_of_eq (x := (0 : ℝ)) (h5 j) hpairq (by rw [hx0, (hcurve q (le_refl _)).1])
  have htr : trunc dw q = dw := by funext i; simp [trunc]
  rw [htr, ← k6 j] at hy
  -- near 0 the switching function on the curve is the program
  have hev : ∀ᶠ h : ℝ in 𝓝[Set.Ici 0] 0, ∀ k ∈ Finset.range (q + 1), ∃ S, zswRun ⟨ext (x0 + h • v), par, keep⟩ (ext (absCurve p s par x0 v w0 k h)) (s'.tape N) ⟨ZS.start T0, []⟩ = .ok S ∧
        S.sw.length = q ∧ (∀ j, p.swOut (ext (x0 + h • v)) (ext (absCurve p s par x0 v w0 k h)) par s.se j = S.z.y[j]?.getD 0) ∧
        ∀ l, p.swArg (ext (x0 + h • v)) (ext (absCurve p s par x0 v w0 k h)) par s.se l = S.sw[l]?.getD 0 := by
    rw [Filter.eventually_all_finset]
    intro k hk
    have hk := Finset.mem_range.1 hk
    obtain ⟨c1, c2⟩ := hcurve k (by omega)
    have hc := (hx.prodMk c2).continuousWithinAt
    unfold ContinuousWithinAt at hc
    simp only [hx0, c1] at hc
    exact hc.eventually h9
  have hout : ∀ h : ℝ, (∀ k ∈ Finset.range (q + 1), ∃ S, zswRun ⟨ext (x0 + h • v), par, keep⟩ (ext (absCurve p s par x0 v w0 k h)) (s'.tape N) ⟨ZS.start T0, []⟩ = .ok S ∧
        S.sw.length = q ∧ (∀ j, p.swOut (ext (x0 + h • v)) (ext (absCurve p s par x0 v w0 k h)) par s.se j = S.z.y[j]?.getD 0) ∧
        ∀ l, p.swArg (ext (x0 + h • v)) (ext (absCurve p s par x0 v w0 k h)) par s.se l = S.sw[l]?.getD 0) →
      p.out (ext (x0 + h • v)) par s.se j = p.swOut (ext (x0 + h • v)) (ext (absCurve p s par x0 v w0 q h)) par s.se j := by
    intro h hh
    obtain ⟨S, S1, S2, S3, S4⟩ := hh q (by simp)
    have hfab : ∀ (k : Nat) v', S.sw[k]? = some v' → ext (absCurve p s par x0 v w0 q h) k = fabs v' := by
      intro k v' hv'
      have hk : k < q := by rw [← S2]; exact (List.getElem?_eq_some_iff.1 hv').1
      obtain ⟨R, R1, R2, R3, R4⟩ := hh k (by simp; omega)
      have hlow := zsw_lower (l := k) (fun i hi => by
        have hiq : i < q := by omega
        simp only [ext, hiq, dif_pos]
        exact absCurve_low (k := k) (m := q) (by omega) ⟨i, hiq⟩ hi) S1 R1 k (le_refl _)
      simp only [ext, hk, dif_pos]
      rw [absCurve_low (k := k + 1) (m := q) (by omega) ⟨k, hk⟩ (by simp)]
      simp only [absCurve, if_true]
      rw [R4, ← hlow, hv']
      rfl
    have hzpl := zosPl_zos (zsw_base S1 hfab)
    rcases recorded_forward hal p hs hrec T0 ⟨ext (x0 + h • v), par, keep⟩ N with ⟨e, z', g1, g2, g3, g4⟩ | ⟨g1, g2⟩
    · have g2' : Except.ok S.z = Except.ok z' := hzpl.symm.trans g2
      cases g2'
      have g1' : p.spec (ext (x0 + h • v)) par s.se = some (e, p.path cfg s) := g1
      rw [S3, g3]
      simp only [Prog.out, g1']
    · have : Except.ok S.z = Except.error _ := hzpl.symm.trans g1
      cases this
  refine hy.congr_of_eventuallyEq ?_ ?_
  · filter_upwards [hev] with h hh
    exact hout h hh
  · refine hout 0 ?_
    exact hev.self_of_nhdsWithin (by simp)
end
end Verif.AD
