import Verif.AD.AbsLin

/-! `abs_normal` on recorded programs. -/
set_option linter.all false
namespace Verif.AD
open Elem Filter Topology

section
variable {K : Type} [Scalar K] {T0 : Nat → K} {s s' : Rec K} {stock : List (Nat × List K)}

theorem zsw_stock {c : Cfg K} {w : Nat → K} (stock : List (Nat × List K)) (z : ZS K) (sw : List K) :
    zswRun c w (stock.map fun p => .takeStock p.1 p.2) ⟨z, sw⟩ =
      match zosRun c (stock.map fun p => .takeStock p.1 p.2) z with
      | .error e => .error e
      | .ok z' => .ok ⟨z', sw⟩ := by
  induction stock generalizing z with
  | nil => rfl
  | cons p stock ih =>
    simp only [List.map_cons, zswRun, zosRun, zswStep_other (o := Base.takeStock p.1 p.2) rfl]
    cases zosStep c (.takeStock p.1 p.2) z with
    | error e => rfl
    | ok z' => exact ih z'

theorem recorded_sw {cfg : RCfg K} (hal : ∀ k L, cfg.alloc k L ∉ L) (p : Prog K)
    (hs : s.Start stock) (hrec : p.record cfg s = some s') (T0 : Nat → K) (c : Cfg K) (w : Nat → K) (N : Nat) :
    (∃ e q, p.swSpec c.x w c.par s.se [] = some (e, q.sw, p.path cfg s) ∧
      zswRun c w (s'.tape N) ⟨ZS.start T0, []⟩ = .ok q ∧ q.z.y = e.ys ∧ q.z.ii = e.ii) ∨
    ((∀ q, zswRun c w (s'.tape N) ⟨ZS.start T0, []⟩ ≠ .ok q) ∧
      ∀ e zs bs, p.swSpec c.x w c.par s.se [] = some (e, zs, bs) → bs ≠ p.path cfg s) := by
  obtain ⟨z0, h1, h2, _⟩ := hs.sweep T0 c
  have hp : PSwept T0 c w s ⟨z0, []⟩ := by
    have h1' : zosRun c s.tr.reverse (ZS.start T0) = .ok z0 := h1
    unfold PSwept
    rw [hs.tr, List.reverse_reverse] at h1' ⊢
    rw [zsw_stock, h1']
  rcases Prog.psim hal p hs.ok hp h2 hrec with ⟨e, q, g1, g2, g3⟩ | ⟨g1, g2⟩
  · obtain ⟨z', k1, k2, k3, k4, k5⟩ := death_step (c := c) (a := 0) (b := N - 1) (z := q.z)
    refine .inl ⟨e, ⟨z', q.sw⟩, g1, ?_, by rw [k4, g3.y], by rw [k3, g3.ii]⟩
    unfold Rec.tape
    rw [zswRun_append, show zswRun c w s'.tr.reverse ⟨ZS.start T0, []⟩ = .ok q from g2]
    simp only [zswRun, zswStep_other (o := Base.deathNot 0 (N - 1)) rfl, k1]
  · refine .inr ⟨fun q hq => ?_, g2⟩
    unfold Rec.tape at hq
    rw [zswRun_append] at hq
    split at hq
    · cases hq
    · rename_i q0 h0
      exact g1 q0 h0

theorem wsum_single {L : List K} {j : Nat} {u : Nat → K} (hj : j < L.length) (hu : ∀ k < L.length, u k = if k = j then 1 else 0) :
    wsum u L = L[j]?.getD 0 := by
  unfold wsum
  rw [Finset.sum_eq_single j]
  · rw [hu j hj]; simp
  · intro b hb hne
    rw [hu b (Finset.mem_range.1 hb), if_neg hne, zero_mul]
  · intro h; exact absurd (Finset.mem_range.2 hj) h

theorem wsum_zero {L : List K} {u : Nat → K} (hu : ∀ k < L.length, u k = 0) : wsum u L = 0 := by
  unfold wsum
  exact Finset.sum_eq_zero fun b hb => by rw [hu b (Finset.mem_range.1 hb), zero_mul]
end

/-- `j`-th output of the switching function. -/
def Prog.swOut {K : Type} [Scalar K] (p : Prog K) (x w par : Nat → K) (e0 : SE K) (j : Nat) : K :=
  match p.swSpec x w par e0 [] with
  | some (e, _, _) => e.ys[j]?.getD 0
  | none => 0

/-- `k`-th argument of `fabs` in the switching function. -/
def Prog.swArg {K : Type} [Scalar K] (p : Prog K) (x w par : Nat → K) (e0 : SE K) (k : Nat) : K :=
  match p.swSpec x w par e0 [] with
  | some (_, zs, _) => zs[k]?.getD 0
  | none => 0

/-- The linear map `(v, u) ↦ ∑ i, A i * v i + ∑ k, B k * u k`. -/
noncomputable def rowMap {n q : Nat} (A B : Nat → ℝ) : ((Fin n → ℝ) × (Fin q → ℝ)) →L[ℝ] ℝ :=
  (∑ i : Fin n, A i • (ContinuousLinearMap.proj (R := ℝ) (φ := fun _ : Fin n => ℝ) i).comp (ContinuousLinearMap.fst ℝ _ _)) +
  ∑ k : Fin q, B k • (ContinuousLinearMap.proj (R := ℝ) (φ := fun _ : Fin q => ℝ) k).comp (ContinuousLinearMap.snd ℝ _ _)

theorem dot_ext {n : Nat} (A : Nat → ℝ) (v : Fin n → ℝ) : dot n A (ext v) = ∑ i : Fin n, A i * v i := by
  unfold dot
  rw [Finset.sum_range]
  exact Finset.sum_congr rfl fun i _ => by simp [ext]

theorem rowMap_apply {n q : Nat} (A B : Nat → ℝ) (v : (Fin n → ℝ) × (Fin q → ℝ)) :
    rowMap A B v = dot n A (ext v.1) + dot q B (ext v.2) := by
  rw [dot_ext, dot_ext]
  simp [rowMap, ContinuousLinearMap.sum_apply]

section
variable {s s' : Rec ℝ} {stock : List (Nat × List ℝ)} {cfg : RCfg ℝ}

theorem smoothB_regularAN {o : Base ℝ} {T : Nat → ℝ} (h : smoothB o T) : regularAN o T := h.imp id smoothS_regular

theorem recorded_smoothB (hal : ∀ k L, cfg.alloc k L ∉ L) (p : Prog ℝ) (hs : s.Start stock)
    (hrec : p.record cfg s = some s') (T0 : Nat → ℝ) (c : Cfg ℝ) {e : SE ℝ}
    (hpath : p.spec c.x c.par s.se = some (e, p.path cfg s)) (hsm : p.smoothAN c.x c.par s.se) (N : Nat) :
    Along smoothB c (s'.tape N) (ZS.start T0) := by
  obtain ⟨z0, h1, h2, _⟩ := hs.sweep T0 c
  have h0 : SmoothB T0 c s := by
    unfold SmoothB
    rw [hs.tr, List.reverse_reverse]
    have key : ∀ (st : List (Nat × List ℝ)) (z : ZS ℝ),
        Along smoothB c (st.map fun p => Base.takeStock p.1 p.2) z := by
      intro st
      induction st with
      | nil => intro z; trivial
      | cons p st ih => intro z; exact ⟨.inr (by simp [smoothS, smooth]), fun z' _ => ih z'⟩
    exact key _ _
  have := Prog.smoothB_tr hal p hs.ok h1 h2 h0 hsm ⟨e, hpath⟩ hrec
  unfold Rec.tape
  rw [Along_snoc]
  exact ⟨this, fun z' _ => .inr (by simp [smoothS, smooth])⟩

theorem fd_ext {E : Type} [NormedAddCommGroup E] [NormedSpace ℝ E] {n : Nat} (P : E →L[ℝ] (Fin n → ℝ)) (e0 : E) (i : Nat) :
    FD e0 (fun e => ext (P e) i) (fun w => ext (P w) i) := by
  by_cases h : i < n
  · simp only [ext, h, dif_pos]
    exact ⟨(ContinuousLinearMap.proj (R := ℝ) (φ := fun _ : Fin n => ℝ) ⟨i, h⟩).comp P,
      ((ContinuousLinearMap.proj (R := ℝ) (φ := fun _ : Fin n => ℝ) ⟨i, h⟩).comp P).hasFDerivAt, fun w => rfl⟩
  · simp only [ext, h, dif_neg, not_false_eq_true]
    exact FD.const 0

/-- The switching function at `(x0, |z|)`, its derivatives, the tangent sweep, the value sweep near `(x0, |z|)`. -/
theorem recorded_sw_derivative_ev (hal : ∀ k L, cfg.alloc k L ∉ L) (p : Prog ℝ) (hs : s.Start stock)
    (hrec : p.record cfg s = some s') (T0 par : Nat → ℝ) {n : Nat} (x0 : Fin n → ℝ) {e0 : SE ℝ}
    (hpath : p.spec (ext x0) par s.se = some (e0, p.path cfg s))
    (hsm : p.smoothAN (ext x0) par s.se) (N : Nat) (keep : Bool) (q : Nat) (hq : (p.switches (ext x0) par s.se).length = q)
    (w0 : Fin q → ℝ) (hw0 : ∀ k : Fin q, w0 k = |(p.switches (ext x0) par s.se)[(k : Nat)]?.getD 0|) :
    ∃ (z : PlZ ℝ) (D Dz : Nat → ((Fin n → ℝ) × (Fin q → ℝ)) →L[ℝ] ℝ),
      zosPlRun ⟨ext x0, par, keep⟩ (s'.tape N) ⟨ZS.start T0, []⟩ = .ok z ∧ z.sw = p.switches (ext x0) par s.se ∧
      z.z.y = e0.ys ∧ z.z.ii = e0.ii ∧
      (∀ j, HasFDerivAt (fun a : (Fin n → ℝ) × (Fin q → ℝ) => p.swOut (ext a.1) (ext a.2) par s.se j) (D j) (x0, w0)) ∧
      (∀ k, HasFDerivAt (fun a : (Fin n → ℝ) × (Fin q → ℝ) => p.swArg (ext a.1) (ext a.2) par s.se k) (Dz k) (x0, w0)) ∧
      (∀ k l : Nat, (hl : l < q) → k ≤ l → Dz k (0, Pi.single ⟨l, hl⟩ 1) = 0) ∧
      (∀ a : (Fin n → ℝ) × (Fin q → ℝ), ∃ f, swRun ⟨ext x0, par, keep⟩ (ext a.1) (ext a.2) (s'.tape N) ⟨FS.start T0, [], []⟩ = .ok f ∧
        f.f.stk = z.z.stk ∧ f.f.ii = e0.ii ∧ f.f.dy.length = e0.ys.length ∧ f.swT.length = q ∧
        (∀ j, f.f.dy[j]?.getD 0 = D j a) ∧ ∀ k, f.swT[k]?.getD 0 = Dz k a) ∧
      ∀ᶠ a : (Fin n → ℝ) × (Fin q → ℝ) in 𝓝 (x0, w0), ∃ S, zswRun ⟨ext a.1, par, keep⟩ (ext a.2) (s'.tape N) ⟨ZS.start T0, []⟩ = .ok S ∧
        S.sw.length = q ∧ (∀ j, p.swOut (ext a.1) (ext a.2) par s.se j = S.z.y[j]?.getD 0) ∧
        ∀ k, p.swArg (ext a.1) (ext a.2) par s.se k = S.sw[k]?.getD 0 := by
  have hW : ∀ (k : Nat) v, (p.switches (ext x0) par s.se)[k]? = some v → ext w0 k = fabs v := by
    intro k v hv
    have hk : k < q := by rw [← hq]; exact (List.getElem?_eq_some_iff.1 hv).1
    simp only [ext, hk, dif_pos]
    rw [hw0]
    have : (p.switches (ext x0) par s.se)[((⟨k, hk⟩ : Fin q) : Nat)]? = some v := hv
    show |(p.switches (ext x0) par s.se)[((⟨k, hk⟩ : Fin q) : Nat)]?.getD 0| = fabs v
    rw [this]; rfl
  have hsw := Prog.swSpec_of_spec (w := ext w0) (zs := []) p hpath (fun k v hv => by simpa using hW k v hv)
  simp only [List.nil_append] at hsw
  rcases recorded_sw hal p hs hrec T0 ⟨ext x0, par, keep⟩ (ext w0) N with ⟨e, z, g1, g2, g3, g4⟩ | ⟨g1, g2⟩
  swap
  · exact absurd rfl (g2 _ _ _ hsw)
  have g1' : p.swSpec (ext x0) (ext w0) par s.se [] = some (e, z.sw, p.path cfg s) := g1
  rw [hsw] at g1'
  injection g1' with g1'
  injection g1' with ge g1'
  injection g1' with gs _
  subst ge
  have hbase : ∀ (k : Nat) v, z.sw[k]? = some v → ext w0 k = fabs v := by
    intro k v hv
    exact hW k v (by rw [gs]; exact hv)
  have hA := recorded_smoothB hal p hs hrec T0 ⟨ext x0, par, keep⟩ hpath hsm N
  have hzpl := zsw_base g2 hbase
  have h0 : PLin (E := (Fin n → ℝ) × (Fin q → ℝ)) (x0, w0) (fun _ => ⟨ZS.start T0, []⟩) (fun _ => ⟨FS.start T0, [], []⟩) 0 0 0 := by
    refine ⟨⟨fun w => rfl, fun e => rfl, fun w => rfl, fun l => FD.const _, fun e => rfl, fun w => rfl, fun j => ?_⟩, fun e => rfl, fun w => rfl, fun j => ?_⟩
    · simp only [ZS.start, FS.start, List.getElem?_nil, Option.getD_none]
      exact FD.const 0
    · simp only [List.getElem?_nil, Option.getD_none]
      exact FD.const 0
  obtain ⟨S', F', e1, e2, e3⟩ := plin_run (E := (Fin n → ℝ) × (Fin q → ℝ)) (e0 := (x0, w0))
    (c := fun e => ⟨ext e.1, par, keep⟩) (v := fun w => ext w.1) (W := fun e => ext e.2) (dW := fun w => ext w.2)
    (fun e => rfl) (fun i => fd_ext (ContinuousLinearMap.fst ℝ (Fin n → ℝ) (Fin q → ℝ)) _ i)
    (fun i => fd_ext (ContinuousLinearMap.snd ℝ (Fin n → ℝ) (Fin q → ℝ)) _ i) h0 hA g2 hbase
  choose D hD1 hD2 using e3.lin.yder
  choose Dz hDz1 hDz2 using e3.sder
  have hev : ∀ᶠ a : (Fin n → ℝ) × (Fin q → ℝ) in 𝓝 (x0, w0), (∀ j, p.swOut (ext a.1) (ext a.2) par s.se j = (S' a).z.y[j]?.getD 0) ∧
      ∀ k, p.swArg (ext a.1) (ext a.2) par s.se k = (S' a).sw[k]?.getD 0 := by
    filter_upwards [e1] with a ha
    rcases recorded_sw hal p hs hrec T0 ⟨ext a.1, par, keep⟩ (ext a.2) N with ⟨e', z', k1, k2, k3, k4⟩ | ⟨k1, k2⟩
    · rw [ha] at k2
      cases k2
      have k1' : p.swSpec (ext a.1) (ext a.2) par s.se [] = some (e', (S' a).sw, p.path cfg s) := k1
      exact ⟨fun j => by simp only [Prog.swOut, k1', k3], fun k => by simp only [Prog.swArg, k1']⟩
    · exact absurd ha (k1 _)
  have hb := e1.self_of_nhds
  rw [g2] at hb
  cases hb
  refine ⟨S' (x0, w0), D, Dz, hzpl, gs.symm, g3, g4, fun j => ?_, fun k => ?_, ?_, fun a => ?_, ?_⟩
  · exact (hD1 j).congr_of_eventuallyEq (by filter_upwards [hev] with a ha; exact ha.1 j)
  · exact (hDz1 k).congr_of_eventuallyEq (by filter_upwards [hev] with a ha; exact ha.2 k)
  · intro k l hl hkl
    let P : ((Fin n → ℝ) × (Fin q → ℝ)) →L[ℝ] ((Fin n → ℝ) × (Fin q → ℝ)) :=
      ContinuousLinearMap.prodMap (ContinuousLinearMap.id ℝ _)
        (ContinuousLinearMap.pi fun i : Fin q => if i = ⟨l, hl⟩ then 0 else ContinuousLinearMap.proj (R := ℝ) (φ := fun _ : Fin q => ℝ) i)
    let π : ((Fin n → ℝ) × (Fin q → ℝ)) → ((Fin n → ℝ) × (Fin q → ℝ)) := fun a => P a + ((x0, w0) - P (x0, w0))
    have hπ0 : π (x0, w0) = (x0, w0) := by simp [π]
    have hπd : HasFDerivAt π P (x0, w0) := (P.hasFDerivAt).add_const _
    have hπ1 : ∀ a, (π a).1 = a.1 := by intro a; simp [π, P]
    have hπ2 : ∀ a (i : Fin q), i ≠ ⟨l, hl⟩ → (π a).2 i = a.2 i := by intro a i hi; simp [π, P, hi]
    have hev2 : (fun a => (S' (π a)).sw[k]?.getD 0) =ᶠ[𝓝 (x0, w0)] fun a => (S' a).sw[k]?.getD 0 := by
      have h1 : ∀ᶠ a in 𝓝 (x0, w0), zswRun ⟨ext (π a).1, par, keep⟩ (ext (π a).2) (s'.tape N) ⟨ZS.start T0, []⟩ = .ok (S' (π a)) := by
        have hc : Tendsto π (𝓝 (x0, w0)) (𝓝 (x0, w0)) := by
          have := hπd.continuousAt.tendsto
          rwa [hπ0] at this
        exact hc.eventually e1
      filter_upwards [e1, h1] with a h1 h2
      rw [hπ1] at h2
      have := zsw_lower (l := l) (w := ext (π a).2) (w' := ext a.2) (fun i hi => by
        have hiq : i < q := by omega
        simp only [ext, hiq, dif_pos]
        exact hπ2 a ⟨i, hiq⟩ (fun h => by have := congrArg Fin.val h; simp at this; omega)) h2 h1 k hkl
      rw [this]
    have h3 : HasFDerivAt (fun a => (S' (π a)).sw[k]?.getD 0) ((Dz k).comp P) (x0, w0) := by
      have := hDz1 k
      rw [← hπ0] at this
      exact this.comp (x0, w0) hπd
    have h4 := (hDz1 k).congr_of_eventuallyEq hev2
    rw [h3.unique h4 |>.symm]
    have hP : P (0, Pi.single ⟨l, hl⟩ 1) = 0 := by
      refine Prod.ext (by simp [P]) (funext fun i => ?_)
      by_cases hi : i = ⟨l, hl⟩ <;> simp [P, hi]
    simp [hP]
  · obtain ⟨z', k1, k2⟩ := sw_zos_run (e2 a) (z := ZS.start T0) ⟨rfl, rfl, rfl, rfl, le_refl _⟩
    have k3 := zosPl_zos hzpl
    simp only at k1 k3
    rw [k3] at k1
    cases k1
    refine ⟨F' a, e2 a, k2.stk, by rw [k2.ii, g4], ?_, ?_, fun j => (hD2 j a).symm, fun k => (hDz2 k a).symm⟩
    · rw [e3.lin.dylen, ← g3, e3.lin.ylen]
    · rw [e3.tlen, ← e3.slen (x0, w0), ← gs, hq]
  · filter_upwards [e1, hev] with a h1 h2
    exact ⟨S' a, h1, by rw [e3.slen a, ← e3.slen (x0, w0), ← gs, hq], h2.1, h2.2⟩

/-- The switching function at `(x0, |z|)`, its derivatives and the tangent sweep. -/
theorem recorded_sw_derivative (hal : ∀ k L, cfg.alloc k L ∉ L) (p : Prog ℝ) (hs : s.Start stock)
    (hrec : p.record cfg s = some s') (T0 par : Nat → ℝ) {n : Nat} (x0 : Fin n → ℝ) {e0 : SE ℝ}
    (hpath : p.spec (ext x0) par s.se = some (e0, p.path cfg s))
    (hsm : p.smoothAN (ext x0) par s.se) (N : Nat) (keep : Bool) (q : Nat) (hq : (p.switches (ext x0) par s.se).length = q)
    (w0 : Fin q → ℝ) (hw0 : ∀ k : Fin q, w0 k = |(p.switches (ext x0) par s.se)[(k : Nat)]?.getD 0|) :
    ∃ (z : PlZ ℝ) (D Dz : Nat → ((Fin n → ℝ) × (Fin q → ℝ)) →L[ℝ] ℝ),
      zosPlRun ⟨ext x0, par, keep⟩ (s'.tape N) ⟨ZS.start T0, []⟩ = .ok z ∧ z.sw = p.switches (ext x0) par s.se ∧
      z.z.y = e0.ys ∧ z.z.ii = e0.ii ∧
      (∀ j, HasFDerivAt (fun a : (Fin n → ℝ) × (Fin q → ℝ) => p.swOut (ext a.1) (ext a.2) par s.se j) (D j) (x0, w0)) ∧
      (∀ k, HasFDerivAt (fun a : (Fin n → ℝ) × (Fin q → ℝ) => p.swArg (ext a.1) (ext a.2) par s.se k) (Dz k) (x0, w0)) ∧
      (∀ k l : Nat, (hl : l < q) → k ≤ l → Dz k (0, Pi.single ⟨l, hl⟩ 1) = 0) ∧
      ∀ a : (Fin n → ℝ) × (Fin q → ℝ), ∃ f, swRun ⟨ext x0, par, keep⟩ (ext a.1) (ext a.2) (s'.tape N) ⟨FS.start T0, [], []⟩ = .ok f ∧
        f.f.stk = z.z.stk ∧ f.f.ii = e0.ii ∧ f.f.dy.length = e0.ys.length ∧ f.swT.length = q ∧
        (∀ j, f.f.dy[j]?.getD 0 = D j a) ∧ ∀ k, f.swT[k]?.getD 0 = Dz k a := by
  obtain ⟨z, D, Dz, h1, h2, h3, h4, h5, h6, h7, h8, _⟩ := recorded_sw_derivative_ev hal p hs hrec T0 par x0 hpath hsm N keep q hq w0 hw0
  exact ⟨z, D, Dz, h1, h2, h3, h4, h5, h6, h7, h8⟩
end
end Verif.AD
