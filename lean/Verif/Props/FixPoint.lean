import Verif.Drivers.FixPoint
import Verif.Props.Drivers
import Mathlib.Data.Fin.Tuple.Basic
import Mathlib.Analysis.Seminorm

/-!
# C49: fixed point iterations

`pt x u` is the vector of the `nx` components of `x` and the `nu` components of `u`.
-/
set_option linter.all false
namespace Verif.Props.FixPoint
open Verif.AD Verif.Props.AD Verif.Props.Drivers Verif.Drivers Elem Filter Topology

variable {nx nu : Nat}

/-- `(x, u)` -/
def pt (x : Fin nx → ℝ) (u : Fin nu → ℝ) : Fin (nx + nu) → ℝ := Fin.append x u

/-- The first `nx` entries of an array. -/
def fx (nx : Nat) (a : Nat → ℝ) : Fin nx → ℝ := fun i => a i

theorem setX_pt {y a : Nat → ℝ} {x x' : Fin nx → ℝ} {u : Fin nu → ℝ} (hy : ∀ i : Fin nx, y i = x' i) (ha : ∀ i, nx ≤ i → a i = ext (pt x u) i) :
    setX nx y a = ext (pt x' u) := by
  funext i
  simp only [setX]
  split_ifs with h
  · rw [hy ⟨i, h⟩]
    simp only [ext, pt]
    rw [dif_pos (by omega)]
    exact (Fin.append_left x' u ⟨i, h⟩).symm
  · rw [ha i (by omega)]
    simp only [ext, pt]
    split_ifs with h2
    · have : (⟨i, h2⟩ : Fin (nx + nu)) = Fin.natAdd nx ⟨i - nx, by omega⟩ := by ext; simp; omega
      rw [this, Fin.append_right, Fin.append_right]
    · rfl

section value
variable {c : Fpi ℝ} {u : Fin nu → ℝ} {g : (Fin nx → ℝ) → Fin nx → ℝ} {ν : Seminorm ℝ (Fin nx → ℝ)}

theorem fpLoop_spec (hnx : c.nx = nx) (hdbl : ∀ x (i : Fin nx), c.dbl (ext (pt x u)) i = g x i) (hν : ∀ a, c.norm a = ν (fx nx a))
    (fuel : Nat) : ∀ (k : Nat) (x : Fin nx → ℝ) (xu xf : Nat → ℝ), (∀ i, nx ≤ i → xu i = ext (pt x u) i) → (∀ i : Fin nx, xf i = x i) →
    (∀ k', (fpLoop c fuel k xu xf).1 = some k' → ∃ j, k' = k + j ∧ j < fuel ∧ (∀ i : Fin nx, (fpLoop c fuel k xu xf).2.2 i = g^[j + 1] x i) ∧
      ν (g^[j + 1] x - g^[j] x) < c.eps ∧ ∀ l < j, c.eps ≤ ν (g^[l + 1] x - g^[l] x)) ∧
    ((fpLoop c fuel k xu xf).1 = none → (∀ i : Fin nx, (fpLoop c fuel k xu xf).2.2 i = g^[fuel] x i) ∧
      ∀ l < fuel, c.eps ≤ ν (g^[l + 1] x - g^[l] x)) := by
  induction fuel with
  | zero =>
    intro k x xu xf h1 h2
    exact ⟨fun k' h => by simp [fpLoop] at h, fun _ => ⟨h2, fun l hl => by omega⟩⟩
  | succ fuel ih =>
    intro k x xu xf h1 h2
    have e1 : setX c.nx xf xu = ext (pt x u) := by rw [hnx]; exact setX_pt h2 h1
    have e2 : ∀ i : Fin nx, setX c.nx (c.dbl (ext (pt x u))) xf i = g x i := fun i => by
      simp only [setX, hnx, i.2, if_true]; exact hdbl x i
    have e3 : fx nx (setX c.nx (fun i => setX c.nx (c.dbl (ext (pt x u))) xf i - ext (pt x u) i) (ext (pt x u))) = g x - x := by
      funext i
      simp only [fx]
      have e4 : ∀ (y a : Nat → ℝ), setX c.nx y a i = y i := fun y a => by simp only [setX]; rw [if_pos (by rw [hnx]; exact i.2)]
      rw [e4, e2 i]
      have : ext (pt x u) i = x i := by
        simp only [ext, pt]
        rw [dif_pos (by omega)]
        exact Fin.append_left x u i
      rw [this]; rfl
    simp only [fpLoop, e1]
    rw [hν, e3]
    by_cases hc : ν (g x - x) < c.eps
    · rw [if_pos hc]
      refine ⟨fun k' h => ⟨0, ?_, by omega, e2, by simpa using hc, fun l hl => by omega⟩, fun h => by simp at h⟩
      simp only [Option.some.injEq] at h
      omega
    · rw [if_neg hc]
      have := ih (k + 1) (g x) (setX c.nx (fun i => setX c.nx (c.dbl (ext (pt x u))) xf i - ext (pt x u) i) (ext (pt x u)))
        (setX c.nx (c.dbl (ext (pt x u))) xf) (fun i hi => by
          simp only [setX]
          rw [if_neg (by omega)]
          simp only [ext, pt]
          split_ifs with h3
          · have : (⟨i, h3⟩ : Fin (nx + nu)) = Fin.natAdd nx ⟨i - nx, by omega⟩ := by ext; simp; omega
            rw [this, Fin.append_right, Fin.append_right]
          · rfl) e2
      refine ⟨fun k' h => ?_, fun h => ?_⟩
      · obtain ⟨j, j1, j2, j3, j4, j5⟩ := this.1 k' h
        refine ⟨j + 1, by omega, by omega, fun i => ?_, ?_, fun l hl => ?_⟩
        · rw [j3 i]; rfl
        · rw [Function.iterate_succ_apply, Function.iterate_succ_apply]; exact j4
        · cases l with
          | zero => simpa using not_lt.1 hc
          | succ l => rw [Function.iterate_succ_apply, Function.iterate_succ_apply]; exact j5 l (by omega)
      · obtain ⟨j1, j2⟩ := this.2 h
        refine ⟨fun i => by rw [j1 i, Function.iterate_succ_apply], fun l hl => ?_⟩
        cases l with
        | zero => simpa using not_lt.1 hc
        | succ l => rw [Function.iterate_succ_apply, Function.iterate_succ_apply]; exact j2 l (by omega)

/-- C49, values: `fp_iteration` (and `zos_forward` on the trace it is part of) computes `x ← g(x)`, `g = double_func(·, u)`, from `x_0` until the
step is smaller than `epsilon`: the number returned is the first such step, -1 if it is not among the first `N_max`. -/
theorem C49_iteration (hnx : c.nx = nx) (hdbl : ∀ x (i : Fin nx), c.dbl (ext (pt x u)) i = g x i) (hν : ∀ a, c.norm a = ν (fx nx a))
    (x0 : Fin nx → ℝ) (xf0 : Nat → ℝ) :
    (∀ k, (fpZos c (ext (pt x0 u)) xf0).1 = some k → 1 ≤ k ∧ k ≤ c.nMax ∧ fx nx (fpZos c (ext (pt x0 u)) xf0).2.2 = g^[k] x0 ∧
      ν (g^[k] x0 - g^[k - 1] x0) < c.eps ∧ ∀ l, 1 ≤ l → l < k → c.eps ≤ ν (g^[l] x0 - g^[l - 1] x0)) ∧
    ((fpZos c (ext (pt x0 u)) xf0).1 = none → fx nx (fpZos c (ext (pt x0 u)) xf0).2.2 = g^[c.nMax] x0 ∧
      ∀ l, 1 ≤ l → l ≤ c.nMax → c.eps ≤ ν (g^[l] x0 - g^[l - 1] x0)) := by
  have := fpLoop_spec hnx hdbl hν c.nMax 1 x0 (ext (pt x0 u)) (setX c.nx (ext (pt x0 u)) xf0) (fun _ _ => rfl) (fun i => by
    simp only [setX, hnx, i.2, if_true, ext, pt]
    rw [dif_pos (by omega)]
    exact Fin.append_left x0 u i)
  refine ⟨fun k hk => ?_, fun hk => ?_⟩
  · obtain ⟨j, j1, j2, j3, j4, j5⟩ := this.1 k hk
    subst j1
    refine ⟨by omega, by omega, ?_, ?_, fun l h1 h2 => ?_⟩
    · funext i; rw [add_comm 1 j]; exact j3 i
    · rw [add_comm 1 j]; exact j4
    · have := j5 (l - 1) (by omega)
      rwa [Nat.sub_add_cancel h1] at this
  · obtain ⟨j1, j2⟩ := this.2 hk
    refine ⟨by funext i; exact j1 i, fun l h1 h2 => ?_⟩
    have := j2 (l - 1) (by omega)
    rwa [Nat.sub_add_cancel h1] at this

/-- C49, values: if `g` is a contraction on a set it maps to itself, then the result is close to every fixed point in that set; and the iteration
ends if `N_max` is large enough. -/
theorem C49_fixed_point (hnx : c.nx = nx) (hdbl : ∀ x (i : Fin nx), c.dbl (ext (pt x u)) i = g x i) (hν : ∀ a, c.norm a = ν (fx nx a))
    {S : Set (Fin nx → ℝ)} {q : ℝ} (hq0 : 0 ≤ q) (hq1 : q < 1) (hS : ∀ x ∈ S, g x ∈ S) (hg : ∀ x ∈ S, ∀ y ∈ S, ν (g x - g y) ≤ q * ν (x - y))
    {x0 : Fin nx → ℝ} (hx0 : x0 ∈ S) (xf0 : Nat → ℝ) :
    (∀ k, (fpZos c (ext (pt x0 u)) xf0).1 = some k → ∀ xs ∈ S, g xs = xs →
      ν (fx nx (fpZos c (ext (pt x0 u)) xf0).2.2 - xs) ≤ q / (1 - q) * c.eps) ∧
    (0 < c.nMax → q ^ (c.nMax - 1) * ν (g x0 - x0) < c.eps → ∃ k, (fpZos c (ext (pt x0 u)) xf0).1 = some k) := by
  have hit : ∀ k, g^[k] x0 ∈ S := fun k => by
    induction k with
    | zero => exact hx0
    | succ k ih => rw [Function.iterate_succ_apply']; exact hS _ ih
  obtain ⟨h1, h2⟩ := C49_iteration (u := u) (g := g) (ν := ν) hnx hdbl hν x0 xf0
  refine ⟨fun k hk xs hxs hfix => ?_, fun hpos hsmall => ?_⟩
  · obtain ⟨k1, k2, k3, k4, _⟩ := h1 k hk
    rw [k3]
    obtain ⟨j, rfl⟩ := Nat.exists_eq_add_of_le' k1
    rw [Nat.add_sub_cancel] at k4
    have e1 : ν (g^[j + 1] x0 - xs) ≤ q * ν (g^[j] x0 - xs) := by
      rw [Function.iterate_succ_apply']
      conv_lhs => rw [← hfix]
      exact hg _ (hit j) _ hxs
    have e2 : ν (g^[j] x0 - xs) ≤ ν (g^[j + 1] x0 - g^[j] x0) + ν (g^[j + 1] x0 - xs) := by
      have := map_add_le_add ν (g^[j] x0 - g^[j + 1] x0) (g^[j + 1] x0 - xs)
      rw [sub_add_sub_cancel, map_sub_rev ν (g^[j] x0) (g^[j + 1] x0)] at this
      exact this
    have h1q : 0 < 1 - q := by linarith
    rw [div_mul_eq_mul_div, le_div_iff₀ h1q]
    nlinarith
  · cases hk : (fpZos c (ext (pt x0 u)) xf0).1 with
    | some k => exact ⟨k, rfl⟩
    | none =>
      exfalso
      have := (h2 hk).2 c.nMax hpos (le_refl _)
      have hstep : ∀ j, ν (g^[j + 1] x0 - g^[j] x0) ≤ q ^ j * ν (g x0 - x0) := fun j => by
        induction j with
        | zero => simp
        | succ j ih =>
          rw [Function.iterate_succ_apply' g (j + 1), Function.iterate_succ_apply' g j]
          refine le_trans (hg _ ?_ _ (hit j)) ?_
          · rw [← Function.iterate_succ_apply' g j]; exact hit (j + 1)
          · rw [← Function.iterate_succ_apply' g j, pow_succ, mul_comm (q ^ j), mul_assoc]
            exact mul_le_mul_of_nonneg_left ih hq0
      have h3 := hstep (c.nMax - 1)
      rw [Nat.sub_add_cancel hpos] at h3
      linarith
end value

section deriv
variable {cfg : RCfg ℝ} {stock : List (Nat × List ℝ)} {s s' : Rec ℝ} {p : Prog ℝ} {N : Nat}

/-- The traced function `x ↦ G(x, u)`. -/
noncomputable def G (p : Prog ℝ) (s : Rec ℝ) (par : Nat → ℝ) (nx nu : Nat) (x : Fin nx → ℝ) (u : Fin nu → ℝ) : Fin nx → ℝ :=
  fun i => F p s par (nx + nu) i (pt x u)

/-- Its derivative at `(x, u)` in the direction `(v, w)`. -/
noncomputable def dG (p : Prog ℝ) (s : Rec ℝ) (par : Nat → ℝ) (nx nu : Nat) (x : Fin nx → ℝ) (u : Fin nu → ℝ) (v : Fin nx → ℝ) (w : Fin nu → ℝ) : Fin nx → ℝ :=
  fun i => fderiv ℝ (F p s par (nx + nu) i) (pt x u) (pt v w)

/-- The point is on the recorded path, the trace has `nx` dependents there and its elementary functions are smooth. -/
def OnPath (cfg : RCfg ℝ) (s : Rec ℝ) (p : Prog ℝ) (par : Nat → ℝ) (b : Sm) (nx nu : Nat) (x : Fin nx → ℝ) (u : Fin nu → ℝ) : Prop :=
  (∃ e0, p.spec (ext (pt x u)) par s.se = some (e0, p.path cfg s) ∧ e0.ii = nx + nu ∧ e0.ys.length = nx) ∧ p.smooth b (ext (pt x u)) par s.se

theorem pt_add (x x' : Fin nx → ℝ) (u u' : Fin nu → ℝ) : pt (x + x') (u + u') = pt x u + pt x' u' := by
  funext i
  refine Fin.addCases (fun i => ?_) (fun i => ?_) i <;> simp [pt]

theorem pt_sub (x x' : Fin nx → ℝ) (u u' : Fin nu → ℝ) : pt (x - x') (u - u') = pt x u - pt x' u' := by
  funext i
  refine Fin.addCases (fun i => ?_) (fun i => ?_) i <;> simp [pt]

theorem ext_left (x : Fin nx → ℝ) (u : Fin nu → ℝ) (i : Fin nx) : ext (pt x u) i = x i := by
  simp only [ext, pt]
  rw [dif_pos (by omega)]
  exact Fin.append_left x u i

theorem ext_right (x x' : Fin nx → ℝ) (u : Fin nu → ℝ) {i : Nat} (hi : nx ≤ i) : ext (pt x u) i = ext (pt x' u) i := by
  simp only [ext, pt]
  split_ifs with h3
  · have : (⟨i, h3⟩ : Fin (nx + nu)) = Fin.natAdd nx ⟨i - nx, by omega⟩ := by ext; simp; omega
    rw [this, Fin.append_right, Fin.append_right]
  · rfl

theorem setX_lt {y a : Nat → ℝ} (i : Fin nx) : setX nx y a i = y i := by simp only [setX]; rw [if_pos i.2]

theorem F_diff (h : Traced cfg stock s p s' N) {par : Nat → ℝ} {x : Fin nx → ℝ} {u : Fin nu → ℝ}
    (hp : OnPath cfg s p par .fwd nx nu x u) (i : Nat) : DifferentiableAt ℝ (F p s par (nx + nu) i) (pt x u) := by
  obtain ⟨⟨e0, h1, _, _⟩, h2⟩ := hp
  obtain ⟨D, d1, _⟩ := C11_fos_forward_partial h par true (pt x u) h1 h2
  exact (d1 i).differentiableAt

/-- One pass of `fp_fos_forward`. -/
theorem fpFosBody_ok (h : Traced cfg stock s p s' N) {par : Nat → ℝ} {c : Fpi ℝ} (hnx : c.nx = nx) (hsub : c.sub = tapeOf s' N par (nx + nu) nx) (keep : Bool)
    {x v : Fin nx → ℝ} {u w : Fin nu → ℝ} (hp : OnPath cfg s p par .fwd nx nu x u) (k : Nat) (st : FpSt ℝ)
    (hu : ∀ i, nx ≤ i → st.xu i = ext (pt x u) i) (hw : ∀ i, nx ≤ i → st.xuD i = ext (pt v w) i)
    (hx : ∀ i : Fin nx, (if 1 < k then st.xf i else st.xu i) = x i) (hv : ∀ i : Fin nx, (if 1 < k then st.xfD i else st.xuD i) = v i) :
    ∃ st', fpFosBody c keep k st = .ok st' ∧ fx nx st'.xf = G p s par nx nu x u ∧ fx nx st'.xfD = dG p s par nx nu x u v w ∧
      fx nx st'.xu = G p s par nx nu x u - x ∧ fx nx st'.xuD = dG p s par nx nu x u v w - v ∧
      (∀ i, nx ≤ i → st'.xu i = ext (pt x u) i) ∧ (∀ i, nx ≤ i → st'.xuD i = ext (pt v w) i) ∧
      (keep = true → ∃ z, zosRun ⟨ext (pt x u), par, true⟩ (s'.tape N) ZS.init = .ok z ∧ st'.kept = z.stk) := by
  have a1 : (if 1 < k then setX c.nx st.xf st.xu else st.xu) = ext (pt x u) := by
    rw [hnx]
    split_ifs at hx ⊢
    · exact setX_pt hx hu
    · funext i
      by_cases hi : i < nx
      · rw [hx ⟨i, hi⟩, ext_left x u ⟨i, hi⟩]
      · exact hu i (by omega)
  have a2 : (if 1 < k then setX c.nx st.xfD st.xuD else st.xuD) = ext (pt v w) := by
    rw [hnx]
    split_ifs at hv ⊢
    · exact setX_pt hv hw
    · funext i
      by_cases hi : i < nx
      · rw [hv ⟨i, hi⟩, ext_left v w ⟨i, hi⟩]
      · exact hw i (by omega)
  obtain ⟨⟨e0, g1, g2, g3⟩, g4⟩ := hp
  obtain ⟨D, d1, d2⟩ := C11_fos_forward_partial h par keep (pt x u) g1 g4
  obtain ⟨f, f1, f2, f3, f4⟩ := d2 (pt v w)
  have hy : ∀ i : Fin nx, f.y[(i : Nat)]?.getD 0 = G p s par nx nu x u i := fun i => by
    simp only [G, Props.Drivers.F, Prog.out, g1, f2, Option.map_some, Option.getD_some]
  have hdy : ∀ i : Fin nx, f.dy[(i : Nat)]?.getD 0 = dG p s par nx nu x u v w i := fun i => by
    rw [f4 i]
    simp only [dG]
    rw [show F p s par (nx + nu) i = fun x => p.out (ext x) par s.se i from rfl, (d1 i).fderiv]
  refine ⟨⟨setX c.nx (fun i => setX c.nx (fun i => f.y[i]?.getD 0) st.xf i - ext (pt x u) i) (ext (pt x u)),
    setX c.nx (fun i => setX c.nx (fun i => f.dy[i]?.getD 0) st.xfD i - ext (pt v w) i) (ext (pt v w)),
    setX c.nx (fun i => f.y[i]?.getD 0) st.xf, setX c.nx (fun i => f.dy[i]?.getD 0) st.xfD, if keep then f.stk else st.kept⟩, ?_, ?_, ?_, ?_, ?_, ?_, ?_, ?_⟩
  · simp only [fpFosBody, a1, a2, hsub, tapeOf, f1, fwd, Bind.bind, Except.bind]
  · funext i; simp only [fx, hnx, setX_lt]; exact hy i
  · funext i; simp only [fx, hnx, setX_lt]; exact hdy i
  · funext i; simp only [fx, hnx, setX_lt, Pi.sub_apply]; rw [hy i, ext_left]
  · funext i; simp only [fx, hnx, setX_lt, Pi.sub_apply]; rw [hdy i, ext_left]
  · intro i hi; simp only [hnx, setX]; rw [if_neg (by omega)]
  · intro i hi; simp only [hnx, setX]; rw [if_neg (by omega)]
  · intro hk
    subst hk
    have hr := fos_zos_run ⟨ext (pt x u), par, true⟩ (ext (pt v w)) (s'.tape N) (s := FS.init) (z := ZS.init) ⟨rfl, rfl, rfl, rfl, le_refl _⟩
    rw [f1] at hr
    cases hz : zosRun ⟨ext (pt x u), par, true⟩ (s'.tape N) ZS.init with
    | error e => rw [hz] at hr; exact hr.elim
    | ok z => rw [hz] at hr; exact ⟨z, rfl, hr.stk⟩

/-- The iterates of `fp_fos_forward`: `x ← G(x, u)`, `v ← G'(x, u) (v, w)`. -/
noncomputable def step (p : Prog ℝ) (s : Rec ℝ) (par : Nat → ℝ) (nx nu : Nat) (u w : Fin nu → ℝ) (z : (Fin nx → ℝ) × (Fin nx → ℝ)) : (Fin nx → ℝ) × (Fin nx → ℝ) :=
  (G p s par nx nu z.1 u, dG p s par nx nu z.1 u z.2 w)

/-- What the loop has returned in pass `k`. -/
structure Returned (p : Prog ℝ) (s s' : Rec ℝ) (N : Nat) (par : Nat → ℝ) (c : Fpi ℝ) (keep : Bool) (nx nu : Nat) (u w : Fin nu → ℝ) (z : (Fin nx → ℝ) × (Fin nx → ℝ)) (st : FpSt ℝ) : Prop where
  xf : fx nx st.xf = (step p s par nx nu u w z).1
  xfD : fx nx st.xfD = (step p s par nx nu u w z).2
  err : c.norm st.xu < c.eps
  errD : c.normD st.xuD < c.epsD
  dx : fx nx st.xu = (step p s par nx nu u w z).1 - z.1
  dv : fx nx st.xuD = (step p s par nx nu u w z).2 - z.2
  kept : keep = true → ∃ zz, zosRun ⟨ext (pt z.1 u), par, true⟩ (s'.tape N) ZS.init = .ok zz ∧ st.kept = zz.stk

theorem fpFosLoop_ok (h : Traced cfg stock s p s' N) {par : Nat → ℝ} {c : Fpi ℝ} (hnx : c.nx = nx) (hsub : c.sub = tapeOf s' N par (nx + nu) nx) (keep : Bool)
    {u w : Fin nu → ℝ} {S : Set (Fin nx → ℝ)} (hS : ∀ x ∈ S, G p s par nx nu x u ∈ S ∧ OnPath cfg s p par .fwd nx nu x u) (fuel : Nat) :
    ∀ (k : Nat) (x v : Fin nx → ℝ) (st : FpSt ℝ), 0 < k → x ∈ S → (∀ i, nx ≤ i → st.xu i = ext (pt x u) i) → (∀ i, nx ≤ i → st.xuD i = ext (pt v w) i) →
    (∀ i : Fin nx, (if 1 < k then st.xf i else st.xu i) = x i) → (∀ i : Fin nx, (if 1 < k then st.xfD i else st.xuD i) = v i) →
    ∃ r st', fpFosLoop c keep fuel k st = .ok (r, st') ∧ ∀ k', r = some k' → ∃ j, k' = k + j ∧ j < fuel ∧
      Returned p s s' N par c keep nx nu u w ((step p s par nx nu u w)^[j] (x, v)) st' := by
  induction fuel with
  | zero => exact fun k x v st _ _ _ _ _ _ => ⟨none, st, rfl, fun k' h => by cases h⟩
  | succ fuel ih =>
    intro k x v st hk hx h1 h2 h3 h4
    obtain ⟨st', g1, g2, g3, g4, g5, g6, g7, g8⟩ := fpFosBody_ok h hnx hsub keep (hS x hx).2 k st h1 h2 h3 h4
    simp only [fpFosLoop, g1, Bind.bind, Except.bind]
    by_cases hc : c.norm st'.xu < c.eps ∧ c.normD st'.xuD < c.epsD
    · rw [if_pos hc]
      exact ⟨some k, st', rfl, fun k' hk' => ⟨0, by simp at hk'; omega, by omega, ⟨g2, g3, hc.1, hc.2, g4, g5, g8⟩⟩⟩
    · rw [if_neg hc]
      obtain ⟨r, st2, i1, i2⟩ := ih (k + 1) (G p s par nx nu x u) (dG p s par nx nu x u v w) st' (by omega) (hS x hx).1
        (fun i hi => by rw [g6 i hi]; exact ext_right _ _ _ hi) (fun i hi => by rw [g7 i hi]; exact ext_right _ _ _ hi)
        (fun i => by rw [if_pos (by omega)]; exact congrFun g2 i) (fun i => by rw [if_pos (by omega)]; exact congrFun g3 i)
      refine ⟨r, st2, i1, fun k' hk' => ?_⟩
      obtain ⟨j, j1, j2, j3⟩ := i2 k' hk'
      exact ⟨j + 1, by omega, by omega, j3⟩

/-- The derivative of a branch of fixed points solves the linearised equation. -/
theorem implicit (h : Traced cfg stock s p s' N) {par : Nat → ℝ} {u : Fin nu → ℝ} {X : (Fin nu → ℝ) → Fin nx → ℝ} {D : (Fin nu → ℝ) →L[ℝ] (Fin nx → ℝ)}
    (hX : HasFDerivAt X D u) (hfix : ∀ᶠ u' in 𝓝 u, G p s par nx nu (X u') u' = X u') (hp : OnPath cfg s p par .fwd nx nu (X u) u) (w : Fin nu → ℝ) :
    D w = dG p s par nx nu (X u) u (D w) w := by
  have hl : HasDerivAt (fun t : ℝ => u + t • w) w 0 := by
    simpa using ((hasDerivAt_id (0:ℝ)).smul_const w).const_add u
  have h0 : u + (0:ℝ) • w = u := by simp
  have h1 : HasDerivAt (fun t : ℝ => X (u + t • w)) (D w) 0 := by
    rw [← h0] at hX
    exact hX.comp_hasDerivAt 0 hl
  have h2 : HasDerivAt (fun t : ℝ => pt (X (u + t • w)) (u + t • w)) (pt (D w) w) 0 := by
    refine hasDerivAt_pi.2 fun i => ?_
    refine Fin.addCases (fun i => ?_) (fun i => ?_) i
    · simp only [pt, Fin.append_left]; exact hasDerivAt_pi.1 h1 i
    · simp only [pt, Fin.append_right]; exact hasDerivAt_pi.1 hl i
  have hev : ∀ᶠ t in 𝓝 (0:ℝ), G p s par nx nu (X (u + t • w)) (u + t • w) = X (u + t • w) :=
    (hl.continuousAt (x := (0:ℝ))).eventually (p := fun u' => G p s par nx nu (X u') u' = X u') (by beta_reduce; rw [h0]; exact hfix)
  funext i
  have h3 : HasDerivAt (fun t : ℝ => F p s par (nx + nu) i (pt (X (u + t • w)) (u + t • w))) (dG p s par nx nu (X u) u (D w) w i) 0 := by
    have hd := (F_diff h hp i).hasFDerivAt
    rw [show pt (X u) u = pt (X (u + (0:ℝ) • w)) (u + (0:ℝ) • w) by rw [h0]] at hd
    have := hd.comp_hasDerivAt 0 h2
    rw [h0] at this
    exact this
  have h4 : HasDerivAt (fun t : ℝ => X (u + t • w) i) (dG p s par nx nu (X u) u (D w) w i) 0 :=
    h3.congr_of_eventuallyEq (hev.mono fun t ht => (congrFun ht i).symm)
  exact (hasDerivAt_pi.1 h1 i).unique h4

/-- C49, `fos_forward` (partial: restrictions as C11 on the sub-trace; the tangent norm must contract).  Let `G` be the function traced on the sub-tape, `S` a set of points
on the recorded path that `G(·, u)` maps to itself and on which it contracts (factor `q < 1` in the norm of the call), and its derivative contracts tangents.
If `fp_fos_forward` returns a pass number, then `x_fix` is within `q/(1-q) epsilon` of every fixed point in `S`, and the tangent is within
`(q epsilon_deriv + L epsilon/(1-q)) / (1-q)` of the derivative of every differentiable branch `X` of fixed points through it, `L` the Lipschitz constant of
`x ↦ G'(x, u) (X'(u) w, w)`.  With `keep`, the values kept for the reverse sweep are those of a point within `epsilon/(1-q)` of the fixed point. -/
theorem C49_forward_partial (h : Traced cfg stock s p s' N) {par : Nat → ℝ} {c : Fpi ℝ} (hnx : c.nx = nx) (hsub : c.sub = tapeOf s' N par (nx + nu) nx) (keep : Bool)
    {u w : Fin nu → ℝ} {S : Set (Fin nx → ℝ)} (hS : ∀ x ∈ S, G p s par nx nu x u ∈ S ∧ OnPath cfg s p par .fwd nx nu x u)
    {ν μ : Seminorm ℝ (Fin nx → ℝ)} (hν : ∀ a, c.norm a = ν (fx nx a)) (hμ : ∀ a, c.normD a = μ (fx nx a)) {q : ℝ} (hq0 : 0 ≤ q) (hq1 : q < 1)
    (hg : ∀ x ∈ S, ∀ y ∈ S, ν (G p s par nx nu x u - G p s par nx nu y u) ≤ q * ν (x - y))
    (hdg : ∀ x ∈ S, ∀ v, μ (dG p s par nx nu x u v 0) ≤ q * μ v)
    {x0 : Fin nx → ℝ} (hx0 : x0 ∈ S) (v0 : Fin nx → ℝ) (xf0 xfD0 : Nat → ℝ) (kept0 : List ℝ) :
    ∃ r st, fpFos c keep ⟨ext (pt x0 u), ext (pt v0 w), xf0, xfD0, kept0⟩ = .ok (r, st) ∧ ∀ k, r = some k → 1 ≤ k ∧ k < max c.nMax c.nMaxD ∧
      (∀ xs ∈ S, G p s par nx nu xs u = xs → ν (fx nx st.xf - xs) ≤ q / (1 - q) * c.eps) ∧
      (keep = true → ∃ xw ∈ S, (∃ z, zosRun ⟨ext (pt xw u), par, true⟩ (s'.tape N) ZS.init = .ok z ∧ st.kept = z.stk) ∧
        ∀ xs ∈ S, G p s par nx nu xs u = xs → ν (xw - xs) ≤ c.eps / (1 - q)) ∧
      ∀ (X : (Fin nu → ℝ) → Fin nx → ℝ) (D : (Fin nu → ℝ) →L[ℝ] (Fin nx → ℝ)) (L : ℝ), HasFDerivAt X D u → X u ∈ S →
        (∀ᶠ u' in 𝓝 u, G p s par nx nu (X u') u' = X u') → 0 ≤ L →
        (∀ x ∈ S, μ (dG p s par nx nu x u (D w) w - dG p s par nx nu (X u) u (D w) w) ≤ L * ν (x - X u)) →
        μ (fx nx st.xfD - D w) ≤ (q * c.epsD + L * (c.eps / (1 - q))) / (1 - q) := by
  have hit : ∀ j, ((step p s par nx nu u w)^[j] (x0, v0)).1 ∈ S := fun j => by
    induction j with
    | zero => exact hx0
    | succ j ih => rw [Function.iterate_succ_apply']; exact (hS _ ih).1
  have h1q : 0 < 1 - q := by linarith
  obtain ⟨r, st, g1, g2⟩ := fpFosLoop_ok h hnx hsub keep hS (w := w) (max c.nMax c.nMaxD - 1) 1 x0 v0 ⟨ext (pt x0 u), ext (pt v0 w), xf0, xfD0, kept0⟩ (by omega) hx0
    (fun _ _ => rfl) (fun _ _ => rfl) (fun i => by rw [if_neg (by omega)]; exact ext_left _ _ _) (fun i => by rw [if_neg (by omega)]; exact ext_left _ _ _)
  refine ⟨r, st, g1, fun k hk => ?_⟩
  obtain ⟨j, j1, j2, R⟩ := g2 k hk
  set z := (step p s par nx nu u w)^[j] (x0, v0) with hz
  have hzS : z.1 ∈ S := hit j
  have herr : ν (G p s par nx nu z.1 u - z.1) < c.eps := by
    have := R.err
    rwa [hν, R.dx] at this
  have herrD : μ (dG p s par nx nu z.1 u z.2 w - z.2) < c.epsD := by
    have := R.errD
    rwa [hμ, R.dv] at this
  have hval : ∀ xs ∈ S, G p s par nx nu xs u = xs → ν (z.1 - xs) ≤ c.eps / (1 - q) ∧ ν (G p s par nx nu z.1 u - xs) ≤ q / (1 - q) * c.eps := by
    intro xs hxs hfix
    have e1 : ν (G p s par nx nu z.1 u - xs) ≤ q * ν (z.1 - xs) := by
      conv_lhs => rw [← hfix]
      exact hg _ hzS _ hxs
    have e2 : ν (z.1 - xs) ≤ ν (G p s par nx nu z.1 u - z.1) + ν (G p s par nx nu z.1 u - xs) := by
      have := map_add_le_add ν (z.1 - G p s par nx nu z.1 u) (G p s par nx nu z.1 u - xs)
      rw [sub_add_sub_cancel, map_sub_rev ν z.1 (G p s par nx nu z.1 u)] at this
      exact this
    constructor
    · rw [le_div_iff₀ h1q]; nlinarith
    · rw [div_mul_eq_mul_div, le_div_iff₀ h1q]; nlinarith
  refine ⟨by omega, by omega, fun xs hxs hfix => ?_, fun hk => ⟨z.1, hzS, R.kept hk, fun xs hxs hfix => (hval xs hxs hfix).1⟩, fun X D L hX hXS hXfix hL0 hL => ?_⟩
  · rw [R.xf]; exact (hval xs hxs hfix).2
  · have hD := implicit h hX hXfix (hS _ hXS).2 w
    have hfix := hXfix.self_of_nhds
    rw [R.xfD]
    show μ (dG p s par nx nu z.1 u z.2 w - D w) ≤ _
    have e1 : dG p s par nx nu z.1 u z.2 w - D w = dG p s par nx nu z.1 u (z.2 - D w) 0 + (dG p s par nx nu z.1 u (D w) w - dG p s par nx nu (X u) u (D w) w) := by
      conv_lhs => rw [hD]
      have : dG p s par nx nu z.1 u (z.2 - D w) 0 = dG p s par nx nu z.1 u z.2 w - dG p s par nx nu z.1 u (D w) w := by
        funext i
        simp only [dG, Pi.sub_apply]
        rw [← map_sub, ← pt_sub, sub_self]
      rw [this]
      abel
    have e2 : μ (dG p s par nx nu z.1 u z.2 w - D w) ≤ q * μ (z.2 - D w) + L * ν (z.1 - X u) := by
      rw [e1]
      exact le_trans (map_add_le_add μ _ _) (add_le_add (hdg _ hzS _) (hL _ hzS))
    have e3 : μ (z.2 - D w) ≤ μ (dG p s par nx nu z.1 u z.2 w - z.2) + μ (dG p s par nx nu z.1 u z.2 w - D w) := by
      have := map_add_le_add μ (z.2 - dG p s par nx nu z.1 u z.2 w) (dG p s par nx nu z.1 u z.2 w - D w)
      rw [sub_add_sub_cancel, map_sub_rev μ z.2 (dG p s par nx nu z.1 u z.2 w)] at this
      exact this
    have e4 := (hval _ hXS hfix).1
    rw [le_div_iff₀ h1q]
    have e5 : L * ν (z.1 - X u) ≤ L * (c.eps / (1 - q)) := mul_le_mul_of_nonneg_left e4 hL0
    nlinarith

/-- `ξᵀ ∂G/∂x (x, u)` -/
noncomputable def aX (p : Prog ℝ) (s : Rec ℝ) (par : Nat → ℝ) (nx nu : Nat) (x : Fin nx → ℝ) (u : Fin nu → ℝ) (ξ : Fin nx → ℝ) : Fin nx → ℝ :=
  fun i => ∑ j, ξ j * dG p s par nx nu x u (Pi.single i 1) 0 j
/-- `ξᵀ ∂G/∂u (x, u)` -/
noncomputable def aU (p : Prog ℝ) (s : Rec ℝ) (par : Nat → ℝ) (nx nu : Nat) (x : Fin nx → ℝ) (u : Fin nu → ℝ) (ξ : Fin nx → ℝ) : Fin nu → ℝ :=
  fun i => ∑ j, ξ j * dG p s par nx nu x u 0 (Pi.single i 1) j

theorem pt_single_left (i : Fin nx) : pt (Pi.single i 1 : Fin nx → ℝ) (0 : Fin nu → ℝ) = Pi.single (Fin.castAdd nu i) 1 := by
  funext j
  refine Fin.addCases (fun j => ?_) (fun j => ?_) j
  · simp only [pt, Fin.append_left, Pi.single_apply]
    by_cases hj : j = i <;> simp [hj]
  · simp only [pt, Fin.append_right, Pi.single_apply, Pi.zero_apply]
    rw [if_neg]
    intro h
    have := congrArg Fin.val h
    simp at this
    omega

theorem pt_single_right (i : Fin nu) : pt (0 : Fin nx → ℝ) (Pi.single i 1 : Fin nu → ℝ) = Pi.single (Fin.natAdd nx i) 1 := by
  funext j
  refine Fin.addCases (fun j => ?_) (fun j => ?_) j
  · simp only [pt, Fin.append_left, Pi.single_apply, Pi.zero_apply]
    rw [if_neg]
    intro h
    have := congrArg Fin.val h
    simp at this
    omega
  · simp only [pt, Fin.append_right, Pi.single_apply]
    by_cases hj : j = i <;> simp [hj]

/-- A reverse sweep on the sub-tape with these kept values differentiates at `(x, u)`. -/
def KeptAt (p : Prog ℝ) (s s' : Rec ℝ) (N : Nat) (par : Nat → ℝ) (nx nu : Nat) (kept : List ℝ) (x : Fin nx → ℝ) (u : Fin nu → ℝ) : Prop :=
  ∀ ξ : Nat → ℝ, ∃ r, revRun ξ (s'.tape N) (RS.init (nx + nu) nx kept) = .ok r ∧
    (∀ i : Fin nx, r.bar i = aX p s par nx nu x u (fx nx ξ) i) ∧ ∀ i : Fin nu, r.bar (nx + i) = aU p s par nx nu x u (fx nx ξ) i

theorem keptAt_of {r : RS ℝ} {par : Nat → ℝ} {x : Fin nx → ℝ} {u : Fin nu → ℝ} {ξ : Nat → ℝ} {D : Nat → (Fin (nx + nu) → ℝ) →L[ℝ] ℝ}
    (hD : ∀ j, HasFDerivAt (fun x => p.out (ext x) par s.se j) (D j) (pt x u))
    (hr : ∀ i : Fin (nx + nu), r.bar i = ∑ j ∈ Finset.range nx, ξ j * D j (Pi.single i 1)) :
    (∀ i : Fin nx, r.bar i = aX p s par nx nu x u (fx nx ξ) i) ∧ ∀ i : Fin nu, r.bar (nx + i) = aU p s par nx nu x u (fx nx ξ) i := by
  have hf : ∀ j, fderiv ℝ (F p s par (nx + nu) j) (pt x u) = D j := fun j => (hD j).fderiv
  constructor
  · intro i
    have := hr (Fin.castAdd nu i)
    rw [Fin.val_castAdd] at this
    rw [this, Finset.sum_range]
    simp only [aX, dG, fx, hf, pt_single_left]
  · intro i
    have := hr (Fin.natAdd nx i)
    rw [Fin.val_natAdd] at this
    rw [this, Finset.sum_range]
    simp only [aU, dG, fx, hf, pt_single_right]

/-- After a forward sweep with `keep` on the sub-tape … -/
theorem keptAt_forward (h : Traced cfg stock s p s' N) (hd : p.disc ⟨Set.univ, ∅⟩) {par : Nat → ℝ} {x : Fin nx → ℝ} {u : Fin nu → ℝ}
    (hp : OnPath cfg s p par .rev nx nu x u) {z : ZS ℝ} (hz : zosRun ⟨ext (pt x u), par, true⟩ (s'.tape N) ZS.init = .ok z) :
    KeptAt p s s' N par nx nu z.stk x u := by
  intro ξ
  obtain ⟨⟨e0, g1, g2, g3⟩, g4⟩ := hp
  obtain ⟨z', hz', D, d1, r, r1, _, r3⟩ := C13_fos_reverse_partial h hd par (pt x u) g1 g2 g4 ξ
  rw [hz] at hz'
  cases hz'
  rw [g3] at r1 r3
  exact ⟨r, r1, keptAt_of d1 r3⟩

/-- … and after `fp_iteration` has traced it. -/
theorem keptAt_taping (h : Traced cfg stock s p s' N) (hk : cfg.keep = true) (hf : p.noFminLL) (hd : p.disc ⟨Set.univ, ∅⟩) {x : Fin nx → ℝ} {u : Fin nu → ℝ}
    (hx : cfg.x = ext (pt x u)) (hp : OnPath cfg s p cfg.par .rev nx nu x u) (hV : ∀ l, N ≤ l → s.V l = 0) :
    KeptAt p s s' N cfg.par nx nu (s'.endStk N) x u := by
  intro ξ
  obtain ⟨⟨e0, g1, g2, g3⟩, g4⟩ := hp
  obtain ⟨D, d1, r, r1, _, r3⟩ := C33_reverse_after_taping_partial h hk hf hd (pt x u) hx g1 g2 g4 hV ξ
  rw [g3] at r1 r3
  exact ⟨r, r1, keptAt_of d1 r3⟩

theorem fpRevLoop_ok {par : Nat → ℝ} {c : Fpi ℝ} (hnx : c.nx = nx) (hnu : c.nu = nu) (hsub : c.sub = tapeOf s' N par (nx + nu) nx)
    {kept : List ℝ} {x : Fin nx → ℝ} {u : Fin nu → ℝ} (hkept : KeptAt p s s' N par nx nu kept x u) {μ : Seminorm ℝ (Fin nx → ℝ)} (hμ : ∀ a, c.normD a = μ (fx nx a))
    (xbar : Nat → ℝ) (fuel : Nat) : ∀ (k : Nat) (U : Nat → ℝ), ∃ r U', fpRevLoop c kept xbar fuel k U = .ok (r, U') ∧
      (∀ k', r = some k' → ∃ j, k' = k + j ∧ j < fuel ∧ ∃ ξ, ξ = (fun η => aX p s par nx nu x u η + fx nx xbar)^[j] (fx nx U) ∧
        μ (aX p s par nx nu x u ξ + fx nx xbar - ξ) < c.epsD ∧ ∀ i : Fin nu, U' (nx + i) = aU p s par nx nu x u ξ i) ∧
      (r = none → ∀ j < fuel, c.epsD ≤ μ ((fun η => aX p s par nx nu x u η + fx nx xbar)^[j + 1] (fx nx U) - (fun η => aX p s par nx nu x u η + fx nx xbar)^[j] (fx nx U))) := by
  induction fuel with
  | zero => exact fun k U => ⟨none, U, rfl, fun _ h => by simp at h, fun _ j hj => by omega⟩
  | succ fuel ih =>
    intro k U
    obtain ⟨r, r1, r2, r3⟩ := hkept (fun i => if i < c.nx then U i else 0)
    have e0 : fx nx (fun i => if i < c.nx then U i else 0) = fx nx U := by funext i; simp [fx, hnx]
    rw [e0] at r2 r3
    have e1 : fx nx (fun i => if i < c.nx then r.bar i + xbar i else r.bar i) = aX p s par nx nu x u (fx nx U) + fx nx xbar := by
      funext i
      simp only [fx, hnx, i.2, if_true, Pi.add_apply]
      rw [r2 i]
    have e2 : fx nx (fun i => if i < c.nx then (if i < c.nx then r.bar i + xbar i else r.bar i) - (if i < c.nx then U i else 0) else 0) =
        aX p s par nx nu x u (fx nx U) + fx nx xbar - fx nx U := by
      funext i
      have := congrFun e1 i
      simp only [fx, hnx, i.2, if_true, Pi.sub_apply] at this ⊢
      rw [this]
    simp only [fpRevLoop, hsub, tapeOf, hnu]
    rw [hnx] at *
    simp only [r1, rev, Bind.bind, Except.bind]
    rw [hμ, e2]
    by_cases hc : μ (aX p s par nx nu x u (fx nx U) + fx nx xbar - fx nx U) < c.epsD
    · rw [if_pos hc]
      refine ⟨some k, _, rfl, fun k' hk' => ⟨0, by simp at hk'; omega, by omega, fx nx U, rfl, hc, fun i => ?_⟩, fun h => by simp at h⟩
      rw [if_neg (by omega)]
      exact r3 i
    · rw [if_neg hc]
      obtain ⟨q, U', i1, i2, i3⟩ := ih (k + 1) (fun i => if i < nx then r.bar i + xbar i else r.bar i)
      rw [e1] at i2 i3
      refine ⟨q, U', i1, fun k' hk' => ?_, fun hn j hj => ?_⟩
      · obtain ⟨j, j1, j2, ξ, j3, j4⟩ := i2 k' hk'
        exact ⟨j + 1, by omega, by omega, ξ, by rw [j3]; rfl, j4⟩
      · cases j with
        | zero => simpa using not_lt.1 hc
        | succ j => exact i3 hn j (by omega)

theorem aX_sub {par : Nat → ℝ} {x : Fin nx → ℝ} {u : Fin nu → ℝ} (ξ η : Fin nx → ℝ) : aX p s par nx nu x u (ξ - η) = aX p s par nx nu x u ξ - aX p s par nx nu x u η := by
  funext i
  simp only [aX, Pi.sub_apply, sub_mul, Finset.sum_sub_distrib]

theorem aU_sub {par : Nat → ℝ} {x : Fin nx → ℝ} {u : Fin nu → ℝ} (ξ η : Fin nx → ℝ) : aU p s par nx nu x u (ξ - η) = aU p s par nx nu x u ξ - aU p s par nx nu x u η := by
  funext i
  simp only [aU, Pi.sub_apply, sub_mul, Finset.sum_sub_distrib]

theorem dG_split {par : Nat → ℝ} {x : Fin nx → ℝ} {u : Fin nu → ℝ} (v : Fin nx → ℝ) (w : Fin nu → ℝ) (ξ : Fin nx → ℝ) :
    ∑ j, ξ j * dG p s par nx nu x u v w j = ∑ i, aX p s par nx nu x u ξ i * v i + ∑ i, aU p s par nx nu x u ξ i * w i := by
  have h1 : pt v w = ∑ i, v i • pt (Pi.single i 1 : Fin nx → ℝ) (0 : Fin nu → ℝ) + ∑ i, w i • pt (0 : Fin nx → ℝ) (Pi.single i 1 : Fin nu → ℝ) := by
    simp only [pt_single_left, pt_single_right]
    rw [pi_eq_sum_univ' (pt v w), Fin.sum_univ_add]
    simp [pt, ← Pi.single_apply]
  have h2 : ∀ j, dG p s par nx nu x u v w j = ∑ i, v i * dG p s par nx nu x u (Pi.single i 1) 0 j + ∑ i, w i * dG p s par nx nu x u 0 (Pi.single i 1) j := fun j => by
    simp only [dG, h1, map_add, map_sum, map_smul, smul_eq_mul]
  simp only [h2, mul_add, Finset.sum_add_distrib, aX, aU, Finset.mul_sum, Finset.sum_mul]
  congr 1
  · rw [Finset.sum_comm]
    refine Finset.sum_congr rfl fun i _ => Finset.sum_congr rfl fun j _ => by ring
  · rw [Finset.sum_comm]
    refine Finset.sum_congr rfl fun i _ => Finset.sum_congr rfl fun j _ => by ring

/-- C49, `fos_reverse` (partial: restrictions as C13 on the sub-trace; the adjoint norm must contract; a differentiable branch of fixed points is given).
Let the kept values of the sub-tape be those of `(xw, u)`, `X` a differentiable branch of fixed points of `G` and `λ = x̄ + λᵀ ∂G/∂x (X u, u)`.  Whatever the
memory of `U` contained: the adjoints of `x_0` are left as they are; if `fp_fos_reverse` returns a pass number, what it adds to the adjoint of `u` is `x̄ᵀ X'(u)` up to
`epsilon_deriv/(1-q)` and the distance of the linearisations at `xw` and `X u` (`C` bounds `ξ ↦ ξᵀ ∂G/∂u w`); and it does if `N_max_deriv` is large enough. -/
theorem C49_reverse_partial (h : Traced cfg stock s p s' N) {par : Nat → ℝ} {c : Fpi ℝ} (hnx : c.nx = nx) (hnu : c.nu = nu) (hsub : c.sub = tapeOf s' N par (nx + nu) nx)
    {kept : List ℝ} {xw : Fin nx → ℝ} {u : Fin nu → ℝ} (hkept : KeptAt p s s' N par nx nu kept xw u) {μ : Seminorm ℝ (Fin nx → ℝ)} (hμ : ∀ a, c.normD a = μ (fx nx a))
    {q : ℝ} (hq0 : 0 ≤ q) (hq1 : q < 1) (hcon : ∀ ξ, μ (aX p s par nx nu xw u ξ) ≤ q * μ ξ) (xbar xubar U0 : Nat → ℝ) :
    ∃ r xub', fpRev c kept xbar U0 xubar = .ok (r, xub') ∧ (∀ i, i < nx ∨ nx + nu ≤ i → xub' i = xubar i) ∧
      (∀ k, r = some k → 1 ≤ k ∧ k < c.nMaxD ∧
        ∀ (X : (Fin nu → ℝ) → Fin nx → ℝ) (D : (Fin nu → ℝ) →L[ℝ] (Fin nx → ℝ)), HasFDerivAt X D u → (∀ᶠ u' in 𝓝 u, G p s par nx nu (X u') u' = X u') →
        OnPath cfg s p par .fwd nx nu (X u) u → ∀ l : Fin nx → ℝ, l = aX p s par nx nu (X u) u l + fx nx xbar →
        ∀ (w : Fin nu → ℝ) (C : ℝ), 0 ≤ C → (∀ ξ, |∑ i, aU p s par nx nu xw u ξ i * w i| ≤ C * μ ξ) →
        |∑ i : Fin nu, (xub' (nx + i) - xubar (nx + i)) * w i - ∑ j, fx nx xbar j * D w j| ≤
          C * ((c.epsD + μ (aX p s par nx nu xw u l - aX p s par nx nu (X u) u l)) / (1 - q)) +
          |∑ i, (aU p s par nx nu xw u l i - aU p s par nx nu (X u) u l i) * w i|) ∧
      (2 ≤ c.nMaxD → q ^ (c.nMaxD - 2) * μ (aX p s par nx nu xw u (fx nx U0) + fx nx xbar - fx nx U0) < c.epsD → ∃ k, r = some k) := by
  obtain ⟨r, U', g1, g2, g3⟩ := fpRevLoop_ok hnx hnu hsub hkept hμ xbar (c.nMaxD - 1) 1 U0
  have h1q : 0 < 1 - q := by linarith
  refine ⟨r, _, by simp only [fpRev, g1, Bind.bind, Except.bind]; rfl, fun i hi => ?_, fun k hk => ?_, fun h2 hsm => ?_⟩
  · beta_reduce
    rw [if_neg (by omega)]
  · obtain ⟨j, j1, j2, ξ, _, j4, j5⟩ := g2 k hk
    refine ⟨by omega, by omega, fun X D hX hfix hp l hl w C hC hb => ?_⟩
    have hD := implicit h hX hfix hp w
    have e1 : ∑ j, fx nx xbar j * D w j = ∑ i, aU p s par nx nu (X u) u l i * w i := by
      have := dG_split (p := p) (s := s) (par := par) (x := X u) (u := u) (D w) w l
      rw [← hD] at this
      have h3 : ∑ j, l j * D w j = ∑ j, aX p s par nx nu (X u) u l j * D w j + ∑ j, fx nx xbar j * D w j := by
        rw [← Finset.sum_add_distrib]
        refine Finset.sum_congr rfl fun j _ => ?_
        rw [← add_mul]
        congr 1
        exact congrFun hl j
      linarith
    have e2 : ∑ i : Fin nu, ((if c.nx ≤ nx + (i : Nat) ∧ nx + (i : Nat) < c.nx + c.nu then xubar (nx + i) + U' (nx + i) else xubar (nx + i)) - xubar (nx + i)) * w i =
        ∑ i, aU p s par nx nu xw u ξ i * w i := by
      refine Finset.sum_congr rfl fun i _ => ?_
      rw [if_pos (by omega), j5 i]
      ring
    have e3 : μ (ξ - l) * (1 - q) ≤ c.epsD + μ (aX p s par nx nu xw u l - aX p s par nx nu (X u) u l) := by
      have h4 : ξ - l = -(aX p s par nx nu xw u ξ + fx nx xbar - ξ) + (aX p s par nx nu xw u (ξ - l) + (aX p s par nx nu xw u l - aX p s par nx nu (X u) u l)) := by
        rw [aX_sub]
        conv_lhs => rw [hl]
        abel
      have h5 : μ (ξ - l) ≤ μ (aX p s par nx nu xw u ξ + fx nx xbar - ξ) + (μ (aX p s par nx nu xw u (ξ - l)) + μ (aX p s par nx nu xw u l - aX p s par nx nu (X u) u l)) := by
        conv_lhs => rw [h4]
        refine le_trans (map_add_le_add μ _ _) (add_le_add ?_ (map_add_le_add μ _ _))
        rw [map_neg_eq_map]
      have := hcon (ξ - l)
      nlinarith
    beta_reduce
    rw [e1, e2]
    have e4 : ∑ i, aU p s par nx nu xw u ξ i * w i - ∑ i, aU p s par nx nu (X u) u l i * w i =
        ∑ i, aU p s par nx nu xw u (ξ - l) i * w i + ∑ i, (aU p s par nx nu xw u l i - aU p s par nx nu (X u) u l i) * w i := by
      rw [← Finset.sum_sub_distrib, ← Finset.sum_add_distrib, aU_sub]
      refine Finset.sum_congr rfl fun i _ => ?_
      simp only [Pi.sub_apply]
      ring
    rw [e4]
    refine le_trans (abs_add_le _ _) (add_le_add (le_trans (hb _) (mul_le_mul_of_nonneg_left ?_ hC)) (le_refl _))
    rw [le_div_iff₀ h1q]
    exact e3
  · cases hr : r with
    | some k => exact ⟨k, rfl⟩
    | none =>
      exfalso
      have hstep : ∀ j, μ ((fun η => aX p s par nx nu xw u η + fx nx xbar)^[j + 1] (fx nx U0) - (fun η => aX p s par nx nu xw u η + fx nx xbar)^[j] (fx nx U0)) ≤
          q ^ j * μ (aX p s par nx nu xw u (fx nx U0) + fx nx xbar - fx nx U0) := fun j => by
        induction j with
        | zero => simp
        | succ j ih =>
          rw [Function.iterate_succ_apply' _ (j + 1), Function.iterate_succ_apply' _ j, pow_succ, mul_comm (q ^ j), mul_assoc]
          beta_reduce
          rw [add_sub_add_right_eq_sub, ← aX_sub]
          refine le_trans (hcon _) (mul_le_mul_of_nonneg_left ?_ hq0)
          rw [Function.iterate_succ_apply' _ j] at ih
          exact ih
      have h3 := hstep (c.nMaxD - 2)
      have h4 := g3 hr (c.nMaxD - 2) (by omega)
      linarith
end deriv

/-! ### Where the code fails -/

/-- `N_max_deriv ≤ 1` (fixpoint.cpp:175): `fp_fos_reverse` makes no pass and adds the contents of uninitialised memory to the adjoints of `u`, on every trace. -/
theorem C49_reverse_uninitialised {K : Type} [Scalar K] (c : Fpi K) (hn : c.nMaxD ≤ 1) (kept : List K) (xbar U0 xubar : Nat → K) :
    ∃ xub', fpRev c kept xbar U0 xubar = .ok (none, xub') ∧ ∀ i < c.nu, xub' (c.nx + i) = xubar (c.nx + i) + U0 (c.nx + i) := by
  have h0 : c.nMaxD - 1 = 0 := by omega
  refine ⟨_, by simp only [fpRev, h0, fpRevLoop, Bind.bind, Except.bind]; rfl, fun i hi => ?_⟩
  beta_reduce
  rw [if_pos (by omega)]

/-- `N_max ≤ 1`, `N_max_deriv ≤ 1` (fixpoint.cpp:124): `fp_fos_forward` makes no pass; `x_fix` and its tangent are not set. -/
theorem C49_forward_no_pass {K : Type} [Scalar K] (c : Fpi K) (hn : c.nMax ≤ 1) (hd : c.nMaxD ≤ 1) (keep : Bool) (st : FpSt K) :
    fpFos c keep st = .ok (none, st) := by
  have h0 : max c.nMax c.nMaxD - 1 = 0 := by omega
  simp only [fpFos, h0, fpFosLoop]

/-- The first external function of every tape has index 0; the callbacks of a second tape find the data of the first (fixpoint.cpp:79-81). -/
theorem C49_two_tapes {α : Type} (A B : α) (stack : List (Nat × α)) (k : Nat) :
    fpFind (fpRegister (fpRegister stack k A) k B) k = fpFind (fpRegister stack k A) k := by
  simp only [fpFind, fpRegister, List.find?_append]
  cases List.find? (fun v => decide (v.1 = k)) stack <;> simp

/-! ### A concrete program: `G(x, u) = x u + u`, with the branch `X(u) = u/(1-u)` of fixed points -/

/-- `y = x*u; y += u;` -/
noncomputable def fpx : Prog ℝ :=
  .stmt (.new 0) <| .stmt (.indep 0) <| .stmt (.new 1) <| .stmt (.indep 1) <|
  .stmt (.new 2) <| .stmt (.bin .mult true 0 1 2) <| .stmt (.accR false 2 1) <| .stmt (.dep 2) .done

theorem fpx_spec (x par : Nat → ℝ) : ∃ e, fpx.spec x par demoStart.se = some (e, []) ∧ e.ii = 2 ∧ e.ys = [x 0 * x 1 + x 1] := by
  simp [fpx, Prog.spec, Stmt.spec, demoStart, Rec.se, SE.set, SE.del, upd_apply, Bin.fn, Un.fn, Elem.exp, Cmp.holds]

theorem fpx_traced : ∃ s', Traced demoCfg [] demoStart fpx s' (s'.hw + 1) ∧ fpx.path demoCfg demoStart = [] := by
  obtain ⟨e, h1, h2, h3⟩ := fpx_spec demoCfg.x demoCfg.par
  exact traced_exists (stock := []) demo_alloc demo_start (by simp [fpx, Prog.noFminLL, Stmt.notFminLL]) h1

theorem fpx_F (par : Nat → ℝ) : F fpx demoStart par (1 + 1) 0 = fun z => z 0 * z 1 + z 1 := by
  funext z
  obtain ⟨e, h1, h2, h3⟩ := fpx_spec (ext z) par
  simp only [F, Prog.out, h1, h3]
  simp [ext]

theorem fpx_G (par : Nat → ℝ) (x u : Fin 1 → ℝ) : G fpx demoStart par 1 1 x u = fun _ => x 0 * u 0 + u 0 := by
  funext i
  obtain rfl : i = 0 := Subsingleton.elim _ _
  simp only [G]
  rw [show ((0 : Fin 1) : Nat) = 0 from rfl, fpx_F]
  rfl

theorem fpx_dG (par : Nat → ℝ) (x u v w : Fin 1 → ℝ) : dG fpx demoStart par 1 1 x u v w = fun _ => v 0 * u 0 + x 0 * w 0 + w 0 := by
  funext i
  obtain rfl : i = 0 := Subsingleton.elim _ _
  simp only [dG]
  rw [show ((0 : Fin 1) : Nat) = 0 from rfl, fpx_F]
  have h0 : HasFDerivAt (fun z : Fin (1 + 1) → ℝ => z 0) (ContinuousLinearMap.proj (R := ℝ) 0) (pt x u) := hasFDerivAt_apply 0 _
  have h1 : HasFDerivAt (fun z : Fin (1 + 1) → ℝ => z 1) (ContinuousLinearMap.proj (R := ℝ) 1) (pt x u) := hasFDerivAt_apply 1 _
  have h2 : HasFDerivAt (fun z : Fin (1 + 1) → ℝ => z 0 * z 1 + z 1) _ (pt x u) := (h0.mul h1).add h1
  rw [h2.fderiv]
  have a0 : ∀ x u : Fin 1 → ℝ, pt x u 0 = x 0 := fun _ _ => rfl
  have a1 : ∀ x u : Fin 1 → ℝ, pt x u 1 = u 0 := fun _ _ => rfl
  simp [a0, a1]
  ring

theorem fpx_path (b : Sm) (par : Nat → ℝ) (x u : Fin 1 → ℝ) : OnPath demoCfg demoStart fpx par b 1 1 x u := by
  obtain ⟨s', _, h5⟩ := fpx_traced
  obtain ⟨e, h1, h2, h3⟩ := fpx_spec (ext (pt x u)) par
  refine ⟨⟨e, by rw [h5]; exact h1, h2, by rw [h3]; rfl⟩, ?_⟩
  simp [fpx, Prog.smooth, Stmt.smooth, Stmt.spec, demoStart, Rec.se, SE.set, SE.del, upd_apply, Bin.fn, Un.fn, Un.smooth, Elem.exp, Cmp.holds]

theorem fpx_aX (par : Nat → ℝ) (x u ξ : Fin 1 → ℝ) : aX fpx demoStart par 1 1 x u ξ = fun _ => ξ 0 * u 0 := by
  funext i
  obtain rfl : i = 0 := Subsingleton.elim _ _
  simp [aX, fpx_dG]

theorem fpx_aU (par : Nat → ℝ) (x u ξ : Fin 1 → ℝ) : aU fpx demoStart par 1 1 x u ξ = fun _ => ξ 0 * (x 0 + 1) := by
  funext i
  obtain rfl : i = 0 := Subsingleton.elim _ _
  simp [aU, fpx_dG]

/-- `X(u) = u/(1-u)` -/
noncomputable def fpX (u : Fin 1 → ℝ) : Fin 1 → ℝ := fun _ => u 0 / (1 - u 0)

/-- The calls of the example: maximum norms, any tolerances. -/
noncomputable def fpc (s' : Rec ℝ) (eps epsD : ℝ) (nMax nMaxD : Nat) : Fpi ℝ :=
  ⟨1, 1, fun xu _ => xu 0 * xu 1 + xu 1, tapeOf s' (s'.hw + 1) (fun _ => 0) (1 + 1) 1, fun a => |a 0|, fun a => |a 0|, eps, epsD, nMax, nMaxD⟩

theorem norm1 (a : Fin 1 → ℝ) : ‖a‖ = |a 0| := by
  rw [show a = fun _ => a 0 from funext fun i => by rw [Subsingleton.elim i 0]]
  simp

theorem fpX_fix (par : Nat → ℝ) (u : Fin 1 → ℝ) (hu : u 0 ≠ 1) : G fpx demoStart par 1 1 (fpX u) u = fpX u := by
  rw [fpx_G]
  funext i
  simp only [fpX]
  have : 1 - u 0 ≠ 0 := fun h => hu (by linarith)
  field_simp
  ring

theorem fpX_deriv (u : Fin 1 → ℝ) (hu : u 0 ≠ 1) :
    HasFDerivAt fpX (ContinuousLinearMap.pi fun _ => (1 / (1 - u 0) ^ 2) • (ContinuousLinearMap.proj 0 : (Fin 1 → ℝ) →L[ℝ] ℝ)) u := by
  refine hasFDerivAt_pi.2 fun i => ?_
  have h0 : HasFDerivAt (fun z : Fin 1 → ℝ => z 0) (ContinuousLinearMap.proj (R := ℝ) 0) u := hasFDerivAt_apply 0 _
  have h1 : 1 - u 0 ≠ 0 := fun h => hu (by linarith)
  have h2 : HasDerivAt (fun t : ℝ => t / (1 - t)) (1 / (1 - u 0) ^ 2) (u 0) := by
    have := (hasDerivAt_id (u 0)).div ((hasDerivAt_id (u 0)).const_sub 1) h1
    simp only [id] at this
    have e : (1 * (1 - u 0) - u 0 * -1) / (1 - u 0) ^ 2 = 1 / (1 - u 0) ^ 2 := by congr 1; ring1
    rw [← e]
    exact this
  exact h2.comp_hasFDerivAt u h0

theorem fpX_ev (u : Fin 1 → ℝ) (hu : u 0 ≠ 1) : ∀ᶠ u' in 𝓝 u, G fpx demoStart (fun _ => 0) 1 1 (fpX u') u' = fpX u' := by
  have : ∀ᶠ u' : Fin 1 → ℝ in 𝓝 u, u' 0 ≠ 1 := (continuous_apply (0 : Fin 1)).continuousAt.eventually (isOpen_ne.mem_nhds hu)
  exact this.mono fun u' h => fpX_fix _ u' h

/-- All hypotheses of `C49_forward_partial` and `C49_reverse_partial` hold for `G(x, u) = x u + u` at every `u` with `|u| < 1`, every start. -/
example : ∃ s', Traced demoCfg [] demoStart fpx s' (s'.hw + 1) ∧ fpx.disc ⟨Set.univ, ∅⟩ ∧ ∀ u : Fin 1 → ℝ, |u 0| < 1 →
    (∀ x ∈ (Set.univ : Set (Fin 1 → ℝ)), G fpx demoStart (fun _ => 0) 1 1 x u ∈ (Set.univ : Set (Fin 1 → ℝ)) ∧ OnPath demoCfg demoStart fpx (fun _ => 0) .fwd 1 1 x u) ∧
    (∀ (eps epsD : ℝ) (a b : Nat) v, (fpc s' eps epsD a b).norm v = normSeminorm ℝ (Fin 1 → ℝ) (fx 1 v) ∧ (fpc s' eps epsD a b).normD v = normSeminorm ℝ (Fin 1 → ℝ) (fx 1 v)) ∧
    (∀ x y, normSeminorm ℝ (Fin 1 → ℝ) (G fpx demoStart (fun _ => 0) 1 1 x u - G fpx demoStart (fun _ => 0) 1 1 y u) ≤ |u 0| * normSeminorm ℝ (Fin 1 → ℝ) (x - y)) ∧
    (∀ x v, normSeminorm ℝ (Fin 1 → ℝ) (dG fpx demoStart (fun _ => 0) 1 1 x u v 0) ≤ |u 0| * normSeminorm ℝ (Fin 1 → ℝ) v) ∧
    (∀ x, ∃ z, zosRun ⟨ext (pt x u), fun _ => 0, true⟩ (s'.tape (s'.hw + 1)) ZS.init = .ok z ∧ KeptAt fpx demoStart s' (s'.hw + 1) (fun _ => 0) 1 1 z.stk x u) ∧
    (∀ x ξ, normSeminorm ℝ (Fin 1 → ℝ) (aX fpx demoStart (fun _ => 0) 1 1 x u ξ) ≤ |u 0| * normSeminorm ℝ (Fin 1 → ℝ) ξ) ∧
    (∀ xbar, ∃ l, l = aX fpx demoStart (fun _ => 0) 1 1 (fpX u) u l + fx 1 xbar) ∧
    (∃ D : (Fin 1 → ℝ) →L[ℝ] (Fin 1 → ℝ), HasFDerivAt fpX D u) ∧ ∀ᶠ u' in 𝓝 u, G fpx demoStart (fun _ => 0) 1 1 (fpX u') u' = fpX u' := by
  obtain ⟨s', h1, _⟩ := fpx_traced
  have hd : fpx.disc ⟨Set.univ, ∅⟩ := by simp [fpx, Prog.disc, Stmt.disc, Stmt.discNext, Stmt.uses]
  refine ⟨s', h1, hd, fun u hu => ?_⟩
  have hu1 : u 0 ≠ 1 := fun h => by rw [h] at hu; simp at hu
  refine ⟨fun x _ => ⟨trivial, fpx_path _ _ _ _⟩, fun eps epsD a b v => ?_, fun x y => ?_, fun x v => ?_, fun x => ?_, fun x ξ => ?_, fun xbar => ?_, ⟨_, fpX_deriv u hu1⟩, fpX_ev u hu1⟩
  · simp [fpc, norm1, fx]
  · simp only [coe_normSeminorm, norm1, Pi.sub_apply, fpx_G]
    rw [← abs_mul]
    exact le_of_eq (congrArg _ (by ring))
  · simp only [coe_normSeminorm, norm1, fpx_dG]
    rw [← abs_mul]
    exact le_of_eq (congrArg _ (by simp; ring))
  · have hp := fpx_path .rev (fun _ => 0) x u
    obtain ⟨⟨e0, g1, g2, g3⟩, g4⟩ := id hp
    obtain ⟨z, hz, _⟩ := C09_zos_forward h1 (ext (pt x u)) (fun _ => 0) true g1
    exact ⟨z, hz, keptAt_forward h1 hd hp hz⟩
  · simp only [coe_normSeminorm, norm1, fpx_aX]
    rw [← abs_mul]
    exact le_of_eq (congrArg _ (by ring))
  · refine ⟨fun _ => xbar 0 / (1 - u 0), ?_⟩
    have : 1 - u 0 ≠ 0 := fun h => hu1 (by linarith)
    funext i
    obtain rfl : i = 0 := Subsingleton.elim _ _
    simp only [fpx_aX, fx, Pi.add_apply]
    rw [show ((0 : Fin 1) : Nat) = 0 from rfl]
    field_simp
    ring

/-- `zos_forward` iterates `double_func` and does not touch the sub-tape (fixpoint.cpp:89-104), so a reverse sweep after `zos_forward` with `keep` at another point
still differentiates at the point of the last `fos_forward` or of the recording.  For `G(x, u) = x u + u`, recorded at the fixed point `x = 1` of `u = 1/2`, and
evaluated at `u = 0` by `zos_forward`, every successful `fp_fos_reverse` returns `4 x̄` up to `4 epsilon_deriv`; the derivative of the fixed point at `u = 0` is 1. -/
theorem C49_zos_forward_stale : ∃ s' z, Traced demoCfg [] demoStart fpx s' (s'.hw + 1) ∧
    zosRun ⟨ext (pt (fun _ : Fin 1 => (1:ℝ)) (fun _ : Fin 1 => 1/2)), fun _ => 0, true⟩ (s'.tape (s'.hw + 1)) ZS.init = .ok z ∧
    ∀ (eps epsD : ℝ) (nMax nMaxD : Nat), 0 < eps → 2 ≤ nMax →
      (∀ xf0, (fpZos (fpc s' eps epsD nMax nMaxD) (ext (pt (fun _ : Fin 1 => (1:ℝ)) (fun _ : Fin 1 => 0))) xf0).2.2 0 = 0) ∧
      (∃ D : (Fin 1 → ℝ) →L[ℝ] (Fin 1 → ℝ), HasFDerivAt fpX D 0 ∧ D (fun _ => 1) 0 = 1) ∧
      ∀ xbar xubar U0, ∃ r xub', fpRev (fpc s' eps epsD nMax nMaxD) z.stk xbar U0 xubar = .ok (r, xub') ∧
        ∀ k, r = some k → |xub' 1 - xubar 1 - 4 * xbar 0| ≤ 4 * epsD := by
  obtain ⟨s', h1, _⟩ := fpx_traced
  have hd : fpx.disc ⟨Set.univ, ∅⟩ := by simp [fpx, Prog.disc, Stmt.disc, Stmt.discNext, Stmt.uses]
  have hp := fpx_path .rev (fun _ => 0) (fun _ : Fin 1 => (1:ℝ)) (fun _ : Fin 1 => 1/2)
  obtain ⟨⟨e0, g1, g2, g3⟩, g4⟩ := id hp
  obtain ⟨z, hz, _⟩ := C09_zos_forward h1 (ext (pt (fun _ : Fin 1 => (1:ℝ)) (fun _ : Fin 1 => 1/2))) (fun _ => 0) true g1
  refine ⟨s', z, h1, hz, fun eps epsD nMax nMaxD heps hn => ⟨fun xf0 => ?_, ⟨_, fpX_deriv 0 (by simp), by simp⟩, fun xbar xubar U0 => ?_⟩⟩
  · obtain ⟨i1, i2⟩ := C49_iteration (nx := 1) (nu := 1) (c := fpc s' eps epsD nMax nMaxD) (u := fun _ => 0) (g := fun _ _ => 0) (ν := normSeminorm ℝ (Fin 1 → ℝ)) rfl
      (fun x i => by
        have e : ext (pt x fun _ : Fin 1 => (0:ℝ)) 1 = 0 := rfl
        simp only [fpc, e, mul_zero, add_zero]) (fun a => by simp [fpc, norm1, fx]) (fun _ => 1) xf0
    have i3 : ∀ k, 1 ≤ k → (fun (_ : Fin 1 → ℝ) (_ : Fin 1) => (0:ℝ))^[k] (fun _ => 1) = fun _ => 0 := fun k hk => by
      obtain ⟨m, rfl⟩ := Nat.exists_eq_add_of_le' hk
      rw [Function.iterate_succ_apply']
    cases hr : (fpZos (fpc s' eps epsD nMax nMaxD) (ext (pt (fun _ : Fin 1 => (1:ℝ)) (fun _ : Fin 1 => 0))) xf0).1 with
    | some k =>
      obtain ⟨a1, _, a2, _⟩ := i1 k hr
      rw [i3 k a1] at a2
      exact congrFun a2 0
    | none =>
      obtain ⟨a2, _⟩ := i2 hr
      rw [i3 (fpc s' eps epsD nMax nMaxD).nMax (show 1 ≤ nMax by omega)] at a2
      exact congrFun a2 0
  · have hk := keptAt_forward h1 hd hp hz
    obtain ⟨r, xub', r1, _, r2, _⟩ := C49_reverse_partial (nx := 1) (nu := 1) h1 (c := fpc s' eps epsD nMax nMaxD) rfl rfl rfl hk (μ := normSeminorm ℝ (Fin 1 → ℝ))
      (fun a => by simp [fpc, norm1, fx]) (q := 1/2) (by norm_num) (by norm_num)
      (fun ξ => by
        simp only [coe_normSeminorm, norm1, fpx_aX]
        rw [abs_mul, abs_of_pos (show (0:ℝ) < 1/2 by norm_num), mul_comm]) xbar xubar U0
    refine ⟨r, xub', r1, fun k hk => ?_⟩
    obtain ⟨_, _, r3⟩ := r2 k hk
    have hX : fpX (fun _ : Fin 1 => (1/2 : ℝ)) = fun _ => 1 := by funext i; simp only [fpX]; norm_num
    have := r3 fpX _ (fpX_deriv (fun _ => 1/2) (by norm_num)) (fpX_ev _ (by norm_num)) (fpx_path _ _ _ _) (fun _ => 2 * xbar 0)
      (by
        funext i
        obtain rfl : i = 0 := Subsingleton.elim _ _
        simp only [fpx_aX, fx, Pi.add_apply]
        rw [show ((0 : Fin 1) : Nat) = 0 from rfl]
        ring) (fun _ => 1) 2 (by norm_num) (fun ξ => by
        simp only [fpx_aU, coe_normSeminorm, norm1, Finset.univ_unique, Finset.sum_singleton, mul_one]
        rw [abs_mul]
        norm_num
        linarith [abs_nonneg (ξ 0)])
    simp only [hX, sub_self, zero_mul, Finset.sum_const_zero, abs_zero, map_zero, add_zero] at this
    simp [fx] at this
    have e1 : xbar 0 * (((1:ℝ) - 2⁻¹) ^ 2)⁻¹ = 4 * xbar 0 := by norm_num; ring
    have e2 : 2 * ((fpc s' eps epsD nMax nMaxD).epsD / (1 - 2⁻¹)) = 4 * epsD := by
      show 2 * (epsD / (1 - 2⁻¹)) = 4 * epsD
      norm_num
      ring
    rwa [e1, e2] at this

end Verif.Props.FixPoint
