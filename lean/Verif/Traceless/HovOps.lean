import Verif.Traceless.HovSpec
import Verif.AD.Jet
/-!
# Traceless higher order mode: the functions
-/
set_option linter.all false
noncomputable section
namespace Verif.TL.Hov
open Filter Topology
open scoped ContDiff
open Verif.AD (tc rerf rcbrt nsmooth tc_congr tc_const tc_add tc_sub tc_neg tc_mul tc_mul_succ tc_div tc_exp tc_sin tc_cos tc_log tc_rpow
  tc_sqrt tc_quad smooth_quad smooth_div smooth_log smooth_rpow smooth_sqrt ev_diff ev_ne tc_zero reflect tc_mul_deriv tc_deriv smooth_deriv)

theorem range_inv {σ : Type} (f : σ → ℕ → σ) (Inv : ℕ → σ → Prop) (n : ℕ) (s : σ) (h0 : Inv 0 s)
    (hs : ∀ a s, a < n → Inv a s → Inv (a + 1) (f s a)) : Inv n ((List.range n).foldl f s) := by
  induction n with
  | zero => simpa using h0
  | succ n ih =>
    rw [List.range_succ, List.foldl_append]
    exact hs n _ (Nat.lt_succ_self n) (ih fun a s ha => hs a s (by omega))

theorem loop2_inv {σ : Type} (A B : ℕ) (f : ℕ → ℕ → σ → σ) (Inv : ℕ → ℕ → σ → Prop) (s : σ) (h0 : Inv 0 0 s)
    (hs : ∀ a b s, a < A → b < B → Inv a b s → Inv a (b + 1) (f a b s)) (hr : ∀ a s, a < A → Inv a B s → Inv (a + 1) 0 s) :
    Inv A 0 (loop2 A B f s) := by
  refine range_inv _ (fun a s => Inv a 0 s) A s h0 fun a s ha h => hr a _ ha ?_
  exact range_inv _ (fun b s => Inv a b s) B s h fun b s hb h => hs a b s ha hb h

theorem sumTo_eq (k : ℕ) (x : ℝ) (f : ℕ → ℝ) : sumTo k x f = x + ∑ j ∈ Finset.range k, f j := by
  have := range_inv (fun s j => s + f j) (fun a s => s = x + ∑ j ∈ Finset.range a, f j) k x (by simp)
    (fun a s _ h => by simp only [h, Finset.sum_range_succ]; ring)
  exact this

theorem fillAdv_lt {P : ℕ} (g : ℕ → ℝ) (r : ℕ → ℝ) {i : ℕ} (hi : i < P) : fillAdv P g r i = g i := by
  have := range_inv (fun r i => put r i (g i)) (fun a r => ∀ i, i < a → r i = g i) P r (by simp)
    (fun a s _ h i hi => by
      simp only [put]
      split_ifs with e
      · rw [e]
      · exact h i (by omega))
  exact this i hi

theorem recHo_target {c : Cfg} {g : ℕ → ℕ → (ℕ → ℕ → ℝ) → ℝ} {t : ℕ → ℝ} {l : ℕ} (hl : l < c.P) (h0 : ℕ → ℕ → ℝ)
    (hg : ∀ k h, k < c.D → (∀ k', k' < k → h k' l = t k') → g k l h = t k) {k : ℕ} (hk : k < c.D) :
    recHo c g h0 k l = t k := by
  have := loop2_inv c.P c.D (fun l k h => put2 h k l (g k l h))
    (fun a b h => (l < a → ∀ k, k < c.D → h k l = t k) ∧ (a = l → ∀ k, k < b → h k l = t k)) h0 (by simp)
    (fun a b s ha hb ⟨h1, h2⟩ => by
      refine ⟨fun h k hk => ?_, fun h k hk => ?_⟩
      · simp only [put2]; rw [if_neg (by omega)]; exact h1 h k hk
      · simp only [put2]
        subst h
        split_ifs with e
        · rw [e.1]; exact hg b s hb (fun k' hk' => h2 rfl k' hk')
        · exact h2 rfl k (by omega))
    (fun a s ha ⟨h1, h2⟩ => by
      refine ⟨fun h k hk => ?_, fun _ k hk => absurd hk (by omega)⟩
      rcases Nat.lt_succ_iff_lt_or_eq.1 h with h | h
      · exact h1 h k hk
      · exact h2 h.symm k hk)
  exact this.1 hl k hk

theorem fillHo_lt {c : Cfg} (g : ℕ → ℕ → ℝ) (h0 : ℕ → ℕ → ℝ) {j i : ℕ} (hj : j < c.D) (hi : i < c.P) :
    fillHo c g h0 j i = g j i := by
  have := loop2_inv c.D c.P (fun j i h => put2 h j i (g j i))
    (fun a b h => ∀ j i, i < c.P → (j < a ∨ (j = a ∧ i < b)) → h j i = g j i) h0 (by omega)
    (fun a b s ha hb h j i hi hji => by
      simp only [put2]
      split_ifs with e
      · rw [e.1, e.2]
      · exact h j i hi (by omega))
    (fun a s ha h j i hi hji => h j i hi (by omega))
  exact this j i hi (Or.inl hj)

theorem recHo2_target {c : Cfg} {g₁ g₂ : ℕ → ℕ → (ℕ → ℕ → ℝ) → (ℕ → ℕ → ℝ) → ℝ} {t u : ℕ → ℝ} {l : ℕ} (hl : l < c.P)
    (h0 : (ℕ → ℕ → ℝ) × (ℕ → ℕ → ℝ))
    (hg : ∀ k h h', k < c.D → (∀ k', k' < k → h k' l = t k') → (∀ k', k' < k → h' k' l = u k') → g₁ k l h h' = t k ∧ g₂ k l h h' = u k)
    {k : ℕ} (hk : k < c.D) : (recHo2 c g₁ g₂ h0).1 k l = t k ∧ (recHo2 c g₁ g₂ h0).2 k l = u k := by
  have := loop2_inv c.P c.D (fun l k (h : (ℕ → ℕ → ℝ) × (ℕ → ℕ → ℝ)) => (put2 h.1 k l (g₁ k l h.1 h.2), put2 h.2 k l (g₂ k l h.1 h.2)))
    (fun a b h => (l < a → ∀ k, k < c.D → h.1 k l = t k ∧ h.2 k l = u k) ∧ (a = l → ∀ k, k < b → h.1 k l = t k ∧ h.2 k l = u k))
    h0 (by simp)
    (fun a b s ha hb ⟨h1, h2⟩ => by
      refine ⟨fun h k hk => ?_, fun h k hk => ?_⟩
      · simp only [put2]; rw [if_neg (by omega), if_neg (by omega)]; exact h1 h k hk
      · simp only [put2]
        subst h
        by_cases e : k = b ∧ a = a
        · rw [if_pos e, if_pos e, e.1]
          exact hg b s.1 s.2 hb (fun k' hk' => (h2 rfl k' hk').1) (fun k' hk' => (h2 rfl k' hk').2)
        · rw [if_neg e, if_neg e]; exact h2 rfl k (by omega))
    (fun a s ha ⟨h1, h2⟩ => by
      refine ⟨fun h k hk => ?_, fun _ k hk => absurd hk (by omega)⟩
      rcases Nat.lt_succ_iff_lt_or_eq.1 h with h | h
      · exact h1 h k hk
      · exact h2 h.symm k hk)
  exact this.1 hl k hk

/-- The object holds, in direction `l`, the Taylor coefficients of the curve `f` (with `fo` also as first derivative). -/
structure Rel (c : Cfg) (l : ℕ) (fo : Bool) (f : ℝ → ℝ) (h : Obj) : Prop where
  smooth : ContDiffAt ℝ ∞ f 0
  val : h.val = f 0
  ho : ∀ k, k < c.D → h.ho k l = tc f (k + 1)
  adv : fo = true → h.adv l = tc f 1

variable {c : Cfg} {l : ℕ} {fo : Bool} {f g : ℝ → ℝ} {a b h : Obj}

theorem Rel.congr (r : Rel c l fo f h) (e : g =ᶠ[𝓝 0] f) : Rel c l fo g h :=
  ⟨r.smooth.congr_of_eventuallyEq e, by rw [r.val, e.eq_of_nhds], fun k hk => by rw [r.ho k hk, tc_congr e],
   fun hf => by rw [r.adv hf, tc_congr e]⟩

theorem rel_const (hl : l < c.P) (v : ℝ) (mem : Obj) : Rel c l fo (fun _ => v) (ctorV c mem v) :=
  ⟨contDiffAt_const, rfl, fun k hk => by simp [ctorV, fillHo_lt _ _ hk hl, tc_const],
   fun _ => by simp [ctorV, fillAdv_lt _ _ hl, tc_const]⟩

theorem rel_copy (hl : l < c.P) (mem : Obj) (r : Rel c l fo f a) : Rel c l fo f (ctorC c mem a) :=
  ⟨r.smooth, r.val, fun k hk => by simp only [ctorC, fillHo_lt _ _ hk hl]; exact r.ho k hk,
   fun hf => by simp only [ctorC, fillAdv_lt _ _ hl]; exact r.adv hf⟩

theorem tc_mulc (hf : ContDiffAt ℝ ∞ f 0) (v : ℝ) (n : ℕ) : tc (fun t => f t * v) n = tc f n * v :=
  ((AD.Jet.of (k := n) hf).mulConst v).coef n le_rfl

theorem rel_mulV (hl : l < c.P) (r : Rel c l fo f a) (v : ℝ) : Rel c l fo (fun t => f t * v) (mulV c a v) :=
  ⟨r.smooth.mul contDiffAt_const, by simp [mulV, r.val],
   fun k hk => by simp only [mulV, fillHo_lt _ _ hk hl, r.ho k hk, tc_mulc r.smooth]; ring,
   fun hf => by simp only [mulV, fillAdv_lt _ _ hl, r.adv hf, tc_mulc r.smooth]⟩

theorem rel_vMul (hl : l < c.P) (r : Rel c l fo f a) (v : ℝ) : Rel c l fo (fun t => v * f t) (vMul c v a) := by
  have e : (fun t => v * f t) = fun t => f t * v := by funext t; ring
  rw [e]
  exact ⟨r.smooth.mul contDiffAt_const, by simp [vMul, r.val, mul_comm],
   fun k hk => by simp only [vMul, fillHo_lt _ _ hk hl, r.ho k hk, tc_mulc r.smooth]; ring,
   fun hf => by simp only [vMul, fillAdv_lt _ _ hl, r.adv hf, tc_mulc r.smooth]; ring⟩

theorem rel_mulA (hl : l < c.P) (r : Rel c l fo f a) (q : Rel c l fo g b) : Rel c l fo (fun t => f t * g t) (mulA c a b) := by
  refine ⟨r.smooth.mul q.smooth, by simp [mulA, r.val, q.val], fun k hk => ?_, fun hf => ?_⟩
  · simp only [mulA]
    refine recHo_target (t := fun k => tc (fun t => f t * g t) (k + 1)) hl _ (fun k h hk hh => ?_) hk
    rw [tc_mul_succ r.smooth q.smooth, sumTo_eq, r.val, q.val, r.ho k hk, q.ho k hk]
    congr 1
    refine Finset.sum_congr rfl fun j hj => ?_
    have := Finset.mem_range.1 hj
    rw [r.ho j (by omega), q.ho _ (by omega)]
  · simp only [mulA, fillAdv_lt _ _ hl]
    rw [tc_mul_succ r.smooth q.smooth 0, r.adv hf, q.adv hf, r.val, q.val]; simp; ring

theorem tc_vpow {v : ℝ} (hv : 0 < v) (hf : ContDiffAt ℝ ∞ f 0) (i : ℕ) :
    tc (fun t => v ^ f t) (i + 1) = (v ^ f 0 * tc f (i + 1) * (i + 1) +
      ∑ j ∈ Finset.range i, tc (fun t => v ^ f t) (j + 1) * (((i - 1 - j : ℕ) + 1) * tc f (i - 1 - j + 1))) * Real.log v / (i + 1) := by
  have e : (fun t => v ^ f t) = fun t => Real.exp (Real.log v * f t) := by
    funext t; rw [Real.rpow_def_of_pos hv]
  have e0 : v ^ f 0 = Real.exp (Real.log v * f 0) := by rw [Real.rpow_def_of_pos hv]
  rw [e, e0, tc_exp (contDiffAt_const.mul hf)]
  have e2 : ∀ n, tc (fun t => Real.log v * f t) n = tc f n * Real.log v := fun n => by
    have : (fun t => Real.log v * f t) = fun t => f t * Real.log v := by funext t; ring
    rw [this, tc_mulc hf]
  simp only [e2]
  congr 1
  rw [add_mul, Finset.sum_mul]
  congr 1
  · ring
  · exact Finset.sum_congr rfl fun j _ => by ring

theorem smooth_vpow {v : ℝ} (hv : 0 < v) (hf : ContDiffAt ℝ ∞ f 0) : ContDiffAt ℝ ∞ (fun t => v ^ f t) 0 := by
  have e : (fun t => v ^ f t) = fun t => Real.exp (Real.log v * f t) := by
    funext t; rw [Real.rpow_def_of_pos hv]
  rw [e]; exact (contDiffAt_const.mul hf).exp

theorem rel_vPow (hl : l < c.P) {v : ℝ} (hv : 0 < v) (r : Rel c l fo f a) : Rel c l fo (fun t => v ^ f t) (vPow c v a) := by
  refine ⟨smooth_vpow hv r.smooth, by simp [vPow, r.val], fun k hk => ?_, fun hf => ?_⟩
  · simp only [vPow]
    refine recHo_target (t := fun k => tc (fun t => v ^ f t) (k + 1)) hl _ (fun k h hk hh => ?_) hk
    rw [tc_vpow hv r.smooth, sumTo_eq, r.val, r.ho k hk, reflect (fun x y => tc (fun t => v ^ f t) (x + 1) * ((y + 1) * tc f (y + 1)))]
    have : ∑ j ∈ Finset.range k, h (k - 1 - j) l * ((j + 1 : ℕ) : ℝ) * a.ho j l =
        ∑ j ∈ Finset.range k, tc (fun t => v ^ f t) (k - 1 - j + 1) * ((j + 1) * tc f (j + 1)) := by
      refine Finset.sum_congr rfl fun j hj => ?_
      have := Finset.mem_range.1 hj
      rw [hh _ (by omega), r.ho j (by omega)]; push_cast; ring
    rw [this]; push_cast; ring
  · simp only [vPow, fillAdv_lt _ _ hl]
    rw [tc_vpow hv r.smooth 0, r.adv hf, r.val]; simp; ring

/-- The pair computed by `trig`: `f' = p·u'`, `p' = sg·f·u'`. -/
theorem trig_target (hl : l < c.P) {u p : ℝ → ℝ} (sg : ℝ) (r : Rel c l fo u a) (hw : ContDiffAt ℝ ∞ f 0) (hp : ContDiffAt ℝ ∞ p 0)
    (h1 : ∀ᶠ t in 𝓝 (0:ℝ), HasDerivAt f (p t * deriv u t) t)
    (h2 : ∀ᶠ t in 𝓝 (0:ℝ), HasDerivAt p (sg * f t * deriv u t) t) (h0) {k : ℕ} (hk : k < c.D) :
    (trig c sg a (f 0) (p 0) h0).1 k l = tc f (k + 1) ∧ (trig c sg a (f 0) (p 0) h0).2 k l = tc p (k + 1) := by
  refine recHo2_target (t := fun k => tc f (k + 1)) (u := fun k => tc p (k + 1)) hl _ (fun k h h' hk hh hh' => ?_) hk
  have hm : ∀ n, tc (fun t => sg * f t) n = tc f n * sg := fun n => by
    have : (fun t => sg * f t) = fun t => f t * sg := by funext t; ring
    rw [this, tc_mulc hw]
  constructor
  · rw [tc_quad r.smooth hp h1, sumTo_eq, reflect (fun x y => tc p (x + 1) * ((y + 1) * tc u (y + 1))), r.ho k hk]
    have : ∑ j ∈ Finset.range k, ((j + 1 : ℕ) : ℝ) * a.ho j l * h' (k - 1 - j) l =
        ∑ j ∈ Finset.range k, tc p (k - 1 - j + 1) * ((j + 1) * tc u (j + 1)) := by
      refine Finset.sum_congr rfl fun j hj => ?_
      have := Finset.mem_range.1 hj
      rw [hh' _ (by omega), r.ho j (by omega)]; push_cast; ring
    rw [this]; push_cast; ring
  · rw [tc_quad (p := fun t => sg * f t) r.smooth (contDiffAt_const.mul hw) h2, sumTo_eq,
      reflect (fun x y => tc (fun t => sg * f t) (x + 1) * ((y + 1) * tc u (y + 1))), r.ho k hk]
    have : ∑ j ∈ Finset.range k, sg * ((j + 1 : ℕ) : ℝ) * a.ho j l * h (k - 1 - j) l =
        ∑ j ∈ Finset.range k, tc (fun t => sg * f t) (k - 1 - j + 1) * ((j + 1) * tc u (j + 1)) := by
      refine Finset.sum_congr rfl fun j hj => ?_
      have := Finset.mem_range.1 hj
      rw [hh _ (by omega), r.ho j (by omega), hm]; push_cast; ring
    rw [this]; push_cast; ring

theorem posAdv_pos (hl : l < c.P) (ha : 0 < a.val) (q : ℕ → ℝ) : posAdv c a q l = q l := by
  simp only [posAdv, fillAdv_lt _ _ hl]; rw [if_pos ha]

/-- Every implemented and sound unary function propagates Taylor coefficients. -/
theorem un_rel (hl : l < c.P) (φ : Un) (r : Rel c l fo f a) (hd : φ.dom false (f 0)) (hs : Un.sound φ (f 0))
    (hr : Un.run c φ a = some h) : Rel c l fo (fun t => φ.val (f t)) h := by
  have hv := r.val
  cases φ <;> simp only [Un.sound] at hs <;> simp only [Un.dom] at hd <;>
    simp only [Un.run, ctorA, reduceCtorEq, Option.some.injEq] at hr <;> (try exact absurd hs id) <;> subst hr <;>
    simp only [Un.val]
  case neg =>
    exact ⟨r.smooth.neg, by simp [hv], fun k hk => by simp only [fillHo_lt _ _ hk hl, r.ho k hk, tc_neg],
      fun hf => by simp only [fillAdv_lt _ _ hl, r.adv hf, tc_neg]⟩
  case pos => exact rel_copy hl _ r
  case dSub v =>
    have e : ∀ n, tc (fun t => v - f t) (n + 1) = - tc f (n + 1) := fun n => by
      rw [tc_sub contDiffAt_const r.smooth, tc_const]; simp
    exact ⟨contDiffAt_const.sub r.smooth, by simp [hv], fun k hk => by simp only [fillHo_lt _ _ hk hl, r.ho k hk, e],
      fun hf => by simp only [fillAdv_lt _ _ hl, r.adv hf, e 0]⟩
  case mulD v => exact rel_mulV hl r v
  case dMul v => exact rel_vMul hl r v
  case divD v =>
    have e : (fun t => f t / v) = fun t => f t * v⁻¹ := by funext t; rw [div_eq_mul_inv]
    rw [e]
    exact ⟨r.smooth.mul contDiffAt_const, by simp [hv, div_eq_mul_inv],
      fun k hk => by simp only [fillHo_lt _ _ hk hl, r.ho k hk, tc_mulc r.smooth, div_eq_mul_inv],
      fun hf => by simp only [fillAdv_lt _ _ hl, r.adv hf, tc_mulc r.smooth, div_eq_mul_inv]⟩
  case dDiv v =>
    have e := fun i => tc_div (f := fun _ => v) (g := f) contDiffAt_const r.smooth hd i
    simp only [tc_const] at e
    refine ⟨contDiffAt_const.div r.smooth hd, by simp [hv], fun k hk => ?_, fun hf => ?_⟩
    · refine recHo_target (t := fun k => tc (fun t => v / f t) (k + 1)) hl _ (fun k h hk hh => ?_) hk
      have hh' : ∑ j ∈ Finset.range k, h j l * a.ho (k - 1 - j) l =
          ∑ j ∈ Finset.range k, tc (fun t => v / f t) (j + 1) * tc f (k - 1 - j + 1) := by
        refine Finset.sum_congr rfl fun j hj => ?_
        have := Finset.mem_range.1 hj
        rw [hh j (by omega), r.ho _ (by omega)]
      rw [e, sumTo_eq, hh', hv, r.ho k hk]
      simp only [mul_neg, neg_mul, Finset.sum_neg_distrib, ← mul_assoc, ← Finset.sum_mul]
      simp; ring
    · simp only [fillAdv_lt _ _ hl]
      rw [e 0, r.adv hf, hv]; simp; field_simp
  case exp =>
    refine ⟨r.smooth.exp, by simp [hv], fun k hk => ?_, fun hf => ?_⟩
    · refine recHo_target (t := fun k => tc (fun t => Real.exp (f t)) (k + 1)) hl _ (fun k h hk hh => ?_) hk
      have hh' : ∑ j ∈ Finset.range k, h (k - 1 - j) l * ((j + 1 : ℕ) : ℝ) * a.ho j l =
          ∑ j ∈ Finset.range k, tc (fun t => Real.exp (f t)) (k - 1 - j + 1) * ((j + 1) * tc f (j + 1)) := by
        refine Finset.sum_congr rfl fun j hj => ?_
        have := Finset.mem_range.1 hj
        rw [hh _ (by omega), r.ho j (by omega)]; push_cast; ring
      rw [tc_exp r.smooth, sumTo_eq, hh', hv, r.ho k hk, reflect (fun x y => tc (fun t => Real.exp (f t)) (x + 1) * ((y + 1) * tc f (y + 1)))]
      push_cast; ring
    · simp only [fillAdv_lt _ _ hl]
      rw [tc_exp r.smooth 0, r.adv hf, hv]; simp
  case log =>
    refine ⟨r.smooth.log hd.ne', by simp [hv], fun k hk => ?_, fun hf => ?_⟩
    · refine recHo_target (t := fun k => tc (fun t => Real.log (f t)) (k + 1)) hl _ (fun k h hk hh => ?_) hk
      have hh' : ∑ j ∈ Finset.range k, a.ho (k - 1 - j) l * ((j + 1 : ℕ) : ℝ) * h j l =
          ∑ j ∈ Finset.range k, tc f (k - 1 - j + 1) * (j + 1) * tc (fun t => Real.log (f t)) (j + 1) := by
        refine Finset.sum_congr rfl fun j hj => ?_
        have := Finset.mem_range.1 hj
        rw [hh _ (by omega), r.ho _ (by omega)]; push_cast; ring
      have h3 : ∑ j ∈ Finset.range k, tc f (k - 1 - j + 1) * (1 / f 0) * tc (fun t => Real.log (f t)) (j + 1) * (j + 1) =
          (1 / f 0) * ∑ j ∈ Finset.range k, tc f (k - 1 - j + 1) * (j + 1) * tc (fun t => Real.log (f t)) (j + 1) := by
        rw [Finset.mul_sum]; exact Finset.sum_congr rfl fun j _ => by ring
      rw [tc_log r.smooth hd.ne', sumTo_eq, hh', h3, hv, r.ho k hk]
      push_cast; ring
    · show posAdv c a _ l = _
      rw [posAdv_pos hl (by rw [hv]; exact hd)]
      rw [tc_log r.smooth hd.ne' 0, r.adv hf, hv]; simp; ring
  case sqrt =>
    refine ⟨r.smooth.sqrt hd.ne', by simp [hv], fun k hk => ?_, fun hf => ?_⟩
    · refine recHo_target (t := fun k => tc (fun t => √(f t)) (k + 1)) hl _ (fun k h hk hh => ?_) hk
      have hh' : ∑ j ∈ Finset.range k, h j l * h (k - 1 - j) l =
          ∑ j ∈ Finset.range k, tc (fun t => √(f t)) (j + 1) * tc (fun t => √(f t)) (k - 1 - j + 1) := by
        refine Finset.sum_congr rfl fun j hj => ?_
        have := Finset.mem_range.1 hj
        rw [hh j (by omega), hh _ (by omega)]
      rw [tc_sqrt r.smooth hd, sumTo_eq, hh', hv, r.ho k hk]
      field_simp; ring
    · show posAdv c a _ l = _
      rw [posAdv_pos hl (by rw [hv]; exact hd)]
      rw [tc_sqrt r.smooth hd 0, r.adv hf, hv]; simp; field_simp
  case sin =>
    have h1 : ∀ᶠ t in 𝓝 (0:ℝ), HasDerivAt (fun t => Real.sin (f t)) (Real.cos (f t) * deriv f t) t := by
      filter_upwards [ev_diff r.smooth] with t ht using ht.sin
    have h2 : ∀ᶠ t in 𝓝 (0:ℝ), HasDerivAt (fun t => Real.cos (f t)) (-1 * Real.sin (f t) * deriv f t) t := by
      filter_upwards [ev_diff r.smooth] with t ht
      simpa using ht.cos
    refine ⟨r.smooth.sin, by simp [hv], fun k hk => ?_, fun hf => ?_⟩
    · have := (trig_target hl (-1) r r.smooth.sin r.smooth.cos h1 h2 (c.junk.ho, c.junk.ho) hk).1
      simpa only [hv] using this
    · simp only [fillAdv_lt _ _ hl]
      rw [tc_sin r.smooth 0, r.adv hf, hv]; simp
  case sinh =>
    have h1 : ∀ᶠ t in 𝓝 (0:ℝ), HasDerivAt (fun t => Real.sinh (f t)) (Real.cosh (f t) * deriv f t) t := by
      filter_upwards [ev_diff r.smooth] with t ht using ht.sinh
    have h2 : ∀ᶠ t in 𝓝 (0:ℝ), HasDerivAt (fun t => Real.cosh (f t)) (1 * Real.sinh (f t) * deriv f t) t := by
      filter_upwards [ev_diff r.smooth] with t ht
      simpa using ht.cosh
    refine ⟨r.smooth.sinh, by simp [hv], fun k hk => ?_, fun hf => ?_⟩
    · have := (trig_target hl 1 r r.smooth.sinh r.smooth.cosh h1 h2 (c.junk.ho, c.junk.ho) hk).1
      simpa only [hv] using this
    · simp only [fillAdv_lt _ _ hl]
      rw [tc_quad r.smooth r.smooth.cosh h1 0, r.adv hf, hv]; simp; ring
  case powD v =>
    refine ⟨smooth_rpow v r.smooth hs, by simp [hv], fun k hk => ?_, fun hf => ?_⟩
    · simp only
      rw [if_neg (by rw [hv]; exact hs)]
      refine recHo_target (t := fun k => tc (fun t => f t ^ v) (k + 1)) hl _ (fun k h hk hh => ?_) hk
      have e1 : ∑ j ∈ Finset.range k, h (k - 1 - j) l * ((j + 1 : ℕ) : ℝ) * a.ho j l =
          ∑ j ∈ Finset.range k, tc (fun t => f t ^ v) (j + 1) * (((k - 1 - j : ℕ) + 1) * tc f (k - 1 - j + 1)) := by
        rw [reflect (fun x y => tc (fun t => f t ^ v) (x + 1) * ((y + 1) * tc f (y + 1)))]
        refine Finset.sum_congr rfl fun j hj => ?_
        have := Finset.mem_range.1 hj
        rw [hh _ (by omega), r.ho j (by omega)]; push_cast; ring
      have e2 : ∑ j ∈ Finset.range k, a.ho (k - 1 - j) l * ((1 + j : ℕ) : ℝ) * h j l =
          ∑ j ∈ Finset.range k, tc f (k - 1 - j + 1) * (1 + j) * tc (fun t => f t ^ v) (j + 1) := by
        refine Finset.sum_congr rfl fun j hj => ?_
        have := Finset.mem_range.1 hj
        rw [hh _ (by omega), r.ho _ (by omega)]; push_cast; ring
      have e3 : ∑ j ∈ Finset.range k, tc (fun t => f t ^ v) (j + 1) * (tc f (k - 1 - j + 1) * (1 / f 0)) * (v * k - 1 - j * (v + 1)) =
          1 / f 0 * (v * ∑ j ∈ Finset.range k, tc (fun t => f t ^ v) (j + 1) * (((k - 1 - j : ℕ) + 1) * tc f (k - 1 - j + 1)) -
            ∑ j ∈ Finset.range k, tc f (k - 1 - j + 1) * (1 + j) * tc (fun t => f t ^ v) (j + 1)) := by
        rw [Finset.mul_sum, ← Finset.sum_sub_distrib, Finset.mul_sum]
        refine Finset.sum_congr rfl fun j hj => ?_
        have := Finset.mem_range.1 hj
        have e : ((k - 1 - j : ℕ) : ℝ) = k - 1 - j := by
          rw [Nat.cast_sub (by omega), Nat.cast_sub (by omega)]; simp
        rw [e]; ring
      rw [tc_rpow v r.smooth hs, sumTo_eq, sumTo_eq, e1, e2, e3, hv, r.ho k hk]
      push_cast; ring
    · simp only [fillAdv_lt _ _ hl]
      rw [tc_rpow v r.smooth hs 0, r.adv hf, hv, Real.rpow_sub_one hs]; simp; ring
  case dPow v => exact rel_vPow hl hd r
  case ldexpD v => exact rel_mulV hl r _
  case dLdexp v => exact rel_vMul hl (rel_vPow hl (by norm_num) r) v

/-- The same for the binary functions. -/
theorem bin_rel (hl : l < c.P) (φ : Bin) (r : Rel c l fo f a) (q : Rel c l fo g b) (hd : φ.dom false (f 0) (g 0))
    (hr : Bin.run c φ a b = some h) : Rel c l fo (fun t => φ.val (f t) (g t)) h := by
  cases φ <;> simp only [Bin.dom] at hd <;> simp only [Bin.run, reduceCtorEq, Option.some.injEq] at hr <;> subst hr <;>
    simp only [Bin.val]
  case add =>
    exact ⟨r.smooth.add q.smooth, by simp [r.val, q.val], fun k hk => by
      simp only [fillHo_lt _ _ hk hl, r.ho k hk, q.ho k hk, tc_add r.smooth q.smooth],
      fun hf => by simp only [fillAdv_lt _ _ hl, r.adv hf, q.adv hf, tc_add r.smooth q.smooth]⟩
  case sub =>
    exact ⟨r.smooth.sub q.smooth, by simp [r.val, q.val], fun k hk => by
      simp only [fillHo_lt _ _ hk hl, r.ho k hk, q.ho k hk, tc_sub r.smooth q.smooth],
      fun hf => by simp only [fillAdv_lt _ _ hl, r.adv hf, q.adv hf, tc_sub r.smooth q.smooth]⟩
  case mul => exact rel_mulA hl r q
  case div =>
    have e := fun i => tc_div r.smooth q.smooth hd i
    refine ⟨r.smooth.div q.smooth hd, by simp [r.val, q.val], fun k hk => ?_, fun hf => ?_⟩
    · refine recHo_target (t := fun k => tc (fun t => f t / g t) (k + 1)) hl _ (fun k h hk hh => ?_) hk
      have hh' : ∑ j ∈ Finset.range k, h j l * b.ho (k - 1 - j) l =
          ∑ j ∈ Finset.range k, tc (fun t => f t / g t) (j + 1) * tc g (k - 1 - j + 1) := by
        refine Finset.sum_congr rfl fun j hj => ?_
        have := Finset.mem_range.1 hj
        rw [hh j (by omega), q.ho _ (by omega)]
      rw [e, sumTo_eq, hh', q.val, r.val, r.ho k hk, q.ho k hk]
      simp only [mul_neg, neg_mul, Finset.sum_neg_distrib, ← mul_assoc, ← Finset.sum_mul]
      ring
    · simp only [fillAdv_lt _ _ hl]
      rw [e 0, r.adv hf, q.adv hf, r.val, q.val]; simp; field_simp; ring
  case ldexp => exact rel_mulA hl r (rel_vPow hl (by norm_num) q)

/-- A sound function computes the value of the function on numbers. -/
theorem un_val (φ : Un) (x : ℝ) (hx : a.val = x) (hs : Un.sound φ x) (hr : Un.run c φ a = some h) : h.val = φ.val x := by
  subst hx
  cases φ <;> simp only [Un.sound] at hs <;> simp only [Un.run, ctorA, reduceCtorEq, Option.some.injEq] at hr <;>
    (try exact absurd hs id) <;> subst hr <;> rfl

theorem bin_val (φ : Bin) (x y : ℝ) (hx : a.val = x) (hy : b.val = y) (hr : Bin.run c φ a b = some h) : h.val = φ.val x y := by
  subst hx hy
  cases φ <;> simp only [Bin.run, reduceCtorEq, Option.some.injEq] at hr <;> subst hr <;> rfl

theorem un_some (c : Cfg) (φ : Un) (a : Obj) : (Un.run c φ a).isSome ↔ Un.implemented φ := by
  cases φ <;> simp [Un.run, Un.implemented, ctorA]

theorem bin_some (c : Cfg) (φ : Bin) (a b : Obj) : (Bin.run c φ a b).isSome ↔ Bin.implemented φ := by
  cases φ <;> simp [Bin.run, Bin.implemented]

end Verif.TL.Hov
