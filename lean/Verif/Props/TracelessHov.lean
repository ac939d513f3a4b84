import Verif.Traceless.HovRun
/-!
# C54: traceless higher order mode

`/repo/ADOL-C/include/adolc/adtl_hov.h`.  The programs, their meaning on numbers (`Prog.val`), the points where they are
differentiable (`Prog.ok`) and the variables with initialised derivatives (`Prog.defs`) are those of C29 (`Verif.TL`).
`Prog.implemented` and `Prog.sound` (Traceless/HovSpec.lean) list the functions that stop the program and those whose
results are wrong.
-/
set_option linter.all false
noncomputable section
namespace Verif.Props.TracelessHov
open Verif.TL Verif.TL.Hov
open Filter Topology
open scoped ContDiff
open Verif.AD (tc tc_const tc_add tc_sub tc_neg tc_deriv)

/-- For every program, number of directions and degree, every state and whatever uninitialised memory contains: if the
executed statements are sound, the program runs to its end exactly if it meets no unimplemented function, and then every
variable has the value of the same program on `double`s. -/
theorem C54_values (c : Hov.Cfg) (p : Prog) (s : St) (hs : Hov.Prog.sound p (getValue s)) :
    ((Hov.Prog.run c p s).isSome ↔ Hov.Prog.implemented p (getValue s)) ∧
    ∀ s', Hov.Prog.run c p s = some s' → ∀ o, getValue s' o = p.val (getValue s) o := by
  have h := Hov.Prog.values c p s hs
  exact ⟨h.1, fun s' hr o => congrFun (h.2 s' hr) o⟩

/-- Let the values and, in direction `l`, the rows of the initialised variables be the Taylor coefficients of arbitrary smooth
curves.  Then after the program row `k` of every variable computed from initialised ones holds, in direction `l`, the
coefficient `k + 1` of the program's function along these curves, for all `k < degree` and `l < numDir`; the curve of values
is smooth, and no two variables share memory.

Partial: the executed statements must be sound (`C54_cos_wrong`, …) and no two rows may share memory at the start
(`C54_shared_rows`); variables declared by `adouble d;` count as uninitialised (`C54_uninitialised`). -/
theorem C54_taylor_partial (c : Hov.Cfg) (p : Prog) (s : St) (X : ℕ → ℝ → ℝ) (D : ℕ → Prop) (l : ℕ) (hl : l < c.P)
    (hns : NoShare c.D s) (hX : ∀ o, X o 0 = getValue s o)
    (hD : ∀ o, D o → ContDiffAt ℝ ∞ (X o) 0 ∧ ∀ k, k < c.D → coef s o k l = iteratedDeriv (k + 1) (X o) 0 / (k + 1).factorial)
    (hok : p.ok false (getValue s) D) (hs : Hov.Prog.sound p (getValue s)) (hi : Hov.Prog.implemented p (getValue s)) :
    ∃ s', Hov.Prog.run c p s = some s' ∧ NoShare c.D s' ∧ ∀ o, p.defs (getValue s) D o →
      getValue s' o = p.val (getValue s) o ∧ ContDiffAt ℝ ∞ (fun t => p.val (fun o => X o t) o) 0 ∧
      ∀ k, k < c.D → coef s' o k l = iteratedDeriv (k + 1) (fun t => p.val (fun o => X o t) o) 0 / (k + 1).factorial := by
  have hv := C54_values c p s hs
  obtain ⟨s', hr⟩ := Option.isSome_iff_exists.1 (hv.1.2 hi)
  have e : getValue s = fun o => X o 0 := funext fun o => (hX o).symm
  have H : Holds c l false X D s := ⟨hns, fun o => (hX o).symm, fun o ho =>
    ⟨(hD o ho).1, (hX o).symm, fun k hk => (hD o ho).2 k hk, by simp⟩⟩
  have R := Hov.Prog.rel hl p H (by rw [← e]; exact hok) (by rw [← e]; exact hs) hr
  rw [← e] at R
  exact ⟨s', hr, R.ns, fun o ho => ⟨hv.2 s' hr o, (R.rel o ho).smooth, fun k hk => (R.rel o ho).ho k hk⟩⟩

/-- If in addition `adval[l]` of the initialised variables holds the derivatives of the curves, then `getADValue(l)` of every
variable computed from them is the derivative of the program's function along the curves. -/
theorem C54_first_order_partial (c : Hov.Cfg) (p : Prog) (s : St) (X : ℕ → ℝ → ℝ) (D : ℕ → Prop) (l : ℕ) (hl : l < c.P)
    (hns : NoShare c.D s) (hX : ∀ o, X o 0 = getValue s o)
    (hD : ∀ o, D o → ContDiffAt ℝ ∞ (X o) 0 ∧ getADValue c s o l = some (deriv (X o) 0) ∧
      ∀ k, k < c.D → coef s o k l = iteratedDeriv (k + 1) (X o) 0 / (k + 1).factorial)
    (hok : p.ok false (getValue s) D) (hs : Hov.Prog.sound p (getValue s)) (hi : Hov.Prog.implemented p (getValue s)) :
    ∃ s', Hov.Prog.run c p s = some s' ∧ ∀ o, p.defs (getValue s) D o →
      getADValue c s' o l = some (deriv (fun t => p.val (fun o => X o t) o) 0) := by
  have hv := C54_values c p s hs
  obtain ⟨s', hr⟩ := Option.isSome_iff_exists.1 (hv.1.2 hi)
  have e : getValue s = fun o => X o 0 := funext fun o => (hX o).symm
  have t1 : ∀ f : ℝ → ℝ, tc f 1 = deriv f 0 := fun f => by simp [tc, iteratedDeriv_one]
  have H : Holds c l true X D s := ⟨hns, fun o => (hX o).symm, fun o ho =>
    ⟨(hD o ho).1, (hX o).symm, fun k hk => (hD o ho).2.2 k hk, fun _ => by
      have := (hD o ho).2.1
      simp only [Hov.getADValue, not_le.2 hl, ge_iff_le, if_false, Option.some.injEq] at this
      rw [t1]; exact this⟩⟩
  have R := Hov.Prog.rel hl p H (by rw [← e]; exact hok) (by rw [← e]; exact hs) hr
  rw [← e] at R
  refine ⟨s', hr, fun o ho => ?_⟩
  simp only [Hov.getADValue, not_le.2 hl, ge_iff_le, if_false, Option.some.injEq]
  rw [← t1]; exact (R.rel o ho).adv rfl

theorem tc_line (x v : ℝ) (k : ℕ) : tc (fun t => x + t * v) (k + 1) = if k = 0 then v else 0 := by
  have h1 : ContDiffAt ℝ ∞ (fun t : ℝ => t * v) 0 := contDiffAt_id.mul contDiffAt_const
  rw [tc_add contDiffAt_const h1, tc_const, tc_mulc (f := fun t => t) contDiffAt_id]
  have hd : deriv (fun t : ℝ => t) = fun _ => 1 := by funext t; simp
  have h2 : (k + 1) * tc (fun t : ℝ => t) (k + 1) = if k = 0 then 1 else 0 := by
    rw [← tc_deriv, hd, tc_const]
  have h3 : (k : ℝ) + 1 ≠ 0 := by positivity
  have h4 : tc (fun t : ℝ => t) (k + 1) = (if k = 0 then 1 else 0) / (k + 1) := by rw [← h2]; field_simp
  simp only [id_eq, h4]
  by_cases hk : k = 0
  · simp [hk]
  · simp [hk]

/-- The usual use: the independents `0 … n-1` have the values `x`, row 0 of each holds its component of the directions `v l`, the
other rows are zero.  Then row `k` of a result, times `(k + 1)!`, is the derivative of order `k + 1` of the program's function
along the straight line `x + t v l` at `t = 0`. -/
theorem C54_straight_line_partial (c : Hov.Cfg) (p : Prog) (s : St) (n : ℕ) (v : ℕ → ℕ → ℝ) (hns : NoShare c.D s)
    (hrow : ∀ i l, i < n → l < c.P → ∀ k, k < c.D → coef s i k l = if k = 0 then v l i else 0)
    (hok : p.ok false (getValue s) (· < n)) (hs : Hov.Prog.sound p (getValue s)) (hi : Hov.Prog.implemented p (getValue s)) :
    ∃ s', Hov.Prog.run c p s = some s' ∧ ∀ o, p.defs (getValue s) (· < n) o →
      getValue s' o = p.val (getValue s) o ∧
      ∀ l, l < c.P → ∀ k, k < c.D → (k + 1).factorial * coef s' o k l =
        iteratedDeriv (k + 1) (fun t => p.val (fun i => if i < n then getValue s i + t * v l i else getValue s i) o) 0 := by
  have hv := C54_values c p s hs
  obtain ⟨s', hr⟩ := Option.isSome_iff_exists.1 (hv.1.2 hi)
  refine ⟨s', hr, fun o ho => ⟨hv.2 s' hr o, fun l hl k hk => ?_⟩⟩
  obtain ⟨s'', hr', -, h⟩ := C54_taylor_partial c p s (fun i t => if i < n then getValue s i + t * v l i else getValue s i)
    (· < n) l hl hns (fun o => by simp) (fun i hi => by
      simp only [hi, if_true]
      refine ⟨contDiffAt_const.add (contDiffAt_id.mul contDiffAt_const), fun k hk => ?_⟩
      rw [hrow i l hi hl k hk]
      exact (tc_line _ _ _).symm) hok hs hi
  rw [hr, Option.some.injEq] at hr'
  subst hr'
  have h1 := (h o ho).2.2 k hk
  have : ((k + 1).factorial : ℝ) ≠ 0 := by exact_mod_cast (k + 1).factorial_ne_zero
  rw [h1]; field_simp

/-- `setOneADValue(i, q)` with an array that is no other row: the row is the array's content, nothing else changes, and no
memory is shared. -/
theorem C54_seed (c : Hov.Cfg) (s : St) (o i q : ℕ) (hns : NoShare c.D s)
    (hq : ∀ o' j, j < c.D → getOneADValue s o' j ≠ .ext q) :
    NoShare c.D (setOneADValue s o i (.ext q)) ∧
    getOneADValue (setOneADValue s o i (.ext q)) o i = .ext q ∧
    (∀ l, coef (setOneADValue s o i (.ext q)) o i l = s.heap (.ext q) l) ∧
    (∀ o' k l, (o' ≠ o ∨ k ≠ i) → coef (setOneADValue s o i (.ext q)) o' k l = coef s o' k l) ∧
    ∀ o', getValue (setOneADValue s o i (.ext q)) o' = getValue s o' := by
  refine ⟨⟨fun o' j hj => ?_, fun a j b j' hj hj' e => ?_⟩, by simp [getOneADValue, setOneADValue], fun l => by
    simp [coef, getOneADValue, setOneADValue], fun o' k l h => ?_, fun _ => rfl⟩
  · simp only [setOneADValue]
    split_ifs
    · exact Or.inr ⟨q, rfl⟩
    · exact hns.kind o' j hj
  · simp only [setOneADValue] at e
    split_ifs at e with h1 h2 h2
    · omega
    · exact absurd e.symm (hq b j' hj')
    · exact absurd e (hq a j hj)
    · exact hns.inj a j b j' hj hj' e
  · simp only [coef, getOneADValue, setOneADValue]; rw [if_neg (by tauto)]

/-! ### Where the full claim fails -/

/-- `cos(a)` returns the companion variable: its value is `−sin(a)` (adtl_hov.h:1073). -/
theorem C54_cos_wrong (c : Hov.Cfg) (a : Obj) : ∃ h, Hov.Un.run c .cos a = some h ∧ h.val = - Real.sin a.val ∧
    (a.val = 0 → h.val ≠ Real.cos a.val) :=
  ⟨_, rfl, rfl, fun h => by simp [h]⟩

/-- `cosh(a)` has the value `a·sinh(a)` (adtl_hov.h:1407-1408). -/
theorem C54_cosh_wrong (c : Hov.Cfg) (hP : 0 < c.P) (a : Obj) : ∃ h, Hov.Un.run c .cosh a = some h ∧
    h.val = a.val * Real.sinh a.val ∧ (a.val = 0 → h.val ≠ Real.cosh a.val) := by
  refine ⟨_, rfl, ?_, fun h => ?_⟩
  · simp only [Hov.Un.run]; rw [if_neg hP.ne']; rfl
  · simp only; rw [if_neg hP.ne']; simp [Hov.mulA, h]

theorem accCol_val (c : Hov.Cfg) (d : ℕ) (v : ℝ) (g) (l : ℕ) (s : St) (o : ℕ) :
    (accCol c d v g l s).val o = if o = d then v else s.val o := by
  simp only [accCol]
  exact range_inv (fun (s : St) k => s.putHo d k l _) (fun _ (s' : St) => s'.val o = if o = d then v else s.val o) c.D _ (by simp [St.putVal])
    (fun _ _ _ h => by simpa [St.putHo] using h)

theorem accCols_val (c : Hov.Cfg) (hP : 0 < c.P) (d : ℕ) (v : ℝ) (g : ℕ → ℕ → (ℕ → ℝ) → St → ℝ) (s : St) :
    ((List.range c.P).foldl (fun s l => accCol c d v (g l) l s) s).val d = v := by
  have := range_inv (fun (s : St) l => accCol c d v (g l) l s) (fun n (s' : St) => 0 < n → s'.val d = v) c.P s (by simp)
    (fun n s' _ _ _ => by simp [accCol_val])
  exact this hP

/-- `d *= a` multiplies twice: the value becomes `d·a·a` (adtl_hov.h:2193-2212). -/
theorem C54_mul_assign_wrong (c : Hov.Cfg) (hP : 0 < c.P) (s : St) (d a : ℕ) (hda : a ≠ d) : ∃ s',
    Hov.Stmt.run c (.accA .mul d a) s = some s' ∧ getValue s' d = getValue s d * getValue s a * getValue s a := by
  refine ⟨_, rfl, ?_⟩
  simp only [Hov.getValue, Hov.accA]
  refine (accCols_val c hP d _ (fun l k t s => sumTo k (s.val d * s.heap (s.row a k) l + s.heap (s.row d k) l * s.val a)
        fun j => s.heap (s.row d j) l * s.heap (s.row a (k - 1 - j)) l) _).trans ?_
  simp [St.putVal, advS_val, hda]

/-- `d /= a` leaves the value 0 (adtl_hov.h:2252-2265). -/
theorem C54_div_assign_wrong (c : Hov.Cfg) (hP : 0 < c.P) (s : St) (d a : ℕ) : ∃ s',
    Hov.Stmt.run c (.accA .div d a) s = some s' ∧ getValue s' d = 0 := by
  refine ⟨_, rfl, ?_⟩
  simp only [Hov.getValue, Hov.accA]
  exact accCols_val c hP d 0 (fun l k t s =>
      1 / s.val a * (s.heap (s.row d k) l - sumTo k (0 * s.heap (s.row a k) l) fun j => t j * s.heap (s.row a (k - 1 - j)) l)) _

/-- `pow(a, 2.0)` at 0: the first coefficient is 2, the derivative of the square at 0 is 0 (adtl_hov.h:1213-1224). -/
theorem C54_pow_at_zero_wrong (c : Hov.Cfg) (hP : 0 < c.P) (hD : 0 < c.D) (a : Obj) (ha : a.val = 0) : ∃ h,
    Hov.Un.run c (.powD 2) a = some h ∧ h.ho 0 0 = 2 ∧ deriv (fun t : ℝ => t ^ (2:ℝ)) 0 = 0 := by
  refine ⟨_, rfl, ?_, ?_⟩
  · simp only
    rw [if_pos ha, fillHo_lt _ _ hD hP]
    have : Real.Gamma (2 + 1) = 2 := by
      norm_num
    simp [this]
  · simp

/-- `erf` and `erfc` return the rows of freshly allocated memory, `fabs` these rows with possibly changed signs: they do not depend on
the argument (adtl_hov.h:1986-2024, 1582-1622). -/
theorem C54_rows_not_computed (c : Hov.Cfg) (a b : Obj) (f : Un) (hf : f = .erf ∨ f = .erfc ∨ f = .fabs) : ∃ h h',
    Hov.Un.run c f a = some h ∧ Hov.Un.run c f b = some h' ∧ h.ho = h'.ho := by
  rcases hf with rfl | rfl | rfl <;> exact ⟨_, _, rfl, rfl, rfl⟩

/-- The rows of `adouble d;` are what the memory contained. -/
theorem C54_uninitialised (c : Hov.Cfg) (s : St) (d k l : ℕ) : ∃ s', Hov.Stmt.run c (.decl d) s = some s' ∧
    getValue s' d = 0 ∧ coef s' d k l = (c.mem d).ho k l :=
  ⟨_, rfl, by simp [Hov.getValue, St.bind, Hov.ctor0], by simp [coef, getOneADValue, St.bind, Hov.ctor0]⟩

/-- Two variables given the same array: assigning to one changes the derivatives of the other. -/
theorem C54_shared_rows (c : Hov.Cfg) (hP : 0 < c.P) (hD : 0 < c.D) (s : St) (x y q : ℕ) (hxy : x ≠ y)
    (hx : getOneADValue s x 0 = .ext q) (hy : getOneADValue s y 0 = .ext q) (hxd : ∀ j, 0 < j → j < c.D → getOneADValue s x j ≠ .ext q)
    (v : ℝ) : ∃ s', Hov.Stmt.run c (.setD x v) s = some s' ∧ getValue s' y = getValue s y ∧ coef s' y 0 0 = 0 := by
  refine ⟨_, rfl, ?_, ?_⟩
  · simp only [Hov.getValue, Hov.setD, hoS_val, advS_val]; simp [St.putVal, hxy.symm]
  · simp only [Hov.setD]
    have hrow : (advS c x (fun _ _ => 0) (s.putVal x v)).row = s.row := (advS_spec (T := fun _ => 0) (fun _ _ _ _ _ _ _ => rfl)).2.1
    generalize advS c x (fun _ _ => 0) (s.putVal x v) = s1 at hrow
    have := loop2_inv c.D c.P (fun j i s => s.putHo x j i ((fun _ _ _ => (0:ℝ)) j i s)) (fun a b s' => s'.row = s.row ∧
        ((0 < a ∨ 0 < b) → s'.heap (.ext q) 0 = 0)) s1 ⟨hrow, by omega⟩
      (fun a b s' ha hb ⟨h1, h2⟩ => by
        refine ⟨h1, fun _ => ?_⟩
        simp only [St.putHo, h1]
        by_cases ha0 : a = 0
        · subst ha0
          have e : s.row x 0 = .ext q := hx
          rw [e, if_pos rfl]
          by_cases hb0 : b = 0
          · subst hb0; simp [put]
          · simp only [put]; rw [if_neg (Ne.symm hb0)]; exact h2 (by omega)
        · rw [if_neg (fun e => hxd a (by omega) ha e.symm)]
          exact h2 (by omega))
      (fun a s' ha ⟨h1, h2⟩ => ⟨h1, fun _ => h2 (by omega)⟩)
    simp only [coef, getOneADValue]
    have e : (hoS c x (fun _ _ _ => 0) s1).row y 0 = .ext q := by
      have h := this.1
      show (loop2 c.D c.P _ s1).row y 0 = _
      rw [h]; exact hy
    rw [e]
    exact this.2 (Or.inl hD)

/-! ### The hypotheses are met -/

/-- A session as in examples/traceless_higher_order.cpp: `z[0]` has the value 2 and `setOneADValue(0, one)`. -/
def demoSt : St where
  val := fun _ => 2
  adv := fun _ _ => 0
  row := fun o j => if o = 0 ∧ j = 0 then .ext 0 else .own o j
  heap := fun q _ => if q = .ext 0 then 1 else 0

/-- `y = z[0] * exp(1.0 * z[0])`. -/
def demoProg : Prog := .stmt (.declE 1 (.bin .mul (.var 0) (.un .exp (.un (.dMul 1) (.var 0))))) .done

theorem demo_noshare (D : ℕ) : NoShare D demoSt := by
  refine ⟨fun o j _ => ?_, fun o j o' j' _ _ e => ?_⟩
  · simp only [demoSt]
    by_cases h : o = 0 ∧ j = 0
    · rw [if_pos h]; exact Or.inr ⟨0, rfl⟩
    · rw [if_neg h]; exact Or.inl rfl
  · simp only [demoSt] at e
    by_cases h : o = 0 ∧ j = 0 <;> by_cases h' : o' = 0 ∧ j' = 0
    · omega
    · rw [if_pos h, if_neg h'] at e; simp at e
    · rw [if_neg h, if_pos h'] at e; simp at e
    · rw [if_neg h, if_neg h'] at e; simpa using e

theorem demo_deriv (n : ℕ) : iteratedDeriv n (fun t : ℝ => (2 + t * 1) * Real.exp (1 * (2 + t * 1))) =
    fun t => Real.exp (2 + t) * (n + 2 + t) := by
  induction n with
  | zero => funext t; simp; ring
  | succ n ih =>
    rw [iteratedDeriv_succ, ih]
    funext t
    have h1 : HasDerivAt (fun t : ℝ => Real.exp (2 + t)) (Real.exp (2 + t)) t := by
      simpa using ((hasDerivAt_id t).const_add 2).exp
    have h2 : HasDerivAt (fun t : ℝ => (n:ℝ) + 2 + t) 1 t := (hasDerivAt_id t).const_add _
    rw [(h1.fun_mul h2).deriv]; push_cast; ring

/-- The example computes, for every degree, the derivatives `e²·(k + 1 + 2)` its author expects
(examples/traceless_higher_order.cpp:57-62). -/
theorem C54_example (c : Hov.Cfg) : ∃ s', Hov.Prog.run c demoProg demoSt = some s' ∧ getValue s' 1 = 2 * Real.exp 2 ∧
    ∀ k l, k < c.D → l < c.P → (k + 1).factorial * coef s' 1 k l = Real.exp 2 * ((k + 1 : ℕ) + 2) := by
  obtain ⟨s', hr, h⟩ := C54_straight_line_partial c demoProg demoSt 1 (fun _ _ => 1) (demo_noshare _)
    (fun i l hi _ k _ => by
      have : i = 0 := by omega
      subst this
      simp only [coef, getOneADValue, demoSt, true_and]
      by_cases hk : k = 0 <;> simp [hk])
    ⟨by simp [Stmt.ok, Expr.dom, Un.dom, Bin.dom], trivial⟩
    ⟨by simp [Hov.Stmt.sound, Hov.Expr.sound, Hov.Un.sound], trivial⟩
    ⟨by simp [Hov.Stmt.implemented, Hov.Expr.implemented, Hov.Un.implemented, Hov.Bin.implemented], trivial⟩
  have h1 := h 1 (by simp [demoProg, Prog.defs, Stmt.defs, mark, Expr.within])
  refine ⟨s', hr, ?_, fun k l hk hl => ?_⟩
  · rw [h1.1]; simp [demoProg, Prog.val, Stmt.val, Env.set, Expr.val, Un.val, Bin.val, demoSt, Hov.getValue]
  · rw [h1.2 l hl k hk]
    have e : (fun t : ℝ => demoProg.val (fun i => if i < 1 then getValue demoSt i + t * 1 else getValue demoSt i) 1) =
        fun t => (2 + t * 1) * Real.exp (1 * (2 + t * 1)) := by
      funext t; simp [demoProg, Prog.val, Stmt.val, Env.set, Expr.val, Un.val, Bin.val, demoSt, Hov.getValue]
    rw [e, demo_deriv]; push_cast; simp

/-- An unimplemented operator stops the program: `adouble y(z[0] + 1.0)`. -/
example (c : Hov.Cfg) : Hov.Prog.run c (.stmt (.declE 1 (.un (.addD 1) (.var 0))) .done) demoSt = none := rfl
/-- The hypotheses of `C54_values` hold for it. -/
example : Hov.Prog.sound (.stmt (.declE 1 (.un (.addD 1) (.var 0))) .done) (getValue demoSt) ∧
    ¬ Hov.Prog.implemented (.stmt (.declE 1 (.un (.addD 1) (.var 0))) .done) (getValue demoSt) := by
  simp [Hov.Prog.sound, Hov.Stmt.sound, Hov.Expr.sound, Hov.Un.sound, Hov.Prog.implemented, Hov.Stmt.implemented,
    Hov.Expr.implemented, Hov.Un.implemented]
/-- The hypothesis of `C54_seed`. -/
example (D : ℕ) : ∀ o' j, j < D → getOneADValue demoSt o' j ≠ .ext 7 := by
  intro o j _; simp only [getOneADValue, demoSt]; split_ifs <;> simp
/-- The hypotheses of `C54_shared_rows`. -/
example : ∃ s : St, getOneADValue s 0 0 = .ext 5 ∧ getOneADValue s 1 0 = .ext 5 ∧ ∀ j, 0 < j → j < 3 → getOneADValue s 0 j ≠ .ext 5 := by
  refine ⟨setOneADValue (setOneADValue demoSt 0 0 (.ext 5)) 1 0 (.ext 5), by simp [getOneADValue, setOneADValue],
    by simp [getOneADValue, setOneADValue], fun j hj _ => ?_⟩
  simp only [getOneADValue, setOneADValue, demoSt]
  have : ¬ j = 0 := by omega
  simp [this]
/-- The hypotheses of `C54_first_order_partial` with a branch: `adouble d(x); if (x > 1) d = sqrt(x)`. -/
example : ∃ (c : Hov.Cfg) (s : St) (X : ℕ → ℝ → ℝ), 0 < c.P ∧ 1 < c.D ∧ NoShare c.D s ∧ (∀ o, X o 0 = getValue s o) ∧
    (∀ o, o < 1 → ContDiffAt ℝ ∞ (X o) 0 ∧ getADValue c s o 0 = some (deriv (X o) 0) ∧
      ∀ k, k < c.D → coef s o k 0 = iteratedDeriv (k + 1) (X o) 0 / (k + 1).factorial) ∧
    (Prog.branch .gt (.var 0) (.lit 1) (.stmt (.declE 1 (.un .sqrt (.var 0))) .done) .done).ok false (getValue s) (· < 1) := by
  refine ⟨⟨1, 2, 0, 0, ⟨0, fun _ => 0, fun _ _ => 0⟩, fun _ => ⟨0, fun _ => 0, fun _ _ => 0⟩, false⟩,
    { demoSt with adv := fun _ _ => 1 }, fun _ t => 2 + t * 1, by norm_num, by norm_num, (demo_noshare 2).of_row rfl,
    fun o => by simp [Hov.getValue, demoSt], fun o ho => ⟨contDiffAt_const.add (contDiffAt_id.mul contDiffAt_const), ?_, fun k hk => ?_⟩, ?_⟩
  · have : deriv (fun t : ℝ => 2 + t * 1) 0 = 1 := by simp
    rw [this]; rfl
  · have : o = 0 := by omega
    subst this
    refine Eq.trans ?_ (tc_line 2 1 k).symm
    simp only [coef, getOneADValue, demoSt, true_and]
    by_cases hk0 : k = 0 <;> simp [hk0]
  · simp [Prog.ok, Opd.val, Opd.within, Hov.getValue, demoSt, Cmp.holds, Stmt.ok, Expr.dom, Un.dom, Expr.val, Hov.getValue]

end Verif.Props.TracelessHov
