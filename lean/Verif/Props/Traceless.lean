import Verif.Traceless.Columns
/-!
# C29: traceless forward mode

`/repo/ADOL-C/include/adolc/adtl.h`.  A program is a list of statements over
`adtl::adouble` variables with branches on comparisons (`Verif.TL.Prog`); `Prog.val` is the
same program on numbers.  The variables `0 … n-1` are the independents.
-/
set_option linter.all false
noncomputable section
namespace Verif.Props.Traceless
open Verif.TL

/-- The environment in which the first `n` variables have the values `x`. -/
def start (n : ℕ) (s : Store) (x : Fin n → ℝ) : Env :=
  fun o => if h : o < n then x ⟨o, h⟩ else s o 0

/-- The function of the independents a program computes in variable `a`. -/
def F (p : Prog) (n : ℕ) (s : Store) (a : ℕ) (x : Fin n → ℝ) : ℝ := p.val (start n s x) a

/-- The independents carry the values `x` and in direction `j` the derivatives `V j`. -/
def Seeded (c : Cfg) (n : ℕ) (s : Store) (x : Fin n → ℝ) (V : ℕ → Fin n → ℝ) : Prop :=
  ∀ i : Fin n, getValue s i = x i ∧ ∀ j, j < c.p → getADValue c s i j = some (V j i)

/-- Constructors and setters produce what the getters return, for every number of
directions, and touch no other object; out-of-bounds accesses throw. -/
theorem C29_seed (c : Cfg) (s : Store) (a : ℕ) (x : ℝ) (V : ℕ → ℝ) :
    (∀ s', s' = setADValues c (setValue s a x) a V →
      getValue s' a = x ∧ (∀ j, j < c.p → getADValue c s' a j = some (V j)) ∧
      ∀ o, o ≠ a → s' o = s o) ∧
    (∀ s', s' = bindRow s a (ctorA c.p (c.mem a) x V) →
      getValue s' a = x ∧ (∀ j, j < c.p → getADValue c s' a j = some (V j)) ∧
      ∀ o, o ≠ a → s' o = s o) ∧
    (∀ j s', setADValue c s a j x = some s' →
      j < c.p ∧ getADValue c s' a j = some x ∧
      ∀ o k, (o ≠ a ∨ k ≠ j + 1) → s' o k = s o k) ∧
    (∀ j, c.p ≤ j → setADValue c s a j x = none ∧ getADValue c s a j = none) := by
  have e1 : ∀ o k, setADValues c (setValue s a x) a V o k =
      if o = a ∧ 1 ≤ k ∧ k ≤ c.p then V (k - 1) else puts s a 0 x o k :=
    fun o k => forS_apply _ o k (fun _ _ _ _ _ => rfl)
  refine ⟨?_, ?_, ?_, ?_⟩
  · rintro s' rfl
    refine ⟨?_, ?_, ?_⟩
    · simp only [getValue]; rw [e1, if_neg (by omega), puts_same]
    · intro j hj
      simp only [getADValue]
      rw [if_neg (by omega), e1, if_pos ⟨rfl, by omega, by omega⟩]; simp
    · intro o ho; funext k; rw [e1, if_neg (by tauto), puts_apply, if_neg (by tauto)]
  · rintro s' rfl
    refine ⟨?_, ?_, ?_⟩
    · simp [getValue, bindRow, ctorA, forI_c, put]
    · intro j hj
      simp only [getADValue, bindRow, ctorA]
      rw [if_neg (by omega)]
      simp only [if_true]
      rw [forI_c, if_pos (by omega)]; simp
    · intro o ho; simp [bindRow, ho]
  · intro j s' h
    simp only [setADValue] at h
    split_ifs at h with hj
    simp only [Option.some.injEq] at h
    subst h
    refine ⟨by omega, ?_, ?_⟩
    · simp only [getADValue]; rw [if_neg hj, puts_same]
    · intro o k hk; rw [puts_apply, if_neg (by omega)]
  · intro j hj
    exact ⟨by simp [setADValue, hj], by simp [getADValue, hj]⟩

/-- The value of every variable is that of the same program on plain numbers, for every
program and every point, whatever uninitialised memory contains. -/
theorem C29_value (c : Cfg) (p : Prog) (s : Store) (a : ℕ) :
    getValue (p.run c s) a = p.val (getValue s) a :=
  Prog.run_zero c p s _ (fun _ => rfl) a

theorem start_holds {c : Cfg} {n : ℕ} {s : Store} {x : Fin n → ℝ} {V : ℕ → Fin n → ℝ}
    (hs : Seeded c n s x V) :
    Holds (E := Fin n → ℝ) ⟨Set.univ, x, trivial, fun i => V (i - 1), {i | 1 ≤ i ∧ i ≤ c.p}⟩
      (start n s) s (· < n) := by
  refine ⟨fun o => ?_, fun o ho => ⟨?_, ContinuousLinearMap.proj ⟨o, ho⟩, ?_, ?_⟩⟩
  · by_cases h : o < n
    · simp only [start, h, dif_pos]; exact (hs ⟨o, h⟩).1
    · simp [start, h]
  · simp only [start, ho, dif_pos]; exact (hs ⟨o, ho⟩).1.symm
  · have : (fun y : Fin n → ℝ => start n s y o) = fun y => y ⟨o, ho⟩ := by
      funext y; simp [start, ho]
    rw [this]
    exact (ContinuousLinearMap.proj (R := ℝ) (φ := fun _ : Fin n => ℝ) ⟨o, ho⟩).hasFDerivWithinAt
  · intro i hi
    have h1 := (hs ⟨o, ho⟩).2 (i - 1) (by have := hi.1; have := hi.2; omega)
    simp only [getADValue] at h1
    have h2 : ¬ i - 1 ≥ c.p := by have := hi.1; have := hi.2; omega
    rw [if_neg h2, Option.some.injEq, Nat.sub_add_cancel hi.1] at h1
    simpa using h1

/-- At a point where every executed function is differentiable and no comparison is a tie,
each variable computed from initialised ones holds the value of the program's function, the
function is differentiable there, and `getADValue(j)` is its derivative in the `j`-th
direction — for every program, every number of independents and of directions.

Partial: a variable declared by `adouble d;` counts as uninitialised until it is assigned
(see `C29_uninitialised`), and `atan2` is excluded where its second argument is 0 (see
`C29_atan2_axis`). -/
theorem C29_derivative_partial (c : Cfg) (p : Prog) (n : ℕ) (s : Store) (x : Fin n → ℝ)
    (V : ℕ → Fin n → ℝ) (hs : Seeded c n s x V)
    (hok : p.ok false (start n s x) (· < n)) (a : ℕ) (ha : p.defs (start n s x) (· < n) a) :
    getValue (p.run c s) a = F p n s a x ∧ DifferentiableAt ℝ (F p n s a) x ∧
    ∀ j, j < c.p → getADValue c (p.run c s) a j = some (fderiv ℝ (F p n s a) x (V j)) := by
  have hF : Frame.within (E := Fin n → ℝ)
      ⟨Set.univ, x, trivial, fun i => V (i - 1), {i | 1 ≤ i ∧ i ≤ c.p}⟩ c := fun i hi => hi
  have := Prog.rel hF (k := false) (by simp) p (start_holds hs) hok
  obtain ⟨h1, L, hL, h2⟩ := this.rel a ha
  have hL' : HasFDerivAt (F p n s a) L x := hL.hasFDerivAt_of_univ
  refine ⟨h1.symm, hL'.differentiableAt, fun j hj => ?_⟩
  simp only [getADValue]
  rw [if_neg (by omega), h2 (j + 1) ⟨by omega, by omega⟩, hL'.fderiv]
  simp

/-- Where `fabs` is applied to 0 or `fmax`/`fmin` to equal numbers, `getADValue(j)` is the
one-sided derivative along the ray in the `j`-th direction (so also the derivative of
compositions of such functions). -/
theorem C29_kinks_partial (c : Cfg) (p : Prog) (n : ℕ) (s : Store) (x : Fin n → ℝ)
    (V : ℕ → Fin n → ℝ) (hs : Seeded c n s x V)
    (hok : p.ok true (start n s x) (· < n)) (a : ℕ) (ha : p.defs (start n s x) (· < n) a) :
    getValue (p.run c s) a = F p n s a x ∧
    ∀ j, j < c.p → ∃ d, getADValue c (p.run c s) a j = some d ∧
      HasDerivWithinAt (fun t : ℝ => F p n s a (fun i => x i + t * V j i)) d (Set.Ici 0) 0 := by
  refine ⟨by rw [C29_value]; congr 1; funext o; by_cases h : o < n
             · simp only [start, h, dif_pos]; exact (hs ⟨o, h⟩).1
             · simp [start, h, getValue], fun j hj => ?_⟩
  have hF : (ray (j + 1)).within c := by
    intro i hi
    have : i = j + 1 := hi
    omega
  have h0 : Holds (ray (j + 1)) (fun t => start n s (fun i => x i + t * V j i)) s (· < n) := by
    refine ⟨fun o => ?_, fun o ho => ?_⟩
    · by_cases h : o < n
      · simp only [start, h, dif_pos, ray]; rw [zero_mul, add_zero]; exact (hs ⟨o, h⟩).1
      · simp [start, h]
    · rw [ray_rel]
      have h1 := (hs ⟨o, ho⟩).2 j hj
      simp only [getADValue] at h1
      rw [if_neg (by omega), Option.some.injEq] at h1
      simp only [start, ho, dif_pos]
      refine ⟨by rw [zero_mul, add_zero]; exact (hs ⟨o, ho⟩).1.symm, ?_⟩
      have h1' : s o (j + 1) = V j ⟨o, ho⟩ := h1
      rw [h1']
      have := ((hasDerivAt_id (0:ℝ)).mul_const (V j ⟨o, ho⟩)).const_add (x ⟨o, ho⟩)
      simpa using this.hasDerivWithinAt
  have e0 : (fun i => x i + (ray (j + 1)).e0 * V j i) = x := by funext i; simp [ray]
  have hok' : p.ok true ((fun t : ℝ => start n s (fun i => x i + t * V j i)) (ray (j + 1)).e0) (· < n) := by
    simp only [e0]; exact hok
  have := (Prog.rel hF (fun _ => ray_abs (j + 1)) p h0 hok').rel a (by simp only [e0]; exact ha)
  rw [ray_rel] at this
  refine ⟨_, ?_, this.2⟩
  simp only [getADValue]
  rw [if_neg (by omega)]

/-- Directions do not interact: what a computation with `c.p` directions holds in direction
`j` is what the same computation with one direction holds when it is started from that
direction — for every program and point, at kinks and for uninitialised data too. -/
theorem C29_columns (c c₁ : Cfg) (p : Prog) (s s₁ : Store) (j : ℕ) (hj : j < c.p) (h1 : c₁.p = 1)
    (hnan : c₁.nan = c.nan) (hinf : c₁.inf = c.inf) (hjunk : c₁.junk 1 = c.junk (j + 1))
    (hmem : ∀ d, c₁.mem d 1 = c.mem d (j + 1))
    (hs : ∀ o, getValue s₁ o = getValue s o ∧ getADValue c₁ s₁ o 0 = getADValue c s o j) (a : ℕ) :
    getValue (p.run c₁ s₁) a = getValue (p.run c s) a ∧
    getADValue c₁ (p.run c₁ s₁) a 0 = getADValue c (p.run c s) a j := by
  have hc : Col c c₁ (j + 1) := ⟨h1, by omega, by omega, hnan, hinf, hjunk, hmem⟩
  have := Prog.col hc p (s := s) (s₁ := s₁) (fun o => ⟨(hs o).1, by
    have := (hs o).2
    simp only [getADValue] at this
    rwa [if_neg (by omega), if_neg (by omega), Option.some.injEq] at this⟩) a
  refine ⟨this.1, ?_⟩
  simp only [getADValue]
  rw [if_neg (by omega), if_neg (by omega)]
  congr 1
  exact this.2

/-! ### Non-vacuity -/

/-- `y = sqrt(x₀ * x₁) + exp(sin(x₀)); y *= y; if (y > 0) y = atan2(y, x₁);` -/
def demo : Prog :=
  .stmt (.declE 2 (.bin .add (.un .sqrt (.bin .mul (.var 0) (.var 1))) (.un .exp (.un .sin (.var 0))))) <|
  .stmt (.accA .mul 2 2) <|
  .branch .gt (.var 2) (.lit 0)
    (.stmt (.declE 3 (.bin .atan2 (.var 2) (.var 1))) <| .stmt (.setA 2 3) .done)
    .done

theorem demo_ok (s : Store) (x : Fin 2 → ℝ) (h0 : 0 < x 0) (h1 : 0 < x 1) :
    demo.ok false (start 2 s x) (· < 2) ∧ demo.defs (start 2 s x) (· < 2) 2 := by
  have hp : (0:ℝ) < (√(x 0 * x 1) + Real.exp (Real.sin (x 0))) * (√(x 0 * x 1) + Real.exp (Real.sin (x 0))) := by
    have := Real.sqrt_nonneg (x 0 * x 1)
    have := Real.exp_pos (Real.sin (x 0))
    positivity
  have e : √(x 0 * x 1) + Real.exp (Real.sin (x 0)) ≠ 0 := fun h => by rw [h] at hp; simp at hp
  constructor
  · simp [demo, Prog.ok, Stmt.ok, Stmt.val, Stmt.defs, mark, Expr.dom, Expr.val, Expr.within, Bin.dom, Un.dom,
      Bin.val, Un.val, Env.set, start, Acc.val, Opd.val, Opd.within, Cmp.holds, h0, h1, e, hp, h1.ne']
  · simp [demo, Prog.defs, Stmt.val, Stmt.defs, mark, Expr.val, Expr.within,
      Bin.val, Un.val, Env.set, start, Acc.val, Opd.val, Cmp.holds, hp]

/-- Three directions at the point (1, 2). -/
def demoCfg : Cfg := ⟨3, 0, 0, fun _ => 7, fun _ _ => 9⟩
/-- Two seeded objects. -/
def demoStore : Store := fun o k => if k = 0 then o + 1 else if k = o + 1 then 1 else 0

example : Seeded demoCfg 2 demoStore ![1, 2] (fun j i => if j = i.val then 1 else 0) := by
  intro i
  refine ⟨by fin_cases i <;> simp [getValue, demoStore]; norm_num, fun j hj => ?_⟩
  simp only [getADValue, demoStore]
  have : ¬ j ≥ demoCfg.p := by omega
  simp [this]

example (s : Store) : demo.ok false (start 2 s ![1, 2]) (· < 2) ∧ demo.defs (start 2 s ![1, 2]) (· < 2) 2 :=
  demo_ok s _ (by norm_num) (by norm_num)

/-- `y = fabs(fmax(x, 0))` at 0 meets the hypotheses of the statement about kinks. -/
example (s : Store) :
    (Prog.stmt (.declE 1 (.un .fabs (.un (.fmaxD 0) (.var 0)))) .done).ok true (start 1 s ![0]) (· < 1) := by
  simp [Prog.ok, Stmt.ok, Expr.dom, Un.dom]

/-! ### Where the full statement fails -/

/-- `adouble y; y += x;`: the value is `x`, but whatever number is wanted, the derivative can
be that number, depending on the content of uninitialised memory (adtl.h:282-289 sets only
the value).  `p` directions, any point, any seed. -/
theorem C29_uninitialised (p : ℕ) (hp : 1 ≤ p) (s : Store) (w : ℝ) :
    ∃ c : Cfg, c.p = p ∧
      getValue ((Prog.stmt (.decl 1) (.stmt (.accA .add 1 0) .done)).run c s) 1 = getValue s 0 ∧
      getADValue c ((Prog.stmt (.decl 1) (.stmt (.accA .add 1 0) .done)).run c s) 1 0 = some w := by
  refine ⟨⟨p, 0, 0, fun _ => 0, fun _ _ => w - s 0 1⟩, rfl, ?_, ?_⟩
  · rw [C29_value]
    simp [Prog.val, Stmt.val, Env.set, Acc.val, getValue]
  · simp only [getADValue, Prog.run, Stmt.run]
    rw [if_neg (show ¬ (0 ≥ p) by omega), accA_apply _ _ _ _ _ _ _ (show 0 + 1 ≤ p by omega)]
    simp [bindRow, ctor0, put]

/-- `atan2(a, b)` at `b = 0`: every derivative returned is 0 (adtl.h:575-580), although the
function is differentiable for `a ≠ 0` with derivative `-b'/a`. -/
theorem C29_atan2_axis (c : Cfg) (a b : Row) (hb : b 0 = 0) (ha : a 0 ≠ 0) :
    (∀ i, 1 ≤ i → i ≤ c.p → Bin.run c .atan2 a b i = 0) ∧
    HasDerivAt (fun t : ℝ => Bin.val .atan2 (a 0 + t * 0) (b 0 + t * 1)) (-1 / a 0) 0 := by
  constructor
  · intro i h1 h2
    simp only [Bin.run]
    rw [if_neg (by simp [hb]), forI_c, if_pos ⟨h1, h2⟩]
  · have h1 := hasFDerivAt_atan2 (x := a 0) (y := b 0) (Or.inr ha)
    have h2 : HasDerivAt (fun t : ℝ => ((a 0 + t * 0, b 0 + t * 1) : ℝ × ℝ)) (0, 1) 0 := by
      refine HasDerivAt.prodMk ?_ ?_
      · simpa using ((hasDerivAt_id (0:ℝ)).mul_const (0:ℝ)).const_add (a 0)
      · simpa using ((hasDerivAt_id (0:ℝ)).mul_const (1:ℝ)).const_add (b 0)
    have h3 := HasFDerivAt.comp_hasDerivAt (l := fun q : ℝ × ℝ => Complex.arg ⟨q.2, q.1⟩) (0:ℝ)
      (f := fun t : ℝ => ((a 0 + t * 0, b 0 + t * 1) : ℝ × ℝ)) (by simpa using h1) h2
    refine HasDerivAt.congr_deriv h3 ?_
    rw [lin2_apply, hb]
    field_simp
    ring

end Verif.Props.Traceless
