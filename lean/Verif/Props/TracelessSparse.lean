import Verif.Traceless.IndoDriver
import Verif.Traceless.IndoDep
import Verif.Props.Traceless
/-!
# C51: traceless sparsity patterns and sparse Jacobians

`adtl_indo::adouble` and `ADOLC_get_sparse_jacobian`.  Programs, `Prog.val`, `Prog.ok`, `Prog.defs` are those of C29;
`Prog.regular` and `Prog.noSelf` are defined in `Verif.Traceless.IndoDep`.
-/
set_option linter.all false
noncomputable section
namespace Verif.Props.TracelessSparse
open Verif.TL Verif.Sparse Filter Topology

/-- The values of the variables when the independents are `x` and the rest is default constructed. -/
def start0 (n : ℕ) (x : Fin n → ℝ) : Env := fun o => if h : o < n then x ⟨o, h⟩ else 0

/-- Component `i` of the function a program computes: variable `n + i` at the end. -/
def comp (p : Prog) (n i : ℕ) (x : Fin n → ℝ) : ℝ := p.val (start0 n x) (n + i)

/-- The partial derivative of component `i` with respect to independent `j`. -/
def partials (p : Prog) (n : ℕ) (x : Fin n → ℝ) (i j : ℕ) : ℝ :=
  if h : j < n then fderiv ℝ (comp p n i) x (Pi.single ⟨j, h⟩ 1) else 0

/-- The objects the pattern run starts from: independent `i` has pattern `{i}`, everything else the empty one. -/
def indoStart (n : ℕ) (x : Fin n → ℝ) : IStore :=
  fun o => if h : o < n then ⟨x ⟨o, h⟩, [o]⟩ else ⟨0, []⟩

/-- Initialisation by assignments and `ADOLC_Init_sparse_pattern` gives this start. -/
theorem C51_init (n : ℕ) (x : Fin n → ℝ) (y : ℕ → ℝ) (hy : ∀ i : Fin n, y i = x i) :
    initPattern n 0 ((List.range n).foldl (fun s i => (Stmt.setD i (y i)).irun s) fun _ => ⟨0, []⟩) = indoStart n x := by
  have h1 : ∀ k (s : IStore), (List.range k).foldl (fun s i => (Stmt.setD i (y i)).irun s) s =
      fun o => if o < k then ⟨y o, []⟩ else s o := by
    intro k
    induction k with
    | zero => intro s; funext o; simp
    | succ k ih =>
      intro s
      rw [List.range_succ, List.foldl_append, ih]
      funext o
      simp only [List.foldl_cons, List.foldl_nil, Stmt.irun, IStore.set]
      rcases Nat.lt_trichotomy o k with h | rfl | h
      · simp [h, h.ne, Nat.lt_succ_of_lt h]
      · simp
      · simp [h.ne', not_lt.2 h.le, Nat.not_lt.2 (Nat.succ_le_of_lt h)]
  have h2 : ∀ k (s : IStore), initPattern k 0 s = fun o => if o < k then ⟨(s o).val, [o]⟩ else s o := by
    intro k
    induction k with
    | zero => intro s; funext o; simp [initPattern]
    | succ k ih =>
      intro s
      unfold initPattern at ih ⊢
      rw [List.range_succ, List.foldl_append, ih]
      funext o
      simp only [List.foldl_cons, List.foldl_nil, IStore.set]
      rcases Nat.lt_trichotomy o k with h | rfl | h
      · simp [h, h.ne, Nat.lt_succ_of_lt h]
      · simp
      · simp [h.ne', not_lt.2 h.le, Nat.not_lt.2 (Nat.succ_le_of_lt h)]
  rw [h1, h2]
  funext o
  by_cases h : o < n
  · simp [indoStart, h, hy ⟨o, h⟩]
  · simp [indoStart, h]

/-- `ADOLC_Init_sparse_pattern` with any `start_cnt`: object `i < n` gets the pattern `{start_cnt + i}` and keeps its value, no
other object is touched. -/
theorem C51_init_count (n cnt : ℕ) (s : IStore) (o : ℕ) :
    initPattern n cnt s o = if o < n then ⟨(s o).val, [cnt + o]⟩ else s o := by
  revert o
  induction n with
  | zero => intro o; simp [initPattern]
  | succ k ih =>
    intro o
    unfold initPattern at ih ⊢
    rw [List.range_succ, List.foldl_append]
    simp only [List.foldl_cons, List.foldl_nil, IStore.set, ih]
    rcases Nat.lt_trichotomy o k with h | rfl | h
    · simp [h, h.ne, Nat.lt_succ_of_lt h]
    · simp [Nat.add_comm]
    · simp [h.ne', not_lt.2 h.le, Nat.not_lt.2 (Nat.succ_le_of_lt h)]

theorem indoStart_val (n : ℕ) (x : Fin n → ℝ) (o : ℕ) : (indoStart n x o).val = start0 n x o := by
  by_cases h : o < n <;> simp [indoStart, start0, h]

theorem indoStart_dep (n : ℕ) (x : Fin n → ℝ) (o : ℕ) : Dep x (fun y => start0 n y o) (indoStart n x o) := by
  by_cases h : o < n
  · simp only [start0, indoStart, h, dif_pos]
    exact ⟨rfl, (continuous_apply _).continuousAt, .of_forall fun y hy => hy ⟨o, h⟩ (by simp)⟩
  · simp only [start0, indoStart, h, dif_neg, not_false_iff]
    exact Dep.const x 0 []

/-- Every variable has the value of the same program on plain numbers, and its pattern is strictly increasing (so
free of duplicates) — for every program and point, whether or not anything is differentiable. -/
theorem C51_values (p : Prog) (n : ℕ) (x : Fin n → ℝ) (a : ℕ) :
    (p.irun (indoStart n x) a).val = p.val (start0 n x) a ∧
    (p.irun (indoStart n x) a).pat.Pairwise (· < ·) :=
  ⟨Prog.irun_val p _ _ (indoStart_val n x) a, Prog.irun_sorted p (fun o => by
    by_cases h : o < n <;> simp [indoStart, h]) a⟩

/-- Every index in a pattern is that of an independent. -/
theorem C51_indices (p : Prog) (n : ℕ) (x : Fin n → ℝ) (a : ℕ) : ∀ j ∈ (p.irun (indoStart n x) a).pat, j < n := by
  have hu : ∀ (f : Un) (a : IObj), (∀ j ∈ a.pat, j < n) → ∀ j ∈ (f.irun a).pat, j < n := by
    intro f a h j
    cases f <;> simp only [Un.irun, iDPow] <;> (try split_ifs) <;>
      simp only [mem_addTo, List.not_mem_nil, false_or, false_imp_iff] <;> (try exact h j) <;>
      rintro (h' | h') <;> exact h j h'
  have hb : ∀ (f : Bin) (a b : IObj), (∀ j ∈ a.pat, j < n) → (∀ j ∈ b.pat, j < n) → ∀ j ∈ (f.irun a b).pat, j < n := by
    intro f a b h h' j
    have := h j
    have := h' j
    cases f <;> simp only [Bin.irun, iMul, iDPow] <;> (try split_ifs) <;>
      simp only [mem_addTo, List.not_mem_nil, false_or] <;> tauto
  have he : ∀ (s : IStore), (∀ o, ∀ j ∈ (s o).pat, j < n) → ∀ (e : Expr), ∀ j ∈ (e.irun s).pat, j < n := by
    intro s hs e
    induction e with
    | var a => exact hs a
    | lit v => simp [Expr.irun]
    | un f e ih => exact hu f _ ih
    | bin f e₁ e₂ ih₁ ih₂ => exact hb f _ _ ih₁ ih₂
  have ha : ∀ (s : IStore), (∀ o, ∀ j ∈ (s o).pat, j < n) → ∀ d a o, ∀ j ∈ (iSetA d a s o).pat, j < n := by
    intro s hs d a o j
    rw [iSetA_apply]
    split_ifs
    · simp
    · rw [mem_addTo_nil]; exact hs a j
    · exact hs o j
  have hst : ∀ (s : IStore), (∀ o, ∀ j ∈ (s o).pat, j < n) → ∀ (st : Stmt), ∀ o, ∀ j ∈ (st.irun s o).pat, j < n := by
    intro s hs st o j
    cases st
    case declE d e =>
      simp only [Stmt.irun, IStore.set]; split_ifs
      · rw [mem_addTo_nil]; exact he s hs e j
      · exact hs o j
    case postIncr d x =>
      simp only [Stmt.irun]; rw [ipost_apply]; split_ifs
      · rw [mem_addTo_nil]; exact hs x j
      · exact hs x j
      · exact hs o j
    case postDecr d x =>
      simp only [Stmt.irun]; rw [ipost_apply]; split_ifs
      · rw [mem_addTo_nil]; exact hs x j
      · exact hs x j
      · exact hs o j
    case setA d a => exact ha s hs d a o j
    case accD f d v => simp only [Stmt.irun, iAccD_apply]; split_ifs; exacts [hs d j, hs o j]
    case accA f d a =>
      simp only [Stmt.irun, iAccA_apply]; split_ifs
      · rw [mem_addTo]; rintro (h | h); exacts [hs d j h, hs a j h]
      · exact hs o j
    case cond d q a b => simp only [Stmt.irun]; split_ifs <;> exact ha s hs _ _ o j
    case condEq d q a b => simp only [Stmt.irun]; split_ifs <;> exact ha s hs _ _ o j
    case condS d q a => simp only [Stmt.irun]; split_ifs; exacts [ha s hs _ _ o j, hs o j]
    case condEqS d q a => simp only [Stmt.irun]; split_ifs; exacts [ha s hs _ _ o j, hs o j]
    all_goals
      simp only [Stmt.irun, IStore.set]; split_ifs
      · first | (simp; done) | exact hs _ j
      · exact hs o j
  have hp : ∀ (p : Prog) (s : IStore), (∀ o, ∀ j ∈ (s o).pat, j < n) → ∀ o, ∀ j ∈ (p.irun s o).pat, j < n := by
    intro p
    induction p with
    | done => intro s hs; exact hs
    | stmt st p ih => intro s hs; exact ih _ (hst s hs st)
    | branch f l r t e iht ihe =>
      intro s hs
      simp only [Prog.irun]
      split_ifs
      · exact iht s hs
      · exact ihe s hs
  refine hp p _ (fun o => ?_) a
  by_cases h : o < n <;> simp [indoStart, h]

/-- Where all executed functions are continuous and no comparison is a tie, each variable near `x` is a function of the
independents in its pattern alone: it keeps its value when only others change — for every program, every number of
independents.  (Differentiability is not needed: kinks of `fabs`, `fmax`, `fmin` are allowed.)

Partial: an object must not be assigned to itself (see `C51_self_assignment`). -/
theorem C51_dependence_partial (p : Prog) (n : ℕ) (x : Fin n → ℝ) (hr : p.regular (start0 n x))
    (hn : p.noSelf (start0 n x)) (a : ℕ) :
    ∀ᶠ y in 𝓝 x, (∀ j : Fin n, (j : ℕ) ∈ (p.irun (indoStart n x) a).pat → y j = x j) →
      p.val (start0 n y) a = p.val (start0 n x) a :=
  (Prog.dep p (env := start0 n) (indoStart_dep n x) hr hn a).dep

/-- A function that keeps its value when coordinate `j` alone changes a little has zero derivative along it. -/
theorem fderiv_zero_of_local {n : ℕ} {f : (Fin n → ℝ) → ℝ} {x : Fin n → ℝ} {j : Fin n} {S : Fin n → Prop}
    (h : ∀ᶠ y in 𝓝 x, (∀ k, S k → y k = x k) → f y = f x) (hj : ¬ S j) :
    fderiv ℝ f x (Pi.single j 1) = 0 := by
  by_cases hd : DifferentiableAt ℝ f x
  · have h1 : HasDerivAt (fun t : ℝ => f (x + t • Pi.single j 1)) (fderiv ℝ f x (Pi.single j 1)) 0 := by
      have h2 : HasDerivAt (fun t : ℝ => x + t • (Pi.single j 1 : Fin n → ℝ)) (Pi.single j 1) 0 := by
        simpa using ((hasDerivAt_id (0:ℝ)).smul_const (Pi.single j 1 : Fin n → ℝ)).const_add x
      have h3 := hd.hasFDerivAt
      exact HasFDerivAt.comp_hasDerivAt (0:ℝ) (l := f) (by simpa using h3) h2
    have h2 : HasDerivAt (fun t : ℝ => f (x + t • Pi.single j 1)) 0 0 := by
      refine (hasDerivAt_const (0:ℝ) (f x)).congr_of_eventuallyEq ?_
      have hc : Tendsto (fun t : ℝ => x + t • (Pi.single j 1 : Fin n → ℝ)) (𝓝 0) (𝓝 x) := by
        have : Continuous fun t : ℝ => x + t • (Pi.single j 1 : Fin n → ℝ) := by fun_prop
        simpa using this.tendsto 0
      filter_upwards [hc.eventually h] with t ht
      refine ht fun k hk => ?_
      have : k ≠ j := fun e => hj (e ▸ hk)
      simp [Pi.single_apply, this]
    exact h1.unique h2
  · rw [fderiv_zero_of_not_differentiableAt hd]; rfl

/-- So the partial derivatives with respect to independents outside the pattern vanish. -/
theorem C51_zero_partial (p : Prog) (n : ℕ) (x : Fin n → ℝ) (hr : p.regular (start0 n x))
    (hn : p.noSelf (start0 n x)) (i : ℕ) (j : ℕ) (hj : j ∉ (p.irun (indoStart n x) (n + i)).pat) :
    partials p n x i j = 0 := by
  unfold partials
  split_ifs with h
  · exact fderiv_zero_of_local (S := fun k : Fin n => (k : ℕ) ∈ (p.irun (indoStart n x) (n + i)).pat)
      (C51_dependence_partial p n x hr hn (n + i)) hj
  · rfl

/-! ### The driver -/

theorem Un_dom_mono (f : Un) {x : ℝ} (h : f.dom false x) : f.dom true x := by
  cases f <;> simp only [Un.dom, Bool.false_eq_true, or_false, or_true] at h ⊢ <;> exact h
theorem Bin_dom_mono (f : Bin) {x y : ℝ} (h : f.dom false x y) : f.dom true x y := by
  cases f <;> simp only [Bin.dom, Bool.false_eq_true, or_false, or_true] at h ⊢ <;> exact h
theorem Expr_dom_mono (e : Expr) {v : Env} (h : e.dom false v) : e.dom true v := by
  induction e with
  | var a => trivial
  | lit v => trivial
  | un f e ih => exact ⟨ih h.1, Un_dom_mono f h.2⟩
  | bin f e₁ e₂ ih₁ ih₂ => exact ⟨ih₁ h.1, ih₂ h.2.1, Bin_dom_mono f h.2.2⟩

theorem regular_of_ok (p : Prog) : ∀ {v : Env} {D : ℕ → Prop}, p.ok false v D → p.regular v := by
  induction p with
  | done => intro v D _; trivial
  | stmt st p ih =>
    intro v D h
    refine ⟨?_, ih h.2⟩
    have h1 := h.1
    cases st
    case declE d e => exact Expr_dom_mono e h1
    case accD f d x => cases f <;> first | trivial | exact h1
    case accA f d a => cases f <;> first | trivial | exact h1
    case cond d q a b => exact h1.1
    case condS d q a => exact h1.1
    case condEq d q a b => exact h1.1
    case condEqS d q a => exact h1.1
    all_goals trivial
  | branch f l r t e iht ihe =>
    intro v D h
    obtain ⟨h1, -, -, h2⟩ := h
    refine ⟨h1, ?_⟩
    by_cases hb : f.holds (l.val v) (r.val v)
    · rw [if_pos hb] at h2 ⊢; exact iht h2
    · rw [if_neg hb] at h2 ⊢; exact ihe h2

theorem seed_inner (c : Cfg) (J : JInfos) (i : ℕ) (s : Store) : ∀ k, k ≤ c.p →
    (List.range k).foldl (fun s jj => s.bind fun s => setADValue c s i jj (seedOf J.col i jj)) (some s) =
      some fun o q => if o = i ∧ 1 ≤ q ∧ q ≤ k then seedOf J.col i (q - 1) else s o q := by
  intro k
  induction k with
  | zero => intro _; simp; funext o q; rw [if_neg (by omega)]
  | succ k ih =>
    intro hk
    rw [List.range_succ, List.foldl_append, ih (by omega)]
    simp only [List.foldl_cons, List.foldl_nil, Option.bind_some, setADValue]
    rw [if_neg (by omega)]
    congr 1
    funext o q
    rw [puts_apply]
    by_cases h1 : o = i ∧ q = k + 1
    · rw [if_pos h1, if_pos ⟨h1.1, by omega, by omega⟩, h1.2]; rfl
    · rw [if_neg h1]
      by_cases h2 : o = i ∧ 1 ≤ q ∧ q ≤ k
      · rw [if_pos h2, if_pos ⟨h2.1, by omega, by omega⟩]
      · rw [if_neg h2, if_neg (by omega)]

theorem adtlStart_eq (c : Cfg) (J : JInfos) (hc : c.p = J.p) (x : ℕ → ℝ) : ∀ n, ∃ s, adtlStart c J n x = some s ∧
    ∀ o q, q ≤ c.p → s o q = if o < n then (if q = 0 then x o else seedOf J.col o (q - 1)) else ctor0 (c.mem o) q := by
  intro n
  induction n with
  | zero => exact ⟨_, rfl, fun o q _ => by simp⟩
  | succ n ih =>
    obtain ⟨s, h1, h2⟩ := ih
    unfold adtlStart at h1 ⊢
    rw [List.range_succ, List.foldl_append, h1]
    simp only [List.foldl_cons, List.foldl_nil, Option.bind_some]
    rw [seed_inner c J n _ J.p (by omega)]
    refine ⟨_, rfl, fun o q hq => ?_⟩
    by_cases ho : o = n
    · subst ho
      by_cases hq0 : q = 0
      · subst hq0
        rw [if_neg (by omega), setD_apply c _ _ _ _ _ hq]; simp
      · rw [if_pos ⟨rfl, by omega, by omega⟩, if_pos (by omega), if_neg hq0]
    · rw [if_neg (by tauto), setD_apply c _ _ _ _ _ hq, if_neg ho, h2 o q hq]
      by_cases h3 : o < n
      · rw [if_pos h3, if_pos (show o < n + 1 by omega)]
      · rw [if_neg h3, if_neg (show ¬ o < n + 1 by omega)]

/-- The direction with a 1 in the coordinates of one colour. -/
def colourDir (n : ℕ) (col : ℕ → ℕ) (c : ℕ) : Fin n → ℝ := fun k => seedOf col k c

theorem fderiv_colourDir (n : ℕ) (L : (Fin n → ℝ) →L[ℝ] ℝ) (col : ℕ → ℕ) (c : ℕ) :
    L (colourDir n col c) = ∑ k : Fin n, if col k = c then L (Pi.single k 1) else 0 := by
  have : colourDir n col c = ∑ k : Fin n, (seedOf col k c) • (Pi.single k (1:ℝ) : Fin n → ℝ) := by
    funext q
    simp [colourDir, Finset.sum_apply, Pi.single_apply]
  rw [this, map_sum]
  refine Finset.sum_congr rfl fun k _ => ?_
  rw [map_smul]
  unfold seedOf
  split_ifs <;> simp

/-- With any pattern that covers the nonzero partial derivatives at `x` and a colouring of it, the numeric part returns
exactly the partial derivatives at the positions of the pattern. -/
theorem C51_numeric (c : Cfg) (p : Prog) (J : JInfos) (hc : c.p = J.p) (n : ℕ) (x : Fin n → ℝ) (y : ℕ → ℝ)
    (hy : ∀ i : Fin n, y i = x i) (M : List (Entry ℝ)) (hwf : ∀ r ∈ J.JP, RowWf r)
    (hlt : ∀ r ∈ J.JP, ∀ j ∈ r.tail, j < n)
    (hcol : ColumnColouring J.JP n J.col J.p)
    (hcov : ∀ i j, i < J.JP.length → j < n → j ∉ patRow J.JP i → partials p n x i j = 0)
    (hok : p.ok false (start0 n x) (· < n))
    (hdef : ∀ i, i < J.JP.length → p.defs (start0 n x) (· < n) (n + i)) :
    adtlPart c p J n y M = some (entries J.JP (partials p n x)) := by
  obtain ⟨s, h1, h2⟩ := adtlStart_eq c J hc y n
  unfold adtlPart
  rw [h1, Option.map_some, recoverCol_eq hwf]
  have hst : Props.Traceless.start n s x = start0 n x := by
    funext o
    by_cases h : o < n
    · simp [Props.Traceless.start, start0, h]
    · simp only [Props.Traceless.start, start0, h, dif_neg, not_false_iff]
      rw [h2 o 0 (by omega), if_neg h]; simp [ctor0, put]
  have hst' : ∀ z, Props.Traceless.start n s z = start0 n z := by
    intro z
    funext o
    by_cases h : o < n
    · simp [Props.Traceless.start, start0, h]
    · simp only [Props.Traceless.start, start0, h, dif_neg, not_false_iff]
      rw [h2 o 0 (by omega), if_neg h]; simp [ctor0, put]
  have hseed : Props.Traceless.Seeded c n s x (colourDir n J.col) := by
    intro i
    refine ⟨?_, fun j hj => ?_⟩
    · show s i 0 = x i
      rw [h2 i 0 (by omega), if_pos i.2, if_pos rfl, hy]
    · simp only [getADValue]
      rw [if_neg (by omega), h2 i (j + 1) (by omega), if_pos i.2, if_neg (by omega)]; rfl
  congr 1
  unfold entries
  apply List.flatMap_congr
  intro i hi
  rw [List.mem_range] at hi
  apply List.map_congr_left
  intro j hj
  have hr : J.JP[i]?.getD [] = J.JP[i] := by simp [List.getElem?_eq_getElem hi]
  have hjn : j < n := hlt J.JP[i] (List.getElem_mem hi) j (by rw [← hr]; exact hj)
  have hd := Props.Traceless.C29_derivative_partial c p n s x (colourDir n J.col) hseed (by rw [hst]; exact hok)
    (n + i) (by rw [hst]; exact hdef i hi)
  have hF : Props.Traceless.F p n s (n + i) = comp p n i := by
    funext z; simp [Props.Traceless.F, comp, hst']
  rw [hF] at hd
  have hj2 := hd.2.2 (J.col j) (by rw [hc]; exact hcol.lt j hjn)
  have e : compressed c (p.run c s) n i (J.col j) = partials p n x i j := by
    unfold compressed
    rw [hj2, Option.getD_some, fderiv_colourDir]
    rw [Finset.sum_eq_single (⟨j, hjn⟩ : Fin n)]
    · simp [partials, hjn]
    · intro k _ hk
      split_ifs with hkc
      · have hkj : (k : ℕ) ≠ j := fun e => hk (Fin.ext e)
        have hnk : (k : ℕ) ∉ patRow J.JP i := by
          intro hin
          exact hcol.proper J.JP[i] (List.getElem_mem hi) k (by rw [← hr]; exact hin) j (by rw [← hr]; exact hj) hkj hkc
        have := hcov i k hi k.2 hnk
        simpa [partials, k.2] using this
      · rfl
    · intro h; exact absurd (Finset.mem_univ _) h
  simp [e]

/-- The pattern the driver stores, row by row. -/
theorem indoPattern_row (p : Prog) (n m : ℕ) (x : Fin n → ℝ) (y : ℕ → ℝ) (hy : ∀ i : Fin n, y i = x i) :
    (indoPattern p n m y).length = m ∧ (∀ r ∈ indoPattern p n m y, RowWf r) ∧
    ∀ i, i < m → patRow (indoPattern p n m y) i = (p.irun (indoStart n x) (n + i)).pat := by
  unfold indoPattern
  simp only [C51_init n x y hy]
  have hrow : ∀ i, (if (p.irun (indoStart n x) (n + i)).pat.length > 0 then
      (p.irun (indoStart n x) (n + i)).pat.length :: (p.irun (indoStart n x) (n + i)).pat else [0]) =
      (p.irun (indoStart n x) (n + i)).pat.length :: (p.irun (indoStart n x) (n + i)).pat := by
    intro i
    split_ifs with h
    · rfl
    · have : (p.irun (indoStart n x) (n + i)).pat = [] := List.length_eq_zero_iff.1 (by omega)
      rw [this]; rfl
  refine ⟨by simp [getPattern], ?_, ?_⟩
  · intro r hr
    simp only [getPattern, List.mem_map] at hr
    obtain ⟨i, -, rfl⟩ := hr
    exact ⟨_, hrow i⟩
  · intro i hi
    simp only [patRow, getPattern]
    rw [List.getElem?_map, List.getElem?_range hi]
    simp only [Option.map_some, Option.getD_some]
    rw [hrow]; rfl

/-- `ADOLC_get_sparse_jacobian` with `repeat = 0`, at a point where the function is differentiable: it returns, ordered by
row and column, exactly one entry per position of the pattern, with the partial derivative as value; every partial
derivative at another position is zero.  For every program, number of independents and dependents, every content of the
uninitialised memory, and whatever the caller's matrix and the global cache held before; ColPack is assumed to return a
proper colouring of the pattern it is given.

Partial: no object is assigned to itself (`C51_self_assignment`), and C29's restrictions. -/
theorem C51_jacobian_partial (cp : ColPack) (cfg : ℕ → Cfg) (hcfg : ∀ q, (cfg q).p = q) (p : Prog) (n m : ℕ)
    (x : Fin n → ℝ) (y : ℕ → ℝ) (hy : ∀ i : Fin n, y i = x i) (J : JInfos) (M : List (Entry ℝ))
    (hcp : ColumnColouring (indoPattern p n m y) n (cp (indoPattern p n m y) n).1 (cp (indoPattern p n m y) n).2)
    (hok : p.ok false (start0 n x) (· < n)) (hdef : ∀ i, i < m → p.defs (start0 n x) (· < n) (n + i))
    (hn : p.noSelf (start0 n x)) :
    ∃ J' E, getSparseJacobian cp cfg p n m false y J M = some (J', E) ∧
      E.Pairwise (fun e e' => e.1 < e'.1 ∨ (e.1 = e'.1 ∧ e.2.1 < e'.2.1)) ∧
      (∀ e ∈ E, e.1 < m ∧ e.2.1 < n ∧ e.2.2 = partials p n x e.1 e.2.1) ∧
      (∀ i j, i < m → j < n → (∀ v, (i, j, v) ∉ E) → partials p n x i j = 0) ∧
      (∀ i, i < m → DifferentiableAt ℝ (comp p n i) x) := by
  obtain ⟨h1, h2, h3⟩ := indoPattern_row p n m x y hy
  have hreg := regular_of_ok p hok
  have hcov : ∀ i j, i < (indoPattern p n m y).length → j < n → j ∉ patRow (indoPattern p n m y) i →
      partials p n x i j = 0 := by
    intro i j hi _ hj'
    rw [h1] at hi
    exact C51_zero_partial p n x hreg hn i j (by rw [← h3 i hi]; exact hj')
  have hcols : ∀ r ∈ indoPattern p n m y, (∀ j ∈ r.tail, j < n) ∧ r.tail.Pairwise (· < ·) := by
    intro r hr
    obtain ⟨i, hi, rfl⟩ := List.getElem_of_mem hr
    have e : (indoPattern p n m y)[i].tail = (p.irun (indoStart n x) (n + i)).pat := by
      rw [← h3 i (by omega)]; simp [patRow, List.getElem?_eq_getElem hi]
    rw [e]
    exact ⟨C51_indices p n x (n + i), (C51_values p n x (n + i)).2⟩
  have hnum := C51_numeric (cfg (cp (indoPattern p n m y) n).2) p
    ⟨indoPattern p n m y, (cp (indoPattern p n m y) n).1, (cp (indoPattern p n m y) n).2⟩ (hcfg _) n x y hy M h2
    (fun r hr => (hcols r hr).1) hcp hcov hok (fun i hi => hdef i (h1 ▸ hi))
  refine ⟨⟨indoPattern p n m y, (cp (indoPattern p n m y) n).1, (cp (indoPattern p n m y) n).2⟩,
    entries (indoPattern p n m y) (partials p n x), ?_, entries_sorted (fun r hr => (hcols r hr).2) _, ?_, ?_, ?_⟩
  · unfold getSparseJacobian
    simp only [Bool.false_eq_true, if_false]
    rw [hnum]; rfl
  · intro e he
    rw [mem_entries] at he
    refine ⟨h1 ▸ he.1, ?_, he.2.2⟩
    have := he.2.1
    rw [h3 _ (h1 ▸ he.1)] at this
    exact C51_indices p n x _ _ this
  · intro i j hi hj hE
    have hi' : i < (indoPattern p n m y).length := by omega
    refine hcov i j hi' hj fun hin => hE (partials p n x i j) ?_
    rw [mem_entries]
    exact ⟨hi', hin, rfl⟩
  · intro i hi
    obtain ⟨s, h4, h5⟩ := adtlStart_eq (cfg 0) ⟨[], fun _ => 0, 0⟩ (hcfg 0) y n
    have hst' : ∀ z, Props.Traceless.start n s z = start0 n z := by
      intro z
      funext o
      by_cases h : o < n
      · simp [Props.Traceless.start, start0, h]
      · simp only [Props.Traceless.start, start0, h, dif_neg, not_false_iff]
        rw [h5 o 0 (by omega), if_neg h]; simp [ctor0, put]
    have := Props.Traceless.C29_derivative_partial (cfg 0) p n s x (fun _ => 0)
      (fun k => ⟨by show s k 0 = x k; rw [h5 k 0 (by omega), if_pos k.2, if_pos rfl, hy], fun j hj => by
        rw [hcfg] at hj; omega⟩) (by rw [hst']; exact hok) (n + i) (by rw [hst']; exact hdef i hi)
    have hF : Props.Traceless.F p n s (n + i) = comp p n i := by
      funext z; simp [Props.Traceless.F, comp, hst']
    rw [hF] at this
    exact this.2.1

/-- With `repeat ≠ 0` the cached pattern and colours are used: the values are right at the new point as long as the cached
pattern still covers the nonzero partial derivatives there.  Partial: it need not (`C51_repeat_stale`). -/
theorem C51_repeat_partial (cp : ColPack) (cfg : ℕ → Cfg) (hcfg : ∀ q, (cfg q).p = q) (p : Prog) (n m : ℕ)
    (x : Fin n → ℝ) (y : ℕ → ℝ) (hy : ∀ i : Fin n, y i = x i) (J : JInfos) (M : List (Entry ℝ))
    (hlen : J.JP.length = m) (hwf : ∀ r ∈ J.JP, RowWf r) (hlt : ∀ r ∈ J.JP, ∀ j ∈ r.tail, j < n)
    (hcol : ColumnColouring J.JP n J.col J.p)
    (hcov : ∀ i, i < m → ∀ j ∈ (p.irun (indoStart n x) (n + i)).pat, j ∈ patRow J.JP i)
    (hok : p.ok false (start0 n x) (· < n)) (hdef : ∀ i, i < m → p.defs (start0 n x) (· < n) (n + i))
    (hn : p.noSelf (start0 n x)) :
    getSparseJacobian cp cfg p n m true y J M = some (J, entries J.JP (partials p n x)) := by
  have h := C51_numeric (cfg J.p) p J (hcfg _) n x y hy M hwf hlt hcol (fun i j hi _ hj =>
    C51_zero_partial p n x (regular_of_ok p hok) hn i j fun hin => hj (hcov i (hlen ▸ hi) j hin)) hok
    (fun i hi => hdef i (hlen ▸ hi))
  unfold getSparseJacobian
  simp only [if_true]
  rw [h]; rfl

/-! ### A case that meets the hypotheses -/

/-- `y₀ = x₀ · x₁; y₁ = x₁ + sin(x₂)`. -/
def exProg : Prog :=
  .stmt (.declE 5 (.bin .mul (.var 0) (.var 1))) (.stmt (.setA 3 5)
    (.stmt (.declE 6 (.bin .add (.var 1) (.un .sin (.var 2)))) (.stmt (.setA 4 6) .done)))

theorem exProg_pattern (y : ℕ → ℝ) : indoPattern exProg 3 2 y = [[2, 0, 1], [2, 1, 2]] := by
  unfold indoPattern
  simp only [C51_init 3 (fun i : Fin 3 => y i) y (fun _ => rfl)]
  simp [exProg, getPattern, Prog.irun, Stmt.irun, iSetA_apply, IStore.set, Expr.irun, Bin.irun, Un.irun, iMul, indoStart,
    addTo, lmerge, luniq, List.range_succ]

/-- Colours 0, 1, 0 for the three columns. -/
def exColours : ColPack := fun _ _ => (fun j => if j = 1 then 1 else 0, 2)

example (cfg : ℕ → Cfg) (hcfg : ∀ q, (cfg q).p = q) (y : ℕ → ℝ) (J : JInfos) (M : List (Entry ℝ)) :
    ∃ J' E, getSparseJacobian exColours cfg exProg 3 2 false y J M = some (J', E) ∧
      E.map (fun e => (e.1, e.2.1)) = [(0, 0), (0, 1), (1, 1), (1, 2)] := by
  have h := C51_numeric (cfg 2) exProg ⟨[[2, 0, 1], [2, 1, 2]], fun j => if j = 1 then 1 else 0, 2⟩ (hcfg 2) 3
    (fun i => y i) y (fun _ => rfl) M (by simp [RowWf]) (by simp) ?_ ?_ ?_ ?_
  · refine ⟨⟨[[2, 0, 1], [2, 1, 2]], fun j => if j = 1 then 1 else 0, 2⟩,
      entries [[2, 0, 1], [2, 1, 2]] (partials exProg 3 fun i => y i), ?_, ?_⟩
    · unfold getSparseJacobian
      simp only [Bool.false_eq_true, if_false, exProg_pattern, exColours]
      rw [h]; rfl
    · simp [entries, patRow, List.range_succ]
  · exact ⟨fun j _ => by dsimp only; split_ifs <;> omega, by simp⟩
  · intro i j hi hj hin
    have e := indoPattern_row exProg 3 2 (fun i => y i) y fun _ => rfl
    refine C51_zero_partial exProg 3 (fun i => y i) ?_ ?_ i j ?_
    · simp [exProg, Prog.regular, Stmt.regular, Expr.dom, Un.dom, Bin.dom]
    · simp [exProg, Prog.noSelf, Stmt.noSelf]
    · rw [← e.2.2 i hi, exProg_pattern]; exact hin
  · simp [exProg, Prog.ok, Stmt.ok, Expr.dom, Un.dom, Bin.dom]
  · intro i hi
    simp at hi
    interval_cases i <;> simp [exProg, Prog.defs, Stmt.defs, mark, Expr.within]

/-! ### Where the code departs -/

/-- `y = x; y = y;`. -/
def selfProg : Prog := .stmt (.setA 1 0) (.stmt (.setA 1 1) .done)

/-- Assigning an object to itself clears its pattern (adtl_indo.h:727-733: the pattern is cleared before the argument's is
read), so the driver returns an empty Jacobian for `y = x; y = y;`, although `∂y/∂x = 1`. -/
theorem C51_self_assignment (cp : ColPack) (cfg : ℕ → Cfg) (hcfg : ∀ q, (cfg q).p = q) (x : Fin 1 → ℝ) (J : JInfos)
    (M : List (Entry ℝ)) :
    (∃ J', getSparseJacobian cp cfg selfProg 1 1 false (fun _ => x 0) J M = some (J', [])) ∧
    selfProg.ok false (start0 1 x) (· < 1) ∧ selfProg.defs (start0 1 x) (· < 1) 1 ∧ partials selfProg 1 x 0 0 = 1 := by
  have hp : indoPattern selfProg 1 1 (fun _ => x 0) = [[0]] := by
    unfold indoPattern
    simp only [C51_init 1 x (fun _ => x 0) (fun i => by rw [Subsingleton.elim i 0])]
    simp [selfProg, getPattern, Prog.irun, Stmt.irun, iSetA_apply, List.range_succ]
  refine ⟨?_, ?_, ?_, ?_⟩
  · unfold getSparseJacobian adtlPart
    simp only [Bool.false_eq_true, if_false, hp]
    obtain ⟨s, h1, -⟩ := adtlStart_eq (cfg (cp [[0]] 1).2) ⟨[[0]], (cp [[0]] 1).1, (cp [[0]] 1).2⟩ (hcfg _) (fun _ => x 0) 1
    rw [h1]
    refine ⟨⟨[[0]], (cp [[0]] 1).1, (cp [[0]] 1).2⟩, ?_⟩
    rw [Option.map_some, recoverCol_eq (by simp [RowWf])]
    simp [entries, patRow, List.range_succ]
  · simp [selfProg, Prog.ok, Stmt.ok]
  · simp [selfProg, Prog.defs, Stmt.defs, mark]
  · have e : comp selfProg 1 0 = fun z => z 0 := by
      funext z; simp [comp, selfProg, Prog.val, Stmt.val, Env.set, start0]
    simp only [partials]
    rw [dif_pos (by omega), e]
    have := (ContinuousLinearMap.proj (R := ℝ) (φ := fun _ : Fin 1 => ℝ) 0).hasFDerivAt (x := x)
    rw [show (fun z : Fin 1 → ℝ => z 0) = (ContinuousLinearMap.proj (R := ℝ) (φ := fun _ : Fin 1 => ℝ) 0) from rfl,
      this.fderiv]
    simp

/-- `y = fmax(x₀, x₁)`. -/
def maxProg : Prog := .stmt (.declE 3 (.bin .fmax (.var 0) (.var 1))) (.stmt (.setA 2 3) .done)

/-- The pattern of `fmax(x₀, x₁)` computed at `(1, 0)` is `{0}`; a later call with `repeat = 1` at `(0, 1)` returns no entry
for `∂y/∂x₁`, which is 1 there. -/
theorem C51_repeat_stale (cp : ColPack) (cfg : ℕ → Cfg) (hcfg : ∀ q, (cfg q).p = q) (J : JInfos) (M M' : List (Entry ℝ)) :
    ∃ J' E E', getSparseJacobian cp cfg maxProg 2 1 false (fun i => if i = 0 then 1 else 0) J M = some (J', E) ∧
      getSparseJacobian cp cfg maxProg 2 1 true (fun i => if i = 0 then 0 else 1) J' M' = some (J', E') ∧
      (∀ v, (0, 1, v) ∉ E') ∧ partials maxProg 2 ![0, 1] 0 1 = 1 := by
  have hp : indoPattern maxProg 2 1 (fun i => if i = 0 then 1 else 0) = [[1, 0]] := by
    unfold indoPattern
    simp only [C51_init 2 ![1, 0] (fun i => if i = 0 then 1 else 0) (fun i => by fin_cases i <;> simp)]
    have h10 : ¬ ((1:ℝ) < 0) := by norm_num
    simp [maxProg, getPattern, Prog.irun, Stmt.irun, iSetA_apply, IStore.set, Expr.irun, Bin.irun, indoStart, addTo,
      lmerge, luniq, List.range_succ, h10]
  obtain ⟨s, h1, -⟩ := adtlStart_eq (cfg (cp [[1, 0]] 2).2) ⟨[[1, 0]], (cp [[1, 0]] 2).1, (cp [[1, 0]] 2).2⟩ (hcfg _)
    (fun i => if i = 0 then 1 else 0) 2
  obtain ⟨s', h1', -⟩ := adtlStart_eq (cfg (cp [[1, 0]] 2).2) ⟨[[1, 0]], (cp [[1, 0]] 2).1, (cp [[1, 0]] 2).2⟩ (hcfg _)
    (fun i => if i = 0 then 0 else 1) 2
  refine ⟨⟨[[1, 0]], (cp [[1, 0]] 2).1, (cp [[1, 0]] 2).2⟩,
    recoverCol [[1, 0]] (cp [[1, 0]] 2).1 (compressed (cfg (cp [[1, 0]] 2).2) (maxProg.run (cfg (cp [[1, 0]] 2).2) s) 2) 0 M,
    recoverCol [[1, 0]] (cp [[1, 0]] 2).1 (compressed (cfg (cp [[1, 0]] 2).2) (maxProg.run (cfg (cp [[1, 0]] 2).2) s') 2) 0 M',
    ?_, ?_, ?_, ?_⟩
  · unfold getSparseJacobian adtlPart
    simp only [Bool.false_eq_true, if_false, hp]
    rw [h1]; rfl
  · unfold getSparseJacobian adtlPart
    simp only [if_true]
    rw [h1']; rfl
  · intro v
    rw [recoverCol_eq (by simp [RowWf]), mem_entries]
    simp [patRow]
  · have e : comp maxProg 2 0 = fun z => max (z 0) (z 1) := by
      funext z; simp [comp, maxProg, Prog.val, Stmt.val, Env.set, start0, Expr.val, Bin.val]
    simp only [partials]
    rw [dif_pos (by omega), e]
    have hev : (fun z : Fin 2 → ℝ => max (z 0) (z 1)) =ᶠ[𝓝 ![0, 1]] fun z => z 1 := by
      have : ∀ᶠ z : Fin 2 → ℝ in 𝓝 ![0, 1], z 0 < z 1 :=
        (continuous_apply (0 : Fin 2)).continuousAt.eventually_lt (continuous_apply (1 : Fin 2)).continuousAt (by simp)
      exact this.mono fun z hz => max_eq_right hz.le
    rw [hev.fderiv_eq]
    have := (ContinuousLinearMap.proj (R := ℝ) (φ := fun _ : Fin 2 => ℝ) 1).hasFDerivAt (x := ![0, 1])
    rw [show (fun z : Fin 2 → ℝ => z 1) = (ContinuousLinearMap.proj (R := ℝ) (φ := fun _ : Fin 2 => ℝ) 1) from rfl,
      this.fderiv]
    simp

end Verif.Props.TracelessSparse
