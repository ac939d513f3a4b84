import Verif.Traceless.IndoProofs
/-! # Traceless sparsity detection: what the patterns say about the function -/
set_option linter.all false
noncomputable section
namespace Verif.TL
open Filter Topology

/-- The statement is executed at a point where everything it computes is continuous: every
function is applied at a point of its domain (kinks of `fabs`, `fmax`, `fmin` allowed) and no
conditional assignment is decided by a tie. -/
def Stmt.regular (st : Stmt) (v : Env) : Prop :=
  match st with
  | .declE _ e => e.dom true v
  | .accD .div _ x => x ≠ 0
  | .accA .div _ a => v a ≠ 0
  | .cond _ q _ _ | .condS _ q _ | .condEq _ q _ _ | .condEqS _ q _ => v q ≠ 0
  | _ => True

/-- The statement does not assign an object to itself. -/
def Stmt.noSelf (st : Stmt) (v : Env) : Prop :=
  match st with
  | .setA d a => d ≠ a
  | .cond d q a b => (0 < v q → d ≠ a) ∧ (¬ 0 < v q → d ≠ b)
  | .condS d q a => 0 < v q → d ≠ a
  | .condEq d q a b => (0 ≤ v q → d ≠ a) ∧ (¬ 0 ≤ v q → d ≠ b)
  | .condEqS d q a => 0 ≤ v q → d ≠ a
  | _ => True

open Classical in
/-- The execution from these values is regular at every step and no comparison is a tie. -/
def Prog.regular : Prog → Env → Prop
  | .done, _ => True
  | .stmt st p, v => st.regular v ∧ p.regular (st.val v)
  | .branch f l r t e, v =>
    l.val v ≠ r.val v ∧ if f.holds (l.val v) (r.val v) then t.regular v else e.regular v

open Classical in
/-- No executed statement assigns an object to itself. -/
def Prog.noSelf : Prog → Env → Prop
  | .done, _ => True
  | .stmt st p, v => st.noSelf v ∧ p.noSelf (st.val v)
  | .branch f l r t e, v => if f.holds (l.val v) (r.val v) then t.noSelf v else e.noSelf v

variable {n : ℕ}

/-- Near `x0` the function `u` depends only on the independents listed in the pattern. -/
structure Dep (x0 : Fin n → ℝ) (u : (Fin n → ℝ) → ℝ) (r : IObj) : Prop where
  val : u x0 = r.val
  cont : ContinuousAt u x0
  dep : ∀ᶠ x in 𝓝 x0, (∀ j : Fin n, (j : ℕ) ∈ r.pat → x j = x0 j) → u x = u x0

theorem Dep.congr {x0 : Fin n → ℝ} {u u' : (Fin n → ℝ) → ℝ} {r r' : IObj} (h : Dep x0 u r)
    (hu : ∀ᶠ x in 𝓝 x0, u' x = u x) (hv : r'.val = r.val) (hp : ∀ j, j ∈ r.pat → j ∈ r'.pat) :
    Dep x0 u' r' := by
  have h0 : u' x0 = u x0 := hu.self_of_nhds
  refine ⟨by rw [h0, h.val, hv], h.cont.congr (hu.mono fun x hx => hx.symm), ?_⟩
  filter_upwards [h.dep, hu] with x hx hx' hj
  rw [hx', h0]
  exact hx fun j hj' => hj j (hp j hj')

theorem Dep.const (x0 : Fin n → ℝ) (v : ℝ) (l : List ℕ) : Dep x0 (fun _ => v) ⟨v, l⟩ :=
  ⟨rfl, continuousAt_const, .of_forall fun _ _ => rfl⟩

theorem Un.cont (f : Un) {x : ℝ} (h : f.dom true x) : ContinuousAt f.val x := by
  by_cases hs : f.dom false x
  · obtain ⟨d, hd, -⟩ := Un.run_deriv ⟨0, 0, 0, fun _ => 0, fun _ _ => 0⟩ f (fun _ => x) hs
    exact hd.continuousAt
  · cases f <;> simp only [Un.dom, Bool.false_eq_true, or_false, not_not, or_true] at hs h
    case fabs => exact continuous_abs.continuousAt
    case fmaxD v => exact (continuous_id.max continuous_const).continuousAt
    case dFmax v => exact (continuous_const.max continuous_id).continuousAt
    case fminD v => exact (continuous_id.min continuous_const).continuousAt
    case dFmin v => exact (continuous_const.min continuous_id).continuousAt
    all_goals first | exact absurd h hs | exact absurd hs h

theorem Bin.cont (f : Bin) {x y : ℝ} (h : f.dom true x y) :
    ContinuousAt (fun q : ℝ × ℝ => f.val q.1 q.2) (x, y) := by
  by_cases hs : f.dom false x y
  · obtain ⟨d, e, hd, -⟩ := Bin.run_deriv ⟨0, 0, 0, fun _ => 0, fun _ _ => 0⟩ f (fun _ => x) (fun _ => y) hs
    exact hd.continuousAt
  · cases f <;> simp only [Bin.dom, Bool.false_eq_true, or_false, not_not, or_true] at hs h
    case fmax => exact (continuous_fst.max continuous_snd).continuousAt
    case fmin => exact (continuous_fst.min continuous_snd).continuousAt
    all_goals first | exact absurd h hs | exact absurd hs h

/-- A function of `u`, with all of `u`'s pattern. -/
theorem Dep.comp1 {x0 : Fin n → ℝ} {u : (Fin n → ℝ) → ℝ} {a r : IObj} (h : Dep x0 u a)
    {φ : ℝ → ℝ} (hφ : ContinuousAt φ a.val) (hv : r.val = φ a.val) (hp : ∀ j, j ∈ a.pat → j ∈ r.pat) :
    Dep x0 (fun x => φ (u x)) r := by
  refine ⟨by rw [h.val, hv], ?_, ?_⟩
  · rw [← h.val] at hφ; exact ContinuousAt.comp (g := φ) hφ h.cont
  · filter_upwards [h.dep] with x hx hj
    rw [hx fun j hj' => hj j (hp j hj')]

theorem Dep.comp2 {x0 : Fin n → ℝ} {u w : (Fin n → ℝ) → ℝ} {a b r : IObj} (h : Dep x0 u a) (h' : Dep x0 w b)
    {φ : ℝ → ℝ → ℝ} (hφ : ContinuousAt (fun q : ℝ × ℝ => φ q.1 q.2) (a.val, b.val))
    (hv : r.val = φ a.val b.val) (hp : ∀ j, j ∈ a.pat ∨ j ∈ b.pat → j ∈ r.pat) :
    Dep x0 (fun x => φ (u x) (w x)) r := by
  refine ⟨by rw [h.val, h'.val, hv], ?_, ?_⟩
  · rw [← h.val, ← h'.val] at hφ
    exact ContinuousAt.comp (g := fun q : ℝ × ℝ => φ q.1 q.2) (f := fun x => (u x, w x)) hφ (h.cont.prodMk h'.cont)
  · filter_upwards [h.dep, h'.dep] with x hx hx' hj
    rw [hx fun j hj' => hj j (hp j (Or.inl hj')), hx' fun j hj' => hj j (hp j (Or.inr hj'))]

/-- A function that is constant nearby. -/
theorem Dep.locally_const {x0 : Fin n → ℝ} {u : (Fin n → ℝ) → ℝ} {r : IObj}
    (h : ∀ᶠ x in 𝓝 x0, u x = r.val) : Dep x0 u r :=
  (Dep.const x0 r.val r.pat).congr h rfl fun _ hj => hj

theorem Un.dep {x0 : Fin n → ℝ} {u : (Fin n → ℝ) → ℝ} {a : IObj} (f : Un) (h : Dep x0 u a)
    (hd : f.dom true a.val) : Dep x0 (fun x => f.val (u x)) (f.irun a) := by
  have gen : (∀ j, j ∈ a.pat → j ∈ (f.irun a).pat) → Dep x0 (fun x => f.val (u x)) (f.irun a) :=
    h.comp1 (f.cont hd) (f.irun_val a)
  have hu : Tendsto u (𝓝 x0) (𝓝 a.val) := by have := h.cont; rw [ContinuousAt, h.val] at this; exact this
  cases f
  case ceil =>
    obtain ⟨hc⟩ : Nonempty (∀ᶠ y in 𝓝 a.val, ((⌈y⌉ : ℤ) : ℝ) = (⌈a.val⌉ : ℤ)) := by
      have h1 : a.val < (⌈a.val⌉ : ℤ) := lt_of_le_of_ne (Int.le_ceil _) (hd _)
      have h2 : ((⌈a.val⌉ : ℤ) : ℝ) - 1 < a.val := by linarith [Int.ceil_lt_add_one a.val]
      refine ⟨Filter.mem_of_superset (Ioo_mem_nhds h2 h1) fun y hy => ?_⟩
      have : ⌈y⌉ = ⌈a.val⌉ := Int.ceil_eq_iff.2 ⟨hy.1, hy.2.le⟩
      simp [this]
    exact Dep.locally_const (hu.eventually hc)
  case floor =>
    obtain ⟨hc⟩ : Nonempty (∀ᶠ y in 𝓝 a.val, ((⌊y⌋ : ℤ) : ℝ) = (⌊a.val⌋ : ℤ)) := by
      refine ⟨Filter.mem_of_superset (Ioo_mem_nhds (lt_of_le_of_ne (Int.floor_le a.val) (Ne.symm (hd _)))
        (Int.lt_floor_add_one a.val)) fun y hy => ?_⟩
      have : ⌊y⌋ = ⌊a.val⌋ := Int.floor_eq_iff.2 ⟨hy.1.le, hy.2⟩
      simp [this]
    exact Dep.locally_const (hu.eventually hc)
  case fmaxD v =>
    by_cases h1 : a.val - v < 0
    · refine Dep.locally_const ((hu.eventually_lt_const (v := a.val) (u := v) (by linarith)).mono fun x hx => ?_)
      simp only [Un.irun, Un.val, h1, if_true]; exact max_eq_right hx.le
    · refine gen fun j hj => ?_
      simp only [Un.irun, h1, if_false, mem_addTo_nil]; exact hj
  case dFmax v =>
    by_cases h1 : v - a.val < 0
    · refine gen fun j hj => ?_
      simp only [Un.irun, h1, if_true, mem_addTo_nil]; exact hj
    · by_cases h2 : v - a.val > 0
      · refine Dep.locally_const ((hu.eventually_lt_const (v := a.val) (u := v) (by linarith)).mono fun x hx => ?_)
        simp only [Un.irun, Un.val, h1, h2, if_true, if_false]; exact max_eq_left hx.le
      · refine gen fun j hj => ?_
        simp only [Un.irun, h1, h2, if_false, mem_addTo_nil]; exact hj
  case fminD v =>
    by_cases h1 : a.val - v < 0
    · refine gen fun j hj => ?_
      simp only [Un.irun, h1, if_true, mem_addTo_nil]; exact hj
    · by_cases h2 : a.val - v > 0
      · refine Dep.locally_const ((hu.eventually_const_lt (v := a.val) (u := v) (by linarith)).mono fun x hx => ?_)
        simp only [Un.irun, Un.val, h1, h2, if_true, if_false]; exact min_eq_right hx.le
      · refine gen fun j hj => ?_
        simp only [Un.irun, h1, h2, if_false, mem_addTo_nil]; exact hj
  case dFmin v =>
    by_cases h1 : v - a.val < 0
    · refine Dep.locally_const ((hu.eventually_const_lt (v := a.val) (u := v) (by linarith)).mono fun x hx => ?_)
      simp only [Un.irun, Un.val, h1, if_true]; exact min_eq_left hx.le
    · refine gen fun j hj => ?_
      simp only [Un.irun, h1, if_false, mem_addTo_nil]; exact hj
  all_goals
    refine gen fun j hj => ?_
    simp only [Un.irun, iDPow, mem_addTo, List.not_mem_nil, false_or]
    tauto

theorem Bin.dep {x0 : Fin n → ℝ} {u w : (Fin n → ℝ) → ℝ} {a b : IObj} (f : Bin) (h : Dep x0 u a) (h' : Dep x0 w b)
    (hd : f.dom true a.val b.val) : Dep x0 (fun x => f.val (u x) (w x)) (f.irun a b) := by
  have gen : (∀ j, j ∈ a.pat ∨ j ∈ b.pat → j ∈ (f.irun a b).pat) →
      Dep x0 (fun x => f.val (u x) (w x)) (f.irun a b) := h.comp2 h' (f.cont hd) (f.irun_val a b)
  have hu : Tendsto u (𝓝 x0) (𝓝 a.val) := by have := h.cont; rw [ContinuousAt, h.val] at this; exact this
  have hw : Tendsto w (𝓝 x0) (𝓝 b.val) := by have := h'.cont; rw [ContinuousAt, h'.val] at this; exact this
  cases f
  case fmax =>
    by_cases h1 : a.val - b.val < 0
    · refine h'.congr ((hu.eventually_lt hw (by linarith)).mono fun x hx => max_eq_right hx.le) ?_ ?_
      · simp only [Bin.irun, h1, if_true]
      · intro j hj; simp only [Bin.irun, h1, if_true, mem_addTo_nil]; exact hj
    · by_cases h2 : a.val - b.val > 0
      · refine h.congr ((hw.eventually_lt hu (by linarith)).mono fun x hx => max_eq_left hx.le) ?_ ?_
        · simp only [Bin.irun, h1, h2, if_true, if_false]
        · intro j hj; simp only [Bin.irun, h1, h2, if_true, if_false, mem_addTo_nil]; exact hj
      · refine gen fun j hj => ?_
        simp only [Bin.irun, h1, h2, if_false, mem_addTo, List.not_mem_nil, false_or]; exact hj
  case fmin =>
    by_cases h1 : a.val - b.val < 0
    · refine h.congr ((hu.eventually_lt hw (by linarith)).mono fun x hx => min_eq_left hx.le) ?_ ?_
      · simp only [Bin.irun, h1, if_true]
      · intro j hj; simp only [Bin.irun, h1, if_true, mem_addTo_nil]; exact hj
    · by_cases h2 : a.val - b.val > 0
      · refine h'.congr ((hw.eventually_lt hu (by linarith)).mono fun x hx => min_eq_right hx.le) ?_ ?_
        · simp only [Bin.irun, h1, h2, if_true, if_false]
        · intro j hj; simp only [Bin.irun, h1, h2, if_true, if_false, mem_addTo_nil]; exact hj
      · refine gen fun j hj => ?_
        simp only [Bin.irun, h1, h2, if_false, mem_addTo, List.not_mem_nil, false_or]; exact hj
  all_goals
    refine gen fun j hj => ?_
    simp only [Bin.irun, iMul, iDPow, mem_addTo, List.not_mem_nil, false_or]
    tauto

theorem Expr.dep {x0 : Fin n → ℝ} {env : (Fin n → ℝ) → Env} {s : IStore}
    (h : ∀ o, Dep x0 (fun x => env x o) (s o)) (e : Expr) (hd : e.dom true (env x0)) :
    Dep x0 (fun x => e.val (env x)) (e.irun s) := by
  have hv : ∀ o, (s o).val = env x0 o := fun o => (h o).val.symm
  induction e with
  | var a => exact h a
  | lit v => exact Dep.const x0 v []
  | un f e ih =>
    obtain ⟨h1, h2⟩ := hd
    exact Un.dep f (ih h1) (by rw [Expr.irun_val s _ hv]; exact h2)
  | bin f e₁ e₂ ih₁ ih₂ =>
    obtain ⟨h1, h2, h3⟩ := hd
    exact Bin.dep f (ih₁ h1) (ih₂ h2) (by rw [Expr.irun_val s _ hv, Expr.irun_val s _ hv]; exact h3)

theorem Acc.dep {x0 : Fin n → ℝ} {u w : (Fin n → ℝ) → ℝ} {a b r : IObj} (f : Acc) (h : Dep x0 u a) (h' : Dep x0 w b)
    (hd : f = .div → b.val ≠ 0) (hv : r.val = f.val a.val b.val) (hp : ∀ j, j ∈ a.pat ∨ j ∈ b.pat → j ∈ r.pat) :
    Dep x0 (fun x => f.val (u x) (w x)) r := by
  refine h.comp2 h' ?_ hv hp
  cases f
  · exact (continuous_fst.add continuous_snd).continuousAt
  · exact (continuous_fst.sub continuous_snd).continuousAt
  · exact (continuous_fst.mul continuous_snd).continuousAt
  · exact continuousAt_fst.div₀ continuousAt_snd (hd rfl)

theorem iSetA_dep {x0 : Fin n → ℝ} {env : (Fin n → ℝ) → Env} {s : IStore} (h : ∀ o, Dep x0 (fun x => env x o) (s o))
    {d a : ℕ} (hne : d ≠ a) (env' : (Fin n → ℝ) → Env) (he : ∀ᶠ x in 𝓝 x0, env' x = (env x).set d (env x a)) (o : ℕ) :
    Dep x0 (fun x => env' x o) (iSetA d a s o) := by
  rw [iSetA_apply]
  by_cases hd : o = d
  · subst hd
    rw [if_pos rfl, if_neg hne.symm]
    refine (h a).congr (he.mono fun x hx => by simp [hx, Env.set]) rfl fun j hj => ?_
    rw [mem_addTo_nil]; exact hj
  · rw [if_neg hd]
    exact (h o).congr (he.mono fun x hx => by simp [hx, Env.set, hd]) rfl fun j hj => hj

theorem Stmt.dep {x0 : Fin n → ℝ} {env : (Fin n → ℝ) → Env} {s : IStore} (h : ∀ o, Dep x0 (fun x => env x o) (s o))
    (st : Stmt) (hr : st.regular (env x0)) (hn : st.noSelf (env x0)) (o : ℕ) :
    Dep x0 (fun x => st.val (env x) o) (st.irun s o) := by
  have hv : ∀ o, (s o).val = env x0 o := fun o => (h o).val.symm
  have pos : ∀ q, 0 < env x0 q → ∀ᶠ x in 𝓝 x0, 0 < env x q := fun q hq => (h q).cont.eventually_const_lt hq
  have neg : ∀ q, env x0 q ≠ 0 → ¬ 0 < env x0 q → ∀ᶠ x in 𝓝 x0, env x q < 0 := fun q hq hq' =>
    (h q).cont.eventually_lt_const (lt_of_le_of_ne (not_lt.1 hq') hq)
  cases st
  case decl d =>
    simp only [Stmt.irun, Stmt.val, IStore.set, Env.set]
    by_cases hd : o = d
    · simp only [hd, if_true]; exact Dep.const x0 0 []
    · simp only [hd, if_false]; exact h o
  case declD d v =>
    simp only [Stmt.irun, Stmt.val, IStore.set, Env.set]
    by_cases hd : o = d
    · simp only [hd, if_true]; exact Dep.const x0 v []
    · simp only [hd, if_false]; exact h o
  case declE d e =>
    simp only [Stmt.irun, Stmt.val, IStore.set, Env.set]
    by_cases hd : o = d
    · simp only [hd, if_true]
      exact (Expr.dep h e hr).congr (.of_forall fun _ => rfl) rfl fun j hj => by simpa [mem_addTo] using hj
    · simp only [hd, if_false]; exact h o
  case setD d v =>
    simp only [Stmt.irun, Stmt.val, IStore.set, Env.set]
    by_cases hd : o = d
    · simp only [hd, if_true]; exact Dep.const x0 v []
    · simp only [hd, if_false]; exact h o
  case setA d a => exact iSetA_dep h hn _ (.of_forall fun _ => rfl) o
  case accD f d v =>
    simp only [Stmt.irun, iAccD_apply, Stmt.val, Env.set]
    by_cases hd : o = d
    · simp only [hd, if_true]
      refine Acc.dep f (h d) (Dep.const x0 v []) (fun hf => ?_) rfl (by simp)
      subst hf; exact hr
    · simp only [hd, if_false]; exact h o
  case accA f d a =>
    simp only [Stmt.irun, iAccA_apply, Stmt.val, Env.set]
    by_cases hd : o = d
    · simp only [hd, if_true]
      refine Acc.dep f (h d) (h a) (fun hf => ?_) rfl (by simp [mem_addTo])
      subst hf; rw [hv]; exact hr
    · simp only [hd, if_false]; exact h o
  case incr d =>
    simp only [Stmt.irun, Stmt.val, IStore.set, Env.set]
    by_cases hd : o = d
    · simp only [hd, if_true]
      exact (h d).comp1 (φ := fun y => y + 1) (continuous_id.add continuous_const).continuousAt rfl fun j hj => hj
    · simp only [hd, if_false]; exact h o
  case decr d =>
    simp only [Stmt.irun, Stmt.val, IStore.set, Env.set]
    by_cases hd : o = d
    · simp only [hd, if_true]
      exact (h d).comp1 (φ := fun y => y - 1) (continuous_id.sub continuous_const).continuousAt rfl fun j hj => hj
    · simp only [hd, if_false]; exact h o
  case postIncr d x =>
    simp only [Stmt.irun, Stmt.val, Env.set]
    rw [ipost_apply]
    by_cases hd : o = d
    · simp only [hd, if_true]
      exact (h x).congr (.of_forall fun _ => rfl) rfl fun j hj => by simpa [mem_addTo] using hj
    · simp only [hd, if_false]
      by_cases hx : o = x
      · simp only [hx, if_true]
        exact (h x).comp1 (φ := fun y => y + 1) (continuous_id.add continuous_const).continuousAt rfl fun j hj => hj
      · simp only [hx, if_false]; exact h o
  case postDecr d x =>
    simp only [Stmt.irun, Stmt.val, Env.set]
    rw [ipost_apply]
    by_cases hd : o = d
    · simp only [hd, if_true]
      exact (h x).congr (.of_forall fun _ => rfl) rfl fun j hj => by simpa [mem_addTo] using hj
    · simp only [hd, if_false]
      by_cases hx : o = x
      · simp only [hx, if_true]
        exact (h x).comp1 (φ := fun y => y - 1) (continuous_id.sub continuous_const).continuousAt rfl fun j hj => hj
      · simp only [hx, if_false]; exact h o
  case cond d q a b =>
    simp only [Stmt.irun]
    by_cases hq : 0 < env x0 q
    · rw [if_pos (by rw [hv]; exact hq)]
      exact iSetA_dep h (hn.1 hq) _ ((pos q hq).mono fun x hx => by simp [Stmt.val, hx]) o
    · rw [if_neg (by rw [hv]; exact hq)]
      exact iSetA_dep h (hn.2 hq) _ ((neg q hr hq).mono fun x hx => by simp [Stmt.val, not_lt.2 hx.le]) o
  case condS d q a =>
    simp only [Stmt.irun]
    by_cases hq : 0 < env x0 q
    · rw [if_pos (by rw [hv]; exact hq)]
      exact iSetA_dep h (hn hq) _ ((pos q hq).mono fun x hx => by simp [Stmt.val, hx]) o
    · rw [if_neg (by rw [hv]; exact hq)]
      refine (h o).congr ((neg q hr hq).mono fun x hx => ?_) rfl fun j hj => hj
      by_cases hd : o = d <;> simp [Stmt.val, Env.set, not_lt.2 hx.le, hd]
  case condEq d q a b =>
    simp only [Stmt.irun]
    by_cases hq : 0 < env x0 q
    · rw [if_pos (by rw [hv]; exact hq.le)]
      exact iSetA_dep h (hn.1 hq.le) _ ((pos q hq).mono fun x hx => by simp [Stmt.val, hx.le]) o
    · have hq' : ¬ 0 ≤ env x0 q := fun hh => hq (lt_of_le_of_ne hh (Ne.symm hr))
      rw [if_neg (by rw [hv]; exact hq')]
      exact iSetA_dep h (hn.2 hq') _ ((neg q hr hq).mono fun x hx => by simp [Stmt.val, not_le.2 hx]) o
  case condEqS d q a =>
    simp only [Stmt.irun]
    by_cases hq : 0 < env x0 q
    · rw [if_pos (by rw [hv]; exact hq.le)]
      exact iSetA_dep h (hn hq.le) _ ((pos q hq).mono fun x hx => by simp [Stmt.val, hx.le]) o
    · have hq' : ¬ 0 ≤ env x0 q := fun hh => hq (lt_of_le_of_ne hh (Ne.symm hr))
      rw [if_neg (by rw [hv]; exact hq')]
      refine (h o).congr ((neg q hr hq).mono fun x hx => ?_) rfl fun j hj => hj
      by_cases hd : o = d <;> simp [Stmt.val, Env.set, not_le.2 hx, hd]

theorem Opd.cont {x0 : Fin n → ℝ} {env : (Fin n → ℝ) → Env} {s : IStore} (h : ∀ o, Dep x0 (fun x => env x o) (s o))
    (l : Opd) : Tendsto (fun x => l.val (env x)) (𝓝 x0) (𝓝 (l.val (env x0))) := by
  cases l with
  | var a => exact (h a).cont
  | lit v => exact tendsto_const_nhds

theorem Prog.dep {x0 : Fin n → ℝ} (p : Prog) : ∀ {env : (Fin n → ℝ) → Env} {s : IStore},
    (∀ o, Dep x0 (fun x => env x o) (s o)) → p.regular (env x0) → p.noSelf (env x0) →
    ∀ o, Dep x0 (fun x => p.val (env x) o) (p.irun s o) := by
  induction p with
  | done => intro env s h _ _ o; exact h o
  | stmt st p ih =>
    intro env s h hr hn o
    exact ih (env := fun x => st.val (env x)) (Stmt.dep h st hr.1 hn.1) hr.2 hn.2 o
  | branch f l r t e iht ihe =>
    intro env s h hr hn o
    obtain ⟨hne, hr⟩ := hr
    have hv : ∀ o, (s o).val = env x0 o := fun o => (h o).val.symm
    have hev := Cmp.eventually (F := (⟨Set.univ, x0, trivial, fun _ => 0, ∅⟩ : Frame (Fin n → ℝ)))
      (f := fun x => l.val (env x)) (g := fun x => r.val (env x)) f
      (by simpa [nhdsWithin_univ] using Opd.cont h l) (by simpa [nhdsWithin_univ] using Opd.cont h r) hne
    simp only [nhdsWithin_univ] at hev
    simp only [Prog.noSelf] at hn
    simp only [Prog.irun]
    rw [Opd.iprim_eq s _ hv l, Opd.iprim_eq s _ hv r]
    by_cases hb : f.holds (l.val (env x0)) (r.val (env x0))
    · rw [if_pos hb] at hr hn
      rw [if_pos hb]
      refine (iht h hr hn o).congr (hev.mono fun x hx => ?_) rfl fun j hj => hj
      simp only [Prog.val]; rw [if_pos (hx.2 hb)]
    · rw [if_neg hb] at hr hn
      rw [if_neg hb]
      refine (ihe h hr hn o).congr (hev.mono fun x hx => ?_) rfl fun j hj => hj
      simp only [Prog.val]; rw [if_neg (fun hh => hb (hx.1 hh))]

end Verif.TL
