import Verif.Traceless.Ops
/-! # Traceless mode: expressions, statements, programs -/
set_option linter.all false
noncomputable section
namespace Verif.TL
open Filter Topology

/-! ### Values -/

theorem Expr.run_zero (c : Cfg) (s : Store) (v : Env) (h : ∀ o, s o 0 = v o) (e : Expr) :
    e.run c s 0 = e.val v := by
  induction e with
  | var a => exact h a
  | lit x => simp [Expr.run, Expr.val, ctorV, forI_c, put]
  | un f e ih => rw [Expr.run, Un.run_zero, ih, Expr.val]
  | bin f e₁ e₂ ih₁ ih₂ => rw [Expr.run, Bin.run_zero, ih₁, ih₂, Expr.val]

theorem setA_apply (c : Cfg) (d a : ℕ) (s : Store) (o j : ℕ) :
    setA c d a s o j = if o = d ∧ j ≤ c.p then s a j else s o j := by
  unfold setA
  rw [forS_apply]
  · congr 1; apply propext; omega
  · intro i s s' _ h; exact h a i (Or.inr rfl)

theorem accD_apply (c : Cfg) (f : Acc) (d : ℕ) (v : ℝ) (s : Store) (o j : ℕ) (hj : j ≤ c.p) :
    accD c f d v s o j = if o = d then
      (match f with
        | .add => if j = 0 then s d 0 + v else s d j
        | .sub => if j = 0 then s d 0 - v else s d j
        | .mul => s d j * v | .div => s d j / v) else s o j := by
  cases f <;> simp only [accD]
  · rw [puts_apply]; by_cases h : o = d <;> by_cases h2 : j = 0 <;> simp [h, h2]
  · rw [puts_apply]; by_cases h : o = d <;> by_cases h2 : j = 0 <;> simp [h, h2]
  · rw [forS_apply]
    · by_cases h : o = d <;> simp [h, hj]
    · intro i s s' _ h; rw [h d i (Or.inr rfl)]
  · rw [forS_apply]
    · by_cases h : o = d <;> simp [h, hj]
    · intro i s s' _ h; rw [h d i (Or.inr rfl)]

theorem accA_apply (c : Cfg) (f : Acc) (d a : ℕ) (s : Store) (o j : ℕ) (hj : j ≤ c.p) :
    accA c f d a s o j = if o = d then
      (match f with
        | .add => s d j + s a j
        | .sub => s d j - s a j
        | .mul => if j = 0 then s d 0 * s a 0 else s d j * s a 0 + s d 0 * s a j
        | .div => if j = 0 then s d 0 / s a 0
            else (s d j * s a 0 - s d 0 * s a j) / (s a 0 * s a 0)) else s o j := by
  cases f <;> simp only [accA]
  · rw [forS_apply]
    · by_cases h : o = d <;> simp [h, hj]
    · intro i s s' _ h; rw [h d i (Or.inr rfl), h a i (Or.inr rfl)]
  · rw [forS_apply]
    · by_cases h : o = d <;> simp [h, hj]
    · intro i s s' _ h; rw [h d i (Or.inr rfl), h a i (Or.inr rfl)]
  · have e : ∀ o j, forS 1 c.p d (fun i s => s d i * s a 0 + s d 0 * s a i) s o j =
        if o = d ∧ 1 ≤ j ∧ j ≤ c.p then s d j * s a 0 + s d 0 * s a j else s o j := fun o j =>
      forS_apply s o j fun i s s' _ h => by
        rw [h d i (Or.inr rfl), h a i (Or.inr rfl), h d 0 (by omega), h a 0 (by omega)]
    rw [puts_apply, e, e, e]
    by_cases h : o = d <;> by_cases h2 : j = 0 <;> simp [h, h2, hj, Nat.one_le_iff_ne_zero]
  · have e : ∀ o j, forS 1 c.p d (fun i s => (s d i * s a 0 - s d 0 * s a i) / (s a 0 * s a 0)) s o j =
        if o = d ∧ 1 ≤ j ∧ j ≤ c.p then (s d j * s a 0 - s d 0 * s a j) / (s a 0 * s a 0) else s o j :=
      fun o j => forS_apply s o j fun i s s' _ h => by
        rw [h d i (Or.inr rfl), h a i (Or.inr rfl), h d 0 (by omega), h a 0 (by omega)]
    rw [puts_apply, e, e, e]
    by_cases h : o = d <;> by_cases h2 : j = 0 <;> simp [h, h2, hj, Nat.one_le_iff_ne_zero]

theorem setD_apply (c : Cfg) (d : ℕ) (v : ℝ) (s : Store) (o j : ℕ) (hj : j ≤ c.p) :
    (Stmt.setD d v).run c s o j = if o = d then (if j = 0 then v else 0) else s o j := by
  simp only [Stmt.run]
  rw [forS_apply _ _ _ (fun _ _ _ _ _ => rfl), puts_apply]
  by_cases h : o = d <;> by_cases h2 : j = 0 <;> simp [h, h2, hj, Nat.one_le_iff_ne_zero]

theorem ctorC_apply (c : Cfg) (mem a : Row) (j : ℕ) (hj : j ≤ c.p) : ctorC c.p mem a j = a j := by
  rw [ctorC, forI_c, if_pos (by omega)]
theorem ctorV_apply (c : Cfg) (mem : Row) (v : ℝ) (j : ℕ) (hj : j ≤ c.p) :
    ctorV c.p mem v j = if j = 0 then v else 0 := by
  rw [ctorV, forI_c]
  by_cases h : j = 0
  · simp [h, put]
  · rw [if_pos (by omega), if_neg h]

theorem post_apply (c : Cfg) (d x : ℕ) (w : ℝ) (s : Store) (o j : ℕ) (hj : j ≤ c.p) :
    bindRow (puts s x 0 w) d
      (forI 1 c.p (fun i _ => (puts s x 0 w) x i) (put (ctor0 (c.mem d)) 0 (s x 0))) o j =
    if o = d then s x j else if o = x ∧ j = 0 then w else s o j := by
  unfold bindRow
  by_cases h : o = d
  · simp only [h, if_true]
    rw [forI_c]
    by_cases h2 : j = 0
    · simp [h2, put]
    · rw [if_pos (by omega), puts_apply, if_neg (by omega)]
  · simp only [h, if_false]
    rw [puts_apply]

/-- Values of all variables are those of the plain computation. -/
theorem Stmt.run_zero (c : Cfg) (st : Stmt) (s : Store) (v : Env) (h : ∀ o, s o 0 = v o) (o : ℕ) :
    st.run c s o 0 = st.val v o := by
  have h0 : 0 ≤ c.p := Nat.zero_le _
  cases st
  case decl d => by_cases hd : o = d <;> simp [Stmt.run, Stmt.val, bindRow, ctor0, put, Env.set, hd, h]
  case declD d x =>
    by_cases hd : o = d <;> simp [Stmt.run, Stmt.val, bindRow, ctorV_apply c _ _ 0 h0, Env.set, hd, h]
  case declE d e =>
    by_cases hd : o = d <;>
      simp [Stmt.run, Stmt.val, bindRow, ctorC_apply c _ _ 0 h0, Env.set, hd, h, Expr.run_zero c s v h]
  case setD d x => rw [setD_apply c d x s o 0 h0]; simp [Stmt.val, Env.set, h]
  case setA d a => simp [Stmt.run, setA_apply, Stmt.val, Env.set, h]
  case accD f d x =>
    simp only [Stmt.run, Stmt.val, Env.set]
    rw [accD_apply c f d x s o 0 h0]
    cases f <;> simp [Acc.val, h]
  case accA f d a =>
    simp only [Stmt.run, Stmt.val, Env.set]
    rw [accA_apply c f d a s o 0 h0]
    cases f <;> simp [Acc.val, h]
  case incr d => simp [Stmt.run, Stmt.val, puts_apply, Env.set, h]
  case decr d => simp [Stmt.run, Stmt.val, puts_apply, Env.set, h]
  case postIncr d x =>
    simp only [Stmt.run, Stmt.val, Env.set]
    rw [post_apply c d x _ s o 0 h0]; simp [h]
  case postDecr d x =>
    simp only [Stmt.run, Stmt.val, Env.set]
    rw [post_apply c d x _ s o 0 h0]; simp [h]
  case cond d q a b =>
    simp only [Stmt.run, Stmt.val, Env.set, h q, gt_iff_lt]
    split_ifs <;> simp_all [setA_apply]
  case condS d q a =>
    simp only [Stmt.run, Stmt.val, Env.set, h q, gt_iff_lt]
    split_ifs <;> simp_all [setA_apply]
  case condEq d q a b =>
    simp only [Stmt.run, Stmt.val, Env.set, h q, ge_iff_le]
    split_ifs <;> simp_all [setA_apply]
  case condEqS d q a =>
    simp only [Stmt.run, Stmt.val, Env.set, h q, ge_iff_le]
    split_ifs <;> simp_all [setA_apply]

theorem Opd.prim_eq (s : Store) (v : Env) (h : ∀ o, s o 0 = v o) (l : Opd) : l.prim s = l.val v := by
  cases l <;> simp [Opd.prim, Opd.val, h]

theorem Prog.run_zero (c : Cfg) (p : Prog) : ∀ (s : Store) (v : Env), (∀ o, s o 0 = v o) →
    ∀ o, p.run c s o 0 = p.val v o := by
  induction p with
  | done => intro s v h o; exact h o
  | stmt st p ih => intro s v h o; exact ih _ _ (Stmt.run_zero c st s v h) o
  | branch f l r t e iht ihe =>
    intro s v h o
    have e1 := Opd.prim_eq s v h l
    have e2 := Opd.prim_eq s v h r
    simp only [Prog.run, Prog.val]
    rw [e1, e2]
    by_cases hb : f.holds (l.val v) (r.val v)
    · rw [if_pos hb, if_pos hb]; exact iht s v h o
    · rw [if_neg hb, if_neg hb]; exact ihe s v h o

/-! ### Derivatives -/

variable {E : Type*} [NormedAddCommGroup E] [NormedSpace ℝ E]

/-- Where the derivative is taken: a point `e0` of a set `S`, the directions `V i` and the
indices `I` of the directions looked at. -/
structure Frame (E : Type*) [NormedAddCommGroup E] [NormedSpace ℝ E] where
  S : Set E
  e0 : E
  mem : e0 ∈ S
  V : ℕ → E
  I : Set ℕ

/-- The array `r` holds the value of `f` at `e0` and its derivatives along the directions. -/
def Rel (F : Frame E) (f : E → ℝ) (r : Row) : Prop :=
  f F.e0 = r 0 ∧ ∃ L : E →L[ℝ] ℝ, HasFDerivWithinAt f L F.S F.e0 ∧ ∀ i ∈ F.I, r i = L (F.V i)

/-- Frames in which `|f|` has a derivative although `f` vanishes (rays). -/
def AbsOk (F : Frame E) : Prop :=
  ∀ f r, Rel F f r → r 0 = 0 → ∀ r' : Row, r' 0 = 0 → (∀ i ∈ F.I, r' i = |r i|) →
    Rel F (fun e => |f e|) r'

theorem Rel.congr {F : Frame E} {f : E → ℝ} {r r' : Row} (h : Rel F f r) (h0 : r' 0 = r 0)
    (hi : ∀ i ∈ F.I, r' i = r i) : Rel F f r' := by
  obtain ⟨h1, L, hL, h2⟩ := h
  exact ⟨by rw [h1, h0], L, hL, fun i hi' => by rw [hi i hi', h2 i hi']⟩

theorem Rel.const (F : Frame E) (v : ℝ) {r : Row} (h0 : r 0 = v) (hi : ∀ i ∈ F.I, r i = 0) :
    Rel F (fun _ => v) r :=
  ⟨h0.symm, 0, hasFDerivWithinAt_const _ _ _, fun i h => by simp [hi i h]⟩

theorem Rel.comp1 {F : Frame E} {f : E → ℝ} {r r' : Row} {φ : ℝ → ℝ} {d : ℝ} (h : Rel F f r)
    (hφ : HasDerivAt φ d (r 0)) (h0 : r' 0 = φ (r 0)) (hi : ∀ i ∈ F.I, r' i = d * r i) :
    Rel F (fun e => φ (f e)) r' := by
  obtain ⟨h1, L, hL, h2⟩ := h
  refine ⟨by beta_reduce; rw [h1, h0], d • L, ?_, fun i hi' => by rw [hi i hi', h2 i hi']; simp⟩
  rw [← h1] at hφ
  exact hφ.comp_hasFDerivWithinAt F.e0 hL

theorem Rel.comp2 {F : Frame E} {f g : E → ℝ} {r s r' : Row} {φ : ℝ → ℝ → ℝ} {d₁ d₂ : ℝ}
    (h : Rel F f r) (hg : Rel F g s)
    (hφ : HasFDerivAt (fun q : ℝ × ℝ => φ q.1 q.2) (lin2 d₁ d₂) (r 0, s 0))
    (h0 : r' 0 = φ (r 0) (s 0)) (hi : ∀ i ∈ F.I, r' i = d₁ * r i + d₂ * s i) :
    Rel F (fun e => φ (f e) (g e)) r' := by
  obtain ⟨h1, L, hL, h2⟩ := h
  obtain ⟨g1, M, hM, g2⟩ := hg
  refine ⟨by beta_reduce; rw [h1, g1, h0], (lin2 d₁ d₂).comp (L.prod M), ?_, fun i hi' => ?_⟩
  · rw [← h1, ← g1] at hφ
    exact hφ.comp_hasFDerivWithinAt F.e0 (hL.prodMk hM)
  · rw [hi i hi', h2 i hi', g2 i hi']; simp [lin2]

theorem Rel.eventually {F : Frame E} {f g : E → ℝ} {r : Row} (h : Rel F f r)
    (he : ∀ᶠ e in 𝓝[F.S] F.e0, g e = f e) : Rel F g r := by
  obtain ⟨h1, L, hL, h2⟩ := h
  have h0 : g F.e0 = f F.e0 := he.self_of_nhdsWithin F.mem
  exact ⟨by rw [h0, h1], L, hL.congr_of_eventuallyEq he h0, h2⟩

theorem Rel.tendsto {F : Frame E} {f : E → ℝ} {r : Row} (h : Rel F f r) :
    Tendsto f (𝓝[F.S] F.e0) (𝓝 (r 0)) := by
  obtain ⟨h1, L, hL, h2⟩ := h
  rw [← h1]
  exact hL.continuousWithinAt

theorem half_max (x y : ℝ) : max x y = (x + y + |x - y|) / 2 := by
  rcases le_total x y with h | h
  · rw [max_eq_right h, abs_of_nonpos (by linarith)]; ring
  · rw [max_eq_left h, abs_of_nonneg (by linarith)]; ring
theorem half_min (x y : ℝ) : min x y = (x + y - |x - y|) / 2 := by
  rcases le_total x y with h | h
  · rw [min_eq_left h, abs_of_nonpos (by linarith)]; ring
  · rw [min_eq_right h, abs_of_nonneg (by linarith)]; ring

theorem Rel.linear {F : Frame E} {f g : E → ℝ} {r s r' : Row} (α β : ℝ) (h : Rel F f r)
    (hg : Rel F g s) (h0 : r' 0 = α * r 0 + β * s 0)
    (hi : ∀ i ∈ F.I, r' i = α * r i + β * s i) : Rel F (fun e => α * f e + β * g e) r' := by
  obtain ⟨h1, L, hL, h2⟩ := h
  obtain ⟨g1, M, hM, g2⟩ := hg
  refine ⟨by beta_reduce; rw [h1, g1, h0], α • L + β • M, ?_, fun i hi' => ?_⟩
  · exact (hL.const_mul α).add (hM.const_mul β)
  · rw [hi i hi', h2 i hi', g2 i hi']; simp

theorem Rel.max_tie {F : Frame E} (hA : AbsOk F) {f g : E → ℝ} {r s r' : Row} (h : Rel F f r)
    (hg : Rel F g s) (ht : r 0 = s 0) (h0 : r' 0 = r 0)
    (hi : ∀ i ∈ F.I, r' i = max (r i) (s i)) : Rel F (fun e => max (f e) (g e)) r' := by
  have h1 : Rel F (fun e => 1 * f e + (-1) * g e) (fun i => 1 * r i + (-1) * s i) :=
    Rel.linear 1 (-1) h hg rfl fun _ _ => rfl
  have h2 := hA _ _ h1 (by simp [ht]) (fun i => |1 * r i + (-1) * s i|) (by simp [ht]) fun _ _ => rfl
  have h3 : Rel F (fun e => 1 * f e + 1 * g e) (fun i => 1 * r i + 1 * s i) :=
    Rel.linear 1 1 h hg rfl fun _ _ => rfl
  have h4 : Rel F (fun e => (1/2) * (1 * f e + 1 * g e) + (1/2) * |1 * f e + (-1) * g e|) r' := by
    refine Rel.linear (1/2) (1/2) h3 h2 ?_ fun i hi' => ?_
    · rw [h0]; simp [ht]; ring
    · rw [hi i hi', half_max]; ring_nf
  convert h4 using 2 with e
  rw [half_max]; ring_nf

theorem Rel.min_tie {F : Frame E} (hA : AbsOk F) {f g : E → ℝ} {r s r' : Row} (h : Rel F f r)
    (hg : Rel F g s) (ht : r 0 = s 0) (h0 : r' 0 = r 0)
    (hi : ∀ i ∈ F.I, r' i = min (r i) (s i)) : Rel F (fun e => min (f e) (g e)) r' := by
  have h1 : Rel F (fun e => 1 * f e + (-1) * g e) (fun i => 1 * r i + (-1) * s i) :=
    Rel.linear 1 (-1) h hg rfl fun _ _ => rfl
  have h2 := hA _ _ h1 (by simp [ht]) (fun i => |1 * r i + (-1) * s i|) (by simp [ht]) fun _ _ => rfl
  have h3 : Rel F (fun e => 1 * f e + 1 * g e) (fun i => 1 * r i + 1 * s i) :=
    Rel.linear 1 1 h hg rfl fun _ _ => rfl
  have h4 : Rel F (fun e => (1/2) * (1 * f e + 1 * g e) + (-1/2) * |1 * f e + (-1) * g e|) r' := by
    refine Rel.linear (1/2) (-1/2) h3 h2 ?_ fun i hi' => ?_
    · rw [h0]; simp [ht]; ring
    · rw [hi i hi', half_min]; ring_nf
  convert h4 using 2 with e
  rw [half_min]; ring_nf

theorem sign_mul (x : ℝ) : x * (if x < 0 then -1 else if x > 0 then 1 else 0) = |x| := by
  split_ifs with h h2
  · rw [abs_of_neg h]; ring
  · rw [abs_of_pos h2]; ring
  · have : x = 0 := by linarith
    simp [this]

theorem ite_max0 (x : ℝ) : (if x > 0 then x else 0) = max x 0 := by
  split_ifs with h
  · exact (max_eq_left h.le).symm
  · exact (max_eq_right (by linarith)).symm
theorem ite_min0 (x : ℝ) : (if x < 0 then x else 0) = min x 0 := by
  split_ifs with h
  · exact (min_eq_left h.le).symm
  · exact (min_eq_right (by linarith)).symm

/-- A frame whose directions are among those of the objects. -/
def Frame.within (F : Frame E) (c : Cfg) : Prop := ∀ i ∈ F.I, 1 ≤ i ∧ i ≤ c.p

theorem Un.rel {F : Frame E} {c : Cfg} (hF : F.within c) {k : Bool} (hk : k = true → AbsOk F)
    (f : Un) {g : E → ℝ} {a : Row} (h : Rel F g a) (hd : f.dom k (a 0)) :
    Rel F (fun e => f.val (g e)) (f.run c a) := by
  by_cases hs : f.dom false (a 0)
  · obtain ⟨d, h1, h2⟩ := Un.run_deriv c f a hs
    exact h.comp1 h1 (Un.run_zero c f a) fun i hi => h2 i (hF i hi)
  · have hkt : k = true := by
      cases k
      · exact absurd hd hs
      · rfl
    have hA := hk hkt
    cases f <;> simp only [Un.dom, Bool.false_eq_true, or_false, not_not, hkt, or_true] at hs hd
    case fabs =>
      refine hA _ _ h hs _ (by rw [Un.run_zero, Un.val, hs, abs_zero]) fun i hi => ?_
      have := hF i hi
      simp only [Un.run]
      rw [if_neg (by simp [hs]), forI_c, if_pos (by omega), sign_mul]
    case fmaxD v =>
      refine Rel.max_tie hA h (Rel.const F v (r := fun i => if i = 0 then v else 0) (by simp)
        fun i hi => by have := hF i hi; simp; omega) (by simp [hs])
        (by rw [Un.run_zero, Un.val, hs, max_self]) fun i hi => ?_
      have := hF i hi
      simp only [Un.run]
      rw [if_neg (by simp [hs]), if_neg (by simp [hs]), forI_c, if_pos (by omega), ite_max0,
        if_neg (by omega)]
    case dFmax v =>
      refine Rel.max_tie hA (Rel.const F v (r := fun i => if i = 0 then v else 0) (by simp)
        fun i hi => by have := hF i hi; simp; omega) h (by simp [hs])
        (by rw [Un.run_zero, Un.val, hs, max_self]; simp) fun i hi => ?_
      have := hF i hi
      simp only [Un.run]
      rw [if_neg (by simp [hs]), if_neg (by simp [hs]), forI_c, if_pos (by omega), ite_max0,
        if_neg (by omega), max_comm]
    case fminD v =>
      refine Rel.min_tie hA h (Rel.const F v (r := fun i => if i = 0 then v else 0) (by simp)
        fun i hi => by have := hF i hi; simp; omega) (by simp [hs])
        (by rw [Un.run_zero, Un.val, hs, min_self]) fun i hi => ?_
      have := hF i hi
      simp only [Un.run]
      rw [if_neg (by simp [hs]), if_neg (by simp [hs]), forI_c, if_pos (by omega), ite_min0,
        if_neg (by omega)]
    case dFmin v =>
      refine Rel.min_tie hA (Rel.const F v (r := fun i => if i = 0 then v else 0) (by simp)
        fun i hi => by have := hF i hi; simp; omega) h (by simp [hs])
        (by rw [Un.run_zero, Un.val, hs, min_self]; simp) fun i hi => ?_
      have := hF i hi
      simp only [Un.run]
      rw [if_neg (by simp [hs]), if_neg (by simp [hs]), forI_c, if_pos (by omega), ite_min0,
        if_neg (by omega), min_comm]
    all_goals first | exact absurd hd hs | exact absurd hs hd

theorem Bin.rel {F : Frame E} {c : Cfg} (hF : F.within c) {k : Bool} (hk : k = true → AbsOk F)
    (f : Bin) {g g' : E → ℝ} {a b : Row} (h : Rel F g a) (h' : Rel F g' b)
    (hd : f.dom k (a 0) (b 0)) : Rel F (fun e => f.val (g e) (g' e)) (f.run c a b) := by
  by_cases hs : f.dom false (a 0) (b 0)
  · obtain ⟨d₁, d₂, h1, h2⟩ := Bin.run_deriv c f a b hs
    exact h.comp2 h' h1 (Bin.run_zero c f a b) fun i hi => h2 i (hF i hi)
  · have hkt : k = true := by
      cases k
      · exact absurd hd hs
      · rfl
    have hA := hk hkt
    cases f <;> simp only [Bin.dom, Bool.false_eq_true, or_false, not_not, hkt, or_true] at hs hd
    case fmax =>
      refine Rel.max_tie hA h h' hs (by rw [Bin.run_zero, Bin.val, hs, max_self]) fun i hi => ?_
      have := hF i hi
      simp only [Bin.run]
      rw [if_neg (by simp [hs]), if_neg (by simp [hs]), forI_c, if_pos (by omega), max_def_lt]
    case fmin =>
      refine Rel.min_tie hA h h' hs (by rw [Bin.run_zero, Bin.val, hs, min_self]) fun i hi => ?_
      have := hF i hi
      simp only [Bin.run]
      rw [if_neg (by simp [hs]), if_neg (by simp [hs]), forI_c, if_pos (by omega), min_def_lt]
    all_goals first | exact absurd hd hs | exact absurd hs hd

theorem Expr.rel {F : Frame E} {c : Cfg} (hF : F.within c) {k : Bool} (hk : k = true → AbsOk F)
    {env : E → Env} {s : Store} {D : ℕ → Prop} (h0 : ∀ o, s o 0 = env F.e0 o)
    (h : ∀ o, D o → Rel F (fun x => env x o) (s o)) (e : Expr)
    (hd : e.dom k (env F.e0)) (hw : e.within D) :
    Rel F (fun x => e.val (env x)) (e.run c s) := by
  induction e with
  | var a => exact h a hw
  | lit v =>
    refine Rel.const F v (by simp [Expr.run, ctorV_apply c _ _ 0 (Nat.zero_le _)]) fun i hi => ?_
    have := hF i hi
    rw [Expr.run, ctorV_apply c _ _ i (by omega), if_neg (by omega)]
  | un f e ih =>
    refine Un.rel hF hk f (ih hd.1 hw) ?_
    rw [Expr.run_zero c s _ h0]; exact hd.2
  | bin f e₁ e₂ ih₁ ih₂ =>
    refine Bin.rel hF hk f (ih₁ hd.1 hw.1) (ih₂ hd.2.1 hw.2) ?_
    rw [Expr.run_zero c s _ h0, Expr.run_zero c s _ h0]; exact hd.2.2

theorem Acc.rel {F : Frame E} {c : Cfg} (hF : F.within c) (f : Acc) {g g' : E → ℝ} {a b r : Row}
    (h : Rel F g a) (h' : Rel F g' b) (hd : f = .div → b 0 ≠ 0)
    (h0 : r 0 = f.val (a 0) (b 0))
    (hi : ∀ i, 1 ≤ i → i ≤ c.p → r i = match f with
        | .add => a i + b i | .sub => a i - b i | .mul => a i * b 0 + a 0 * b i
        | .div => (a i * b 0 - a 0 * b i) / (b 0 * b 0)) :
    Rel F (fun e => f.val (g e) (g' e)) r := by
  cases f
  · refine (Bin.rel (c := c) hF (k := false) (by simp) .add h h' trivial).congr
      (by rw [h0, Bin.run_zero]; rfl) fun i h => ?_
    have := hF i h
    rw [hi i this.1 this.2]; simp only [Bin.run]; rw [forI_c, if_pos (by omega)]
  · refine (Bin.rel (c := c) hF (k := false) (by simp) .sub h h' trivial).congr
      (by rw [h0, Bin.run_zero]; rfl) fun i h => ?_
    have := hF i h
    rw [hi i this.1 this.2]; simp only [Bin.run]; rw [forI_c, if_pos (by omega)]
  · refine (Bin.rel (c := c) hF (k := false) (by simp) .mul h h' trivial).congr
      (by rw [h0, Bin.run_zero]; rfl) fun i h => ?_
    have := hF i h
    rw [hi i this.1 this.2]; simp only [Bin.run]; rw [mulA_i _ _ _ this]
  · refine (Bin.rel (c := c) hF (k := false) (by simp) .div h h' (hd rfl)).congr
      (by rw [h0, Bin.run_zero]; rfl) fun i h => ?_
    have := hF i h
    rw [hi i this.1 this.2]; simp only [Bin.run]; rw [forI_c, if_pos (by omega)]

/-- Values and derivatives of the initialised variables. -/
structure Holds (F : Frame E) (env : E → Env) (s : Store) (D : ℕ → Prop) : Prop where
  val : ∀ o, s o 0 = env F.e0 o
  rel : ∀ o, D o → Rel F (fun x => env x o) (s o)

theorem Holds.update {F : Frame E} {c : Cfg} (hF : F.within c) {env env' : E → Env} {s s' : Store} {D : ℕ → Prop}
    (h : Holds F env s D) (d : ℕ) (b : Prop)
    (hv : ∀ o, s' o 0 = env' F.e0 o)
    (he : ∀ x o, o ≠ d → env' x o = env x o)
    (hs : ∀ o j, o ≠ d → j ≤ c.p → s' o j = s o j)
    (hd : b → Rel F (fun x => env' x d) (s' d)) : Holds F env' s' (mark D d b) := by
  refine ⟨hv, fun o ho => ?_⟩
  by_cases h2 : o = d
  · subst h2; simp only [mark, if_true] at ho; exact hd ho
  · simp only [mark, h2, if_false] at ho
    have := h.rel o ho
    simp only [he _ o h2]
    exact this.congr (hs o 0 h2 (Nat.zero_le _)) fun i hi => hs o i h2 (hF i hi).2

theorem Env.set_ne (v : Env) {d o : ℕ} (x : ℝ) (h : o ≠ d) : v.set d x o = v o := by simp [Env.set, h]
theorem Env.set_same (v : Env) (d : ℕ) (x : ℝ) : v.set d x d = x := by simp [Env.set]

theorem Rel.pos_eventually {F : Frame E} {f : E → ℝ} {r : Row} (h : Rel F f r) (hp : 0 < f F.e0) :
    ∀ᶠ x in 𝓝[F.S] F.e0, 0 < f x := by
  have := h.tendsto
  rw [← h.1] at this
  exact this.eventually_const_lt hp
theorem Rel.neg_eventually {F : Frame E} {f : E → ℝ} {r : Row} (h : Rel F f r) (hp : f F.e0 < 0) :
    ∀ᶠ x in 𝓝[F.S] F.e0, f x < 0 := by
  have := h.tendsto
  rw [← h.1] at this
  exact this.eventually_lt_const hp

theorem mark_self (D : ℕ → Prop) (d : ℕ) : mark D d (D d) = D := by
  funext o; by_cases h : o = d <;> simp [mark, h]

theorem Stmt.rel {F : Frame E} {c : Cfg} (hF : F.within c) {k : Bool} (hk : k = true → AbsOk F)
    {env : E → Env} {s : Store} {D : ℕ → Prop} (h : Holds F env s D) (st : Stmt)
    (ok : st.ok k (env F.e0) D) :
    Holds F (fun x => st.val (env x)) (st.run c s) (st.defs (env F.e0) D) := by
  have hz : ∀ o, st.run c s o 0 = st.val (env F.e0) o := Stmt.run_zero c st s _ h.val
  cases st
  case decl d =>
    refine h.update hF d False hz (fun x o ho => by simp [Stmt.val, Env.set_ne _ _ ho]) ?_ (fun hf => hf.elim)
    intro o j ho hj; simp [Stmt.run, bindRow, ho]
  case declD d v =>
    refine h.update hF d True hz (fun x o ho => by simp [Stmt.val, Env.set_ne _ _ ho]) ?_ (fun _ => ?_)
    · intro o j ho hj; simp [Stmt.run, bindRow, ho]
    · simp only [Stmt.val, Env.set_same]
      refine Rel.const F v ?_ fun i hi => ?_
      · have := hz d; simpa [Stmt.val, Env.set_same] using this
      · have := hF i hi
        simp only [Stmt.run, bindRow, if_true]
        rw [ctorV_apply c _ _ i (by omega), if_neg (by omega)]
  case declE d e =>
    refine h.update hF d _ hz (fun x o ho => by simp [Stmt.val, Env.set_ne _ _ ho]) ?_ (fun hw => ?_)
    · intro o j ho hj; simp [Stmt.run, bindRow, ho]
    · simp only [Stmt.val, Env.set_same]
      refine (Expr.rel hF hk h.val h.rel e ok hw).congr ?_ fun i hi => ?_
      · simp only [Stmt.run, bindRow, if_true]; rw [ctorC_apply c _ _ 0 (Nat.zero_le _)]
      · have := hF i hi
        simp only [Stmt.run, bindRow, if_true]
        rw [ctorC_apply c _ _ i (by omega)]
  case setD d v =>
    refine h.update hF d True hz (fun x o ho => by simp [Stmt.val, Env.set_ne _ _ ho]) ?_ (fun _ => ?_)
    · intro o j ho hj; rw [setD_apply c d v s o j hj, if_neg ho]
    · simp only [Stmt.val, Env.set_same]
      refine Rel.const F v ?_ fun i hi => ?_
      · rw [setD_apply c d v s d 0 (Nat.zero_le _)]; simp
      · have := hF i hi
        rw [setD_apply c d v s d i (by omega), if_pos rfl, if_neg (by omega)]
  case setA d a =>
    refine h.update hF d _ hz (fun x o ho => by simp [Stmt.val, Env.set_ne _ _ ho]) ?_ (fun hw => ?_)
    · intro o j ho hj; simp only [Stmt.run]; rw [setA_apply, if_neg (by tauto)]
    · simp only [Stmt.val, Env.set_same, Stmt.run]
      refine (h.rel a hw).congr ?_ fun i hi => ?_
      · rw [setA_apply, if_pos (by simp)]
      · have := hF i hi
        rw [setA_apply, if_pos ⟨rfl, this.2⟩]
  case accD f d v =>
    simp only [Stmt.defs]
    rw [← mark_self D d]
    refine h.update hF d _ hz (fun x o ho => by simp [Stmt.val, Env.set_ne _ _ ho]) ?_ (fun hw => ?_)
    · intro o j ho hj; simp only [Stmt.run]; rw [accD_apply c f d v s o j hj, if_neg ho]
    · simp only [Stmt.val, Env.set_same, Stmt.run]
      refine Acc.rel (c := c) hF f (h.rel d hw)
        (Rel.const F v (r := fun i => if i = 0 then v else 0) (by simp)
          fun i hi => by have := hF i hi; simp; omega) ?_ ?_ ?_
      · intro hf; subst hf; simpa [Stmt.ok] using ok
      · rw [accD_apply c f d v s d 0 (Nat.zero_le _)]; cases f <;> simp [Acc.val]
      · intro i h1 h2
        rw [accD_apply c f d v s d i h2]
        have h0 : i ≠ 0 := by omega
        cases f
        · simp [h0]
        · simp [h0]
        · simp [h0]
        · have : v ≠ 0 := by simpa [Stmt.ok] using ok
          simp [h0]; field_simp
  case accA f d a =>
    refine h.update hF d _ hz (fun x o ho => by simp [Stmt.val, Env.set_ne _ _ ho]) ?_ (fun hw => ?_)
    · intro o j ho hj; simp only [Stmt.run]; rw [accA_apply c f d a s o j hj, if_neg ho]
    · simp only [Stmt.val, Env.set_same, Stmt.run]
      refine Acc.rel (c := c) hF f (h.rel d hw.1) (h.rel a hw.2) ?_ ?_ ?_
      · intro hf; subst hf; rw [h.val]; simpa [Stmt.ok] using ok
      · rw [accA_apply c f d a s d 0 (Nat.zero_le _)]; cases f <;> simp [Acc.val]
      · intro i h1 h2
        rw [accA_apply c f d a s d i h2]
        have h0 : i ≠ 0 := by omega
        cases f <;> simp [h0]
  case incr d =>
    simp only [Stmt.defs]
    rw [← mark_self D d]
    refine h.update hF d _ hz (fun x o ho => by simp [Stmt.val, Env.set_ne _ _ ho]) ?_ (fun hw => ?_)
    · intro o j ho hj; simp [Stmt.run, puts_apply, ho]
    · simp only [Stmt.val, Env.set_same, Stmt.run]
      refine Rel.comp1 (φ := fun y => y + 1) (h.rel d hw) ((hasDerivAt_id _).add_const 1) ?_ fun i hi => ?_
      · simp [puts_apply]
      · have := hF i hi
        rw [puts_apply, if_neg (by omega)]; ring
  case decr d =>
    simp only [Stmt.defs]
    rw [← mark_self D d]
    refine h.update hF d _ hz (fun x o ho => by simp [Stmt.val, Env.set_ne _ _ ho]) ?_ (fun hw => ?_)
    · intro o j ho hj; simp [Stmt.run, puts_apply, ho]
    · simp only [Stmt.val, Env.set_same, Stmt.run]
      refine Rel.comp1 (φ := fun y => y - 1) (h.rel d hw) ((hasDerivAt_id _).sub_const 1) ?_ fun i hi => ?_
      · simp [puts_apply]
      · have := hF i hi
        rw [puts_apply, if_neg (by omega)]; ring
  case postIncr d x =>
    have hdx : d ≠ x := ok
    refine ⟨hz, fun o ho => ?_⟩
    simp only [Stmt.defs, mark] at ho
    have key : ∀ j, j ≤ c.p → (Stmt.postIncr d x).run c s o j =
        if o = d then s x j else if o = x ∧ j = 0 then s x 0 + 1 else s o j :=
      fun j hj => post_apply c d x _ s o j hj
    by_cases h1 : o = d
    · subst h1
      rw [if_pos rfl] at ho
      simp only [Stmt.val, Env.set_same]
      refine (h.rel x ho).congr ?_ fun i hi => ?_
      · rw [key 0 (Nat.zero_le _), if_pos rfl]
      · rw [key i (hF i hi).2, if_pos rfl]
    · rw [if_neg h1] at ho
      by_cases h2 : o = x
      · subst h2
        simp only [Stmt.val, Env.set_ne _ _ h1, Env.set_same]
        refine Rel.comp1 (φ := fun y => y + 1) (h.rel o ho) ((hasDerivAt_id _).add_const 1) ?_ fun i hi => ?_
        · rw [key 0 (Nat.zero_le _), if_neg h1]; simp
        · have := hF i hi
          rw [key i this.2, if_neg h1, if_neg (by omega)]; ring
      · simp only [Stmt.val, Env.set_ne _ _ h1, Env.set_ne _ _ h2]
        refine (h.rel o ho).congr ?_ fun i hi => ?_
        · rw [key 0 (Nat.zero_le _), if_neg h1, if_neg (by tauto)]
        · rw [key i (hF i hi).2, if_neg h1, if_neg (by tauto)]
  case postDecr d x =>
    have hdx : d ≠ x := ok
    refine ⟨hz, fun o ho => ?_⟩
    simp only [Stmt.defs, mark] at ho
    have key : ∀ j, j ≤ c.p → (Stmt.postDecr d x).run c s o j =
        if o = d then s x j else if o = x ∧ j = 0 then s x 0 - 1 else s o j :=
      fun j hj => post_apply c d x _ s o j hj
    by_cases h1 : o = d
    · subst h1
      rw [if_pos rfl] at ho
      simp only [Stmt.val, Env.set_same]
      refine (h.rel x ho).congr ?_ fun i hi => ?_
      · rw [key 0 (Nat.zero_le _), if_pos rfl]
      · rw [key i (hF i hi).2, if_pos rfl]
    · rw [if_neg h1] at ho
      by_cases h2 : o = x
      · subst h2
        simp only [Stmt.val, Env.set_ne _ _ h1, Env.set_same]
        refine Rel.comp1 (φ := fun y => y - 1) (h.rel o ho) ((hasDerivAt_id _).sub_const 1) ?_ fun i hi => ?_
        · rw [key 0 (Nat.zero_le _), if_neg h1]; simp
        · have := hF i hi
          rw [key i this.2, if_neg h1, if_neg (by omega)]; ring
      · simp only [Stmt.val, Env.set_ne _ _ h1, Env.set_ne _ _ h2]
        refine (h.rel o ho).congr ?_ fun i hi => ?_
        · rw [key 0 (Nat.zero_le _), if_neg h1, if_neg (by tauto)]
        · rw [key i (hF i hi).2, if_neg h1, if_neg (by tauto)]
  case cond d q a b =>
    obtain ⟨hq, hqD⟩ := ok
    refine h.update hF d _ hz (fun x o ho => by simp [Stmt.val, Env.set_ne _ _ ho]) ?_ (fun hw => ?_)
    · intro o j ho hj; simp only [Stmt.run]; split_ifs <;> rw [setA_apply, if_neg (by tauto)]
    · simp only [Stmt.val, Env.set_same, Stmt.run]
      rcases lt_or_gt_of_ne hq with hn | hp
      · rw [if_neg (not_lt.2 hn.le)] at hw
        rw [h.val q, if_neg (not_lt.2 hn.le)]
        refine Rel.eventually ((h.rel b hw).congr ?_ fun i hi => ?_)
          (((h.rel q hqD).neg_eventually hn).mono fun x hx => if_neg (not_lt.2 hx.le))
        · rw [setA_apply, if_pos (by simp)]
        · rw [setA_apply, if_pos ⟨rfl, (hF i hi).2⟩]
      · rw [if_pos hp] at hw
        rw [h.val q, if_pos hp]
        refine Rel.eventually ((h.rel a hw).congr ?_ fun i hi => ?_)
          (((h.rel q hqD).pos_eventually hp).mono fun x hx => if_pos hx)
        · rw [setA_apply, if_pos (by simp)]
        · rw [setA_apply, if_pos ⟨rfl, (hF i hi).2⟩]
  case condS d q a =>
    obtain ⟨hq, hqD⟩ := ok
    refine h.update hF d _ hz (fun x o ho => by simp [Stmt.val, Env.set_ne _ _ ho]) ?_ (fun hw => ?_)
    · intro o j ho hj; simp only [Stmt.run]
      split_ifs
      · rw [setA_apply, if_neg (by tauto)]
      · rfl
    · simp only [Stmt.val, Env.set_same, Stmt.run]
      rcases lt_or_gt_of_ne hq with hn | hp
      · rw [if_neg (not_lt.2 hn.le)] at hw
        rw [h.val q, if_neg (not_lt.2 hn.le)]
        exact Rel.eventually (h.rel d hw)
          (((h.rel q hqD).neg_eventually hn).mono fun x hx => if_neg (not_lt.2 hx.le))
      · rw [if_pos hp] at hw
        rw [h.val q, if_pos hp]
        refine Rel.eventually ((h.rel a hw).congr ?_ fun i hi => ?_)
          (((h.rel q hqD).pos_eventually hp).mono fun x hx => if_pos hx)
        · rw [setA_apply, if_pos (by simp)]
        · rw [setA_apply, if_pos ⟨rfl, (hF i hi).2⟩]
  case condEq d q a b =>
    obtain ⟨hq, hqD⟩ := ok
    refine h.update hF d _ hz (fun x o ho => by simp [Stmt.val, Env.set_ne _ _ ho]) ?_ (fun hw => ?_)
    · intro o j ho hj; simp only [Stmt.run]; split_ifs <;> rw [setA_apply, if_neg (by tauto)]
    · simp only [Stmt.val, Env.set_same, Stmt.run]
      rcases lt_or_gt_of_ne hq with hn | hp
      · rw [if_neg (not_le.2 hn)] at hw
        rw [h.val q, if_neg (not_le.2 hn)]
        refine Rel.eventually ((h.rel b hw).congr ?_ fun i hi => ?_)
          (((h.rel q hqD).neg_eventually hn).mono fun x hx => if_neg (not_le.2 hx))
        · rw [setA_apply, if_pos (by simp)]
        · rw [setA_apply, if_pos ⟨rfl, (hF i hi).2⟩]
      · rw [if_pos hp.le] at hw
        rw [h.val q, if_pos hp.le]
        refine Rel.eventually ((h.rel a hw).congr ?_ fun i hi => ?_)
          (((h.rel q hqD).pos_eventually hp).mono fun x hx => if_pos hx.le)
        · rw [setA_apply, if_pos (by simp)]
        · rw [setA_apply, if_pos ⟨rfl, (hF i hi).2⟩]
  case condEqS d q a =>
    obtain ⟨hq, hqD⟩ := ok
    refine h.update hF d _ hz (fun x o ho => by simp [Stmt.val, Env.set_ne _ _ ho]) ?_ (fun hw => ?_)
    · intro o j ho hj; simp only [Stmt.run]
      split_ifs
      · rw [setA_apply, if_neg (by tauto)]
      · rfl
    · simp only [Stmt.val, Env.set_same, Stmt.run]
      rcases lt_or_gt_of_ne hq with hn | hp
      · rw [if_neg (not_le.2 hn)] at hw
        rw [h.val q, if_neg (not_le.2 hn)]
        exact Rel.eventually (h.rel d hw)
          (((h.rel q hqD).neg_eventually hn).mono fun x hx => if_neg (not_le.2 hx))
      · rw [if_pos hp.le] at hw
        rw [h.val q, if_pos hp.le]
        refine Rel.eventually ((h.rel a hw).congr ?_ fun i hi => ?_)
          (((h.rel q hqD).pos_eventually hp).mono fun x hx => if_pos hx.le)
        · rw [setA_apply, if_pos (by simp)]
        · rw [setA_apply, if_pos ⟨rfl, (hF i hi).2⟩]

theorem Opd.tendsto {F : Frame E} {env : E → Env} {s : Store} {D : ℕ → Prop} (h : Holds F env s D)
    (l : Opd) (hl : l.within D) :
    Tendsto (fun x => l.val (env x)) (𝓝[F.S] F.e0) (𝓝 (l.val (env F.e0))) := by
  cases l with
  | var a =>
    have := (h.rel a hl).tendsto
    rw [h.val] at this
    exact this
  | lit v => exact tendsto_const_nhds

/-- Away from ties a comparison keeps its outcome nearby. -/
theorem Cmp.eventually {F : Frame E} {f g : E → ℝ} (c : Cmp)
    (hf : Tendsto f (𝓝[F.S] F.e0) (𝓝 (f F.e0))) (hg : Tendsto g (𝓝[F.S] F.e0) (𝓝 (g F.e0)))
    (hne : f F.e0 ≠ g F.e0) :
    ∀ᶠ x in 𝓝[F.S] F.e0, (c.holds (f x) (g x) ↔ c.holds (f F.e0) (g F.e0)) := by
  rcases lt_or_gt_of_ne hne with h | h
  · filter_upwards [hf.eventually_lt hg h] with x hx
    cases c <;> simp only [Cmp.holds]
    · exact ⟨fun _ => h.ne, fun _ => hx.ne⟩
    · exact ⟨fun e => absurd e hx.ne, fun e => absurd e h.ne⟩
    · exact ⟨fun _ => h.le, fun _ => hx.le⟩
    · exact ⟨fun e => absurd hx (not_lt.2 e), fun e => absurd h (not_lt.2 e)⟩
    · exact ⟨fun e => absurd hx (not_lt.2 (le_of_lt e)), fun e => absurd h (not_lt.2 (le_of_lt e))⟩
    · exact ⟨fun _ => h, fun _ => hx⟩
  · filter_upwards [hg.eventually_lt hf h] with x hx
    cases c <;> simp only [Cmp.holds]
    · exact ⟨fun _ => h.ne', fun _ => hx.ne'⟩
    · exact ⟨fun e => absurd e hx.ne', fun e => absurd e h.ne'⟩
    · exact ⟨fun e => absurd hx (not_lt.2 e), fun e => absurd h (not_lt.2 e)⟩
    · exact ⟨fun _ => le_of_lt h, fun _ => le_of_lt hx⟩
    · exact ⟨fun _ => h, fun _ => hx⟩
    · exact ⟨fun e => absurd hx (not_lt.2 (le_of_lt e)), fun e => absurd h (not_lt.2 (le_of_lt e))⟩

theorem Prog.rel {F : Frame E} {c : Cfg} (hF : F.within c) {k : Bool} (hk : k = true → AbsOk F)
    (p : Prog) : ∀ {env : E → Env} {s : Store} {D : ℕ → Prop}, Holds F env s D →
      p.ok k (env F.e0) D → Holds F (fun x => p.val (env x)) (p.run c s) (p.defs (env F.e0) D) := by
  induction p with
  | done => intro env s D h _; exact h
  | stmt st p ih =>
    intro env s D h ok
    exact ih (env := fun x => st.val (env x)) (Stmt.rel hF hk h st ok.1) ok.2
  | branch f l r t e iht ihe =>
    intro env s D h ok
    obtain ⟨hne, hl, hr, ok⟩ := ok
    have hev := Cmp.eventually f (Opd.tendsto h l hl) (Opd.tendsto h r hr) hne
    have e1 := Opd.prim_eq s _ h.val l
    have e2 := Opd.prim_eq s _ h.val r
    simp only [Prog.run, Prog.defs]
    rw [e1, e2]
    by_cases hb : f.holds (l.val (env F.e0)) (r.val (env F.e0))
    · rw [if_pos hb] at ok
      rw [if_pos hb, if_pos hb]
      have := iht h ok
      refine ⟨fun o => ?_, fun o ho => ?_⟩
      · rw [this.val]; simp only [Prog.val]; rw [if_pos hb]
      · refine (this.rel o ho).eventually (hev.mono fun x hx => ?_)
        simp only [Prog.val]; rw [if_pos (hx.2 hb)]
    · rw [if_neg hb] at ok
      rw [if_neg hb, if_neg hb]
      have := ihe h ok
      refine ⟨fun o => ?_, fun o ho => ?_⟩
      · rw [this.val]; simp only [Prog.val]; rw [if_neg hb]
      · refine (this.rel o ho).eventually (hev.mono fun x hx => ?_)
        simp only [Prog.val]; rw [if_neg (fun hh => hb (hx.1 hh))]

/-! ### Rays -/

/-- The frame of a ray: parameter `t ≥ 0`, one direction looked at. -/
def ray (i : ℕ) : Frame ℝ where
  S := Set.Ici 0
  e0 := 0
  mem := Set.self_mem_Ici
  V := fun _ => 1
  I := {i}

theorem ray_rel {i : ℕ} {f : ℝ → ℝ} {r : Row} :
    Rel (ray i) f r ↔ f 0 = r 0 ∧ HasDerivWithinAt f (r i) (Set.Ici 0) 0 := by
  constructor
  · rintro ⟨h1, L, hL, h2⟩
    refine ⟨h1, ?_⟩
    have := h2 i rfl
    have h3 := hL.hasDerivWithinAt
    rw [show L 1 = r i from this.symm] at h3
    exact h3
  · rintro ⟨h1, h2⟩
    refine ⟨h1, _, h2.hasFDerivWithinAt, fun j hj => ?_⟩
    have : j = i := hj
    subst this
    simp [ray]

theorem ray_abs (i : ℕ) : AbsOk (ray i) := by
  intro f r h h0 r' h0' hi
  rw [ray_rel] at h ⊢
  obtain ⟨h1, h2⟩ := h
  refine ⟨by rw [h1, h0, h0', abs_zero], ?_⟩
  rw [hi i rfl]
  rw [hasDerivWithinAt_iff_tendsto_slope] at h2 ⊢
  refine h2.abs.congr' ?_
  filter_upwards [self_mem_nhdsWithin] with t ht
  have ht0 : 0 < t := lt_of_le_of_ne ht.1 (fun h => ht.2 h.symm)
  have hf : f 0 = 0 := by rw [h1, h0]
  simp only [slope_def_field, hf, abs_zero, sub_zero, abs_div, abs_of_pos ht0]

end Verif.TL
