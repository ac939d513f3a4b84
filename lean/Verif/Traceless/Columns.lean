import Verif.Traceless.Run
/-! # Traceless mode: the directions do not interact -/
set_option linter.all false
noncomputable section
namespace Verif.TL

/-- Run `c` with several directions and run `c₁` with one; `i` is the direction compared. -/
structure Col (c c₁ : Cfg) (i : ℕ) : Prop where
  one : c₁.p = 1
  lo : 1 ≤ i
  hi : i ≤ c.p
  nan : c₁.nan = c.nan
  inf : c₁.inf = c.inf
  junk : c₁.junk 1 = c.junk i
  mem : ∀ d, c₁.mem d 1 = c.mem d i

/-- The array of the second run is direction `i` of the first. -/
def Same (i : ℕ) (r r₁ : Row) : Prop := r₁ 0 = r 0 ∧ r₁ 1 = r i

theorem dPowA_col {c c₁ : Cfg} {i : ℕ} (h : Col c c₁ i) (v : ℝ) {a a₁ : Row} (ha : Same i a a₁) :
    Same i (dPowA c v a) (dPowA c₁ v a₁) := by
  refine ⟨by rw [dPowA_zero, dPowA_zero, ha.1], ?_⟩
  rw [dPowA_i c₁ _ _ ⟨le_rfl, h.one.ge⟩, dPowA_i c _ _ ⟨h.lo, h.hi⟩, ha.1, ha.2]

theorem mulA_col {c c₁ : Cfg} {i : ℕ} (h : Col c c₁ i) {a a₁ b b₁ : Row} (ha : Same i a a₁)
    (hb : Same i b b₁) : Same i (mulA c a b) (mulA c₁ a₁ b₁) := by
  refine ⟨by rw [mulA_zero, mulA_zero, ha.1, hb.1], ?_⟩
  rw [mulA_i c₁ _ _ ⟨le_rfl, h.one.ge⟩, mulA_i c _ _ ⟨h.lo, h.hi⟩, ha.1, ha.2, hb.1, hb.2]

theorem Un.col {c c₁ : Cfg} {i : ℕ} (h : Col c c₁ i) (f : Un) {a a₁ : Row} (ha : Same i a a₁) :
    Same i (f.run c a) (f.run c₁ a₁) := by
  refine ⟨by rw [Un.run_zero, Un.run_zero, ha.1], ?_⟩
  have p1 : 1 ≤ 1 ∧ 1 ≤ c₁.p := ⟨le_rfl, h.one.ge⟩
  have pi : 1 ≤ i ∧ i ≤ c.p := ⟨h.lo, h.hi⟩
  have z1 : 0 ≤ 1 ∧ 1 ≤ c₁.p := ⟨by omega, h.one.ge⟩
  have zi : 0 ≤ i ∧ i ≤ c.p := ⟨by omega, h.hi⟩
  have s1 : i - 1 + 1 = i := by omega
  cases f <;> simp only [Un.run, ctorA, ctorC, ha.1]
  case dPow v => exact (dPowA_col h v ha).2
  case dLdexp v =>
    rw [forI_c, if_pos z1, forI_c, if_pos zi, (dPowA_col h 2 ha).2]
  case sqrt =>
    have e := forI_sqrt c₁ a₁ c₁.p (put (ctor0 c₁.junk) 0 √(a 0)) 1
    simp only [ha.1] at e
    rw [e, forI_sqrt c a, if_pos p1, if_pos pi, ha.2, h.inf, h.nan, put_same, put_same]
  case cbrt =>
    have e := forI_cbrt c₁ a₁ c₁.p (put (ctor0 c₁.junk) 0 (Verif.AD.rcbrt (a 0))) 1
    simp only [ha.1] at e
    rw [e, forI_cbrt c a, if_pos p1, if_pos pi, ha.2, h.inf, h.nan, put_same, put_same]
  case exp =>
    rw [forI_exp, if_pos p1, forI_exp, if_pos pi, ha.2, put_same, put_same]
  all_goals
    (try split_ifs) <;>
    simp only [forI_c, p1, pi, z1, zi, and_self, if_true, ha.2, s1, Nat.sub_self, Nat.zero_add, h.inf, h.nan]

theorem Bin.col {c c₁ : Cfg} {i : ℕ} (h : Col c c₁ i) (f : Bin) {a a₁ b b₁ : Row}
    (ha : Same i a a₁) (hb : Same i b b₁) : Same i (f.run c a b) (f.run c₁ a₁ b₁) := by
  refine ⟨by rw [Bin.run_zero, Bin.run_zero, ha.1, hb.1], ?_⟩
  have p1 : 1 ≤ 1 ∧ 1 ≤ c₁.p := ⟨le_rfl, h.one.ge⟩
  have pi : 1 ≤ i ∧ i ≤ c.p := ⟨h.lo, h.hi⟩
  have z1 : 0 ≤ 1 ∧ 1 ≤ c₁.p := ⟨by omega, h.one.ge⟩
  have zi : 0 ≤ i ∧ i ≤ c.p := ⟨by omega, h.hi⟩
  cases f <;> simp only [Bin.run, ha.1, hb.1]
  case mul => exact (mulA_col h ha hb).2
  case ldexp => exact (mulA_col h ha (dPowA_col h 2 hb)).2
  all_goals
    (try split_ifs) <;>
    simp only [forI_c, p1, pi, z1, zi, and_self, if_true, ha.2, hb.2, put_same]

theorem Expr.col {c c₁ : Cfg} {i : ℕ} (h : Col c c₁ i) {s s₁ : Store} (hs : ∀ o, Same i (s o) (s₁ o))
    (e : Expr) : Same i (e.run c s) (e.run c₁ s₁) := by
  induction e with
  | var a => exact hs a
  | lit v =>
    have := h.one; have := h.hi; have := h.lo
    refine ⟨?_, ?_⟩
    · rw [Expr.run, Expr.run, ctorV_apply _ _ _ _ (Nat.zero_le _), ctorV_apply _ _ _ _ (Nat.zero_le _)]
    · rw [Expr.run, Expr.run, ctorV_apply _ _ _ _ (by omega), ctorV_apply _ _ _ _ (by omega),
        if_neg (by omega), if_neg (by omega)]
  | un f e ih => exact Un.col h f ih
  | bin f e₁ e₂ ih₁ ih₂ => exact Bin.col h f ih₁ ih₂

theorem setA_col {c c₁ : Cfg} {i : ℕ} (h : Col c c₁ i) {s s₁ : Store} (hs : ∀ o, Same i (s o) (s₁ o))
    (d a o : ℕ) : Same i (setA c d a s o) (setA c₁ d a s₁ o) := by
  have := h.one; have := h.hi; have := h.lo
  constructor
  · simp [setA_apply, (hs a).1, (hs o).1]
  · rw [setA_apply, setA_apply]
    by_cases ho : o = d
    · rw [if_pos ⟨ho, by omega⟩, if_pos ⟨ho, by omega⟩, (hs a).2]
    · rw [if_neg (by tauto), if_neg (by tauto), (hs o).2]

theorem Stmt.col {c c₁ : Cfg} {i : ℕ} (h : Col c c₁ i) (st : Stmt) {s s₁ : Store}
    (hs : ∀ o, Same i (s o) (s₁ o)) (o : ℕ) : Same i (st.run c s o) (st.run c₁ s₁ o) := by
  have p1 := h.one; have pi := h.hi; have lo := h.lo
  refine ⟨?_, ?_⟩
  · rw [Stmt.run_zero c st s (fun o => s o 0) (fun _ => rfl),
      Stmt.run_zero c₁ st s₁ (fun o => s o 0) (fun o => (hs o).1)]
  have i0 : i ≠ 0 := by omega
  cases st
  case decl d =>
    by_cases ho : o = d
    · simp [Stmt.run, bindRow, ho, ctor0, put, i0, h.mem]
    · simp [Stmt.run, bindRow, ho, (hs o).2]
  case declD d v =>
    simp only [Stmt.run, bindRow]
    by_cases ho : o = d
    · simp only [ho, if_true]
      rw [ctorV_apply c₁ _ _ 1 (by omega), ctorV_apply c _ _ i pi]; simp [i0]
    · simp [ho, (hs o).2]
  case declE d e =>
    simp only [Stmt.run, bindRow]
    by_cases ho : o = d
    · simp only [ho, if_true]
      rw [ctorC_apply c₁ _ _ 1 (by omega), ctorC_apply c _ _ i pi, (Expr.col h hs e).2]
    · simp [ho, (hs o).2]
  case setD d v =>
    rw [setD_apply c₁ d v s₁ o 1 (by omega), setD_apply c d v s o i pi]
    simp [i0, (hs o).2]
  case setA d a => exact (setA_col h hs d a o).2
  case accD f d v =>
    simp only [Stmt.run]
    rw [accD_apply c₁ f d v s₁ o 1 (by omega), accD_apply c f d v s o i pi]
    cases f <;> simp [i0, (hs o).2, (hs d).2]
  case accA f d a =>
    simp only [Stmt.run]
    rw [accA_apply c₁ f d a s₁ o 1 (by omega), accA_apply c f d a s o i pi]
    cases f <;> simp [i0, (hs o).2, (hs d).2, (hs a).2, (hs d).1, (hs a).1]
  case incr d => simp [Stmt.run, puts_apply, i0, (hs o).2]
  case decr d => simp [Stmt.run, puts_apply, i0, (hs o).2]
  case postIncr d x =>
    have e1 : (Stmt.postIncr d x).run c₁ s₁ o 1 = _ := post_apply c₁ d x _ s₁ o 1 (by omega)
    have e2 : (Stmt.postIncr d x).run c s o i = _ := post_apply c d x _ s o i pi
    rw [e1, e2]; simp [i0, (hs o).2, (hs x).2]
  case postDecr d x =>
    have e1 : (Stmt.postDecr d x).run c₁ s₁ o 1 = _ := post_apply c₁ d x _ s₁ o 1 (by omega)
    have e2 : (Stmt.postDecr d x).run c s o i = _ := post_apply c d x _ s o i pi
    rw [e1, e2]; simp [i0, (hs o).2, (hs x).2]
  case cond d q a b =>
    simp only [Stmt.run, (hs q).1]
    split_ifs
    · exact (setA_col h hs d a o).2
    · exact (setA_col h hs d b o).2
  case condS d q a =>
    simp only [Stmt.run, (hs q).1]
    split_ifs
    · exact (setA_col h hs d a o).2
    · exact (hs o).2
  case condEq d q a b =>
    simp only [Stmt.run, (hs q).1]
    split_ifs
    · exact (setA_col h hs d a o).2
    · exact (setA_col h hs d b o).2
  case condEqS d q a =>
    simp only [Stmt.run, (hs q).1]
    split_ifs
    · exact (setA_col h hs d a o).2
    · exact (hs o).2

theorem Prog.col {c c₁ : Cfg} {i : ℕ} (h : Col c c₁ i) (p : Prog) : ∀ {s s₁ : Store},
    (∀ o, Same i (s o) (s₁ o)) → ∀ o, Same i (p.run c s o) (p.run c₁ s₁ o) := by
  induction p with
  | done => intro s s₁ hs o; exact hs o
  | stmt st p ih => intro s s₁ hs o; exact ih (Stmt.col h st hs) o
  | branch f l r t e iht ihe =>
    intro s s₁ hs o
    have e : ∀ q : Opd, q.prim s₁ = q.prim s := fun q => by cases q <;> simp [Opd.prim, (hs _).1]
    simp only [Prog.run]
    rw [e l, e r]
    by_cases hb : f.holds (l.prim s) (r.prim s)
    · rw [if_pos hb, if_pos hb]; exact iht hs o
    · rw [if_neg hb, if_neg hb]; exact ihe hs o

end Verif.TL
