import Verif.Traceless.Indo
import Verif.Traceless.Run
/-! # Traceless sparsity detection: proofs -/
set_option linter.all false
noncomputable section
namespace Verif.TL
open Filter Topology

/-! ### The list operations -/

theorem mem_lmerge (x : ℕ) : ∀ u v : List ℕ, x ∈ lmerge u v ↔ x ∈ u ∨ x ∈ v
  | [], v => by simp [lmerge]
  | a :: u, [] => by simp [lmerge]
  | a :: u, b :: v => by
    rw [lmerge]
    split_ifs
    · rw [List.mem_cons, mem_lmerge x (a :: u) v]; simp only [List.mem_cons]; tauto
    · rw [List.mem_cons, mem_lmerge x u (b :: v)]; simp only [List.mem_cons]; tauto
  termination_by u v => u.length + v.length

theorem lmerge_sorted : ∀ u v : List ℕ, u.Pairwise (· ≤ ·) → v.Pairwise (· ≤ ·) →
    (lmerge u v).Pairwise (· ≤ ·)
  | [], v, _, hv => by simpa [lmerge] using hv
  | a :: u, [], hu, _ => by simpa [lmerge] using hu
  | a :: u, b :: v, hu, hv => by
    rw [lmerge]
    have hu' := List.pairwise_cons.1 hu
    have hv' := List.pairwise_cons.1 hv
    split_ifs with h
    · refine List.pairwise_cons.2 ⟨fun x hx => ?_, lmerge_sorted (a :: u) v hu hv'.2⟩
      rw [mem_lmerge, List.mem_cons] at hx
      rcases hx with (rfl | hx) | hx
      · omega
      · have := hu'.1 x hx; omega
      · exact hv'.1 x hx
    · refine List.pairwise_cons.2 ⟨fun x hx => ?_, lmerge_sorted u (b :: v) hu'.2 hv⟩
      rw [mem_lmerge, List.mem_cons] at hx
      rcases hx with hx | rfl | hx
      · exact hu'.1 x hx
      · omega
      · have := hv'.1 x hx; omega
  termination_by u v => u.length + v.length

theorem mem_luniq (x : ℕ) : ∀ l : List ℕ, x ∈ luniq l ↔ x ∈ l
  | [] => by simp [luniq]
  | [a] => by simp [luniq]
  | a :: b :: l => by
    rw [luniq]
    split_ifs with h
    · rw [mem_luniq x (a :: l)]; subst h; simp
    · rw [List.mem_cons, mem_luniq x (b :: l)]; simp
  termination_by l => l.length

theorem luniq_sorted : ∀ l : List ℕ, l.Pairwise (· ≤ ·) → (luniq l).Pairwise (· < ·)
  | [], _ => by simp [luniq]
  | [a], _ => by simp [luniq]
  | a :: b :: l, h => by
    have h1 := List.pairwise_cons.1 h
    have h2 := List.pairwise_cons.1 h1.2
    rw [luniq]
    split_ifs with he
    · exact luniq_sorted (a :: l) (List.pairwise_cons.2 ⟨fun x hx => h1.1 x (List.mem_cons_of_mem _ hx), h2.2⟩)
    · refine List.pairwise_cons.2 ⟨fun x hx => ?_, luniq_sorted (b :: l) h1.2⟩
      rw [mem_luniq, List.mem_cons] at hx
      have hab := h1.1 b (by simp)
      rcases hx with rfl | hx
      · omega
      · have := h2.1 x hx; omega
  termination_by l => l.length

/-- `add_to_pattern` computes the union. -/
theorem mem_addTo (x : ℕ) (u v : List ℕ) : x ∈ addTo u v ↔ x ∈ u ∨ x ∈ v := by
  unfold addTo
  split_ifs with h h2
  · rw [mem_luniq, mem_lmerge]
  · rw [not_not] at h2; simp [h2]
  · rw [not_not] at h; simp [h]

theorem addTo_sorted {u v : List ℕ} (hu : u.Pairwise (· < ·)) (hv : v.Pairwise (· < ·)) :
    (addTo u v).Pairwise (· < ·) := by
  unfold addTo
  split_ifs
  · exact luniq_sorted _ (lmerge_sorted _ _ (hu.imp fun h => h.le) (hv.imp fun h => h.le))
  · exact hu
  · exact hu

theorem mem_addTo_nil (x : ℕ) (v : List ℕ) : x ∈ addTo [] v ↔ x ∈ v := by simp [mem_addTo]

/-! ### Values and sortedness -/

theorem Un.irun_val (f : Un) (a : IObj) : (f.irun a).val = f.val a.val := by
  cases f <;> simp only [Un.irun, Un.val, iDPow]
  case fmaxD v =>
    split_ifs with h
    · exact (max_of_sub.1 h).symm
    · exact (max_of_sub.2 h).symm
  case dFmax v =>
    split_ifs with h h2
    · exact (max_of_sub.1 h).symm
    · exact (max_of_sub.2 h).symm
    · exact (max_of_sub.2 h).symm
  case fminD v =>
    split_ifs with h h2
    · exact (min_of_sub.1 h).symm
    · exact (min_of_sub.2 h).symm
    · exact (min_of_sub.2 h).symm
  case dFmin v =>
    split_ifs with h
    · exact (min_of_sub.1 h).symm
    · exact (min_of_sub.2 h).symm

theorem Bin.irun_val (f : Bin) (a b : IObj) : (f.irun a b).val = f.val a.val b.val := by
  cases f <;> simp only [Bin.irun, Bin.val, iMul, iDPow]
  case fmax =>
    split_ifs with h h2
    · exact (max_of_sub.1 h).symm
    · exact (max_of_sub.2 h).symm
    · exact (max_of_sub.2 h).symm
  case fmin =>
    split_ifs with h h2
    · exact (min_of_sub.1 h).symm
    · exact (min_of_sub.2 h).symm
    · exact (min_of_sub.2 h).symm

theorem Expr.irun_val (s : IStore) (v : Env) (h : ∀ o, (s o).val = v o) (e : Expr) :
    (e.irun s).val = e.val v := by
  induction e with
  | var a => exact h a
  | lit x => rfl
  | un f e ih => rw [Expr.irun, Un.irun_val, ih, Expr.val]
  | bin f e₁ e₂ ih₁ ih₂ => rw [Expr.irun, Bin.irun_val, ih₁, ih₂, Expr.val]

theorem iSetA_apply (d a : ℕ) (s : IStore) (o : ℕ) :
    iSetA d a s o = if o = d then ⟨(s a).val, if a = d then [] else addTo [] (s a).pat⟩ else s o := by
  by_cases hd : o = d
  · subst hd
    by_cases ha : a = o
    · subst ha
      by_cases hp : (s a).pat = []
      · simp [iSetA, IStore.set, hp, addTo]
      · simp [iSetA, IStore.set, hp, addTo]
    · by_cases hp : (s o).pat = []
      · simp [iSetA, IStore.set, hp, ha]
      · simp [iSetA, IStore.set, hp, ha]
  · by_cases hp : (s d).pat = []
    · simp [iSetA, IStore.set, hp, hd]
    · simp [iSetA, IStore.set, hp, hd]

theorem iAccD_apply (f : Acc) (d : ℕ) (v : ℝ) (s : IStore) (o : ℕ) :
    iAccD f d v s o = if o = d then ⟨f.val (s d).val v, (s d).pat⟩ else s o := by
  cases f <;> by_cases hd : o = d <;> simp [iAccD, IStore.set, hd, Acc.val]

theorem iAccA_apply (f : Acc) (d a : ℕ) (s : IStore) (o : ℕ) :
    iAccA f d a s o = if o = d then ⟨f.val (s d).val (s a).val, addTo (s d).pat (s a).pat⟩ else s o := by
  cases f <;> by_cases hd : o = d <;> by_cases ha : a = d <;>
    simp [iAccA, IStore.set, hd, ha, Acc.val]

theorem ipost_apply (s : IStore) (d x : ℕ) (w : ℝ) (o : ℕ) :
    (s.set x ⟨w, (s x).pat⟩).set d ⟨(s x).val, addTo [] ((s.set x ⟨w, (s x).pat⟩) x).pat⟩ o =
      if o = d then ⟨(s x).val, addTo [] (s x).pat⟩ else if o = x then ⟨w, (s x).pat⟩ else s o := by
  simp [IStore.set]

theorem Stmt.irun_val (st : Stmt) (s : IStore) (v : Env) (h : ∀ o, (s o).val = v o) (o : ℕ) :
    (st.irun s o).val = st.val v o := by
  cases st
  case postIncr d x =>
    simp only [Stmt.irun, Stmt.val, Env.set]
    rw [ipost_apply]; split_ifs <;> simp [h]
  case postDecr d x =>
    simp only [Stmt.irun, Stmt.val, Env.set]
    rw [ipost_apply]; split_ifs <;> simp [h]
  case declE d e =>
    simp only [Stmt.irun, Stmt.val, Env.set, IStore.set]
    rw [← Expr.irun_val s v h]; split_ifs <;> simp [h]
  case setA d a => simp only [Stmt.irun, Stmt.val, Env.set, iSetA_apply]; split_ifs <;> simp [h]
  case accD f d x => simp only [Stmt.irun, Stmt.val, Env.set, iAccD_apply]; split_ifs <;> simp [h]
  case accA f d a => simp only [Stmt.irun, Stmt.val, Env.set, iAccA_apply]; split_ifs <;> simp [h]
  case cond d q a b =>
    simp only [Stmt.irun, Stmt.val, Env.set, h q, gt_iff_lt]
    split_ifs <;> simp_all [iSetA_apply]
  case condS d q a =>
    simp only [Stmt.irun, Stmt.val, Env.set, h q, gt_iff_lt]
    split_ifs <;> simp_all [iSetA_apply]
  case condEq d q a b =>
    simp only [Stmt.irun, Stmt.val, Env.set, h q, ge_iff_le]
    split_ifs <;> simp_all [iSetA_apply]
  case condEqS d q a =>
    simp only [Stmt.irun, Stmt.val, Env.set, h q, ge_iff_le]
    split_ifs <;> simp_all [iSetA_apply]
  all_goals simp only [Stmt.irun, Stmt.val, Env.set, IStore.set]; split_ifs <;> simp [h]

theorem Opd.iprim_eq (s : IStore) (v : Env) (h : ∀ o, (s o).val = v o) (l : Opd) : l.iprim s = l.val v := by
  cases l <;> simp [Opd.iprim, Opd.val, h]

theorem Prog.irun_val (p : Prog) : ∀ (s : IStore) (v : Env), (∀ o, (s o).val = v o) →
    ∀ o, (p.irun s o).val = p.val v o := by
  induction p with
  | done => intro s v h o; exact h o
  | stmt st p ih => intro s v h o; exact ih _ _ (Stmt.irun_val st s v h) o
  | branch f l r t e iht ihe =>
    intro s v h o
    simp only [Prog.irun, Prog.val]
    rw [Opd.iprim_eq s v h l, Opd.iprim_eq s v h r]
    by_cases hb : f.holds (l.val v) (r.val v)
    · rw [if_pos hb, if_pos hb]; exact iht s v h o
    · rw [if_neg hb, if_neg hb]; exact ihe s v h o

theorem Un.irun_sorted (f : Un) {a : IObj} (h : a.pat.Pairwise (· < ·)) :
    (f.irun a).pat.Pairwise (· < ·) := by
  have hn : ([] : List ℕ).Pairwise (· < ·) := List.Pairwise.nil
  cases f <;> simp only [Un.irun, iDPow] <;> (try split_ifs) <;>
    first
    | exact hn
    | exact addTo_sorted hn h
    | exact addTo_sorted (addTo_sorted hn (addTo_sorted hn h)) h

theorem Bin.irun_sorted (f : Bin) {a b : IObj} (h : a.pat.Pairwise (· < ·)) (h' : b.pat.Pairwise (· < ·)) :
    (f.irun a b).pat.Pairwise (· < ·) := by
  have hn : ([] : List ℕ).Pairwise (· < ·) := List.Pairwise.nil
  cases f <;> simp only [Bin.irun, iMul, iDPow] <;> (try split_ifs) <;>
    first
    | exact addTo_sorted hn h
    | exact addTo_sorted hn h'
    | exact addTo_sorted (addTo_sorted hn h) h'
    | exact addTo_sorted (addTo_sorted (addTo_sorted (addTo_sorted hn h) (addTo_sorted hn h')) h) h'

theorem Expr.irun_sorted {s : IStore} (h : ∀ o, (s o).pat.Pairwise (· < ·)) (e : Expr) :
    (e.irun s).pat.Pairwise (· < ·) := by
  induction e with
  | var a => exact h a
  | lit x => exact List.Pairwise.nil
  | un f e ih => exact Un.irun_sorted f ih
  | bin f e₁ e₂ ih₁ ih₂ => exact Bin.irun_sorted f ih₁ ih₂

theorem iSetA_sorted {s : IStore} (h : ∀ o, (s o).pat.Pairwise (· < ·)) (d a o : ℕ) :
    (iSetA d a s o).pat.Pairwise (· < ·) := by
  rw [iSetA_apply]
  split_ifs
  · exact List.Pairwise.nil
  · exact addTo_sorted List.Pairwise.nil (h a)
  · exact h o

theorem Stmt.irun_sorted {s : IStore} (h : ∀ o, (s o).pat.Pairwise (· < ·)) (st : Stmt) (o : ℕ) :
    (st.irun s o).pat.Pairwise (· < ·) := by
  have hn : ([] : List ℕ).Pairwise (· < ·) := List.Pairwise.nil
  cases st
  case declE d e =>
    simp only [Stmt.irun, IStore.set]
    split_ifs
    · exact addTo_sorted hn (Expr.irun_sorted h e)
    · exact h o
  case postIncr d x =>
    simp only [Stmt.irun]; rw [ipost_apply]
    split_ifs
    · exact addTo_sorted hn (h x)
    · exact h x
    · exact h o
  case postDecr d x =>
    simp only [Stmt.irun]; rw [ipost_apply]
    split_ifs
    · exact addTo_sorted hn (h x)
    · exact h x
    · exact h o
  case setA d a => exact iSetA_sorted h d a o
  case accD f d x =>
    simp only [Stmt.irun, iAccD_apply]; split_ifs
    · exact h d
    · exact h o
  case accA f d a =>
    simp only [Stmt.irun, iAccA_apply]; split_ifs
    · exact addTo_sorted (h d) (h a)
    · exact h o
  case cond d q a b => simp only [Stmt.irun]; split_ifs <;> exact iSetA_sorted h _ _ o
  case condEq d q a b => simp only [Stmt.irun]; split_ifs <;> exact iSetA_sorted h _ _ o
  case condS d q a =>
    simp only [Stmt.irun]; split_ifs
    · exact iSetA_sorted h _ _ o
    · exact h o
  case condEqS d q a =>
    simp only [Stmt.irun]; split_ifs
    · exact iSetA_sorted h _ _ o
    · exact h o
  all_goals
    simp only [Stmt.irun, IStore.set]; split_ifs
    · first | exact hn | exact h _
    · exact h o

theorem Prog.irun_sorted (p : Prog) : ∀ {s : IStore}, (∀ o, (s o).pat.Pairwise (· < ·)) →
    ∀ o, (p.irun s o).pat.Pairwise (· < ·) := by
  induction p with
  | done => intro s h o; exact h o
  | stmt st p ih => intro s h o; exact ih (Stmt.irun_sorted h st) o
  | branch f l r t e iht ihe =>
    intro s h o
    simp only [Prog.irun]
    split_ifs
    · exact iht h o
    · exact ihe h o

end Verif.TL
