import Verif.AD.Counts
import Verif.AD.ZosFos
import Verif.Props.AD

/-!
C39.  The numbers of independents and dependents stored with a trace are the numbers of `<<=` and `>>=`
executed, so that sweeps called with these numbers are accepted, and only these.
-/
set_option linter.all false
namespace Verif.Props.Counts
open Verif.AD Verif.Props.AD

section
variable {K : Type} [Scalar K] {cfg : RCfg K} {stock : List (Nat × List K)} {s s' : Rec K} {p : Prog K} {N : Nat}

theorem zos_counts {c : Cfg K} {ops : List (Base K)} {T0 : Nat → K} {z : ZS K} (h : zosRun c ops (ZS.start T0) = .ok z) :
    z.ii = numInd ops ∧ z.y.length = numDep ops := by
  have hs : SameZ (FS.start T0) (ZS.start T0) := ⟨rfl, rfl, rfl, rfl, le_refl _⟩
  have hr := fos_zos_run c (fun _ => 0) ops hs
  rw [h] at hr
  cases hf : fosRun c (fun _ => 0) ops (FS.start T0) with
  | error e => simp [hf, ExRel] at hr
  | ok sf =>
    rw [hf] at hr
    obtain ⟨h1, h2, h3⟩ := fos_ii_le hf
    have hr' : SameZ sf z := hr
    rw [← hr'.ii, ← hr'.y, h1, h3]
    simp [FS.start]

/-- C39, programs without vector operations.  If a run of the program on plain numbers, taking the branches taken
while taping, reads `e.ii` inputs and produces the outputs `e.ys`, then a sweep is accepted exactly for
`m = e.ys.length` dependents and `n = e.ii` independents. -/
theorem C39_counts_partial (h : Traced cfg stock s p s' N) (x par : Nat → K) {e : SE K}
    (hspec : p.spec x par s.se = some (e, p.path cfg s)) (m n : Nat) :
    accepts (s'.tape N) m n ↔ m = e.ys.length ∧ n = e.ii := by
  rcases recorded_forward h.alloc p h.start h.recorded (fun _ => 0) ⟨x, par, false⟩ N with
    ⟨e', z, h1, h2, h3, h4⟩ | ⟨h1, h2⟩
  · rw [hspec] at h1; cases h1
    have hz := zos_counts h2
    have hv : ((s'.tape N).map Base.extraDep).sum = 0 := by
      rw [List.sum_eq_zero_iff]
      intro k hk
      obtain ⟨o, ho, rfl⟩ := List.mem_map.1 hk
      exact Verif.Sparse.emits_tape h.alloc (P := Base.noExtra) (fun _ _ => rfl) (fun _ _ => rfl) (fun _ _ => rfl) p
        (allStmts_noExtra p) h.start h.recorded N o ho
    obtain ⟨k1, k2⟩ := stats_eq (s'.tape N)
    unfold accepts
    rw [k1, k2, hv, ← h3, ← h4, hz.1, hz.2]
    simp [ZS.start]
  · exact absurd rfl (h2 e _ hspec)

/-- Any trace: the vector operations are counted as dependents, a dot product of size `n` as `2n` of them, an axpy
of size `n` as `2n - 1`. -/
theorem C39_vector_operations (ops : List (Base K)) (m n : Nat) :
    accepts ops m n ↔ m = ops.countP (fun o => o.nDep == 1) + (ops.map Base.extraDep).sum ∧
      n = ops.countP (fun o => o.nInd == 1) := by
  obtain ⟨k1, k2⟩ := stats_eq ops
  have e1 : numDep ops = ops.countP (fun o => o.nDep == 1) := by
    induction ops with
    | nil => rfl
    | cons o os ih =>
      rw [List.countP_cons]
      have := ih (stats_eq os).1 (stats_eq os).2
      simp only [numDep, List.map_cons, List.sum_cons] at this ⊢
      rw [this]
      cases o <;> simp [Base.nDep] <;> omega
  have e2 : numInd ops = ops.countP (fun o => o.nInd == 1) := by
    clear e1 k1 k2
    induction ops with
    | nil => rfl
    | cons o os ih =>
      rw [List.countP_cons]
      simp only [numInd, List.map_cons, List.sum_cons] at ih ⊢
      rw [ih]
      cases o <;> simp [Base.nInd] <;> omega
  unfold accepts
  rw [k1, k2, e1, e2]

/-- Whether an operation is `+=` or `-=` of a product. -/
def isEqProd (o : Base K) : Bool :=
  match o with
  | .eqPlusProd _ _ _ => true
  | .eqMinProd _ _ _ => true
  | _ => false

/-- The third number stored with a trace is the number of `+=` and `-=` of a product in it. -/
theorem C39_eq_products (ops : List (Base K)) : (stats ops).eqProd = ops.countP isEqProd := by
  have key : ∀ (ops : List (Base K)) (s : Stats), (ops.foldl Stats.count s).eqProd = s.eqProd + ops.countP isEqProd := by
    intro ops
    induction ops with
    | nil => intro s; simp
    | cons o os ih =>
      intro s
      rw [List.foldl_cons, ih, List.countP_cons]
      cases o <;> simp [Stats.count, isEqProd] <;> omega
  rw [stats, key, Nat.zero_add]

example : (stats ([Base.assignInd 0, .eqPlusProd 0 0 1, .eqMinProd 0 0 1, .assignDep 1] : List (Base K))).eqProd = 2 := by
  rw [C39_eq_products]; rfl

/-- A function of `2n` inputs with one output, the dot product of its two halves (`n ≥ 1`): no sweep called with the true
numbers is accepted. -/
theorem C39_dot_product_rejected (n : Nat) (hn : 0 < n) :
    ¬ accepts ((List.range (2 * n)).map Base.assignInd ++
      [Base.vecDot 0 n n (2 * n), Base.assignDep (2 * n)] : List (Base K)) 1 (2 * n) := by
  rw [C39_vector_operations]
  intro h
  have h1 := h.1
  simp [Base.extraDep, Base.nDep, List.countP_append] at h1
  omega

end

/-- The hypotheses of `C39_counts_partial` are met by the demo program (two inputs, branches). -/
example : ∃ s' e, Traced demoCfg [] demoStart demo s' (s'.hw + 1) ∧
    demo.spec demoCfg.x demoCfg.par demoStart.se = some (e, demo.path demoCfg demoStart) ∧ e.ii = 2 := by
  obtain ⟨e, h1, h2, h3⟩ := demo_spec demoCfg.x demoCfg.par (by simp only [demoCfg]; positivity)
  obtain ⟨s', h4, h5⟩ := traced_exists (stock := []) demo_alloc demo_start
    (by simp [demo, Prog.noFminLL, Stmt.notFminLL]) h1
  exact ⟨s', e, h4, by rw [h5]; exact h1, by assumption⟩

end Verif.Props.Counts
