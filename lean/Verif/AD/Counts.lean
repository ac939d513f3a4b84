import Verif.AD.RecordFull
import Verif.Sparse.Program

/-!
# The numbers stored with a trace

`numInds`, `numDeps`, `num_eq_prod` of a tape (valuetape/tapeinfos.h:57-62) are zero when taping starts
(`initTapeInfos_keep`, valuetape.cpp:43) and are changed while operations are recorded; `stop_trace` stores
them with the trace (valuetape.cpp:365-368).
-/
set_option linter.all false
namespace Verif.AD

variable {K : Type} [Scalar K]

/-- `NUM_INDEPENDENTS`, `NUM_DEPENDENTS`, `NUM_EQ_PROD`. -/
structure Stats where
  inds : Nat
  deps : Nat
  eqProd : Nat
  deriving DecidableEq, Repr

/-- What recording one operation adds: `<<=` adouble.cpp:780, 838; `>>=` adouble.cpp:825, 877; `+=`/`-=` of a
product adouble.cpp:321, 465; `adolc_vec_dot` and `adolc_vec_axpy` call `add_num_eq_prod` (adouble.cpp:5601,
5635), which adds to `numDeps` (valuetape.h:251). -/
def Stats.count (s : Stats) (o : Base K) : Stats :=
  match o with
  | .assignInd _ => { s with inds := s.inds + 1 }
  | .assignDep _ => { s with deps := s.deps + 1 }
  | .eqPlusProd _ _ _ | .eqMinProd _ _ _ => { s with eqProd := s.eqProd + 1 }
  | .vecDot _ _ n _ => { s with deps := s.deps + 2 * n }
  | .vecAxpy _ _ _ n _ => { s with deps := s.deps + (2 * n - 1) }
  | _ => s

/-- The numbers stored with a trace. -/
def stats (ops : List (Base K)) : Stats := ops.foldl Stats.count ⟨0, 0, 0⟩

/-- The check at the beginning of every forward and reverse sweep (uni5_for.cpp:1096-1107,
fo_rev.cpp:449-460, ho_rev.cpp): called with `m` dependents and `n` independents. -/
def accepts (ops : List (Base K)) (m n : Nat) : Prop := m = (stats ops).deps ∧ n = (stats ops).inds

/-- What the two vector operations add to the number of dependents. -/
def Base.extraDep (o : Base K) : Nat :=
  match o with
  | .vecDot _ _ n _ => 2 * n
  | .vecAxpy _ _ _ n _ => 2 * n - 1
  | _ => 0

theorem stats_aux (ops : List (Base K)) (s : Stats) :
    (ops.foldl Stats.count s).inds = s.inds + numInd ops ∧
    (ops.foldl Stats.count s).deps = s.deps + numDep ops + (ops.map Base.extraDep).sum := by
  induction ops generalizing s with
  | nil => simp [numInd, numDep]
  | cons o os ih =>
    obtain ⟨h1, h2⟩ := ih (s.count o)
    simp only [List.foldl_cons, numInd, numDep, List.map_cons, List.sum_cons] at h1 h2 ⊢
    rw [h1, h2]
    cases o <;> simp only [Stats.count, Base.nInd, Base.nDep, Base.extraDep] <;> omega

theorem stats_eq (ops : List (Base K)) :
    (stats ops).inds = numInd ops ∧ (stats ops).deps = numDep ops + (ops.map Base.extraDep).sum := by
  obtain ⟨h1, h2⟩ := stats_aux ops ⟨0, 0, 0⟩
  exact ⟨by rw [stats, h1, Nat.zero_add], by rw [stats, h2, Nat.zero_add]⟩

/-- Not one of the two vector operations. -/
def Base.noExtra (o : Base K) : Prop := o.extraDep = 0

theorem emits_noExtra (st : Stmt K) : Verif.Sparse.emits (Base.noExtra (K := K)) st := by
  cases st <;> simp only [Verif.Sparse.emits, Base.noExtra]
  case accR m a b => intros; cases m <;> exact ⟨rfl, fun _ => rfl⟩
  case un f a d => intro v a r hda; cases f <;> simp only [Un.op, opPlusD, opMinD, opMultD] <;> (try split_ifs) <;> rfl
  case bin f lv a b d => intros; cases f <;> rfl
  all_goals intros
  all_goals try simp only [Base.extraDep, opAssignD]
  all_goals first
    | done
    | (rename_i f _ _ _; cases f <;> rfl)
    | (rename_i f _ _ _ _; cases f <;> rfl)
    | (split_ifs <;> rfl)

theorem allStmts_noExtra (p : Prog K) : Verif.Sparse.allStmts (Verif.Sparse.emits (Base.noExtra (K := K))) p := by
  induction p with
  | done => trivial
  | stmt s k ih => exact ⟨emits_noExtra s, ih⟩
  | branch c a t f h1 h2 => exact ⟨h1, h2⟩

end Verif.AD
