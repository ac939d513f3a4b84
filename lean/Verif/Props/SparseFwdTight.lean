import Verif.Sparse.FwdTightDriver
import Verif.Props.SparseRev
/-!
Property C20, tight mode, forward direction.  Reading guide: `jacPatFwdTight m n c G tape` is
`jac_pat<BitPattern, Tight, Forward>` for a trace with `m` dependents and `n` independents at the point `c.x` with the parameters
`c.par`; `G` is what the value buffer contains behind the recorded values.
-/
set_option linter.all false
namespace Verif.Props.Sparse
open Verif.AD Verif.Sparse Verif.Props.AD

section
variable {K : Type} [Scalar K]

theorem emits_noRef (st : Stmt K) : emits (fun o => ∀ r k, o ≠ .setRef r k) st := by
  cases st <;> simp only [emits]
  case bin f lv a b d =>
    intro v w la lb ld _ _
    cases f <;> simp [Bin.op]
  case accD f d c => cases f <;> simp [Acc.opD]
  case accA f d a => cases f <;> simp [Acc.opA]
  case accR m d a => cases m <;> simp [Acc.opA]
  case un f a d =>
    intro v a r hda
    cases f <;> simp only [Un.op, opPlusD, opMinD, opMultD] <;> (try split_ifs) <;> simp
  case trig co a b d => cases co <;> simp
  case newD d c => intro r; simp only [opAssignD]; split_ifs <;> simp
  case setD d c => intro r; simp only [opAssignD]; split_ifs <;> simp
  all_goals first | trivial | simp

/-- Not a conditional assignment. -/
def noCondStmt : Stmt K → Prop
  | .cond _ _ _ _ | .condEq _ _ _ _ | .condS _ _ _ | .condEqS _ _ _ => False
  | _ => True

theorem emits_noCond {st : Stmt K} (h : noCondStmt st) : emits (fun o => ¬ Base.isCond o) st := by
  cases st <;> simp only [emits, noCondStmt] at h ⊢
  case bin f lv a b d =>
    intro v w la lb ld _ _
    cases f <;> simp [Bin.op, Base.isCond]
  case accD f d c => cases f <;> simp [Acc.opD, Base.isCond]
  case accA f d a => cases f <;> simp [Acc.opA, Base.isCond]
  case accR m d a => cases m <;> simp [Acc.opA, Base.isCond]
  case un f a d =>
    intro v a r hda
    cases f <;> simp only [Un.op, opPlusD, opMinD, opMultD] <;> (try split_ifs) <;> simp [Base.isCond]
  case trig co a b d => cases co <;> simp [Base.isCond]
  case newD d c => intro r; simp only [opAssignD]; split_ifs <;> simp [Base.isCond]
  case setD d c => intro r; simp only [opAssignD]; split_ifs <;> simp [Base.isCond]
  all_goals first | trivial | simp [Base.isCond]

theorem allStmts_mono {P Q : Stmt K → Prop} (hPQ : ∀ st, P st → Q st) : ∀ p : Prog K, allStmts P p → allStmts Q p := by
  intro p hp
  induction p with
  | done => trivial
  | stmt st k ih => exact ⟨hPQ _ hp.1, ih hp.2⟩
  | branch q a t f iht ihf => exact ⟨iht hp.1, ihf hp.2⟩

theorem allStmts_all {P : Stmt K → Prop} (hP : ∀ st, P st) : ∀ p : Prog K, allStmts P p := by
  intro p
  induction p with
  | done => trivial
  | stmt st k ih => exact ⟨hP _, ih⟩
  | branch q a t f iht ihf => exact ⟨iht, ihf⟩

variable {cfg : RCfg K} {stock : List (Nat × List K)} {s s' : Rec K} {p : Prog K} {N : Nat}

/-- `fwdTightOk` holds for every program without conditional assignments. -/
theorem fwdTightOk_program (h : Traced cfg stock s p s' N) (hp : allStmts noCondStmt p) : fwdTightOk (s'.tape N) :=
  ⟨s'.tape N, [], by simp, emits_tape h.alloc (P := fun o : Base K => ¬ Base.isCond o) (by simp [Base.isCond])
    (by simp [Base.isCond]) (by simp [Base.isCond]) p (allStmts_mono (fun st => emits_noCond) p hp) h.start h.recorded N,
    by simp⟩
end

section real
variable {cfg : RCfg ℝ} {stock : List (Nat × List ℝ)} {s s' : Rec ℝ} {p : Prog ℝ} {N : Nat}

/-- C20 (bit pattern, tight mode, forward direction; partial: up to 1920 independents, no constant that enters the values
recorded after a conditional assignment, `fwdTightOk`).  At every point `x0` on the recorded path where the elementary functions
are differentiable, `jac_pat` succeeds; every row is a null pointer or its count followed by strictly increasing column
numbers below `n`; and the rows list every entry of the Jacobian that does not vanish at `x0`. -/
theorem C20_bits_forward_tight_partial (h : Traced cfg stock s p s' N) {n : Nat} (hn : n ≤ 1920)
    (hp : fwdTightOk (s'.tape N)) (G : Nat → ℝ) (par : Nat → ℝ) (x0 : Fin n → ℝ) (e0 : SE ℝ)
    (hspec : p.spec (ext x0) par s.se = some (e0, p.path cfg s)) (hsm : p.smooth .fwd (ext x0) par s.se) :
    ∃ cols : Nat → List Nat,
      jacPatFwdTight e0.ys.length n ⟨ext x0, par, false⟩ G (s'.tape N) =
        .ok ((List.range e0.ys.length).map fun j => if cols j = [] then none else some ((cols j).length :: cols j)) ∧
      (∀ j, (cols j).Pairwise (· < ·) ∧ ∀ i ∈ cols j, i < n) ∧
      ∀ j < e0.ys.length, ∀ D : (Fin n → ℝ) →L[ℝ] ℝ,
        HasFDerivAt (fun x => p.out (ext x) par s.se j) D x0 →
        ∀ i : Fin n, D (Pi.single i 1) ≠ 0 → (i : Nat) ∈ cols j := by
  have hns := emits_tape h.alloc (P := fun o : Base ℝ => ∀ r k, o ≠ .setRef r k) (by simp) (by simp) (by simp) p
    (allStmts_all emits_noRef p) h.start h.recorded N
  obtain ⟨_, hcnt⟩ := counts_of_spec h _ par hspec
  obtain ⟨z, hz, _⟩ := C09_zos_forward h (ext x0) par false hspec
  have hb : batches n = 1 := by
    unfold batches; rw [if_pos]; unfold wordsFull; split_ifs <;> omega
  have hsmooth := recorded_smooth h.alloc p h.start h.recorded (fun _ => 0) ⟨ext x0, par, false⟩ hspec hsm N
  have hok : Along (fun o T => powOk o T ∧ minOk o T) ⟨ext x0, par, false⟩ (s'.tape N) ZS.init := by
    refine Along_mono (fun o T ho => ⟨?_, ?_⟩) hsmooth
    · unfold powOk
      cases o <;> try trivial
      rename_i a r k
      intro hT
      have := ho.1
      simp only [smooth, hT] at this
      rcases this with h | ⟨h, _⟩ | ⟨_, h⟩
      · exact absurd h (lt_irrefl _)
      · exact absurd h (lt_irrefl _)
      · exact h
    · unfold minOk
      cases o <;> try trivial
      exact ho.1
  have hreads := reads_stream hp G
  obtain ⟨t, ht, hlen, _⟩ := ftight_total (p := wordsPerBatch n) (X := createSeed n 0) (s := TFS.init) hreads
    (⟨rfl, rfl, rfl, rfl⟩ : EqV (TFS.init : TFS ℝ).z ZS.init) hz
  have hlen' : t.b.Y.length = e0.ys.length := by rw [hlen, hcnt]; simp [TFS.init, BS.init]
  refine ⟨fun j => rowCols n (fun _ => t.b) j 1, jacPatTight_crs hb ht hlen',
    fun j => ⟨rowCols_sorted _ _, fun i hi => tightCols_lt ht hi⟩, fun j hj D hDj i hne => ?_⟩
  obtain ⟨D0, hD, hf⟩ := C11_fos_forward_partial h par false x0 hspec hsm
  obtain ⟨f, f1, _, f2, f3⟩ := hf (Pi.single i 1)
  have hpos : 0 < bitsPerStrip n := bitsPerStrip_pos (Nat.lt_of_le_of_lt (Nat.zero_le _) i.2)
  have hmod := Nat.mod_lt (i : Nat) hpos
  have hstrip : (i : Nat) / bitsPerStrip n = 0 := Nat.lt_one_iff.1 (hb ▸ strip_lt i.2)
  have hcov := ftight_covers (l := i % bitsPerStrip n / 64) (b := 63 - i % bitsPerStrip n % 64)
    (X := createSeed n 0) (v := ext (Pi.single i 1)) (z := ZS.init)
    (by unfold bitsPerStrip at hmod ⊢; omega) (by
      intro i' hbit
      by_contra hne
      have hii : i' = i := by
        unfold ext at hne
        split_ifs at hne with hlt
        · by_contra hh
          apply hne
          rw [Pi.single_eq_of_ne]
          intro h; apply hh; rw [← h]
        · exact absurd rfl hne
      rw [← Bool.not_eq_true, createSeed_bit, hii] at hbit
      apply hbit
      have := Nat.div_add_mod (i : Nat) (bitsPerStrip n)
      rw [hstrip] at this
      have hi := i.2
      refine ⟨?_, ?_, ?_, ?_, ?_⟩ <;> first | exact hi | omega) hns
    (s := TFS.init) ⟨fun a _ => rfl, rfl, rfl, by simp [TFS.init, BS.init]⟩ ⟨rfl, rfl, rfl, rfl⟩
    ⟨rfl, rfl, rfl, rfl, le_refl _⟩ hok hreads ht f1
  rw [hDj.unique (hD j), ← f3] at hne
  have := mem_rowCols (n := n) (S := fun _ => t.b) (j := j) (i := i) i.2
  rw [hb] at this
  rw [this]
  by_contra hbit
  rw [Bool.not_eq_true] at hbit
  have hlt : j < t.b.Y.length := by rw [hlen']; exact hj
  rw [List.getElem?_eq_getElem hlt, Option.getD_some] at hbit
  have := hcov.out j _ (List.getElem?_eq_getElem hlt) hbit
  rw [this] at hne
  exact hne rfl

end real

/-- The hypotheses are met by the demo program. -/
example : allStmts noCondStmt demo := by simp [demo, allStmts, noCondStmt]

/-! ### Where the code deviates -/

/-- `condassign(m, x0, x0, x1); a = x0 * 3; y = fmin(a, x1)`. -/
noncomputable def condTight : List (Base ℝ) :=
  [.assignInd 0, .assignInd 1, .condAssign 0 0 1 2 1, .multDA 0 3 3, .minOp 3 1 4 1, .assignDep 4, .deathNot 0 4]

/-- C20 fails in tight mode, forward direction, when an operation with a constant follows a conditional assignment: at
`x = (1, 2)` the derivative of `condTight` (`y = fmin(3 x0, x1)`) with respect to `x1` is 1, but the pattern is `{0}`: the conditional
assignment reads two values although one is recorded (uni5_for.cpp:4142), so that `3 x0` is computed with the value
of the operation after it. -/
theorem C20_forward_tight_condassign (G : Nat → ℝ) :
    jacPatFwdTight 1 2 ⟨fun i => if i = 0 then (1 : ℝ) else 2, fun _ => 0, false⟩ G condTight = .ok [some [1, 0]] ∧
    ∃ f, fosRun ⟨fun i => if i = 0 then (1 : ℝ) else 2, fun _ => 0, false⟩ (fun i => if i = 1 then 1 else 0) condTight FS.init = .ok f ∧
      f.dy = [1] := by
  constructor
  · have hb : batches 2 = 1 := by decide
    have hp : wordsPerBatch 2 = 1 := by decide
    have hbp : bitsPerStrip 2 = 64 := by decide
    have hc0 : createSeed 2 0 0 0 = msb := by decide +kernel
    obtain ⟨t, y, ht, hY, hy⟩ : ∃ t y, fwdTightRun 1 (createSeed 2 0) ⟨fun i => if i = 0 then (1 : ℝ) else 2, fun _ => 0, false⟩
        (stream condTight G) condTight TFS.init = .ok t ∧ t.b.Y = [y] ∧ y 0 = msb := by
      simp [fwdTightRun, fwdTightStep, tightBits, safeStep, zosStep, condTight, stream, Base.vals, Verif.Sparse.Base.withVals, Verif.Sparse.Base.reads, TFS.init,
        BS.init, ZS.init, ZS.push, ZS.set, ZS.dec, BS.row, upd_apply, List.range_succ, hc0]
    unfold jacPatFwdTight
    rw [hb]
    have hscan : (List.range 64).filter (scan 64 y) = [0] := by
      rw [List.filter_congr (q := fun i => msb.getLsbD (63 - i % 64))]
      · decide +kernel
      · intro i hi
        have hi := List.mem_range.1 hi
        rw [scan_eq, show i / 64 = 0 by omega, hy]
        simp [hi]
    simp [stripFwdTight, hp, ht, hY, hbp, extractRows, extractFwd, hscan]
  · norm_num [fosRun, fosStep, condTight, FS.init, FS.set, FS.push, FS.setD, upd_apply, FS.dec]

end Verif.Props.Sparse
