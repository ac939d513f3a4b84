import Verif.Sparse.RevDriver
import Verif.Props.Sparse
import Verif.Props.Counts
/-!
Property C20, reverse direction of the bit pattern drivers.  Reading guide: `jacPatRevSafe m n R0 tape` and
`jacPatRevTight m n R0 c tape` are `jac_pat<BitPattern, Safe | Tight, Reverse>` for a trace with `m` dependents and `n` independents;
`R0` are the contents of freshly allocated memory; row `j` of the result is `some (count :: columns)`.
-/
set_option linter.all false
namespace Verif.Props.Sparse
open Verif.AD Verif.Sparse Verif.Props.AD

/-- Statements for which the reverse bit pattern sweep in safe mode is right: not the two-argument
conditional assignments (`C20_reverse_condassign_s`). -/
def revStmt {K : Type} : Stmt K → Prop
  | .condS _ _ _ | .condEqS _ _ _ => False
  | _ => True

section
variable {K : Type} [Scalar K]

theorem emits_revStmt {st : Stmt K} (h : revStmt st) : emits (fun o => Base.revOk o ∧ ∀ r k, o ≠ .setRef r k) st := by
  cases st <;> simp only [emits, revStmt] at h ⊢
  case bin f lv a b d =>
    intro v w la lb ld _ _
    cases f <;> simp [Bin.op, Base.revOk]
  case accD f d c => cases f <;> simp [Acc.opD, Base.revOk]
  case accA f d a => cases f <;> simp [Acc.opA, Base.revOk]
  case accR m d a => cases m <;> simp [Acc.opA, Base.revOk]
  case un f a d =>
    intro v a r hda
    cases f <;> simp only [Un.op, opPlusD, opMinD, opMultD] <;> (try split_ifs) <;> simp [Base.revOk]
  case trig co a b d => cases co <;> simp [Base.revOk]
  case newD d c => intro r; simp only [opAssignD]; split_ifs <;> simp [Base.revOk]
  case setD d c => intro r; simp only [opAssignD]; split_ifs <;> simp [Base.revOk]
  all_goals first | trivial | simp [Base.revOk]
end

section real
variable {cfg : RCfg ℝ} {stock : List (Nat × List ℝ)} {s s' : Rec ℝ} {p : Prog ℝ} {N : Nat}

theorem counts_of_spec (h : Traced cfg stock s p s' N) (x par : Nat → ℝ) {e : SE ℝ}
    (hspec : p.spec x par s.se = some (e, p.path cfg s)) :
    e.ii = numInd (s'.tape N) ∧ e.ys.length = (s'.tape N).countP isDep := by
  rcases recorded_forward h.alloc p h.start h.recorded (fun _ => 0) ⟨x, par, false⟩ N with
    ⟨e', z, h1, h2, h3, h4⟩ | ⟨h1, h2⟩
  · rw [hspec] at h1; cases h1
    have hz := Verif.Props.Counts.zos_counts h2
    exact ⟨by rw [← h4, hz.1], by rw [← h3, hz.2, numDep_countP]⟩
  · exact absurd rfl (h2 e _ hspec)

theorem single_weight {m : Nat} {j : Nat} (hj : j < m) (f : Nat → ℝ) :
    ∑ j' ∈ Finset.range m, (if j' = j then (1 : ℝ) else 0) * f j' = f j := by
  rw [Finset.sum_eq_single j]
  · simp
  · intro b _ hb; simp [hb]
  · intro h; exact absurd (Finset.mem_range.2 hj) h

/-- C20 (bit pattern, safe mode, reverse direction; any number of independents and dependents; partial: without
the calls excluded by `revStmt`).  `jac_pat` succeeds whatever the initial contents of its work
array; every row is its count followed by strictly increasing column numbers below the number of independents; and
whatever the point `x0` (on the recorded path, where the elementary functions are differentiable) and the
parameters, every entry of the Jacobian that does not vanish there is listed. -/
theorem C20_bits_reverse_safe_partial (h : Traced cfg stock s p s' N) (hd : p.disc ⟨Set.univ, ∅⟩)
    (hp : allStmts revStmt p) (R0 : Nat → Nat → Word) :
    ∃ cols : Nat → List Nat,
      jacPatRevSafe ((s'.tape N).countP isDep) (numInd (s'.tape N)) R0 (s'.tape N) =
        .ok ((List.range ((s'.tape N).countP isDep)).map fun j => some ((cols j).length :: cols j)) ∧
      (∀ j, (cols j).Pairwise (· < ·) ∧ ∀ i ∈ cols j, i < numInd (s'.tape N)) ∧
      ∀ (par : Nat → ℝ) (x0 : Fin (numInd (s'.tape N)) → ℝ) (e0 : SE ℝ),
        p.spec (ext x0) par s.se = some (e0, p.path cfg s) → p.smooth .rev (ext x0) par s.se →
        e0.ys.length = (s'.tape N).countP isDep ∧
        ∀ j < e0.ys.length, ∀ D : (Fin (numInd (s'.tape N)) → ℝ) →L[ℝ] ℝ,
          HasFDerivAt (fun x => p.out (ext x) par s.se j) D x0 →
          ∀ i : Fin (numInd (s'.tape N)), D (Pi.single i 1) ≠ 0 → (i : Nat) ∈ cols j := by
  have hops := emits_tape h.alloc (P := fun o : Base ℝ => Base.revOk o ∧ ∀ r k, o ≠ .setRef r k)
    (by simp [Base.revOk]) (by simp [Base.revOk]) (by simp [Base.revOk]) p
    (by
      have : ∀ p : Prog ℝ, allStmts revStmt p → allStmts (emits (fun o : Base ℝ => Base.revOk o ∧ ∀ r k, o ≠ .setRef r k)) p := by
        intro p hp
        induction p with
        | done => trivial
        | stmt st k ih => exact ⟨emits_revStmt hp.1, ih hp.2⟩
        | branch q a t f iht ihf => exact ⟨iht hp.1, ihf hp.2⟩
      exact this p hp) h.start h.recorded N
  set ops := s'.tape N
  set m := ops.countP isDep with hm
  set n := numInd ops with hn
  obtain ⟨S, hS0, hS⟩ := thread (batches m)
    (fun k (R R' : Nat → Nat → Word) => ∃ b, revSafeRun (wordsPerBatch m) (fun l j => createSeed m k j l) ops (RBS.init n m R) = .ok b ∧ b.R = R')
    (fun k R _ => by
      obtain ⟨b, hb⟩ := revSafe_total (wordsPerBatch m) (fun l j => createSeed m k j l) (fun o ho => (hops o ho).2) (RBS.init n m R)
      exact ⟨b.R, b, hb, rfl⟩) R0
  refine ⟨revCols n m S, ?_, revCols_sorted n m S, ?_⟩
  · obtain ⟨R, hR⟩ := jacPatRev_rows (m := m) (n := n) (R0 := R0) (S := S) (sweep := revSweepSafe m n ops)
      (fun h0 => by obtain ⟨b, hb, hb'⟩ := hS0 h0; simp only [revSweepSafe, hb, hb'])
      (fun k hk => by obtain ⟨b, hb, hb'⟩ := hS k hk; simp only [revSweepSafe, hb, hb'])
    simp only [jacPatRevSafe, hR]
  · intro par x0 e0 hspec hsm
    obtain ⟨c1, c2⟩ := counts_of_spec h _ par hspec
    refine ⟨c2, fun j hj D hDj i hne => ?_⟩
    have hjm : j < m := by rw [hm, ← c2]; exact hj
    rw [mem_revCols i.2]
    by_contra hbit
    rw [Bool.not_eq_true] at hbit
    obtain ⟨z, hz, D0, hD, r, hr, _, hbar⟩ := C13_fos_reverse_partial h hd par x0 hspec c1 hsm
      (fun j' => if j' = j then 1 else 0)
    obtain ⟨R, b, hb, hb'⟩ : ∃ R b, revSafeRun (wordsPerBatch m) (fun l j' => createSeed m (j / bitsPerStrip m) j' l) ops (RBS.init n m R) = .ok b ∧
        b.R = S (j / bitsPerStrip m) := by
      have hlt := strip_lt hjm
      cases hk : j / bitsPerStrip m with
      | zero => exact ⟨_, hS0 (by omega)⟩
      | succ k => exact ⟨_, hS k (by omega)⟩
    have hcov := rcov_run (n := n) (b := 63 - j % bitsPerStrip m % 64) (word_lt hjm)
      (X := fun l j' => createSeed m (j / bitsPerStrip m) j' l) (u := fun j' => if j' = j then (1 : ℝ) else 0)
      (fun j' hj' => if_neg (seed_row hjm hj')) (fun o ho => (hops o ho).1)
      (r := RS.init n e0.ys.length z.stk)
      ⟨fun x _ => rfl, rfl, by simp only [RBS.init, RS.init]; exact c2.symm, fun i h1 h2 => absurd h2 (by simp only [RS.init] at h1; omega)⟩ hb hr
    have hii := revRun_ii hr
    have := hcov.out i (by rw [hii]; simp [RS.init, hn, ops]) i.2 (by rw [hb']; exact hbit)
    rw [hbar i, single_weight hj (fun j => D0 j (Pi.single i 1)), (hD j).unique hDj] at this
    exact hne this

/-- C20 (bit pattern, tight mode, reverse direction; partial: traces with `tightOk`, which `C20_reverse_tight_division`
shows to be necessary).  At a base point `x0` on the recorded path, where the elementary functions are
differentiable, `jac_pat` succeeds whatever the initial contents of its work array, and the rows list every entry of
the Jacobian that does not vanish at `x0`. -/
theorem C20_bits_reverse_tight_partial (h : Traced cfg stock s p s' N) (hd : p.disc ⟨Set.univ, ∅⟩)
    (hp : tightOk (s'.tape N)) (R0 : Nat → Nat → Word) (par : Nat → ℝ) (n : Nat) (x0 : Fin n → ℝ) (e0 : SE ℝ)
    (hspec : p.spec (ext x0) par s.se = some (e0, p.path cfg s)) (hii : e0.ii = n) (hy : 0 < e0.ys.length)
    (hsm : p.smooth .rev (ext x0) par s.se) :
    ∃ cols : Nat → List Nat,
      jacPatRevTight e0.ys.length n R0 ⟨ext x0, par, true⟩ (s'.tape N) =
        .ok ((List.range e0.ys.length).map fun j => some ((cols j).length :: cols j)) ∧
      (∀ j, (cols j).Pairwise (· < ·) ∧ ∀ i ∈ cols j, i < n) ∧
      ∀ j < e0.ys.length, ∀ D : (Fin n → ℝ) →L[ℝ] ℝ,
        HasFDerivAt (fun x => p.out (ext x) par s.se j) D x0 →
        ∀ i : Fin n, D (Pi.single i 1) ≠ 0 → (i : Nat) ∈ cols j := by
  obtain ⟨c1, c2⟩ := counts_of_spec h _ par hspec
  obtain ⟨z, hz, _⟩ := C09_zos_forward h (ext x0) par true hspec
  set ops := s'.tape N
  set m := e0.ys.length with hm
  have key : ∀ R j, j < m → ∃ t, revTightRun (wordsPerBatch m) (fun l j' => createSeed m (j / bitsPerStrip m) j' l) ops (TRS.init n m R z.stk) = .ok t ∧
      ∀ D : (Fin n → ℝ) →L[ℝ] ℝ, HasFDerivAt (fun x => p.out (ext x) par s.se j) D x0 → ∀ i : Fin n, D (Pi.single i 1) ≠ 0 →
        (t.b.R (j % bitsPerStrip m / 64) i).getLsbD (63 - j % bitsPerStrip m % 64) = true := by
    intro R j hj
    obtain ⟨z', hz', D0, hD, r, hr, _, hbar⟩ := C13_fos_reverse_partial h hd par x0 hspec hii hsm
      (fun j' => if j' = j then 1 else 0)
    rw [hz] at hz'; cases hz'
    obtain ⟨t, ht, hcov⟩ := tight_run (n := n) (b := 63 - j % bitsPerStrip m % 64) (word_lt hj)
      (X := fun l j' => createSeed m (j / bitsPerStrip m) j' l)
      (u := fun j' => if j' = j then (1 : ℝ) else 0)
      (fun j' hj' => if_neg (seed_row hj hj')) hp (s := TRS.init n m R z.stk)
      (r := RS.init n m z.stk)
      ⟨fun x _ => rfl, rfl, rfl, fun i h1 h2 => absurd h2 (by simp only [RS.init] at h1; omega)⟩ ⟨rfl, rfl⟩ hr
    refine ⟨t, ht, fun D hDj i hne => ?_⟩
    by_contra hbit
    rw [Bool.not_eq_true] at hbit
    have := hcov.out i (by rw [revRun_ii hr]; simp [RS.init, ops, ← c1, hii]) i.2 hbit
    rw [hbar i, single_weight hj (fun j => D0 j (Pi.single i 1)), (hD j).unique hDj] at this
    exact hne this
  obtain ⟨S, hS0, hS⟩ := thread (batches m)
    (fun k (R R' : Nat → Nat → Word) => ∃ b, revTightRun (wordsPerBatch m) (fun l j => createSeed m k j l) ops (TRS.init n m R z.stk) = .ok b ∧ b.b.R = R')
    (fun k R hk => by
      obtain ⟨j, hj, rfl⟩ : ∃ j, j < m ∧ j / bitsPerStrip m = k := strip_has hy hk
      obtain ⟨b, hb, _⟩ := key R j hj
      exact ⟨b.b.R, b, hb, rfl⟩) R0
  refine ⟨revCols n m S, ?_, revCols_sorted n m S, fun j hj D hDj i hne => ?_⟩
  · obtain ⟨R, hR⟩ := jacPatRev_rows (m := m) (n := n) (R0 := R0) (S := S) (sweep := revSweepTight m n ops z.stk)
      (fun h0 => by obtain ⟨b, hb, hb'⟩ := hS0 h0; simp only [revSweepTight, hb, hb'])
      (fun k hk => by obtain ⟨b, hb, hb'⟩ := hS k hk; simp only [revSweepTight, hb, hb'])
    unfold jacPatRevTight
    simp only [hz, hR]
  · rw [mem_revCols i.2]
    obtain ⟨R, b, hb, hb'⟩ : ∃ R b, revTightRun (wordsPerBatch m) (fun l j' => createSeed m (j / bitsPerStrip m) j' l) ops (TRS.init n m R z.stk) = .ok b ∧
        b.b.R = S (j / bitsPerStrip m) := by
      have hlt := strip_lt hj
      cases hk : j / bitsPerStrip m with
      | zero => exact ⟨_, hS0 (by omega)⟩
      | succ k => exact ⟨_, hS k (by omega)⟩
    obtain ⟨t, ht, hc⟩ := key R j hj
    rw [hb] at ht; cases ht
    rw [← hb']
    exact hc D hDj i hne

end real

section
variable {K : Type} [Scalar K]

/-- Statements whose operation fetches its value in `int_reverse_tight`: no division of two `adouble`s, no `c / x` and
`pow(x, c)` in place of a temporary `x`. -/
def fetchStmt : Stmt K → Prop
  | .bin .div _ _ _ _ => False
  | .un (.divD _) a d | .un (.pow _) a d => a ≠ d
  | _ => True

/-- Statements whose pattern does not depend on the values. -/
def plainStmt : Stmt K → Prop
  | .bin .fmin _ _ _ _ | .un .fabs _ _ => False
  | .cond _ _ _ _ | .condEq _ _ _ _ | .condS _ _ _ | .condEqS _ _ _ => False
  | _ => True

theorem emits_fetch {st : Stmt K} (h : fetchStmt st) : emits Base.fetches st := by
  cases st <;> simp only [emits, fetchStmt] at h ⊢
  case bin f lv a b d =>
    intro v w la lb ld _ _
    cases f <;> simp [Bin.op, Base.fetches] at h ⊢
  case accD f d c => cases f <;> simp [Acc.opD, Base.fetches]
  case accA f d a => cases f <;> simp [Acc.opA, Base.fetches]
  case accR m d a => cases m <;> simp [Acc.opA, Base.fetches]
  case un f a d =>
    intro v la r hda
    cases f <;> simp only [Un.op, opPlusD, opMinD, opMultD] at h ⊢ <;> (try split_ifs) <;> simp [Base.fetches]
    all_goals exact fun hh => h (hda.1 hh.symm).symm
  case trig co a b d => cases co <;> simp [Base.fetches]
  case newD d c => intro r; simp only [opAssignD]; split_ifs <;> simp [Base.fetches]
  case setD d c => intro r; simp only [opAssignD]; split_ifs <;> simp [Base.fetches]
  all_goals first | trivial | simp [Base.fetches]

theorem emits_plain {st : Stmt K} (h : plainStmt st) : emits (fun o => ¬ Base.looks o) st := by
  cases st <;> simp only [emits, plainStmt] at h ⊢
  case bin f lv a b d =>
    intro v w la lb ld _ _
    cases f <;> simp [Bin.op, Base.looks] at h ⊢
  case accD f d c => cases f <;> simp [Acc.opD, Base.looks]
  case accA f d a => cases f <;> simp [Acc.opA, Base.looks]
  case accR m d a => cases m <;> simp [Acc.opA, Base.looks]
  case un f a d =>
    intro v la r hda
    cases f <;> simp only [Un.op, opPlusD, opMinD, opMultD] at h ⊢ <;> (try split_ifs) <;> simp [Base.looks]
  case trig co a b d => cases co <;> simp [Base.looks]
  case newD d c => intro r; simp only [opAssignD]; split_ifs <;> simp [Base.looks]
  case setD d c => intro r; simp only [opAssignD]; split_ifs <;> simp [Base.looks]
  all_goals first | trivial | simp [Base.looks]

variable {cfg : RCfg K} {stock : List (Nat × List K)} {s s' : Rec K} {p : Prog K} {N : Nat}

/-- `tightOk` holds for every program without the divisions of `fetchStmt`, and for every program without `fmin`, `fabs`
and conditional assignments. -/
theorem tightOk_program (h : Traced cfg stock s p s' N) (hp : allStmts fetchStmt p ∨ allStmts plainStmt p) :
    tightOk (s'.tape N) := by
  have mono : ∀ {P Q : Stmt K → Prop}, (∀ st, P st → Q st) → ∀ p : Prog K, allStmts P p → allStmts Q p := by
    intro P Q hPQ p hp
    induction p with
    | done => trivial
    | stmt st k ih => exact ⟨hPQ _ hp.1, ih hp.2⟩
    | branch q a t f iht ihf => exact ⟨iht hp.1, ihf hp.2⟩
  rcases hp with hp | hp
  · refine ⟨[], s'.tape N, rfl, by simp, ?_⟩
    exact emits_tape h.alloc (P := Base.fetches) (by simp [Base.fetches]) (by simp [Base.fetches]) (by simp [Base.fetches]) p
      (mono (fun st => emits_fetch) p hp) h.start h.recorded N
  · refine ⟨s'.tape N, [], by simp, ?_, by simp⟩
    exact emits_tape h.alloc (P := fun o : Base K => ¬ Base.looks o) (by simp [Base.looks]) (by simp [Base.looks])
      (by simp [Base.looks]) p (mono (fun st => emits_plain) p hp) h.start h.recorded N

end

/-- The hypotheses are met by the demo program. -/
example : allStmts revStmt demo ∧ allStmts fetchStmt demo := by simp [demo, allStmts, revStmt, fetchStmt]

/-! ### Where the code deviates -/

section
variable {K : Type} [Scalar K]

/-- C20 fails in the reverse direction too for `condassign(y, c, x1)`: for `y = x0; condassign(y, x1, x1)` with `x1 < 0` the
derivative with respect to `x0` is 1, but the pattern is `{1}` (fo_rev.cpp:1920-1924: the patterns of `y` are moved
to `x1` and cleared, as if the assignment had always taken place). -/
theorem C20_reverse_condassign_s (R0 : Nat → Nat → Word) :
    jacPatRevSafe 1 2 R0 ([.assignInd 0, .assignInd 1, .assignA 0 2, .condAssignS 1 1 2 0, .assignDep 2, .deathNot 0 2] :
      List (Base ℝ)) = .ok [some [1, 1]] ∧
    ∀ x par : Nat → ℝ, x 1 < 0 → ∃ f, fosRun ⟨x, par, false⟩ (fun i => if i = 0 then 1 else 0)
      [.assignInd 0, .assignInd 1, .assignA 0 2, .condAssignS 1 1 2 0, .assignDep 2, .deathNot 0 2] FS.init = .ok f ∧
      f.dy = [1] := by
  constructor
  · have hb : batches 1 = 1 := by decide
    have hp : wordsPerBatch 1 = 1 := by decide
    have hbp : bitsPerStrip 1 = 64 := by decide
    have hc : createSeed 1 0 0 0 = msb := by decide +kernel
    simp [jacPatRevSafe, jacPatRev, hb, hp, hbp, hc, revSweepSafe, revSafeRun, revSafeStep, RBS.init, RBS.loop, RBS.condS, bMv, bClr, bOr,
      List.range_succ, extractRev, revRowStep, upd_apply, msb]
  · intro x par h
    simp [fosRun, fosStep, FS.init, FS.set, FS.push, FS.setD, upd_apply, not_lt.2 h.le, FS.dec]

/-- `a = x0; m = fmin(a, x1); a *= -1; y = m / x1`. -/
noncomputable def divTight : List (Base ℝ) :=
  [.assignInd 0, .assignInd 1, .assignA 0 2, .minOp 2 1 3 1, .eqMultD 2 (-1), .divAA 3 1 4, .assignDep 4, .deathNot 0 4]

/-- C20 fails in tight mode, reverse direction, when a division follows an operation whose pattern depends on the values: at
`x = (-2, -1)` the derivative of `divTight` with respect to `x0` is -1, but the pattern is `{1}`: the
division does not fetch the value it has put on the stack (fo_rev.cpp:1116-1121 is compiled only without `_INT_REV_`), so that
`fmin` is evaluated with wrong values. -/
theorem C20_reverse_tight_division (R0 : Nat → Nat → Word) :
    jacPatRevTight 1 2 R0 ⟨fun i => if i = 0 then (-2 : ℝ) else -1, fun _ => 0, true⟩ divTight = .ok [some [1, 1]] ∧
    ∃ f, fosRun ⟨fun i => if i = 0 then (-2 : ℝ) else -1, fun _ => 0, false⟩ (fun i => if i = 0 then 1 else 0) divTight FS.init = .ok f ∧
      f.dy = [-1] := by
  constructor
  · have hb : batches 1 = 1 := by decide
    have hp : wordsPerBatch 1 = 1 := by decide
    have hbp : bitsPerStrip 1 = 64 := by decide
    have hc : createSeed 1 0 0 0 = msb := by decide +kernel
    have hz : ∃ z, zosRun ⟨fun i => if i = 0 then (-2 : ℝ) else -1, fun _ => 0, true⟩ divTight ZS.init = .ok z ∧
        z.stk = [-2, -1, 2, -2, 2, 0, -2, 0, 0, 0, 0] := by
      simp [zosRun, zosStep, divTight, ZS.init, ZS.set, ZS.push, ZS.dec, List.range_succ, upd_apply, ZS.rc]
    obtain ⟨z, hz1, hz2⟩ := hz
    simp only [jacPatRevTight, hz1]
    simp [jacPatRev, hb, hp, hbp, hc, revSweepTight, revTightRun, revTightStep, TRS.init, TRS.loop, TRS.pop, hz2, divTight, RBS.init, RBS.loop, bMv, bClr, bOr, bUn, bBin,
      List.range_succ, extractRev, revRowStep, upd_apply, msb, Bind.bind, Except.bind, pure, Except.pure]
  · simp [fosRun, fosStep, divTight, FS.init, FS.set, FS.push, FS.setD, upd_apply, FS.dec]

end
end Verif.Props.Sparse
