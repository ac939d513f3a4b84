import Verif.Sparse.Index
import Verif.Props.Sparse
/-!
Property C20, index domains.  Reading guide: `jacPatIdxSafe tape` is
`jac_pat<IndexDomains, Safe>` and `jacPatIdxTight x par tape` is `jac_pat<IndexDomains, Tight>` at the
base point `x`; row `j` of the result is `count :: columns`.
-/
set_option linter.all false
namespace Verif.Props.Sparse
open Verif.AD Verif.Sparse Verif.Props.AD

/-- `jac_pat` with index domains in safe mode (sparsedrivers.h:559-562): the rows `crs` filled by
`indopro_forward_safe`. -/
def jacPatIdxSafe {K : Type} [Scalar K] (ops : List (Base K)) : Except IErr (List (List Nat)) :=
  (idSafeRun ops IS.init).map IS.Y

/-- `jac_pat` with index domains in tight mode (sparsedrivers.h:555-558) at the base point `x`. -/
def jacPatIdxTight {K : Type} [Scalar K] (x par : Nat → K) (ops : List (Base K)) : Except IErr (List (List Nat)) :=
  (idTightRun ⟨x, par, false⟩ ops ZS.init IS.init).map IS.Y

/-- Calls for which index domains are right in safe mode: no operation whose result is the object of
its second argument but not of its first one. -/
def idxStmt {K : Type} : Stmt K → Prop
  | .bin _ _ a b d => d ≠ b ∨ d = a
  | .cond r _ a b | .condEq r _ a b => r ≠ b ∨ r = a
  | _ => True

/-- Calls for which index domains are right in tight mode: in addition, not the two-argument conditional
assignments; the three-argument ones are unrestricted. -/
def idxStmtT {K : Type} : Stmt K → Prop
  | .bin _ _ a b d => d ≠ b ∨ d = a
  | .condS _ _ _ | .condEqS _ _ _ => False
  | _ => True

section
variable {K : Type} [Scalar K]

theorem emits_idx {st : Stmt K} (h : idxStmt st) :
    emits (fun o : Base K => domOk (none : Option (Nat → K)) o ∧ noStop o) st := by
  cases st <;> simp only [emits, idxStmt] at h ⊢
  case bin f lv a b d =>
    intro v w la lb ld h1 h2
    have : ld ≠ lb ∨ ld = la := by rw [ne_eq, h1, h2]; exact h
    cases f <;> simp only [Bin.op, domOk, noStop, and_true] <;> tauto
  case cond r c a b =>
    intro v lr lc la lb h1 h2
    have : lr ≠ lb ∨ lr = la := by rw [ne_eq, h1, h2]; exact h
    simp only [domOk, noStop, and_true]; tauto
  case condEq r c a b =>
    intro v lr lc la lb h1 h2
    have : lr ≠ lb ∨ lr = la := by rw [ne_eq, h1, h2]; exact h
    simp only [domOk, noStop, and_true]; tauto
  case accD f d c => cases f <;> simp [Acc.opD, domOk, noStop]
  case accA f d a => cases f <;> simp [Acc.opA, domOk, noStop]
  case accR m d a => cases m <;> simp [Acc.opA, domOk, noStop]
  case un f a d =>
    intro v a r hda
    cases f <;> simp only [Un.op, opPlusD, opMinD, opMultD] <;> (try split_ifs) <;> simp [domOk, noStop]
  case trig co a b d => cases co <;> simp [domOk, noStop]
  case newD d c => intro r; simp only [opAssignD]; split_ifs <;> simp [domOk, noStop]
  case setD d c => intro r; simp only [opAssignD]; split_ifs <;> simp [domOk, noStop]
  all_goals first | trivial | simp [domOk, noStop]

theorem emits_idxT {st : Stmt K} (h : idxStmtT st) :
    emits (fun o : Base K => (∀ T, domOk (some T) o) ∧ noStop o ∧ notCondS o) st := by
  cases st <;> simp only [emits, idxStmtT] at h ⊢
  case bin f lv a b d =>
    intro v w la lb ld h1 h2
    have : ld ≠ lb ∨ ld = la := by rw [ne_eq, h1, h2]; exact h
    cases f <;> simp only [Bin.op, domOk, noStop, notCondS, and_true] <;> intros <;> tauto
  case accD f d c => cases f <;> simp [Acc.opD, domOk, noStop, notCondS]
  case accA f d a => cases f <;> simp [Acc.opA, domOk, noStop, notCondS]
  case accR m d a => cases m <;> simp [Acc.opA, domOk, noStop, notCondS]
  case un f a d =>
    intro v a r hda
    cases f <;> simp only [Un.op, opPlusD, opMinD, opMultD] <;> (try split_ifs) <;> simp [domOk, noStop, notCondS]
  case trig co a b d => cases co <;> simp [domOk, noStop, notCondS]
  case newD d c => intro r; simp only [opAssignD]; split_ifs <;> simp [domOk, noStop, notCondS]
  case setD d c => intro r; simp only [opAssignD]; split_ifs <;> simp [domOk, noStop, notCondS]
  all_goals first | trivial | simp [domOk, noStop, notCondS]

theorem allStmts_mono {Q R : Stmt K → Prop} (h : ∀ st, Q st → R st) : ∀ p : Prog K, allStmts Q p → allStmts R p
  | .done, _ => trivial
  | .stmt st k, hp => ⟨h st hp.1, allStmts_mono h k hp.2⟩
  | .branch _ _ t f, hp => ⟨allStmts_mono h t hp.1, allStmts_mono h f hp.2⟩

theorem Along_all {P : Base K → (Nat → K) → Prop} (c : Cfg K) {ops : List (Base K)} (h : ∀ o ∈ ops, ∀ T, P o T) (z : ZS K) :
    Along P c ops z := by
  induction ops generalizing z with
  | nil => trivial
  | cons o os ih => exact ⟨h o (by simp) _, fun z' _ => ih (fun o ho => h o (List.mem_cons_of_mem _ ho)) z'⟩

/-- Every `count :: columns` row read as its columns. -/
theorem rows_cols {n : Nat} {Y : List (List Nat)}
    (h : ∀ y ∈ Y, ∃ L : List Nat, y = L.length :: L ∧ L.Pairwise (· < ·) ∧ ∀ i ∈ L, i < n) :
    ∃ cols : Nat → List Nat, Y = (List.range Y.length).map (fun j => (cols j).length :: cols j) ∧
      ∀ j, (cols j).Pairwise (· < ·) ∧ ∀ i ∈ cols j, i < n := by
  refine ⟨fun j => (Y[j]?.getD []).tail, ?_, fun j => ?_⟩
  · apply List.ext_getElem
    · simp
    · intro j h1 h2
      obtain ⟨L, hL, _⟩ := h _ (List.getElem_mem h1)
      simp [h1, hL]
  · by_cases hj : j < Y.length
    · obtain ⟨L, hL, h1, h2⟩ := h _ (List.getElem_mem hj)
      simp only [List.getElem?_eq_getElem hj, Option.getD_some, hL]
      exact ⟨h1, h2⟩
    · simp only [List.getElem?_eq_none (Nat.le_of_not_lt hj)]
      simp
end

section real
variable {cfg : RCfg ℝ} {stock : List (Nat × List ℝ)} {s s' : Rec ℝ} {p : Prog ℝ} {N : Nat}

theorem smooth_pow {c : Cfg ℝ} {ops : List (Base ℝ)} {z : ZS ℝ} (h : Along (smoothS .fwd) c ops z) : Along powOk c ops z := by
  refine Along_mono (fun o T ho => ?_) h
  unfold powOk
  cases o <;> try trivial
  rename_i a r k
  intro hT
  have := ho.1
  simp only [smooth, hT] at this
  rcases this with h | ⟨h, _⟩ | ⟨_, h⟩
  · exact absurd h (lt_irrefl _)
  · exact absurd h (lt_irrefl _)
  · exact h

theorem ext_single {n : Nat} (i : Fin n) (k : Nat) (hk : k ≠ i) : ext (Pi.single i (1 : ℝ)) k = 0 := by
  unfold ext
  split_ifs with hlt
  · rw [Pi.single_eq_of_ne]
    intro h; apply hk; rw [← h]
  · rfl

/-- C20 (index domains, safe mode; partial: without the calls excluded by `idxStmt`, which
`C20_index_division` shows to be necessary, and without the vector operations).  `jac_pat` succeeds;
every row is its count followed by strictly increasing column numbers below the number of
independents; and whatever the point `x0` (on the recorded path, where the elementary functions are
differentiable) and the parameters, every entry of the Jacobian that does not vanish there is
listed. -/
theorem C20_index_safe_partial (h : Traced cfg stock s p s' N) (hd : p.disc ⟨Set.univ, ∅⟩)
    (hp : allStmts idxStmt p) :
    ∃ cols : Nat → List Nat,
      jacPatIdxSafe (s'.tape N) = .ok ((List.range ((s'.tape N).countP isDep)).map fun j =>
        (cols j).length :: cols j) ∧
      (∀ j, (cols j).Pairwise (· < ·) ∧ ∀ i ∈ cols j, i < numInd (s'.tape N)) ∧
      ∀ (par : Nat → ℝ) (n : Nat) (x0 : Fin n → ℝ) (e0 : SE ℝ),
        p.spec (ext x0) par s.se = some (e0, p.path cfg s) → p.smooth .fwd (ext x0) par s.se →
        e0.ys.length = (s'.tape N).countP isDep ∧
        ∀ j < e0.ys.length, ∀ D : (Fin n → ℝ) →L[ℝ] ℝ,
          HasFDerivAt (fun x => p.out (ext x) par s.se j) D x0 →
          ∀ i : Fin n, D (Pi.single i 1) ≠ 0 → (i : Nat) ∈ cols j := by
  have hops := emits_tape h.alloc (P := fun o : Base ℝ => domOk (none : Option (Nat → ℝ)) o ∧ noStop o)
    (by simp [domOk, noStop]) (by simp [domOk, noStop]) (by simp [domOk, noStop]) p
    (allStmts_mono (fun st => emits_idx) p hp) h.start h.recorded N
  obtain ⟨S, hS1, hS2, hS3, hS4⟩ := idSafe_total (fun o ho => (hops o ho).2) (s := IS.init)
    ⟨fun a => by simp [IS.init], by simp [IS.init]⟩
  simp only [IS.init, List.length_nil, Nat.zero_add] at hS3 hS4
  obtain ⟨cols, c1, c2⟩ := rows_cols hS2.rows
  rw [hS3] at c1
  refine ⟨cols, ?_, ?_, ?_⟩
  · rw [jacPatIdxSafe, hS1]; exact congrArg Except.ok c1
  · rw [← hS4]; exact c2
  · intro par n x0 e0 hspec hsm
    obtain ⟨D0, hD, hf⟩ := C11_fos_forward_partial h par false x0 hspec hsm
    have hsmooth := recorded_smooth h.alloc p h.start h.recorded (fun _ => 0) ⟨ext x0, par, false⟩ hspec hsm N
    have hpow := smooth_pow (c := ⟨ext x0, par, false⟩) hsmooth
    refine ⟨?_, fun j hj D hDj i hne => ?_⟩
    · obtain ⟨f, f1, _, f2, f3⟩ := hf 0
      have := (fos_ii_le f1).2.1
      rw [← f2, this, numDep_countP]
      simp [FS.init]
    · obtain ⟨f, f1, _, f2, f3⟩ := hf (Pi.single i 1)
      obtain ⟨body, hb1, hb2⟩ := recorded_wf h.alloc p h.start hd h.recorded h.pos h.size
      rw [hDj.unique (hD j), ← f3] at hne
      have hcov : CoversI ∅ i S f := by
        rw [hb1] at hS1 f1 hpow hops
        exact coversI_safe_full (ext_single i) hb2 (fun o ho => (hops o ho).1) (s := IS.init) (f := FS.init) (z := ZS.init)
          ⟨fun a _ _ => rfl, rfl, rfl, by simp [IS.init]⟩ (fun _ => rfl) ⟨rfl, rfl, rfl, rfl, le_refl _⟩ hpow hS1 f1
      by_contra hbit
      have hj' : j < (s'.tape N).countP isDep := by rw [← hS3, hcov.len, f2]; exact hj
      have hy : S.Y[j]? = some ((cols j).length :: cols j) := by
        rw [c1]; simp [hj']
      have := hcov.out j _ hy (by simpa using hbit)
      rw [this] at hne
      exact hne rfl

/-- C20 (index domains, tight mode; partial: without the calls excluded by `idxStmtT`, without
the vector operations, and only if no `adouble` is alive at `trace_on`, see `C20_index_tight_stock`).  At a base point `x0` on the recorded path, where the elementary functions are
differentiable, `jac_pat` succeeds, and the rows list every entry of the Jacobian that does not
vanish at `x0`. -/
theorem C20_index_tight_partial (h : Traced cfg [] s p s' N) (hd : p.disc ⟨Set.univ, ∅⟩)
    (hp : allStmts idxStmtT p) (par : Nat → ℝ) (n : Nat) (x0 : Fin n → ℝ) (e0 : SE ℝ)
    (hspec : p.spec (ext x0) par s.se = some (e0, p.path cfg s)) (hsm : p.smooth .fwd (ext x0) par s.se) :
    ∃ cols : Nat → List Nat,
      jacPatIdxTight (ext x0) par (s'.tape N) = .ok ((List.range e0.ys.length).map fun j =>
        (cols j).length :: cols j) ∧
      (∀ j, (cols j).Pairwise (· < ·) ∧ ∀ i ∈ cols j, i < numInd (s'.tape N)) ∧
      ∀ j < e0.ys.length, ∀ D : (Fin n → ℝ) →L[ℝ] ℝ,
        HasFDerivAt (fun x => p.out (ext x) par s.se j) D x0 →
        ∀ i : Fin n, D (Pi.single i 1) ≠ 0 → (i : Nat) ∈ cols j := by
  have hops := emits_tape h.alloc (P := fun o : Base ℝ => (∀ T, domOk (some T) o) ∧ noStop o ∧ notCondS o)
    (by simp [domOk, noStop, notCondS]) (by simp [domOk, noStop, notCondS]) (by simp [domOk, noStop, notCondS]) p
    (allStmts_mono (fun st => emits_idxT) p hp) h.start h.recorded N
  obtain ⟨z, hz, _⟩ := C09_zos_forward h (ext x0) par false hspec
  obtain ⟨S, hS1, hS2, hS3, hS4⟩ := idTight_total (c := ⟨ext x0, par, false⟩) (fun o ho => (hops o ho).2.1)
    (fun o ho => (hops o ho).2.2) (s := IS.init) ⟨fun a => by simp [IS.init], by simp [IS.init]⟩ hz
  simp only [IS.init, List.length_nil, Nat.zero_add] at hS3 hS4
  obtain ⟨cols, c1, c2⟩ := rows_cols hS2.rows
  rw [hS3] at c1
  obtain ⟨D0, hD, hf⟩ := C11_fos_forward_partial h par false x0 hspec hsm
  have hsmooth := recorded_smooth h.alloc p h.start h.recorded (fun _ => 0) ⟨ext x0, par, false⟩ hspec hsm N
  have hpow := smooth_pow (c := ⟨ext x0, par, false⟩) hsmooth
  have hlen : e0.ys.length = (s'.tape N).countP isDep := by
    obtain ⟨f, f1, _, f2, f3⟩ := hf 0
    have := (fos_ii_le f1).2.1
    rw [← f2, this, numDep_countP]
    simp [FS.init]
  refine ⟨cols, ?_, ?_, fun j hj D hDj i hne => ?_⟩
  · rw [jacPatIdxTight, hS1, hlen]; exact congrArg Except.ok c1
  · rw [← hS4]; exact c2
  · obtain ⟨f, f1, _, f2, f3⟩ := hf (Pi.single i 1)
    obtain ⟨body, hb1, hb2⟩ := recorded_wf h.alloc p h.start hd h.recorded h.pos h.size
    rw [hDj.unique (hD j), ← f3] at hne
    have hcov : CoversI ∅ i S f := by
      rw [hb1] at hS1 f1 hpow hops
      exact coversI_tight_full (ext_single i) hb2 (fun o ho => (hops o ho).2.2) (s := IS.init) (f := FS.init) (z := ZS.init)
        (Along_all _ (fun o ho => (hops o ho).1) _)
        ⟨fun a _ _ => rfl, rfl, rfl, by simp [IS.init]⟩ (fun _ => rfl) ⟨rfl, rfl, rfl, rfl, le_refl _⟩ hpow hS1 f1
    by_contra hbit
    have hj' : j < (s'.tape N).countP isDep := by rw [← hS3, hcov.len, f2]; exact hj
    have hy : S.Y[j]? = some ((cols j).length :: cols j) := by
      rw [c1]; simp [hj']
    have := hcov.out j _ hy (by simpa using hbit)
    rw [this] at hne
    exact hne rfl

/-- The hypotheses are met by the demo program. -/
example : allStmts idxStmt demo ∧ allStmts idxStmtT demo := by simp [demo, allStmts, idxStmt, idxStmtT]

end real

/-! ### Where the code deviates -/

/-- `y = x0 / (x1 * x2)`: `operator/(const adouble&, adouble&&)` divides in place of its second argument
(adouble.cpp:2598). -/
noncomputable def divSrc : Prog ℝ :=
  .stmt (.new 0) <| .stmt (.indep 0) <| .stmt (.new 1) <| .stmt (.indep 1) <| .stmt (.new 2) <| .stmt (.indep 2) <|
  .stmt (.new 3) <| .stmt (.bin .mult true 1 2 3) <| .stmt (.bin .div true 0 3 3) <| .stmt (.dep 3) .done

/-- C20 fails for index domains when the result of an operation is its second argument: for
`y = x0 / (x1 * x2)` the pattern is `{0}` in both modes, whereas the derivative with respect to `x1`
at `(1, 1, 1)` is -1 (`combine_2_index_domains`, uni5_for.cpp:6018-6025, overwrites the domain of the second
argument before merging it). -/
theorem C20_index_division :
    ∃ s', divSrc.record demoCfg demoStart = some s' ∧
    jacPatIdxSafe (s'.tape 5) = .ok [[1, 0]] ∧
    jacPatIdxTight (fun _ => 1) (fun _ => 0) (s'.tape 5) = .ok [[1, 0]] ∧
    ∃ f, fosRun ⟨fun _ => (1 : ℝ), fun _ => 0, false⟩ (fun i => if i = 1 then 1 else 0) (s'.tape 5) FS.init = .ok f ∧
      f.dy = [-1] := by
  have key : ∃ s', divSrc.record demoCfg demoStart = some s' ∧ s'.tape 5 =
      [.assignD0 1, .assignInd 1, .assignD0 2, .assignInd 2, .assignD0 3, .assignInd 3, .assignD0 4,
        .multAA 2 3 4, .divAA 1 4 4, .assignDep 4, .deathNot 0 4] := ⟨_, rfl, rfl⟩
  obtain ⟨s', h1, h2⟩ := key
  refine ⟨s', h1, ?_, ?_, ?_⟩ <;> rw [h2]
  · rfl
  · simp [jacPatIdxTight, idTightRun, tightVal, zosStep, idStep, ZS.init, IS.init, Except.map, IS.map,
      combine2, merge2, copyDom, mergeU, upd_apply, ZS.set, ZS.push]
  · simp [fosRun, fosStep, FS.init, FS.set, FS.push, FS.setD, upd_apply, FS.dec]

/-- C20 fails for index domains in tight mode with `condassign(y, c, x1)`: the domain is right, but the value of
`y` is not updated (uni5_for.cpp:4306), and a later decision is taken with the stale value.  For
`y = x0; condassign(y, 1, x1); z = fmin(y, x2)` at `(0, 3, 1)` the minimum is `x2`, but the pattern
says `x1`. -/
theorem C20_index_tight_condassign_s :
    jacPatIdxTight (fun i => if i = 0 then (0 : ℝ) else if i = 1 then 3 else 1) (fun _ => 0)
      [.assignInd 0, .assignInd 1, .assignInd 2, .assignD1 3, .assignA 0 4, .condAssignS 3 1 4 1,
        .minOp 4 2 5 0, .assignDep 5] = .ok [[1, 1]] ∧
    ∃ f, fosRun ⟨fun i => if i = 0 then (0 : ℝ) else if i = 1 then 3 else 1, fun _ => 0, false⟩
      (fun i => if i = 2 then 1 else 0)
      [.assignInd 0, .assignInd 1, .assignInd 2, .assignD1 3, .assignA 0 4, .condAssignS 3 1 4 1,
        .minOp 4 2 5 0, .assignDep 5] FS.init = .ok f ∧ f.dy = [1] := by
  constructor
  · simp [jacPatIdxTight, idTightRun, tightVal, zosStep, idStep, ZS.init, IS.init, Except.map, IS.map,
      combine2, merge2, copyDom, mergeU, upd_apply, ZS.set, ZS.push, ZS.dec]
  · simp [fosRun, fosStep, FS.init, FS.set, FS.push, FS.setD, upd_apply, FS.dec]

/-- C20 fails for index domains in tight mode with variables that exist at `trace_on`: all their values
are stored in the first location (uni5_for.cpp:5476-5492).  With `a = 5`, `b = 7` alive at
`trace_on`, `fmin(x0, b)` at `x0 = 3` is `x0`, but the pattern is empty. -/
theorem C20_index_tight_stock :
    jacPatIdxTight (fun _ => (3 : ℝ)) (fun _ => 0)
      [.takeStock 0 [5, 7], .assignInd 2, .minOp 2 1 3 0, .assignDep 3] = .ok [[0]] ∧
    ∃ f, fosRun ⟨fun _ => (3 : ℝ), fun _ => 0, false⟩ (fun _ => 1)
      [.takeStock 0 [5, 7], .assignInd 2, .minOp 2 1 3 0, .assignDep 3] FS.init = .ok f ∧ f.dy = [1] := by
  constructor
  · norm_num [jacPatIdxTight, idTightRun, tightVal, zosStep, idStep, ZS.init, IS.init, Except.map, IS.map,
      combine2, merge2, copyDom, mergeU, upd_apply, ZS.set, ZS.push, ZS.dec]
  · norm_num [fosRun, fosStep, FS.init, FS.set, FS.push, FS.setD, upd_apply, FS.dec]

end Verif.Props.Sparse
