import Verif.Sparse.HessRun
import Verif.Props.SparseIdx
/-!
Property C21.  Reading guide: `hessPatSafe n tape` is `hess_pat<Safe>` and `hessPatTight x par n tape` is
`hess_pat<Tight>` at the base point `x`, for a trace with `n` independents; row `i` of the result is
`count :: columns`.  `p.out x par s.se k` is dependent `k` of the program on plain numbers.
-/
set_option linter.all false
namespace Verif.Props.Sparse
open Verif.AD Verif.Sparse Verif.Props.AD Filter Topology ContDiff

/-- Calls for which the Hessian pattern is right in safe mode. -/
def nlStmt {K : Type} : Stmt K → Prop
  | .bin .fmin _ _ _ _ | .cond _ _ _ _ | .condEq _ _ _ _ | .condS _ _ _ | .condEqS _ _ _ => False
  | _ => True

/-- Calls for which the Hessian pattern is right in tight mode. -/
def nlStmtT {K : Type} : Stmt K → Prop
  | .condS _ _ _ | .condEqS _ _ _ => False
  | _ => True

section
variable {K : Type} [Scalar K]

theorem emits_nl {st : Stmt K} (h : nlStmt st) : emits (fun o : Base K => nlTot (none : Option (Nat → K)) o) st := by
  cases st <;> simp only [emits, nlStmt] at h ⊢
  case bin f lv a b d => intro v w la lb ld _ _; cases f <;> simp_all [Bin.op, nlTot]
  case accD f d c => cases f <;> simp [Acc.opD, nlTot]
  case accA f d a => cases f <;> simp [Acc.opA, nlTot]
  case accR m d a => cases m <;> simp [Acc.opA, nlTot]
  case un f a d =>
    intro v a r hda
    cases f <;> simp only [Un.op, opPlusD, opMinD, opMultD] <;> (try split_ifs) <;> simp [nlTot]
  case trig co a b d => cases co <;> simp [nlTot]
  case newD d c => intro r; simp only [opAssignD]; split_ifs <;> simp [nlTot]
  case setD d c => intro r; simp only [opAssignD]; split_ifs <;> simp [nlTot]
  all_goals first | trivial | simp [nlTot]

theorem emits_nlT {st : Stmt K} (h : nlStmtT st) :
    emits (fun o : Base K => (∀ T, nlTot (some T) o) ∧ notCondS o) st := by
  cases st <;> simp only [emits, nlStmtT] at h ⊢
  case bin f lv a b d => intro v w la lb ld _ _; cases f <;> simp_all [Bin.op, nlTot, notCondS]
  case accD f d c => cases f <;> simp [Acc.opD, nlTot, notCondS]
  case accA f d a => cases f <;> simp [Acc.opA, nlTot, notCondS]
  case accR m d a => cases m <;> simp [Acc.opA, nlTot, notCondS]
  case un f a d =>
    intro v a r hda
    cases f <;> simp only [Un.op, opPlusD, opMinD, opMultD] <;> (try split_ifs) <;> simp [nlTot, notCondS]
  case trig co a b d => cases co <;> simp [nlTot, notCondS]
  case newD d c => intro r; simp only [opAssignD]; split_ifs <;> simp [nlTot, notCondS]
  case setD d c => intro r; simp only [opAssignD]; split_ifs <;> simp [nlTot, notCondS]
  all_goals first | trivial | simp [nlTot, notCondS]

theorem ninv_init : NInv ∅ NS.init :=
  ⟨by simp, by simp [NS.init], by simp [NS.init, Tr.leaves], by simp [NS.rel, NS.init], by simp [NS.rel, NS.init]⟩
end

section real
variable {cfg : RCfg ℝ} {s s' : Rec ℝ} {p : Prog ℝ} {N : Nat}

theorem ext_sp {n : Nat} (x0 : Fin n → ℝ) (k : Nat) (R : Nat → Nat → Prop) : Sp x0 (fun e => ext e k) (· = k) R := by
  by_cases hk : k < n
  · simp only [ext, hk, dif_pos]; exact Sp.coord ⟨k, hk⟩ rfl
  · simp only [ext, hk, dif_neg, not_false_eq_true]; exact .const 0

theorem hi_init {n : Nat} (x0 : Fin n → ℝ) (L : Set Nat) : HI x0 L NS.init (fun _ => ZS.init) :=
  ⟨⟨fun l => contDiffAt_const, fun e => rfl, [], fun e => rfl, by simp⟩, fun a _ => .const 0, [], fun e => rfl, by simp⟩

/-- From the invariant at the end of the sweep to the function computed. -/
theorem hess_of_hi (h : Traced cfg [] s p s' N) (par : Nat → ℝ) {n : Nat} (x0 : Fin n → ℝ) {S : NS} {S' : (Fin n → ℝ) → ZS ℝ}
    (h1 : ∀ᶠ e in 𝓝 x0, zosRun ⟨ext e, par, false⟩ (s'.tape N) ZS.init = .ok (S' e)) (h2 : HI x0 ∅ S S') (k : Nat) (i j : Fin n)
    (hne : fderiv ℝ (fderiv ℝ (fun x => p.out (ext x) par s.se k)) x0 (Pi.single i 1) (Pi.single j 1) ≠ 0) : S.rel i j := by
  obtain ⟨fy, y1, y2⟩ := h2.y
  have hev : (fun x => p.out (ext x) par s.se k) =ᶠ[𝓝 x0] fun x => (S' x).y[k]?.getD 0 := by
    filter_upwards [h1] with x t1
    rcases recorded_forward h.alloc p h.start h.recorded (fun _ => 0) ⟨ext x, par, false⟩ N with ⟨e', z', k1, k2, k3, k4⟩ | ⟨k1, k2⟩
    · rw [show ZS.start (fun _ => (0 : ℝ)) = ZS.init from rfl, t1] at k2; cases k2
      simp only [Prog.out, k1, k3]
    · rw [show ZS.start (fun _ => (0 : ℝ)) = ZS.init from rfl, t1] at k1; cases k1
  have hsp : Sp x0 (fun x => (S' x).y[k]?.getD 0) (fun _ => True) S.rel := by
    simp only [y1, List.getElem?_map]
    rcases hq : fy[k]? with _ | f
    · simpa using Sp.const 0
    · simpa using y2 f (List.mem_of_getElem? hq)
  have := hsp.congr hev
  by_contra hr
  apply hne
  rw [← d2_eq this.sm]
  exact this.two i j hr

/-- C21 (safe mode; partial: without `fmin` and the conditional assignments, see `C21_safe_fmin` and
`C21_safe_condassign`, without vector operations, and only if no `adouble` is alive at `trace_on`, see `C21_stock`).
`hess_pat` succeeds without reading uninitialised memory or writing outside the nodes allocated; row `i` is its
count followed by strictly increasing column numbers below the number of independents; the pattern is
symmetric; and whatever the point `x0` (on the recorded path, where the elementary functions are smooth)
and the parameters, every entry of the Hessian of every dependent that does not vanish there is listed. -/
theorem C21_safe_partial (h : Traced cfg [] s p s' N) (hd : p.disc ⟨Set.univ, ∅⟩) (hp : allStmts nlStmt p) :
    ∃ cols : Nat → List Nat,
      hessPatSafe (numInd (s'.tape N)) (s'.tape N) =
        .ok ((List.range (numInd (s'.tape N))).map fun i => (cols i).length :: cols i) ∧
      (∀ i, (cols i).Pairwise (· < ·) ∧ ∀ j ∈ cols i, j < numInd (s'.tape N)) ∧
      (∀ i j, j ∈ cols i ↔ i ∈ cols j) ∧
      ∀ (par : Nat → ℝ) (n : Nat) (x0 : Fin n → ℝ) (e0 : SE ℝ),
        p.spec (ext x0) par s.se = some (e0, p.path cfg s) → p.smooth .ho (ext x0) par s.se →
        ∀ (k : Nat) (i j : Fin n),
          fderiv ℝ (fderiv ℝ (fun x => p.out (ext x) par s.se k)) x0 (Pi.single i 1) (Pi.single j 1) ≠ 0 →
          (j : Nat) ∈ cols i := by
  have hops := emits_tape h.alloc (P := fun o : Base ℝ => nlTot (none : Option (Nat → ℝ)) o)
    (by simp [nlTot]) (by simp) (by simp [nlTot]) p (allStmts_mono (fun st => emits_nl) p hp) h.start h.recorded N
  obtain ⟨S, k1, k2, k3⟩ := nl_safe_total (M := maxopind (s'.tape N)) hops ninv_init (recorded_defined h.alloc p h.start h.recorded N)
    (by simp only [NS.init, maxopind]; omega)
  have k2' : S.ii = numInd (s'.tape N) := by rw [k2]; simp [NS.init]
  obtain ⟨cols, c1, c2, c3⟩ := crsRows_spec k3
  rw [k2'] at c1
  refine ⟨cols, by simp only [hessPatSafe, k1, c1], fun i => ⟨c2 i, fun j hj => ?_⟩, fun i j => ?_, ?_⟩
  · rw [← k2']; exact (k3.nlt i j ((c3 i j).1 hj)).2
  · rw [c3, c3]; exact ⟨k3.sym i j, k3.sym j i⟩
  · intro par n x0 e0 hspec hsm k i j hne
    rw [c3]
    have hA := recorded_smooth h.alloc p h.start h.recorded (fun _ => 0) ⟨ext x0, par, false⟩ hspec hsm N
    obtain ⟨z, hz, _⟩ := C09_zos_forward h (ext x0) par false hspec
    obtain ⟨body, hb1, hb2⟩ := recorded_wf h.alloc p h.start hd h.recorded h.pos h.size
    obtain ⟨Z, hb3, _⟩ := WfFrom.death hb2.pos hb2.body
    have hw : WfFrom N Z (s'.tape N) := by rw [hb1]; simpa [fullTrace] using hb3
    obtain ⟨S', f1, f2⟩ := hess_safe_run (c := fun e => ⟨ext e, par, false⟩) (fun e => rfl) (ext_sp x0) hw hops (hi_init x0 _) hA ⟨z, hz⟩ k1
    exact hess_of_hi h par x0 f1 f2 k i j hne

/-- C21 (tight mode; partial: without the two-argument conditional assignments, see `C21_condassign_s`, without
vector operations, and only if no `adouble` is alive at `trace_on`, see `C21_stock`).  At a base point `x0` on the recorded
path, where the elementary functions are smooth, `hess_pat` succeeds, its rows are sorted and symmetric,
and every entry of the Hessian of every dependent that does not vanish at `x0` is listed. -/
theorem C21_tight_partial (h : Traced cfg [] s p s' N) (hd : p.disc ⟨Set.univ, ∅⟩) (hp : allStmts nlStmtT p)
    (par : Nat → ℝ) (n : Nat) (x0 : Fin n → ℝ) (e0 : SE ℝ)
    (hspec : p.spec (ext x0) par s.se = some (e0, p.path cfg s)) (hsm : p.smooth .ho (ext x0) par s.se) :
    ∃ cols : Nat → List Nat,
      hessPatTight (ext x0) par (numInd (s'.tape N)) (s'.tape N) =
        .ok ((List.range (numInd (s'.tape N))).map fun i => (cols i).length :: cols i) ∧
      (∀ i, (cols i).Pairwise (· < ·) ∧ ∀ j ∈ cols i, j < numInd (s'.tape N)) ∧
      (∀ i j, j ∈ cols i ↔ i ∈ cols j) ∧
      ∀ (k : Nat) (i j : Fin n),
        fderiv ℝ (fderiv ℝ (fun x => p.out (ext x) par s.se k)) x0 (Pi.single i 1) (Pi.single j 1) ≠ 0 →
        (j : Nat) ∈ cols i := by
  have hops := emits_tape h.alloc (P := fun o : Base ℝ => (∀ T, nlTot (some T) o) ∧ notCondS o)
    (by simp [nlTot, notCondS]) (by simp) (by simp [nlTot, notCondS]) p (allStmts_mono (fun st => emits_nlT) p hp) h.start h.recorded N
  obtain ⟨z, hz, _⟩ := C09_zos_forward h (ext x0) par false hspec
  obtain ⟨S, k1, k2, k3⟩ := nl_tight_total (M := maxopind (s'.tape N)) (fun o ho => (hops o ho).1) (fun o ho => (hops o ho).2) ninv_init
    (recorded_defined h.alloc p h.start h.recorded N) (by simp only [NS.init, maxopind]; omega) hz
  have k2' : S.ii = numInd (s'.tape N) := by rw [k2]; simp [NS.init]
  obtain ⟨cols, c1, c2, c3⟩ := crsRows_spec k3
  rw [k2'] at c1
  refine ⟨cols, by simp only [hessPatTight, k1, c1], fun i => ⟨c2 i, fun j hj => ?_⟩, fun i j => ?_, ?_⟩
  · rw [← k2']; exact (k3.nlt i j ((c3 i j).1 hj)).2
  · rw [c3, c3]; exact ⟨k3.sym i j, k3.sym j i⟩
  · intro k i j hne
    rw [c3]
    have hA := recorded_smooth h.alloc p h.start h.recorded (fun _ => 0) ⟨ext x0, par, false⟩ hspec hsm N
    obtain ⟨body, hb1, hb2⟩ := recorded_wf h.alloc p h.start hd h.recorded h.pos h.size
    obtain ⟨Z, hb3, _⟩ := WfFrom.death hb2.pos hb2.body
    have hw : WfFrom N Z (s'.tape N) := by rw [hb1]; simpa [fullTrace] using hb3
    obtain ⟨S', f1, f2⟩ := hess_tight_run (c := fun e => ⟨ext e, par, false⟩) (fun e => rfl) (ext_sp x0) hw (fun o ho => (hops o ho).1)
      (fun o ho => (hops o ho).2) (hi_init x0 _) hA ⟨z, hz⟩ k1
    exact hess_of_hi h par x0 f1 f2 k i j hne

/-- The hypotheses are met by the demo program. -/
example : allStmts nlStmt demo ∧ allStmts nlStmtT demo := by simp [demo, allStmts, nlStmt, nlStmtT]

/-- All hypotheses hold for the demo program, at infinitely many points. -/
example : ∃ s', Traced demoCfg [] demoStart demo s' (s'.hw + 1) ∧ demo.disc ⟨Set.univ, ∅⟩ ∧
    (∀ x0 : Fin 2 → ℝ, 0 < x0 0 → 0 < x0 1 →
      (∃ e, demo.spec (ext x0) (fun _ => 0) demoStart.se = some (e, demo.path demoCfg demoStart) ∧ e.ii = 2) ∧
      demo.smooth .ho (ext x0) (fun _ => 0) demoStart.se) := by
  obtain ⟨e, h1, h2, h3⟩ := demo_spec demoCfg.x demoCfg.par (by
    simp only [demoCfg]; positivity)
  obtain ⟨s', h4, h5⟩ := traced_exists (stock := []) demo_alloc demo_start
    (by simp [demo, Prog.noFminLL, Stmt.notFminLL]) h1
  refine ⟨s', h4, demo_disc, fun x0 p0 p1 => ?_⟩
  have hpos : 0 < ext x0 0 * ext x0 1 + ext x0 0 * Real.exp (ext x0 0) := by
    have e0 : ext x0 0 = x0 0 := by simp [ext]
    have e1 : ext x0 1 = x0 1 := by simp [ext]
    rw [e0, e1]; positivity
  obtain ⟨e', g1, g2, _⟩ := demo_spec (ext x0) (fun _ => 0) hpos
  exact ⟨⟨e', by rw [h5]; exact g1, g2⟩, demo_smooth .ho _ _ hpos⟩

/-- A pattern in which something has to be listed: `y = x0 * x1`. -/
example : hessPatSafe 2 [.assignInd 0, .assignInd 1, .assignD0 2, .multAA 0 1 2, .assignDep (K := ℝ) 2, .deathNot 0 2] =
    .ok [[1, 1], [1, 0]] := rfl

/-! ### Where the code deviates -/

/-- `z = fmin(x0, x1); y = z * z` -/
noncomputable def fminSrc : Prog ℝ :=
  .stmt (.new 0) <| .stmt (.indep 0) <| .stmt (.new 1) <| .stmt (.indep 1) <|
  .stmt (.new 2) <| .stmt (.bin .fmin false 0 1 2) <| .stmt (.new 3) <| .stmt (.bin .mult true 2 2 3) <| .stmt (.dep 3) .done

/-- C21 fails in safe mode for `fmin`: the node of the result is never written (`arg_index[res] = opind++` is executed twice,
uni5_for.cpp:3776-3780), and the next nonlinear operation reads it. -/
theorem C21_safe_fmin :
    ∃ s', fminSrc.record demoCfg demoStart = some s' ∧ hessPatSafe 2 (s'.tape 5) = .error .undef := by
  have key : ∃ s' k, fminSrc.record demoCfg demoStart = some s' ∧ s'.tape 5 =
      [.assignD0 1, .assignInd 1, .assignD0 2, .assignInd 2, .assignD0 3, .minOp 1 2 3 k, .assignD0 4,
        .multAA 3 3 4, .assignDep 4, .deathNot 0 4] := ⟨_, _, rfl, rfl⟩
  obtain ⟨s', k, h1, h2⟩ := key
  exact ⟨s', h1, by rw [h2]; rfl⟩

/-- `condassign(z, x0, x0, x1); y = z * z` -/
noncomputable def condSrc : Prog ℝ :=
  .stmt (.new 0) <| .stmt (.indep 0) <| .stmt (.new 1) <| .stmt (.indep 1) <|
  .stmt (.new 2) <| .stmt (.cond 2 0 0 1) <| .stmt (.new 3) <| .stmt (.bin .mult true 2 2 3) <| .stmt (.dep 3) .done

/-- C21 fails in safe mode for `condassign`: the node of the result is never written (uni5_for.cpp:4130). -/
theorem C21_safe_condassign :
    ∃ s', condSrc.record demoCfg demoStart = some s' ∧ hessPatSafe 2 (s'.tape 5) = .error .undef := by
  have key : ∃ s' k, condSrc.record demoCfg demoStart = some s' ∧ s'.tape 5 =
      [.assignD0 1, .assignInd 1, .assignD0 2, .assignInd 2, .assignD0 3, .condAssign 1 1 2 3 k, .assignD0 4,
        .multAA 3 3 4, .assignDep 4, .deathNot 0 4] := ⟨_, _, rfl, rfl⟩
  obtain ⟨s', k, h1, h2⟩ := key
  exact ⟨s', h1, by rw [h2]; rfl⟩

/-- `z = x0; condassign(z, x0, x1); y = z * z` -/
noncomputable def condSSrc : Prog ℝ :=
  .stmt (.new 0) <| .stmt (.indep 0) <| .stmt (.new 1) <| .stmt (.indep 1) <|
  .stmt (.copy 2 0) <| .stmt (.condS 2 0 1) <| .stmt (.new 3) <| .stmt (.bin .mult true 2 2 3) <| .stmt (.dep 3) .done

/-- C21 fails in both modes for `condassign(z, c, a)`: the result takes over the node of `a` whatever the condition
(uni5_for.cpp:4313).  For `z = x0; condassign(z, x0, x1); y = z * z` the pattern is `{(1,1)}`, also at points with
`x0 < 0`, where `y = x0 * x0`. -/
theorem C21_condassign_s :
    ∃ s', condSSrc.record demoCfg demoStart = some s' ∧ hessPatSafe 2 (s'.tape 5) = .ok [[0], [1, 1]] ∧
    hessPatTight (fun i => if i = 0 then -1 else 1) (fun _ => 0) 2 (s'.tape 5) = .ok [[0], [1, 1]] ∧
    ∀ x : Fin 2 → ℝ, x 0 < 0 → condSSrc.out (ext x) (fun _ => 0) demoStart.se 0 = x 0 * x 0 := by
  have key : ∃ s' k, condSSrc.record demoCfg demoStart = some s' ∧ s'.tape 5 =
      [.assignD0 1, .assignInd 1, .assignD0 2, .assignInd 2, .assignA 1 3, .condAssignS 1 2 3 k, .assignD0 4,
        .multAA 3 3 4, .assignDep 4, .deathNot 0 4] := ⟨_, _, rfl, rfl⟩
  obtain ⟨s', k, h1, h2⟩ := key
  refine ⟨s', h1, by rw [h2]; rfl, by rw [h2]; rfl, fun x hx => ?_⟩
  have : ext x 0 = x 0 := by simp [ext]
  simp [condSSrc, Prog.out, Prog.spec, Stmt.spec, Rec.se, demoStart, upd_apply, Bin.fn, SE.set, this, hx.not_gt]

/-- C21 fails for variables that exist at `trace_on`: they have no node (`take_stock_op` does not create one, uni5_for.cpp:5468-5493), and
the first nonlinear operation that uses one reads uninitialised memory. -/
theorem C21_stock :
    hessPatSafe 1 [.takeStock 0 [5], .assignInd 1, .multAA 0 1 2, .assignDep (K := ℝ) 2, .deathNot 0 2] = .error .undef := rfl

/-- `q` independents and their inner product with themselves. -/
def dotTape (q : Nat) : List (Base ℝ) :=
  (List.range q).flatMap (fun i => [.assignD0 i, .assignInd i]) ++ [.assignD0 q, .vecDot 0 0 q q, .assignDep q, .deathNot 0 q]

section overflow
variable {K : Type} [Scalar K] {M : Nat}

theorem node_op {r : Nat} {t : Tr} {s s' : NS} (h : s.node M r t = .ok s') : s'.op = s.op + 1 ∧ s.op < M := by
  unfold NS.node NS.alloc at h
  split_ifs at h with hM
  cases h; exact ⟨rfl, hM⟩

theorem nodeP_op {r : Nat} {t t1 n1 t2 n2 : Tr} {s s' : NS} (h : s.nodeP M r t1 n1 t2 n2 t = .ok s') : s'.op = s.op + 2 ∧ s.op + 1 < M := by
  unfold NS.nodeP at h
  split at h
  · cases h
  · rename_i s1 h1
    split at h
    · cases h
    · rename_i s2 h2
      split at h
      · cases h
      · rename_i s3 h3
        have a := (alloc_rel h1).2.2.2
        have b := (link_rel h2).2.2.1
        have c := (link_rel h3).2.2.1
        have d := node_op h
        omega

theorem nlLoop_op {f : Nat → NS → Except NErr NS} (hf : ∀ q s s', f q s = .ok s' → s'.op = s.op + 2 ∧ s'.op ≤ M) (L : List Nat) {s s' : NS}
    (h : nlLoop f L s = .ok s') (h0 : s.op ≤ M) : s'.op = s.op + 2 * L.length ∧ s'.op ≤ M := by
  induction L generalizing s with
  | nil => cases h; exact ⟨rfl, h0⟩
  | cons q L ih =>
    simp only [nlLoop] at h
    split at h
    · cases h
    · rename_i s1 h1
      have a := hf _ _ _ h1
      have b := ih h a.2
      simp only [List.length_cons]; omega

end overflow

/-- C21 fails for inner products: `NUM_EQ_PROD`, on which the number of nodes allocated is based, does not count the products inside
`adolc_vec_dot` (valuetape.h:251 adds them to another counter), so that the sweep writes beyond the end of `fod` as soon as
the vectors are longer than a constant, however many operations (`extra`) are not modelled here. -/
theorem C21_vec_dot_overflow (extra q : Nat) (hq : extra + 2 < q) (s' : NS) :
    nlSafeRun (maxopind (dotTape q) + extra) (dotTape q) NS.init ≠ .ok s' := by
  have hM : maxopind (dotTape q) = 2 * q + 6 := by
    have h1 : (dotTape q).length = 2 * q + 4 := by simp [dotTape, List.length_flatMap]; omega
    have h2 : (dotTape q).countP isEqProd = 0 := by
      rw [List.countP_eq_zero]; intro o ho
      simp only [dotTape, List.mem_append, List.mem_flatMap, List.mem_cons, List.not_mem_nil, or_false] at ho
      rcases ho with ⟨a, _, rfl | rfl⟩ | rfl | rfl | rfl | rfl <;> simp [isEqProd]
    rw [maxopind, h1, h2]
  rw [hM]
  generalize hMM : 2 * q + 6 + extra = M
  have hlt : M < 4 * q + 2 := by omega
  have pre : ∀ (L : List Nat) (rest : List (Base ℝ)) (s s' : NS),
      nlSafeRun M (L.flatMap (fun i => [.assignD0 i, .assignInd i]) ++ rest) s = .ok s' → s.op ≤ M →
      ∃ s1, nlSafeRun M rest s1 = .ok s' ∧ s1.op = s.op + 2 * L.length ∧ s1.op ≤ M := by
    intro L
    induction L with
    | nil => intro rest s s' h h0; exact ⟨s, h, rfl, h0⟩
    | cons i L ih =>
      intro rest s s' h h0
      simp only [List.flatMap_cons, List.cons_append, List.nil_append, nlSafeRun, nlStep] at h
      split at h
      · cases h
      · rename_i s1 h1
        have a := node_op h1
        split at h
        · cases h
        · rename_i s2 h2
          split at h2
          · cases h2
          · rename_i s3 h3
            have b := node_op h3
            cases h2
            obtain ⟨s4, c1, c2, c3⟩ := ih rest _ s' h (by simp only; omega)
            refine ⟨s4, c1, ?_, c3⟩
            simp only [List.length_cons] at c2 ⊢; omega
  intro h
  obtain ⟨s1, h1, h2, h3⟩ := pre _ _ _ _ h (by simp [NS.init])
  simp only [List.length_range, NS.init] at h2
  simp only [nlSafeRun] at h1
  split at h1
  · cases h1
  · rename_i s2 k2
    simp only [nlStep] at k2
    have a := node_op k2
    split at h1
    · cases h1
    · rename_i s3 k3
      simp only [nlStep] at k3
      split at k3
      · cases k3
      · rename_i s4 k4
        have b := node_op k4
        have c := nlLoop_op (M := M) (fun q s s' hh => by have := nodeP_op hh; omega) _ k3 (by omega)
        simp only [List.length_range] at c
        omega

end real
end Verif.Props.Sparse
