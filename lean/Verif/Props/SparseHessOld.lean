import Verif.Sparse.HessOldRun
import Verif.Props.SparseHess
/-!
Property C21, control flow modes `OldSafe` and `OldTight`.  Reading guide: `hessPatOldSafe n tape` is
`hess_pat<OldSafe>` and `hessPatOldTight x par n tape` is `hess_pat<OldTight>` at the base point `x`, for a trace with
`n` independents; row `i` of the result is `count :: columns`; an `.error .undef` means that memory that
was given back is used.
-/
set_option linter.all false
namespace Verif.Props.Sparse
open Verif.AD Verif.Sparse Verif.Props.AD Filter Topology ContDiff

/-- Not `erf` and `erfc` themselves (the sweeps record no interaction for these operations). -/
def notErf {K : Type} : Stmt K → Prop
  | .quad .erf _ _ _ | .quad .erfc _ _ _ => False
  | _ => True

section
variable {K : Type} [Scalar K]

theorem emits_old {st : Stmt K} (h : idxStmt st) (he : notErf st) :
    emits (fun o : Base K => oldOk o ∧ domOk (none : Option (Nat → K)) o ∧ noStop o) st := by
  cases st <;> simp only [emits, idxStmt] at h ⊢
  case bin f lv a b d =>
    intro v w la lb ld h1 h2
    have : ld ≠ lb ∨ ld = la := by rw [ne_eq, h1, h2]; exact h
    cases f <;> simp only [Bin.op, domOk, noStop, oldOk, and_true, true_and] <;> tauto
  case cond r c a b =>
    intro v lr lc la lb h1 h2
    have : lr ≠ lb ∨ lr = la := by rw [ne_eq, h1, h2]; exact h
    simp only [domOk, noStop, oldOk, and_true, true_and]; tauto
  case condEq r c a b =>
    intro v lr lc la lb h1 h2
    have : lr ≠ lb ∨ lr = la := by rw [ne_eq, h1, h2]; exact h
    simp only [domOk, noStop, oldOk, and_true, true_and]; tauto
  case accD f d c => cases f <;> simp [Acc.opD, domOk, noStop, oldOk]
  case accA f d a => cases f <;> simp [Acc.opA, domOk, noStop, oldOk]
  case accR m d a => cases m <;> simp [Acc.opA, domOk, noStop, oldOk]
  case un f a d =>
    intro v a r hda
    cases f <;> simp only [Un.op, opPlusD, opMinD, opMultD] <;> (try split_ifs) <;> simp [domOk, noStop, oldOk]
  case trig co a b d => cases co <;> simp [domOk, noStop, oldOk]
  case quad q a b d => cases q <;> simp_all [domOk, noStop, oldOk, notErf]
  case newD d c => intro r; simp only [opAssignD]; split_ifs <;> simp [domOk, noStop, oldOk]
  case setD d c => intro r; simp only [opAssignD]; split_ifs <;> simp [domOk, noStop, oldOk]
  all_goals first | trivial | simp [domOk, noStop, oldOk]

theorem emits_oldT {st : Stmt K} (h : idxStmtT st) (he : notErf st) :
    emits (fun o : Base K => oldOk o ∧ (∀ T, domOk (some T) o) ∧ noStop o ∧ notCondS o) st := by
  cases st <;> simp only [emits, idxStmtT] at h ⊢
  case bin f lv a b d =>
    intro v w la lb ld h1 h2
    have : ld ≠ lb ∨ ld = la := by rw [ne_eq, h1, h2]; exact h
    cases f <;> simp only [Bin.op, domOk, noStop, notCondS, oldOk, and_true, true_and] <;> intros <;> tauto
  case accD f d c => cases f <;> simp [Acc.opD, domOk, noStop, notCondS, oldOk]
  case accA f d a => cases f <;> simp [Acc.opA, domOk, noStop, notCondS, oldOk]
  case accR m d a => cases m <;> simp [Acc.opA, domOk, noStop, notCondS, oldOk]
  case un f a d =>
    intro v a r hda
    cases f <;> simp only [Un.op, opPlusD, opMinD, opMultD] <;> (try split_ifs) <;> simp [domOk, noStop, notCondS, oldOk]
  case trig co a b d => cases co <;> simp [domOk, noStop, notCondS, oldOk]
  case quad q a b d => cases q <;> simp_all [domOk, noStop, oldOk, notErf, notCondS]
  case newD d c => intro r; simp only [opAssignD]; split_ifs <;> simp [domOk, noStop, notCondS, oldOk]
  case setD d c => intro r; simp only [opAssignD]; split_ifs <;> simp [domOk, noStop, notCondS, oldOk]
  all_goals first | trivial | simp [domOk, noStop, notCondS, oldOk]

theorem allStmts_and {Q R : Stmt K → Prop} : ∀ p : Prog K, allStmts Q p → allStmts R p → allStmts (fun st => Q st ∧ R st) p
  | .done, _, _ => trivial
  | .stmt st k, hp, hq => ⟨⟨hp.1, hq.1⟩, allStmts_and k hp.2 hq.2⟩
  | .branch _ _ t f, hp, hq => ⟨allStmts_and t hp.1 hq.1, allStmts_and f hp.2 hq.2⟩
end

section real
variable {cfg : RCfg ℝ} {stock : List (Nat × List ℝ)} {s s' : Rec ℝ} {p : Prog ℝ} {N : Nat}

/-- Before the first independent everything is constant. -/
theorem ha_const {n : Nat} (x0 : Fin n → ℝ) (L : Set Nat) (D R) {z : ZS ℝ} (h1 : z.ii = 0) (h2 : z.y = []) :
    HA x0 L D R 0 (fun _ => z) :=
  ⟨⟨fun l => contDiffAt_const, fun e => h1, [], fun e => h2, by simp⟩, fun a _ => .const _, [], fun e => h2, by simp⟩

/-- The whole trace in safe mode, with the values of the objects alive at `trace_on` in front. -/
theorem old_safe_full {n : Nat} {x0 : Fin n → ℝ} {par : Nat → ℝ} {body : List (Base ℝ)} (hw : WfTrace stock body N)
    (hok : ∀ o ∈ fullTrace stock body N, oldOk o ∧ domOk (none : Option (Nat → ℝ)) o) (hab : ∀ o ∈ body, absOk o)
    {S' : OS} {z0 : ZS ℝ} (hz1 : z0.ii = 0) (hz2 : z0.y = [])
    (hs : Along (smoothS .ho) ⟨ext x0, par, false⟩ (fullTrace stock body N) z0)
    (hz : ∃ z, zosRun ⟨ext x0, par, false⟩ (fullTrace stock body N) z0 = .ok z)
    (ha : S'.alive) (hn : oldSafeRun (fullTrace stock body N) OS.init = .ok S') :
    ∃ F : (Fin n → ℝ) → ZS ℝ, (∀ᶠ e in 𝓝 x0, zosRun ⟨ext e, par, false⟩ (fullTrace stock body N) z0 = .ok (F e)) ∧
      HA x0 ∅ S'.D S'.rel S'.is.ii F := by
  obtain ⟨hN, hst, hb⟩ := hw
  clear hst
  obtain ⟨Z, hb', _⟩ := WfFrom.death hN hb
  unfold fullTrace at *
  induction stock generalizing z0 with
  | nil =>
    simp only [List.map_nil, List.nil_append] at *
    refine old_safe_run (c := fun e => ⟨ext e, par, false⟩) (fun e => rfl) (ext_sp x0) hb' (fun o ho => ⟨(hok o ho).1, (hok o ho).2, ?_⟩) oinv_init
      (ha_const x0 _ _ _ hz1 hz2) hs hz ha hn
    rcases List.mem_append.1 ho with h | h
    · exact hab o h
    · rw [List.mem_singleton.1 h]; trivial
  | cons q stock ih =>
    simp only [List.map_cons, List.cons_append] at *
    obtain ⟨z, hz⟩ := hz
    simp only [zosRun] at hz
    have hstep : ∃ z1, (∀ e : Fin n → ℝ, zosStep ⟨ext e, par, false⟩ (.takeStock q.1 q.2) z0 = .ok z1) ∧ z1.ii = 0 ∧ z1.y = [] := by
      refine ⟨_, fun e => rfl, ?_⟩
      have : ∀ (vs : List ℝ) (p : Nat × ZS ℝ), p.2.ii = 0 → p.2.y = [] →
          (vs.foldl (fun (p : Nat × ZS ℝ) k => (p.1 + 1, p.2.set p.1 k)) p).2.ii = 0 ∧
          (vs.foldl (fun (p : Nat × ZS ℝ) k => (p.1 + 1, p.2.set p.1 k)) p).2.y = [] := by
        intro vs
        induction vs with
        | nil => intro p h1 h2; exact ⟨h1, h2⟩
        | cons v vs ih => intro p h1 h2; exact ih _ h1 h2
      exact this q.2 (q.1, z0) hz1 hz2
    obtain ⟨z1, g1, g2, g3⟩ := hstep
    rw [g1 x0] at hz
    obtain ⟨F, f1, f2⟩ := ih (fun o ho => hok o (List.mem_cons_of_mem _ ho)) g2 g3 (hs.2 _ (g1 x0)) ⟨z, hz⟩ hn
    refine ⟨F, ?_, f2⟩
    filter_upwards [f1] with e he
    simp only [zosRun, g1 e]
    exact he

/-- From the invariant at the end of the sweep to the function computed. -/
theorem hess_of_ha (h : Traced cfg stock s p s' N) (par : Nat → ℝ) {n : Nat} (x0 : Fin n → ℝ) {D R} {ii : Nat} {S' : (Fin n → ℝ) → ZS ℝ}
    (h1 : ∀ᶠ e in 𝓝 x0, zosRun ⟨ext e, par, false⟩ (s'.tape N) ZS.init = .ok (S' e)) (h2 : HA x0 ∅ D R ii S') (k : Nat) (i j : Fin n)
    (hne : fderiv ℝ (fderiv ℝ (fun x => p.out (ext x) par s.se k)) x0 (Pi.single i 1) (Pi.single j 1) ≠ 0) : R i j := by
  obtain ⟨fy, y1, y2⟩ := h2.y
  have hev : (fun x => p.out (ext x) par s.se k) =ᶠ[𝓝 x0] fun x => (S' x).y[k]?.getD 0 := by
    filter_upwards [h1] with x t1
    rcases recorded_forward h.alloc p h.start h.recorded (fun _ => 0) ⟨ext x, par, false⟩ N with ⟨e', z', k1, k2, k3, k4⟩ | ⟨k1, k2⟩
    · rw [show ZS.start (fun _ => (0 : ℝ)) = ZS.init from rfl, t1] at k2; cases k2
      simp only [Prog.out, k1, k3]
    · rw [show ZS.start (fun _ => (0 : ℝ)) = ZS.init from rfl, t1] at k1; cases k1
  have hsp : Sp x0 (fun x => (S' x).y[k]?.getD 0) (fun _ => True) R := by
    simp only [y1, List.getElem?_map]
    rcases hq : fy[k]? with _ | f
    · simpa using Sp.const 0
    · simpa using y2 f (List.mem_of_getElem? hq)
  have := hsp.congr hev
  by_contra hr
  apply hne
  rw [← d2_eq this.sm]
  exact this.two i j hr

/-- C21 (mode `OldSafe`; partial: without the calls excluded by `idxStmt`, see `C21_old_division`, without `erf` and `erfc`, and without vector
operations).  With at most 20 independents `hess_pat` succeeds (`C21_old_dangling` shows that 20 cannot be replaced by 21).  Whenever it
succeeds, row `i` is its count followed by strictly increasing column numbers below the number of independents; the pattern is symmetric;
and whatever the point `x0` (on the recorded path, where the elementary functions are smooth) and the parameters, every
entry of the Hessian of every dependent that does not vanish there is listed. -/
theorem C21_old_safe_partial (h : Traced cfg stock s p s' N) (hd : p.disc ⟨Set.univ, ∅⟩) (hp : allStmts idxStmt p) (he : allStmts notErf p) :
    (numInd (s'.tape N) ≤ 20 → ∃ rows, hessPatOldSafe (numInd (s'.tape N)) (s'.tape N) = .ok rows) ∧
    ∀ rows, hessPatOldSafe (numInd (s'.tape N)) (s'.tape N) = .ok rows →
    ∃ cols : Nat → List Nat,
      rows = (List.range (numInd (s'.tape N))).map (fun i => (cols i).length :: cols i) ∧
      (∀ i, (cols i).Pairwise (· < ·) ∧ ∀ j ∈ cols i, j < numInd (s'.tape N)) ∧
      (∀ i j, j ∈ cols i ↔ i ∈ cols j) ∧
      ∀ (par : Nat → ℝ) (n : Nat) (x0 : Fin n → ℝ) (e0 : SE ℝ),
        p.spec (ext x0) par s.se = some (e0, p.path cfg s) → p.smooth .ho (ext x0) par s.se →
        ∀ (k : Nat) (i j : Fin n),
          fderiv ℝ (fderiv ℝ (fun x => p.out (ext x) par s.se k)) x0 (Pi.single i 1) (Pi.single j 1) ≠ 0 →
          (j : Nat) ∈ cols i := by
  have hops := emits_tape h.alloc (P := fun o : Base ℝ => oldOk o ∧ domOk (none : Option (Nat → ℝ)) o ∧ noStop o)
    (by simp [domOk, noStop, oldOk]) (by simp [domOk, noStop, oldOk]) (by simp [domOk, noStop, oldOk]) p
    (allStmts_mono (fun st hh => emits_old hh.1 hh.2) p (allStmts_and p hp he)) h.start h.recorded N
  refine ⟨fun hn => ?_, fun rows hr => ?_⟩
  · obtain ⟨S, k1, k2⟩ := old_safe_total (fun o ho => ⟨(hops o ho).1, (hops o ho).2.2⟩) oinv_init alive_init
      (by simpa [OS.init, IS.init, NUMNNZ] using hn)
    obtain ⟨rows, k3⟩ := oldRows_total k2 (numInd (s'.tape N))
    exact ⟨rows, by simp only [hessPatOldSafe, k1, k3]⟩
  · unfold hessPatOldSafe at hr
    split at hr
    · cases hr
    · rename_i S k1
      obtain ⟨i1, i2, _⟩ := old_safe_inv (fun o ho => (hops o ho).1) oinv_init k1
      have i2' : numInd (s'.tape N) = S.is.ii := by rw [i2]; simp [OS.init, IS.init]
      obtain ⟨ha, cols, c1, c2, c3⟩ := oldRows_spec i1 i2' hr
      refine ⟨cols, c1, c2, fun i j => ?_, ?_⟩
      · rw [c3, c3]; exact ⟨i1.sym ha i j, i1.sym ha j i⟩
      · intro par n x0 e0 hspec hsm k i j hne
        rw [c3]
        have hA := recorded_smooth h.alloc p h.start h.recorded (fun _ => 0) ⟨ext x0, par, false⟩ hspec hsm N
        obtain ⟨z, hz, _⟩ := C09_zos_forward h (ext x0) par false hspec
        obtain ⟨body, hb1, hb2⟩ := recorded_wf h.alloc p h.start hd h.recorded h.pos h.size
        have hbody : ∀ o ∈ body, absOk o := by
          have := hb2.body
          have hops' : ∀ o ∈ body, oldOk o := fun o ho => (hops o (by rw [hb1]; simp [fullTrace, ho])).1
          clear hb1 hb2
          revert this
          generalize Set.univ = Z
          induction body generalizing Z with
          | nil => simp
          | cons o os ih =>
            intro hw o' ho'
            rcases List.mem_cons.1 ho' with rfl | ho'
            · obtain ⟨_, w2, _⟩ := hw
              have := hops' o' (by simp)
              cases o' <;> first | trivial | exact this.elim | exact (w2 : False).elim
            · exact ih (fun o ho => hops' o (List.mem_cons_of_mem _ ho)) _ hw.2.2.2.2 o' ho'
        rw [hb1] at hA hz k1 hops
        obtain ⟨F, f1, f2⟩ := old_safe_full (x0 := x0) (par := par) hb2 (fun o ho => ⟨(hops o ho).1, (hops o ho).2.1⟩) hbody rfl rfl hA ⟨z, hz⟩ ha k1
        rw [← hb1] at f1
        exact hess_of_ha h par x0 f1 f2 k i j hne

/-- C21 (mode `OldTight`; partial: as in mode `OldSafe`, in addition without the two-argument conditional assignments, and only if no `adouble` is
alive at `trace_on`).  At a base point `x0` on the recorded path, where the elementary functions are smooth, `hess_pat` succeeds with at most 20
independents; whenever it succeeds, its rows are sorted and symmetric, and every entry of the Hessian of every dependent that does not vanish
at `x0` is listed. -/
theorem C21_old_tight_partial (h : Traced cfg [] s p s' N) (hd : p.disc ⟨Set.univ, ∅⟩) (hp : allStmts idxStmtT p) (he : allStmts notErf p)
    (par : Nat → ℝ) (n : Nat) (x0 : Fin n → ℝ) (e0 : SE ℝ)
    (hspec : p.spec (ext x0) par s.se = some (e0, p.path cfg s)) (hsm : p.smooth .ho (ext x0) par s.se) :
    (numInd (s'.tape N) ≤ 20 → ∃ rows, hessPatOldTight (ext x0) par (numInd (s'.tape N)) (s'.tape N) = .ok rows) ∧
    ∀ rows, hessPatOldTight (ext x0) par (numInd (s'.tape N)) (s'.tape N) = .ok rows →
    ∃ cols : Nat → List Nat,
      rows = (List.range (numInd (s'.tape N))).map (fun i => (cols i).length :: cols i) ∧
      (∀ i, (cols i).Pairwise (· < ·) ∧ ∀ j ∈ cols i, j < numInd (s'.tape N)) ∧
      (∀ i j, j ∈ cols i ↔ i ∈ cols j) ∧
      ∀ (k : Nat) (i j : Fin n),
        fderiv ℝ (fderiv ℝ (fun x => p.out (ext x) par s.se k)) x0 (Pi.single i 1) (Pi.single j 1) ≠ 0 →
        (j : Nat) ∈ cols i := by
  have hops := emits_tape h.alloc (P := fun o : Base ℝ => oldOk o ∧ (∀ T, domOk (some T) o) ∧ noStop o ∧ notCondS o)
    (by simp [domOk, noStop, oldOk, notCondS]) (by simp [domOk, noStop, oldOk, notCondS]) (by simp [domOk, noStop, oldOk, notCondS]) p
    (allStmts_mono (fun st hh => emits_oldT hh.1 hh.2) p (allStmts_and p hp he)) h.start h.recorded N
  obtain ⟨z, hz, _⟩ := C09_zos_forward h (ext x0) par false hspec
  refine ⟨fun hn => ?_, fun rows hr => ?_⟩
  · obtain ⟨S, k1, k2⟩ := old_tight_total (c := ⟨ext x0, par, false⟩) (fun o ho => ⟨(hops o ho).1, (hops o ho).2.2⟩) oinv_init alive_init
      (by simpa [OS.init, IS.init, NUMNNZ] using hn) hz
    obtain ⟨rows, k3⟩ := oldRows_total k2 (numInd (s'.tape N))
    have k1' : oldTightRun ⟨ext x0, par, false⟩ (s'.tape N) (ZS.init : ZS ℝ) OS.init = .ok S := k1
    exact ⟨rows, by unfold hessPatOldTight; rw [k1']; exact k3⟩
  · unfold hessPatOldTight at hr
    split at hr
    · cases hr
    · rename_i S k1
      obtain ⟨i1, i2, _⟩ := old_tight_inv (fun o ho => (hops o ho).1) oinv_init k1
      have i2' : numInd (s'.tape N) = S.is.ii := by rw [i2]; simp [OS.init, IS.init]
      obtain ⟨ha, cols, c1, c2, c3⟩ := oldRows_spec i1 i2' hr
      refine ⟨cols, c1, c2, fun i j => ?_, ?_⟩
      · rw [c3, c3]; exact ⟨i1.sym ha i j, i1.sym ha j i⟩
      · intro k i j hne
        rw [c3]
        have hA := recorded_smooth h.alloc p h.start h.recorded (fun _ => 0) ⟨ext x0, par, false⟩ hspec hsm N
        obtain ⟨body, hb1, hb2⟩ := recorded_wf h.alloc p h.start hd h.recorded h.pos h.size
        obtain ⟨Z, hb3, _⟩ := WfFrom.death hb2.pos hb2.body
        have hw : WfFrom N Z (s'.tape N) := by rw [hb1]; simpa [fullTrace] using hb3
        obtain ⟨F, f1, f2⟩ := old_tight_run (c := fun e => ⟨ext e, par, false⟩) (fun e => rfl) (ext_sp x0) hw
          (fun o ho => ⟨(hops o ho).1, (hops o ho).2.1, by
            have := (hops o ho).1
            have h2 := (hops o ho).2.2.2
            cases o <;> first | trivial | exact this.elim | exact h2.elim, (hops o ho).2.2.2⟩) oinv_init
          (ha_const x0 _ _ _ rfl rfl) hA ⟨z, hz⟩ ha k1
        exact hess_of_ha h par x0 f1 f2 k i j hne

/-- The hypotheses are met by the demo program (for the remaining ones see the examples in `Props/SparseHess.lean`). -/
example : allStmts idxStmt demo ∧ allStmts idxStmtT demo ∧ allStmts notErf demo := by simp [demo, allStmts, idxStmt, idxStmtT, notErf]

/-- A pattern in which something has to be listed: `y = x0 * x1`. -/
example : hessPatOldSafe 2 [.assignInd 0, .assignInd 1, .assignD0 2, .multAA 0 1 2, .assignDep (K := ℝ) 2, .deathNot 0 2] =
    .ok [[1, 1], [1, 0]] := rfl

/-- `fmin` and `condassign`, which the newer sweep in safe mode cannot handle (`C21_safe_fmin`): here they can. -/
example : ∃ s', fminSrc.record demoCfg demoStart = some s' ∧ hessPatOldSafe 2 (s'.tape 5) = .ok [[2, 0, 1], [2, 0, 1]] := by
  have key : ∃ s' k, fminSrc.record demoCfg demoStart = some s' ∧ s'.tape 5 =
      [.assignD0 1, .assignInd 1, .assignD0 2, .assignInd 2, .assignD0 3, .minOp 1 2 3 k, .assignD0 4,
        .multAA 3 3 4, .assignDep 4, .deathNot 0 4] := ⟨_, _, rfl, rfl⟩
  obtain ⟨s', k, h1, h2⟩ := key
  exact ⟨s', h1, by
    rw [h2]
    simp [hessPatOldSafe, oldSafeRun, oldStep, idStep, OS.init, IS.init, IS.map, oldExts, binaryP, unaryP, OS.exts, OS.ext,
      extLoop, extOne, NUMNNZ, oldRows, combine2, merge2, merge3, copyDom, mergeU, upd_apply, List.range_succ]⟩

/-! ### Where the code deviates -/

/-- C21 fails in the old modes when the result of an operation is its second argument: for `y = x0 / (x1 * x2)` the interaction of `x0` and `x1`
is not listed, whereas the mixed second derivative at `(1, 1, 1)` is -1 (the domain of the divisor is overwritten, as in
`C20_index_division`). -/
theorem C21_old_division :
    ∃ s', divSrc.record demoCfg demoStart = some s' ∧
    hessPatOldSafe 3 (s'.tape 5) = .ok [[1, 0], [1, 2], [1, 1]] ∧
    hessPatOldTight (fun _ => 1) (fun _ => 0) 3 (s'.tape 5) = .ok [[1, 0], [1, 2], [1, 1]] ∧
    ∀ x : Fin 3 → ℝ, divSrc.out (ext x) (fun _ => 0) demoStart.se 0 = x 0 / (x 1 * x 2) := by
  have key : ∃ s', divSrc.record demoCfg demoStart = some s' ∧ s'.tape 5 =
      [.assignD0 1, .assignInd 1, .assignD0 2, .assignInd 2, .assignD0 3, .assignInd 3, .assignD0 4,
        .multAA 2 3 4, .divAA 1 4 4, .assignDep 4, .deathNot 0 4] := ⟨_, rfl, rfl⟩
  obtain ⟨s', h1, h2⟩ := key
  refine ⟨s', h1, ?_, ?_, fun x => ?_⟩
  · rw [h2]
    simp [hessPatOldSafe, oldSafeRun, oldStep, idStep, OS.init, IS.init, IS.map, oldExts, binaryP, unaryP, OS.exts, OS.ext,
      extLoop, extOne, NUMNNZ, oldRows, combine2, merge2, merge3, copyDom, mergeU, upd_apply, List.range_succ]
  · rw [h2]
    simp [hessPatOldTight, oldTightRun, tightVal, zosStep, oldStep, idStep, ZS.init, OS.init, IS.init, IS.map, oldExts, binaryP, unaryP, OS.exts, OS.ext,
      extLoop, extOne, NUMNNZ, oldRows, combine2, merge2, copyDom, mergeU, upd_apply, ZS.set, ZS.push, List.range_succ]
  · have e0 : ext x 0 = x 0 := by simp [ext]
    have e1 : ext x 1 = x 1 := by simp [ext]
    have e2 : ext x 2 = x 2 := by simp [ext]
    simp [divSrc, Prog.out, Prog.spec, Stmt.spec, Rec.se, demoStart, upd_apply, Bin.fn, SE.set, e0, e1, e2]

/-- `y = (x0 + … + x(n-1))²` as a trace: `z = 0; z += x0; …; y = z * z`. -/
def sumSqTape (n : Nat) : List (Base ℝ) :=
  (List.range n).flatMap (fun i => [.assignD0 i, .assignInd i]) ++ ([.assignD0 n] ++
    ((List.range n).map (fun i => .eqPlusA i n) ++ [.assignD0 (n + 1), .multAA n n (n + 1), .assignDep (n + 1), .deathNot 0 (n + 1)]))

theorem oldSafe_append (as bs : List (Base ℝ)) (s : OS) :
    oldSafeRun (as ++ bs) s = match oldSafeRun as s with
      | .error e => .error e
      | .ok s' => oldSafeRun bs s' := by
  induction as generalizing s with
  | nil => rfl
  | cons o os ih =>
    simp only [List.cons_append, oldSafeRun]
    split <;> simp_all

theorem mergeU_last (k : Nat) : ∀ L : List Nat, (∀ i ∈ L, i < k) → mergeU L [k] = L ++ [k]
  | [], _ => by rw [mergeU.eq_def]; rfl
  | x :: xs, h => by
    rw [mergeU.eq_def]
    simp only [h x (by simp), if_true, List.cons_append]
    rw [mergeU_last k xs fun i hi => h i (List.mem_cons_of_mem _ hi)]

/-- C21 fails in the old modes for more than 20 independents: for `y = (x0 + … + x(n-1))²` with any `n ≥ 21` the sweep gives
back the list of an independent and goes on to use it (`extend_nonlinearity_domain_binary_step`, uni5_for.cpp:6148-6152, stores the
new list in a local variable only). -/
theorem C21_old_dangling (n : Nat) (hn : 20 < n) : hessPatOldSafe n (sumSqTape n) = .error .undef := by
  have p1 : ∀ m, ∃ d : Nat → List Nat, oldSafeRun ((List.range m).flatMap (fun i => [(.assignD0 i : Base ℝ), .assignInd i])) OS.init =
      .ok ⟨⟨d, m, []⟩, fun _ => some (20, [])⟩ ∧ ∀ i < m, d i = [i] := by
    intro m
    induction m with
    | zero => exact ⟨fun _ => [], rfl, by simp⟩
    | succ m ih =>
      obtain ⟨d, h1, h2⟩ := ih
      refine ⟨upd (upd d m []) m [m], ?_, fun i hi => ?_⟩
      · rw [List.range_succ, List.flatMap_append, oldSafe_append, h1]; rfl
      · rw [upd_apply]
        split_ifs with h
        · rw [h]
        · rw [upd_apply, if_neg h]; exact h2 i (by omega)
  obtain ⟨d, h1, h2⟩ := p1 n
  have p2 : ∀ m ≤ n, ∃ d' : Nat → List Nat, oldSafeRun ((List.range m).map (fun i => (.eqPlusA i n : Base ℝ)))
      ⟨⟨upd d n [], n, []⟩, fun _ => some (20, [])⟩ = .ok ⟨⟨d', n, []⟩, fun _ => some (20, [])⟩ ∧ d' n = List.range m ∧ ∀ i < n, d' i = [i] := by
    intro m
    induction m with
    | zero => intro _; exact ⟨_, rfl, by simp [upd_apply], fun i hi => by rw [upd_apply, if_neg (by omega)]; exact h2 i hi⟩
    | succ m ih =>
      intro hm
      obtain ⟨d', g1, g2, g3⟩ := ih (by omega)
      refine ⟨merge2 n m d', ?_, ?_, fun i hi => ?_⟩
      · rw [List.range_succ, List.map_append, oldSafe_append, g1]; rfl
      · unfold merge2
        rw [g2]
        split_ifs with h5 h6
        · have : m = 0 := by simpa using h5
          subst this
          simp [copyDom, upd_apply, g3 0 (by omega)]
        · rw [upd_same, g3 m (by omega), mergeU_last m _ (by simp), List.range_succ]
        · omega
      · unfold merge2 copyDom
        split_ifs <;> first | exact g3 i hi | (rw [upd_apply, if_neg (by omega)]; exact g3 i hi)
  obtain ⟨d', g1, g2, g3⟩ := p2 n le_rfl
  have key : oldSafeRun (sumSqTape n) OS.init = .error .undef := by
    unfold sumSqTape
    rw [oldSafe_append, h1]
    have e1 : oldSafeRun [(.assignD0 n : Base ℝ)] ⟨⟨d, n, []⟩, fun _ => some (20, [])⟩ = .ok ⟨⟨upd d n [], n, []⟩, fun _ => some (20, [])⟩ := rfl
    simp only
    rw [oldSafe_append, e1]
    simp only
    rw [oldSafe_append, g1]
    simp only
    have e2 : ∀ os, oldSafeRun ((.assignD0 (n + 1) : Base ℝ) :: os) ⟨⟨d', n, []⟩, fun _ => some (20, [])⟩ =
      oldSafeRun os ⟨⟨upd d' (n + 1) [], n, []⟩, fun _ => some (20, [])⟩ := fun _ => rfl
    rw [e2]
    have e3 : (combine2 (n + 1) n n (upd d' (n + 1) [])) n = List.range n := by
      have : (upd d' (n + 1) []) n = List.range n := by rw [upd_apply, if_neg (by omega)]; exact g2
      unfold combine2 copyDom merge2
      split_ifs <;> (try unfold copyDom) <;> simp only [upd_apply] <;> (repeat rw [if_neg (show n ≠ n + 1 by omega)]) <;> first | exact this | exact g2
    generalize hd3 : combine2 (n + 1) n n (upd d' (n + 1) []) = d3 at e3
    have e4 : oldStep (none : Option (Nat → ℝ)) (.multAA n n (n + 1)) ⟨⟨upd d' (n + 1) [], n, []⟩, fun _ => some (20, [])⟩ =
        OS.exts [(n, n), (n, n)] ⟨⟨d3, n, []⟩, fun _ => some (20, [])⟩ := by rw [← hd3]; rfl
    have e5 : ∀ (A : List Nat) (nl : Nat → Option (Nat × List Nat)), A.Nodup → (∀ i ∈ A, nl i = some (20, [])) →
        ∃ nl', extLoop (List.range n) A nl = .ok nl' ∧ ∀ i ∈ A, nl' i = none := by
      intro A
      induction A with
      | nil => intro nl _ _; exact ⟨nl, rfl, by simp⟩
      | cons i A ih =>
        intro nl hA hnl
        obtain ⟨hi, hA⟩ := List.nodup_cons.1 hA
        have e6 : extOne (List.range n) i nl = .ok (upd nl i none) := by
          unfold extOne
          rw [hnl i (by simp)]
          simp [hn]
        obtain ⟨nl', k1, k2⟩ := ih (upd nl i none) hA (fun k hk => by
          rw [upd_apply, if_neg (show k ≠ i from fun hh => hi (hh ▸ hk))]; exact hnl k (List.mem_cons_of_mem _ hk))
        refine ⟨nl', by simp only [extLoop, e6, k1], fun k hk => ?_⟩
        rcases List.mem_cons.1 hk with rfl | hk
        · rw [(extLoop_spec k1).2.2 k hi, upd_same]
        · exact k2 k hk
    obtain ⟨nl', k1, k2⟩ := e5 (List.range n) (fun _ => some (20, [])) List.nodup_range (fun _ _ => rfl)
    have k3 : extLoop (List.range n) (List.range n) nl' = .error .undef := by
      obtain ⟨m, rfl⟩ : ∃ m, n = m + 1 := ⟨n - 1, by omega⟩
      have : extOne (List.range (m + 1)) 0 nl' = .error .undef := by unfold extOne; rw [k2 0 (by simp)]
      rw [show extLoop (List.range (m + 1)) (List.range (m + 1)) nl' =
        extLoop (List.range (m + 1)) (0 :: (List.range m).map Nat.succ) nl' from by rw [← List.range_succ_eq_map]]
      simp only [extLoop, this]
    have e7 : OS.exts [(n, n), (n, n)] ⟨⟨d3, n, []⟩, fun _ => some (20, [])⟩ = .error .undef := by
      simp only [OS.exts, OS.ext, e3, k1, k3]
    simp only [oldSafeRun, e4, e7]
  unfold hessPatOldSafe
  rw [key]

end real
end Verif.Props.Sparse
