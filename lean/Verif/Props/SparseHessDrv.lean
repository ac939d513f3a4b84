import Verif.Sparse.SparseHess
import Verif.AD.HovRc
import Verif.Props.SparseHess
import Verif.Props.SparseHessOld
import Verif.Props.SparseJac
import Mathlib.Analysis.Calculus.FDeriv.Symmetric
/-!
# C53: `sparse_hess`

Reading guide: `F p s par n 0` is the dependent of the traced program as a function of the `n` independents;
`sparseHess cp cm md tape rep x rrc J nnz mem` is one call of `sparse_hess` (`cm`: control flow mode; `md`: recovery
method; `rep`: `repeat`), where `J` is what the tape keeps from earlier calls, `nnz` and `mem` are the caller's `*nnz` and arrays
(`none`: null pointers), `rrc` is the code `hos_ov_reverse` returns.
-/
set_option linter.all false
noncomputable section
namespace Verif.Props.SparseHess
open Verif.AD Verif.Sparse Verif.Props.AD Verif.Props.Sparse Verif.Props.Drivers Verif.Drivers Verif.Props.SparseJac Filter Topology ContDiff

/-- The second partial derivative with respect to independents `i` and `j`. -/
def hs (p : Prog ℝ) (s : Rec ℝ) (par : ℕ → ℝ) {n : ℕ} (x0 : Fin n → ℝ) (i j : ℕ) : ℝ :=
  if h : i < n ∧ j < n then fderiv ℝ (fderiv ℝ (F p s par n 0)) x0 (Pi.single ⟨i, h.1⟩ 1) (Pi.single ⟨j, h.2⟩ 1) else 0

/-- What a sparse Hessian at `x0` must be: the upper triangle ordered by row and column; every entry is a second partial
derivative; all others vanish. -/
structure IsHessian (p : Prog ℝ) (s : Rec ℝ) (par : ℕ → ℝ) {n : ℕ} (x0 : Fin n → ℝ) (E : List (Entry ℝ)) : Prop where
  smooth : ContDiffAt ℝ 2 (F p s par n 0) x0
  sorted : E.Pairwise fun e e' => e.1 < e'.1 ∨ (e.1 = e'.1 ∧ e.2.1 < e'.2.1)
  value : ∀ e ∈ E, e.1 ≤ e.2.1 ∧ e.2.1 < n ∧ e.2.2 = hs p s par x0 e.1 e.2.1
  zero : ∀ i j, i ≤ j → j < n → (∀ v, (i, j, v) ∉ E) → hs p s par x0 i j = 0

variable {cfg : RCfg ℝ} {stock : List (Nat × List ℝ)} {s s' : Rec ℝ} {p : Prog ℝ} {N : Nat}

/-- The pattern covers the second derivatives at `x0`. -/
def HCov (p : Prog ℝ) (s : Rec ℝ) (par : ℕ → ℝ) {n : ℕ} (x0 : Fin n → ℝ) (HP : List (List ℕ)) : Prop :=
  ∀ i j, i < n → j < n → j ∉ patRow HP i → hs p s par x0 i j = 0

/-- The tape's data after a pattern has been computed and coloured. -/
structure HReady (cp : HColPack ℝ) (md : RMode) (n : ℕ) (HP : List (List ℕ)) (J : SH) : Prop where
  pat : SymPat n HP
  rows : J.HP = HP.map some
  nnz : J.nnz = nnzUpper HP
  graph : J.graph = some (md, cp.colour md HP n)

theorem two_le_inf : (2 : WithTop ℕ∞) ≤ ∞ := WithTop.coe_le_coe.2 (le_top : (2 : ℕ∞) ≤ ⊤)

theorem hs_symm (h : Traced cfg stock s p s' N) (par : ℕ → ℝ) {n : ℕ} (x0 : Fin n → ℝ) {e0 : SE ℝ}
    (hspec : p.spec (ext x0) par s.se = some (e0, p.path cfg s)) (hsm : p.smooth .ho (ext x0) par s.se) (i j : ℕ) :
    hs p s par x0 i j = hs p s par x0 j i := by
  unfold hs
  by_cases hi : i < n <;> by_cases hj : j < n <;> simp only [hi, hj, and_true, true_and, and_false, false_and, dif_pos, dif_neg, not_false_eq_true, and_self]
  have hcd := (recorded_contDiff h.alloc p h.start h.recorded par x0 hspec hsm 0).1
  have := (hcd.isSymmSndFDerivAt (n := ∞) (by simpa using two_le_inf)).eq (Pi.single (⟨i, hi⟩ : Fin n) (1:ℝ)) (Pi.single (⟨j, hj⟩ : Fin n) (1:ℝ))
  exact this

theorem isHessian (h : Traced cfg stock s p s' N) (par : ℕ → ℝ) {n : ℕ} (x0 : Fin n → ℝ) {e0 : SE ℝ}
    (hspec : p.spec (ext x0) par s.se = some (e0, p.path cfg s)) (hsm : p.smooth .ho (ext x0) par s.se)
    {HP : List (List ℕ)} (hp : SymPat n HP) (hcov : HCov p s par x0 HP) :
    IsHessian p s par x0 (upperEntries HP (hs p s par x0)) := by
  refine ⟨((recorded_contDiff h.alloc p h.start h.recorded par x0 hspec hsm 0).1).of_le two_le_inf,
    (entries_sorted hp.sorted _).filter _, fun e he => ?_, fun i j hij hj hE => ?_⟩
  · simp only [upperEntries, List.mem_filter, decide_eq_true_eq] at he
    obtain ⟨he, hle⟩ := he
    rw [mem_entries] at he
    refine ⟨hle, ?_, he.2.2⟩
    refine hp.lt HP[e.1] (List.getElem_mem he.1) _ ?_
    have := he.2.1
    simpa [patRow, List.getElem?_eq_getElem he.1] using this
  · refine hcov i j (by omega) hj fun hin => hE (hs p s par x0 i j) ?_
    simp only [upperEntries, List.mem_filter, decide_eq_true_eq]
    rw [mem_entries]
    exact ⟨⟨by rw [hp.len]; show i < n; omega, hin, rfl⟩, hij⟩

/-- The numeric part, with a pattern that fits. -/
theorem hnumeric (h : Traced cfg stock s p s' N) (hd : p.disc ⟨Set.univ, ∅⟩) (hns : HORevVec.noSums p) {cp : HColPack ℝ} (hcp : cp.Correct)
    (par : ℕ → ℝ) {n : ℕ} (x0 : Fin n → ℝ) {e0 : SE ℝ} (hspec : p.spec (ext x0) par s.se = some (e0, p.path cfg s))
    (hsm : ∀ᶠ x in 𝓝 x0, p.smooth .hor (ext x) par s.se) (hn0 : 0 < n) (c1 : e0.ii = n) (c2 : e0.ys.length = 1)
    (md : RMode) {rrc : ℤ} (hr : 0 ≤ rrc) {HP : List (List ℕ)} {J : SH} (hJ : HReady cp md n HP J)
    (hcov : HCov p s par x0 HP) :
    ∃ rc, 0 ≤ rc ∧ ∀ nnz mem, computeHess cp md (tapeOf s' N par n 1) (ext x0) rrc J nnz mem =
      if J.nnz ≠ nnz then .ret (-3) J nnz mem
      else match deliver (upperEntries HP (hs p s par x0)) mem with
        | none => .undef
        | some M => .ret rc J nnz (some M) := by
  obtain ⟨g1, g2⟩ := hcp md _ HP hJ.pat
  have hg := hJ.graph
  rcases hcg : cp.colour md HP n with ⟨col, k⟩
  rw [hcg] at g1 g2 hg
  simp only at g1 g2 hg
  have hk0 : 0 < k := by have := g1 0 hn0; omega
  have hsm' : ∀ v : Fin n → ℝ, ∀ᶠ t in 𝓝 (0:ℝ), p.smooth .hor (ext (x0 + t • v)) par s.se := by
    intro v
    have hc : Tendsto (fun t : ℝ => x0 + t • v) (𝓝 0) (𝓝 x0) := by
      have : Continuous fun t : ℝ => x0 + t • v := by fun_prop
      simpa using this.tendsto 0
    exact hc.eventually hsm
  have hho := Prog.smooth_ho hsm.self_of_nhds
  obtain ⟨Z, z1, z2⟩ := hessOv_spec h hd hns par (q := k) hk0 x0 (fun i l => colourSeed col i l) hspec c1 c2
    (fun l _ => hsm' _)
  have e : (fun i l => ext (fun i : Fin n => (colourSeed col i l : ℝ)) i) = fun i l => columnSeed n col i l := by
    funext i l; unfold ext columnSeed; split_ifs <;> rfl
  rw [e] at z1
  simp only [hessOv, Bind.bind, Except.bind] at z1
  cases hS : hovRun ⟨ext x0, fun i l _ => columnSeed n col i l, (tapeOf s' N par n 1).par, 1, k, 2⟩ (tapeOf s' N par n 1).ops HVS.init with
  | error e => rw [hS] at z1; cases z1
  | ok S =>
    rw [hS] at z1
    simp only [hfwd] at z1
    cases hR : hvrRun ⟨true, 2, k, fun _ => lagr fun _ => 1⟩ (tapeOf s' N par n 1).ops
        (RVS.init (tapeOf s' N par n 1).n (tapeOf s' N par n 1).m (ovRows S.stk)) with
    | error e => rw [hR] at z1; cases z1
    | ok R =>
      rw [hR] at z1
      simp only [hrev] at z1
      cases z1
      have hrc : 0 ≤ S.rc := hov_nn _ hS (by show (0:ℤ) ≤ 3; omega)
      refine ⟨mindec S.rc rrc, by unfold mindec; split_ifs <;> omega, fun nnz mem => ?_⟩
      have hrec := g2 (hs p s par x0) (fun i j _ _ => hs_symm h par x0 hspec hho i j)
        (fun i j hi hj hin => hcov i j hi hj hin) (fun l i => R.Z i l 1) (fun i c hi hc => by
          have := z2 c hc ⟨i, hi⟩
          simp only at this
          rw [this]
          have hflip : fderiv ℝ (fderiv ℝ (F p s par n 0)) x0 (fun k : Fin n => colourSeed col k c) (Pi.single ⟨i, hi⟩ 1) =
              ∑ q : Fin n, if col q = c then fderiv ℝ (fderiv ℝ (F p s par n 0)) x0 (Pi.single q 1) (Pi.single ⟨i, hi⟩ 1) else 0 := by
            have := fderiv_colour (((ContinuousLinearMap.apply ℝ ℝ (Pi.single (⟨i, hi⟩ : Fin n) (1:ℝ)))).comp (fderiv ℝ (fderiv ℝ (F p s par n 0)) x0)) col c
            simpa using this
          rw [hflip, Finset.sum_range fun j => if col j = c then hs p s par x0 i j else 0]
          refine Finset.sum_congr rfl fun q _ => ?_
          split_ifs with hq
          · rw [hs_symm h par x0 hspec hho i q]
            simp [hs, hi, q.2]
          · rfl)
      unfold computeHess
      simp only [hg]
      by_cases hnz : J.nnz = nnz
      · rw [if_neg (by simpa using hnz), if_neg (by simpa using hnz)]
        have hS' : hovRun ⟨ext x0, fun i l _ => columnSeed (tapeOf s' N par n 1).n col i l, (tapeOf s' N par n 1).par, 1, k, 2⟩
          (tapeOf s' N par n 1).ops HVS.init = .ok S := hS
        rw [hS']
        simp only
        rw [hR]
        simp only [ne_eq, not_true_eq_false, if_false, hJ.rows, allRows_some]
        rw [hrec]
        cases deliver (upperEntries HP (hs p s par x0)) mem <;> rfl
      · rw [if_pos (by simpa using hnz), if_pos (by simpa using hnz)]

/-! ### Patterns -/

theorem symPat_of_cols {n : ℕ} {cols : ℕ → List ℕ} (h : ∀ j, (cols j).Pairwise (· < ·) ∧ ∀ i ∈ cols j, i < n)
    (hsym : ∀ i j, j ∈ cols i ↔ i ∈ cols j) : SymPat n ((List.range n).map fun j => (cols j).length :: cols j) := by
  have P := pat_of_cols (m := n) h
  refine ⟨P.len, P.wf, P.lt, P.sorted, fun i j hi hj => ?_⟩
  rw [patRow_range hi, patRow_range hj]
  exact hsym i j

theorem hcov_of_cols {n : ℕ} {cols : ℕ → List ℕ} {par : ℕ → ℝ} {x0 : Fin n → ℝ}
    (h : ∀ (k : ℕ) (i j : Fin n), fderiv ℝ (fderiv ℝ (fun x => p.out (ext x) par s.se k)) x0 (Pi.single i 1) (Pi.single j 1) ≠ 0 →
      (j : ℕ) ∈ cols i) : HCov p s par x0 ((List.range n).map fun j => (cols j).length :: cols j) := by
  intro i j hi hj hin
  rw [patRow_range hi] at hin
  simp only [hs, hi, hj, and_self, dif_pos]
  by_contra hne
  exact hin (h 0 ⟨i, hi⟩ ⟨j, hj⟩ hne)

/-- Programs (with `n` independents) for which C21 gives the pattern in the control flow mode. -/
def okFor (p : Prog ℝ) (n : ℕ) : HMode → Prop
  | .safe => allStmts nlStmt p
  | .tight => allStmts nlStmtT p
  | .oldSafe => allStmts idxStmt p ∧ allStmts notErf p ∧ n ≤ 20
  | .oldTight => allStmts idxStmtT p ∧ allStmts notErf p ∧ n ≤ 20

/-- The modes whose pattern does not depend on the point. -/
def safeMode : HMode → Prop
  | .safe | .oldSafe => True
  | _ => False

/-- A safe pattern is right at all points of the recorded path. -/
theorem safe_hpattern (h : Traced cfg [] s p s' N) (hd : p.disc ⟨Set.univ, ∅⟩) {cm : HMode} (hsafe : safeMode cm)
    (hp : okFor p (numInd (s'.tape N)) cm) :
    ∃ HP, (∀ (par x : ℕ → ℝ), hessPat cm (theTape s' N par) x = .ok HP) ∧ SymPat (numInd (s'.tape N)) HP ∧
      ∀ (par : ℕ → ℝ) (x0 : Fin (numInd (s'.tape N)) → ℝ) (e0 : SE ℝ),
        p.spec (ext x0) par s.se = some (e0, p.path cfg s) → p.smooth .ho (ext x0) par s.se → HCov p s par x0 HP := by
  cases cm with
  | tight => exact hsafe.elim
  | oldTight => exact hsafe.elim
  | safe =>
    obtain ⟨cols, h1, h2, h3, h4⟩ := C21_safe_partial h hd hp
    refine ⟨(List.range (numInd (s'.tape N))).map fun j => (cols j).length :: cols j, fun par x => ?_, symPat_of_cols h2 h3, ?_⟩
    · simp only [hessPat, theTape, tapeOf, h1]
    · intro par x0 e0 hs hsm
      exact hcov_of_cols (h4 par _ x0 e0 hs hsm)
  | oldSafe =>
    obtain ⟨hp1, hp2, hn⟩ := hp
    obtain ⟨k1, k2⟩ := C21_old_safe_partial h hd hp1 hp2
    obtain ⟨rows, hr⟩ := k1 hn
    obtain ⟨cols, h1, h2, h3, h4⟩ := k2 rows hr
    subst h1
    refine ⟨_, fun par x => ?_, symPat_of_cols h2 h3, ?_⟩
    · simp only [hessPat, theTape, tapeOf, hr]
    · intro par x0 e0 hs hsm
      exact hcov_of_cols (h4 par _ x0 e0 hs hsm)

/-- A pattern, tight or not, is right at the base point. -/
theorem point_hpattern (h : Traced cfg [] s p s' N) (hd : p.disc ⟨Set.univ, ∅⟩) {cm : HMode} (hp : okFor p (numInd (s'.tape N)) cm) (par : ℕ → ℝ)
    (x0 : Fin (numInd (s'.tape N)) → ℝ) {e0 : SE ℝ}
    (hspec : p.spec (ext x0) par s.se = some (e0, p.path cfg s)) (hsm : p.smooth .ho (ext x0) par s.se) :
    ∃ HP, hessPat cm (theTape s' N par) (ext x0) = .ok HP ∧ SymPat (numInd (s'.tape N)) HP ∧ HCov p s par x0 HP := by
  have safe : safeMode cm → ∃ HP, hessPat cm (theTape s' N par) (ext x0) = .ok HP ∧ SymPat (numInd (s'.tape N)) HP ∧ HCov p s par x0 HP := by
    intro hs
    obtain ⟨HP, j1, j2, j3⟩ := safe_hpattern h hd hs hp
    exact ⟨HP, j1 par _, j2, j3 par x0 e0 hspec hsm⟩
  cases cm with
  | safe => exact safe trivial
  | oldSafe => exact safe trivial
  | tight =>
    obtain ⟨cols, h1, h2, h3, h4⟩ := C21_tight_partial h hd hp par _ x0 e0 hspec hsm
    refine ⟨(List.range (numInd (s'.tape N))).map fun j => (cols j).length :: cols j, ?_, symPat_of_cols h2 h3, hcov_of_cols h4⟩
    simp only [hessPat, theTape, tapeOf, h1]
  | oldTight =>
    obtain ⟨hp1, hp2, hn⟩ := hp
    obtain ⟨k1, k2⟩ := C21_old_tight_partial h hd hp1 hp2 par _ x0 e0 hspec hsm
    obtain ⟨rows, hr⟩ := k1 hn
    obtain ⟨cols, h1, h2, h3, h4⟩ := k2 rows hr
    subst h1
    refine ⟨_, ?_, symPat_of_cols h2 h3, hcov_of_cols h4⟩
    simp only [hessPat, theTape, tapeOf, hr]

/-! ### One call -/

theorem hbuild_ready {cp : HColPack ℝ} {cm : HMode} {md : RMode} {t : Tape ℝ} {x : ℕ → ℝ} {J : SH}
    {HP : List (List ℕ)} (h1 : hessPat cm t x = .ok HP) (h2 : SymPat t.n HP) :
    ∃ J', buildHess cp cm md t x J = .ok J' ∧ HReady cp md t.n HP J' := by
  unfold buildHess
  simp only [h1]
  exact ⟨_, rfl, h2, rfl, rfl, rfl⟩

/-- What the caller's arrays hold after `E` has been written: new arrays, or the first entries of the old ones. -/
def written (E : List (Entry ℝ)) : Option (List (Entry ℝ)) → List (Entry ℝ)
  | none => E
  | some M => E ++ M.drop E.length

theorem theTape_one (hm1 : (s'.tape N).countP isDep = 1) (par : ℕ → ℝ) :
    theTape s' N par = tapeOf s' N par (numInd (s'.tape N)) 1 := by
  unfold theTape; rw [hm1]

/-- The part of a call behind the pattern, for data that fit. -/
theorem hcall_ready (h : Traced cfg stock s p s' N) (hd : p.disc ⟨Set.univ, ∅⟩) (hns : HORevVec.noSums p) {cp : HColPack ℝ}
    (hcp : cp.Correct) (par : ℕ → ℝ)
    (x0 : Fin (numInd (s'.tape N)) → ℝ) {e0 : SE ℝ} (hspec : p.spec (ext x0) par s.se = some (e0, p.path cfg s))
    (hsm : ∀ᶠ x in 𝓝 x0, p.smooth .hor (ext x) par s.se) (hn0 : 0 < numInd (s'.tape N)) (hm1 : (s'.tape N).countP isDep = 1)
    (md : RMode) {rrc : ℤ} (hr : 0 ≤ rrc) {HP : List (List ℕ)} {J : SH}
    (hJ : HReady cp md (numInd (s'.tape N)) HP J) (hcov : HCov p s par x0 HP) :
    ∃ rc E, 0 ≤ rc ∧ IsHessian p s par x0 E ∧ J.nnz = E.length ∧
      ∀ (nnz : ℤ) mem, (∀ M, mem = some M → nnz = E.length → E.length ≤ M.length) →
        computeHess cp md (theTape s' N par) (ext x0) rrc J nnz mem =
          if nnz = E.length then .ret rc J nnz (some (written E mem)) else .ret (-3) J nnz mem := by
  obtain ⟨c1, c2⟩ := counts_of_spec h _ par hspec
  obtain ⟨rc, r1, r2⟩ := hnumeric h hd hns hcp par x0 hspec hsm hn0 c1 (by rw [c2, hm1]) md hr hJ hcov
  have hl : J.nnz = (upperEntries HP (hs p s par x0)).length := by rw [hJ.nnz, nnzUpper_eq hJ.pat.wf]
  refine ⟨rc, upperEntries HP (hs p s par x0), r1,
    isHessian h par x0 hspec (Prog.smooth_ho hsm.self_of_nhds) hJ.pat hcov, hl, fun nnz mem hmem => ?_⟩
  rw [theTape_one hm1, r2, hl]
  by_cases hz : nnz = ((upperEntries HP (hs p s par x0)).length : ℤ)
  · rw [if_neg (by simpa using hz.symm), if_pos hz]
    cases mem with
    | none => rfl
    | some M =>
      have := hmem M rfl hz
      simp only [deliver, if_pos this, written]
  · rw [if_pos (fun e => hz e.symm), if_neg hz]

/-- `sparse_hess` with `repeat = 0`, whatever the tape holds from earlier calls, for all four control flow modes, both recovery
methods and every correct colouring package: it returns a nonnegative code, sets `*nnz` to the number of entries, and
delivers the upper triangle of the Hessian at `x0`, in new arrays or, where the caller has passed arrays that are long
enough, at the beginning of these.

Partial: the restrictions of C21 on the program (`okFor`) and of C28/C42 on program and point; arrays of the caller that are too short are overrun, as `*nnz` is set before it is looked at
(`C53_short_arrays`). -/
theorem C53_first_call_partial (h : Traced cfg [] s p s' N) (hd : p.disc ⟨Set.univ, ∅⟩) (hns : HORevVec.noSums p)
    {cp : HColPack ℝ} (hcp : cp.Correct) (par : ℕ → ℝ)
    (x0 : Fin (numInd (s'.tape N)) → ℝ) {e0 : SE ℝ} (hspec : p.spec (ext x0) par s.se = some (e0, p.path cfg s))
    (hsm : ∀ᶠ x in 𝓝 x0, p.smooth .hor (ext x) par s.se) (hn0 : 0 < numInd (s'.tape N)) (hm1 : (s'.tape N).countP isDep = 1)
    (md : RMode) (rrc : ℤ) (hr : 0 ≤ rrc) (cm : HMode) (hp : okFor p (numInd (s'.tape N)) cm) (J : SH) :
    ∃ rc J' E, 0 ≤ rc ∧ IsHessian p s par x0 E ∧ ∀ nnz,
      sparseHess cp cm md (theTape s' N par) false (ext x0) rrc J nnz none = .ret rc J' E.length (some E) ∧
      ∀ M, E.length ≤ M.length →
        sparseHess cp cm md (theTape s' N par) false (ext x0) rrc J nnz (some M) =
          .ret rc J' E.length (some (E ++ M.drop E.length)) := by
  obtain ⟨HP, j1, j2, j3⟩ := point_hpattern h hd hp par x0 hspec (Prog.smooth_ho hsm.self_of_nhds)
  obtain ⟨J', b1, b2⟩ := hbuild_ready (J := J) (cp := cp) (md := md) j1 j2
  obtain ⟨rc, E, r1, r2, r3, r4⟩ := hcall_ready h hd hns hcp par x0 hspec hsm hn0 hm1 md hr b2 j3
  refine ⟨rc, J', E, r1, r2, fun nnz => ⟨?_, fun M hM => ?_⟩⟩
  · simp only [sparseHess, b1, Bool.false_eq_true, if_false]
    rw [r3, r4 _ none (by intro M hM; cases hM), if_pos rfl]; rfl
  · simp only [sparseHess, b1, Bool.false_eq_true, if_false]
    rw [r3, r4 _ (some M) (by intro M' hM' _; cases hM'; exact hM), if_pos rfl]; rfl

/-! ### Any history of calls -/

/-- The tape's data after a history of calls of `setHP`, with any rows, and of `sparse_hess` with recovery method `md` and safe
patterns, at any points, with any parameters, `*nnz` and arrays, whatever they returned; the flag tells whether one of the
latter had `repeat = 0` and came after the last `setHP`. -/
inductive HHistory (cp : HColPack ℝ) (md : RMode) (p : Prog ℝ) (s' : Rec ℝ) (N : ℕ) : SH → Bool → Prop
  | fresh : HHistory cp md p s' N SH.init false
  | setHP {J b} (rows : List (List ℕ)) : HHistory cp md p s' N J b → HHistory cp md p s' N (J.setHP rows) false
  | call {J b} (cm : HMode) (rep : Bool) (par x : ℕ → ℝ) (rrc nnz : ℤ) (mem : Option (List (Entry ℝ))) {c J' nnz' mem'} :
      HHistory cp md p s' N J b → (rep = false → safeMode cm ∧ okFor p (numInd (s'.tape N)) cm) →
      sparseHess cp cm md (theTape s' N par) rep x rrc J nnz mem = .ret c J' nnz' mem' →
      HHistory cp md p s' N J' (b || !rep)

theorem hcompute_keeps {cp : HColPack ℝ} {md : RMode} {t : Tape ℝ} {x : ℕ → ℝ} {rrc : ℤ} {J J' : SH} {nnz nnz' : ℤ}
    {mem mem' : Option (List (Entry ℝ))} {c : ℤ} (h : computeHess cp md t x rrc J nnz mem = .ret c J' nnz' mem') : J' = J := by
  unfold computeHess at h
  repeat' split at h
  all_goals first | (cases h; rfl) | cases h

theorem hhistory_inv (h : Traced cfg [] s p s' N) (hd : p.disc ⟨Set.univ, ∅⟩) {cp : HColPack ℝ}
    {md : RMode} {J : SH} {b : Bool} (hh : HHistory cp md p s' N J b) :
    if b = true then ∃ HP, HReady cp md (numInd (s'.tape N)) HP J ∧
      ∀ (par : ℕ → ℝ) (x0 : Fin (numInd (s'.tape N)) → ℝ) (e0 : SE ℝ),
        p.spec (ext x0) par s.se = some (e0, p.path cfg s) → p.smooth .ho (ext x0) par s.se → HCov p s par x0 HP
    else J.graph = none := by
  induction hh with
  | fresh => simp [SH.init]
  | setHP rows _ _ => simp [SH.setHP, SH.init]
  | @call J b cm rep par x rrc nnz mem c J' nnz' mem' _ hsafe hc ih =>
    cases rep with
    | true =>
      have : J' = J := by
        simp only [sparseHess, if_true] at hc
        exact hcompute_keeps hc
      subst this
      simpa using ih
    | false =>
      obtain ⟨HP, j1, j2, j3⟩ := safe_hpattern h hd (hsafe rfl).1 (hsafe rfl).2
      obtain ⟨J1, b1, b2⟩ := hbuild_ready (J := J) (cp := cp) (md := md) (j1 par x) j2
      have : J' = J1 := by
        simp only [sparseHess, b1, Bool.false_eq_true, if_false] at hc
        exact hcompute_keeps hc
      subst this
      simp only [Bool.not_false, Bool.or_true, if_true]
      exact ⟨HP, b2, j3⟩

/-- After any history of calls (one recovery method, safe patterns, and `setHP`), at a point `x0` of the recorded path, with any
parameters: `repeat = 1` before any call with `repeat = 0` since the last `setHP` returns -3 and changes nothing; afterwards there is a Hessian `E` such that
every call with another `*nnz` than its number of entries returns -3 and changes nothing, and a call with the right `*nnz`
delivers it.

Partial: as `C53_first_call_partial`; a pattern computed with tight control flow belongs to one point only, and one that failed
leaves null rows behind (`C53_failed_pattern`). -/
theorem C53_history_partial (h : Traced cfg [] s p s' N) (hd : p.disc ⟨Set.univ, ∅⟩) (hns : HORevVec.noSums p)
    {cp : HColPack ℝ} (hcp : cp.Correct)
    (hn0 : 0 < numInd (s'.tape N)) (hm1 : (s'.tape N).countP isDep = 1) {md : RMode} {J : SH} {b : Bool}
    (hh : HHistory cp md p s' N J b) (par : ℕ → ℝ) (x0 : Fin (numInd (s'.tape N)) → ℝ) {e0 : SE ℝ}
    (hspec : p.spec (ext x0) par s.se = some (e0, p.path cfg s)) (hsm : ∀ᶠ x in 𝓝 x0, p.smooth .hor (ext x) par s.se)
    (cm : HMode) (rrc : ℤ) (hr : 0 ≤ rrc) :
    (b = false → ∀ nnz mem, sparseHess cp cm md (theTape s' N par) true (ext x0) rrc J nnz mem = .ret (-3) J nnz mem) ∧
    (b = true → ∃ rc E, 0 ≤ rc ∧ IsHessian p s par x0 E ∧
      (∀ (nnz : ℤ) mem, nnz ≠ E.length →
        sparseHess cp cm md (theTape s' N par) true (ext x0) rrc J nnz mem = .ret (-3) J nnz mem) ∧
      sparseHess cp cm md (theTape s' N par) true (ext x0) rrc J E.length none = .ret rc J E.length (some E) ∧
      ∀ M, E.length ≤ M.length →
        sparseHess cp cm md (theTape s' N par) true (ext x0) rrc J E.length (some M) =
          .ret rc J E.length (some (E ++ M.drop E.length))) := by
  have inv := hhistory_inv h hd hh
  refine ⟨?_, ?_⟩
  · rintro rfl nnz mem
    simp only [Bool.false_eq_true, if_false] at inv
    simp [sparseHess, computeHess, inv]
  · rintro rfl
    simp only [if_true] at inv
    obtain ⟨HP, hr1, hc⟩ := inv
    obtain ⟨rc, E, r1, r2, r3, r4⟩ := hcall_ready h hd hns hcp par x0 hspec hsm hn0 hm1 md hr hr1
      (hc par x0 e0 hspec (Prog.smooth_ho hsm.self_of_nhds))
    refine ⟨rc, E, r1, r2, fun nnz mem hne => ?_, ?_, fun M hM => ?_⟩
    · simp only [sparseHess, if_true]
      rw [r4 nnz mem (fun _ _ e => absurd e hne), if_neg hne]
    · simp only [sparseHess, if_true]
      rw [r4 _ none (by intro M hM; cases hM), if_pos rfl]; rfl
    · simp only [sparseHess, if_true]
      rw [r4 _ (some M) (by intro M' hM' _; cases hM'; exact hM), if_pos rfl]; rfl

/-- `setHP` is documented as the way to provide a known pattern and skip its computation.  It has no effect on later calls except
to make the next call with `repeat = 1` fail: whatever the rows, such a call returns -3 and changes nothing, and a call with `repeat = 0` computes the
pattern again and behaves as without `setHP`. -/
theorem C53_setHP_no_effect (cp : HColPack ℝ) (cm : HMode) (md : RMode) (t : Tape ℝ) (x : ℕ → ℝ) (rrc : ℤ) (J : SH) (rows : List (List ℕ))
    (nnz : ℤ) (mem : Option (List (Entry ℝ))) :
    sparseHess cp cm md t true x rrc (J.setHP rows) nnz mem = .ret (-3) (J.setHP rows) nnz mem ∧
    ∀ HP, hessPat cm t x = .ok HP →
      sparseHess cp cm md t false x rrc (J.setHP rows) nnz mem = sparseHess cp cm md t false x rrc J nnz mem := by
  refine ⟨by simp [sparseHess, computeHess, SH.setHP, SH.init], fun HP hHP => ?_⟩
  simp only [sparseHess, buildHess, hHP, Bool.false_eq_true, if_false]

/-- `getHP` after a call with `repeat = 0`: the full symmetric pattern, sorted rows, each headed by its length, which covers the second
derivatives at `x0` (the documentation promises only the upper triangle, with indices that start at 1: they start at 0). -/
theorem C53_getHP (h : Traced cfg [] s p s' N) (hd : p.disc ⟨Set.univ, ∅⟩) {cp : HColPack ℝ} (par : ℕ → ℝ)
    (x0 : Fin (numInd (s'.tape N)) → ℝ) {e0 : SE ℝ} (hspec : p.spec (ext x0) par s.se = some (e0, p.path cfg s))
    (hsm : p.smooth .ho (ext x0) par s.se) (md : RMode) (rrc : ℤ) (cm : HMode) (hp : okFor p (numInd (s'.tape N)) cm) (J : SH)
    (nnz : ℤ) (mem : Option (List (Entry ℝ))) {c : ℤ} {J' : SH} {nnz' : ℤ} {mem' : Option (List (Entry ℝ))}
    (hc : sparseHess cp cm md (theTape s' N par) false (ext x0) rrc J nnz mem = .ret c J' nnz' mem') :
    ∃ HP, J'.getHP = HP.map some ∧ SymPat (numInd (s'.tape N)) HP ∧
      ∀ i j, i < numInd (s'.tape N) → j < numInd (s'.tape N) → j ∉ patRow HP i → hs p s par x0 i j = 0 := by
  obtain ⟨HP, j1, j2, j3⟩ := point_hpattern h hd hp par x0 hspec hsm
  obtain ⟨J1, b1, b2⟩ := hbuild_ready (J := J) (cp := cp) (md := md) j1 j2
  simp only [sparseHess, b1, Bool.false_eq_true, if_false] at hc
  have := hcompute_keeps hc
  subst this
  exact ⟨HP, b2.rows, j2, j3⟩

/-! ### The hypotheses can be met -/

/-- Every variable has its own colour. -/
def ownHess : HColPack ℝ where
  colour := fun _ _ n => (id, n)
  recover := fun _ HP _ B => upperEntries HP B

theorem upperEntries_congr {HP : List (List ℕ)} {f g : ℕ → ℕ → ℝ}
    (h : ∀ i, i < HP.length → ∀ j ∈ patRow HP i, f i j = g i j) : upperEntries HP f = upperEntries HP g := by
  unfold upperEntries
  rw [entries_congr h]

theorem symPat_lt {n : ℕ} {HP : List (List ℕ)} (hp : SymPat n HP) {i j : ℕ} (hi : i < HP.length) (hj : j ∈ patRow HP i) : j < n := by
  refine hp.lt HP[i] (List.getElem_mem hi) j ?_
  simpa [patRow, List.getElem?_eq_getElem hi] using hj

theorem ownHess_correct : ownHess.Correct := by
  intro md n HP hp
  refine ⟨fun i hi => by simpa [ownHess] using hi, fun H _ _ B hB => upperEntries_congr fun i hi j hj => ?_⟩
  have hjn := symPat_lt hp hi hj
  rw [hp.len] at hi
  have := hB i j hi (by simpa [ownHess] using hjn)
  show B i j = _
  rw [this, Finset.sum_eq_single j]
  · simp [ownHess]
  · intro q _ hq; simp [ownHess, hq]
  · intro hq; simp [hjn] at hq

/-- Any star colouring with the direct recovery of ColPack's documentation is correct. -/
theorem star_correct {colour : List (List ℕ) → ℕ → (ℕ → ℕ) × ℕ}
    (hc : ∀ n HP, SymPat n HP → StarColouring HP n (colour HP n).1 (colour HP n).2) :
    HColPack.Correct ⟨fun _ => colour, fun _ HP col B => upperEntries HP (directVal HP col B)⟩ := by
  intro md n HP hp
  exact ⟨(hc n HP hp).lt, fun H hs hz B hB => star_direct hp (hc n HP hp) hs hz hB⟩

open HORevVec in
/-- `y = exp(x0 * x1) + x0` (two independents, one dependent): all hypotheses are met at every point with positive coordinates, for
all control flow modes, and for a second call after a first one. -/
example : ∃ s', Traced demoCfg [] demoStart demoOv s' (s'.hw + 1) ∧ demoOv.disc ⟨Set.univ, ∅⟩ ∧ noSums demoOv ∧
    (∀ cm, okFor demoOv (numInd (s'.tape (s'.hw + 1))) cm) ∧ numInd (s'.tape (s'.hw + 1)) = 2 ∧ (s'.tape (s'.hw + 1)).countP isDep = 1 ∧
    (∀ (x0 : Fin (numInd (s'.tape (s'.hw + 1))) → ℝ), (∀ i, 0 < x0 i) →
      (∃ e, demoOv.spec (ext x0) (fun _ => 0) demoStart.se = some (e, demoOv.path demoCfg demoStart)) ∧
      ∀ᶠ x in 𝓝 x0, demoOv.smooth .hor (ext x) (fun _ => 0) demoStart.se) ∧
    ∀ md, ∃ J, HHistory ownHess md demoOv s' (s'.hw + 1) J true := by
  obtain ⟨e, h1, h2, h3⟩ := demoOv_spec demoCfg.x demoCfg.par (by simp [demoCfg])
  obtain ⟨s', h4, h5⟩ := traced_exists (stock := []) demo_alloc demo_start
    (by simp [demoOv, Prog.noFminLL, Stmt.notFminLL]) h1
  obtain ⟨e', g1, g2, g3⟩ := demoOv_spec demoCfg.x (fun _ => 0) (by simp [demoCfg])
  have hpath : demoOv.path demoCfg demoStart = [true] := by
    have := h5
    simp_all
  obtain ⟨c1, c2⟩ := counts_of_spec h4 demoCfg.x (fun _ => 0) (by rw [hpath]; exact g1)
  rw [g2] at c1
  rw [g3, List.length_singleton] at c2
  have hns : noSums demoOv := by simp [noSums, demoOv, allStmts, emits, Bin.op, Un.op, Acc.opA]
  have hnl : allStmts nlStmt demoOv := by simp [demoOv, allStmts, nlStmt]
  have hdisc : demoOv.disc ⟨Set.univ, ∅⟩ := by simp [demoOv, Prog.disc, Stmt.disc, Stmt.discNext, Stmt.uses]
  have pts : ∀ (x0 : Fin (numInd (s'.tape (s'.hw + 1))) → ℝ), (∀ i, 0 < x0 i) →
      (∃ e, demoOv.spec (ext x0) (fun _ => 0) demoStart.se = some (e, demoOv.path demoCfg demoStart)) ∧
      ∀ᶠ x in 𝓝 x0, demoOv.smooth .hor (ext x) (fun _ => 0) demoStart.se := by
    intro x0 hx
    have pos : ∀ x : Fin (numInd (s'.tape (s'.hw + 1))) → ℝ, (∀ i, 0 < x i) → 0 < ext x 0 := by
      intro x hx
      simp only [ext, ← c1, Nat.ofNat_pos, dif_pos]; exact hx _
    refine ⟨?_, ?_⟩
    · obtain ⟨e, q1, _⟩ := demoOv_spec (ext x0) (fun _ => 0) (pos x0 hx)
      exact ⟨e, by rw [hpath]; exact q1⟩
    · have : ∀ᶠ x in 𝓝 x0, ∀ i, 0 < x i :=
        eventually_all.2 fun i => (continuous_apply i).continuousAt.eventually (lt_mem_nhds (hx i))
      exact this.mono fun x hx => demoOv_smooth .hor _ _ (pos x hx)
  have hok : ∀ cm, okFor demoOv (numInd (s'.tape (s'.hw + 1))) cm := by
    intro cm
    cases cm <;> simp [okFor, demoOv, allStmts, nlStmt, nlStmtT, idxStmt, idxStmtT, notErf, ← c1]
  refine ⟨s', h4, hdisc, hns, hok, c1.symm, c2.symm, pts, fun md => ?_⟩
  obtain ⟨⟨e, q1⟩, q2⟩ := pts (fun _ => 1) (fun _ => one_pos)
  obtain ⟨rc, J', E, _, _, r⟩ := C53_first_call_partial h4 hdisc hns ownHess_correct (fun _ => 0) (fun _ => 1) q1 q2
    (by rw [← c1]; simp) c2.symm md 0 le_rfl .safe hnl SH.init
  exact ⟨J', .call .safe false _ _ 0 0 none .fresh (fun _ => ⟨trivial, hnl⟩) (r 0).1⟩

/-! ### Where the code fails -/

/-- `y = x0 * x0`, with a comparison of `x0` with 0. -/
def sqSrc : Prog ℝ :=
  .stmt (.new 0) <| .stmt (.indep 0) <| .branch .gt 0 (.stmt (.new 1) <| .stmt (.bin .mult true 0 0 1) <| .stmt (.dep 1) .done)
    (.stmt (.new 1) <| .stmt (.bin .mult true 0 0 1) <| .stmt (.dep 1) .done)

theorem sq_tape : ∃ s', sqSrc.record demoCfg demoStart = some s' ∧ s'.tape 3 =
    [.assignD0 1, .assignInd 1, .cmp .gt 1, .assignD0 2, .multAA 1 1 2, .assignDep 2, .deathNot 0 2] := by
  simp [sqSrc, Prog.record, Stmt.record, demoStart, demoCfg, Rec.take, Rec.next, Rec.rec1, Rec.put, Rec.keepT, Rec.val,
    upd_apply, Cmp.holds, Cmp.recorded, Rec.tape, fullTrace, Bin.op, Bin.recVal]

/-- A call with tight control flow at a point where a comparison of the traced program comes out differently returns -1, but
it leaves null pointers in place of the pattern of the earlier calls: a later call with `repeat = 1` and the right `*nnz`
dereferences them. -/
theorem C53_failed_pattern : ∃ s', sqSrc.record demoCfg demoStart = some s' ∧
    ∀ (cp : HColPack ℝ) (md : RMode) (par : ℕ → ℝ) (rrc nnz : ℤ) (J J1 : SH) (x : ℕ → ℝ) (mem mem1 : Option (List (Entry ℝ))) (c nnz1 : ℤ),
      sparseHess cp .safe md (theTape s' 3 par) false x rrc J nnz mem = .ret c J1 nnz1 mem1 →
      ∃ J2, sparseHess cp .tight md (theTape s' 3 par) false (fun _ => -1) rrc J1 nnz1 mem1 = .ret (-1) J2 nnz1 mem1 ∧
        ∀ cm x, sparseHess cp cm md (theTape s' 3 par) true x rrc J2 nnz1 mem1 = .undef := by
  obtain ⟨s', h1, h2⟩ := sq_tape
  refine ⟨s', h1, fun cp md par rrc nnz J J1 x mem mem1 c nnz1 hc => ?_⟩
  have hp : hessPat .safe (theTape s' 3 par) x = .ok [[1, 0]] := by
    simp only [theTape, tapeOf, h2]
    rfl
  have hp' : hessPat .tight (theTape s' 3 par) (fun _ => -1) = .error (some (-1)) := by
    norm_num [theTape, tapeOf, h2, hessPat, hessPatTight, nlTightRun, tightVal, zosStep, ZS.init, NS.init, nlStep, NS.node, NS.alloc,
      maxopind, isEqProd, upd_apply, ZS.set, ZS.push, Cmp.holds, NS.point]
  have hn : (theTape s' 3 par).n = 1 := by simp only [theTape, tapeOf, h2]; rfl
  simp only [sparseHess, buildHess, hp, Bool.false_eq_true, if_false] at hc
  have hJ := hcompute_keeps hc
  have hz : nnz1 = J1.nnz := by
    rw [hJ]
    unfold computeHess at hc
    repeat' split at hc
    all_goals first | (cases hc; rfl) | cases hc
  subst hJ
  refine ⟨⟨[none], some (md, cp.colour md [[1, 0]] 1), nnzUpper [[1, 0]]⟩,
    by simp only [sparseHess, buildHess, hp', Bool.false_eq_true, if_false, hn, List.replicate_one], fun cm x => ?_⟩
  simp only [sparseHess, computeHess, if_true, hz, ne_eq, not_true_eq_false, if_false, hn, List.replicate_one, allRows]
  repeat' split
  all_goals first | rfl | simp_all

/-- Arrays of the caller that are too short for the Hessian: a call with `repeat = 0` overruns them, whatever `*nnz` says, since
`*nnz` is overwritten before it is compared. -/
theorem C53_short_arrays : ∃ s', sqSrc.record demoCfg demoStart = some s' ∧
    ∀ (md : RMode) (par x : ℕ → ℝ) (rrc nnz : ℤ) (J : SH),
      sparseHess ownHess .safe md (theTape s' 3 par) false x rrc J nnz (some []) = .undef := by
  obtain ⟨s', h1, h2⟩ := sq_tape
  refine ⟨s', h1, fun md par x rrc nnz J => ?_⟩
  have hp : hessPat .safe (theTape s' 3 par) x = .ok [[1, 0]] := by
    simp only [theTape, tapeOf, h2]
    rfl
  have hd : ∀ B : ℕ → ℕ → ℝ, deliver (upperEntries [[1, 0]] B) (some []) = none := by
    intro B; simp [deliver, upperEntries, entries, patRow]
  simp only [sparseHess, buildHess, hp, Bool.false_eq_true, if_false, computeHess, ownHess, ne_eq, not_true_eq_false, allRows_some, hd]
  repeat' split
  all_goals first | rfl | simp_all

end Verif.Props.SparseHess
