import Verif.Sparse.SparseJac
import Verif.AD.FovRc
import Verif.Props.SparseRev
import Verif.Props.SparseFwdTight
import Verif.Props.Drivers
/-!
# C52: `sparse_jac`

Reading guide: `F p s par n j` is the `j`-th output of the traced program as a function of the `n` independents;
`sparseJac cp mth cm manual tape rep x junk J M` is one call of `sparse_jac` (`mth`: pattern method, control flow mode and
direction; `cm`: compression mode; `manual`: `MemoryHandler::Manual`; `rep`: `repeat`), where `J` is what the tape keeps from
earlier calls, `M` the caller's matrix, `junk` the contents of uninitialised memory.
-/
set_option linter.all false
noncomputable section
namespace Verif.Props.SparseJac
open Verif.AD Verif.Sparse Verif.Props.AD Verif.Props.Sparse Verif.Props.Drivers Verif.Drivers

/-- The partial derivative of output `i` with respect to independent `j`. -/
def pd (p : Prog ℝ) (s : Rec ℝ) (par : ℕ → ℝ) {n : ℕ} (x0 : Fin n → ℝ) (i j : ℕ) : ℝ :=
  if h : j < n then fderiv ℝ (F p s par n i) x0 (Pi.single ⟨j, h⟩ 1) else 0

/-- What a sparse Jacobian of `m` functions at `x0` must be: ordered by row and column; every entry is a partial
derivative; all others vanish. -/
structure IsJacobian (p : Prog ℝ) (s : Rec ℝ) (par : ℕ → ℝ) {n : ℕ} (x0 : Fin n → ℝ) (m : ℕ) (E : List (Entry ℝ)) : Prop where
  smooth : ∀ i, i < m → DifferentiableAt ℝ (F p s par n i) x0
  sorted : E.Pairwise fun e e' => e.1 < e'.1 ∨ (e.1 = e'.1 ∧ e.2.1 < e'.2.1)
  value : ∀ e ∈ E, e.1 < m ∧ e.2.1 < n ∧ e.2.2 = pd p s par x0 e.1 e.2.1
  zero : ∀ i j, i < m → j < n → (∀ v, (i, j, v) ∉ E) → pd p s par x0 i j = 0

theorem entries_congr {JP : List (List ℕ)} {f g : ℕ → ℕ → ℝ}
    (h : ∀ i, i < JP.length → ∀ j ∈ patRow JP i, f i j = g i j) : entries JP f = entries JP g := by
  unfold entries
  refine List.flatMap_congr fun i hi => List.map_congr_left fun j hj => ?_
  rw [h i (List.mem_range.1 hi) j hj]

theorem allRows_some (JP : List (List ℕ)) : allRows (JP.map some) = some JP := by
  induction JP with
  | nil => rfl
  | cons r JP ih => simp [allRows, ih]

/-- A pattern for `m` rows and `n` columns. -/
structure Pat (m n : ℕ) (JP : List (List ℕ)) : Prop where
  len : JP.length = m
  wf : ∀ r ∈ JP, RowWf r
  lt : ∀ r ∈ JP, ∀ j ∈ r.tail, j < n
  sorted : ∀ r ∈ JP, r.tail.Pairwise (· < ·)

/-- It covers the partial derivatives at `x0`. -/
def Cov (p : Prog ℝ) (s : Rec ℝ) (par : ℕ → ℝ) {n : ℕ} (x0 : Fin n → ℝ) (JP : List (List ℕ)) : Prop :=
  ∀ i j, i < JP.length → j < n → j ∉ patRow JP i → pd p s par x0 i j = 0

/-- The tape's data after a pattern has been computed and coloured for compression mode `cm`. -/
structure Ready (cm : CMode) (m n : ℕ) (JP : List (List ℕ)) (J : SJ) : Prop where
  pat : Pat m n JP
  rows : J.JP = JP.map some
  nnz : J.nnz = nnz JP
  graph : ∃ col k, J.graph = some (cm, col, k) ∧
    (cm = .row → RowColouring JP col k ∧ J.rows = k ∧ J.clms = n) ∧
    (cm = .column → ColumnColouring JP n col k ∧ J.rows = m ∧ J.clms = k)

theorem recoverJ_eq (cm : CMode) (manual : Bool) {m n : ℕ} {JP : List (List ℕ)} (h : Pat m n JP) (col : ℕ → ℕ) (B : ℕ → ℕ → ℝ)
    (M : List (Entry ℝ)) (hM : manual = true → M.length = Verif.Sparse.nnz JP) :
    recoverJ cm manual JP col B M =
      entries JP (if cm = .row then fun i j => B (col i) j else fun i j => B i (col j)) := by
  have key : ∀ val : ℕ → ℕ → ℝ, M.length = Verif.Sparse.nnz JP → (recoverLoop JP val M).1 = entries JP val := by
    intro val hl
    rw [nnz_eq h.wf val] at hl
    rw [recoverLoop_eq h.wf _ _ (by rw [hl]), List.drop_eq_nil_of_le (by rw [hl]), List.append_nil]
  cases cm <;> cases manual
  · simp only [recoverJ, recoverRow_eq h.wf]; rfl
  · exact key _ (hM rfl)
  · simp only [recoverJ, recoverCol_eq h.wf]; rfl
  · exact key _ (hM rfl)

variable {cfg : RCfg ℝ} {stock : List (Nat × List ℝ)} {s s' : Rec ℝ} {p : Prog ℝ} {N : Nat}

/-- The tape, with the counts it records. -/
def theTape (s' : Rec ℝ) (N : ℕ) (par : ℕ → ℝ) : Tape ℝ :=
  tapeOf s' N par (numInd (s'.tape N)) ((s'.tape N).countP isDep)

/-- The direction with a 1 in the coordinates of one colour. -/
theorem fderiv_colour {n : ℕ} (L : (Fin n → ℝ) →L[ℝ] ℝ) (col : ℕ → ℕ) (c : ℕ) :
    L (fun k : Fin n => colourSeed col k c) = ∑ k : Fin n, if col k = c then L (Pi.single k 1) else 0 := by
  have : (fun k : Fin n => (colourSeed col k c : ℝ)) = ∑ k : Fin n, (colourSeed col k c : ℝ) • (Pi.single k (1:ℝ) : Fin n → ℝ) := by
    funext q
    simp [Finset.sum_apply, Pi.single_apply]
  rw [this, map_sum]
  refine Finset.sum_congr rfl fun k _ => ?_
  rw [map_smul]
  unfold colourSeed
  split_ifs <;> simp

/-- The numeric part returns the partial derivatives at the positions of the pattern. -/
theorem numeric (h : Traced cfg stock s p s' N) (hd : p.disc ⟨Set.univ, ∅⟩) (par : ℕ → ℝ)
    (x0 : Fin (numInd (s'.tape N)) → ℝ) {e0 : SE ℝ} (hspec : p.spec (ext x0) par s.se = some (e0, p.path cfg s))
    (hsm : p.smooth .rev (ext x0) par s.se) (hn0 : 0 < numInd (s'.tape N)) (hm0 : 0 < (s'.tape N).countP isDep)
    (cm : CMode) (manual : Bool) (q : Junk ℝ) (hq : 0 ≤ q.rrc) {JP : List (List ℕ)} {J : SJ} (hJ : Ready cm ((s'.tape N).countP isDep) (numInd (s'.tape N)) JP J)
    (hcov : Cov p s par x0 JP) (M : List (Entry ℝ)) (hM : manual = true → M.length = nnz JP) :
    ∃ rc, 0 ≤ rc ∧ computeSparseJac cm manual (theTape s' N par) (ext x0) q J M = .ret rc J (entries JP (pd p s par x0)) := by
  obtain ⟨c1, c2⟩ := counts_of_spec h _ par hspec
  obtain ⟨col, k, hg, hrow, hcolumn⟩ := hJ.graph
  have hpat := hJ.pat
  have hlt : ∀ i, i < JP.length → ∀ j ∈ patRow JP i, j < numInd (s'.tape N) := by
    intro i hi j hj
    refine hpat.lt JP[i] (List.getElem_mem hi) j ?_
    simpa [patRow, List.getElem?_eq_getElem hi] using hj
  cases cm with
  | row =>
    obtain ⟨hcol, hr, hc⟩ := hrow rfl
    have hk : 0 < k := by
      have := hcol.lt 0 (by rw [hpat.len]; exact hm0)
      omega
    obtain ⟨z, hz, D, hD, w, hw, _, h2⟩ := C14_fov_reverse_matrix h hd par x0 hspec c1 hsm k hk (fun c i => colourSeed col i c)
    refine ⟨mindec z.rc q.rrc, ?_, ?_⟩
    · have := (rc_range hz (by simp [ZS.init]) (by simp [ZS.init])).1
      unfold mindec; split_ifs <;> omega
    · unfold computeSparseJac
      simp only [hg, theTape, tapeOf, hr, ne_eq, not_true_eq_false, if_false]
      rw [hz]
      simp only []
      rw [c2] at hw
      rw [hw]
      simp only [hJ.rows, allRows_some]
      rw [recoverJ_eq .row manual hpat col w.bar M hM]
      congr 1
      refine entries_congr fun i hi j hj => ?_
      have hjn := hlt i hi j hj
      simp only [if_true, pd, hjn, dif_pos]
      have := h2 (col i) (hcol.lt i hi) ⟨j, hjn⟩
      rw [this, Finset.sum_eq_single i]
      · rw [show F p s par (numInd (s'.tape N)) i = fun x => p.out (ext x) par s.se i from rfl, (hD i).fderiv]
        simp [colourSeed]
      · intro i' hi' hne
        rw [Finset.mem_range, c2, ← hpat.len] at hi'
        by_cases hcc : col i' = col i
        · have hnot : j ∉ patRow JP i' := fun hin => hcol.proper i' i hi' hi hne j hin hj hcc
          have := hcov i' j hi' hjn hnot
          simp only [pd, hjn, dif_pos] at this
          rw [show F p s par (numInd (s'.tape N)) i' = fun x => p.out (ext x) par s.se i' from rfl, (hD i').fderiv] at this
          rw [this, mul_zero]
        · simp [colourSeed, hcc]
      · intro hnot
        exact absurd (Finset.mem_range.2 (by rw [c2, ← hpat.len]; exact hi)) hnot
  | column =>
    obtain ⟨hcol, hr, hc⟩ := hcolumn rfl
    have hk : 0 < k := by have := hcol.lt 0 hn0; omega
    obtain ⟨w, hw, hb⟩ := fov_columns h par x0 hspec (Prog.smooth_fwd hsm) k
      (columnSeed (numInd (s'.tape N)) col)
      (fun l hl => ⟨fun i => colourSeed col i l, by
        funext i; unfold ext columnSeed; split_ifs <;> rfl⟩) hk
    refine ⟨w.rc, fov_rc _ hw (by simp [VS.init]), ?_⟩
    unfold computeSparseJac
    simp only [hg, theTape, tapeOf, hc, ne_eq, not_true_eq_false, if_false, hJ.rows, allRows_some]
    rw [hw]
    simp only []
    rw [recoverJ_eq .column manual hpat col _ M hM]
    congr 1
    refine entries_congr fun i hi j hj => ?_
    have hjn := hlt i hi j hj
    have hb := hb (col j) (hcol.lt j hjn) (fun i => colourSeed col i (col j)) (by
      funext i; unfold ext columnSeed; split_ifs <;> rfl) i
    simp only [reduceCtorEq, if_false, pd, hjn, dif_pos]
    rw [hb, fderiv_colour, Finset.sum_eq_single (⟨j, hjn⟩ : Fin _)]
    · simp
    · intro k' _ hk'
      split_ifs with hkc
      · have hkj : (k' : ℕ) ≠ j := fun e => hk' (Fin.ext e)
        have hr' : patRow JP i = JP[i].tail := by simp [patRow, List.getElem?_eq_getElem hi]
        have hnk : (k' : ℕ) ∉ patRow JP i := by
          intro hin
          exact hcol.proper JP[i] (List.getElem_mem hi) k' (by rw [← hr']; exact hin) j (by rw [← hr']; exact hj) hkj hkc
        have := hcov i k' hi k'.2 hnk
        simpa [pd, k'.2] using this
      · rfl
    · intro h; exact absurd (Finset.mem_univ _) h

/-! ### Patterns -/

/-- Restrictions under which the safe methods find all nonzeros (C20), and under which no row is a null pointer
(`C52_null_row`). -/
def safeMethod (p : Prog ℝ) (ops : List (Base ℝ)) : Method → Prop
  | .index false => allStmts idxStmt p
  | .bits false dir =>
    (isFwd (ops.countP isDep) (numInd ops) dir = true → numInd ops ≤ 1920 ∧ allStmts (patStmt (numInd ops)) p ∧
      ∀ rows, jacPatFwdSafe (ops.countP isDep) (numInd ops) ops = .ok rows → none ∉ rows) ∧
    (isFwd (ops.countP isDep) (numInd ops) dir = false → allStmts revStmt p)
  | _ => False

/-- Restrictions for the tight methods at the point `x` (C20). -/
def tightMethod (p : Prog ℝ) (stock : List (ℕ × List ℝ)) (ops : List (Base ℝ)) (x par G : ℕ → ℝ) : Method → Prop
  | .index true => stock = [] ∧ allStmts idxStmtT p
  | .bits true dir =>
    (isFwd (ops.countP isDep) (numInd ops) dir = true → numInd ops ≤ 1920 ∧ fwdTightOk ops ∧
      ∀ rows, jacPatFwdTight (ops.countP isDep) (numInd ops) ⟨x, par, false⟩ G ops = .ok rows → none ∉ rows) ∧
    (isFwd (ops.countP isDep) (numInd ops) dir = false → tightOk ops)
  | _ => False

theorem patRow_range {m : ℕ} {cols : ℕ → List ℕ} {j : ℕ} (hj : j < m) :
    patRow ((List.range m).map fun j => (cols j).length :: cols j) j = cols j := by
  simp [patRow, hj]

theorem pat_of_cols {m n : ℕ} {cols : ℕ → List ℕ} (h : ∀ j, (cols j).Pairwise (· < ·) ∧ ∀ i ∈ cols j, i < n) :
    Pat m n ((List.range m).map fun j => (cols j).length :: cols j) := by
  refine ⟨by simp, ?_, ?_, ?_⟩ <;> intro r hr <;> obtain ⟨j, -, rfl⟩ := List.mem_map.1 hr
  · exact ⟨_, rfl⟩
  · exact (h j).2
  · exact (h j).1

theorem cov_of_cols {m n : ℕ} {cols : ℕ → List ℕ} {par : ℕ → ℝ} {x0 : Fin n → ℝ}
    (hdiff : ∀ j, j < m → DifferentiableAt ℝ (F p s par n j) x0)
    (h : ∀ j < m, ∀ D : (Fin n → ℝ) →L[ℝ] ℝ, HasFDerivAt (fun x => p.out (ext x) par s.se j) D x0 →
      ∀ i : Fin n, D (Pi.single i 1) ≠ 0 → (i : Nat) ∈ cols j) :
    Cov p s par x0 ((List.range m).map fun j => (cols j).length :: cols j) := by
  intro i j hi hj hin
  simp only [List.length_map, List.length_range] at hi
  rw [patRow_range hi] at hin
  simp only [pd, hj, dif_pos]
  by_contra hne
  exact hin (h i hi _ (hdiff i hi).hasFDerivAt ⟨j, hj⟩ hne)

theorem none_rows {m : ℕ} {cols : ℕ → List ℕ}
    (h : none ∉ (List.range m).map fun j => if cols j = [] then none else some ((cols j).length :: cols j)) :
    ((List.range m).map fun j => if cols j = [] then none else some ((cols j).length :: cols j)) =
      ((List.range m).map fun j => (cols j).length :: cols j).map some := by
  rw [List.map_map]
  refine List.map_congr_left fun j hj => ?_
  by_cases hc : cols j = []
  · exact absurd (List.mem_map.2 ⟨j, hj, by simp [hc]⟩) h
  · simp [hc]

theorem diff_at (h : Traced cfg stock s p s' N) (par : ℕ → ℝ) {n : ℕ} (x0 : Fin n → ℝ) {e0 : SE ℝ}
    (hspec : p.spec (ext x0) par s.se = some (e0, p.path cfg s)) (hsm : p.smooth .rev (ext x0) par s.se) (j : ℕ) :
    DifferentiableAt ℝ (F p s par n j) x0 := by
  obtain ⟨D, hD, _⟩ := C11_fos_forward_partial h par false x0 hspec (Prog.smooth_fwd hsm)
  exact (hD j).differentiableAt

/-- A safe method finds a pattern that is right at all points of the recorded path. -/
theorem safe_pattern (h : Traced cfg stock s p s' N) (hd : p.disc ⟨Set.univ, ∅⟩) (mth : Method)
    (hm : safeMethod p (s'.tape N) mth) (par : ℕ → ℝ) (x : ℕ → ℝ) (q : Junk ℝ) :
    ∃ JP, jacPat mth (theTape s' N par) x q = .ok (JP.map some) ∧
      Pat ((s'.tape N).countP isDep) (numInd (s'.tape N)) JP ∧
      ∀ (par : ℕ → ℝ) (x0 : Fin (numInd (s'.tape N)) → ℝ) (e0 : SE ℝ),
        p.spec (ext x0) par s.se = some (e0, p.path cfg s) → p.smooth .rev (ext x0) par s.se → Cov p s par x0 JP := by
  cases mth with
  | index t =>
    cases t with
    | true => exact hm.elim
    | false =>
      obtain ⟨cols, h1, h2, h3⟩ := C20_index_safe_partial h hd hm
      refine ⟨(List.range ((s'.tape N).countP isDep)).map fun j => (cols j).length :: cols j, ?_, pat_of_cols h2, ?_⟩
      · simp only [jacPat, theTape, tapeOf, h1]
      · intro par x0 e0 hs hsm
        obtain ⟨l, hc⟩ := h3 par _ x0 e0 hs (Prog.smooth_fwd hsm)
        exact cov_of_cols (fun j _ => diff_at h par x0 hs hsm j) (fun j hj => hc j (l ▸ hj))
  | bits t dir =>
    cases t with
    | true => exact hm.elim
    | false =>
      rcases Bool.eq_false_or_eq_true (isFwd ((s'.tape N).countP isDep) (numInd (s'.tape N)) dir) with hf | hf
      · obtain ⟨a1, a2, a3⟩ := hm.1 hf
        obtain ⟨cols, h1, h2, h3⟩ := C20_bits_forward_safe_partial h a1 a2
        refine ⟨(List.range ((s'.tape N).countP isDep)).map fun j => (cols j).length :: cols j, ?_, pat_of_cols h2, ?_⟩
        · simp only [jacPat, theTape, tapeOf]
          simp only [hf, h1]
          rw [none_rows (a3 _ h1)]
        · intro par x0 e0 hs hsm
          obtain ⟨l, hc⟩ := h3 par x0 e0 hs (Prog.smooth_fwd hsm)
          exact cov_of_cols (fun j _ => diff_at h par x0 hs hsm j) (fun j hj => hc j (l ▸ hj))
      · obtain ⟨cols, h1, h2, h3⟩ := C20_bits_reverse_safe_partial h hd (hm.2 hf) q.R0
        refine ⟨(List.range ((s'.tape N).countP isDep)).map fun j => (cols j).length :: cols j, ?_, pat_of_cols h2, ?_⟩
        · simp only [jacPat, theTape, tapeOf]
          simp only [hf, h1, List.map_map]
          rfl
        · intro par x0 e0 hs hsm
          obtain ⟨l, hc⟩ := h3 par x0 e0 hs hsm
          exact cov_of_cols (fun j _ => diff_at h par x0 hs hsm j) (fun j hj => hc j (l ▸ hj))

/-- A tight method finds a pattern that is right at the base point. -/
theorem tight_pattern (h : Traced cfg stock s p s' N) (hd : p.disc ⟨Set.univ, ∅⟩) (mth : Method) (par : ℕ → ℝ)
    (x0 : Fin (numInd (s'.tape N)) → ℝ) {e0 : SE ℝ}
    (hspec : p.spec (ext x0) par s.se = some (e0, p.path cfg s)) (hsm : p.smooth .rev (ext x0) par s.se)
    (hm0 : 0 < (s'.tape N).countP isDep) (q : Junk ℝ) (hm : tightMethod p stock (s'.tape N) (ext x0) par q.G mth) :
    ∃ JP, jacPat mth (theTape s' N par) (ext x0) q = .ok (JP.map some) ∧
      Pat ((s'.tape N).countP isDep) (numInd (s'.tape N)) JP ∧ Cov p s par x0 JP := by
  obtain ⟨c1, c2⟩ := counts_of_spec h _ par hspec
  cases mth with
  | index t =>
    cases t with
    | false => exact hm.elim
    | true =>
      obtain ⟨rfl, hp⟩ := hm
      obtain ⟨cols, h1, h2, h3⟩ := C20_index_tight_partial h hd hp par _ x0 e0 hspec (Prog.smooth_fwd hsm)
      rw [c2] at h1 h3
      refine ⟨(List.range ((s'.tape N).countP isDep)).map fun j => (cols j).length :: cols j, ?_, pat_of_cols h2, ?_⟩
      · simp only [jacPat, theTape, tapeOf, h1]
      · exact cov_of_cols (fun j _ => diff_at h par x0 hspec hsm j) h3
  | bits t dir =>
    cases t with
    | false => exact hm.elim
    | true =>
      rcases Bool.eq_false_or_eq_true (isFwd ((s'.tape N).countP isDep) (numInd (s'.tape N)) dir) with hf | hf
      · obtain ⟨a1, a2, a3⟩ := hm.1 hf
        obtain ⟨cols, h1, h2, h3⟩ := C20_bits_forward_tight_partial h a1 a2 q.G par x0 e0 hspec (Prog.smooth_fwd hsm)
        rw [c2] at h1 h3
        refine ⟨(List.range ((s'.tape N).countP isDep)).map fun j => (cols j).length :: cols j, ?_, pat_of_cols h2, ?_⟩
        · simp only [jacPat, theTape, tapeOf]
          simp only [hf, h1]
          rw [none_rows (a3 _ h1)]
        · exact cov_of_cols (fun j _ => diff_at h par x0 hspec hsm j) h3
      · obtain ⟨cols, h1, h2, h3⟩ := C20_bits_reverse_tight_partial h hd (hm.2 hf) q.R0 par _ x0 e0 hspec c1 (by omega) hsm
        rw [c2] at h1 h3
        refine ⟨(List.range ((s'.tape N).countP isDep)).map fun j => (cols j).length :: cols j, ?_, pat_of_cols h2, ?_⟩
        · simp only [jacPat, theTape, tapeOf]
          simp only [hf, h1, List.map_map]
          rfl
        · exact cov_of_cols (fun j _ => diff_at h par x0 hspec hsm j) h3

/-! ### One call -/

theorem build_ready {cp : Colouring} (hcp : cp.Proper) {mth : Method} {cm : CMode} {t : Tape ℝ} {x : ℕ → ℝ} {q : Junk ℝ} {J : SJ}
    {JP : List (List ℕ)} (h1 : jacPat mth t x q = .ok (JP.map some)) (h2 : Pat t.m t.n JP) :
    ∃ J', buildPattern cp mth cm t x q J = .ok J' ∧ Ready cm t.m t.n JP J' := by
  unfold buildPattern
  simp only [h1, allRows_some]
  refine ⟨_, rfl, h2, rfl, rfl, _, _, rfl, ?_, ?_⟩
  · rintro rfl; exact ⟨(hcp JP t.n).1, by simp, by simp⟩
  · rintro rfl; exact ⟨(hcp JP t.n).2 h2.lt, by simp, by simp⟩

theorem isJacobian (h : Traced cfg stock s p s' N) (par : ℕ → ℝ) {n m : ℕ} (x0 : Fin n → ℝ) {e0 : SE ℝ}
    (hspec : p.spec (ext x0) par s.se = some (e0, p.path cfg s)) (hsm : p.smooth .rev (ext x0) par s.se)
    {JP : List (List ℕ)} (hp : Pat m n JP) (hcov : Cov p s par x0 JP) :
    IsJacobian p s par x0 m (entries JP (pd p s par x0)) := by
  refine ⟨fun i _ => diff_at h par x0 hspec hsm i, entries_sorted hp.sorted _, fun e he => ?_, fun i j hi hj hE => ?_⟩
  · rw [mem_entries] at he
    refine ⟨hp.len ▸ he.1, ?_, he.2.2⟩
    refine hp.lt JP[e.1] (List.getElem_mem he.1) _ ?_
    have := he.2.1
    simpa [patRow, List.getElem?_eq_getElem he.1] using this
  · rw [← hp.len] at hi
    refine hcov i j hi hj fun hin => hE (pd p s par x0 i j) ?_
    rw [mem_entries]; exact ⟨hi, hin, rfl⟩

/-- The part of a call behind the pattern, for data that fit. -/
theorem call_ready (h : Traced cfg stock s p s' N) (hd : p.disc ⟨Set.univ, ∅⟩) (par : ℕ → ℝ)
    (x0 : Fin (numInd (s'.tape N)) → ℝ) {e0 : SE ℝ} (hspec : p.spec (ext x0) par s.se = some (e0, p.path cfg s))
    (hsm : p.smooth .rev (ext x0) par s.se) (hn0 : 0 < numInd (s'.tape N)) (hm0 : 0 < (s'.tape N).countP isDep)
    (cm : CMode) (q : Junk ℝ) (hq : 0 ≤ q.rrc) {JP : List (List ℕ)} {J : SJ}
    (hJ : Ready cm ((s'.tape N).countP isDep) (numInd (s'.tape N)) JP J) (hcov : Cov p s par x0 JP) (M : List (Entry ℝ)) :
    ∃ rc E, 0 ≤ rc ∧ IsJacobian p s par x0 ((s'.tape N).countP isDep) E ∧
      ∀ manual, (if manual = true ∧ M.length ≠ J.nnz then .ret (-3) J M
        else computeSparseJac cm manual (theTape s' N par) (ext x0) q J M) =
        if manual = true ∧ M.length ≠ E.length then SOut.ret (-3) J M else .ret rc J E := by
  obtain ⟨rc, h0, h1⟩ := numeric h hd par x0 hspec hsm hn0 hm0 cm false q hq hJ hcov M (by simp)
  refine ⟨rc, entries JP (pd p s par x0), h0, isJacobian h par x0 hspec hsm hJ.pat hcov, fun manual => ?_⟩
  rw [hJ.nnz, nnz_eq hJ.pat.wf (pd p s par x0)]
  by_cases hM : manual = true ∧ M.length ≠ (entries JP (pd p s par x0)).length
  · rw [if_pos hM, if_pos hM]
  · rw [if_neg hM, if_neg hM]
    cases manual with
    | false => exact h1
    | true =>
      obtain ⟨rc', h0', h1'⟩ := numeric h hd par x0 hspec hsm hn0 hm0 cm true q hq hJ hcov M (by
        intro _; rw [nnz_eq hJ.pat.wf (pd p s par x0)]; simpa using hM)
      rw [h1']
      congr 1
      -- the code does not depend on the memory handler
      have e2 : ∀ rc₁ rc₂ J₁ J₂ E₁ E₂, computeSparseJac cm false (theTape s' N par) (ext x0) q J M = .ret rc₁ J₁ E₁ →
          computeSparseJac cm true (theTape s' N par) (ext x0) q J M = .ret rc₂ J₂ E₂ → rc₂ = rc₁ := by
        intro rc₁ rc₂ J₁ J₂ E₁ E₂ g1 g2
        unfold computeSparseJac at g1 g2
        obtain ⟨col, k, hg, _⟩ := hJ.graph
        simp only [hg, ne_eq, not_true_eq_false, if_false] at g1 g2
        cases cm <;> simp only at g1 g2
        · revert g1 g2
          cases zosRun _ (theTape s' N par).ops ZS.init <;> simp only
          · intro g1 g2; cases g1; cases g2; rfl
          · cases fovRevRun _ _ (theTape s' N par).ops _ <;> simp only
            · intro g1; cases g1
            · cases allRows J.JP <;> simp only
              · intro g1; cases g1
              · intro g1 g2; cases g1; cases g2; rfl
        · revert g1 g2
          cases allRows J.JP <;> simp only
          · intro g1; cases g1
          · cases fovRun _ _ _ (theTape s' N par).ops VS.init <;> simp only
            · intro g1 g2; cases g1; cases g2; rfl
            · intro g1 g2; cases g1; cases g2; rfl
      exact e2 _ _ _ _ _ _ h1 h1'

/-- `sparse_jac` with `repeat = 0`, whatever the tape and the caller's matrix contain: for all pattern methods, control
flow modes, directions and compression modes, every proper colouring, and every content of uninitialised memory.  It returns
a nonnegative code and the sparse Jacobian at `x0`; with `MemoryHandler::Manual` the same if the caller's matrix has the right
size, and otherwise -3 with the matrix left alone.

Partial: the restrictions of C20 on the methods (`safeMethod`, `tightMethod`), of C13 on the point; no row of the pattern is
empty with forward bit patterns (`C52_null_row`). -/
theorem C52_first_call_partial (h : Traced cfg stock s p s' N) (hd : p.disc ⟨Set.univ, ∅⟩) {cp : Colouring} (hcp : cp.Proper)
    (par : ℕ → ℝ) (x0 : Fin (numInd (s'.tape N)) → ℝ) {e0 : SE ℝ} (hspec : p.spec (ext x0) par s.se = some (e0, p.path cfg s))
    (hsm : p.smooth .rev (ext x0) par s.se) (hn0 : 0 < numInd (s'.tape N)) (hm0 : 0 < (s'.tape N).countP isDep)
    (mth : Method) (cm : CMode) (q : Junk ℝ) (hq : 0 ≤ q.rrc)
    (hm : safeMethod p (s'.tape N) mth ∨ tightMethod p stock (s'.tape N) (ext x0) par q.G mth) (J : SJ) (M : List (Entry ℝ)) :
    ∃ rc J' E, 0 ≤ rc ∧ IsJacobian p s par x0 ((s'.tape N).countP isDep) E ∧
      sparseJac cp mth cm false (theTape s' N par) false (ext x0) q J M = .ret rc J' E ∧
      sparseJac cp mth cm true (theTape s' N par) false (ext x0) q J M =
        if M.length = E.length then .ret rc J' E else .ret (-3) J' M := by
  obtain ⟨JP, j1, j2, j3⟩ : ∃ JP, jacPat mth (theTape s' N par) (ext x0) q = .ok (JP.map some) ∧
      Pat ((s'.tape N).countP isDep) (numInd (s'.tape N)) JP ∧ Cov p s par x0 JP := by
    rcases hm with hm | hm
    · obtain ⟨JP, j1, j2, j3⟩ := safe_pattern h hd mth hm par (ext x0) q
      exact ⟨JP, j1, j2, j3 par x0 e0 hspec hsm⟩
    · exact tight_pattern h hd mth par x0 hspec hsm hm0 q hm
  obtain ⟨J', b1, b2⟩ := build_ready (J := J) hcp (cm := cm) j1 j2
  obtain ⟨rc, E, r1, r2, r3⟩ := call_ready h hd par x0 hspec hsm hn0 hm0 cm q hq b2 j3 M
  refine ⟨rc, J', E, r1, r2, ?_, ?_⟩
  · have := r3 false
    simpa [sparseJac, b1] using this
  · have := r3 true
    simp only [true_and] at this
    simp only [sparseJac, b1, Bool.false_eq_true, if_false, true_and]
    rw [this]
    by_cases hl : M.length = E.length <;> simp [hl]

/-! ### Any history of calls -/

/-- The tape's data after a history of calls with compression mode `cm` and safe pattern methods, at any points, with any
parameters and matrices, whatever they returned; the flag tells whether one of them had `repeat = 0`. -/
inductive History (cp : Colouring) (cm : CMode) (p : Prog ℝ) (s' : Rec ℝ) (N : ℕ) : SJ → Bool → Prop
  | fresh : History cp cm p s' N SJ.init false
  | call {J b} (mth : Method) (manual rep : Bool) (par x : ℕ → ℝ) (q : Junk ℝ) (M : List (Entry ℝ)) {c J' M'} :
      History cp cm p s' N J b → (rep = false → safeMethod p (s'.tape N) mth) →
      sparseJac cp mth cm manual (theTape s' N par) rep x q J M = .ret c J' M' →
      History cp cm p s' N J' (b || !rep)

theorem compute_keeps {cm : CMode} {manual : Bool} {t : Tape ℝ} {x : ℕ → ℝ} {q : Junk ℝ} {J J' : SJ} {M M' : List (Entry ℝ)}
    {c : ℤ} (h : computeSparseJac cm manual t x q J M = .ret c J' M') : J' = J := by
  unfold computeSparseJac at h
  repeat' split at h
  all_goals first | (cases h; rfl) | cases h

theorem history_inv (h : Traced cfg stock s p s' N) (hd : p.disc ⟨Set.univ, ∅⟩) {cp : Colouring} (hcp : cp.Proper)
    (hn0 : 0 < numInd (s'.tape N)) (hm0 : 0 < (s'.tape N).countP isDep) {cm : CMode} {J : SJ} {b : Bool}
    (hh : History cp cm p s' N J b) :
    if b = true then ∃ JP, Ready cm ((s'.tape N).countP isDep) (numInd (s'.tape N)) JP J ∧
      ∀ (par : ℕ → ℝ) (x0 : Fin (numInd (s'.tape N)) → ℝ) (e0 : SE ℝ),
        p.spec (ext x0) par s.se = some (e0, p.path cfg s) → p.smooth .rev (ext x0) par s.se → Cov p s par x0 JP
    else J = SJ.init := by
  induction hh with
  | fresh => simp
  | @call J b mth manual rep par x q M c J' M' _ hsafe hc ih =>
    cases rep with
    | true =>
      have : J' = J := by
        simp only [sparseJac, if_true] at hc
        split_ifs at hc
        · cases hc; rfl
        · cases hc; rfl
        · exact compute_keeps hc
      subst this
      simpa using ih
    | false =>
      obtain ⟨JP, j1, j2, j3⟩ := safe_pattern h hd mth (hsafe rfl) par x q
      obtain ⟨J1, b1, b2⟩ := build_ready (J := J) hcp (cm := cm) j1 j2
      have : J' = J1 := by
        simp only [sparseJac, b1, Bool.false_eq_true, if_false] at hc
        split_ifs at hc
        · cases hc; rfl
        · exact compute_keeps hc
      subst this
      simp only [Bool.not_false, Bool.or_true, if_true]
      exact ⟨JP, b2, j3⟩

/-- After any history of calls (same compression mode, safe pattern methods), at a point `x0` of the recorded path, with any
parameters: `repeat = 1` before any call with `repeat = 0` returns -3 and changes nothing; afterwards every call returns the
sparse Jacobian at `x0` for the current parameters.

Partial: as `C52_first_call_partial`; tight patterns belong to one point only (`C52_stale_pattern`), and a
pattern that failed leaves null rows behind (`C52_failed_pattern`).  A repeated call with the other compression mode would use
the wrong colours and seed; the model leaves it undefined. -/
theorem C52_history_partial (h : Traced cfg stock s p s' N) (hd : p.disc ⟨Set.univ, ∅⟩) {cp : Colouring} (hcp : cp.Proper)
    (hn0 : 0 < numInd (s'.tape N)) (hm0 : 0 < (s'.tape N).countP isDep) {cm : CMode} {J : SJ} {b : Bool}
    (hh : History cp cm p s' N J b) (par : ℕ → ℝ) (x0 : Fin (numInd (s'.tape N)) → ℝ) {e0 : SE ℝ}
    (hspec : p.spec (ext x0) par s.se = some (e0, p.path cfg s)) (hsm : p.smooth .rev (ext x0) par s.se)
    (mth : Method) (q : Junk ℝ) (hq : 0 ≤ q.rrc) (M : List (Entry ℝ)) :
    (b = false → ∀ manual, sparseJac cp mth cm manual (theTape s' N par) true (ext x0) q J M = .ret (-3) J M) ∧
    (b = true → ∃ rc E, 0 ≤ rc ∧ IsJacobian p s par x0 ((s'.tape N).countP isDep) E ∧
      sparseJac cp mth cm false (theTape s' N par) true (ext x0) q J M = .ret rc J E ∧
      sparseJac cp mth cm true (theTape s' N par) true (ext x0) q J M =
        if M.length = E.length then .ret rc J E else .ret (-3) J M) := by
  have inv := history_inv h hd hcp hn0 hm0 hh
  refine ⟨?_, ?_⟩
  · rintro rfl manual
    simp only [Bool.false_eq_true, if_false] at inv
    subst inv
    simp [sparseJac, SJ.init]
  · rintro rfl
    simp only [if_true] at inv
    obtain ⟨JP, hr, hc⟩ := inv
    obtain ⟨rc, E, r1, r2, r3⟩ := call_ready h hd par x0 hspec hsm hn0 hm0 cm q hq hr (hc par x0 e0 hspec hsm) M
    have hz : ¬ (J.graph = none ∨ J.rows = 0 ∨ J.clms = 0) := by
      obtain ⟨col, k, hg, hrow, hcol⟩ := hr.graph
      rintro (h | h | h)
      · rw [hg] at h; cases h
      · cases cm with
        | row =>
          have := (hrow rfl).1.lt 0 (by rw [hr.pat.len]; exact hm0)
          rw [(hrow rfl).2.1] at h; omega
        | column => rw [(hcol rfl).2.1] at h; omega
      · cases cm with
        | row => rw [(hrow rfl).2.2] at h; omega
        | column =>
          have := (hcol rfl).1.lt 0 hn0
          rw [(hcol rfl).2.2] at h; omega
    refine ⟨rc, E, r1, r2, ?_, ?_⟩
    · have := r3 false
      simpa [sparseJac, hz] using this
    · have := r3 true
      simp only [true_and] at this
      simp only [sparseJac, if_true, if_neg hz, true_and]
      rw [this]
      by_cases hl : M.length = E.length <;> simp [hl]

/-- Every call after such a history is defined, at all points and for all parameters (off the recorded path it may
return a negative code). -/
theorem C52_defined (h : Traced cfg stock s p s' N) (hd : p.disc ⟨Set.univ, ∅⟩) {cp : Colouring} (hcp : cp.Proper)
    (hn0 : 0 < numInd (s'.tape N)) (hm0 : 0 < (s'.tape N).countP isDep) {cm : CMode} {J : SJ} {b : Bool}
    (hh : History cp cm p s' N J b) (par x : ℕ → ℝ) (mth : Method) (manual rep : Bool)
    (hsafe : rep = false → safeMethod p (s'.tape N) mth) (q : Junk ℝ) (M : List (Entry ℝ)) :
    ∃ c J' M', sparseJac cp mth cm manual (theTape s' N par) rep x q J M = .ret c J' M' := by
  have comp : ∀ {J : SJ} {JP : List (List ℕ)}, Ready cm ((s'.tape N).countP isDep) (numInd (s'.tape N)) JP J →
      ∃ c J' M', computeSparseJac cm manual (theTape s' N par) x q J M = .ret c J' M' := by
    intro J JP hr
    obtain ⟨col, k, hg, hrow, hcol⟩ := hr.graph
    unfold computeSparseJac
    simp only [hg, ne_eq, not_true_eq_false, if_false, hr.rows, allRows_some]
    cases cm with
    | column =>
      simp only
      cases fovRun ⟨x, (theTape s' N par).par, false⟩ J.clms (columnSeed (theTape s' N par).n col) (theTape s' N par).ops VS.init with
      | error e => exact ⟨_, _, _, rfl⟩
      | ok w => exact ⟨_, _, _, rfl⟩
    | row =>
      simp only
      cases hz : zosRun ⟨x, (theTape s' N par).par, true⟩ (theTape s' N par).ops ZS.init with
      | error e => exact ⟨_, _, _, rfl⟩
      | ok z =>
        simp only
        have hk : 0 < k := by
          have := (hrow rfl).1.lt 0 (by rw [hr.pat.len]; exact hm0)
          omega
        rcases C14_fov_reverse_rows J.rows (fun c i => colourSeed col i c) (s'.tape N) (numInd (s'.tape N))
          ((s'.tape N).countP isDep) z.stk 0 (by rw [(hrow rfl).2.1]; exact hk) with ⟨e, _, he⟩ | ⟨w, r, hw, _⟩
        · exfalso
          obtain ⟨body, hb1, hb2⟩ := C16_values_restored_partial h x par (fun i => colourSeed col i 0)
            (numInd (s'.tape N)) ((s'.tape N).countP isDep) hz
          obtain ⟨z1, r, _, hr1, _⟩ := hb2 [] body rfl
          replace he : revRun (fun i => colourSeed col i 0) ((stock.map fun q => Base.takeStock q.1 q.2) ++
              (body ++ [.deathNot 0 (N - 1)])) (RS.init (numInd (s'.tape N)) ((s'.tape N).countP isDep) z.stk) = .error e := by
            rw [← List.append_assoc, ← hb1]; exact he
          rw [Verif.AD.revRun_append, hr1] at he
          simp only at he
          have : ∀ (L : List (ℕ × List ℝ)) (r : RS ℝ), ∃ r',
              revRun (fun i => colourSeed col i 0) (L.map fun q => Base.takeStock q.1 q.2) r = .ok r' := by
            intro L
            induction L with
            | nil => exact fun r => ⟨r, rfl⟩
            | cons a L ih =>
              intro r
              obtain ⟨r', h'⟩ := ih r
              simp only [List.map_cons, revRun, h', revStep]
              exact ⟨_, rfl⟩
          obtain ⟨r', h'⟩ := this stock r
          rw [h'] at he; cases he
        · have : fovRevRun J.rows (fun c i => colourSeed col i c) (theTape s' N par).ops
              (VRS.init (theTape s' N par).n (theTape s' N par).m z.stk) = .ok w := hw
          rw [this]
          exact ⟨_, _, _, rfl⟩
  have inv := history_inv h hd hcp hn0 hm0 hh
  cases rep with
  | true =>
    simp only [sparseJac, if_true]
    split_ifs with h1 h2
    · exact ⟨_, _, _, rfl⟩
    · exact ⟨_, _, _, rfl⟩
    · cases b with
      | false =>
        simp only [Bool.false_eq_true, if_false] at inv
        subst inv
        exact absurd (Or.inl rfl) h1
      | true =>
        obtain ⟨JP, hr, _⟩ := inv
        exact comp hr
  | false =>
    obtain ⟨JP, j1, j2, j3⟩ := safe_pattern h hd mth (hsafe rfl) par x q
    obtain ⟨J1, b1, b2⟩ := build_ready (J := J) hcp (cm := cm) j1 j2
    simp only [sparseJac, b1, Bool.false_eq_true, if_false]
    split_ifs
    · exact ⟨_, _, _, rfl⟩
    · exact comp b2

/-! ### The hypotheses can be met -/

/-- Every row and column has its own colour. -/
def ownColour : Colouring := fun cm JP n => (id, if cm = .row then JP.length else n)

theorem ownColour_proper : ownColour.Proper := by
  intro JP n
  refine ⟨⟨fun i hi => by simpa [ownColour] using hi, fun i k _ _ hne _ _ _ => by simpa [ownColour] using hne⟩, fun _ =>
    ⟨fun j hj => by simpa [ownColour] using hj, fun r _ j _ k _ hne => by simpa [ownColour] using hne⟩⟩

/-- The demo program: two independents, one dependent; the hypotheses are met by safe index domains and reverse bit patterns,
and after a first call with `repeat = 0` at any point. -/
example : ∃ s', Traced demoCfg [] demoStart demo s' (s'.hw + 1) ∧ demo.disc ⟨Set.univ, ∅⟩ ∧
    numInd (s'.tape (s'.hw + 1)) = 2 ∧ (s'.tape (s'.hw + 1)).countP isDep = 1 ∧
    safeMethod demo (s'.tape (s'.hw + 1)) (.index false) ∧ safeMethod demo (s'.tape (s'.hw + 1)) (.bits false .reverse) ∧
    ∀ x par : ℕ → ℝ, ∃ c J' M', sparseJac ownColour (.index false) .column false (theTape s' (s'.hw + 1) par) false x
        ⟨fun _ => 0, fun _ _ => 0, fun _ _ => 0, 0⟩ SJ.init [] = .ret c J' M' ∧
      History ownColour .column demo s' (s'.hw + 1) J' true := by
  obtain ⟨e, h1, h2, h3⟩ := demo_spec demoCfg.x demoCfg.par (by simp only [demoCfg]; positivity)
  obtain ⟨s', h4, h5⟩ := traced_exists (stock := []) demo_alloc demo_start
    (by simp [demo, Prog.noFminLL, Stmt.notFminLL]) h1
  obtain ⟨e', g1, g2, g3⟩ := demo_spec demoCfg.x (fun _ => 0) (by simp only [demoCfg]; positivity)
  have hpath : demo.path demoCfg demoStart = [true] := by
    have := h5
    simp_all
  obtain ⟨c1, c2⟩ := counts_of_spec h4 demoCfg.x (fun _ => 0) (by rw [hpath]; exact g1)
  have hs : safeMethod demo (s'.tape (s'.hw + 1)) (.index false) := by simp [safeMethod, demo, allStmts, idxStmt]
  rw [g2] at c1
  rw [g3] at c2
  refine ⟨s', h4, demo_disc, c1.symm, c2.symm, hs, ⟨fun h => ?_, fun _ => ?_⟩, fun x par => ?_⟩
  · simp [isFwd] at h
  · simp [demo, allStmts, revStmt]
  · obtain ⟨c, J', M', hc⟩ := C52_defined h4 demo_disc ownColour_proper (by omega) (by rw [← c2]; simp) (cm := .column) .fresh par x
      (.index false) false false (fun _ => hs) ⟨fun _ => 0, fun _ _ => 0, fun _ _ => 0, 0⟩ []
    exact ⟨c, J', M', hc, .call _ _ _ _ _ _ _ .fresh (fun _ => hs) hc⟩

/-! ### Where the code fails -/

/-- `y0 = x0`, `y1 = 0`. -/
def constSrc : Prog ℝ :=
  .stmt (.new 0) <| .stmt (.indep 0) <| .stmt (.new 1) <| .stmt (.dep 0) <| .stmt (.dep 1) .done

/-- With forward bit patterns (the default when there are few independents) a dependent that depends on no independent has a
null pointer for its row, which line 730 of sparsedrivers.h dereferences: no call returns. -/
theorem C52_null_row : ∃ s', constSrc.record demoCfg demoStart = some s' ∧ numInd (s'.tape 3) = 1 ∧
    (s'.tape 3).countP isDep = 2 ∧
    ∀ cp cm manual par x q J M, sparseJac cp (.bits false .auto) cm manual (theTape s' 3 par) false x q J M = .undef := by
  have key : ∃ s', constSrc.record demoCfg demoStart = some s' ∧ s'.tape 3 =
      [.assignD0 1, .assignInd 1, .assignD0 2, .assignDep 1, .assignDep 2, .deathNot 0 2] := ⟨_, rfl, rfl⟩
  obtain ⟨s', h1, h2⟩ := key
  refine ⟨s', h1, by rw [h2]; rfl, by rw [h2]; rfl, fun cp cm manual par x q J M => ?_⟩
  have hp : jacPat (.bits false .auto) (theTape s' 3 par) x q = .ok [some [1, 0], none] := by
    have : jacPatFwdSafe 2 1 ([.assignD0 1, .assignInd 1, .assignD0 2, .assignDep 1, .assignDep 2, .deathNot 0 2] : List (Base ℝ)) =
        .ok [some [1, 0], none] := by decide +kernel
    simp only [theTape, tapeOf, h2]
    simp only [jacPat]
    rw [show isFwd _ _ _ = true from rfl]
    simp only []
    rw [show numInd _ = 1 from rfl, show List.countP _ _ = 2 from rfl, this]
  simp [sparseJac, buildPattern, hp, allRows]

/-- `y = x0`, with a comparison of `x0` with 0. -/
def cmpSrc : Prog ℝ :=
  .stmt (.new 0) <| .stmt (.indep 0) <| .branch .gt 0 (.stmt (.dep 0) .done) (.stmt (.dep 0) .done)

/-- A call with tight index domains at a point where a comparison of the traced program comes out differently returns -1, but
it leaves null pointers in place of the pattern of the earlier calls: a later call with `repeat = 1`, at any point of the
recorded path, dereferences them. -/
theorem C52_failed_pattern : ∃ s', cmpSrc.record demoCfg demoStart = some s' ∧
    ∀ (par : ℕ → ℝ) (q : Junk ℝ) (J : SJ) (M : List (Entry ℝ)),
      (∃ rc J1 E1, 0 ≤ rc ∧ sparseJac ownColour (.index false) .column false (theTape s' 2 par) false (fun _ => 1) q J M = .ret rc J1 E1 ∧
        E1 = [(0, 0, 1)] ∧
        ∃ J2, sparseJac ownColour (.index true) .column false (theTape s' 2 par) false (fun _ => -1) q J1 E1 = .ret (-1) J2 E1 ∧
          sparseJac ownColour (.index false) .column false (theTape s' 2 par) true (fun _ => 1) q J2 E1 = .undef) := by
  have key : ∃ s', cmpSrc.record demoCfg demoStart = some s' ∧ s'.tape 2 =
      [.assignD0 1, .assignInd 1, .cmp .gt 1, .assignDep 1, .deathNot 0 1] := by
    simp [cmpSrc, Prog.record, Stmt.record, demoStart, demoCfg, Rec.take, Rec.next, Rec.rec1, Rec.put, Rec.keepT, Rec.val,
      upd_apply, Cmp.holds, Cmp.recorded, Rec.tape, fullTrace]
  obtain ⟨s', h1, h2⟩ := key
  refine ⟨s', h1, fun par q J M => ?_⟩
  have hp : ∀ x : ℕ → ℝ, jacPat (.index false) (theTape s' 2 par) x q = .ok [some [1, 0]] := by
    intro x
    simp only [theTape, tapeOf, h2]
    rfl
  have hp' : jacPat (.index true) (theTape s' 2 par) (fun _ => -1) q = .error (some (-1)) := by
    norm_num [theTape, tapeOf, h2, jacPat, jacPatIdxTight, idTightRun, tightVal, zosStep, idStep, ZS.init, IS.init, Except.map, IS.map,
      upd_apply, ZS.set, ZS.push, Cmp.holds]
  have hn : (theTape s' 2 par).n = 1 := by simp only [theTape, tapeOf, h2]; rfl
  have hm : (theTape s' 2 par).m = 1 := by simp only [theTape, tapeOf, h2]; rfl
  have hg : ∃ w, fovRun ⟨fun _ => 1, (theTape s' 2 par).par, false⟩ 1 (columnSeed 1 id) (theTape s' 2 par).ops VS.init = .ok w ∧
      w.dy = [[1]] ∧ 0 ≤ w.rc := by
    norm_num [theTape, tapeOf, h2, fovRun, fovStep, VS.init, VS.up, VS.setC, VS.set, upd_apply, Cmp.holds, columnSeed, colourSeed]
  obtain ⟨w, hw, hy, hrc⟩ := hg
  refine ⟨w.rc, ⟨[some [1, 0]], some (.column, id, 1), 1, 1, 1⟩, [(0, 0, 1)], hrc, ?_, rfl,
    ⟨[none], some (.column, id, 1), 1, 1, 1⟩, ?_, ?_⟩
  · simp [sparseJac, buildPattern, hp, allRows, ownColour, computeSparseJac, hw, hy, hn, hm, recoverJ, nnz]
    rw [recoverCol_eq (by intro r hr; simp at hr; subst hr; exact ⟨[0], rfl⟩)]
    simp [entries, patRow]
  · simp [sparseJac, buildPattern, hp', hm]
  · simp [sparseJac, computeSparseJac, allRows]

/-- `y = fmin(x0, x1)`, of temporaries. -/
def minSrc : Prog ℝ :=
  .stmt (.new 0) <| .stmt (.indep 0) <| .stmt (.new 1) <| .stmt (.indep 1) <| .stmt (.new 2) <|
  .stmt (.bin .fmin false 0 1 2) <| .stmt (.dep 2) .done

/-- A pattern computed with tight control flow is used at other points with `repeat = 1`: for `y = fmin(x0, x1)`, with the
pattern from `(0, 1)`, the Jacobian at `(1, 0)` is returned as `[(0, 0, 0)]` although the derivative with respect to `x1` is 1;
the return code is not negative. -/
theorem C52_stale_pattern : ∃ s', minSrc.record demoCfg demoStart = some s' ∧
    ∀ (par : ℕ → ℝ) (q : Junk ℝ) (J : SJ) (M : List (Entry ℝ)),
      ∃ rc J1, 0 ≤ rc ∧
        sparseJac ownColour (.index true) .column false (theTape s' 4 par) false (fun i => if i = 0 then 0 else 1) q J M =
          .ret rc J1 [(0, 0, 1)] ∧
        ∃ rc', 0 ≤ rc' ∧
          sparseJac ownColour (.index true) .column false (theTape s' 4 par) true (fun i => if i = 0 then 1 else 0) q J1 M =
            .ret rc' J1 [(0, 0, 0)] ∧
          ∃ f, fosRun ⟨fun i => if i = 0 then (1 : ℝ) else 0, par, false⟩ (fun i => if i = 1 then 1 else 0) (s'.tape 4) FS.init = .ok f ∧
            f.dy = [1] := by
  have key : ∃ s', minSrc.record demoCfg demoStart = some s' ∧ s'.tape 4 =
      [.assignD0 1, .assignInd 1, .assignD0 2, .assignInd 2, .assignD0 3, .minOp 1 2 3 1, .assignDep 3, .deathNot 0 3] := by
    norm_num [minSrc, Prog.record, Stmt.record, demoStart, demoCfg, Rec.take, Rec.next, Rec.rec1, Rec.put, Rec.keepT, Rec.val,
      upd_apply, Rec.tape, fullTrace, Bin.op, Bin.recVal]
  obtain ⟨s', h1, h2⟩ := key
  refine ⟨s', h1, fun par q J M => ?_⟩
  have hp : jacPat (.index true) (theTape s' 4 par) (fun i => if i = 0 then 0 else 1) q = .ok [some [1, 0]] := by
    norm_num [theTape, tapeOf, h2, jacPat, jacPatIdxTight, idTightRun, tightVal, zosStep, idStep, ZS.init, IS.init, Except.map, IS.map,
      upd_apply, ZS.set, ZS.push, ZS.dec, copyDom, combine2, merge2, mergeU]
  have hn : (theTape s' 4 par).n = 2 := by simp only [theTape, tapeOf, h2]; rfl
  have hm : (theTape s' 4 par).m = 1 := by simp only [theTape, tapeOf, h2]; rfl
  have hg : ∃ w, fovRun ⟨fun i => if i = 0 then 0 else 1, (theTape s' 4 par).par, false⟩ 2 (columnSeed 2 id) (theTape s' 4 par).ops VS.init = .ok w ∧
      w.dy = [[1, 0]] := by
    norm_num [theTape, tapeOf, h2, fovRun, fovStep, VS.init, VS.up, VS.setC, VS.set, upd_apply, columnSeed, colourSeed, VS.dec, List.range_succ]
  have hg' : ∃ w, fovRun ⟨fun i => if i = 0 then 1 else 0, (theTape s' 4 par).par, false⟩ 2 (columnSeed 2 id) (theTape s' 4 par).ops VS.init = .ok w ∧
      w.dy = [[0, 1]] := by
    norm_num [theTape, tapeOf, h2, fovRun, fovStep, VS.init, VS.up, VS.setC, VS.set, upd_apply, columnSeed, colourSeed, VS.dec, List.range_succ]
  obtain ⟨w, hw, hy⟩ := hg
  obtain ⟨w', hw', hy'⟩ := hg'
  have hrc := fov_rc _ hw (by simp [VS.init])
  have hrc' := fov_rc _ hw' (by simp [VS.init])
  refine ⟨w.rc, ⟨[some [1, 0]], some (.column, id, 2), 1, 1, 2⟩, hrc, ?_, w'.rc, hrc', ?_, ?_⟩
  · simp [sparseJac, buildPattern, hp, allRows, ownColour, computeSparseJac, hw, hy, hn, hm, recoverJ, nnz]
    rw [recoverCol_eq (by intro r hr; simp at hr; subst hr; exact ⟨[0], rfl⟩)]
    simp [entries, patRow]
  · simp [sparseJac, allRows, computeSparseJac, hw', hy', hn, recoverJ]
    rw [recoverCol_eq (by intro r hr; simp at hr; subst hr; exact ⟨[0], rfl⟩)]
    simp [entries, patRow]
  · rw [h2]
    norm_num [fosRun, fosStep, FS.init, FS.set, FS.push, FS.setD, upd_apply, FS.dec]

end Verif.Props.SparseJac
