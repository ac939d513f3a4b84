import Verif.Sparse.SparseJac
import Verif.Sparse.Hess
import Verif.Sparse.HessOld
import Verif.AD.HigherVec
import Verif.AD.HoRevVec
/-!
# `sparse_hess`

Model of `/repo/ADOL-C/include/adolc/sparse/sparsedrivers.h` 1141-1157, 1227-1283, 1319-1380, 1415-1430 and
`/repo/ADOL-C/src/valuetape/sparseinfos.cpp` 372-412.  ColPack (colouring of the Hessian's graph and recovery) is a
parameter with the contract `HColPack.Correct`.
Memory management is not modelled.
-/
set_option linter.all false
namespace Verif.Sparse
open Verif.AD Verif.Drivers

/-- `RecoveryMethod`: `STAR` colouring and direct recovery, or `ACYCLIC_FOR_INDIRECT_RECOVERY` and indirect recovery. -/
inductive RMode where
  | direct | indirect
  deriving DecidableEq, Repr

/-- ColPack: `GenerateSeedHessian` (from the pattern and the number of variables to the colours and their number) and
`…Recover_CoordinateFormat_…` (from the pattern, the colours and the compressed Hessian to the coordinate format). -/
structure HColPack (K : Type) where
  colour : RMode → List (List ℕ) → ℕ → (ℕ → ℕ) × ℕ
  recover : RMode → List (List ℕ) → (ℕ → ℕ) → (ℕ → ℕ → K) → List (Entry K)

/-- The entries of the pattern on and above the diagonal, row by row. -/
def upperEntries {K : Type} (HP : List (List ℕ)) (val : ℕ → ℕ → K) : List (Entry K) :=
  (entries HP val).filter fun e => e.1 ≤ e.2.1

/-- A symmetric pattern of an `n × n` matrix with sorted rows. -/
structure SymPat (n : ℕ) (HP : List (List ℕ)) : Prop where
  len : HP.length = n
  wf : ∀ r ∈ HP, RowWf r
  lt : ∀ r ∈ HP, ∀ j ∈ r.tail, j < n
  sorted : ∀ r ∈ HP, r.tail.Pairwise (· < ·)
  sym : ∀ i j, i < n → j < n → (j ∈ patRow HP i ↔ i ∈ patRow HP j)

/-- ColPack's contract: there are at most `k` colours, and every symmetric matrix with the pattern is recovered from its
product with the seed matrix (column `c` of the product is the sum of the columns of colour `c`). -/
def HColPack.Correct (cp : HColPack ℝ) : Prop :=
  ∀ md n HP, SymPat n HP →
    (∀ i, i < n → (cp.colour md HP n).1 i < (cp.colour md HP n).2) ∧
    ∀ H : ℕ → ℕ → ℝ, (∀ i j, i < n → j < n → H i j = H j i) →
      (∀ i j, i < n → j < n → j ∉ patRow HP i → H i j = 0) →
      ∀ B : ℕ → ℕ → ℝ, (∀ i c, i < n → c < (cp.colour md HP n).2 →
        B i c = ∑ j ∈ Finset.range n, if (cp.colour md HP n).1 j = c then H i j else 0) →
      cp.recover md HP (cp.colour md HP n).1 B = upperEntries HP H

/-- What the tape keeps (`SparseHessInfos`, sparseinfos.h:127-173): the rows `HP_` (`none`: a null pointer), the coloured graph
with the number of colours `p_` (`none`: `Upp_ == nullptr`, no call with `repeat = 0` has succeeded), `nnzIn_`. -/
structure SH where
  HP : List (Option (List ℕ))
  graph : Option (RMode × (ℕ → ℕ) × ℕ)
  nnz : ℤ

/-- A fresh tape. -/
def SH.init : SH := ⟨[], none, 0⟩

/-- How a call ends: with a code, the tape's data, `*nnz` and the caller's arrays (`none`: one of the three pointers is
null); or with undefined behaviour, an exception, or in a way that is not modelled. -/
inductive HOut (K : Type) where
  | ret (code : ℤ) (J : SH) (nnz : ℤ) (mem : Option (List (Entry K)))
  | undef

variable {K : Type} [Scalar K]

/-- `ControlFlowMode` (sparse_options.h). -/
inductive HMode where
  | safe | tight | oldSafe | oldTight
  deriving DecidableEq, Repr

/-- `hess_pat<CFM>` (sparsedrivers.h:1141-1157).  `.error (some c)`: returns the negative code `c`; `.error none`: it throws or its
behaviour is undefined. -/
def hessPat (cm : HMode) (t : Tape K) (x : ℕ → K) : Except (Option ℤ) (List (List ℕ)) :=
  match (match cm with
    | .safe => hessPatSafe t.n t.ops
    | .tight => hessPatTight x t.par t.n t.ops
    | .oldSafe => hessPatOldSafe t.n t.ops
    | .oldTight => hessPatOldTight x t.par t.n t.ops) with
  | .ok rows => .ok rows
  | .error .genQuad => .error (some (-2))
  | .error (.stop .branchSwitch) => .error (some (-1))
  | .error (.stop .quadChanged) => .error (some (-2))
  | .error _ => .error none

/-- Lines 1246-1250: the entries on and above the diagonal are counted one by one. -/
def nnzUpper (HP : List (List ℕ)) : ℤ :=
  (List.range HP.length).foldl (fun k i => (List.range' 1 ((HP[i]?.getD []).headD 0)).foldl
    (fun k j => if ((HP[i]?.getD [])[j]?).getD 0 ≥ i then k + 1 else k) k) 0

/-- `buildHessPatternAndSeed` (sparsedrivers.h:1227-1283): `.ok J'` the new data, `.error (some (c, J'))` a negative code; then the
rows are those `setHP` has allocated, null pointers (1233), and the rest is as before. -/
def buildHess (cp : HColPack K) (cm : HMode) (md : RMode) (t : Tape K) (x : ℕ → K) (J : SH) : Except (Option (ℤ × SH)) SH :=
  match hessPat cm t x with
  | .error none => .error none
  | .error (some c) => .error (some (c, { J with HP := List.replicate t.n none }))
  | .ok HP => .ok ⟨HP.map some, some (md, cp.colour md HP t.n), nnzUpper HP⟩

/-- The recovered entries go to the caller's arrays (1357-1364, `none`: the arrays are too short) or to new ones (1365-1380). -/
def deliver (L : List (Entry K)) : Option (List (Entry K)) → Option (List (Entry K))
  | none => some L
  | some M => if L.length ≤ M.length then some (L ++ M.drop L.length) else none

/-- `computeSparseHess<RCM>` (sparsedrivers.h:1319-1380); `rrc` is the code of `hos_ov_reverse`.  Undefined or not modelled: what the
recovery does with the graph of the other colouring or with null rows, and `hos_ov_reverse` after a forward sweep that has
stopped (1350 does not look at its code). -/
def computeHess (cp : HColPack K) (md : RMode) (t : Tape K) (x : ℕ → K) (rrc : ℤ) (J : SH) (nnz : ℤ) (mem : Option (List (Entry K))) :
    HOut K :=
  match J.graph with
  | none => .ret (-3) J nnz mem
  | some (md', col, k) =>
    if J.nnz ≠ nnz then .ret (-3) J nnz mem
    else
      match hovRun ⟨x, fun i l _ => columnSeed t.n col i l, t.par, 1, k, 2⟩ t.ops HVS.init with
      | .error _ => .undef
      | .ok w =>
        match hvrRun ⟨true, 2, k, fun _ => lagr fun _ => 1⟩ t.ops (RVS.init t.n t.m (ovRows w.stk)) with
        | .error _ => .undef
        | .ok r =>
          if md' ≠ md then .undef
          else
            match allRows J.HP with
            | none => .undef
            | some HP =>
              -- 1353-1355: `Hcomp_[l][i] = Zppp_[i][l][1]`
              match deliver (cp.recover md HP col fun l i => r.Z i l 1) mem with
              | none => .undef
              | some M => .ret (mindec w.rc rrc) J nnz (some M)

/-- `sparse_hess<CFM, RCM>` (sparsedrivers.h:1415-1430). -/
def sparseHess (cp : HColPack K) (cm : HMode) (md : RMode) (t : Tape K) (rep : Bool) (x : ℕ → K) (rrc : ℤ) (J : SH) (nnz : ℤ)
    (mem : Option (List (Entry K))) : HOut K :=
  if rep then computeHess cp md t x rrc J nnz mem
  else
    match buildHess cp cm md t x J with
    | .error none => .undef
    | .error (some (c, J')) => .ret c J' nnz mem
    -- `*nnz = nnzIn_` (1252)
    | .ok J' => computeHess cp md t x rrc J' J'.nnz mem

/-- `setHP` (tape_interface.h:380-385): fresh data (no graph, `nnzIn_ = 0`) with the caller's rows replace what the tape keeps. -/
def SH.setHP (_ : SH) (rows : List (List ℕ)) : SH := { SH.init with HP := rows.map some }

/-- `getHP` (tape_interface.h:412-414): the kept rows. -/
def SH.getHP (J : SH) : List (Option (List ℕ)) := J.HP

/-! ### Counting -/

theorem nnzUpper_eq {HP : List (List ℕ)} (h : ∀ r ∈ HP, RowWf r) {L : Type} (val : ℕ → ℕ → L) :
    nnzUpper HP = (upperEntries HP val).length := by
  have c : ∀ (L : List (ℕ × ℕ)) (k : ℤ), L.foldl (fun k e => if e.2 ≥ e.1 then k + 1 else k) k =
      k + ((L.filter fun e => e.1 ≤ e.2).length : ℤ) := by
    intro L; induction L with
    | nil => intro k; simp
    | cons a L ih =>
      intro k
      rw [List.foldl_cons, ih, List.filter_cons]
      by_cases ha : a.1 ≤ a.2
      · rw [if_pos ha, if_pos (by simpa using ha)]; simp; omega
      · rw [if_neg ha, if_neg (by simpa using ha)]
  have e1 : nnzUpper HP = ((List.range HP.length).flatMap fun i => (patRow HP i).map fun j => (i, j)).foldl
      (fun k e => if e.2 ≥ e.1 then k + 1 else k) 0 := by
    unfold nnzUpper
    rw [← foldl_flatMap' (fun (k : ℤ) (e : ℕ × ℕ) => if e.2 ≥ e.1 then k + 1 else k)]
    apply List.foldl_ext
    intro k i hi
    rw [List.mem_range] at hi
    rw [← rows_of_wf h i hi, List.map_map, List.foldl_map]
    rfl
  rw [e1, c, zero_add]
  unfold upperEntries entries
  congr 1
  rw [List.filter_flatMap, List.filter_flatMap, List.length_flatMap, List.length_flatMap]
  congr 1
  apply List.map_congr_left
  intro i hi
  rw [List.filter_map, List.filter_map, List.length_map, List.length_map]
  rfl

/-! ### Star colourings and direct recovery -/

/-- A star colouring: neighbours have different colours, and no path on four vertices has only two colours. -/
structure StarColouring (HP : List (List ℕ)) (n : ℕ) (col : ℕ → ℕ) (k : ℕ) : Prop where
  lt : ∀ i, i < n → col i < k
  proper : ∀ i j, i < n → j ∈ patRow HP i → i ≠ j → col i ≠ col j
  star : ∀ a b c d, b < n → c < n → a ∈ patRow HP b → c ∈ patRow HP b → d ∈ patRow HP c →
    a ≠ b → a ≠ c → b ≠ c → b ≠ d → c ≠ d → col a = col c → col b ≠ col d

/-- Direct recovery as documented by ColPack: `H[i][j]` is read from row `i` if `j` is the only neighbour of `i` with its
colour, and from row `j` otherwise. -/
def directVal {K : Type} (HP : List (List ℕ)) (col : ℕ → ℕ) (B : ℕ → ℕ → K) (i j : ℕ) : K :=
  if i = j ∨ (patRow HP i).countP (fun q => col q = col j) = 1 then B i (col j) else B j (col i)

/-- A star colouring allows direct recovery: the contract of `HColPack.Correct` can be met by any star colouring. -/
theorem star_direct {n : ℕ} {HP : List (List ℕ)} (hp : SymPat n HP) {col : ℕ → ℕ} {k : ℕ} (hc : StarColouring HP n col k)
    {H : ℕ → ℕ → ℝ} (hsym : ∀ i j, i < n → j < n → H i j = H j i) (hz : ∀ i j, i < n → j < n → j ∉ patRow HP i → H i j = 0)
    {B : ℕ → ℕ → ℝ} (hB : ∀ i c, i < n → c < k → B i c = ∑ j ∈ Finset.range n, if col j = c then H i j else 0) :
    upperEntries HP (directVal HP col B) = upperEntries HP H := by
  have hlt : ∀ i, i < n → ∀ j ∈ patRow HP i, j < n := by
    intro i hi j hj
    rw [← hp.len] at hi
    refine hp.lt HP[i] (List.getElem_mem hi) j ?_
    simpa [patRow, List.getElem?_eq_getElem hi] using hj
  -- reading a row where the colour occurs once
  have key : ∀ i j, i < n → j < n → (∀ q, q ∈ patRow HP i → col q = col j → q = j) → B i (col j) = H i j := by
    intro i j hi hj hu
    rw [hB i _ hi (hc.lt j hj), Finset.sum_eq_single j]
    · simp
    · intro q hq hne
      split_ifs with hcq
      · exact hz i q hi (Finset.mem_range.1 hq) fun hin => hne (hu q hin hcq)
      · rfl
    · intro h; exact absurd (Finset.mem_range.2 hj) h
  have main : ∀ i, i < n → ∀ j ∈ patRow HP i, directVal HP col B i j = H i j := by
    intro i hi j hj
    have hjn := hlt i hi j hj
    unfold directVal
    by_cases hij : i = j
    · subst hij
      rw [if_pos (Or.inl rfl)]
      refine key i i hi hi fun q hq hcq => ?_
      by_contra hne
      exact hc.proper i q hi hq (fun e => hne e.symm) hcq.symm
    · by_cases hcnt : (patRow HP i).countP (fun q => col q = col j) = 1
      · rw [if_pos (Or.inr hcnt)]
        refine key i j hi hjn fun q hq hcq => ?_
        by_contra hne
        have hnd : (patRow HP i).Nodup := by
          have hi' : i < HP.length := by rw [hp.len]; exact hi
          have := hp.sorted HP[i] (List.getElem_mem hi')
          have e : patRow HP i = HP[i].tail := by simp [patRow, List.getElem?_eq_getElem hi']
          rw [e]; exact this.imp fun h => Nat.ne_of_lt h
        rw [List.countP_eq_length_filter, List.length_eq_one_iff] at hcnt
        obtain ⟨a, ha⟩ := hcnt
        have h1 : j ∈ (patRow HP i).filter fun q => decide (col q = col j) := by simp [hj]
        have h2 : q ∈ (patRow HP i).filter fun q => decide (col q = col j) := by simp [hq, hcq]
        rw [ha, List.mem_singleton] at h1 h2
        exact hne (h2.trans h1.symm)
      · rw [if_neg (by rintro (h | h); exacts [hij h, hcnt h]), hsym i j hi hjn]
        -- another neighbour of `i` has the colour of `j`
        obtain ⟨q, hq, hcq, hqj⟩ : ∃ q ∈ patRow HP i, col q = col j ∧ q ≠ j := by
          by_contra hno
          have hnd : (patRow HP i).Nodup := by
            have hi' : i < HP.length := by rw [hp.len]; exact hi
            have := hp.sorted HP[i] (List.getElem_mem hi')
            have e : patRow HP i = HP[i].tail := by simp [patRow, List.getElem?_eq_getElem hi']
            rw [e]; exact this.imp fun h => Nat.ne_of_lt h
          apply hcnt
          have : (patRow HP i).countP (fun q => decide (col q = col j)) = (patRow HP i).countP (· == j) := by
            apply List.countP_congr
            intro q hq
            simp only [decide_eq_true_eq, beq_iff_eq]
            constructor
            · intro h; by_contra hne; exact hno ⟨q, hq, h, hne⟩
            · rintro rfl; rfl
          rw [this]
          exact List.count_eq_one_of_mem hnd hj
        refine key j i hjn hi fun r hr hcr => ?_
        by_contra hri
        have hqi : q ≠ i := by
          rintro rfl
          exact hc.proper q j hi hj hij hcq
        have hrj : j ≠ r := by
          rintro rfl
          exact hc.proper i j hi hj hij hcr.symm
        exact hc.star q i j r hi hjn hq hj hr hqi hqj hij (fun e => hri e.symm) hrj hcq hcr.symm
  unfold upperEntries entries
  congr 1
  refine List.flatMap_congr fun i hi => List.map_congr_left fun j hj => ?_
  rw [main i (by rw [← hp.len]; exact List.mem_range.1 hi) j hj]

end Verif.Sparse
