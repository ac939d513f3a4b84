import Verif.Sparse.Driver
import Verif.Sparse.RevTight
import Verif.AD.RevRun

/-!
# The bit pattern driver, reverse direction (`sparsedrivers.h`, `sparsedrivers.cpp`)

`bitVectorPropagation<CFM, Reverse>`: the seed has one bit per dependent, `results[w][i]` collects the
dependents of which independent `i` is an argument.
-/
set_option linter.all false
namespace Verif.Sparse
open Verif.AD

/-- One iteration of the loop over the rows of a strip in `extractCompressedRowStorage`, reverse
direction (sparsedrivers.h:329-341), followed by `extract` (sparsedrivers.cpp:73-93):
`(currentBit, idx, rows)`; `R` is `jacobianBitPattern_`. -/
def revRowStep (n cur : Nat) (R : Nat → Nat → Word) (q : Word × Nat × List (Option (List Nat))) (t : Nat) :
    Word × Nat × List (Option (List Nat)) :=
  let c : Word × Nat := if q.1 = 0 then (msb, q.2.1 + 1) else (q.1, q.2.1)
  let cols := (List.range n).filter fun i => c.1 &&& R c.2 i ≠ 0
  (c.1 >>> 1, c.2, q.2.2.set (cur + t) (some (cols.length :: cols)))

/-- `extractCompressedRowStorage`, reverse direction (sparsedrivers.h:300-303, 324-342). -/
def extractRev (n m strip : Nat) (R : Nat → Nat → Word) (rows : List (Option (List Nat))) :
    List (Option (List Nat)) :=
  let cur := strip * bitsPerStrip m
  let next := (strip + 1) * bitsPerStrip m
  let next := if next > m then m else next
  ((List.range (next - cur)).foldl (revRowStep n cur R) (msb, 0, rows)).2.2

/-- The loop over the strips (sparsedrivers.h:424-428); `sweep X R` is the reverse sweep of one strip: from the
seed and the old contents of `jacobianBitPattern_` to the new contents. -/
def jacPatRev {ε : Type} (sweep : (Nat → Nat → Word) → (Nat → Nat → Word) → Except ε (Nat → Nat → Word))
    (m n : Nat) (R0 : Nat → Nat → Word) : Except ε (List (Option (List Nat)) × (Nat → Nat → Word)) :=
  (List.range (batches m)).foldl (fun r k => match r with
    | .error e => .error e
    | .ok (rows, R) =>
      match sweep (fun l j => createSeed m k j l) R with
      | .error e => .error e
      | .ok R' => .ok (extractRev n m k R' rows, R')) (.ok (List.replicate m none, R0))

variable {K : Type}

/-- One strip: `int_reverse_safe` (sparsedrivers.h:368-380). -/
def revSweepSafe (m n : Nat) (ops : List (Base K)) (X R : Nat → Nat → Word) : Except BErr (Nat → Nat → Word) :=
  match revSafeRun (wordsPerBatch m) X ops (RBS.init n m R) with
  | .error e => .error e
  | .ok s => .ok s.R

/-- One strip: `int_reverse_tight` (sparsedrivers.h:368-380), from the top of the value stack (`taylor_back`,
fo_rev.cpp:532). -/
def revSweepTight [Scalar K] (m n : Nat) (ops : List (Base K)) (stk : List K) (X R : Nat → Nat → Word) :
    Except RStop (Nat → Nat → Word) :=
  match revTightRun (wordsPerBatch m) X ops (TRS.init n m R stk) with
  | .error e => .error e
  | .ok s => .ok s.b.R

/-- `jac_pat<BitPattern, Safe, Reverse>` (sparsedrivers.h:415-430): `R0` is the uninitialised
`jacobianBitPattern_`. -/
def jacPatRevSafe (m n : Nat) (R0 : Nat → Nat → Word) (ops : List (Base K)) :
    Except BErr (List (Option (List Nat))) :=
  match jacPatRev (revSweepSafe m n ops) m n R0 with
  | .error e => .error e
  | .ok q => .ok q.1

/-- How `jac_pat<BitPattern, Tight, Reverse>` can fail. -/
inductive TErr where
  /-- `zos_forward` stops (no value stack: `REVERSE_NO_FOWARD`) -/
  | forward
  /-- the value stack runs out -/
  | stack
  deriving DecidableEq, Repr

/-- `jac_pat<BitPattern, Tight, Reverse>` (sparsedrivers.h:354-360, 415-430): one `zos_forward` with
keep (`prepareADCalls`), then `int_reverse_tight` for every strip, each from the top of the value stack
(`taylor_back`, fo_rev.cpp:532). -/
def jacPatRevTight [Scalar K] (m n : Nat) (R0 : Nat → Nat → Word) (c : Cfg K) (ops : List (Base K)) :
    Except TErr (List (Option (List Nat))) :=
  match zosRun { c with keep := true } ops ZS.init with
  | .error _ => .error .forward
  | .ok z =>
    match jacPatRev (revSweepTight m n ops z.stk) m n R0 with
    | .error _ => .error .stack
    | .ok q => .ok q.1

/-! ## What is extracted -/

/-- Columns extracted for row `j`; `S k` is `jacobianBitPattern_` after strip `k`. -/
def revCols (n m : Nat) (S : Nat → Nat → Nat → Word) (j : Nat) : List Nat :=
  (List.range n).filter fun i =>
    (S (j / bitsPerStrip m) (j % bitsPerStrip m / 64) i).getLsbD (63 - j % bitsPerStrip m % 64)

theorem map_set {α : Type} (m j : Nat) (f : Nat → α) (v : α) :
    ((List.range m).map f).set j v = (List.range m).map (fun i => if i = j then v else f i) := by
  apply List.ext_getElem
  · simp
  · intro i h1 h2
    simp only [List.length_set, List.length_map, List.length_range] at h1
    rw [List.getElem_set]
    simp only [List.getElem_map, List.getElem_range, eq_comm]

theorem rowCell_inv (n m k : Nat) (R : Nat → Nat → Word) (f : Nat → Option (List Nat)) (N : Nat) :
    (List.range N).foldl (revRowStep n (k * bitsPerStrip m) R) (msb, 0, (List.range m).map f) =
      (if N = 0 then msb else msb >>> ((N - 1) % 64 + 1), (N - 1) / 64,
        (List.range m).map fun j => if k * bitsPerStrip m ≤ j ∧ j < k * bitsPerStrip m + N then
          (let cols := (List.range n).filter fun i =>
            (R ((j - k * bitsPerStrip m) / 64) i).getLsbD (63 - (j - k * bitsPerStrip m) % 64)
           some (cols.length :: cols)) else f j) := by
  set cur := k * bitsPerStrip m
  induction N with
  | zero =>
    simp only [List.range_zero, List.foldl_nil, if_true, Nat.add_zero]
    refine Prod.ext rfl (Prod.ext rfl ?_)
    apply List.map_congr_left
    intro j _
    rw [if_neg (by omega)]
  | succ N ih =>
    rw [List.range_succ, List.foldl_append, ih]
    simp only [List.foldl_cons, List.foldl_nil]
    have key : (if (if N = 0 then msb else msb >>> ((N - 1) % 64 + 1)) = 0 then
        (msb, (N - 1) / 64 + 1) else (if N = 0 then msb else msb >>> ((N - 1) % 64 + 1), (N - 1) / 64)) =
        (msb >>> (N % 64), N / 64) := by
      by_cases h0 : N = 0
      · subst h0
        have : msb ≠ 0 := by decide
        rw [if_pos rfl, if_neg this]; rfl
      · simp only [h0, if_false]
        by_cases h64 : N % 64 = 0
        · have e : (N - 1) % 64 + 1 = 64 := by omega
          rw [e, if_pos ((msb_shift_zero 64).2 (le_refl _)), h64]
          have : (N - 1) / 64 + 1 = N / 64 := by omega
          rw [this]; simp
        · have e : (N - 1) % 64 + 1 = N % 64 := by omega
          rw [e, if_neg (fun h => by have := (msb_shift_zero _).1 h; omega)]
          have : (N - 1) / 64 = N / 64 := by omega
          rw [this]
    unfold revRowStep
    simp only []
    rw [key, map_set]
    refine Prod.ext ?_ (Prod.ext rfl ?_)
    · simp only []
      rw [if_neg (by omega), Nat.add_sub_cancel, ← BitVec.shiftRight_add]
    · simp only []
      have hc : ((List.range n).filter fun i => msb >>> (N % 64) &&& R (N / 64) i ≠ 0) =
          (List.range n).filter fun i => (R (N / 64) i).getLsbD (63 - N % 64) := by
        apply List.filter_congr
        intro i _
        have := msb_and (N % 64) (Nat.mod_lt _ (by omega)) (R (N / 64) i)
        by_cases h : (R (N / 64) i).getLsbD (63 - N % 64) = true
        · rw [h]; simp only [decide_eq_true_eq]; exact this.2 h
        · rw [Bool.not_eq_true] at h
          rw [h]; simp only [decide_eq_false_iff_not]
          intro hh; have := this.1 hh; rw [h] at this; cases this
      rw [hc]
      apply List.map_congr_left
      intro j _
      by_cases hj : j = cur + N
      · subst hj
        rw [if_pos rfl, if_pos (by omega), Nat.add_sub_cancel_left]
      · rw [if_neg hj]
        by_cases hlt : cur ≤ j ∧ j < cur + N
        · rw [if_pos hlt, if_pos (by omega)]
        · rw [if_neg hlt, if_neg (by omega)]

/-- Every row is written exactly by its strip. -/
theorem jacPatRev_rows {ε : Type}
    {sweep : (Nat → Nat → Word) → (Nat → Nat → Word) → Except ε (Nat → Nat → Word)} {m n : Nat}
    {R0 : Nat → Nat → Word} {S : Nat → Nat → Nat → Word}
    (h0 : 0 < batches m → sweep (fun l j => createSeed m 0 j l) R0 = .ok (S 0))
    (hS : ∀ k, k + 1 < batches m → sweep (fun l j => createSeed m (k + 1) j l) (S k) = .ok (S (k + 1))) :
    ∃ R, jacPatRev sweep m n R0 =
      .ok ((List.range m).map fun j => some ((revCols n m S j).length :: revCols n m S j), R) := by
  have key : ∀ t ≤ batches m, (List.range t).foldl (fun r k => match r with
      | .error e => .error e
      | .ok (rows, R) =>
        match sweep (fun l j => createSeed m k j l) R with
        | .error e => .error e
        | .ok R' => .ok (extractRev n m k R' rows, R')) (.ok (List.replicate m none, R0)) =
      Except.ok ((List.range m).map fun j => if j < t * bitsPerStrip m then
        some ((revCols n m S j).length :: revCols n m S j) else none, if t = 0 then R0 else S (t - 1)) := by
    intro t
    induction t with
    | zero => intro _; simp
    | succ t ih =>
      intro ht
      rw [List.range_succ, List.foldl_append, ih (by omega)]
      simp only [List.foldl_cons, List.foldl_nil]
      have hsw : sweep (fun l j => createSeed m t j l) (if t = 0 then R0 else S (t - 1)) = .ok (S t) := by
        cases t with
        | zero => exact h0 (by omega)
        | succ t => exact hS t (by omega)
      rw [hsw]
      simp only [extractRev, rowCell_inv, Nat.add_sub_cancel, Nat.succ_ne_zero, if_false]
      congr 2
      apply List.map_congr_left
      intro j hj
      have hjm : j < m := List.mem_range.1 hj
      have e : (t + 1) * bitsPerStrip m = t * bitsPerStrip m + bitsPerStrip m := Nat.succ_mul _ _
      by_cases h1 : j < t * bitsPerStrip m
      · rw [if_neg (by omega), if_pos h1, if_pos (by omega)]
      · by_cases h2 : j < (t + 1) * bitsPerStrip m
        · have hk : t = j / bitsPerStrip m := (Nat.div_eq_of_lt_le (by omega) h2).symm
          have hm : j - t * bitsPerStrip m = j % bitsPerStrip m := by
            have := Nat.div_add_mod j (bitsPerStrip m)
            rw [← hk, Nat.mul_comm] at this
            omega
          rw [if_pos (by split_ifs <;> omega), if_pos h2, hm]
          simp only [revCols]
          rw [← hk]
        · rw [if_neg (by split_ifs <;> omega), if_neg h1, if_neg h2]
  refine ⟨if batches m = 0 then R0 else S (batches m - 1), (key _ (le_refl _)).trans ?_⟩
  congr 2
  apply List.map_congr_left
  intro j hj
  have hjm : j < m := List.mem_range.1 hj
  have := strip_lt hjm
  rw [if_pos]
  have hp := bitsPerStrip_pos (Nat.lt_of_le_of_lt (Nat.zero_le _) hjm)
  exact (Nat.div_lt_iff_lt_mul hp).1 this

theorem revCols_sorted (n m : Nat) (S : Nat → Nat → Nat → Word) (j : Nat) :
    (revCols n m S j).Pairwise (· < ·) ∧ ∀ i ∈ revCols n m S j, i < n :=
  ⟨List.pairwise_lt_range.filter _, fun i hi => List.mem_range.1 (List.mem_filter.1 hi).1⟩

theorem mem_revCols {n m : Nat} {S : Nat → Nat → Nat → Word} {i j : Nat} (hi : i < n) : i ∈ revCols n m S j ↔
    (S (j / bitsPerStrip m) (j % bitsPerStrip m / 64) i).getLsbD (63 - j % bitsPerStrip m % 64) = true := by
  simp [revCols, hi]

/-- The threaded contents of `jacobianBitPattern_`. -/
theorem thread {α : Type} (N : Nat) (P : Nat → α → α → Prop) (h : ∀ k a, k < N → ∃ a', P k a a') (a0 : α) :
    ∃ S : Nat → α, (0 < N → P 0 a0 (S 0)) ∧ ∀ k, k + 1 < N → P (k + 1) (S k) (S (k + 1)) := by
  classical
  let g : Nat → α → α := fun k a => if hk : k < N then Classical.choose (h k a hk) else a
  have hg : ∀ k a, k < N → P k a (g k a) := by
    intro k a hk
    simp only [g, hk, dif_pos]
    exact Classical.choose_spec (h k a hk)
  let S : Nat → α := fun k => Nat.rec (g 0 a0) (fun k a => g (k + 1) a) k
  exact ⟨S, fun h0 => hg 0 a0 h0, fun k hk => hg (k + 1) (S k) hk⟩

/-- The seed of strip `k` carries bit `63 - (j - k·bps) % 64` of word `(j - k·bps) / 64` for row `j` only. -/
theorem seed_row {m j j' : Nat} (hj : j < m)
    (h : (createSeed m (j / bitsPerStrip m) j' (j % bitsPerStrip m / 64)).getLsbD
      (63 - j % bitsPerStrip m % 64) = false) : j' ≠ j := by
  rintro rfl
  rw [← Bool.not_eq_true, createSeed_bit] at h
  apply h
  have hpos : 0 < bitsPerStrip m := bitsPerStrip_pos (Nat.lt_of_le_of_lt (Nat.zero_le _) hj)
  have hmod := Nat.mod_lt j' hpos
  have := Nat.div_add_mod j' (bitsPerStrip m)
  rw [Nat.mul_comm] at this
  refine ⟨?_, ?_, ?_, ?_, ?_⟩ <;> first | omega | (rw [Nat.succ_mul]; omega)

theorem word_lt {m j : Nat} (hj : j < m) : j % bitsPerStrip m / 64 < wordsPerBatch m := by
  have hpos : 0 < bitsPerStrip m := bitsPerStrip_pos (Nat.lt_of_le_of_lt (Nat.zero_le _) hj)
  have hmod := Nat.mod_lt j hpos
  unfold bitsPerStrip at hmod ⊢
  omega

/-- Every strip carries a row (otherwise there would be no sweep). -/
theorem strip_has {m k : Nat} (hm : 0 < m) (hk : k < batches m) : ∃ j, j < m ∧ j / bitsPerStrip m = k := by
  have hp := bitsPerStrip_pos hm
  refine ⟨k * bitsPerStrip m, ?_, Nat.mul_div_cancel _ hp⟩
  unfold batches at hk
  unfold bitsPerStrip wordsPerBatch
  by_cases h : wordsFull m ≤ 30
  · rw [if_pos h] at hk
    obtain rfl : k = 0 := by omega
    rw [Nat.zero_mul]
    exact hm
  · rw [if_neg h] at hk ⊢
    unfold wordsFull at *
    split_ifs at * <;> omega

theorem revSafe_total (p : Nat) (X : Nat → Nat → Word) {ops : List (Base K)}
    (ho : ∀ o ∈ ops, ∀ r k, o ≠ .setRef r k) (s : RBS) : ∃ s', revSafeRun p X ops s = .ok s' := by
  induction ops with
  | nil => exact ⟨s, rfl⟩
  | cons o os ih =>
    obtain ⟨s1, h1⟩ := ih (fun o h => ho o (List.mem_cons_of_mem _ h))
    simp only [revSafeRun, h1]
    have := ho o (by simp)
    cases o
    case setRef r k => exact absurd rfl (this r k)
    all_goals exact ⟨_, rfl⟩

section counts
variable [Scalar K]

@[simp] theorem RS.setA_ii (r : Nat) (v : K) (s : RS K) : (s.setA r v).ii = s.ii := rfl
@[simp] theorem RS.addA_ii (r : Nat) (v : K) (s : RS K) : (s.addA r v).ii = s.ii := rfl
@[simp] theorem RS.un_ii (a r : Nat) (v : K) (s : RS K) : (s.un a r v).ii = s.ii := rfl

theorem RS.foldl_ii {g : RS K → Nat → RS K} (hg : ∀ s q, (g s q).ii = s.ii) (J : List Nat) (s : RS K) :
    (J.foldl g s).ii = s.ii := by
  induction J generalizing s with
  | nil => rfl
  | cons q J ih => rw [List.foldl_cons, ih, hg]

theorem RS.foldlM_ii {g : RS K → Nat → Except RStop (RS K)} (hg : ∀ s q s', g s q = .ok s' → s'.ii = s.ii)
    (J : List Nat) {s s' : RS K} (h : J.foldlM g s = .ok s') : s'.ii = s.ii := by
  induction J generalizing s with
  | nil => cases h; rfl
  | cons q J ih =>
    rw [List.foldlM_cons] at h
    cases h1 : g s q with
    | error e => rw [h1] at h; cases h
    | ok s1 => rw [h1] at h; rw [ih h, hg _ _ _ h1]

/-- The reverse sweep moves the index of the independents once per `assign_ind`. -/
theorem revStep_ii {u : Nat → K} {o : Base K} {r r' : RS K} (h : revStep u o r = .ok r') :
    r'.ii = r.ii - o.nInd := by
  cases o
  all_goals simp only [revStep] at h
  case vecCopy => refine RS.foldlM_ii ?_ _ h; intro s q s' h; exact (RS.pop_ok h).2.1
  case vecAxpy => refine RS.foldlM_ii ?_ _ h; intro s q s' h; exact (RS.pop_ok h).2.1
  case vecDot => rw [(RS.pop_ok h).2.1]; refine RS.foldl_ii ?_ _ _; intros; rfl
  case takeStock => cases h; refine RS.foldl_ii ?_ _ _; intros; rfl
  case deathNot => rw [RS.foldlM_ii (fun s q s' h => (RS.pop_ok h).2.1) _ h]; refine RS.foldl_ii ?_ _ _; intros; rfl
  all_goals first | (cases h; rfl) | (rw [(RS.pop_ok h).2.1]; rfl) | skip
  all_goals (repeat' split at h)
  all_goals first | (cases h; done) | skip
  all_goals first
    | (rw [(RS.pop_ok h).2.1]; rfl)
    | (rename_i h1; have h2 := (RS.pop_ok h1).2.1; cases h; exact h2)
    | (rename_i h1; have h2 := (RS.pop_ok h1).2.1; rw [(RS.pop_ok h).2.1]; exact h2)
    | (rename_i h1 _; have h2 := (RS.pop_ok h1).2.1; cases h; exact h2)
    | (rename_i h1 _ _; have h2 := (RS.pop_ok h1).2.1; cases h; exact h2)
    | (rename_i h1; have h2 := (RS.pop_ok h1).2.1; cases h; simp only [h2]; rfl)
    | skip

theorem revRun_ii {u : Nat → K} {ops : List (Base K)} {r r' : RS K} (h : revRun u ops r = .ok r') :
    r'.ii = r.ii - numInd ops := by
  induction ops generalizing r' with
  | nil => cases h; simp [numInd]
  | cons o os ih =>
    simp only [revRun] at h
    split at h
    · cases h
    rename_i r1 h1
    have h2 := h
    rw [revStep_ii h2, ih h1]
    simp only [numInd, List.map_cons, List.sum_cons]
    omega
end counts

end Verif.Sparse
