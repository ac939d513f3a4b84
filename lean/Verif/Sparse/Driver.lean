import Verif.Sparse.Bits
import Mathlib.Data.List.Basic
import Mathlib.Data.List.Range
import Mathlib.Order.Basic
import Mathlib.Data.List.Sort

/-!
# The bit pattern driver, forward direction (`sparsedrivers.h`, `sparsedrivers.cpp`)

`bitVectorPropagation<Safe, Forward>`: strip mining, seed matrices, extraction of the compressed
rows.  A row is `none` (`nullptr`) or the contents of the allocated array, entry 0 being the number
of column indices that follow.
-/
set_option linter.all false
namespace Verif.Sparse
open Verif.AD

/-- `numWordsFullSeed` (sparsedrivers.h:105-108). -/
def wordsFull (n : Nat) : Nat := n / 64 + (if n % 64 ≠ 0 then 1 else 0)
/-- `wordsPerBatch_` with `PQ_STRIPMINE_MAX = 30` (sparsedrivers.h:36, 112-113). -/
def wordsPerBatch (n : Nat) : Nat := if wordsFull n ≤ 30 then wordsFull n else 30
/-- `bitsPerStrip_` (sparsedrivers.h:114). -/
def bitsPerStrip (n : Nat) : Nat := wordsPerBatch n * 64
/-- `numStripmineBatches_` (sparsedrivers.h:115-119). -/
def batches (n : Nat) : Nat :=
  if wordsFull n ≤ 30 then 1 else wordsFull n / 30 + (if wordsFull n % 30 ≠ 0 then 1 else 0)

/-- `MOST_SIGNIFICANT_BIT` (sparsedrivers.h:44). -/
def msb : Word := (1 : BitVec 64) <<< 63

/-- `prepareSeedMatrix` for the forward direction: `resetOldSeed` then `createSeed` / `setSeed`
(sparsedrivers.h:172-231). -/
def createSeed (n strip : Nat) : Nat → Nat → Word :=
  let cur := strip * bitsPerStrip n
  let next := (strip + 1) * bitsPerStrip n
  let next := if next > n then n else next
  (List.range (next - cur)).foldl (fun S t =>
    let idx := cur + t
    fun i w => if i = idx ∧ w = (idx - cur) / 64 then msb >>> ((idx - cur) % 64) else S i w)
    (fun _ _ => 0)

/-- The inner loop of `extractCompressedRowStorage`, forward direction (sparsedrivers.h:304-317):
`(currentBit, idx, indepWordHasNonzero_)`; `row` is `jacobianBitPattern_[wordIdx]`. -/
def scanStep (row : Nat → Word) (q : Word × Nat × (Nat → Bool)) (i : Nat) : Word × Nat × (Nat → Bool) :=
  let q := if q.1 = 0 then (msb, q.2.1 + 1, q.2.2) else q
  let q := if q.1 &&& row q.2.1 ≠ 0 then (q.1, q.2.1, upd q.2.2 i true) else q
  (q.1 >>> 1, q.2.1, q.2.2)
/-- The flags after the loop (they are all 0 before it: `extract` clears those it uses). -/
def scan (bps : Nat) (row : Nat → Word) : Nat → Bool :=
  ((List.range bps).foldl (scanStep row) (msb, 0, fun _ => false)).2.2

/-- How the driver can fail. -/
inductive DErr where
  /-- a safe mode sweep throws -/
  | refs
  /-- `compressedRowStorage[wordIdx][0]` with `compressedRowStorage[wordIdx] == nullptr`
  (sparsedrivers.cpp:53) -/
  | nullDeref
  deriving DecidableEq, Repr

/-- `extract`, forward direction (sparsedrivers.cpp:40-71). -/
def extractFwd (bps strip : Nat) (flags : Nat → Bool) (old : Option (List Nat)) :
    Except DErr (Option (List Nat)) :=
  let cols := ((List.range bps).filter flags).map (strip * bps + ·)
  if 0 < cols.length then
    if strip = 0 then .ok (some (cols.length :: cols))
    else
      match old with
      | none => .error .nullDeref
      | some row =>
        let cnt := row.headD 0
        .ok (some ((cnt + cols.length) :: ((row.tail.take cnt) ++ cols)))
  else .ok old

/-- The rows `j, j+1, …` of one strip, `Ys` being the bit patterns of these rows. -/
def extractRows (bps strip : Nat) : List (Nat → Word) → List (Option (List Nat)) →
    Except DErr (List (Option (List Nat)))
  | y :: ys, r :: rs =>
    match extractFwd bps strip (scan bps y) r with
    | .error e => .error e
    | .ok r' =>
      match extractRows bps strip ys rs with
      | .error e => .error e
      | .ok rs' => .ok (r' :: rs')
  | _, rs => .ok rs

variable {K : Type}

/-- One iteration of the strip loop (sparsedrivers.h:424-428). -/
def stripFwd (n : Nat) (ops : List (Base K)) (rows : List (Option (List Nat))) (strip : Nat) :
    Except DErr (List (Option (List Nat))) :=
  match safeRun (wordsPerBatch n) (createSeed n strip) ops BS.init with
  | .error _ => .error .refs
  | .ok s => extractRows (bitsPerStrip n) strip s.Y rows

/-- `jac_pat<BitPattern, Safe, Forward>` for a trace with `m` dependents and `n` independents
(sparsedrivers.h:415-430, `resetInput` 151). -/
def jacPatFwdSafe (m n : Nat) (ops : List (Base K)) : Except DErr (List (Option (List Nat))) :=
  (List.range (batches n)).foldl (fun r k => match r with
    | .error e => .error e
    | .ok rows => stripFwd n ops rows k) (.ok (List.replicate m none))

/-! ## Bits -/

theorem getLsbD_msb (t j : Nat) (ht : t < 64) : (msb >>> t).getLsbD j = decide (j = 63 - t) := by
  have key : ∀ t : Fin 64, msb >>> (t : Nat) = BitVec.twoPow 64 (63 - t) := by decide +kernel
  rw [key ⟨t, ht⟩, BitVec.getLsbD_twoPow]
  simp only []
  have : 63 - t < 64 := by omega
  simp [this, eq_comm]

theorem msb_and (t : Nat) (ht : t < 64) (w : Word) : (msb >>> t &&& w ≠ 0) ↔ w.getLsbD (63 - t) = true := by
  constructor
  · intro h
    by_contra hn
    apply h
    apply BitVec.eq_of_getLsbD_eq
    intro i hi
    rw [BitVec.getLsbD_and, getLsbD_msb t i ht]
    by_cases hh : i = 63 - t
    · subst hh; simp at hn; simp [hn]
    · simp [hh]
  · intro h h0
    have := congrArg (fun x : Word => x.getLsbD (63 - t)) h0
    simp [BitVec.getLsbD_and, getLsbD_msb t _ ht, h] at this

theorem msb_shift_zero (t : Nat) : msb >>> t = 0 ↔ 64 ≤ t := by
  constructor
  · intro h
    by_contra hn
    have h1 := getLsbD_msb t (63 - t) (by omega)
    rw [h] at h1
    simp at h1
  · intro h
    apply BitVec.eq_of_getLsbD_eq
    intro i hi
    rw [BitVec.getLsbD_ushiftRight]
    simp [BitVec.getLsbD_of_ge _ _ (show 64 ≤ t + i by omega)]

theorem scan_inv (row : Nat → Word) (N : Nat) :
    ∃ fl, (List.range N).foldl (scanStep row) (msb, 0, fun _ => false) =
      (if N = 0 then msb else msb >>> ((N - 1) % 64 + 1), (N - 1) / 64, fl) ∧
      ∀ i, fl i = (decide (i < N) && (row (i / 64)).getLsbD (63 - i % 64)) := by
  induction N with
  | zero => exact ⟨fun _ => false, by simp, by simp⟩
  | succ N ih =>
    obtain ⟨fl, h1, h2⟩ := ih
    rw [List.range_succ, List.foldl_append, h1]
    simp only [List.foldl_cons, List.foldl_nil]
    have key : ∃ ix cb, (if (if N = 0 then msb else msb >>> ((N - 1) % 64 + 1)) = 0 then
        (msb, (N - 1) / 64 + 1, fl) else (if N = 0 then msb else msb >>> ((N - 1) % 64 + 1), (N - 1) / 64, fl)) =
        (cb, ix, fl) ∧ cb = msb >>> (N % 64) ∧ ix = N / 64 := by
      by_cases h0 : N = 0
      · subst h0
        refine ⟨_, _, ?_, rfl, rfl⟩
        have : msb ≠ 0 := by decide
        rw [if_pos rfl, if_neg this]; rfl
      · simp only [h0, if_false]
        by_cases h64 : N % 64 = 0
        · have e : (N - 1) % 64 + 1 = 64 := by omega
          rw [e, if_pos ((msb_shift_zero 64).2 (le_refl _))]
          refine ⟨_, _, rfl, ?_, ?_⟩
          · rw [h64]; simp
          · omega
        · have e : (N - 1) % 64 + 1 = N % 64 := by omega
          rw [e, if_neg (fun h => by have := (msb_shift_zero _).1 h; omega)]
          exact ⟨_, _, rfl, rfl, by omega⟩
    obtain ⟨ix, cb, k1, k2, k3⟩ := key
    unfold scanStep
    simp only []
    rw [k1, k2, k3]
    have hm := msb_and (N % 64) (Nat.mod_lt _ (by omega)) (row (N / 64))
    have hsh : ∀ g : Nat → Bool, (msb >>> (N % 64) >>> 1, N / 64, g) =
        (if N + 1 = 0 then msb else msb >>> ((N + 1 - 1) % 64 + 1), (N + 1 - 1) / 64, g) := by
      intro g
      rw [if_neg (by omega), Nat.add_sub_cancel, ← BitVec.shiftRight_add]
    by_cases hb : (row (N / 64)).getLsbD (63 - N % 64) = true
    · rw [if_pos (hm.2 hb)]
      refine ⟨_, hsh _, fun i => ?_⟩
      show upd fl N true i = _
      rw [upd_apply]
      split
      · rename_i h; subst h; simp [hb]
      · rename_i h
        rw [h2]
        have : (i < N + 1) ↔ i < N := by omega
        simp [this]
    · rw [if_neg (fun h => hb (hm.1 h))]
      refine ⟨_, hsh _, fun i => ?_⟩
      show fl i = _
      rw [h2]
      by_cases h : i = N
      · subst h; simp [hb]
      · have : (i < N + 1) ↔ i < N := by omega
        simp [this]

theorem scan_eq (bps : Nat) (row : Nat → Word) (i : Nat) :
    scan bps row i = (decide (i < bps) && (row (i / 64)).getLsbD (63 - i % 64)) := by
  obtain ⟨fl, h1, h2⟩ := scan_inv row bps
  unfold scan
  rw [h1]
  exact h2 i

theorem createSeed_bit (n k i w b : Nat) : (createSeed n k i w).getLsbD b = true ↔
    k * bitsPerStrip n ≤ i ∧ i < (k + 1) * bitsPerStrip n ∧ i < n ∧
      w = (i - k * bitsPerStrip n) / 64 ∧ b = 63 - (i - k * bitsPerStrip n) % 64 := by
  unfold createSeed
  simp only []
  set cur := k * bitsPerStrip n
  set nxt := if (k + 1) * bitsPerStrip n > n then n else (k + 1) * bitsPerStrip n with hnxt
  have key : ∀ N : Nat, ((List.range N).foldl (fun S t => fun i w =>
      if i = cur + t ∧ w = (cur + t - cur) / 64 then msb >>> ((cur + t - cur) % 64) else S i w)
      (fun _ _ => (0 : Word)) i w).getLsbD b = true ↔
      cur ≤ i ∧ i < cur + N ∧ w = (i - cur) / 64 ∧ b = 63 - (i - cur) % 64 := by
    intro N
    induction N with
    | zero => simp; omega
    | succ N ih =>
      rw [List.range_succ, List.foldl_append]
      simp only [List.foldl_cons, List.foldl_nil]
      split
      · rename_i h
        rw [getLsbD_msb _ _ (Nat.mod_lt _ (by omega))]
        simp only [decide_eq_true_eq]
        obtain ⟨h1, h2⟩ := h
        subst h1
        constructor
        · intro hb; exact ⟨by omega, by omega, h2, hb⟩
        · intro hb; exact hb.2.2.2
      · rename_i h
        rw [ih]
        constructor
        · intro hb; exact ⟨hb.1, by omega, hb.2.2⟩
        · intro hb
          refine ⟨hb.1, ?_, hb.2.2⟩
          by_contra hlt
          have : i = cur + N := by omega
          exact h ⟨this, by rw [hb.2.2.1, this]⟩
  rw [key]
  constructor
  · intro h
    have : nxt ≤ n ∧ nxt ≤ (k + 1) * bitsPerStrip n := by rw [hnxt]; split <;> omega
    refine ⟨h.1, by omega, by omega, h.2.2⟩
  · intro h
    have : i < nxt := by rw [hnxt]; split <;> omega
    exact ⟨h.1, by omega, h.2.2.2⟩

/-! ## The driver -/

/-- A compressed row with the given column indices. -/
def crs (L : List Nat) : Option (List Nat) := if L = [] then none else some (L.length :: L)

theorem extractRows_map {α : Type} (bps k : Nat) (L : List α) (y : α → Nat → Word) (r g : α → Option (List Nat))
    (h : ∀ j ∈ L, extractFwd bps k (scan bps (y j)) (r j) = .ok (g j)) :
    extractRows bps k (L.map y) (L.map r) = .ok (L.map g) := by
  induction L with
  | nil => rfl
  | cons j L ih =>
    simp only [List.map_cons, extractRows, h j (by simp), ih (fun j hj => h j (List.mem_cons_of_mem _ hj))]

theorem extractFwd_crs {bps k : Nat} {fl : Nat → Bool} {L : List Nat}
    (h : k = 0 → L = []) (hne : 0 < k → L = [] → (List.range bps).filter fl = []) :
    extractFwd bps k fl (crs L) = .ok (crs (L ++ ((List.range bps).filter fl).map (k * bps + ·))) := by
  unfold extractFwd
  simp only [List.length_map]
  by_cases hc : (List.range bps).filter fl = []
  · rw [hc]; simp
  · have : 0 < ((List.range bps).filter fl).length := List.length_pos_iff.2 hc
    rw [if_pos this]
    by_cases hk : k = 0
    · rw [if_pos hk, h hk]
      simp [crs, hc]
    · rw [if_neg hk]
      have hL : L ≠ [] := fun hh => hc (hne (by omega) hh)
      simp only [crs, hL, if_false, List.headD_cons, List.tail_cons, List.take_length,
        List.append_eq_nil_iff, false_and, List.length_append, List.length_map]

section
variable {n m : Nat} {ops : List (Base K)} {S : Nat → BS}

/-- Column indices extracted for row `j` from strip `k`. -/
def stripCols (n : Nat) (S : Nat → BS) (j k : Nat) : List Nat :=
  ((List.range (bitsPerStrip n)).filter (scan (bitsPerStrip n) ((S k).Y[j]?.getD fun _ => 0))).map
    (k * bitsPerStrip n + ·)

/-- Column indices extracted for row `j` from the first `t` strips. -/
def rowCols (n : Nat) (S : Nat → BS) (j t : Nat) : List Nat :=
  (List.range t).flatMap (stripCols n S j)

theorem range_getD {α : Type} (L : List α) (d : α) : L = (List.range L.length).map fun j => L[j]?.getD d := by
  apply List.ext_getElem
  · simp
  · intro i h1 h2
    simp [h1]

theorem jacPat_crs (hrun : ∀ k < batches n, safeRun (wordsPerBatch n) (createSeed n k) ops BS.init = .ok (S k))
    (hlen : ∀ k < batches n, (S k).Y.length = m)
    (hfirst : ∀ j < m, stripCols n S j 0 ≠ [] ∨ ∀ k < batches n, stripCols n S j k = []) :
    jacPatFwdSafe m n ops = .ok ((List.range m).map fun j => crs (rowCols n S j (batches n))) := by
  have key : ∀ t ≤ batches n, (List.range t).foldl (fun r k => match r with
      | .error e => .error e
      | .ok rows => stripFwd n ops rows k) (.ok (List.replicate m none)) =
      Except.ok ((List.range m).map fun j => crs (rowCols n S j t)) := by
    intro t
    induction t with
    | zero =>
      intro _
      simp [rowCols, crs]
    | succ t ih =>
      intro ht
      rw [List.range_succ, List.foldl_append, ih (by omega)]
      simp only [List.foldl_cons, List.foldl_nil, stripFwd, hrun t (by omega)]
      rw [range_getD (S t).Y (fun _ => 0), hlen t (by omega)]
      refine extractRows_map _ _ _ _ _ _ fun j hj => ?_
      have hj' : j < m := List.mem_range.1 hj
      rw [extractFwd_crs]
      · simp only [rowCols, List.range_succ, List.flatMap_append, List.flatMap_singleton, stripCols]
      · intro h0; subst h0; simp [rowCols]
      · intro hpos hnil
        rcases hfirst j hj' with h | h
        · exfalso
          apply h
          have : stripCols n S j 0 = [] := by
            rw [rowCols, List.flatMap_eq_nil_iff] at hnil
            exact hnil 0 (List.mem_range.2 hpos)
          exact this
        · have := h t (by omega)
          simpa [stripCols] using this
  exact key _ (le_refl _)

theorem mem_stripCols {j k i : Nat} : i ∈ stripCols n S j k ↔
    k * bitsPerStrip n ≤ i ∧ i < (k + 1) * bitsPerStrip n ∧
      (((S k).Y[j]?.getD fun _ => 0) ((i - k * bitsPerStrip n) / 64)).getLsbD
        (63 - (i - k * bitsPerStrip n) % 64) = true := by
  simp only [stripCols, List.mem_map, List.mem_filter, List.mem_range, scan_eq, Bool.and_eq_true,
    decide_eq_true_eq]
  constructor
  · rintro ⟨a, ⟨h1, h2, h3⟩, rfl⟩
    rw [Nat.add_sub_cancel_left]
    exact ⟨by omega, by rw [Nat.succ_mul]; omega, h3⟩
  · rintro ⟨h1, h2, h3⟩
    refine ⟨i - k * bitsPerStrip n, ⟨?_, ?_, h3⟩, by omega⟩
    · rw [Nat.succ_mul] at h2; omega
    · rw [Nat.succ_mul] at h2; omega

theorem rowCols_sorted (j t : Nat) : (rowCols n S j t).Pairwise (· < ·) := by
  unfold rowCols
  rw [List.pairwise_flatMap]
  refine ⟨fun k _ => ?_, ?_⟩
  · unfold stripCols
    rw [List.pairwise_map]
    exact List.Pairwise.imp (fun h => by omega) (List.pairwise_lt_range.filter _)
  · refine List.pairwise_lt_range.imp ?_
    intro k1 k2 hk x hx y hy
    obtain ⟨_, h1, _⟩ := mem_stripCols.1 hx
    obtain ⟨h2, _, _⟩ := mem_stripCols.1 hy
    have : (k1 + 1) * bitsPerStrip n ≤ k2 * bitsPerStrip n := Nat.mul_le_mul_right _ hk
    omega

/-- Every listed column is below the number of independents. -/
theorem rowCols_lt (hrun : ∀ k < batches n, safeRun (wordsPerBatch n) (createSeed n k) ops BS.init = .ok (S k))
    {j i : Nat} (hi : i ∈ rowCols n S j (batches n)) : i < n := by
  simp only [rowCols, List.mem_flatMap, List.mem_range] at hi
  obtain ⟨k, hk, hi⟩ := hi
  obtain ⟨h1, h2, h3⟩ := mem_stripCols.1 hi
  by_contra hn
  have hX : ∀ i', (createSeed n k i' ((i - k * bitsPerStrip n) / 64)).getLsbD
      (63 - (i - k * bitsPerStrip n) % 64) = false := by
    intro i'
    by_contra hh
    simp only [Bool.not_eq_false] at hh
    obtain ⟨g1, g2, g3, g4, g5⟩ := (createSeed_bit n k i' _ _).1 hh
    have : i - k * bitsPerStrip n = i' - k * bitsPerStrip n := by omega
    omega
  have := noBit_run hX (s := BS.init) ⟨fun a => by simp [BS.init], by simp [BS.init]⟩ (hrun k hk)
  cases hy : (S k).Y[j]? with
  | none => rw [hy] at h3; simp at h3
  | some y =>
    rw [hy] at h3
    simp only [Option.getD_some] at h3
    rw [this.Y y (List.mem_of_getElem? hy)] at h3
    cases h3

theorem bitsPerStrip_pos {n : Nat} (h : 0 < n) : 0 < bitsPerStrip n := by
  unfold bitsPerStrip wordsPerBatch wordsFull
  split_ifs <;> omega

theorem strip_lt {n i : Nat} (h : i < n) : i / bitsPerStrip n < batches n := by
  have hp := bitsPerStrip_pos (Nat.lt_of_le_of_lt (Nat.zero_le _) h)
  rw [Nat.div_lt_iff_lt_mul hp]
  unfold batches
  have hw : n ≤ wordsFull n * 64 := by unfold wordsFull; split_ifs <;> omega
  by_cases h30 : wordsFull n ≤ 30
  · rw [if_pos h30]
    unfold bitsPerStrip wordsPerBatch
    rw [if_pos h30]; omega
  · rw [if_neg h30]
    unfold bitsPerStrip wordsPerBatch
    rw [if_neg h30]
    split_ifs <;> omega

/-- Column `i` is listed in row `j` exactly if the strip that carries `i` sets its bit. -/
theorem mem_rowCols {j i : Nat} (hi : i < n) : i ∈ rowCols n S j (batches n) ↔
    (((S (i / bitsPerStrip n)).Y[j]?.getD fun _ => 0) (i % bitsPerStrip n / 64)).getLsbD
      (63 - i % bitsPerStrip n % 64) = true := by
  have hp := bitsPerStrip_pos (Nat.lt_of_le_of_lt (Nat.zero_le _) hi)
  have hsub : i - i / bitsPerStrip n * bitsPerStrip n = i % bitsPerStrip n := by
    have := Nat.div_add_mod i (bitsPerStrip n)
    rw [Nat.mul_comm] at this
    omega
  simp only [rowCols, List.mem_flatMap, List.mem_range]
  constructor
  · rintro ⟨k, hk, hik⟩
    obtain ⟨h1, h2, h3⟩ := mem_stripCols.1 hik
    have hke : k = i / bitsPerStrip n := by
      symm; exact Nat.div_eq_of_lt_le h1 h2
    rw [hke, hsub] at h3
    exact h3
  · intro h
    refine ⟨i / bitsPerStrip n, strip_lt hi, mem_stripCols.2 ⟨Nat.div_mul_le_self _ _, ?_, ?_⟩⟩
    · have := Nat.lt_div_mul_add (a := i) hp
      rw [Nat.succ_mul]; exact this
    · rw [hsub]; exact h
end

end Verif.Sparse
