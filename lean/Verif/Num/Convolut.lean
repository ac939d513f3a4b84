import Mathlib.RingTheory.PowerSeries.Inverse
import Mathlib.Tactic.Ring
import Mathlib.Tactic.FieldSimp

/-!
# `convolut.cpp`: truncated power-series arithmetic

Memory is a function from addresses to numbers; `a b c` are the base addresses of the arrays
passed to the routines, so that calls with coinciding arrays are covered.
-/
set_option linter.all false
namespace Verif.Num

variable {K : Type} [Field K]

/-- `M[l] = v` -/
def wr (M : Nat → K) (l : Nat) (v : K) : Nat → K := fun k => if k = l then v else M k

/-- convolut.cpp:29-31 (and the same loop in the six other routines):
`tmpVal = a[i]*b[0]; for (j = 1; j <= i; j++) tmpVal += a[i-j]*b[j];` -/
def inner (M : Nat → K) (a b i : Nat) (t : K) : K :=
  (List.range' 1 i).foldl (fun t j => t + M (a + (i - j)) * M (b + j)) t

/-- `for (i = n-1; i >= 0; i--) body` -/
def down (body : Nat → (Nat → K) → (Nat → K)) : Nat → (Nat → K) → (Nat → K)
  | 0, M => M
  | n + 1, M => down body n (body n M)

/-- `conv`, `conv0`: convolut.cpp:25-44 -/
def conv (dim a b c : Nat) : (Nat → K) → (Nat → K) :=
  down (fun i M => wr M (c + i) (inner M a b i (M (a + i) * M b))) dim

/-- `inconv`, `inconv1`: 51-60, 79-88 -/
def inconv (dim a b c : Nat) : (Nat → K) → (Nat → K) :=
  down (fun i M => let t := inner M a b i (M (a + i) * M b); wr M (c + i) (M (c + i) + t)) dim

/-- `inconv0`: 65-75 -/
def inconv0 (dim a b c : Nat) : (Nat → K) → (Nat → K) :=
  down (fun i M =>
    let t := M (a + i) * M b
    let M := wr M (a + i) 0
    let t := inner M a b i t
    wr M (c + i) (M (c + i) + t)) dim

/-- `deconv`, `deconv1`: 95-104, 123-132 -/
def deconv (dim a b c : Nat) : (Nat → K) → (Nat → K) :=
  down (fun i M => let t := inner M a b i (M (a + i) * M b); wr M (c + i) (M (c + i) - t)) dim

/-- `deconv0`: 109-119 -/
def deconv0 (dim a b c : Nat) : (Nat → K) → (Nat → K) :=
  down (fun i M =>
    let t := M (a + i) * M b
    let M := wr M (a + i) 0
    let t := inner M a b i t
    wr M (c + i) (M (c + i) - t)) dim

/-- `for (j = 0; j < i; j++) c[i] -= c[j] * b[i-j];` -/
def divInner (b c i : Nat) (M : Nat → K) : Nat → K :=
  (List.range i).foldl (fun M j => wr M (c + i) (M (c + i) - M (c + j) * M (b + (i - j)))) M

/-- `divide`: 138-147 -/
def divide (dim a b c : Nat) (M : Nat → K) : Nat → K :=
  let rec_ := 1 / M b
  (List.range dim).foldl (fun M i =>
    let M := wr M (c + i) (M (a + i))
    let M := divInner b c i M
    wr M (c + i) (M (c + i) * rec_)) M

/-- `recipr`: 150-160 -/
def recipr (dim : Nat) (a : K) (b c : Nat) (M : Nat → K) : Nat → K :=
  let rec_ := 1 / M b
  let M := wr M (c + 0) (a * rec_)
  (List.range' 1 (dim - 1)).foldl (fun M i =>
    let M := wr M (c + i) 0
    let M := divInner b c i M
    wr M (c + i) (M (c + i) * rec_)) M

/-- `zeroset`: 167-171 -/
def zeroset (dim a : Nat) (M : Nat → K) : Nat → K :=
  (List.range dim).foldl (fun M i => wr M (a + i) 0) M

/-- `copyAndZeroset`: 176-182 -/
def copyAndZeroset (dim a tmp : Nat) (M : Nat → K) : Nat → K :=
  (List.range dim).foldl (fun M i =>
    let M := wr M (tmp + i) (M (a + i))
    wr M (a + i) 0) M

/-! ## Specification -/

/-- The array at address `a` as a power series. -/
noncomputable def ser (M : Nat → K) (a : Nat) : PowerSeries K := PowerSeries.mk fun i => M (a + i)

/-- Two arrays of length `dim` coincide or do not overlap. -/
def Same (dim a b : Nat) : Prop := a = b ∨ a + dim ≤ b ∨ b + dim ≤ a
/-- Two arrays of length `dim` do not overlap. -/
def Disj (dim a b : Nat) : Prop := a + dim ≤ b ∨ b + dim ≤ a

/-! ## Proofs -/

theorem wr_same (M : Nat → K) (l : Nat) (v : K) : wr M l v l = v := by simp [wr]
theorem wr_ne (M : Nat → K) {l k : Nat} (v : K) (h : k ≠ l) : wr M l v k = M k := by simp [wr, h]

theorem foldl_add (f : Nat → K) (L : List Nat) (t : K) : L.foldl (fun t j => t + f j) t = t + (L.map f).sum := by
  induction L generalizing t with
  | nil => simp
  | cons q L ih => rw [List.foldl_cons, ih]; simp [add_assoc]

theorem list_sum_range (f : Nat → K) (n : Nat) : ((List.range n).map f).sum = ∑ k ∈ Finset.range n, f k := by
  induction n with
  | zero => simp
  | succ n ih => rw [List.range_succ, List.map_append, List.sum_append, ih, Finset.sum_range_succ]; simp

theorem coeff_ser (M : Nat → K) (a b i : Nat) :
    PowerSeries.coeff i (ser M a * ser M b) = ∑ k ∈ Finset.range (i + 1), M (b + k) * M (a + (i - k)) := by
  rw [mul_comm, PowerSeries.coeff_mul,
    Finset.Nat.sum_antidiagonal_eq_sum_range_succ (fun p q => PowerSeries.coeff p (ser M b) * PowerSeries.coeff q (ser M a))]
  simp [ser]

theorem inner_gen (M : Nat → K) (a b i : Nat) (x y : K) :
    inner M a b i (x * y) = x * y + ∑ k ∈ Finset.range i, M (b + (k + 1)) * M (a + (i - (k + 1))) := by
  unfold inner
  rw [foldl_add]
  congr 1
  rw [List.range'_eq_map_range, List.map_map, list_sum_range]
  refine Finset.sum_congr rfl fun k _ => ?_
  simp only [Function.comp_apply, mul_comm, add_comm 1 k]

theorem inner_eq (M : Nat → K) (a b i : Nat) :
    inner M a b i (M (a + i) * M b) = PowerSeries.coeff i (ser M a * ser M b) := by
  rw [inner_gen, coeff_ser, Finset.sum_range_succ']
  simp only [Nat.add_zero, Nat.sub_zero]
  ring

theorem coeff_congr {M M' : Nat → K} {a b i : Nat} (ha : ∀ k ≤ i, M' (a + k) = M (a + k))
    (hb : ∀ k ≤ i, M' (b + k) = M (b + k)) :
    PowerSeries.coeff i (ser M' a * ser M' b) = PowerSeries.coeff i (ser M a * ser M b) := by
  rw [coeff_ser, coeff_ser]
  refine Finset.sum_congr rfl fun k hk => ?_
  have := Finset.mem_range.1 hk
  rw [hb k (by omega), ha (i - k) (by omega)]

/-- The loop without zeroing. -/
theorem loop_spec (f : K → K → K) {dim a b c : Nat} (hca : Same dim c a) (hcb : Same dim c b) (n : Nat)
    (hn : n ≤ dim) (M : Nat → K) :
    (∀ i < n, down (fun i M => wr M (c + i) (f (M (c + i)) (inner M a b i (M (a + i) * M b)))) n M (c + i)
      = f (M (c + i)) (PowerSeries.coeff i (ser M a * ser M b))) ∧
    ∀ l, (l < c ∨ c + n ≤ l) →
      down (fun i M => wr M (c + i) (f (M (c + i)) (inner M a b i (M (a + i) * M b)))) n M l = M l := by
  induction n generalizing M with
  | zero => exact ⟨fun i hi => absurd hi (Nat.not_lt_zero i), fun l _ => rfl⟩
  | succ n ih =>
    simp only [down]
    rw [inner_eq]
    obtain ⟨h1, h2⟩ := ih (by omega) (wr M (c + n) (f (M (c + n)) (PowerSeries.coeff n (ser M a * ser M b))))
    have sa : ∀ k < n, a + k ≠ c + n := fun k hk => by unfold Same at hca; omega
    have sb : ∀ k < n, b + k ≠ c + n := fun k hk => by unfold Same at hcb; omega
    constructor
    · intro i hi
      by_cases hin : i < n
      · rw [h1 i hin, wr_ne _ _ (by omega)]
        congr 1
        exact coeff_congr (fun k hk => wr_ne _ _ (sa k (by omega))) (fun k hk => wr_ne _ _ (sb k (by omega)))
      · have : i = n := by omega
        subst this
        rw [h2 _ (by omega), wr_same]
    · intro l hl
      rw [h2 l (by omega), wr_ne _ _ (by omega)]

/-- The loop that zeroes `a` on the way. -/
theorem loop0_spec (f : K → K → K) {dim a b c : Nat} (hca : Disj dim c a) (hcb : Same dim c b)
    (hab : Disj dim a b) (n : Nat) (hn : n ≤ dim) (M : Nat → K) :
    (∀ i < n, down (fun i M => wr (wr M (a + i) 0) (c + i)
        (f (wr M (a + i) 0 (c + i)) (inner (wr M (a + i) 0) a b i (M (a + i) * M b)))) n M (c + i)
      = f (M (c + i)) (PowerSeries.coeff i (ser M a * ser M b))) ∧
    (∀ i < n, down (fun i M => wr (wr M (a + i) 0) (c + i)
        (f (wr M (a + i) 0 (c + i)) (inner (wr M (a + i) 0) a b i (M (a + i) * M b)))) n M (a + i) = 0) ∧
    ∀ l, (l < c ∨ c + n ≤ l) → (l < a ∨ a + n ≤ l) →
      down (fun i M => wr (wr M (a + i) 0) (c + i)
        (f (wr M (a + i) 0 (c + i)) (inner (wr M (a + i) 0) a b i (M (a + i) * M b)))) n M l = M l := by
  induction n generalizing M with
  | zero => exact ⟨fun i hi => absurd hi (Nat.not_lt_zero i), fun i hi => absurd hi (Nat.not_lt_zero i), fun l _ _ => rfl⟩
  | succ n ih =>
    simp only [down]
    have ha : ∀ k, k < dim → ∀ j, j < dim → a + k ≠ c + j := fun k hk j hj => by unfold Disj at hca; omega
    have hb : ∀ k, k < dim → ∀ j, j < dim → b + k ≠ a + j := fun k hk j hj => by unfold Disj at hab; omega
    have hc : ∀ k, k < n → b + k ≠ c + n := fun k hk => by unfold Same at hcb; omega
    have e : inner (wr M (a + n) 0) a b n (M (a + n) * M b) = PowerSeries.coeff n (ser M a * ser M b) := by
      rw [inner_gen, ← inner_eq, inner_gen]
      congr 1
      refine Finset.sum_congr rfl fun k hk => ?_
      have := Finset.mem_range.1 hk
      rw [wr_ne _ _ (hb _ (by omega) _ (by omega)), wr_ne _ _ (by omega)]
    rw [e, wr_ne _ _ (Ne.symm (ha n (by omega) n (by omega)))]
    obtain ⟨h1, h2, h3⟩ := ih (by omega) (wr (wr M (a + n) 0) (c + n) (f (M (c + n)) (PowerSeries.coeff n (ser M a * ser M b))))
    refine ⟨?_, ?_, ?_⟩
    · intro i hi
      by_cases hin : i < n
      · rw [h1 i hin, wr_ne _ _ (by omega), wr_ne _ _ (Ne.symm (ha n (by omega) i (by omega)))]
        congr 1
        refine coeff_congr (fun k hk => ?_) (fun k hk => ?_)
        · rw [wr_ne _ _ (ha k (by omega) n (by omega)), wr_ne _ _ (by omega)]
        · rw [wr_ne _ _ (hc k (by omega)), wr_ne _ _ (hb k (by omega) n (by omega))]
      · have : i = n := by omega
        subst this
        rw [h3 _ (by omega) (by unfold Disj at hca; omega), wr_same]
    · intro i hi
      by_cases hin : i < n
      · exact h2 i hin
      · have : i = n := by omega
        subst this
        rw [h3 _ (by unfold Disj at hca; omega) (by omega), wr_ne _ _ (ha i (by omega) i (by omega)), wr_same]
    · intro l hl hl'
      rw [h3 l (by omega) (by omega), wr_ne _ _ (by omega), wr_ne _ _ (by omega)]

/-! ### Division -/

theorem divInner_spec {b c i : Nat} (M : Nat → K) (hb : ∀ k, k ≤ i → 0 < k → b + k ≠ c + i) :
    divInner b c i M = wr M (c + i) (M (c + i) - ∑ k ∈ Finset.range i, M (c + k) * M (b + (i - k))) := by
  unfold divInner
  have key : ∀ m ≤ i, (List.range m).foldl (fun M j => wr M (c + i) (M (c + i) - M (c + j) * M (b + (i - j)))) M
      = wr M (c + i) (M (c + i) - ∑ k ∈ Finset.range m, M (c + k) * M (b + (i - k))) := by
    intro m
    induction m with
    | zero => intro _; funext l; by_cases h : l = c + i <;> simp [wr, h]
    | succ m ih =>
      intro hm
      rw [List.range_succ, List.foldl_append, ih (by omega), List.foldl_cons, List.foldl_nil, wr_same,
        wr_ne _ _ (show c + m ≠ c + i by omega), wr_ne _ _ (hb (i - m) (by omega) (by omega)), Finset.sum_range_succ]
      funext l
      by_cases h : l = c + i
      · subst h; simp only [wr_same]; ring
      · simp only [wr_ne _ _ h]
  exact key i le_rfl

/-- The coefficients of a quotient are determined by the recurrence. -/
theorem quot_coeff {A B : PowerSeries K} (hB : PowerSeries.constantCoeff B ≠ 0) (i : Nat) :
    PowerSeries.coeff i (A * B⁻¹) = (PowerSeries.coeff i A -
      ∑ k ∈ Finset.range i, PowerSeries.coeff k (A * B⁻¹) * PowerSeries.coeff (i - k) B) * (1 / PowerSeries.constantCoeff B) := by
  have h : A * B⁻¹ * B = A := by rw [mul_assoc, PowerSeries.inv_mul_cancel _ hB, mul_one]
  have h2 := congrArg (PowerSeries.coeff i) h
  rw [PowerSeries.coeff_mul, Finset.Nat.sum_antidiagonal_eq_sum_range_succ
    (fun p q => PowerSeries.coeff p (A * B⁻¹) * PowerSeries.coeff q B), Finset.sum_range_succ] at h2
  simp only [Nat.sub_self, PowerSeries.coeff_zero_eq_constantCoeff_apply] at h2
  rw [← h2]
  field_simp
  ring

theorem divide_spec {dim a b c : Nat} (M : Nat → K) (hca : Same dim c a) (hcb : Disj dim c b) (h0 : M b ≠ 0) :
    (∀ i < dim, divide dim a b c M (c + i) = PowerSeries.coeff i (ser M a * (ser M b)⁻¹)) ∧
    ∀ l, (l < c ∨ c + dim ≤ l) → divide dim a b c M l = M l := by
  have hB : PowerSeries.constantCoeff (ser M b) ≠ 0 := by simpa [ser] using h0
  unfold divide
  simp only
  generalize hr : 1 / M b = rec_
  have key : ∀ n ≤ dim,
      (∀ i < n, (List.range n).foldl (fun M i => wr (divInner b c i (wr M (c + i) (M (a + i)))) (c + i)
          (divInner b c i (wr M (c + i) (M (a + i))) (c + i) * rec_)) M (c + i)
        = PowerSeries.coeff i (ser M a * (ser M b)⁻¹)) ∧
      ∀ l, (l < c ∨ c + n ≤ l) → (List.range n).foldl (fun M i => wr (divInner b c i (wr M (c + i) (M (a + i)))) (c + i)
          (divInner b c i (wr M (c + i) (M (a + i))) (c + i) * rec_)) M l = M l := by
    intro n
    induction n with
    | zero => intro _; exact ⟨fun i hi => absurd hi (Nat.not_lt_zero i), fun l _ => rfl⟩
    | succ n ih =>
      intro hn
      obtain ⟨h1, h2⟩ := ih (by omega)
      rw [List.range_succ, List.foldl_append, List.foldl_cons, List.foldl_nil]
      generalize (List.range n).foldl (fun M i => wr (divInner b c i (wr M (c + i) (M (a + i)))) (c + i)
          (divInner b c i (wr M (c + i) (M (a + i))) (c + i) * rec_)) M = M1 at h1 h2 ⊢
      have hbc : ∀ k, k ≤ n → b + k ≠ c + n := fun k hk => by unfold Disj at hcb; omega
      rw [divInner_spec _ (fun k hk _ => hbc k hk)]
      simp only [wr_same]
      constructor
      · intro i hi
        by_cases hin : i < n
        · rw [wr_ne _ _ (by omega), wr_ne _ _ (by omega), wr_ne _ _ (by omega), h1 i hin]
        · have : i = n := by omega
          subst this
          rw [wr_same, quot_coeff hB, ← hr]
          have e1 : M1 (a + i) = M (a + i) := h2 _ (by unfold Same at hca; omega)
          congr 1
          · rw [e1]
            congr 1
            · simp [ser]
            · refine Finset.sum_congr rfl fun k hk => ?_
              have hk' := Finset.mem_range.1 hk
              rw [wr_ne _ _ (by omega), wr_ne _ _ (hbc _ (by omega)), h1 k hk', h2 _ (by unfold Disj at hcb; omega)]
              simp [ser]
      · intro l hl
        rw [wr_ne _ _ (by omega), wr_ne _ _ (by omega), wr_ne _ _ (by omega), h2 l (by omega)]
  exact key dim le_rfl

theorem recipr_spec {dim : Nat} (hd : 0 < dim) (a : K) {b c : Nat} (M : Nat → K) (hcb : Disj dim c b) (h0 : M b ≠ 0) :
    (∀ i < dim, recipr dim a b c M (c + i) = PowerSeries.coeff i (PowerSeries.C a * (ser M b)⁻¹)) ∧
    ∀ l, (l < c ∨ c + dim ≤ l) → recipr dim a b c M l = M l := by
  have hB : PowerSeries.constantCoeff (ser M b) ≠ 0 := by simpa [ser] using h0
  unfold recipr
  simp only
  generalize hr : 1 / M b = rec_
  have key : ∀ n, n < dim →
      (∀ i ≤ n, (List.range' 1 n).foldl (fun M i => wr (divInner b c i (wr M (c + i) 0)) (c + i)
          (divInner b c i (wr M (c + i) 0) (c + i) * rec_)) (wr M (c + 0) (a * rec_)) (c + i)
        = PowerSeries.coeff i (PowerSeries.C a * (ser M b)⁻¹)) ∧
      ∀ l, (l < c ∨ c + n < l) → (List.range' 1 n).foldl (fun M i => wr (divInner b c i (wr M (c + i) 0)) (c + i)
          (divInner b c i (wr M (c + i) 0) (c + i) * rec_)) (wr M (c + 0) (a * rec_)) l = M l := by
    intro n
    induction n with
    | zero =>
      intro _
      refine ⟨fun i hi => ?_, fun l hl => ?_⟩
      · have : i = 0 := by omega
        subst this
        simp only [List.range'_zero, List.foldl_nil, wr_same]
        rw [quot_coeff hB]
        simp [ser, ← hr]
      · simp only [List.range'_zero, List.foldl_nil]
        exact wr_ne _ _ (by omega)
    | succ n ih =>
      intro hn
      obtain ⟨h1, h2⟩ := ih (by omega)
      rw [List.range'_concat, List.foldl_append, List.foldl_cons, List.foldl_nil, Nat.one_mul]
      generalize (List.range' 1 n).foldl (fun M i => wr (divInner b c i (wr M (c + i) 0)) (c + i)
          (divInner b c i (wr M (c + i) 0) (c + i) * rec_)) (wr M (c + 0) (a * rec_)) = M1 at h1 h2 ⊢
      rw [Nat.add_comm 1 n]
      have hbc : ∀ k, k ≤ n + 1 → b + k ≠ c + (n + 1) := fun k hk => by unfold Disj at hcb; omega
      rw [divInner_spec _ (fun k hk _ => hbc k hk)]
      simp only [wr_same]
      constructor
      · intro i hi
        by_cases hin : i ≤ n
        · rw [wr_ne _ _ (by omega), wr_ne _ _ (by omega), wr_ne _ _ (by omega), h1 i hin]
        · have : i = n + 1 := by omega
          subst this
          rw [wr_same, quot_coeff hB, ← hr]
          congr 1
          · congr 1
            · simp [PowerSeries.coeff_C]
            · refine Finset.sum_congr rfl fun k hk => ?_
              have hk' := Finset.mem_range.1 hk
              rw [wr_ne _ _ (by omega), wr_ne _ _ (hbc _ (by omega)), h1 k (by omega), h2 _ (by unfold Disj at hcb; omega)]
              simp [ser]
      · intro l hl
        rw [wr_ne _ _ (by omega), wr_ne _ _ (by omega), wr_ne _ _ (by omega), h2 l (by omega)]
  obtain ⟨h1, h2⟩ := key (dim - 1) (by omega)
  exact ⟨fun i hi => h1 i (by omega), fun l hl => h2 l (by omega)⟩

theorem zeroset_spec (dim a : Nat) (M : Nat → K) :
    ∀ l, zeroset dim a M l = if a ≤ l ∧ l < a + dim then 0 else M l := by
  unfold zeroset
  induction dim with
  | zero => intro l; simp
  | succ n ih =>
    intro l
    rw [List.range_succ, List.foldl_append, List.foldl_cons, List.foldl_nil]
    by_cases h : l = a + n
    · subst h; rw [wr_same, if_pos (by omega)]
    · rw [wr_ne _ _ h, ih]
      by_cases h2 : a ≤ l ∧ l < a + n
      · rw [if_pos h2, if_pos (by omega)]
      · rw [if_neg h2, if_neg (by omega)]

theorem copyAndZeroset_spec {dim a t : Nat} (h : Disj dim a t) (M : Nat → K) :
    (∀ i < dim, copyAndZeroset dim a t M (t + i) = M (a + i)) ∧
    (∀ i < dim, copyAndZeroset dim a t M (a + i) = 0) ∧
    ∀ l, (l < a ∨ a + dim ≤ l) → (l < t ∨ t + dim ≤ l) → copyAndZeroset dim a t M l = M l := by
  unfold copyAndZeroset
  have key : ∀ n ≤ dim, (∀ i < n, (List.range n).foldl (fun M i => wr (wr M (t + i) (M (a + i))) (a + i) 0) M (t + i) = M (a + i)) ∧
      (∀ i < n, (List.range n).foldl (fun M i => wr (wr M (t + i) (M (a + i))) (a + i) 0) M (a + i) = 0) ∧
      ∀ l, (l < a ∨ a + n ≤ l) → (l < t ∨ t + n ≤ l) →
        (List.range n).foldl (fun M i => wr (wr M (t + i) (M (a + i))) (a + i) 0) M l = M l := by
    intro n
    induction n with
    | zero => intro _; exact ⟨fun i hi => absurd hi (Nat.not_lt_zero i), fun i hi => absurd hi (Nat.not_lt_zero i), fun l _ _ => rfl⟩
    | succ n ih =>
      intro hn
      obtain ⟨h1, h2, h3⟩ := ih (by omega)
      rw [List.range_succ, List.foldl_append, List.foldl_cons, List.foldl_nil]
      generalize (List.range n).foldl (fun M i => wr (wr M (t + i) (M (a + i))) (a + i) 0) M = M1 at h1 h2 h3 ⊢
      have hd : ∀ i < dim, ∀ j < dim, a + i ≠ t + j := fun i hi j hj => by unfold Disj at h; omega
      refine ⟨fun i hi => ?_, fun i hi => ?_, fun l hl hl' => ?_⟩
      · rw [wr_ne _ _ (Ne.symm (hd n (by omega) i (by omega)))]
        by_cases hin : i < n
        · rw [wr_ne _ _ (by omega), h1 i hin]
        · have : i = n := by omega
          subst this
          rw [wr_same, h3 _ (by omega) (by unfold Disj at h; omega)]
      · by_cases hin : i < n
        · rw [wr_ne _ _ (by omega), wr_ne _ _ (hd i (by omega) n (by omega)), h2 i hin]
        · have : i = n := by omega
          subst this
          rw [wr_same]
      · rw [wr_ne _ _ (by omega), wr_ne _ _ (by omega), h3 l (by omega) (by omega)]
  exact key dim le_rfl

end Verif.Num
