import Verif.AD.HoRev
import Verif.AD.HosLoops
import Verif.AD.Jet
import Verif.AD.RealInst

/-! What the row loops of `ho_rev.cpp` and `convolut.cpp` compute. -/
set_option linter.all false
namespace Verif.AD
open Elem Finset

section
variable {K : Type}

/-- Row `c` replaced by `w` up to (excluding) index `k`. -/
def ovR (M : Row → Nat → K) (c : Row) (k : Nat) (w : Nat → K) : Row → Nat → K :=
  fun r i => if r = c ∧ i < k then w i else M r i

theorem ovR_ne {M : Row → Nat → K} {c r : Row} {k : Nat} {w : Nat → K} (h : r ≠ c) : ovR M c k w r = M r := by
  funext i; simp [ovR, h]

theorem ovR_lt {M : Row → Nat → K} {c : Row} {k i : Nat} {w : Nat → K} (h : i < k) : ovR M c k w c i = w i := by
  simp [ovR, h]
end

variable {K : Type} [Scalar K]

theorem wrR_ne {M : Row → Nat → K} {r q : Row} {i j : Nat} {v : K} (h : j ≠ i) : wrR M r i v q j = M q j := by
  simp [wrR, h]

theorem wrR_col {M M' : Row → Nat → K} {r : Row} {i : Nat} {v : K} (h : ∀ q, M q i = M' q i) (q : Row) :
    wrR M r i v q i = wrR M' r i v q i := by simp [wrR, h]

/-- Iteration `i` reads and writes only column `i`. -/
theorem col_loop {k : Nat} {f : Nat → (Row → Nat → K) → (Row → Nat → K)}
    (h1 : ∀ i M r j, j ≠ i → f i M r j = M r j)
    (h2 : ∀ i M M', (∀ r, M r i = M' r i) → ∀ r, f i M r i = f i M' r i) (M : Row → Nat → K) :
    forUp k f M = fun r i => if i < k then f i M r i else M r i := by
  induction k with
  | zero => funext r i; simp
  | succ k ih =>
    rw [forUp_succ, ih]
    funext r i
    by_cases hi : i = k
    · subst hi
      simp only [Nat.lt_succ_self, if_true]
      exact h2 _ _ _ (fun r => by simp) r
    · rw [h1 _ _ _ _ hi]
      have : i < k + 1 ↔ i < k := by omega
      simp only [this]

theorem setRowR_eq (k : Nat) (c : Row) (v : Nat → K) (M : Row → Nat → K) : setRowR k c v M = ovR M c k v := by
  unfold setRowR
  rw [col_loop (f := fun i M => wrR M c i (v i)) (fun i M r j h => wrR_ne h) (fun i M M' h r => wrR_col h r)]
  funext r i; simp only [wrR, ovR]; split_ifs <;> simp_all

theorem copyR_eq (k : Nat) (a c : Row) (M : Row → Nat → K) : copyR k a c M = ovR M c k (M a) := by
  unfold copyR
  rw [col_loop (fun i M r j h => wrR_ne h) (fun i M M' h r => by simp [wrR, h])]
  funext r i; simp only [wrR, ovR]; split_ifs <;> simp_all

theorem mapR_eq (k : Nat) (c : Row) (f : K → K) (M : Row → Nat → K) : mapR k c f M = ovR M c k fun i => f (M c i) := by
  unfold mapR
  rw [col_loop (fun i M r j h => wrR_ne h) (fun i M M' h r => by simp [wrR, h])]
  funext r i; simp only [wrR, ovR]; split_ifs <;> simp_all

theorem accR'_eq (k : Nat) (a r : Row) (f : K → K → K) (M : Row → Nat → K) :
    accR' k a r f M = ovR M a k fun i => f (M a i) (M r i) := by
  unfold accR'
  rw [col_loop (fun i M r j h => wrR_ne h) (fun i M M' h r => by simp [wrR, h])]
  funext r i; simp only [wrR, ovR]; split_ifs <;> simp_all

theorem moveR_eq (k : Nat) (a r : Row) (M : Row → Nat → K) :
    moveR k a r M = ovR (ovR M a k fun i => M a i + M r i) r k fun _ => 0 := by
  unfold moveR
  rw [col_loop (fun i M r j h => by simp only [wrR_ne h]) (fun i M M' h r => by simp [wrR, h])]
  funext q i; simp only [wrR, ovR]; split_ifs <;> simp_all

theorem cpzR_eq (k : Nat) (a t : Row) (M : Row → Nat → K) :
    cpzR k a t M = ovR (ovR M t k (M a)) a k fun _ => 0 := by
  unfold cpzR
  rw [col_loop (fun i M r j h => by simp only [wrR_ne h]) (fun i M M' h r => by simp [wrR, h])]
  funext q i; simp only [wrR, ovR]; split_ifs <;> simp_all

theorem spreadR_eq (k : Nat) (a r : Row) (f : K → K → K) (M : Row → Nat → K) :
    spreadR k a r f M = ovR (ovR M r k fun _ => 0) a k fun i => f (ovR M r k (fun _ => 0) a i) (M r i) := by
  unfold spreadR
  rw [col_loop (fun i M r j h => by simp only [wrR_ne h]) (fun i M M' h r => by simp [wrR, h])]
  funext q i; simp only [wrR, ovR]; split_ifs <;> simp_all

theorem spread2R_eq (k : Nat) (a b r : Row) (f g : K → K → K) (M : Row → Nat → K) :
    spread2R k a b r f g M =
      (let M1 := ovR M r k fun _ => 0
       let M2 := ovR M1 a k fun i => f (M1 a i) (M r i)
       ovR M2 b k fun i => g (M2 b i) (M r i)) := by
  unfold spread2R
  rw [col_loop (fun i M r j h => by simp only [wrR_ne h]) (fun i M M' h r => by simp [wrR, h])]
  funext q i
  by_cases hi : i < k
  · simp only [hi, if_true, wrR, ovR, and_true]
  · simp [hi, ovR]

/-! ### Convolutions -/

/-- The truncated product. -/
def cv (a b : Nat → K) (n : Nat) : K := ∑ i ∈ range (n + 1), a i * b (n - i)

theorem cv_congr {a a' b b' : Nat → K} {n : Nat} (ha : ∀ i, i ≤ n → a i = a' i) (hb : ∀ i, i ≤ n → b i = b' i) :
    cv a b n = cv a' b' n := by
  refine Finset.sum_congr rfl fun i hi => ?_
  have := Finset.mem_range.1 hi
  rw [ha i (by omega), hb (n - i) (by omega)]

theorem innerR_gen (M : Row → Nat → K) (a b : Row) (i : Nat) (t : K) :
    innerR M a b i t = t + ∑ j ∈ range i, M a (i - (j + 1)) * M b (j + 1) := by
  unfold innerR
  have key : ∀ (L : List Nat) (t : K), L.foldl (fun t j => t + M a (i - j) * M b j) t =
      t + (L.map fun j => M a (i - j) * M b j).sum := by
    intro L
    induction L with
    | nil => intro t; simp
    | cons x L ih => intro t; rw [List.foldl_cons, ih]; simp [add_assoc]
  rw [key, List.range'_eq_map_range, List.map_map]
  congr 1
  rw [← Finset.sum_map_toList]
  have : (List.range i).map ((fun j => M a (i - j) * M b j) ∘ fun x => 1 + x) =
      (List.range i).map fun j => M a (i - (j + 1)) * M b (j + 1) := by
    refine List.map_congr_left fun j _ => ?_
    simp only [Function.comp_apply, add_comm 1 j]
  rw [this]
  clear this key
  generalize hF : (fun j => M a (i - (j + 1)) * M b (j + 1)) = F
  rw [Finset.sum_map_toList]
  clear hF
  induction i with
  | zero => simp
  | succ n ih => rw [List.range_succ, List.map_append, List.sum_append, ih, Finset.sum_range_succ]; simp

theorem innerR_eq (M : Row → Nat → K) (a b : Row) (i : Nat) :
    innerR M a b i (M a i * M b 0) = cv (M a) (M b) i := by
  rw [innerR_gen, cv, ← Finset.sum_range_reflect (fun q => M a q * M b (i - q)) (i + 1), Finset.sum_range_succ']
  rw [add_comm]
  congr 1
  · refine Finset.sum_congr rfl fun j hj => ?_
    have := Finset.mem_range.1 hj
    have e1 : i + 1 - 1 - (j + 1) = i - (j + 1) := by omega
    have e2 : i - (i - (j + 1)) = j + 1 := by omega
    rw [e1, e2]
  · simp

theorem conv_loop (f : K → K → K) (k : Nat) (a b c : Row) (M : Row → Nat → K) :
    forDown k (fun i M => wrR M c i (f (M c i) (innerR M a b i (M a i * M b 0)))) M =
      ovR M c k fun i => f (M c i) (cv (M a) (M b) i) := by
  have := forDown_inv (n := k) (s := M)
    (f := fun i M => wrR M c i (f (M c i) (innerR M a b i (M a i * M b 0))))
    (fun m M' => ∀ r i, M' r i = if r = c ∧ m ≤ i ∧ i < k then f (M c i) (cv (M a) (M b) i) else M r i)
    (by intro r i; rw [if_neg (by omega)])
    (by
      intro m M' hm h r i
      have hlow : ∀ r i, i ≤ m → M' r i = M r i := fun r i hi => by rw [h, if_neg (by omega)]
      rw [innerR_eq, cv_congr (fun i hi => hlow a i hi) (fun i hi => hlow b i hi), hlow c m le_rfl]
      simp only [wrR]
      by_cases h1 : r = c ∧ i = m
      · obtain ⟨rfl, rfl⟩ := h1
        simp [hm]
      · rw [if_neg h1, h r i]
        by_cases h2 : r = c
        · have h3 : i ≠ m := fun e => h1 ⟨h2, e⟩
          have : (m + 1 ≤ i ∧ i < k) ↔ (m ≤ i ∧ i < k) := by omega
          simp only [h2, true_and, this]
        · simp [h2])
  funext r i
  rw [this r i]
  simp [ovR]

theorem conv0_loop (f : K → K → K) (k : Nat) (a b c : Row) (hab : a ≠ b) (M : Row → Nat → K) :
    forDown k (fun i M => wrR (wrR M a i 0) c i (f (wrR M a i 0 c i) (innerR (wrR M a i 0) a b i (M a i * M b 0)))) M =
      ovR (ovR M a k fun _ => 0) c k fun i => f (ovR M a k (fun _ => 0) c i) (cv (M a) (M b) i) := by
  have := forDown_inv (n := k) (s := M)
    (f := fun i M => wrR (wrR M a i 0) c i (f (wrR M a i 0 c i) (innerR (wrR M a i 0) a b i (M a i * M b 0))))
    (fun m M' => ∀ r i, M' r i = if m ≤ i ∧ i < k then
      ovR (ovR M a k fun _ => 0) c k (fun i => f (ovR M a k (fun _ => 0) c i) (cv (M a) (M b) i)) r i else M r i)
    (by intro r i; rw [if_neg (by omega)])
    (by
      intro m M' hm h r i
      have hlow : ∀ r i, i ≤ m → M' r i = M r i := fun r i hi => by rw [h, if_neg (by omega)]
      have e : innerR (wrR M' a m 0) a b m (M' a m * M' b 0) = cv (M a) (M b) m := by
        rw [← cv_congr (fun i hi => hlow a i hi) (fun i hi => hlow b i hi), ← innerR_eq, innerR_gen, innerR_gen]
        congr 1
        refine Finset.sum_congr rfl fun j hj => ?_
        have := Finset.mem_range.1 hj
        rw [wrR_ne (by omega)]
        congr 1
        simp [wrR, Ne.symm hab]
      rw [e]
      by_cases h1 : i = m
      · subst h1
        simp only [wrR, ovR, hm, and_true, le_refl, if_true, true_and]
        simp only [hlow _ _ le_rfl]
      · rw [wrR_ne h1, wrR_ne h1, h r i]
        have : (m + 1 ≤ i ∧ i < k) ↔ (m ≤ i ∧ i < k) := by omega
        simp only [this])
  funext r i
  rw [this r i]
  by_cases hi : i < k
  · simp [hi]
  · simp [hi, ovR]

theorem convR_eq (k : Nat) (a b c : Row) (M : Row → Nat → K) :
    convR k a b c M = ovR M c k fun i => cv (M a) (M b) i := conv_loop (fun _ t => t) k a b c M
theorem inconvR_eq (k : Nat) (a b c : Row) (M : Row → Nat → K) :
    inconvR k a b c M = ovR M c k fun i => M c i + cv (M a) (M b) i := conv_loop (fun x t => x + t) k a b c M
theorem deconvR_eq (k : Nat) (a b c : Row) (M : Row → Nat → K) :
    deconvR k a b c M = ovR M c k fun i => M c i - cv (M a) (M b) i := conv_loop (fun x t => x - t) k a b c M
theorem inconv0R_eq (k : Nat) (a b c : Row) (hab : a ≠ b) (M : Row → Nat → K) :
    inconv0R k a b c M = ovR (ovR M a k fun _ => 0) c k fun i => ovR M a k (fun _ => 0) c i + cv (M a) (M b) i :=
  conv0_loop (fun x t => x + t) k a b c hab M
theorem deconv0R_eq (k : Nat) (a b c : Row) (hab : a ≠ b) (M : Row → Nat → K) :
    deconv0R k a b c M = ovR (ovR M a k fun _ => 0) c k fun i => ovR M a k (fun _ => 0) c i - cv (M a) (M b) i :=
  conv0_loop (fun x t => x - t) k a b c hab M

theorem divInnerR_eq {b c : Row} (hbc : b ≠ c) (i : Nat) (M : Row → Nat → K) :
    divInnerR b c i M = wrR M c i (M c i - ∑ j ∈ range i, M c j * M b (i - j)) := by
  unfold divInnerR
  have key : ∀ m ≤ i, forUp m (fun j M => wrR M c i (M c i - M c j * M b (i - j))) M =
      wrR M c i (M c i - ∑ j ∈ range m, M c j * M b (i - j)) := by
    intro m
    induction m with
    | zero => intro _; funext r j; simp only [forUp_zero, wrR]; split_ifs with h <;> simp [h]
    | succ m ih =>
      intro hm
      rw [forUp_succ, ih (by omega)]
      funext r j
      simp only [wrR, Finset.sum_range_succ, hbc, and_false, false_and, if_false, true_and, and_self, if_true,
        show ¬ m = i by omega]
      split_ifs <;> ring
  exact key i le_rfl
end Verif.AD
