import Mathlib.Algebra.Order.Antidiag.Pi
import Mathlib.Algebra.Group.ForwardDiff
import Mathlib.Algebra.BigOperators.Field
import Mathlib.Algebra.BigOperators.Ring.Finset
import Mathlib.Data.Rat.Cast.Defs
import Mathlib.Tactic.FieldSimp
import Mathlib.Tactic.Ring
import Mathlib.Tactic.Linarith

/-!
# Interpolation on the lattice points of a simplex

Mathematics behind `coeff` (drivers/taylor.cpp): a polynomial of degree at most `d` on the simplex `Σ z = d` is
determined by its values at the lattice points `j ∈ ℕ^p`, `Σ j = d`; mixed partial derivatives are iterated differences.
-/
set_option linter.all false
namespace Verif.Num.Simplex
open Finset

/-- Generalised binomial coefficient, computed as in the loop of `dbinomi` (taylor.cpp:133-139). -/
def dbin (a : ℚ) : Nat → ℚ
  | 0 => 1
  | b + 1 => dbin a b * ((a - ((b + 1 : Nat) : ℚ) + 1) / ((b + 1 : Nat) : ℚ))

theorem dbin_absorb (a : ℚ) (b : Nat) : ((b : ℚ) + 1) * dbin a (b + 1) = a * dbin (a - 1) b := by
  induction b with
  | zero => simp [dbin]
  | succ b ih =>
    have h1 : ((b : ℚ) + 1) ≠ 0 := by positivity
    have h2 : ((b : ℚ) + 1 + 1) ≠ 0 := by positivity
    have e : dbin a (b + 1) = a * dbin (a - 1) b / ((b : ℚ) + 1) := by rw [eq_div_iff h1, ← ih]; ring
    rw [show dbin a (b + 1 + 1) = dbin a (b + 1) * ((a - ((b + 1 + 1 : Nat) : ℚ) + 1) / ((b + 1 + 1 : Nat) : ℚ)) from rfl,
      show dbin (a - 1) (b + 1) = dbin (a - 1) b * (((a - 1) - ((b + 1 : Nat) : ℚ) + 1) / ((b + 1 : Nat) : ℚ)) from rfl, e]
    push_cast
    field_simp
    ring

theorem dbin_nat (n b : Nat) : dbin n b = n.choose b := by
  induction b generalizing n with
  | zero => simp [dbin]
  | succ b ih =>
    have h1 : ((b : ℚ) + 1) ≠ 0 := by positivity
    have := dbin_absorb n b
    apply mul_left_cancel₀ h1
    rw [this]
    cases n with
    | zero => simp
    | succ n =>
      rw [show (((n + 1 : Nat) : ℚ) - 1) = (n : ℚ) by push_cast; ring, ih]
      have := Nat.add_one_mul_choose_eq n b
      have h : (((n + 1) * n.choose b : Nat) : ℚ) = (((n + 1).choose (b + 1) * (b + 1) : Nat) : ℚ) := by exact_mod_cast this
      push_cast at h ⊢
      linarith

variable {p : Nat}

/-- Weights of the interpolation. -/
def W (z : Fin p → ℚ) (j : Fin p → ℕ) : ℚ := ∏ l, dbin (z l) (j l)

/-- The multi-indices of order `d`. -/
abbrev A (p d : Nat) : Finset (Fin p → ℕ) := piAntidiag univ d

theorem mem_A {d : Nat} {j : Fin p → ℕ} : j ∈ A p d ↔ ∑ l, j l = d := by simp [A]

theorem W_split (z : Fin p → ℚ) (j : Fin p → ℕ) (m : Fin p) : W z j = dbin (z m) (j m) * ∏ x ∈ univ.erase m, dbin (z x) (j x) :=
  (mul_prod_erase univ (fun l => dbin (z l) (j l)) (mem_univ m)).symm

theorem W_absorb (z : Fin p → ℚ) (j : Fin p → ℕ) (m : Fin p) :
    ((j m : ℚ) + 1) * W z (j + Pi.single m 1) = z m * W (z - Pi.single m 1) j := by
  rw [W_split _ _ m, W_split _ _ m]
  have h : ∏ x ∈ univ.erase m, dbin (z x) ((j + Pi.single m 1 : Fin p → ℕ) x) =
      ∏ x ∈ univ.erase m, dbin ((z - Pi.single m 1 : Fin p → ℚ) x) (j x) := by
    refine prod_congr rfl fun x hx => ?_
    have hx' : x ≠ m := ne_of_mem_erase hx
    simp [Pi.single_eq_of_ne hx']
  rw [h]
  have := dbin_absorb (z m) (j m)
  simp only [Pi.add_apply, Pi.sub_apply, Pi.single_eq_same]
  rw [← mul_assoc, this]
  ring

theorem shift (z : Fin p → ℚ) (d : Nat) (m : Fin p) (g : (Fin p → ℕ) → ℚ) :
    ∑ j ∈ A p (d + 1), (j m : ℚ) * W z j * g j =
      z m * ∑ j ∈ A p d, W (z - Pi.single m 1) j * g (j + Pi.single m 1) := by
  rw [mul_sum]
  symm
  have hst : ∑ j ∈ A p d, z m * (W (z - Pi.single m 1) j * g (j + Pi.single m 1)) =
      ∑ j ∈ (A p d).image (· + Pi.single m 1), (j m : ℚ) * W z j * g j := by
    rw [sum_image (fun a _ b _ h => add_right_cancel h)]
    refine sum_congr rfl fun j hj => ?_
    rw [← mul_assoc, ← W_absorb]
    simp
  rw [hst]
  refine sum_subset ?_ ?_
  · intro j hj
    simp only [mem_image] at hj
    obtain ⟨j', h1, rfl⟩ := hj
    rw [mem_A] at h1 ⊢
    simp [sum_add_distrib, h1]
  · intro j hj hj'
    by_cases h0 : j m = 0
    · simp [h0]
    · refine absurd ?_ hj'
      simp only [mem_image]
      refine ⟨j - Pi.single m 1, ?_, ?_⟩
      · have e : j = (j - Pi.single m 1) + Pi.single m 1 := by
          funext l
          by_cases hl : l = m
          · subst hl; simp; omega
          · simp [Pi.single_eq_of_ne hl]
        rw [mem_A] at hj ⊢
        rw [e] at hj
        simp [sum_add_distrib] at hj ⊢
        omega
      · funext l
        by_cases hl : l = m
        · subst hl; simp; omega
        · simp [Pi.single_eq_of_ne hl]

/-- The Vandermonde identity. -/
theorem vandermonde (d : Nat) : ∀ z : Fin p → ℚ, ∑ j ∈ A p d, W z j = dbin (∑ l, z l) d := by
  induction d with
  | zero =>
    intro z
    simp [A, W, dbin]
  | succ d ih =>
    intro z
    have h1 : ((d : ℚ) + 1) ≠ 0 := by positivity
    apply mul_left_cancel₀ h1
    rw [dbin_absorb, mul_sum]
    have : ∀ j ∈ A p (d + 1), ((d : ℚ) + 1) * W z j = ∑ m, (j m : ℚ) * W z j * 1 := by
      intro j hj
      rw [mem_A] at hj
      simp only [mul_one]
      rw [← sum_mul]
      congr 1
      have : ((∑ m, j m : ℕ) : ℚ) = ((d + 1 : ℕ) : ℚ) := by rw [hj]
      push_cast at this
      rw [this]
    rw [sum_congr rfl this, sum_comm]
    have h2 : ∀ m ∈ (univ : Finset (Fin p)), ∑ j ∈ A p (d + 1), (j m : ℚ) * W z j * 1 = z m * dbin (∑ l, z l - 1) d := by
      intro m _
      rw [shift z d m fun _ => 1]
      simp only [mul_one]
      rw [ih]
      congr 2
      simp [sum_sub_distrib]
    rw [sum_congr rfl h2, ← sum_mul]

/-- Functions of degree at most `n`. -/
inductive Deg : Nat → ((Fin p → ℚ) → ℚ) → Prop
  | one (n : Nat) : Deg n fun _ => 1
  | mul {n : Nat} (m : Fin p) (c : ℚ) {g} (h : Deg n g) : Deg (n + 1) fun z => (z m + c) * g z

theorem Deg.shift {n : Nat} {g : (Fin p → ℚ) → ℚ} (h : Deg n g) (v : Fin p → ℚ) : Deg n fun z => g (z + v) := by
  induction h with
  | one => exact .one _
  | mul m c h ih =>
    have := Deg.mul m (v m + c) ih
    simpa [add_assoc] using this

theorem interp (n : Nat) : ∀ {d : Nat} {g : (Fin p → ℚ) → ℚ}, Deg n g → n ≤ d → ∀ z : Fin p → ℚ, ∑ l, z l = d →
    ∑ j ∈ A p d, W z j * g (fun l => j l) = g z := by
  induction n with
  | zero =>
    intro d g hg hn z hz
    cases hg
    simp only [mul_one]
    rw [vandermonde, hz, dbin_nat]
    simp
  | succ n ih =>
    intro d g hg hn z hz
    cases hg with
    | one =>
      simp only [mul_one]
      rw [vandermonde, hz, dbin_nat]
      simp
    | @mul _ m c h hh =>
      obtain ⟨d, rfl⟩ : ∃ d', d = d' + 1 := ⟨d - 1, by omega⟩
      have e1 := ih hh (show n ≤ d + 1 by omega) z hz
      have e2 := ih (hh.shift (Pi.single m 1)) (show n ≤ d by omega) (z - Pi.single m 1) (by
        simp [sum_sub_distrib, hz])
      have e3 := Simplex.shift z d m fun j => h fun l => (j l : ℚ)
      have e4 : ∀ j : Fin p → ℕ, (fun l => (((j + Pi.single m 1 : Fin p → ℕ) l : ℕ) : ℚ)) = (fun l => (j l : ℚ)) + Pi.single m 1 := by
        intro j
        funext l
        by_cases hl : l = m
        · subst hl; simp
        · simp [Pi.single_eq_of_ne hl]
      simp only [e4] at e3
      rw [e2] at e3
      rw [sub_add_cancel] at e3
      calc ∑ j ∈ A p (d + 1), W z j * (((j m : ℕ) + c) * h fun l => (j l : ℚ))
          = ∑ j ∈ A p (d + 1), ((j m : ℚ) * W z j * (h fun l => (j l : ℚ)) + c * (W z j * h fun l => (j l : ℚ))) := by
            refine sum_congr rfl fun j _ => by ring
        _ = (z m + c) * h z := by
            rw [sum_add_distrib, ← mul_sum, e1, e3]; ring

theorem deg_pow {n : Nat} {g : (Fin p → ℚ) → ℚ} (h : Deg n g) (m : Fin p) (b : Nat) : Deg (b + n) fun z => z m ^ b * g z := by
  induction b with
  | zero => simpa using h
  | succ b ih =>
    have := Deg.mul m 0 ih
    rw [show b + 1 + n = b + n + 1 by omega]
    refine (congrArg (Deg (b + n + 1)) ?_).mp this
    funext z
    rw [pow_succ]; ring

theorem deg_monomial (a : Fin p → ℕ) : Deg (∑ l, a l) fun z : Fin p → ℚ => ∏ l, z l ^ a l := by
  have : ∀ s : Finset (Fin p), Deg (∑ l ∈ s, a l) fun z : Fin p → ℚ => ∏ l ∈ s, z l ^ a l := by
    intro s
    induction s using Finset.induction_on with
    | empty => simpa using Deg.one 0
    | insert m s hm ih =>
      simp only [sum_insert hm, prod_insert hm]
      exact deg_pow ih m (a m)
  exact this univ

/-- Monomials of degree at most `d` are interpolated exactly. -/
theorem interp_monomial {d : Nat} (a : Fin p → ℕ) (ha : ∑ l, a l ≤ d) (z : Fin p → ℚ) (hz : ∑ l, z l = d) :
    ∑ j ∈ A p d, W z j * ∏ l, (j l : ℚ) ^ a l = ∏ l, z l ^ a l :=
  interp _ (deg_monomial a) ha z hz

/-- Iterated differences of powers. -/
theorem diff_pow (n a : Nat) (ha : a ≤ n) :
    ∑ k ∈ range (n + 1), (-1 : ℚ) ^ (n + k) * n.choose k * (k : ℚ) ^ a = if a = n then (n.factorial : ℚ) else 0 := by
  have h := fwdDiff_iter_eq_sum_shift (1 : ℚ) (fun x => x ^ a) n 0
  have e : ∑ k ∈ range (n + 1), (-1 : ℚ) ^ (n + k) * n.choose k * (k : ℚ) ^ a =
      ∑ k ∈ range (n + 1), ((-1 : ℤ) ^ (n - k) * n.choose k) • ((0 + k • (1 : ℚ)) ^ a) := by
    refine sum_congr rfl fun k hk => ?_
    have hk : k ≤ n := by simpa [Nat.lt_succ_iff] using hk
    have : (-1 : ℚ) ^ (n + k) = (-1) ^ (n - k) := by
      rw [show n + k = (n - k) + 2 * k by omega, pow_add, pow_mul]; simp
    rw [this]
    simp [zsmul_eq_mul]
  rw [e, ← h]
  split
  · next h => subst h; rw [fwdDiff_iter_eq_factorial]; simp
  · next h => rw [fwdDiff_iter_pow_eq_zero_of_lt (by omega)]; simp

/-- The multi-indices `k ≤ i`. -/
def box (i : Fin p → ℕ) : Finset (Fin p → ℕ) := Fintype.piFinset fun l => range (i l + 1)

theorem mem_box {i k : Fin p → ℕ} : k ∈ box i ↔ ∀ l, k l ≤ i l := by simp [box, Nat.lt_succ_iff]

/-- The summand of `coeff` for the multi-indices `i`, `j`, `k` (taylor.cpp:141-156). -/
def term (d : Nat) (i j k : Fin p → ℕ) : ℚ :=
  (-1) ^ (∑ l, i l + ∑ l, k l) * (∏ l, ((i l).choose (k l) : ℚ)) * ((∑ l, k l : ℕ) / (d : ℚ)) ^ (∑ l, i l) *
    W (fun l => d * k l / (∑ l, k l : ℕ)) j

/-- The coefficient of the `|i|`-th Taylor coefficient in direction `j` in the mixed partial derivative `i`. -/
def cOf (d : Nat) (i j : Fin p → ℕ) : ℚ := ∑ k ∈ (box i).erase 0, term d i j k

/-- The coefficients reproduce the derivatives of monomials. -/
theorem cOf_monomial {d : Nat} (hd : 0 < d) (i a : Fin p → ℕ) (hi : 0 < ∑ l, i l) (hid : ∑ l, i l ≤ d) (ha : ∑ l, a l = ∑ l, i l) :
    ∑ j ∈ A p d, cOf d i j * ∏ l, (j l : ℚ) ^ a l = if a = i then ∏ l, ((i l).factorial : ℚ) else 0 := by
  have hd' : (d : ℚ) ≠ 0 := by positivity
  have h1 : ∀ k ∈ (box i).erase 0, ∑ j ∈ A p d, term d i j k * ∏ l, (j l : ℚ) ^ a l =
      ∏ l, ((-1) ^ (i l + k l) * ((i l).choose (k l) : ℚ) * (k l : ℚ) ^ a l) := by
    intro k hk
    have hk0 : k ≠ 0 := ne_of_mem_erase hk
    have hs : ((∑ l, k l : ℕ) : ℚ) ≠ 0 := by
      have : ∑ l, k l ≠ 0 := by
        intro h
        apply hk0
        funext l
        simpa using (sum_eq_zero_iff.mp h) l (mem_univ l)
      exact_mod_cast this
    have e1 := interp_monomial (d := d) a (by omega) (fun l => d * (k l : ℚ) / (∑ l, k l : ℕ)) (by
      rw [← sum_div, ← mul_sum, mul_div_assoc]
      push_cast at hs ⊢
      rw [div_self hs, mul_one])
    calc ∑ j ∈ A p d, term d i j k * ∏ l, (j l : ℚ) ^ a l
        = (-1) ^ (∑ l, i l + ∑ l, k l) * (∏ l, ((i l).choose (k l) : ℚ)) * ((∑ l, k l : ℕ) / (d : ℚ)) ^ (∑ l, i l) *
          ∑ j ∈ A p d, W (fun l => d * k l / (∑ l, k l : ℕ)) j * ∏ l, (j l : ℚ) ^ a l := by
          rw [mul_sum]
          refine sum_congr rfl fun j _ => ?_
          unfold term; ring
      _ = _ := by
          rw [e1]
          simp only [prod_mul_distrib]
          have e2 : ((∑ l, k l : ℕ) / (d : ℚ)) ^ (∑ l, i l) * ∏ l, (d * (k l : ℚ) / (∑ l, k l : ℕ)) ^ a l = ∏ l, (k l : ℚ) ^ a l := by
            rw [← ha, ← prod_pow_eq_pow_sum, ← prod_mul_distrib]
            refine prod_congr rfl fun l _ => ?_
            rw [← mul_pow]
            congr 1
            field_simp
          rw [mul_assoc, e2]
          congr 2
          rw [prod_pow_eq_pow_sum, sum_add_distrib]
  unfold cOf
  simp only [sum_mul]
  rw [sum_comm, sum_congr rfl h1]
  have h2 : ∑ k ∈ (box i).erase 0, ∏ l, ((-1 : ℚ) ^ (i l + k l) * ((i l).choose (k l) : ℚ) * (k l : ℚ) ^ a l) =
      ∑ k ∈ box i, ∏ l, ((-1 : ℚ) ^ (i l + k l) * ((i l).choose (k l) : ℚ) * (k l : ℚ) ^ a l) := by
    refine sum_erase _ ?_
    obtain ⟨l, hl⟩ : ∃ l, a l ≠ 0 := by
      by_contra hc
      push Not at hc
      rw [sum_congr rfl fun l _ => hc l] at ha
      simp at ha; omega
    exact prod_eq_zero (mem_univ l) (by simp [hl])
  have h3 := (prod_univ_sum (fun l => range (i l + 1)) fun l k => (-1 : ℚ) ^ (i l + k) * ((i l).choose k : ℚ) * (k : ℚ) ^ a l)
  rw [h2, box, ← h3]
  by_cases he : a = i
  · subst he
    simp only [if_true]
    exact prod_congr rfl fun l _ => by rw [diff_pow _ _ le_rfl]; simp
  · rw [if_neg he]
    obtain ⟨l, hl⟩ : ∃ l, a l < i l := by
      by_contra hc
      push Not at hc
      apply he
      funext l
      exact ((sum_eq_sum_iff_of_le (fun l _ => hc l)).mp ha.symm l (mem_univ l)).symm
    refine prod_eq_zero (mem_univ l) ?_
    rw [diff_pow _ _ hl.le, if_neg hl.ne]

end Verif.Num.Simplex
