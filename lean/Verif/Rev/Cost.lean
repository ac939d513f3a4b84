import Verif.Rev.Revolve
import Mathlib.Tactic.Ring
import Mathlib.Tactic.Linarith
import Mathlib.Algebra.BigOperators.Intervals
import Mathlib.Algebra.Order.BigOperators.Group.Finset
import Mathlib.Data.Nat.Choose.Sum
set_option linter.all false
namespace Verif.Rev
open Finset

/-- `(s+r)! / (s! r!)`. -/
def beta (s r : Nat) : Nat := (s + r).choose s

theorem beta_zero_right (s : Nat) : beta s 0 = 1 := by simp [beta]
theorem beta_zero_left (r : Nat) : beta 0 r = 1 := by simp [beta]
theorem beta_pos (s r : Nat) : 1 ≤ beta s r := Nat.choose_pos (by omega)
theorem beta_pascal (s r : Nat) : beta (s + 1) (r + 1) = beta (s + 1) r + beta s (r + 1) := by
  simp only [beta]
  rw [show s + 1 + (r + 1) = (s + r + 1) + 1 by omega, Nat.choose_succ_succ, show s + 1 + r = s + r + 1 by omega,
    show s + (r + 1) = s + r + 1 by omega, Nat.succ_eq_add_one, Nat.add_comm]
theorem beta_succ_right (d r : Nat) : beta d (r + 1) * (r + 1) = beta d r * (d + r + 1) := by
  have := Nat.choose_mul_succ_eq (d + r) d
  simp only [beta]
  rw [show d + (r + 1) = d + r + 1 by omega, this]
  congr 1; omega
theorem beta_succ_left (d r : Nat) : beta (d + 1) r * (d + 1) = beta d r * (d + r + 1) := by
  have := Nat.add_one_mul_choose_eq (d + r) d
  simp only [beta]
  rw [show d + 1 + r = d + r + 1 by omega, ← this]; ring
/-- Trading one for the other. -/
theorem beta_trade (d r : Nat) : beta (d + 1) r * (d + 1) = beta d (r + 1) * (r + 1) := by
  rw [beta_succ_left, beta_succ_right]
theorem beta_mono_right (d : Nat) : Monotone (beta d) := by
  apply monotone_nat_of_le_succ
  intro n
  cases d with
  | zero => simp [beta_zero_left]
  | succ d => rw [beta_pascal]; omega
theorem beta_le_succ_left (d r : Nat) : beta d r ≤ beta (d + 1) r := by
  cases r with
  | zero => simp [beta_zero_right]
  | succ r => rw [beta_pascal]; omega
theorem beta_ge (d r : Nat) : r + 1 ≤ beta (d + 1) r := by
  induction r with
  | zero => exact beta_pos _ _
  | succ r ih => rw [beta_pascal]; have := beta_pos d (r + 1); omega

/-- The minimal number of forward steps for reversing `l` steps with `c` snapshots. -/
def cost (c l : Nat) : Nat := ∑ i ∈ range l, (l - beta c i)

theorem cost_range (c l N : Nat) (h : l ≤ N) : cost (c + 1) l = ∑ i ∈ range N, (l - beta (c + 1) i) := by
  rw [cost, ← Finset.sum_range_add_sum_Ico _ h]
  rw [Finset.sum_eq_zero (s := Finset.Ico l N)]
  · rfl
  intro i hi
  have := beta_ge c i
  simp at hi; omega

theorem cost_one (c : Nat) : cost c 1 = 0 := by simp [cost, beta_zero_right]
theorem cost_zero (c : Nat) : cost c 0 = 0 := by simp [cost]

/-- Splitting after `d` steps. -/
theorem cost_split_le (c l d : Nat) (h1 : 1 ≤ d) (h2 : d < l) (hc : c = 0 → l - d = 1) :
    cost (c + 1) l ≤ d + cost (c + 1) d + cost c (l - d) := by
  have hR : cost c (l - d) = ∑ i ∈ range (l + 1), (l - d - beta c i) := by
    cases c with
    | zero =>
      rw [hc rfl, cost_one, Finset.sum_eq_zero]
      intro i _; simp [beta_zero_left]
    | succ c => exact cost_range c _ _ (by omega)
  rw [hR, cost_range c l (l + 1) (by omega), cost_range c d l (by omega), Finset.sum_range_succ', Finset.sum_range_succ' (fun i => l - d - beta c i)]
  simp only [beta_zero_right]
  have : ∑ i ∈ range l, (l - beta (c + 1) (i + 1)) ≤ ∑ i ∈ range l, ((d - beta (c + 1) i) + (l - d - beta c (i + 1))) := by
    apply Finset.sum_le_sum
    intro i _
    rw [beta_pascal]; omega
  rw [Finset.sum_add_distrib] at this
  omega

theorem cost_split_eq (c l d ρ : Nat) (h1 : 1 ≤ d) (h2 : d < l) (hc : c = 0 → l - d = 1)
    (b1 : d ≤ beta (c + 1) ρ) (b4 : ∀ i, i + 1 ≤ ρ → beta (c + 1) i ≤ d)
    (b2 : beta c ρ ≤ l - d) (b6 : l - d ≤ beta c (ρ + 1)) :
    cost (c + 1) l = d + cost (c + 1) d + cost c (l - d) := by
  have hR : cost c (l - d) = ∑ i ∈ range (l + 1), (l - d - beta c i) := by
    cases c with
    | zero =>
      rw [hc rfl, cost_one, Finset.sum_eq_zero]
      intro i _; simp [beta_zero_left]
    | succ c => exact cost_range c _ _ (by omega)
  rw [hR, cost_range c l (l + 1) (by omega), cost_range c d l (by omega), Finset.sum_range_succ', Finset.sum_range_succ' (fun i => l - d - beta c i)]
  simp only [beta_zero_right]
  have : ∑ i ∈ range l, (l - beta (c + 1) (i + 1)) = ∑ i ∈ range l, ((d - beta (c + 1) i) + (l - d - beta c (i + 1))) := by
    apply Finset.sum_congr rfl
    intro i _
    rw [beta_pascal]
    by_cases hi : i + 1 ≤ ρ
    · have := b4 i hi
      have := beta_mono_right c hi
      omega
    · have := beta_mono_right (c + 1) (show ρ ≤ i by omega)
      have := beta_mono_right c (show ρ + 1 ≤ i + 1 by omega)
      omega
  rw [Finset.sum_add_distrib] at this
  omega

theorem beta_sum (c r : Nat) : ∑ i ∈ range (r + 1), beta c i = beta (c + 1) r := by
  induction r with
  | zero => simp [beta_zero_right]
  | succ r ih => rw [Finset.sum_range_succ, ih, beta_pascal]

/-- The closed form used by `numforw`. -/
theorem cost_closed (c l r : Nat) (h1 : beta (c + 1) r < l) (h2 : l ≤ beta (c + 1) (r + 1)) :
    cost (c + 1) l + beta (c + 2) r = (r + 1) * l := by
  have hr : r + 1 ≤ l := by have := beta_ge c r; omega
  rw [cost, ← Finset.sum_range_add_sum_Ico _ hr]
  rw [Finset.sum_eq_zero (s := Finset.Ico (r + 1) l)]
  · rw [← beta_sum, Nat.add_zero, ← Finset.sum_add_distrib]
    rw [Finset.sum_congr rfl (g := fun _ => l)]
    · simp
    · intro i hi
      simp at hi
      have := beta_mono_right (c + 1) (show i ≤ r by omega)
      omega
  · intro i hi
    simp at hi
    have := beta_mono_right (c + 1) (show r + 1 ≤ i by omega)
    omega

end Verif.Rev
