import Verif.AD.HigherOrder
import Mathlib.Algebra.BigOperators.Group.Finset.Basic
import Mathlib.Algebra.BigOperators.Ring.Finset
import Mathlib.Tactic.Ring

/-! Loops over coefficient rows. -/
set_option linter.all false
namespace Verif.AD
open Elem Finset

section
variable {S : Type}
theorem forUp_succ (n : Nat) (f : Nat → S → S) (s : S) : forUp (n + 1) f s = f n (forUp n f s) := by
  simp [forUp, List.range_succ, List.foldl_append]

@[simp] theorem forUp_zero (f : Nat → S → S) (s : S) : forUp 0 f s = s := rfl

theorem forUp_inv (P : Nat → S → Prop) {n : Nat} {f : Nat → S → S} {s : S} (h0 : P 0 s)
    (hs : ∀ i s, i < n → P i s → P (i + 1) (f i s)) : P n (forUp n f s) := by
  induction n with
  | zero => exact h0
  | succ n ih =>
    rw [forUp_succ]
    exact hs n _ (by omega) (ih fun i s hi h => hs i s (by omega) h)

theorem forDown_inv (P : Nat → S → Prop) {n : Nat} {f : Nat → S → S} {s : S} (h0 : P n s)
    (hs : ∀ i s, i < n → P (i + 1) s → P i (f i s)) : P 0 (forDown n f s) := by
  have : P (n - n) (forUp n (fun q s => f (n - 1 - q) s) s) := by
    refine forUp_inv (fun q s => P (n - q) s) h0 fun q s hq h => ?_
    have h' : P (n - 1 - q + 1) s := by
      rw [show n - 1 - q + 1 = n - q by omega]; exact h
    have := hs (n - 1 - q) s (by omega) h'
    rw [show n - (q + 1) = n - 1 - q by omega]; exact this
  rw [Nat.sub_self] at this
  exact this
end

variable {K : Type}

/-- Row `r` replaced by `W` up to (excluding) index `k`. -/
def ovC (D : Nat → Nat → K) (r k : Nat) (W : Nat → K) : Nat → Nat → K :=
  fun l j => if l = r ∧ j < k then W j else D l j

theorem ovC_zero (D : Nat → Nat → K) (r : Nat) (W : Nat → K) : ovC D r 0 W = D := by
  funext l j; simp [ovC]

theorem ovC_ge (D : Nat → Nat → K) (r k : Nat) (W : Nat → K) {l j : Nat} (h : k ≤ j) : ovC D r k W l j = D l j := by
  simp [ovC]; intro _ h'; omega

theorem ovC_lt (D : Nat → Nat → K) (r k : Nat) (W : Nat → K) {j : Nat} (h : j < k) : ovC D r k W r j = W j := by
  simp [ovC, h]

theorem ovC_ne (D : Nat → Nat → K) (r k : Nat) (W : Nat → K) {l j : Nat} (h : l ≠ r) : ovC D r k W l j = D l j := by
  simp [ovC, h]

theorem updC_ovC (D : Nat → Nat → K) (r i : Nat) (W : Nat → K) :
    updC (ovC D r i W) r i (W i) = ovC D r (i + 1) W := by
  funext l j
  simp only [updC, ovC]
  by_cases h : l = r
  · by_cases h2 : j = i
    · subst h2; simp [h]
    · have : j < i + 1 ↔ j < i := by omega
      simp [h, h2, this]
  · simp [h]

@[simp] theorem updC_updC (D : Nat → Nat → K) (r i : Nat) (v w : K) :
    updC (updC D r i v) r i w = updC D r i w := by
  funext l j; simp only [updC]; split <;> rfl

@[simp] theorem updC_same (D : Nat → Nat → K) (r i : Nat) (v : K) : updC D r i v r i = v := by
  simp [updC]

@[simp] theorem updC_self (D : Nat → Nat → K) (r i : Nat) : updC D r i (D r i) = D := by
  funext l j; simp only [updC]; split_ifs with h
  · rw [h.1, h.2]
  · rfl

theorem updC_ne (D : Nat → Nat → K) (r i : Nat) (v : K) {l j : Nat} (h : j ≠ i) : updC D r i v l j = D l j := by
  simp [updC, h]

theorem updC_nel (D : Nat → Nat → K) (r i : Nat) (v : K) {l j : Nat} (h : l ≠ r) : updC D r i v l j = D l j := by
  simp [updC, h]

theorem updC_comm (D : Nat → Nat → K) {r b : Nat} (h : b ≠ r) (i : Nat) (v w : K) :
    updC (updC D r i v) b i w = updC (updC D b i w) r i v := by
  funext l j; simp only [updC]
  by_cases h1 : l = b
  · have : l ≠ r := fun e => h (h1 ▸ e)
    simp [this]
  · simp [h1]

variable [Scalar K]

theorem setC_T (s : HS K) (r i : Nat) (v : K) : (s.setC r i v).T = s.T := rfl
theorem setC_z (s : HS K) (r i : Nat) (v : K) : (s.setC r i v).z = s.z := rfl
theorem setC_setC (s : HS K) (r i : Nat) (v w : K) : (s.setC r i v).setC r i w = s.setC r i w := by
  simp [HS.setC]
theorem setC_D (s : HS K) (r i : Nat) (v : K) : (s.setC r i v).D r i = v := by simp [HS.setC]

/-- `for j < i: *Tres += g j` -/
theorem accLoop {i r : Nat} {g : Nat → HS K → K} {s : HS K}
    (hg : ∀ j, j < i → ∀ v, g j (s.setC r i v) = g j s) :
    forUp i (fun j s => s.setC r i (s.D r i + g j s)) s =
      s.setC r i (s.D r i + ∑ j ∈ range i, g j s) := by
  have key : ∀ n, n ≤ i → forUp n (fun j s => s.setC r i (s.D r i + g j s)) s =
      s.setC r i (s.D r i + ∑ j ∈ range n, g j s) := by
    intro n
    induction n with
    | zero => intro _; simp [HS.setC]
    | succ n ih =>
      intro hn
      rw [forUp_succ, ih (by omega), setC_setC, setC_D, hg n (by omega), Finset.sum_range_succ, add_assoc]
  exact key i (le_refl _)

theorem subLoop {i r : Nat} {g : Nat → HS K → K} {s : HS K}
    (hg : ∀ j, j < i → ∀ v, g j (s.setC r i v) = g j s) :
    forUp i (fun j s => s.setC r i (s.D r i - g j s)) s =
      s.setC r i (s.D r i - ∑ j ∈ range i, g j s) := by
  have := accLoop (g := fun j s => - g j s) (fun j hj v => by rw [hg j hj v])
  simp only [← sub_eq_add_neg] at this
  rw [this, Finset.sum_neg_distrib, sub_eq_add_neg]

/-- Ascending loop with the scratch vector. -/
theorem asc {s0 : HS K} {r k : Nat} {W ζ : Nat → K} {f : Nat → HS K → HS K}
    (hf : ∀ i, i < k → ∀ z, (∀ j, j < i → z j = ζ j) →
      ∃ z', f i { s0 with D := ovC s0.D r i W, z := z } = { s0 with D := updC (ovC s0.D r i W) r i (W i), z := z' } ∧
        ∀ j, j ≤ i → z' j = ζ j) :
    forUp k f s0 = { s0 with D := ovC s0.D r k W, z := (forUp k f s0).z } := by
  have : ∃ z, forUp k f s0 = { s0 with D := ovC s0.D r k W, z := z } ∧ ∀ j, j < k → z j = ζ j := by
    refine forUp_inv (fun i s => ∃ z, s = { s0 with D := ovC s0.D r i W, z := z } ∧ ∀ j, j < i → z j = ζ j)
      ⟨s0.z, by rw [ovC_zero], by simp⟩ ?_
    rintro i s hi ⟨z, rfl, hz⟩
    obtain ⟨z', h1, h2⟩ := hf i hi z hz
    refine ⟨z', ?_, fun j hj => h2 j (by omega)⟩
    rw [h1, updC_ovC]
  obtain ⟨z, h, _⟩ := this
  rw [h]

/-- Pointwise loop. -/
theorem pw {s0 : HS K} {r k : Nat} {φ : Nat → HS K → K}
    (hφ : ∀ i, i < k → ∀ D, (∀ l j, i ≤ j → D l j = s0.D l j) → φ i { s0 with D := D } = φ i s0) :
    forUp k (fun i s => s.setC r i (φ i s)) s0 = { s0 with D := ovC s0.D r k fun i => φ i s0 } := by
  refine forUp_inv (fun i s => s = { s0 with D := ovC s0.D r i fun i => φ i s0 }) (by rw [ovC_zero]) ?_
  rintro i s hi rfl
  rw [hφ i hi _ fun l j hj => ovC_ge _ _ _ _ hj]
  simp only [HS.setC, updC_ovC _ _ _ (fun i => φ i s0)]

/-- Descending loop. -/
theorem desc {s0 : HS K} {r k : Nat} {W : Nat → K} {f : Nat → HS K → HS K}
    (hf : ∀ i, i < k → ∀ D, (∀ l j, j ≤ i → D l j = s0.D l j) →
      f i { s0 with D := D } = { s0 with D := updC D r i (W i) }) :
    forDown k f s0 = { s0 with D := ovC s0.D r k W } := by
  have := forDown_inv (P := fun i s => s = { s0 with D := fun l j => if l = r ∧ i ≤ j ∧ j < k then W j else s0.D l j })
    (n := k) (f := f) (s := s0) (by
      have : (fun l j => if l = r ∧ k ≤ j ∧ j < k then W j else s0.D l j) = s0.D := by
        funext l j
        rw [if_neg]; omega
      rw [this]) (by
      rintro i s hi rfl
      rw [hf i hi _ (fun l j hj => by rw [if_neg]; omega)]
      congr 1
      funext l j
      simp only [updC]
      by_cases h1 : l = r
      · by_cases h2 : j = i
        · subst h2; simp [h1, hi]
        · have : (i + 1 ≤ j ∧ j < k) ↔ (i ≤ j ∧ j < k) := by omega
          simp [h1, h2, this]
      · simp [h1])
  rw [this]
  congr 1
  funext l j
  simp [ovC]

/-- The two interleaved inner loops of sin/cos. -/
theorem trigLoop {i r b : Nat} (hbr : b ≠ r) {g h : Nat → HS K → K} {s : HS K}
    (hg : ∀ j, j < i → ∀ v w, g j ((s.setC r i v).setC b i w) = g j s)
    (hh : ∀ j, j < i → ∀ v w, h j ((s.setC r i v).setC b i w) = h j s) :
    forUp i (fun j s => (s.setC r i (s.D r i + g j s)).setC b i
        ((s.setC r i (s.D r i + g j s)).D b i + h j (s.setC r i (s.D r i + g j s)))) s =
      (s.setC r i (s.D r i + ∑ j ∈ range i, g j s)).setC b i (s.D b i + ∑ j ∈ range i, h j s) := by
  have hself : (s.setC r i (s.D r i)).setC b i (s.D b i) = s := by
    simp only [HS.setC]
    have : updC (updC s.D r i (s.D r i)) b i (s.D b i) = s.D := by
      funext l j; simp only [updC]
      split_ifs with h1 h2
      · rw [h1.1, h1.2]
      · rw [h2.1, h2.2]
      · rfl
    rw [this]
  have hcc : ∀ v w v' : K, ((s.setC r i v).setC b i w).setC r i v' = (s.setC r i v').setC b i w := by
    intro v w v'
    simp only [HS.setC]
    rw [updC_comm _ (Ne.symm hbr), updC_updC]
  have key : ∀ n, n ≤ i → forUp n (fun j s => (s.setC r i (s.D r i + g j s)).setC b i
        ((s.setC r i (s.D r i + g j s)).D b i + h j (s.setC r i (s.D r i + g j s)))) s =
      (s.setC r i (s.D r i + ∑ j ∈ range n, g j s)).setC b i (s.D b i + ∑ j ∈ range n, h j s) := by
    intro n
    induction n with
    | zero => intro _; simp [hself]
    | succ n ih =>
      intro hn
      rw [forUp_succ, ih (by omega)]
      have e1 : ∀ v w : K, ((s.setC r i v).setC b i w).D r i = v := by
        intro v w; simp [HS.setC, updC_nel _ _ _ _ hbr.symm]
      have e2 : ∀ v w : K, ((s.setC r i v).setC b i w).D b i = w := by
        intro v w; simp [HS.setC]
      simp only [hcc, e1, e2, hg n (by omega), hh n (by omega), setC_setC]
      rw [Finset.sum_range_succ, Finset.sum_range_succ, add_assoc, add_assoc]
  exact key i (le_refl _)



/-! ### The loops of the individual operations -/

section ops
variable {k a b r : Nat} {W : Nat → K} {s : HS K}

theorem zeta_tail {z : Nat → K} {i : Nat} {ζ : Nat → K} (hz : ∀ j, j < i → z j = ζ j) :
    ∀ j, j ≤ i → upd z i (ζ i) j = ζ j := by
  intro j hj
  by_cases hji : j = i
  · subst hji; simp
  · rw [upd_ne _ _ hji, hz _ (by omega)]

theorem exp_loop
    (hW : ∀ i, i < k → W i = (s.T r * s.D a i * ((i : K) + 1) +
      ∑ j ∈ range i, W j * (((i - 1 - j : ℕ) + 1) * s.D a (i - 1 - j))) / ((i : K) + 1)) :
    ∃ z', forUp k (fun i s =>
      let s := s.setZ i (((i : K) + 1) * s.D a i)
      let s := s.setC r i (s.T r * s.D a i)
      let s := s.setC r i (s.D r i * ((i : K) + 1))
      let s := forUp i (fun j s => s.setC r i (s.D r i + s.D r j * s.z (i - 1 - j))) s
      s.setC r i (s.D r i / ((i : K) + 1))) s =
    { s with D := ovC s.D r k W, z := z' } := by
  refine ⟨_, asc (ζ := fun i => ((i : K) + 1) * s.D a i) ?_⟩
  intro i hi z hz
  refine ⟨upd z i (((i : K) + 1) * s.D a i), ?_, zeta_tail (ζ := fun i => ((i : K) + 1) * s.D a i) hz⟩
  simp only []
  rw [accLoop (g := fun j s => s.D r j * s.z (i - 1 - j)) (fun j hj v => by
    simp only [HS.setC, HS.setZ, updC_updC]; rw [updC_ne _ _ _ _ hj.ne, updC_ne _ _ _ _ hj.ne])]
  simp only [HS.setC, HS.setZ, updC_updC, updC_same, ovC_ge _ _ _ _ (le_refl i)]
  congr 2
  rw [hW i hi]
  congr 2
  refine Finset.sum_congr rfl fun j hj => ?_
  have hj : j < i := Finset.mem_range.1 hj
  rw [updC_ne _ _ _ _ hj.ne, ovC_lt _ _ _ _ hj, upd_ne _ _ (by omega), hz _ (by omega)]

theorem quad_loop (hbr : b ≠ r)
    (hW : ∀ i, i < k → W i = (s.T b * s.D a i * ((i : K) + 1) +
      ∑ j ∈ range i, s.D b j * (((i - 1 - j : ℕ) + 1) * s.D a (i - 1 - j))) / ((i : K) + 1)) :
    ∃ z', quadLoop k a b r s = { s with D := ovC s.D r k W, z := z' } := by
  refine ⟨_, asc (ζ := fun i => ((i : K) + 1) * s.D a i) ?_⟩
  intro i hi z hz
  refine ⟨upd z i (((i : K) + 1) * s.D a i), ?_, zeta_tail (ζ := fun i => ((i : K) + 1) * s.D a i) hz⟩
  simp only []
  rw [accLoop (g := fun j s => s.D b j * s.z (i - 1 - j)) (fun j hj v => by
    simp only [HS.setC, HS.setZ, updC_updC]; rw [updC_ne _ _ _ _ hj.ne, updC_ne _ _ _ _ hj.ne])]
  simp only [HS.setC, HS.setZ, updC_updC, updC_same, ovC_ge _ _ _ _ (le_refl i)]
  congr 2
  rw [hW i hi]
  congr 2
  refine Finset.sum_congr rfl fun j hj => ?_
  have hj : j < i := Finset.mem_range.1 hj
  rw [updC_ne _ _ _ _ hj.ne, ovC_ne _ _ _ _ hbr, upd_ne _ _ (by omega), hz _ (by omega)]

theorem div_loop {divs : K}
    (hW : ∀ i, i < k → W i = s.D a i * divs + s.T r * (- s.D b i * divs) +
      ∑ j ∈ range i, W j * (- s.D b (i - 1 - j) * divs)) :
    ∃ z', forUp k (fun i s =>
      let s := s.setZ i (- s.D b i * divs)
      let s := s.setC r i (s.D a i * divs + s.T r * (- s.D b i * divs))
      forUp i (fun j s => s.setC r i (s.D r i + s.D r j * s.z (i - 1 - j))) s) s =
    { s with D := ovC s.D r k W, z := z' } := by
  refine ⟨_, asc (ζ := fun i => - s.D b i * divs) ?_⟩
  intro i hi z hz
  refine ⟨upd z i (- s.D b i * divs), ?_, zeta_tail (ζ := fun i => - s.D b i * divs) hz⟩
  simp only []
  rw [accLoop (g := fun j s => s.D r j * s.z (i - 1 - j)) (fun j hj v => by
    simp only [HS.setC, HS.setZ, updC_updC]; rw [updC_ne _ _ _ _ hj.ne, updC_ne _ _ _ _ hj.ne])]
  simp only [HS.setC, HS.setZ, updC_updC, updC_same, ovC_ge _ _ _ _ (le_refl i)]
  congr 2
  rw [hW i hi]
  congr 1
  refine Finset.sum_congr rfl fun j hj => ?_
  have hj : j < i := Finset.mem_range.1 hj
  rw [updC_ne _ _ _ _ hj.ne, ovC_lt _ _ _ _ hj, upd_ne _ _ (by omega), hz _ (by omega)]

theorem divD_loop {divs : K}
    (hW : ∀ i, i < k → W i = s.T r * (- s.D a i * divs) +
      ∑ j ∈ range i, W j * (- s.D a (i - 1 - j) * divs)) :
    ∃ z', forUp k (fun i s =>
      let s := s.setZ i (- s.D a i * divs)
      let s := s.setC r i (s.T r * (- s.D a i * divs))
      forUp i (fun j s => s.setC r i (s.D r i + s.D r j * s.z (i - 1 - j))) s) s =
    { s with D := ovC s.D r k W, z := z' } := by
  refine ⟨_, asc (ζ := fun i => - s.D a i * divs) ?_⟩
  intro i hi z hz
  refine ⟨upd z i (- s.D a i * divs), ?_, zeta_tail (ζ := fun i => - s.D a i * divs) hz⟩
  simp only []
  rw [accLoop (g := fun j s => s.D r j * s.z (i - 1 - j)) (fun j hj v => by
    simp only [HS.setC, HS.setZ, updC_updC]; rw [updC_ne _ _ _ _ hj.ne, updC_ne _ _ _ _ hj.ne])]
  simp only [HS.setC, HS.setZ, updC_updC, updC_same, ovC_ge _ _ _ _ (le_refl i)]
  congr 2
  rw [hW i hi]
  congr 1
  refine Finset.sum_congr rfl fun j hj => ?_
  have hj : j < i := Finset.mem_range.1 hj
  rw [updC_ne _ _ _ _ hj.ne, ovC_lt _ _ _ _ hj, upd_ne _ _ (by omega), hz _ (by omega)]

theorem log_loop {divs : K}
    (hW : ∀ i, i < k → W i = (s.D a i * divs * ((i : K) + 1) -
      ∑ j ∈ range i, s.D a (i - 1 - j) * divs * W j * ((j : K) + 1)) / ((i : K) + 1)) :
    ∃ z', forUp k (fun i s =>
      let s := s.setC r i (s.D a i * divs)
      let s := s.setZ i (s.D r i)
      let s := s.setC r i (s.D r i * ((i : K) + 1))
      let s := forUp i (fun j s => s.setC r i (s.D r i - s.z (i - 1 - j) * s.D r j * ((j : K) + 1))) s
      s.setC r i (s.D r i / ((i : K) + 1))) s =
    { s with D := ovC s.D r k W, z := z' } := by
  refine ⟨_, asc (ζ := fun i => s.D a i * divs) ?_⟩
  intro i hi z hz
  refine ⟨upd z i (s.D a i * divs), ?_, zeta_tail (ζ := fun i => s.D a i * divs) hz⟩
  simp only []
  rw [subLoop (g := fun j s => s.z (i - 1 - j) * s.D r j * ((j : K) + 1)) (fun j hj v => by
    simp only [HS.setC, HS.setZ, updC_updC]; rw [updC_ne _ _ _ _ hj.ne, updC_ne _ _ _ _ hj.ne])]
  simp only [HS.setC, HS.setZ, updC_updC, updC_same, ovC_ge _ _ _ _ (le_refl i)]
  congr 2
  rw [hW i hi]
  congr 2
  refine Finset.sum_congr rfl fun j hj => ?_
  have hj : j < i := Finset.mem_range.1 hj
  rw [updC_ne _ _ _ _ hj.ne, ovC_lt _ _ _ _ hj, upd_ne _ _ (by omega), hz _ (by omega)]

/-- The inner loop of pow with its running factor. -/
theorem powInner {i : Nat} {v y0 : K} (s : HS K) :
    (forUp i (fun j (p : HS K × K) =>
      (p.1.setC r i (p.1.D r i + p.1.D r j * p.1.z (i - 1 - j) * p.2), p.2 - (v + 1))) (s, y0)).1 =
      s.setC r i (s.D r i + ∑ j ∈ range i, s.D r j * s.z (i - 1 - j) * (y0 - j * (v + 1))) := by
  have key : ∀ n, n ≤ i → forUp n (fun j (p : HS K × K) =>
      (p.1.setC r i (p.1.D r i + p.1.D r j * p.1.z (i - 1 - j) * p.2), p.2 - (v + 1))) (s, y0) =
      (s.setC r i (s.D r i + ∑ j ∈ range n, s.D r j * s.z (i - 1 - j) * (y0 - j * (v + 1))),
        y0 - n * (v + 1)) := by
    intro n
    induction n with
    | zero => intro _; simp [HS.setC]
    | succ n ih =>
      intro hn
      rw [forUp_succ, ih (by omega), setC_setC, setC_D, Finset.sum_range_succ]
      refine Prod.ext ?_ ?_
      · simp only [HS.setC]
        rw [updC_ne _ _ _ _ (by omega : n ≠ i), add_assoc]
      · push_cast; ring
  rw [key i (le_refl _)]

theorem pow_loop {v r0 : K}
    (hW : ∀ i, i < k → W i = (s.T r * s.D a i * v * r0 * ((i : K) + 1) +
      ∑ j ∈ range i, W j * (s.D a (i - 1 - j) * r0) * (v * i - 1 - j * (v + 1))) / ((i : K) + 1)) :
    ∃ z', forUp k (fun i s =>
        let s := s.setZ i (s.D a i * r0)
        let s := s.setC r i (s.T r * s.D a i * v * r0)
        let s := s.setC r i (s.D r i * ((i : K) + 1))
        let s := (forUp i (fun j (p : HS K × K) =>
          (p.1.setC r i (p.1.D r i + p.1.D r j * p.1.z (i - 1 - j) * p.2), p.2 - (v + 1)))
          (s, v * i - 1)).1
        s.setC r i (s.D r i / ((i : K) + 1))) s =
    { s with D := ovC s.D r k W, z := z' } := by
  refine ⟨_, asc (ζ := fun i => s.D a i * r0) ?_⟩
  intro i hi z hz
  refine ⟨upd z i (s.D a i * r0), ?_, zeta_tail (ζ := fun i => s.D a i * r0) hz⟩
  simp only [powInner]
  simp only [HS.setC, HS.setZ, updC_updC, updC_same, ovC_ge _ _ _ _ (le_refl i)]
  congr 2
  rw [hW i hi]
  congr 2
  refine Finset.sum_congr rfl fun j hj => ?_
  have hj : j < i := Finset.mem_range.1 hj
  rw [updC_ne _ _ _ _ hj.ne, ovC_lt _ _ _ _ hj, upd_ne _ _ (by omega), hz _ (by omega)]

theorem forUp_sum (n : Nat) (g : Nat → K) : forUp n (fun j x => x + g j) 0 = ∑ j ∈ range n, g j := by
  induction n with
  | zero => rfl
  | succ n ih => rw [forUp_succ, ih, Finset.sum_range_succ]

theorem sqrt_loop {r0 : K}
    (hW : ∀ i, i < k → W i = r0 * s.D a i - r0 *
      (if i % 2 = 1 then (∑ j ∈ range (i / 2), W j * W (i - 1 - j)) * 2 + W (i / 2) * W (i - 1 - i / 2)
       else (∑ j ∈ range (i / 2), W j * W (i - 1 - j)) * 2)) :
    ∃ z', forUp k (fun i s =>
      let s := s.setC r i (r0 * s.D a i)
      let x := forUp (i / 2) (fun j x => x + s.D r j * s.D r (i - 1 - j)) 0
      let x := x * 2
      let x := if i % 2 = 1 then x + s.D r (i / 2) * s.D r (i - 1 - i / 2) else x
      s.setC r i (s.D r i - r0 * x)) s =
    { s with D := ovC s.D r k W, z := z' } := by
  have key : ∀ n, n ≤ k → forUp n (fun i s =>
      let s := s.setC r i (r0 * s.D a i)
      let x := forUp (i / 2) (fun j x => x + s.D r j * s.D r (i - 1 - j)) 0
      let x := x * 2
      let x := if i % 2 = 1 then x + s.D r (i / 2) * s.D r (i - 1 - i / 2) else x
      s.setC r i (s.D r i - r0 * x)) s = { s with D := ovC s.D r n W } := by
    intro n
    induction n with
    | zero => intro _; simp [ovC_zero]
    | succ n ih =>
      intro hn
      rw [forUp_succ, ih (by omega)]
      simp only [HS.setC, updC_updC, updC_same, forUp_sum, ovC_ge _ _ _ _ (le_refl n)]
      rw [← updC_ovC, hW n (by omega)]
      congr 2
      have e : ∀ j, j < n → updC (ovC s.D r n W) r n (r0 * s.D a n) r j = W j := fun j hj => by
        rw [updC_ne _ _ _ _ hj.ne, ovC_lt _ _ _ _ hj]
      have e1 : (∑ j ∈ range (n / 2), updC (ovC s.D r n W) r n (r0 * s.D a n) r j *
          updC (ovC s.D r n W) r n (r0 * s.D a n) r (n - 1 - j)) =
          ∑ j ∈ range (n / 2), W j * W (n - 1 - j) := by
        refine Finset.sum_congr rfl fun j hj => ?_
        have hj : j < n / 2 := Finset.mem_range.1 hj
        rw [e _ (by omega), e _ (by omega)]
      rw [e1]
      split_ifs with h
      · rw [e _ (by omega), e _ (by omega)]
      · rfl
  exact ⟨s.z, key k (le_refl _)⟩

/-- Products, `φ` the part outside the inner loop. -/
theorem prod_loop {φ : Nat → HS K → K}
    (hφ : ∀ i, i < k → ∀ D, (∀ l j, j ≤ i → D l j = s.D l j) → φ i { s with D := D } = φ i s)
    (hW : ∀ i, i < k → W i = φ i s + ∑ j ∈ range i, s.D a j * s.D b (i - 1 - j)) :
    forDown k (fun i s =>
      let s := s.setC r i (φ i s)
      forUp i (fun j s => s.setC r i (s.D r i + s.D a j * s.D b (i - 1 - j))) s) s =
    { s with D := ovC s.D r k W } := by
  refine desc fun i hi D hD => ?_
  simp only []
  rw [accLoop (g := fun j s => s.D a j * s.D b (i - 1 - j)) (fun j hj v => by
    simp only [HS.setC, updC_updC]
    rw [updC_ne _ _ _ _ hj.ne, updC_ne _ _ _ _ hj.ne, updC_ne _ _ _ _ (by omega : i - 1 - j ≠ i),
      updC_ne _ _ _ _ (by omega : i - 1 - j ≠ i)])]
  simp only [HS.setC, updC_updC, updC_same]
  congr 2
  rw [hW i hi, hφ i hi D hD]
  congr 1
  refine Finset.sum_congr rfl fun j hj => ?_
  have hj : j < i := Finset.mem_range.1 hj
  rw [updC_ne _ _ _ _ hj.ne, updC_ne _ _ _ _ (by omega : i - 1 - j ≠ i), hD _ _ (by omega), hD _ _ (by omega)]

theorem prod_loop_sub {φ : Nat → HS K → K}
    (hφ : ∀ i, i < k → ∀ D, (∀ l j, j ≤ i → D l j = s.D l j) → φ i { s with D := D } = φ i s)
    (hW : ∀ i, i < k → W i = φ i s - ∑ j ∈ range i, s.D a j * s.D b (i - 1 - j)) :
    forDown k (fun i s =>
      let s := s.setC r i (φ i s)
      forUp i (fun j s => s.setC r i (s.D r i - s.D a j * s.D b (i - 1 - j))) s) s =
    { s with D := ovC s.D r k W } := by
  refine desc fun i hi D hD => ?_
  simp only []
  rw [subLoop (g := fun j s => s.D a j * s.D b (i - 1 - j)) (fun j hj v => by
    simp only [HS.setC, updC_updC]
    rw [updC_ne _ _ _ _ hj.ne, updC_ne _ _ _ _ hj.ne, updC_ne _ _ _ _ (by omega : i - 1 - j ≠ i),
      updC_ne _ _ _ _ (by omega : i - 1 - j ≠ i)])]
  simp only [HS.setC, updC_updC, updC_same]
  congr 2
  rw [hW i hi, hφ i hi D hD]
  congr 1
  refine Finset.sum_congr rfl fun j hj => ?_
  have hj : j < i := Finset.mem_range.1 hj
  rw [updC_ne _ _ _ _ hj.ne, updC_ne _ _ _ _ (by omega : i - 1 - j ≠ i), hD _ _ (by omega), hD _ _ (by omega)]

theorem ovC_ov (D : Nat → Nat → K) (hbr : b ≠ r) (n : Nat) (Wb Wr : Nat → K) :
    updC (updC (ovC (ovC D b n Wb) r n Wr) r n (Wr n)) b n (Wb n) =
      ovC (ovC D b (n + 1) Wb) r (n + 1) Wr := by
  funext l j
  simp only [updC, ovC]
  by_cases h : l = r
  · have hb : l ≠ b := fun e => hbr (e ▸ h)
    by_cases h2 : j = n
    · subst h2; simp [h, hbr.symm]
    · have : j < n + 1 ↔ j < n := by omega
      simp [h, h2, hbr.symm, this]
  · by_cases hb : l = b
    · by_cases h2 : j = n
      · subst h2; simp [hb, hbr]
      · have : j < n + 1 ↔ j < n := by omega
        simp [hb, h2, hbr, this]
    · simp [h, hb]

theorem sin_loop {Wb : Nat → K} (hbr : b ≠ r) (hab : a ≠ b)
    (hW : ∀ i, i < k → W i = (s.T b * s.D a i * ((i : K) + 1) +
      ∑ j ∈ range i, Wb j * (((i - 1 - j : ℕ) + 1) * s.D a (i - 1 - j))) / ((i : K) + 1))
    (hWb : ∀ i, i < k → Wb i = (- s.T r * s.D a i * ((i : K) + 1) -
      ∑ j ∈ range i, W j * (((i - 1 - j : ℕ) + 1) * s.D a (i - 1 - j))) / ((i : K) + 1)) :
    ∃ z', forUp k (fun i s =>
      let s := s.setZ i (((i : K) + 1) * s.D a i)
      let s := s.setC b i (- s.T r * s.D a i)
      let s := s.setC r i (s.T b * s.D a i)
      let s := s.setC r i (s.D r i * ((i : K) + 1))
      let s := s.setC b i (s.D b i * ((i : K) + 1))
      let s := forUp i (fun j s =>
        let s := s.setC r i (s.D r i + s.D b j * s.z (i - 1 - j))
        s.setC b i (s.D b i - s.D r j * s.z (i - 1 - j))) s
      let s := s.setC b i (s.D b i / ((i : K) + 1))
      s.setC r i (s.D r i / ((i : K) + 1))) s =
    { s with D := ovC (ovC s.D b k Wb) r k W, z := z' } := by
  have key : ∀ n, n ≤ k → ∃ z', forUp n (fun i s =>
      let s := s.setZ i (((i : K) + 1) * s.D a i)
      let s := s.setC b i (- s.T r * s.D a i)
      let s := s.setC r i (s.T b * s.D a i)
      let s := s.setC r i (s.D r i * ((i : K) + 1))
      let s := s.setC b i (s.D b i * ((i : K) + 1))
      let s := forUp i (fun j s =>
        let s := s.setC r i (s.D r i + s.D b j * s.z (i - 1 - j))
        s.setC b i (s.D b i - s.D r j * s.z (i - 1 - j))) s
      let s := s.setC b i (s.D b i / ((i : K) + 1))
      s.setC r i (s.D r i / ((i : K) + 1))) s =
    { s with D := ovC (ovC s.D b n Wb) r n W, z := z' } ∧ ∀ j, j < n → z' j = ((j : K) + 1) * s.D a j := by
    intro n
    induction n with
    | zero => intro _; exact ⟨s.z, by simp [ovC_zero], by simp⟩
    | succ n ih =>
      intro hn
      obtain ⟨z, hz1, hz2⟩ := ih (by omega)
      refine ⟨upd z n (((n : K) + 1) * s.D a n), ?_, fun j hj => ?_⟩
      swap
      · exact zeta_tail (ζ := fun i => ((i : K) + 1) * s.D a i) hz2 j (by omega)
      rw [forUp_succ, hz1]
      simp only [sub_eq_add_neg (HS.D _ b n)]
      rw [trigLoop hbr (g := fun j s => s.D b j * s.z (n - 1 - j)) (h := fun j s => - (s.D r j * s.z (n - 1 - j)))
        (fun j hj v w => by simp only [HS.setC, HS.setZ]; rw [updC_ne _ _ _ _ hj.ne, updC_ne _ _ _ _ hj.ne])
        (fun j hj v w => by simp only [HS.setC, HS.setZ]; rw [updC_ne _ _ _ _ hj.ne, updC_ne _ _ _ _ hj.ne])]
      have hr := hbr.symm
      rw [← ovC_ov _ hbr, hW n (by omega), hWb n (by omega)]
      have q1 : ∀ l, ovC (ovC s.D b n Wb) r n W l n = s.D l n := fun l => by
        rw [ovC_ge _ _ _ _ (le_refl n), ovC_ge _ _ _ _ (le_refl n)]
      have q2 : ∀ j, j < n → ovC (ovC s.D b n Wb) r n W b j = Wb j := fun j hj => by
        rw [ovC_ne _ _ _ _ hbr, ovC_lt _ _ _ _ hj]
      have q3 : ∀ j, j < n → ovC (ovC s.D b n Wb) r n W r j = W j := fun j hj => by
        rw [ovC_lt _ _ _ _ hj]
      have q4 : ∀ j, j < n → upd z n (((n : K) + 1) * s.D a n) (n - 1 - j) = (((n - 1 - j : ℕ) : K) + 1) * s.D a (n - 1 - j) :=
        fun j hj => by rw [upd_ne _ _ (by omega), hz2 _ (by omega)]
      generalize ovC (ovC s.D b n Wb) r n W = D at q1 q2 q3 ⊢
      have r1 : ∀ (D : Nat → Nat → K) (v w : K) (j : Nat), j < n → updC (updC D b n v) r n w b j = D b j :=
        fun D v w j hj => by rw [updC_ne _ _ _ _ hj.ne, updC_ne _ _ _ _ hj.ne]
      simp only [HS.setC, HS.setZ, updC_updC, updC_same, updC_comm _ hbr, updC_nel _ _ _ _ hbr, updC_nel _ _ _ _ hr,
        updC_nel _ _ _ _ hab, q1, Finset.sum_neg_distrib, ← sub_eq_add_neg]
      have s1 : ∀ (D' : Nat → Nat → K) (f g : Nat → K), (∀ j, j < n → f j = g j) →
          (∑ x ∈ range n, f x * upd z n (((n : K) + 1) * s.D a n) (n - 1 - x)) =
          ∑ j ∈ range n, g j * ((((n - 1 - j : ℕ) : K) + 1) * s.D a (n - 1 - j)) := fun D' f g h =>
        Finset.sum_congr rfl fun j hj => by
          have hj : j < n := Finset.mem_range.1 hj
          rw [h j hj, q4 j hj]
      congr 2
      · congr 3
        exact s1 D _ W fun j hj => by rw [updC_ne _ _ _ _ hj.ne, updC_ne _ _ _ _ hj.ne, q3 j hj]
      · congr 2
        exact s1 D _ Wb fun j hj => by rw [updC_ne _ _ _ _ hj.ne, q2 j hj]
  obtain ⟨z', h, _⟩ := key k (le_refl _)
  exact ⟨z', h⟩
theorem cos_loop {Wb : Nat → K} (hbr : b ≠ r) (hab : a ≠ b)
    (hW : ∀ i, i < k → W i = (- s.T b * s.D a i * ((i : K) + 1) -
      ∑ j ∈ range i, Wb j * (((i - 1 - j : ℕ) + 1) * s.D a (i - 1 - j))) / ((i : K) + 1))
    (hWb : ∀ i, i < k → Wb i = (s.T r * s.D a i * ((i : K) + 1) +
      ∑ j ∈ range i, W j * (((i - 1 - j : ℕ) + 1) * s.D a (i - 1 - j))) / ((i : K) + 1)) :
    ∃ z', forUp k (fun i s =>
      let s := s.setZ i (((i : K) + 1) * s.D a i)
      let s := s.setC b i (s.T r * s.D a i)
      let s := s.setC r i (- s.T b * s.D a i)
      let s := s.setC r i (s.D r i * ((i : K) + 1))
      let s := s.setC b i (s.D b i * ((i : K) + 1))
      let s := forUp i (fun j s =>
        let s := s.setC r i (s.D r i - s.D b j * s.z (i - 1 - j))
        s.setC b i (s.D b i + s.D r j * s.z (i - 1 - j))) s
      let s := s.setC b i (s.D b i / ((i : K) + 1))
      s.setC r i (s.D r i / ((i : K) + 1))) s =
    { s with D := ovC (ovC s.D b k Wb) r k W, z := z' } := by
  have key : ∀ n, n ≤ k → ∃ z', forUp n (fun i s =>
      let s := s.setZ i (((i : K) + 1) * s.D a i)
      let s := s.setC b i (s.T r * s.D a i)
      let s := s.setC r i (- s.T b * s.D a i)
      let s := s.setC r i (s.D r i * ((i : K) + 1))
      let s := s.setC b i (s.D b i * ((i : K) + 1))
      let s := forUp i (fun j s =>
        let s := s.setC r i (s.D r i - s.D b j * s.z (i - 1 - j))
        s.setC b i (s.D b i + s.D r j * s.z (i - 1 - j))) s
      let s := s.setC b i (s.D b i / ((i : K) + 1))
      s.setC r i (s.D r i / ((i : K) + 1))) s =
    { s with D := ovC (ovC s.D b n Wb) r n W, z := z' } ∧ ∀ j, j < n → z' j = ((j : K) + 1) * s.D a j := by
    intro n
    induction n with
    | zero => intro _; exact ⟨s.z, by simp [ovC_zero], by simp⟩
    | succ n ih =>
      intro hn
      obtain ⟨z, hz1, hz2⟩ := ih (by omega)
      refine ⟨upd z n (((n : K) + 1) * s.D a n), ?_, fun j hj => ?_⟩
      swap
      · exact zeta_tail (ζ := fun i => ((i : K) + 1) * s.D a i) hz2 j (by omega)
      rw [forUp_succ, hz1]
      simp only [sub_eq_add_neg (HS.D _ r n)]
      rw [trigLoop hbr (g := fun j s => - (s.D b j * s.z (n - 1 - j))) (h := fun j s => s.D r j * s.z (n - 1 - j))
        (fun j hj v w => by simp only [HS.setC, HS.setZ]; rw [updC_ne _ _ _ _ hj.ne, updC_ne _ _ _ _ hj.ne])
        (fun j hj v w => by simp only [HS.setC, HS.setZ]; rw [updC_ne _ _ _ _ hj.ne, updC_ne _ _ _ _ hj.ne])]
      have hr := hbr.symm
      rw [← ovC_ov _ hbr, hW n (by omega), hWb n (by omega)]
      have q1 : ∀ l, ovC (ovC s.D b n Wb) r n W l n = s.D l n := fun l => by
        rw [ovC_ge _ _ _ _ (le_refl n), ovC_ge _ _ _ _ (le_refl n)]
      have q2 : ∀ j, j < n → ovC (ovC s.D b n Wb) r n W b j = Wb j := fun j hj => by
        rw [ovC_ne _ _ _ _ hbr, ovC_lt _ _ _ _ hj]
      have q3 : ∀ j, j < n → ovC (ovC s.D b n Wb) r n W r j = W j := fun j hj => by
        rw [ovC_lt _ _ _ _ hj]
      have q4 : ∀ j, j < n → upd z n (((n : K) + 1) * s.D a n) (n - 1 - j) = (((n - 1 - j : ℕ) : K) + 1) * s.D a (n - 1 - j) :=
        fun j hj => by rw [upd_ne _ _ (by omega), hz2 _ (by omega)]
      generalize ovC (ovC s.D b n Wb) r n W = D at q1 q2 q3 ⊢
      have r1 : ∀ (D : Nat → Nat → K) (v w : K) (j : Nat), j < n → updC (updC D b n v) r n w b j = D b j :=
        fun D v w j hj => by rw [updC_ne _ _ _ _ hj.ne, updC_ne _ _ _ _ hj.ne]
      simp only [HS.setC, HS.setZ, updC_updC, updC_same, updC_comm _ hbr, updC_nel _ _ _ _ hbr, updC_nel _ _ _ _ hr,
        updC_nel _ _ _ _ hab, q1, Finset.sum_neg_distrib, ← sub_eq_add_neg]
      have s1 : ∀ (D' : Nat → Nat → K) (f g : Nat → K), (∀ j, j < n → f j = g j) →
          (∑ x ∈ range n, f x * upd z n (((n : K) + 1) * s.D a n) (n - 1 - x)) =
          ∑ j ∈ range n, g j * ((((n - 1 - j : ℕ) : K) + 1) * s.D a (n - 1 - j)) := fun D' f g h =>
        Finset.sum_congr rfl fun j hj => by
          have hj : j < n := Finset.mem_range.1 hj
          rw [h j hj, q4 j hj]
      congr 2
      · congr 3
        exact s1 D _ W fun j hj => by rw [updC_ne _ _ _ _ hj.ne, updC_ne _ _ _ _ hj.ne, q3 j hj]
      · congr 2
        exact s1 D _ Wb fun j hj => by rw [updC_ne _ _ _ _ hj.ne, q2 j hj]
  obtain ⟨z', h, _⟩ := key k (le_refl _)
  exact ⟨z', h⟩
end ops

end Verif.AD
