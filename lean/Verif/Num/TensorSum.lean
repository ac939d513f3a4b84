import Verif.Num.TensorIt
import Verif.Num.Mixed

/-! # What one list of the table contributes to one entry of the tensor -/
set_option linter.all false
namespace Verif.Num.TensorCoef
open Verif.Num.Simplex

theorem address_congr {p d o : Nat} {im im' : Nat → Nat} (h : res p im = res p im') : address p d im o = address p d im' o := by
  have hd : ∀ (u : Nat), u ≤ p → desc im (d - o) u = desc im' (d - o) u := by
    intro u
    induction u with
    | zero => intro _; rfl
    | succ u ih =>
      intro hu
      rw [desc, desc, ih (by omega)]
      have := congrFun h ⟨u, by omega⟩
      simp only [res] at this
      rw [this]
  rw [address_rank, address_rank, hd p le_rfl]

theorem order_eq {p o o' : Nat} {im im' : Nat → Nat} (hc : Comp p o im) (hc' : Comp p o' im') (h : res p im = res p im') : o = o' := by
  have h1 := mem_A.mp (res_mem hc)
  have h2 := mem_A.mp (res_mem hc')
  rw [h] at h1
  omega

theorem sum_flatMap_range' {α : Type} (n s : Nat) (g : Nat → List α) (w : α → ℝ) :
    (((List.range' s n).flatMap g).map w).sum = ∑ o ∈ Finset.Ico s (s + n), ((g o).map w).sum := by
  induction n with
  | zero => simp
  | succ n ih =>
    rw [List.range'_1_concat, List.flatMap_append, List.map_append, List.sum_append, ih, ← Nat.add_assoc, Finset.sum_Ico_succ_top (by omega)]
    simp

theorem sum_flatMap_range {α : Type} (n : Nat) (g : Nat → List α) (w : α → ℝ) :
    (((List.range n).flatMap g).map w).sum = ∑ o ∈ Finset.range n, ((g o).map w).sum := by
  induction n with
  | zero => simp
  | succ n ih => rw [List.range_succ, List.flatMap_append, List.map_append, List.sum_append, ih, Finset.sum_range_succ]; simp

theorem items_sum {p d : Nat} (hp : 1 ≤ p) {im jm : Nat → Nat} {o : Nat} (hc : Comp p o im) (h1 : 1 ≤ o) (hd : o ≤ d) (f : Nat → ℝ) :
    ((itemsOf p d jm).map fun q => if q.a = address p d im o then f q.b * (q.c : ℝ) else 0).sum = f o * (cOf d (res p im) (res p jm) : ℝ) := by
  unfold itemsOf
  rw [sum_flatMap_range']
  have h2 : ∀ oi ∈ Finset.Ico 1 (1 + d), ((((List.range (num p oi)).flatMap fun t => itemOf p d jm oi (seqM p oi t)).map
      fun q => if q.a = address p d im o then f q.b * (q.c : ℝ) else 0).sum) =
      ∑ i ∈ A p oi, if i = res p im then f oi * (cOf d i (res p jm) : ℝ) else 0 := by
    intro oi hoi
    have hoi := Finset.mem_Ico.mp hoi
    rw [sum_flatMap_range, ← seq_sum hp]
    refine Finset.sum_congr rfl fun t ht => ?_
    have hs := (seq_facts (o := oi) hp t (Finset.mem_range.mp ht)).1
    have hiff : address p d (seqM p oi t) oi = address p d im o ↔ res p (seqM p oi t) = res p im := by
      constructor
      · exact address_inj hs hc (by omega) hd
      · intro h
        have := order_eq hs hc h
        subst this
        exact address_congr h
    unfold itemOf
    by_cases h0 : cOf d (res p (seqM p oi t)) (res p jm) = 0
    · rw [if_neg (by simpa using h0), h0]; simp
    · rw [if_pos h0]
      simp only [List.map_cons, List.map_nil, List.sum_cons, List.sum_nil, add_zero, hiff]
  rw [Finset.sum_congr rfl h2]
  have h3 : ∀ oi ∈ Finset.Ico 1 (1 + d), (∑ i ∈ A p oi, if i = res p im then f oi * (cOf d i (res p jm) : ℝ) else 0) =
      if oi = o then f o * (cOf d (res p im) (res p jm) : ℝ) else 0 := by
    intro oi _
    rw [Finset.sum_ite_eq' (A p oi)]
    have hm := mem_A.mp (res_mem hc)
    by_cases he : oi = o
    · subst he; rw [if_pos (res_mem hc), if_pos rfl]
    · rw [if_neg he, if_neg]
      intro hx
      exact he ((mem_A.mp hx).symm.trans hm)
  rw [Finset.sum_congr rfl h3, Finset.sum_ite_eq', if_pos (Finset.mem_Ico.mpr ⟨h1, by omega⟩)]

end Verif.Num.TensorCoef
