import Verif.Num.TensorTable

/-! # The index tuples of `tensor_eval` run through the multi-indices in the order of `coeff` -/
set_option linter.all false
namespace Verif.Num.TensorCoef

/-- How often `v + 1` occurs. -/
def cntI (d : Nat) (it : Nat → Nat) (v : Nat) : Nat := ∑ l ∈ Finset.range d, if it l = v + 1 then 1 else 0

theorem convert_eq (d : Nat) (it : Nat → Nat) : convert d it = cntI d it := by
  unfold convert
  induction d with
  | zero => funext v; simp [cntI]
  | succ d ih =>
    rw [List.range_succ, List.foldl_append, ih]
    simp only [List.foldl_cons, List.foldl_nil]
    funext v
    have e : cntI (d + 1) it v = cntI d it v + if it d = v + 1 then 1 else 0 := Finset.sum_range_succ _ _
    rw [e]
    split
    · next h =>
      simp only [put_apply]
      split_ifs with h1 h2 h2
      · rw [← h1]
      · omega
      · omega
      · rfl
    · next h =>
      rw [if_neg (by omega)]; rfl

/-- Nondecreasing tuples of indices. -/
structure ItOk (p d : Nat) (it : Nat → Nat) : Prop where
  pos : ∀ l, l < d → 1 ≤ it l
  le : ∀ l, l < d → it l ≤ p
  mono : ∀ l l', l ≤ l' → l' < d → it l ≤ it l'

theorem itStep_eq {p d : Nat} {it : Nat → Nat} (hd : 1 ≤ d) (h : ItOk p d it) {q : Nat} (hq : q < d) (hqp : it q < p)
    (hqg : ∀ l, q < l → l < d → it l = p) : ∀ l, l < d → itStep p d it l = if l < q then it l else it q + 1 := by
  -- carry
  have c1 : ∀ (n : Nat) (a : Nat → Nat), n + 1 ≤ d → (∀ l, n ≤ l → l < d → a l = it l + if q ≤ l then 1 else 0) → (∀ l, l < n → a l = it l) →
      ∀ l, l < d → (List.range n).reverse.foldl (fun it j => put it j (it j + it (j + 1) / (p + 1))) a l = it l + if q ≤ l then 1 else 0 := by
    intro n
    induction n with
    | zero => intro a _ h1 _ l hl; simpa using h1 l (Nat.zero_le _) hl
    | succ n ih =>
      intro a hn h1 h2
      rw [List.range_succ, List.reverse_append]
      simp only [List.reverse_cons, List.reverse_nil, List.nil_append, List.singleton_append, List.foldl_cons]
      have hv : a n + a (n + 1) / (p + 1) = it n + if q ≤ n then 1 else 0 := by
        rw [h2 n (by omega), h1 (n + 1) le_rfl (by omega)]
        congr 1
        by_cases hqn : q ≤ n
        · rw [if_pos hqn, if_pos (by omega), hqg (n + 1) (by omega) (by omega)]
          exact Nat.div_self (by omega)
        · rw [if_neg hqn]
          refine Nat.div_eq_of_lt ?_
          split
          · have : n + 1 = q := by omega
            rw [this]; omega
          · have := h.le (n + 1) (by omega); omega
      refine ih _ (by omega) (fun l hl hld => ?_) (fun l hl => ?_)
      · simp only [put_apply]
        split
        · next e => subst e; exact hv
        · exact h1 l (by omega) hld
      · simp only [put_apply]
        rw [if_neg (by omega)]
        exact h2 l (by omega)
  have c2 := c1 (d - 1) (put it (d - 1) (it (d - 1) + 1)) (by omega) (fun l hl hld => by
      obtain rfl : l = d - 1 := by omega
      simp only [put_apply, if_true]
      rw [if_pos (by omega)]) (fun l hl => by simp only [put_apply]; rw [if_neg (by omega)])
  set a := (List.range (d - 1)).reverse.foldl (fun it j => put it j (it j + it (j + 1) / (p + 1))) (put it (d - 1) (it (d - 1) + 1)) with ha
  -- second loop
  have c3 : ∀ n, n + 1 ≤ d → ∀ l, l < d → (List.range' 1 n).foldl (fun it j => if it j > p then put it j (it (j - 1)) else it) a l =
      if l ≤ n then (if l < q then it l else it q + 1) else it l + if q ≤ l then 1 else 0 := by
    intro n
    induction n with
    | zero =>
      intro _ l hl
      simp only [List.range'_zero, List.foldl_nil]
      rw [c2 l hl]
      by_cases h0 : l ≤ 0
      · obtain rfl : l = 0 := by omega
        rw [if_pos h0]
        by_cases hq0 : q = 0
        · subst hq0; simp
        · rw [if_neg (by omega), if_pos (by omega)]; rfl
      · rw [if_neg h0]
    | succ n ih =>
      intro hn l hl
      rw [List.range'_1_concat, List.foldl_append]
      simp only [List.foldl_cons, List.foldl_nil]
      set b := (List.range' 1 n).foldl (fun it j => if it j > p then put it j (it (j - 1)) else it) a with hb
      have hb' := ih (by omega)
      have v1 := hb' (1 + n) (by omega)
      rw [if_neg (by omega)] at v1
      have v2 := hb' n (by omega)
      rw [if_pos le_rfl] at v2
      by_cases hgt : b (1 + n) > p
      · rw [if_pos hgt]
        have hqn : q ≤ n := by
          by_contra hc
          rw [v1] at hgt
          by_cases he : q = 1 + n
          · rw [if_pos (by omega), ← he] at hgt; omega
          · rw [if_neg (show ¬ q ≤ 1 + n by omega)] at hgt
            have := h.le (1 + n) (by omega); omega
        simp only [put_apply]
        by_cases hl1 : l = 1 + n
        · rw [if_pos hl1, if_pos (by omega), show 1 + n - 1 = n by omega, v2, if_neg (by omega), if_neg (by omega)]
        · rw [if_neg hl1, hb' l hl]
          split_ifs <;> omega
      · rw [if_neg hgt, hb' l hl]
        by_cases hl1 : l = 1 + n
        · subst hl1
          have g1 : q ≤ 1 + n → q ≠ 1 + n → it (1 + n) = p := fun h1 h2 => hqg (1 + n) (by omega) (by omega)
          have g2 : q = 1 + n → it q = it (1 + n) := fun h => by rw [h]
          rw [v1] at hgt
          split_ifs at hgt ⊢ <;> omega
        · split_ifs <;> omega
  intro l hl
  have := c3 (d - 1) (by omega) l hl
  rw [if_pos (by omega)] at this
  exact this

/-- The tuple of pass `t`. -/
def itq (p d : Nat) : Nat → Nat → Nat
  | 0 => itStep p d (itInit d)
  | t + 1 => itStep p d (itq p d t)

theorem cntI_congr {d : Nat} {f g : Nat → Nat} (h : ∀ l, l < d → f l = g l) : cntI d f = cntI d g := by
  funext v
  exact Finset.sum_congr rfl fun l hl => by rw [h l (Finset.mem_range.mp hl)]

theorem cntI_split {d q : Nat} (hq : q < d) (f : Nat → Nat) (v : Nat) : cntI d f v = cntI q f v + (if f q = v + 1 then 1 else 0) +
    ∑ l ∈ Finset.range (d - q - 1), if f (q + 1 + l) = v + 1 then 1 else 0 := by
  unfold cntI
  rw [show d = q + 1 + (d - q - 1) by omega, Finset.sum_range_add, Finset.sum_range_succ]
  congr 2
  congr 1
  omega

theorem itq_first {p d : Nat} (hp : 1 ≤ p) (hd : 1 ≤ d) : ∀ l, l < d → itq p d 0 l = 1 := by
  have c1 : ∀ (n : Nat) (a : Nat → Nat), (∀ l, l < d → a l = 1) → n + 1 ≤ d →
      ∀ l, l < d → (List.range n).reverse.foldl (fun it j => put it j (it j + it (j + 1) / (p + 1))) a l = 1 := by
    intro n
    induction n with
    | zero => intro a h _; simpa using h
    | succ n ih =>
      intro a h hn
      rw [List.range_succ, List.reverse_append]
      simp only [List.reverse_cons, List.reverse_nil, List.nil_append, List.singleton_append, List.foldl_cons]
      refine ih _ (fun l hl => ?_) (by omega)
      simp only [put_apply]
      split
      · rw [h n (by omega), h (n + 1) (by omega), Nat.div_eq_of_lt (by omega)]
      · exact h l hl
  have c2 : ∀ (L : List Nat) (a : Nat → Nat), (∀ l ∈ L, l < d) → (∀ l, l < d → a l = 1) →
      ∀ l, l < d → L.foldl (fun it j => if it j > p then put it j (it (j - 1)) else it) a l = 1 := by
    intro L
    induction L with
    | nil => intro a _ h; simpa using h
    | cons x L ih =>
      intro a hL h
      simp only [List.foldl_cons]
      rw [if_neg (by rw [h x (hL x (by simp))]; omega)]
      exact ih a (fun l hl => hL l (by simp [hl])) h
  refine c2 _ _ (fun l hl => ?_) (c1 (d - 1) _ (fun l hl => ?_) (by omega))
  · simp only [List.mem_range'_1] at hl; omega
  · simp only [put_apply, itInit]
    split_ifs <;> omega

/-- Pass `t` of the loop in `tensor_eval` uses the multi-index of the `t`-th list of `coeff`. -/
theorem itq_eq {p d : Nat} (hp : 1 ≤ p) (hd : 1 ≤ d) : ∀ t, t < num p d → ItOk p d (itq p d t) ∧ cntI d (itq p d t) = seqM p d t := by
  intro t
  induction t with
  | zero =>
    intro _
    have h1 := itq_first hp hd
    refine ⟨⟨fun l hl => by rw [h1 l hl], fun l hl => by rw [h1 l hl]; exact hp, fun l l' hl hl' => by rw [h1 l (by omega), h1 l' hl']⟩, ?_⟩
    funext v
    rw [cntI_congr (g := fun _ => 1) h1]
    simp only [cntI, seqM, first, put_apply]
    by_cases hv : v = 0
    · subst hv; simp
    · rw [if_neg hv]
      exact Finset.sum_eq_zero fun l _ => if_neg (by omega)
  | succ t ih =>
    intro ht
    obtain ⟨h1, h2⟩ := ih (by omega)
    obtain ⟨hc, _, hlast, hnext⟩ := seq_facts (o := d) hp t (by omega)
    have hnl : ¬ isLast p d (seqM p d t) := fun h => by have := hlast.mp h; omega
    simp only [isLast, not_or] at hnl
    obtain ⟨hl, hp1⟩ := hnl
    set it := itq p d t with hit
    have hnx := hnext (by omega)
    obtain ⟨r, r1, r2, r3, r4⟩ := next_eq (by omega) hc hl
    rw [r4] at hnx
    -- the position to be advanced
    have h0 : it 0 < p := by
      by_contra hge
      apply hl
      rw [← h2]
      have : ∀ l, l < d → it l = p := fun l hld => by
        have a1 := h1.mono 0 l (Nat.zero_le _) hld
        have a2 := h1.le l hld
        omega
      rw [cntI_congr (g := fun _ => p) this]
      simp only [cntI]
      rw [Finset.sum_congr rfl fun l _ => if_pos (show p = p - 1 + 1 by omega)]
      simp
    obtain ⟨q, hqd, hqp, hqg⟩ : ∃ q, q < d ∧ it q < p ∧ ∀ l, q < l → l < d → it l = p := by
      refine ⟨Nat.findGreatest (fun l => it l < p) (d - 1), ?_, ?_, ?_⟩
      · have := Nat.findGreatest_le (P := fun l => it l < p) (d - 1); omega
      · exact Nat.findGreatest_spec (P := fun l => it l < p) (Nat.zero_le (d - 1)) h0
      · intro l hl hld
        have := Nat.findGreatest_is_greatest (P := fun l => it l < p) hl (by omega)
        have := h1.le l hld
        omega
    have hs := itStep_eq hd h1 hqd hqp hqg
    have hF : ∀ l, l < d → itq p d (t + 1) l = if l < q then it l else it q + 1 := hs
    refine ⟨⟨fun l hld => ?_, fun l hld => ?_, fun l l' hll hld => ?_⟩, ?_⟩
    · rw [hF l hld]
      have := h1.pos l hld
      split <;> omega
    · rw [hF l hld]
      have := h1.le l hld
      split <;> omega
    · rw [hF l (by omega), hF l' hld]
      have a1 := h1.mono l l' hll hld
      have a2 : l < q → it l ≤ it q := fun h => h1.mono l q h.le hqd
      split_ifs <;> first | exact a1 | omega | (have := a2 (by assumption); omega)
    · -- counts
      have old : ∀ v, seqM p d t v = cntI q it v + (if it q = v + 1 then 1 else 0) + (if p = v + 1 then d - q - 1 else 0) := by
        intro v
        rw [← h2, cntI_split hqd]
        congr 1
        rw [Finset.sum_congr rfl (g := fun _ => if p = v + 1 then 1 else 0) fun l hl => by
          rw [hqg (q + 1 + l) (by omega) (by have := Finset.mem_range.mp hl; omega)]]
        split <;> simp
      have new : ∀ v, cntI d (itq p d (t + 1)) v = cntI q it v + (if it q = v then d - q else 0) := by
        intro v
        rw [cntI_congr hF, cntI_split hqd, add_assoc]
        congr 1
        · unfold cntI
          exact Finset.sum_congr rfl fun l hl => by beta_reduce; rw [if_pos (Finset.mem_range.mp hl)]
        · rw [Finset.sum_congr rfl (g := fun _ => if it q = v then 1 else 0) fun l hl => by
            beta_reduce
            rw [if_neg (show ¬ q + 1 + l < q by omega)]
            simp]
          simp only [lt_irrefl, if_false, Nat.add_right_cancel_iff]
          split <;> simp
          omega
      have small : ∀ v, it q ≤ v → cntI q it v = 0 := by
        intro v hv
        refine Finset.sum_eq_zero fun l hl => if_neg ?_
        have hl := Finset.mem_range.mp hl
        have := h1.mono l q hl.le hqd
        omega
      have hw := h1.pos q hqd
      have hr : r + 1 = it q := by
        rcases lt_trichotomy (r + 1) (it q) with h | h | h
        · exfalso
          have := r3 (it q - 1) (by omega) (by omega)
          rw [old, if_pos (by omega)] at this
          omega
        · exact h
        · exfalso
          apply r2
          rw [old, small r (by omega), if_neg (by omega), if_neg (by omega)]
      funext v
      have hnx' : seqM p d (t + 1) v = _ := congrFun (Except.ok.inj hnx).symm v
      rw [new, hnx']
      have he : seqM p d t (p - 1) = d - q - 1 := by
        rw [old, small _ (by omega), if_neg (by omega), if_pos (by omega)]; omega
      rw [he]
      have ov := old v
      have sm := small v
      have sr : v = r → seqM p d t r = seqM p d t v := fun h => by rw [h]
      split_ifs at ov ⊢ <;> omega

end Verif.Num.TensorCoef
