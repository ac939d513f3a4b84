import Verif.AD.HoRevVec
import Verif.AD.HosLoops
import Verif.AD.ZosFos

/-! Loops of `hov_ti_reverse`/`hos_ov_reverse` over the rows: what one pass reads and writes. -/
set_option linter.all false
namespace Verif.AD
open Elem

variable {K : Type} [Scalar K]

/-- The rows in `S` agree in their first `k` entries. -/
def Agr (k : Nat) (S : Row → Prop) (M M' : Row → Nat → K) : Prop := ∀ q, S q → ∀ i, i < k → M q i = M' q i

theorem Agr.mono {k : Nat} {S S' : Row → Prop} {M M' : Row → Nat → K} (h : Agr k S M M') (hs : ∀ q, S' q → S q) : Agr k S' M M' :=
  fun q hq => h q (hs q hq)

theorem Agr.wr {k : Nat} {S : Row → Prop} {M M' : Row → Nat → K} (h : Agr k S M M') (c : Row) (i : Nat) {v v' : K} (hv : v = v') :
    Agr k S (wrR M c i v) (wrR M' c i v') := by
  intro q hq j hj
  simp only [wrR]
  split_ifs
  · exact hv
  · exact h q hq j hj

theorem Agr.loop {k n : Nat} {S : Row → Prop} {f g : Nat → (Row → Nat → K) → Row → Nat → K} {M M' : Row → Nat → K} (h : Agr k S M M')
    (hf : ∀ i M M', i < n → Agr k S M M' → Agr k S (f i M) (g i M')) : Agr k S (forUp n f M) (forUp n g M') := by
  induction n with
  | zero => exact h
  | succ n ih =>
    rw [forUp_succ, forUp_succ]
    exact hf n _ _ (by omega) (ih fun i M M' hi => hf i M M' (by omega))

theorem Agr.loopDown {k n : Nat} {S : Row → Prop} {f : Nat → (Row → Nat → K) → Row → Nat → K} {M M' : Row → Nat → K} (h : Agr k S M M')
    (hf : ∀ i M M', i < n → Agr k S M M' → Agr k S (f i M) (f i M')) : Agr k S (forDown n f M) (forDown n f M') := by
  unfold forDown
  exact h.loop fun i M M' hi hM => hf _ _ _ (by omega) hM

/-- `S` and the row `c`. -/
def ins (c : Row) (S : Row → Prop) : Row → Prop := fun q => q = c ∨ S q

/-- A loop that computes row `c` from the lowest entry upwards. -/
theorem Agr.fill {k n : Nat} {S : Row → Prop} {c : Row} {f : Nat → (Row → Nat → K) → Row → Nat → K} {M M' : Row → Nat → K} (hn : k ≤ n)
    (h : Agr k S M M')
    (hf : ∀ i M M', i < n → Agr k S M M' → (∀ j, j < i → M c j = M' c j) →
      Agr k S (f i M) (f i M') ∧ ∀ j, j < i + 1 → f i M c j = f i M' c j) :
    Agr k (ins c S) (forUp n f M) (forUp n f M') := by
  have key : Agr k S (forUp n f M) (forUp n f M') ∧ ∀ j, j < n → forUp n f M c j = forUp n f M' c j := by
    clear hn
    induction n with
    | zero => exact ⟨h, fun j hj => by omega⟩
    | succ n ih =>
      obtain ⟨h1, h2⟩ := ih fun i M M' hi => hf i M M' (by omega)
      rw [forUp_succ, forUp_succ]
      exact hf n _ _ (by omega) h1 h2
  intro q hq j hj
  rcases hq with rfl | hq
  · exact key.2 j (by omega)
  · exact key.1 q hq j hj

/-- The same from the highest entry downwards, the value of an entry not depending on the row. -/
theorem Agr.fillDown {k : Nat} {S : Row → Prop} {c : Row} {φ : Nat → (Row → Nat → K) → K} {M M' : Row → Nat → K}
    (h : Agr k S M M') (hφ : ∀ i M M', i < k → Agr k S M M' → φ i M = φ i M') :
    Agr k (ins c S) (forDown k (fun i M => wrR M c i (φ i M)) M) (forDown k (fun i M => wrR M c i (φ i M)) M') := by
  have key : ∀ m, m ≤ k → Agr k S (forUp m (fun q M => wrR M c (k - 1 - q) (φ (k - 1 - q) M)) M) (forUp m (fun q M => wrR M c (k - 1 - q) (φ (k - 1 - q) M)) M') ∧
      ∀ j, k - m ≤ j → j < k → forUp m (fun q M => wrR M c (k - 1 - q) (φ (k - 1 - q) M)) M c j = forUp m (fun q M => wrR M c (k - 1 - q) (φ (k - 1 - q) M)) M' c j := by
    intro m hm
    induction m with
    | zero => exact ⟨h, fun j hj hk => by omega⟩
    | succ m ih =>
      obtain ⟨h1, h2⟩ := ih (by omega)
      rw [forUp_succ, forUp_succ]
      have e := hφ (k - 1 - m) _ _ (by omega) h1
      refine ⟨h1.wr c _ e, fun j hj hk => ?_⟩
      simp only [wrR, true_and]
      split_ifs with hji
      · exact e
      · exact h2 j (by omega) hk
  intro q hq j hj
  rcases hq with rfl | hq
  · exact (key k (le_refl _)).2 j (by omega) hj
  · exact (key k (le_refl _)).1 q hq j hj

theorem Agr.inner {k i : Nat} {S : Row → Prop} {a b : Row} {M M' : Row → Nat → K} (h : Agr k S M M') (ha : S a) (hb : S b) (hi : i < k) {t t' : K}
    (ht : t = t') : innerR M a b i t = innerR M' a b i t' := by
  subst ht
  unfold innerR
  have : ∀ (L : List Nat) (t : K), (∀ j ∈ L, j ≤ i) →
      L.foldl (fun t j => t + M a (i - j) * M b j) t = L.foldl (fun t j => t + M' a (i - j) * M' b j) t := by
    intro L
    induction L with
    | nil => intro t _; rfl
    | cons j L ih =>
      intro t hL
      have hj := hL j (List.mem_cons_self ..)
      simp only [List.foldl_cons]
      rw [h a ha (i - j) (by omega), h b hb j (by omega)]
      exact ih _ fun j' hj' => hL j' (List.mem_cons_of_mem _ hj')
  refine this _ _ fun j hj => ?_
  rw [List.mem_range'] at hj
  omega

theorem wr_row {n i : Nat} {c : Row} {M M' : Row → Nat → K} {v v' : K} (hv : v = v') (h : ∀ j, j < n → M c j = M' c j) :
    ∀ j, j < n → wrR M c i v c j = wrR M' c i v' c j := by
  intro j hj
  simp only [wrR, true_and]
  split_ifs
  · exact hv
  · exact h j hj

section prims
variable {k : Nat} {S : Row → Prop} {M M' : Row → Nat → K} {a b c : Row}

theorem Agr.conv (h : Agr k S M M') (ha : S a) (hb : S b) : Agr k (ins c S) (convR k a b c M) (convR k a b c M') :=
  h.fillDown fun i M M' hi h => h.inner ha hb hi (by rw [h a ha i hi, h b hb 0 (by omega)])
theorem Agr.inconv (h : Agr k S M M') (ha : S a) (hb : S b) (hc : S c) : Agr k S (inconvR k a b c M) (inconvR k a b c M') :=
  h.loopDown fun i M M' hi h => h.wr c i (by
    rw [h c hc i hi, h.inner ha hb hi (by rw [h a ha i hi, h b hb 0 (by omega)])])
theorem Agr.deconv (h : Agr k S M M') (ha : S a) (hb : S b) (hc : S c) : Agr k S (deconvR k a b c M) (deconvR k a b c M') :=
  h.loopDown fun i M M' hi h => h.wr c i (by
    rw [h c hc i hi, h.inner ha hb hi (by rw [h a ha i hi, h b hb 0 (by omega)])])
theorem Agr.inconv0 (h : Agr k S M M') (ha : S a) (hb : S b) (hc : S c) : Agr k S (inconv0R k a b c M) (inconv0R k a b c M') :=
  h.loopDown fun i M M' hi h => by
    have h1 := h.wr a i (rfl : (0 : K) = 0)
    exact h1.wr c i (by rw [h1 c hc i hi, h1.inner ha hb hi (by rw [h a ha i hi, h b hb 0 (by omega)])])
theorem Agr.deconv0 (h : Agr k S M M') (ha : S a) (hb : S b) (hc : S c) : Agr k S (deconv0R k a b c M) (deconv0R k a b c M') :=
  h.loopDown fun i M M' hi h => by
    have h1 := h.wr a i (rfl : (0 : K) = 0)
    exact h1.wr c i (by rw [h1 c hc i hi, h1.inner ha hb hi (by rw [h a ha i hi, h b hb 0 (by omega)])])
theorem Agr.setRow (h : Agr k S M M') (n : Nat) (v : Nat → K) : Agr k S (setRowR n c v M) (setRowR n c v M') :=
  h.loop fun i M M' hi h => h.wr c i rfl
theorem Agr.map (h : Agr k S M M') (hc : S c) (f : K → K) : Agr k S (mapR k c f M) (mapR k c f M') :=
  h.loop fun i M M' hi h => h.wr c i (by rw [h c hc i hi])
theorem Agr.acc (h : Agr k S M M') (ha : S a) (hb : S b) (f : K → K → K) : Agr k S (accR' k a b f M) (accR' k a b f M') :=
  h.loop fun i M M' hi h => h.wr a i (by rw [h a ha i hi, h b hb i hi])
theorem Agr.move (h : Agr k S M M') (ha : S a) (hb : S b) : Agr k S (moveR k a b M) (moveR k a b M') :=
  h.loop fun i M M' hi h => (h.wr a i (by rw [h a ha i hi, h b hb i hi])).wr b i rfl
theorem Agr.spread (h : Agr k S M M') (ha : S a) (hb : S b) (f : K → K → K) : Agr k S (spreadR k a b f M) (spreadR k a b f M') :=
  h.loop fun i M M' hi h => by
    have h1 := h.wr b i (rfl : (0 : K) = 0)
    exact h1.wr a i (by rw [h1 a ha i hi, h b hb i hi])
theorem Agr.spread2 (h : Agr k S M M') (ha : S a) (hb : S b) (hc : S c) (f g : K → K → K) :
    Agr k S (spread2R k a b c f g M) (spread2R k a b c f g M') :=
  h.loop fun i M M' hi h => by
    have h1 := h.wr c i (rfl : (0 : K) = 0)
    have h2 := h1.wr a i (v := f (wrR M c i 0 a i) (M c i)) (v' := f (wrR M' c i 0 a i) (M' c i)) (by rw [h1 a ha i hi, h c hc i hi])
    exact h2.wr b i (by rw [h2 b hb i hi, h c hc i hi])
theorem Agr.cpz (h : Agr k S M M') (ha : S a) : Agr k (ins c S) (cpzR k a c M) (cpzR k a c M') :=
  h.fill (le_refl _) fun i M M' hi h hc => by
    have h1 := (h.wr c i (h a ha i hi)).wr a i (rfl : (0 : K) = 0)
    refine ⟨h1, fun j hj => ?_⟩
    simp only [wrR, true_and]
    split_ifs with e1 e2
    · rfl
    · exact h a ha i hi
    · exact hc j (by omega)
theorem Agr.copy (h : Agr k S M M') (ha : S a) : Agr k (ins c S) (copyR k a c M) (copyR k a c M') :=
  h.fill (le_refl _) fun i M M' hi h hc => by
    refine ⟨h.wr c i (h a ha i hi), fun j hj => ?_⟩
    simp only [wrR, true_and]
    split_ifs with e1
    · exact h a ha i hi
    · exact hc j (by omega)

theorem Agr.divInner {i : Nat} (h : Agr k S M M') (hb : S b) (hi : i < k) (hbc : b ≠ c) (hc : ∀ j, j < i + 1 → M c j = M' c j) :
    Agr k S (divInnerR b c i M) (divInnerR b c i M') ∧ ∀ j, j < i + 1 → divInnerR b c i M c j = divInnerR b c i M' c j := by
  unfold divInnerR
  have : ∀ m, m ≤ i → Agr k S (forUp m (fun j M => wrR M c i (M c i - M c j * M b (i - j))) M) (forUp m (fun j M => wrR M c i (M c i - M c j * M b (i - j))) M') ∧
      ∀ j, j < i + 1 → forUp m (fun j M => wrR M c i (M c i - M c j * M b (i - j))) M c j =
        forUp m (fun j M => wrR M c i (M c i - M c j * M b (i - j))) M' c j := by
    intro m hm
    induction m with
    | zero => exact ⟨h, hc⟩
    | succ m ih =>
      obtain ⟨h1, h2⟩ := ih (by omega)
      rw [forUp_succ, forUp_succ]
      have e : forUp m (fun j M => wrR M c i (M c i - M c j * M b (i - j))) M c i -
          forUp m (fun j M => wrR M c i (M c i - M c j * M b (i - j))) M c m *
          forUp m (fun j M => wrR M c i (M c i - M c j * M b (i - j))) M b (i - m) =
          forUp m (fun j M => wrR M c i (M c i - M c j * M b (i - j))) M' c i -
          forUp m (fun j M => wrR M c i (M c i - M c j * M b (i - j))) M' c m *
          forUp m (fun j M => wrR M c i (M c i - M c j * M b (i - j))) M' b (i - m) := by
        rw [h2 i (by omega), h2 m (by omega), h1 b hb (i - m) (by omega)]
      refine ⟨h1.wr c i e, fun j hj => ?_⟩
      simp only [wrR, true_and]
      split_ifs
      · exact e
      · exact h2 j hj
  exact this i (le_refl _)

theorem Agr.recipr (h : Agr k S M M') (hb : S b) (hbc : b ≠ c) (v : K) : Agr k (ins c S) (reciprR k v b c M) (reciprR k v b c M') := by
  by_cases hk : k = 0
  · intro q _ i hi; omega
  unfold reciprR
  have e0 : 1 / M b 0 = 1 / M' b 0 := by rw [h b hb 0 (by omega)]
  have key : ∀ m, m + 1 ≤ k → ∀ (M1 M1' : Row → Nat → K), Agr k S M1 M1' → (∀ j, j < 1 → M1 c j = M1' c j) →
      Agr k S (forUp m (fun i M2 => wrR (divInnerR b c (i + 1) (wrR M2 c (i + 1) 0)) c (i + 1)
          (divInnerR b c (i + 1) (wrR M2 c (i + 1) 0) c (i + 1) * (1 / M b 0))) M1)
        (forUp m (fun i M2 => wrR (divInnerR b c (i + 1) (wrR M2 c (i + 1) 0)) c (i + 1)
          (divInnerR b c (i + 1) (wrR M2 c (i + 1) 0) c (i + 1) * (1 / M' b 0))) M1') ∧
      ∀ j, j < m + 1 → forUp m (fun i M2 => wrR (divInnerR b c (i + 1) (wrR M2 c (i + 1) 0)) c (i + 1)
          (divInnerR b c (i + 1) (wrR M2 c (i + 1) 0) c (i + 1) * (1 / M b 0))) M1 c j =
        forUp m (fun i M2 => wrR (divInnerR b c (i + 1) (wrR M2 c (i + 1) 0)) c (i + 1)
          (divInnerR b c (i + 1) (wrR M2 c (i + 1) 0) c (i + 1) * (1 / M' b 0))) M1' c j := by
    intro m hm M1 M1' h1 h2
    induction m with
    | zero => exact ⟨h1, h2⟩
    | succ m ih =>
      obtain ⟨g1, g2⟩ := ih (by omega)
      rw [forUp_succ, forUp_succ]
      have w := g1.wr c (m + 1) (rfl : (0 : K) = 0)
      obtain ⟨d1, d2⟩ := w.divInner (i := m + 1) hb (by omega) hbc (c := c) (fun j hj => by
        simp only [wrR, true_and]
        split_ifs with e
        · rfl
        · exact g2 j (by omega))
      have e := d2 (m + 1) (by omega)
      exact ⟨d1.wr c _ (by rw [e, e0]), wr_row (by rw [e, e0]) fun j hj => d2 j (by omega)⟩
  have w0 := h.wr c 0 (v := v * (1 / M b 0)) (v' := v * (1 / M' b 0)) (by rw [e0])
  have := key (k - 1) (by omega) _ _ w0 (fun j hj => by
    have : j = 0 := by omega
    subst this
    simp only [wrR, and_self, if_true]; rw [e0])
  intro q hq j hj
  rcases hq with rfl | hq
  · exact this.2 j (by omega)
  · exact this.1 q hq j hj

theorem Agr.divide (h : Agr k S M M') (ha : S a) (hb : S b) (hbc : b ≠ c) : Agr k (ins c S) (divideR k a b c M) (divideR k a b c M') := by
  by_cases hk : k = 0
  · intro q _ i hi; omega
  unfold divideR
  have e0 : 1 / M b 0 = 1 / M' b 0 := by rw [h b hb 0 (by omega)]
  simp only [e0]
  refine h.fill (le_refl _) fun i M M' hi h hc => ?_
  have w := h.wr c i (h a ha i hi)
  obtain ⟨d1, d2⟩ := w.divInner (i := i) hb hi hbc (c := c) (fun j hj => by
    simp only [wrR, true_and]
    split_ifs with e
    · exact h a ha i hi
    · exact hc j (by omega))
  have e := d2 i (by omega)
  exact ⟨d1.wr c _ (by rw [e]), wr_row (by rw [e]) fun j hj => d2 j (by omega)⟩
end prims

/-- Rows that a pass only reads. -/
def stab : Row → Prop
  | .T _ => True
  | .tt2 => True
  | _ => False

/-- `M'` differs from `M` only in rows that a pass may write. -/
def FrT (M M' : Row → Nat → K) : Prop := ∀ q, stab q → M' q = M q

theorem FrT.refl (M : Row → Nat → K) : FrT M M := fun _ _ => rfl
theorem FrT.wr {M M' : Row → Nat → K} (h : FrT M M') {c : Row} (hc : ¬ stab c) (i : Nat) (v : K) : FrT M (wrR M' c i v) := by
  intro q hq
  funext j
  have : q ≠ c := fun e => hc (e ▸ hq)
  simp only [wrR, this, false_and, if_false]
  rw [h q hq]
theorem FrT.loop {n : Nat} {f : Nat → (Row → Nat → K) → Row → Nat → K} {M M' : Row → Nat → K} (h : FrT M M')
    (hf : ∀ i M', FrT M M' → FrT M (f i M')) : FrT M (forUp n f M') :=
  forUp_inv (fun _ M' => FrT M M') h fun i s _ hs => hf i s hs
theorem FrT.loopDown {n : Nat} {f : Nat → (Row → Nat → K) → Row → Nat → K} {M M' : Row → Nat → K} (h : FrT M M')
    (hf : ∀ i M', FrT M M' → FrT M (f i M')) : FrT M (forDown n f M') :=
  forDown_inv (fun _ M' => FrT M M') h fun i s _ hs => hf i s hs

section frames
variable {k : Nat} {M M' : Row → Nat → K} {a b c : Row}
theorem FrT.conv (h : FrT M M') (hc : ¬ stab c) : FrT M (convR k a b c M') := h.loopDown fun i M' h => h.wr hc _ _
theorem FrT.inconv (h : FrT M M') (hc : ¬ stab c) : FrT M (inconvR k a b c M') := h.loopDown fun i M' h => h.wr hc _ _
theorem FrT.deconv (h : FrT M M') (hc : ¬ stab c) : FrT M (deconvR k a b c M') := h.loopDown fun i M' h => h.wr hc _ _
theorem FrT.inconv0 (h : FrT M M') (ha : ¬ stab a) (hc : ¬ stab c) : FrT M (inconv0R k a b c M') := h.loopDown fun i M' h => (h.wr ha _ _).wr hc _ _
theorem FrT.deconv0 (h : FrT M M') (ha : ¬ stab a) (hc : ¬ stab c) : FrT M (deconv0R k a b c M') := h.loopDown fun i M' h => (h.wr ha _ _).wr hc _ _
theorem FrT.setRow (h : FrT M M') (hc : ¬ stab c) (n : Nat) (v : Nat → K) : FrT M (setRowR n c v M') := h.loop fun i M' h => h.wr hc _ _
theorem FrT.map (h : FrT M M') (hc : ¬ stab c) (f : K → K) : FrT M (mapR k c f M') := h.loop fun i M' h => h.wr hc _ _
theorem FrT.acc (h : FrT M M') (ha : ¬ stab a) (f : K → K → K) : FrT M (accR' k a b f M') := h.loop fun i M' h => h.wr ha _ _
theorem FrT.move (h : FrT M M') (ha : ¬ stab a) (hb : ¬ stab b) : FrT M (moveR k a b M') := h.loop fun i M' h => (h.wr ha _ _).wr hb _ _
theorem FrT.spread (h : FrT M M') (ha : ¬ stab a) (hb : ¬ stab b) (f : K → K → K) : FrT M (spreadR k a b f M') := h.loop fun i M' h => (h.wr hb _ _).wr ha _ _
theorem FrT.spread2 (h : FrT M M') (ha : ¬ stab a) (hb : ¬ stab b) (hc : ¬ stab c) (f g : K → K → K) : FrT M (spread2R k a b c f g M') :=
  h.loop fun i M' h => ((h.wr hc _ _).wr ha _ _).wr hb _ _
theorem FrT.cpz (h : FrT M M') (ha : ¬ stab a) (hc : ¬ stab c) : FrT M (cpzR k a c M') := h.loop fun i M' h => (h.wr hc _ _).wr ha _ _
theorem FrT.copy (h : FrT M M') (hc : ¬ stab c) : FrT M (copyR k a c M') := h.loop fun i M' h => h.wr hc _ _
theorem FrT.divInner (h : FrT M M') (hc : ¬ stab c) (i : Nat) : FrT M (divInnerR b c i M') := h.loop fun i M' h => h.wr hc _ _
theorem FrT.recipr (h : FrT M M') (hc : ¬ stab c) (v : K) : FrT M (reciprR k v b c M') :=
  (h.wr hc _ _).loop fun i M' h => ((h.wr hc _ _).divInner hc _).wr hc _ _
theorem FrT.divide (h : FrT M M') (hc : ¬ stab c) : FrT M (divideR k a b c M') :=
  h.loop fun i M' h => ((h.wr hc _ _).divInner hc _).wr hc _ _
end frames

/-- The rows of the results, and those with `rp_Ttemp2`. -/
def S0 : Row → Prop
  | .T _ => True
  | .A _ => True
  | _ => False
def S1 : Row → Prop
  | .tt2 => True
  | q => S0 q

/-- A pass: its effect depends only on the rows in `S`, and it leaves `rpp_T` alone. -/
structure RGood (k : Nat) (S : Row → Prop) (b : RBody K) : Prop where
  sim : ∀ fl M M', Agr k S M M' → (b fl M).1 = (b fl M').1 ∧ Agr k S0 (b fl M).2 (b fl M').2
  frame : ∀ fl M, FrT M (b fl M).2

theorem RGood.mk' {k : Nat} {S : Row → Prop} {g : (Nat → K) → Nat → K} {f : (Row → Nat → K) → Row → Nat → K}
    (h1 : ∀ M M', Agr k S M M' → Agr k S0 (f M) (f M')) (h2 : ∀ M, FrT M (f M)) : RGood k S (mkB g f) :=
  ⟨fun fl M M' h => ⟨rfl, h1 M M' h⟩, fun fl M => h2 M⟩

theorem RGood.weaken {k : Nat} {S S' : Row → Prop} {b : RBody K} (h : RGood k S b) (hs : ∀ q, S q → S' q) : RGood k S' b :=
  ⟨fun fl M M' hM => h.sim fl M M' (hM.mono hs), h.frame⟩

/-- Number of passes below `l` with a nonzero flag. -/
def cntF (V : RVS K) (r : Nat) : Nat → Nat
  | 0 => 0
  | l + 1 => if V.fl r l = 0 then cntF V r l else cntF V r l + 1

/-- The loop over the rows, pass by pass. -/
theorem rows_spec (c : RVCfg K) (r : Nat) (b : RBody K) (hb : ∀ fl M, FrT M (b fl M).2) (V : RVS K) :
    (∀ q, stab q → (V.rows c r b).M q = V.M q) ∧ (V.rows c r b).stk = V.stk ∧ (V.rows c r b).ii = V.ii ∧ (V.rows c r b).di = V.di ∧
    (V.rows c r b).Z = V.Z ∧ (V.rows c r b).nz = V.nz ∧
    ∀ l, l < c.p → ∃ M, (∀ q, stab q → M q = V.M q (c.adv * cntF V r l)) ∧ (∀ r', M (.A r') = V.M (.A r') l) ∧
      (∀ r', (V.rows c r b).fl r' l = if V.fl r l = 0 then V.fl r' l else (b (fun r => V.fl r l) M).1 r') ∧
      (∀ r', (V.rows c r b).M (.A r') l = if V.fl r l = 0 then V.M (.A r') l else (b (fun r => V.fl r l) M).2 (.A r')) := by
  have key : ∀ n, n ≤ c.p → ∀ vt, vt = forUp n (fun l (vt : RVS K × Nat) =>
      if vt.1.fl r l = 0 then vt else (vt.1.onRow l vt.2 b, vt.2 + c.adv)) (V, 0) →
      (∀ q, stab q → vt.1.M q = V.M q) ∧ vt.1.stk = V.stk ∧ vt.1.ii = V.ii ∧ vt.1.di = V.di ∧ vt.1.Z = V.Z ∧ vt.1.nz = V.nz ∧
      vt.2 = c.adv * cntF V r n ∧
      (∀ l, n ≤ l → (∀ r', vt.1.M (.A r') l = V.M (.A r') l) ∧ ∀ r', vt.1.fl r' l = V.fl r' l) ∧
      ∀ l, l < n → ∃ M, (∀ q, stab q → M q = V.M q (c.adv * cntF V r l)) ∧ (∀ r', M (.A r') = V.M (.A r') l) ∧
        (∀ r', vt.1.fl r' l = if V.fl r l = 0 then V.fl r' l else (b (fun r => V.fl r l) M).1 r') ∧
        (∀ r', vt.1.M (.A r') l = if V.fl r l = 0 then V.M (.A r') l else (b (fun r => V.fl r l) M).2 (.A r')) := by
    intro n hn
    induction n with
    | zero =>
      rintro vt rfl
      exact ⟨fun _ _ => rfl, rfl, rfl, rfl, rfl, rfl, by simp [cntF], fun l _ => ⟨fun _ => rfl, fun _ => rfl⟩, fun l hl => by omega⟩
    | succ n ih =>
      rintro vt rfl
      rw [forUp_succ]
      obtain ⟨i1, i2, i3, i4, i5, i6, i7, i8, i9⟩ := ih (by omega) _ rfl
      generalize forUp n (fun l (vt : RVS K × Nat) =>
        if vt.1.fl r l = 0 then vt else (vt.1.onRow l vt.2 b, vt.2 + c.adv)) (V, 0) = w at *
      have hfn := (i8 n (le_refl _)).2
      by_cases h0 : V.fl r n = 0
      · rw [if_pos (by rw [hfn]; exact h0)]
        refine ⟨i1, i2, i3, i4, i5, i6, by rw [i7]; simp [cntF, h0], fun l hl => i8 l (by omega), fun l hl => ?_⟩
        by_cases hln : l = n
        · subst hln
          refine ⟨fun q => match q with | .A r' => V.M (.A r') l | q => V.M q (c.adv * cntF V r l), ?_, fun r' => rfl,
            fun r' => by rw [if_pos h0]; exact hfn r', fun r' => by rw [if_pos h0]; exact (i8 l (le_refl _)).1 r'⟩
          intro q hq
          cases q <;> first | rfl | exact hq.elim
        · exact i9 l (by omega)
      · rw [if_neg (by rw [hfn]; exact h0)]
        have hfl : (fun r => w.1.fl r n) = fun r => V.fl r n := funext fun r' => hfn r'
        refine ⟨fun q hq => ?_, i2, i3, i4, i5, i6, ?_, fun l hl => ⟨fun r' => ?_, fun r' => ?_⟩, fun l hl => ?_⟩
        · funext d i
          simp only [RVS.onRow]
          split_ifs with e
          · rw [hb _ _ q hq]
            subst e
            simp only [RVS.view]
            rw [i1 q hq]
          · rw [i1 q hq]
        · simp only [i7, cntF, h0, if_false]; ring
        · funext i
          simp only [RVS.onRow]
          rw [if_neg (show ¬ l = plane n w.2 (.A r') from fun e => by have : l = n := e; omega)]
          exact congrFun ((i8 l (by omega)).1 r') i
        · simp only [RVS.onRow]
          rw [if_neg (by omega)]
          exact (i8 l (by omega)).2 r'
        · by_cases hln : l = n
          · subst hln
            refine ⟨w.1.view l w.2, fun q hq => ?_, fun r' => ?_, fun r' => ?_, fun r' => ?_⟩
            · funext i
              simp only [RVS.view]
              rw [i1 q hq]
              cases q with
              | T _ => simp only [plane]; rw [i7]
              | tt2 => simp only [plane]; rw [i7]
              | _ => exact hq.elim
            · funext i
              simp only [RVS.view, plane]
              exact congrFun ((i8 l (le_refl _)).1 r') i
            · simp only [RVS.onRow, if_true, if_neg h0]
              rw [hfl]
            · funext i
              simp only [RVS.onRow, plane, if_true, if_neg h0]
              rw [hfl]
          · obtain ⟨M, m1, m2, m3, m4⟩ := i9 l (by omega)
            refine ⟨M, m1, m2, fun r' => ?_, fun r' => ?_⟩
            · simp only [RVS.onRow]
              rw [if_neg hln]
              exact m3 r'
            · funext i
              simp only [RVS.onRow]
              rw [if_neg (show ¬ l = plane n w.2 (.A r') from hln)]
              exact congrFun (m4 r') i
  obtain ⟨i1, i2, i3, i4, i5, i6, i7, i8, i9⟩ := key c.p (le_refl _) _ rfl
  exact ⟨i1, i2, i3, i4, i5, i6, i9⟩

end Verif.AD
