import Verif.Drivers.TensorEval
import Verif.Num.TensorSum

/-! # The batches of `tensor_eval` -/
set_option linter.all false
namespace Verif.Drivers
open Verif.AD Verif.Num.TensorCoef Verif.Num Verif.Num.Simplex

theorem item_lt {p d : Nat} {jm : Nat → Nat} (hp : 1 ≤ p) {q : Item} (hq : q ∈ itemsOf p d jm) : q.a < (p + d).choose d ∧ 1 ≤ q.b ∧ q.b ≤ d := by
  unfold itemsOf at hq
  obtain ⟨oi, h1, h2⟩ := List.mem_flatMap.mp hq
  obtain ⟨t, h3, h4⟩ := List.mem_flatMap.mp h2
  have h1 := List.mem_range'_1.mp h1
  have h3 := List.mem_range.mp h3
  unfold itemOf at h4
  split at h4
  · obtain rfl := List.mem_singleton.mp h4
    exact ⟨address_lt (seq_facts (o := oi) hp t h3).1 (by omega), h1.1, by show oi ≤ d; omega⟩
  · cases h4

/-- What a list of items adds to entry `a`. -/
noncomputable def gain (f : Nat → ℝ) (L : List Item) (a : Nat) : ℝ := (L.map fun q => if q.a = a then f q.b * (q.c : ℝ) else 0).sum

theorem add_items (m k : Nat) (Y : Nat → Nat → Nat → ℝ) (L : List Item) (ten : Nat → Nat → ℝ) (j a : Nat) :
    L.foldl (fun (ten : Nat → Nat → ℝ) (q : Item) => fun j a => if j < m ∧ a = q.a then ten j a + Y j k (q.b - 1) * (q.c : ℝ) else ten j a) ten j a =
      ten j a + if j < m then gain (fun b => Y j k (b - 1)) L a else 0 := by
  induction L generalizing ten with
  | nil => simp [gain]
  | cons q L ih =>
    rw [List.foldl_cons, ih]
    simp only [gain, List.map_cons, List.sum_cons]
    by_cases hj : j < m
    · simp only [hj, true_and, if_true]
      by_cases ha : a = q.a
      · rw [if_pos ha, if_pos ha.symm]; ring
      · rw [if_neg ha, if_neg (Ne.symm ha)]; ring
    · simp [hj]

theorem tensorAdd_eq (m bd : Nat) (ptr : Nat → List Item) (Y : Nat → Nat → Nat → ℝ) (ten : Nat → Nat → ℝ) (j a : Nat) :
    tensorAdd m bd ptr Y ten j a = ten j a + if j < m then ∑ k ∈ Finset.range bd, gain (fun b => Y j k (b - 1)) (ptr k) a else 0 := by
  unfold tensorAdd
  induction bd with
  | zero => simp
  | succ bd ih =>
    rw [List.range_succ, List.foldl_append, List.foldl_cons, List.foldl_nil, add_items, ih, Finset.sum_range_succ]
    split <;> ring

theorem gain_congr {f g : Nat → ℝ} {L : List Item} (h : ∀ q ∈ L, f q.b = g q.b) (a : Nat) : gain f L a = gain g L a := by
  unfold gain
  congr 1
  exact List.map_congr_left fun q hq => by rw [h q hq]

theorem gain_zero {f : Nat → ℝ} {L : List Item} {a : Nat} (h : ∀ q ∈ L, q.a ≠ a) : gain f L a = 0 := by
  unfold gain
  rw [List.map_congr_left (g := fun _ => (0:ℝ)) fun q hq => if_neg (h q hq)]
  simp

/-- The table of (d, p). -/
noncomputable def tableOf (p d : Nat) : List (List Item) := (List.range (num p d)).map fun t => itemsOf p d (seqM p d t)

/-- The state before pass `i`. -/
structure LInv (m d p dim jmbd : Nat) (val : Nat → (Nat → Nat) → Nat → ℝ) (yv : Nat → ℝ) (ten0 : Nat → Nat → ℝ) (i : Nat) (s : TLoop) : Prop where
  it : s.it = if i = 0 then itInit d else itq p d (i - 1)
  le : s.ctr ≤ i
  bd : s.bd ≤ jmbd
  fit : i - s.ctr + s.bd ≤ dim
  go : s.ctr < s.bd ∨ (i = dim ∧ s.ctr = 0)
  jm : ∀ k, k < s.ctr → s.jm k = seqM p d (i - s.ctr + k)
  ptr : ∀ k, k < s.ctr → s.ptr k = itemsOf p d (seqM p d (i - s.ctr + k))
  ten : ∀ j a, s.ten j a = ten0 j a + if j < m then ∑ t ∈ Finset.range (i - s.ctr), gain (val j (seqM p d t)) (itemsOf p d (seqM p d t)) a else 0
  y : 0 < i - s.ctr → ∀ j, j < m → s.y j = yv j

theorem pass_ok {t : Tape ℝ} {d p : Nat} {x : Nat → ℝ} {S : Nat → Nat → ℝ} (hp : 1 ≤ p) (hd : 1 ≤ d) {val : Nat → (Nat → Nat) → Nat → ℝ} {yv : Nat → ℝ}
    (hsw : ∀ bd jm, 0 < bd → ∃ y Y, tensorSweep t d p bd x S jm = .ok (y, Y) ∧ (∀ j, j < t.m → y j = yv j) ∧
      ∀ j, j < t.m → ∀ k, k < bd → ∀ b, 1 ≤ b → b ≤ d → Y j k (b - 1) = val j (jm k) b)
    {jmbd : Nat} (hj10 : jmbd ≤ 10) {ten0 : Nat → Nat → ℝ} {i : Nat} (hi : i < num p d) {s : TLoop}
    (h : LInv t.m d p (num p d) jmbd val yv ten0 i s) :
    ∃ s', tensorPass t d p x S (tableOf p d) (num p d) jmbd s i = .ok s' ∧ LInv t.m d p (num p d) jmbd val yv ten0 (i + 1) s' := by
  obtain ⟨hit, hle, hbd, hfit, hgo, hjm, hptr, hten, hy⟩ := h
  have hcb : s.ctr < s.bd := by rcases hgo with h | h <;> omega
  have hits : itStep p d s.it = itq p d i := by
    rw [hit]
    cases i with
    | zero => rfl
    | succ i => simp [itq]
  have hconv : convert d (itStep p d s.it) = seqM p d i := by
    rw [hits, convert_eq]; exact (itq_eq hp hd i hi).2
  have htab : (tableOf p d)[i]? = some (itemsOf p d (seqM p d i)) := by
    unfold tableOf
    rw [List.getElem?_map, List.getElem?_range hi]; rfl
  unfold tensorPass
  simp only [htab, hconv]
  rw [if_pos (show s.ctr < jmbd ∧ s.ctr < 10 by omega)]
  have njm : ∀ k, k < s.ctr + 1 → (if k = s.ctr then seqM p d i else s.jm k) = seqM p d (i - s.ctr + k) := by
    intro k hk
    split
    · next e => subst e; congr 1; omega
    · exact hjm k (by omega)
  have nptr : ∀ k, k < s.ctr + 1 → (if k = s.ctr then itemsOf p d (seqM p d i) else s.ptr k) = itemsOf p d (seqM p d (i - s.ctr + k)) := by
    intro k hk
    split
    · next e => subst e; congr 2; omega
    · exact hptr k (by omega)
  by_cases hc : s.bd = 0 ∨ s.ctr < s.bd - 1
  · rw [if_pos hc]
    refine ⟨_, rfl, ?_⟩
    have e : i + 1 - (s.ctr + 1) = i - s.ctr := by omega
    refine ⟨?_, ?_, hbd, ?_, Or.inl ?_, ?_, ?_, ?_, ?_⟩
    · simp [hits]
    · show s.ctr + 1 ≤ i + 1; omega
    · show i + 1 - (s.ctr + 1) + s.bd ≤ _; omega
    · show s.ctr + 1 < s.bd; omega
    · show ∀ k, k < s.ctr + 1 → _
      rw [e]; exact njm
    · show ∀ k, k < s.ctr + 1 → _
      rw [e]; exact nptr
    · show ∀ j a, s.ten j a = ten0 j a + if j < t.m then ∑ t ∈ Finset.range (i + 1 - (s.ctr + 1)), _ else 0
      rw [e]; exact hten
    · show 0 < i + 1 - (s.ctr + 1) → _
      rw [e]; exact hy
  · rw [if_neg hc]
    obtain ⟨y, Y, hs, hyv, hY⟩ := hsw s.bd (fun k => if k = s.ctr then seqM p d i else s.jm k) (by omega)
    rw [hs]
    refine ⟨_, rfl, ?_⟩
    have hb : s.bd = s.ctr + 1 := by omega
    refine ⟨?_, Nat.zero_le _, ?_, ?_, ?_, ?_, ?_, ?_, ?_⟩
    · simp [hits]
    · show (if num p d - i ≤ s.bd then num p d - i - 1 else s.bd) ≤ jmbd
      split <;> omega
    · show i + 1 - 0 + (if num p d - i ≤ s.bd then num p d - i - 1 else s.bd) ≤ num p d
      split <;> omega
    · show 0 < (if num p d - i ≤ s.bd then num p d - i - 1 else s.bd) ∨ (i + 1 = num p d ∧ 0 = 0)
      split <;> omega
    · intro k hk; exact absurd hk (Nat.not_lt_zero k)
    · intro k hk; exact absurd hk (Nat.not_lt_zero k)
    · intro j a
      show tensorAdd t.m s.bd _ Y s.ten j a = _
      rw [tensorAdd_eq, hten]
      by_cases hj : j < t.m
      · simp only [hj, if_true]
        rw [add_assoc]
        congr 1
        show _ = ∑ t ∈ Finset.range (i + 1 - 0), _
        rw [show i + 1 - 0 = (i - s.ctr) + s.bd by omega, Finset.sum_range_add]
        congr 1
        refine Finset.sum_congr rfl fun k hk => ?_
        have hk := Finset.mem_range.mp hk
        rw [nptr k (by omega)]
        refine gain_congr (fun q hq => ?_) a
        obtain ⟨_, q1, q2⟩ := item_lt hp hq
        rw [hY j hj k hk q.b q1 q2]
        show val j (if k = s.ctr then seqM p d i else s.jm k) q.b = _
        rw [njm k (by omega)]
      · simp [hj]
    · intro _ j hj; exact hyv j hj

theorem passes_ok {t : Tape ℝ} {d p : Nat} {x : Nat → ℝ} {S : Nat → Nat → ℝ} (hp : 1 ≤ p) (hd : 1 ≤ d) {val : Nat → (Nat → Nat) → Nat → ℝ} {yv : Nat → ℝ}
    (hsw : ∀ bd jm, 0 < bd → ∃ y Y, tensorSweep t d p bd x S jm = .ok (y, Y) ∧ (∀ j, j < t.m → y j = yv j) ∧
      ∀ j, j < t.m → ∀ k, k < bd → ∀ b, 1 ≤ b → b ≤ d → Y j k (b - 1) = val j (jm k) b)
    {jmbd : Nat} (hj10 : jmbd ≤ 10) {ten0 : Nat → Nat → ℝ} {s : TLoop}
    (h : LInv t.m d p (num p d) jmbd val yv ten0 0 s) : ∀ i, i ≤ num p d →
    ∃ s', (List.range i).foldlM (tensorPass t d p x S (tableOf p d) (num p d) jmbd) s = .ok s' ∧ LInv t.m d p (num p d) jmbd val yv ten0 i s' := by
  intro i
  induction i with
  | zero => intro _; exact ⟨s, rfl, h⟩
  | succ i ih =>
    intro hi
    obtain ⟨s', h1, h2⟩ := ih (by omega)
    obtain ⟨s'', h3, h4⟩ := pass_ok hp hd hsw hj10 (by omega) h2
    refine ⟨s'', ?_, h4⟩
    rw [List.range_succ, List.foldlM_append, h1]
    show ((List.foldlM _ s' [i]) : Except TErr TLoop) = _
    simp only [List.foldlM_cons, List.foldlM_nil, h3]
    rfl

/-- The caches that calls of `tensor_eval` leave. -/
def TCache.Ok (c : TCache) : Prop := c = TCache.init ∨ (1 ≤ c.p ∧ 1 ≤ c.d ∧ c.tab = tableOf c.p c.d)

theorem TCache.get_ok {c : TCache} (hc : c.Ok) {d p : Nat} (hp : 1 ≤ p) (hd : 1 ≤ d) :
    ∃ c', c.get d p = .ok c' ∧ c'.Ok ∧ c'.tab = tableOf p d := by
  unfold TCache.get
  by_cases h : d ≠ c.d ∨ p ≠ c.p
  · rw [if_pos h, coeff_eq hp hd]
    exact ⟨_, rfl, Or.inr ⟨hp, hd, rfl⟩, rfl⟩
  · rw [if_neg h]
    push Not at h
    rcases hc with rfl | ⟨h1, h2, h3⟩
    · have := h.1; simp only [TCache.init] at this; omega
    · exact ⟨c, rfl, Or.inr ⟨h1, h2, h3⟩, by rw [h3, h.1, h.2]⟩

/-- `tensor_eval` for `d > 0`, given what the sweeps compute. -/
theorem tensorEval_ok {t : Tape ℝ} {d p : Nat} {x : Nat → ℝ} {S : Nat → Nat → ℝ} (hp : 1 ≤ p) (hd : 1 ≤ d) {val : Nat → (Nat → Nat) → Nat → ℝ} {yv : Nat → ℝ}
    (hsw : ∀ bd jm, 0 < bd → ∃ y Y, tensorSweep t d p bd x S jm = .ok (y, Y) ∧ (∀ j, j < t.m → y j = yv j) ∧
      ∀ j, j < t.m → ∀ k, k < bd → ∀ b, 1 ≤ b → b ≤ d → Y j k (b - 1) = val j (jm k) b)
    {c : TCache} (hc : c.Ok) (junk : TLoop) (ten : Nat → Nat → ℝ) :
    ∃ ten', (tensorEval t d p x S junk c ten).2 = .ok ten' ∧
      (∀ j, j < t.m → ten' j 0 = yv j) ∧
      (∀ j, j < t.m → ∀ a, a ≠ 0 → a < (p + d).choose d →
        ten' j a = ∑ i ∈ Finset.range (num p d), gain (val j (seqM p d i)) (itemsOf p d (seqM p d i)) a) ∧
      (∀ j a, ¬ (j < t.m ∧ a < (p + d).choose d) → ten' j a = ten j a) := by
  obtain ⟨c', hg, _, htab⟩ := TCache.get_ok hc hp hd
  have hdim : (Tensor.binomi (p + d - 1) d).toNat = num p d := by rw [Tensor.binomi_eq]; simp [num]
  have hdt : (Tensor.binomi (p + d) d).toNat = (p + d).choose d := by rw [Tensor.binomi_eq]; simp
  have hpos := num_pos (o := d) hp
  have hbd : (if num p d < 10 then num p d else 10) ≤ 10 := by split <;> omega
  have hinit : LInv t.m d p (num p d) (if num p d < 10 then num p d else 10) val yv (fun i j => if i < t.m ∧ j < (p + d).choose d then 0 else ten i j) 0
      { junk with it := itInit d, ctr := 0, bd := if num p d < 10 then num p d else 10,
                  ten := fun i j => if i < t.m ∧ j < (p + d).choose d then 0 else ten i j } := by
    refine ⟨rfl, le_rfl, le_rfl, ?_, Or.inl ?_, ?_, ?_, ?_, ?_⟩
    · show 0 - 0 + (if num p d < 10 then num p d else 10) ≤ num p d
      split <;> omega
    · show 0 < (if num p d < 10 then num p d else 10)
      split <;> omega
    · intro k hk; exact absurd hk (Nat.not_lt_zero k)
    · intro k hk; exact absurd hk (Nat.not_lt_zero k)
    · intro j a; simp
    · intro h; exact absurd h (by simp)
  obtain ⟨s', h1, h2⟩ := passes_ok hp hd hsw hbd hinit (num p d) le_rfl
  have h0 : s'.ctr = 0 := by
    have := h2.fit; have := h2.le
    rcases h2.go with h | h <;> omega
  refine ⟨fun i j => if i < t.m ∧ j = 0 then s'.y i else s'.ten i j, ?_, ?_, ?_, ?_⟩
  · unfold tensorEval
    simp only [hdim, hdt]
    rw [if_neg (show ¬ d = 0 by omega), hg]
    simp only
    rw [htab, h1]
  · intro j hj
    simp only [hj, true_and, if_true]
    exact h2.y (by omega) j hj
  · intro j hj a ha hlt
    simp only [ha, and_false, if_false]
    rw [h2.ten, h0, if_pos ⟨hj, hlt⟩, if_pos hj, zero_add, Nat.sub_zero]
  · intro j a hn
    have hne : ¬ (j < t.m ∧ a = 0) := by
      rintro ⟨e1, rfl⟩
      exact hn ⟨e1, Nat.choose_pos (by omega)⟩
    simp only [hne, if_false]
    rw [h2.ten, if_neg hn]
    by_cases hj : j < t.m
    · rw [if_pos hj, Finset.sum_eq_zero, add_zero]
      intro i _
      refine gain_zero fun q hq hqa => hn ⟨hj, ?_⟩
      rw [← hqa]
      exact (item_lt hp hq).1
    · rw [if_neg hj, add_zero]

theorem tensorEval_cache {t : Tape ℝ} {d p : Nat} {x : Nat → ℝ} {S : Nat → Nat → ℝ} (hp : 1 ≤ p) {c : TCache} (hc : c.Ok) (junk : TLoop) (ten : Nat → Nat → ℝ) :
    (tensorEval t d p x S junk c ten).1.Ok := by
  unfold tensorEval
  by_cases h0 : d = 0
  · rw [if_pos h0]
    simp only
    split <;> exact hc
  · rw [if_neg h0]
    obtain ⟨c', hg, h1, _⟩ := TCache.get_ok hc hp (show 1 ≤ d by omega)
    simp only [hg]
    split <;> exact h1

end Verif.Drivers
