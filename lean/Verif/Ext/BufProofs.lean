import Verif.Ext.Buf
import Mathlib.Tactic.Ring
import Mathlib.Tactic.NormNum
import Mathlib.Tactic.Linarith

/-! # Proofs about the buffers of external functions -/
set_option linter.all false
namespace Verif.Ext2
open Verif.Alloc

/-- Bytes taken by arrays of the given sizes. -/
def off (ds : List (ℕ × ℕ)) : ℕ := (ds.map fun p => 8 * p.1 + p.1 * (8 * p.2)).sum

theorem layout_end (ds : List (ℕ × ℕ)) (mem : ℕ) : (layout ds mem).2 = mem + off ds := by
  induction ds generalizing mem with
  | nil => simp [layout, off]
  | cons p ds ih =>
    obtain ⟨n, m⟩ := p
    simp only [layout, ih, off, List.map_cons, List.sum_cons, populateDpp, fill_eq]
    omega

theorem layout_get (ds : List (ℕ × ℕ)) (mem k : ℕ) {n m : ℕ} (h : ds[k]? = some (n, m)) :
    (layout ds mem).1[k]? = some ⟨mem + off (ds.take k), n, (populateDpp (mem + off (ds.take k)) n m).1⟩ := by
  induction ds generalizing mem k with
  | nil => simp at h
  | cons p ds ih =>
    obtain ⟨n', m'⟩ := p
    cases k with
    | zero => simp at h; obtain ⟨rfl, rfl⟩ := h; simp [layout, off]
    | succ k =>
      simp at h
      simp only [layout, List.getElem?_cons_succ, ih _ _ h, List.take_succ_cons]
      have : (populateDpp mem n' m').2 + off (ds.take k) = mem + off ((n', m') :: ds.take k) := by
        simp only [populateDpp, fill_eq, off, List.map_cons, List.sum_cons]; omega
      rw [this]

theorem maxOf_succ (n : ℕ) (sz : ℕ → ℕ) : maxOf (n + 1) sz = if maxOf n sz < sz n then sz n else maxOf n sz := by
  show (List.range (n + 1)).foldl _ 0 = _
  rw [List.range_succ, List.foldl_append]
  rfl

theorem le_maxOf {n : ℕ} {sz : ℕ → ℕ} {i : ℕ} (h : i < n) : sz i ≤ maxOf n sz := by
  induction n with
  | zero => omega
  | succ n ih =>
    rw [maxOf_succ]
    rcases Nat.lt_succ_iff_lt_or_eq.mp h with h | h
    · have := ih h; split <;> omega
    · subst h; split <;> omega

theorem maxOf_le {n : ℕ} {sz : ℕ → ℕ} {b : ℕ} (h : ∀ i < n, sz i ≤ b) : maxOf n sz ≤ b := by
  induction n with
  | zero => simp [maxOf]
  | succ n ih =>
    rw [maxOf_succ]
    have := ih fun i hi => h i (by omega)
    have := h n (by omega)
    split <;> omega

theorem maxOf_attained {n : ℕ} {sz : ℕ → ℕ} (h : 0 < maxOf n sz) : ∃ i < n, sz i = maxOf n sz := by
  induction n with
  | zero => simp [maxOf] at h
  | succ n ih =>
    rw [maxOf_succ] at h ⊢
    by_cases hc : maxOf n sz < sz n
    · rw [if_pos hc]; exact ⟨n, by omega, rfl⟩
    · rw [if_neg hc] at h ⊢
      obtain ⟨i, hi, he⟩ := ih h
      exact ⟨i, by omega, he⟩

/-- Sizes of an array. -/
def dN (D : Dim) (a : Name) : ℕ := if a.isIn then D.nin else D.nout
def dM (D : Dim) (a : Name) : ℕ := if a.isIn then D.isz else D.osz
/-- Where an array starts. -/
def base (D : Dim) (a : Name) : ℕ := off ((order D).take a.pos)

theorem order_get (D : Dim) (a : Name) : (order D)[a.pos]? = some (dN D a, dM D a) := by cases a <;> rfl

theorem addr_eq (D : Dim) (a : Name) (i j : ℕ) :
    (alloc D).addr a i j = if i < dN D a then some (base D a + 8 * dN D a + 8 * (i * dM D a + j)) else none := by
  have h := layout_get (order D) 0 a.pos (order_get D a)
  rw [Nat.zero_add] at h
  simp only [Block.addr, alloc, h, populateDpp, fill_eq]
  by_cases hi : i < dN D a
  · simp only [if_pos hi, Option.some.injEq, base]; ring
  · simp only [if_neg hi]

theorem ptr_eq (D : Dim) (a : Name) (i : ℕ) :
    (alloc D).ptr a i = if i < dN D a then some (base D a + 8 * i) else none := by
  have h := layout_get (order D) 0 a.pos (order_get D a)
  rw [Nat.zero_add] at h
  simp only [Block.ptr, alloc, h, base]

/-- Bytes of one array. -/
def len (D : Dim) (a : Name) : ℕ := 8 * dN D a + dN D a * (8 * dM D a)

theorem base_succ (D : Dim) (a a' : Name) (h : a'.pos = a.pos + 1) : base D a' = base D a + len D a := by
  cases a <;> cases a' <;> simp [Name.pos] at h <;> simp [base, order, off, Name.pos, len, dN, dM, Name.isIn] <;> omega

theorem base_mono (D : Dim) (a a' : Name) (h : a.pos < a'.pos) : base D a + len D a ≤ base D a' := by
  cases a <;> cases a' <;> simp [Name.pos] at h <;>
    simp [base, order, off, Name.pos, len, dN, dM, Name.isIn] <;> omega

theorem pos_inj {a a' : Name} (h : a.pos = a'.pos) : a = a' := by
  cases a <;> cases a' <;> simp [Name.pos] at h <;> rfl

theorem index_lt {n m i j : ℕ} (hi : i < n) (hj : j < m) : i * m + j < n * m := by
  have : (i + 1) * m ≤ n * m := Nat.mul_le_mul_right _ hi
  rw [Nat.succ_mul] at this; omega

theorem index_ne {n i j i' j' : ℕ} (hj : j < n) (hj' : j' < n) (h : ¬ (i = i' ∧ j = j')) : i * n + j ≠ i' * n + j' := by
  intro he
  apply h
  have h1 : (i * n + j) / n = i := by rw [Nat.mul_comm, Nat.mul_add_div (by omega), Nat.div_eq_of_lt hj, Nat.add_zero]
  have h2 : (i' * n + j') / n = i' := by rw [Nat.mul_comm, Nat.mul_add_div (by omega), Nat.div_eq_of_lt hj', Nat.add_zero]
  have h3 : i = i' := by rw [← h1, ← h2, he]
  subst h3; exact ⟨rfl, by omega⟩

/-- `d` is at most `D` in every size. -/
structure DLe (d D : Dim) : Prop where
  nin : d.nin ≤ D.nin
  nout : d.nout ≤ D.nout
  isz : d.isz ≤ D.isz
  osz : d.osz ≤ D.osz

theorem DLe.refl (d : Dim) : DLe d d := ⟨le_refl _, le_refl _, le_refl _, le_refl _⟩
theorem DLe.trans {a b c : Dim} (h : DLe a b) (h' : DLe b c) : DLe a c :=
  ⟨h.nin.trans h'.nin, h.nout.trans h'.nout, h.isz.trans h'.isz, h.osz.trans h'.osz⟩
theorem DLe.antisymm {a b : Dim} (h : DLe a b) (h' : DLe b a) : a = b := by
  obtain ⟨_, _, _, _⟩ := a; obtain ⟨_, _, _, _⟩ := b
  have h1 := h.nin; have h2 := h.nout; have h3 := h.isz; have h4 := h.osz
  have h5 := h'.nin; have h6 := h'.nout; have h7 := h'.isz; have h8 := h'.osz
  simp only at h1 h2 h3 h4 h5 h6 h7 h8
  simp only [Dim.mk.injEq]; omega

theorem used_lt {c : Shape} {D : Dim} (h : DLe c.dim D) {a : Name} {i j : ℕ} (hu : Used c a i j) : i < dN D a ∧ j < dM D a := by
  unfold Used at hu; unfold dN dM
  by_cases ha : a.isIn = true
  · rw [if_pos ha] at hu ⊢; rw [if_pos ha]
    have h1 := h.nin; have h2 := h.isz
    have h3 : c.insz i ≤ maxOf c.nin c.insz := le_maxOf hu.1
    simp only [Shape.dim] at h1 h2
    omega
  · rw [if_neg ha] at hu ⊢; rw [if_neg ha]
    have h1 := h.nout; have h2 := h.osz
    have h3 : c.outsz i ≤ maxOf c.nout c.outsz := le_maxOf hu.1
    simp only [Shape.dim] at h1 h2
    omega

/-- Room in a block as large as the arrays need. -/
theorem room_of {c : Shape} {D : Dim} (h : DLe c.dim D) (S : Name → Prop)
    (hs : ∀ a, S a → 0 < dN D a → 0 < dM D a → base D a + len D a ≤ (alloc D).size) : Room (alloc D) c S where
  inside := by
    intro a ha i j hu
    obtain ⟨hi, hj⟩ := used_lt h hu
    have hb := hs a ha (by omega) (by omega)
    have hx := index_lt hi hj
    have e : dN D a * (8 * dM D a) = 8 * (dN D a * dM D a) := by ring
    rw [len, e] at hb
    refine ⟨base D a + 8 * i, base D a + 8 * dN D a + 8 * (i * dM D a + j), ?_, ?_, ?_, ?_⟩
    · rw [ptr_eq, if_pos hi]
    · omega
    · rw [addr_eq, if_pos hi]
    · omega
  apart := by
    intro a a' _ _ i j i' j' hu hu' q q' hq hq' hne
    obtain ⟨hi, hj⟩ := used_lt h hu
    obtain ⟨hi', hj'⟩ := used_lt h hu'
    rw [addr_eq, if_pos hi, Option.some.injEq] at hq
    rw [addr_eq, if_pos hi', Option.some.injEq] at hq'
    have hx := index_lt hi hj
    have hx' := index_lt hi' hj'
    have e : dN D a * (8 * dM D a) = 8 * (dN D a * dM D a) := by ring
    have e' : dN D a' * (8 * dM D a') = 8 * (dN D a' * dM D a') := by ring
    rcases lt_trichotomy a.pos a'.pos with hp | hp | hp
    · have := base_mono D a a' hp
      rw [len, e] at this; left; omega
    · have ha := pos_inj hp
      subst ha
      have hn : i * dM D a + j ≠ i' * dM D a + j' := index_ne hj hj' fun ⟨h1, h2⟩ => hne (by rw [h1, h2])
      omega
    · have := base_mono D a' a hp
      rw [len, e'] at this; right; omega
  tables := by
    intro a a' _ i j i' hu q p hq hp'
    obtain ⟨hi, hj⟩ := used_lt h hu
    rw [addr_eq, if_pos hi, Option.some.injEq] at hq
    rw [ptr_eq] at hp'
    by_cases hi' : i' < dN D a'
    · rw [if_pos hi', Option.some.injEq] at hp'
      have hx := index_lt hi hj
      have e : dN D a * (8 * dM D a) = 8 * (dN D a * dM D a) := by ring
      rcases lt_trichotomy a.pos a'.pos with hp | hp | hp
      · have := base_mono D a a' hp
        rw [len, e] at this; left; omega
      · have ha := pos_inj hp
        subst ha
        right; omega
      · have := base_mono D a' a hp
        rw [len] at this; right; omega
    · rw [if_neg hi'] at hp'; exact absurd hp' (by simp)

theorem size_eq {D : Dim} (h : words D * 8 < 2 ^ 64) : (alloc D).size = 8 * words D := by
  simp only [alloc, sizeT, Nat.mod_eq_of_lt h]; omega

theorem words_eq (D : Dim) : words D = 4 * (D.nin * D.isz) + 4 * D.nin + 4 * D.nout + 6 * (D.nout * D.osz) +
    D.nout * D.osz * D.nout + D.nout * D.osz * D.nin := by
  simp only [words]; ring

theorem base_Zp (D : Dim) : base D .Zp = 8 * (4 * D.nin + 4 * (D.nin * D.isz) + 5 * D.nout + 5 * (D.nout * D.osz)) := by
  simp [base, order, off, Name.pos]; ring

theorem len_Zp (D : Dim) : len D .Zp = 8 * (D.nin + D.nin * D.isz) := by
  simp [len, dN, dM, Name.isIn]; ring

theorem base_Yp (D : Dim) : base D .Yp = 8 * (4 * D.nin + 4 * (D.nin * D.isz) + 3 * D.nout + 3 * (D.nout * D.osz)) := by
  simp [base, order, off, Name.pos]; ring

/-- All arrays but `Zp` fit. -/
theorem fits_most {D : Dim} (h : words D * 8 < 2 ^ 64) {a : Name} (ha : a ≠ .Zp) (hn : 0 < dN D a) (hm : 0 < dM D a) :
    base D a + len D a ≤ (alloc D).size := by
  rw [size_eq h, words_eq]
  by_cases hin : a.isIn = true
  · have : a.pos < Name.pos .Yp := by cases a <;> simp [Name.isIn, Name.pos] at hin ha ⊢
    have hb := base_mono D a .Yp this
    rw [base_Yp] at hb
    omega
  · simp only [dN, dM, if_neg hin] at hn hm
    have : a.pos < Name.pos .Zp := by cases a <;> simp [Name.isIn, Name.pos] at hin ha ⊢
    have hb := base_mono D a .Zp this
    rw [base_Zp] at hb
    have h1 : D.nout * 1 ≤ D.nout * D.osz := Nat.mul_le_mul_left _ hm
    omega

/-! ## Sequences of calls -/

theorem upto_le {a b : ℕ} (h : b ≤ a) : upto a b = a := by unfold upto; rw [if_neg (by omega)]
theorem upto_ge {a b : ℕ} (h : a ≤ b) : upto a b = b := by unfold upto; split <;> omega

/-- The block is the one for the largest call so far. -/
structure Inv (r : Rec) (cs : List Shape) : Prop where
  user : r.user = false
  some : ∃ c ∈ cs, r.buf = some (alloc c.dim) ∧ r.mx = c.dim ∧ ∀ c' ∈ cs, DLe c'.dim c.dim

theorem Inv.first (c : Shape) : Inv (call (Rec.new false) c) [c] := by
  refine ⟨rfl, c, by simp, rfl, ?_, by simp [DLe.refl]⟩
  simp only [call, Rec.new, update, Bool.false_eq_true, if_false]
  rw [upto_ge (Nat.zero_le _), upto_ge (Nat.zero_le _), upto_ge (Nat.zero_le _), upto_ge (Nat.zero_le _)]

theorem Inv.next {r : Rec} {cs : List Shape} {d : Shape} (h : Inv r cs) (hd : ∀ c ∈ cs, DLe c.dim d.dim ∨ DLe d.dim c.dim) :
    Inv (call r d) (cs ++ [d]) := by
  obtain ⟨hu, c, hc, hb, hm, hmax⟩ := h
  refine ⟨?_, ?_⟩
  · simp only [call, hu, Bool.false_eq_true, if_false, update]
  by_cases hle : DLe d.dim c.dim
  · refine ⟨c, by simp [hc], ?_, ?_, ?_⟩
    · have hst : stale r d.dim = false := by
        have h1 := hle.nin; have h2 := hle.nout; have h3 := hle.isz; have h4 := hle.osz
        simp only [stale, hb, hm, Option.isNone_some, Bool.false_or, Bool.or_eq_false_iff, decide_eq_false_iff_not, not_lt]
        exact ⟨⟨⟨h1, h2⟩, h3⟩, h4⟩
      simp only [call, hu, Bool.false_eq_true, if_false, update, hst, hb]
    · simp only [call, hu, Bool.false_eq_true, if_false, update, hm]
      rw [upto_le hle.nin, upto_le hle.nout, upto_le hle.isz, upto_le hle.osz]
    · intro c' hc'
      rcases List.mem_append.mp hc' with h' | h'
      · exact hmax c' h'
      · rw [List.mem_singleton.mp h']; exact hle
  · have hge : DLe c.dim d.dim := (hd c hc).resolve_right hle
    refine ⟨d, by simp, ?_, ?_, ?_⟩
    · have hst : stale r d.dim = true := by
        simp only [stale, hb, hm, Option.isNone_some, Bool.false_or, Bool.or_eq_true, decide_eq_true_eq]
        by_contra hn
        exact hle ⟨by omega, by omega, by omega, by omega⟩
      simp only [call, hu, Bool.false_eq_true, if_false, update, hst, if_true]
    · simp only [call, hu, Bool.false_eq_true, if_false, update, hm]
      rw [upto_ge hge.nin, upto_ge hge.nout, upto_ge hge.isz, upto_ge hge.osz]
    · intro c' hc'
      rcases List.mem_append.mp hc' with h' | h'
      · exact (hmax c' h').trans hge
      · rw [List.mem_singleton.mp h']; exact DLe.refl _

theorem Inv.all {c0 : Shape} (cs : List Shape) (hch : ∀ c ∈ c0 :: cs, ∀ d ∈ c0 :: cs, DLe c.dim d.dim ∨ DLe d.dim c.dim) :
    Inv (calls (Rec.new false) (c0 :: cs)) (c0 :: cs) := by
  suffices H : ∀ (cs pre : List Shape) (r : Rec), Inv r pre →
      (∀ c ∈ pre ++ cs, ∀ d ∈ pre ++ cs, DLe c.dim d.dim ∨ DLe d.dim c.dim) → Inv (calls r cs) (pre ++ cs) by
    exact H cs [c0] _ (Inv.first c0) hch
  intro cs
  induction cs with
  | nil => intro pre r h _; simpa [calls] using h
  | cons d cs ih =>
    intro pre r h hc
    have h' := h.next (d := d) fun c hcm => hc c (by simp [hcm]) d (by simp)
    have := ih (pre ++ [d]) (call r d) h' (by simpa [List.append_assoc] using hc)
    simpa [calls, List.append_assoc] using this

end Verif.Ext2
