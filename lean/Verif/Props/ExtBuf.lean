import Verif.Ext.BufProofs

/-!
# C68: the working buffers of external functions with block structure

Every call of an external function of the second version, and every sweep that replays it, works on buffers that have room for its blocks.
-/
set_option linter.all false
namespace Verif.Props.ExtBuf
open Verif.Ext2 Verif.Alloc

/-- Call `d` has at most as many blocks as call `c`, and none of its blocks is longer than the longest of `c`. -/
structure Covers (c d : Shape) : Prop where
  nin : d.nin ≤ c.nin
  nout : d.nout ≤ c.nout
  isz : ∀ i < d.nin, d.insz i = 0 ∨ ∃ i' < c.nin, d.insz i ≤ c.insz i'
  osz : ∀ i < d.nout, d.outsz i = 0 ∨ ∃ i' < c.nout, d.outsz i ≤ c.outsz i'

theorem Covers.dle {c d : Shape} (h : Covers c d) : DLe d.dim c.dim := by
  refine ⟨h.nin, h.nout, ?_, ?_⟩
  · refine maxOf_le fun i hi => ?_
    rcases h.isz i hi with h0 | ⟨i', hi', hle⟩
    · omega
    · exact hle.trans (le_maxOf hi')
  · refine maxOf_le fun i hi => ?_
    rcases h.osz i hi with h0 | ⟨i', hi', hle⟩
    · omega
    · exact hle.trans (le_maxOf hi')

theorem Covers.of_dle {c d : Shape} (h : DLe d.dim c.dim) : Covers c d := by
  refine ⟨h.nin, h.nout, ?_, ?_⟩
  · intro i hi
    by_cases h0 : d.insz i = 0
    · exact Or.inl h0
    · have h1 : d.insz i ≤ maxOf d.nin d.insz := le_maxOf hi
      have h2 : maxOf d.nin d.insz ≤ maxOf c.nin c.insz := h.isz
      obtain ⟨i', hi', he⟩ := maxOf_attained (n := c.nin) (sz := c.insz) (by omega)
      exact Or.inr ⟨i', hi', by omega⟩
  · intro i hi
    by_cases h0 : d.outsz i = 0
    · exact Or.inl h0
    · have h1 : d.outsz i ≤ maxOf d.nout d.outsz := le_maxOf hi
      have h2 : maxOf d.nout d.outsz ≤ maxOf c.nout c.outsz := h.osz
      obtain ⟨i', hi', he⟩ := maxOf_attained (n := c.nout) (sz := c.outsz) (by omega)
      exact Or.inr ⟨i', hi', by omega⟩

/-- The number of words the call asks for does not overflow `size_t`. -/
def Small (c : Shape) : Prop := words c.dim * 8 < 2 ^ 64

/-- C68 (partial: not for every history, see `C68_fewer_blocks`; not for `Zp`, see `C68_Zp_outside`).  A record whose calls cover one another pairwise
has, after the last of them, buffers with room for every one of the calls, in all arrays but `Zp`. -/
theorem C68_room_partial (c0 : Shape) (cs : List Shape)
    (hch : ∀ c ∈ c0 :: cs, ∀ d ∈ c0 :: cs, Covers c d ∨ Covers d c) (hsm : ∀ c ∈ c0 :: cs, Small c) :
    ∃ b, (calls (Rec.new false) (c0 :: cs)).buf = some b ∧ ∀ c ∈ c0 :: cs, Room b c (· ≠ .Zp) := by
  obtain ⟨hu, m, hm, hb, -, hmax⟩ := Inv.all (c0 := c0) cs fun c hc d hd => (hch c hc d hd).symm.imp Covers.dle Covers.dle
  exact ⟨_, hb, fun c hc => room_of (hmax c hc) _ fun a ha hn hz => fits_most (hsm m hm) ha hn hz⟩

/-- The sizes for which `Zp` fits too: with `q` the number of output blocks times the longest of them, `nin + nout + nin * isz ≤ q * (1 + nin + nout)`. -/
def Enough (D : Dim) : Prop := D.nin + D.nout + D.nin * D.isz ≤ D.nout * D.osz * (1 + D.nin + D.nout)

/-- C68 (partial, as above), with `Zp`: if the largest call has enough outputs. -/
theorem C68_room_Zp_partial (c0 : Shape) (cs : List Shape)
    (hch : ∀ c ∈ c0 :: cs, ∀ d ∈ c0 :: cs, Covers c d ∨ Covers d c) (hsm : ∀ c ∈ c0 :: cs, Small c) (he : ∀ c ∈ c0 :: cs, Enough c.dim) :
    ∃ b, (calls (Rec.new false) (c0 :: cs)).buf = some b ∧ ∀ c ∈ c0 :: cs, Room b c fun _ => True := by
  obtain ⟨hu, m, hm, hb, -, hmax⟩ := Inv.all (c0 := c0) cs fun c hc d hd => (hch c hc d hd).symm.imp Covers.dle Covers.dle
  refine ⟨_, hb, fun c hc => room_of (hmax c hc) _ fun a _ hn hz => ?_⟩
  by_cases ha : a = .Zp
  · subst ha
    rw [base_Zp, len_Zp, size_eq (hsm m hm), words_eq]
    have hE := he m hm
    unfold Enough at hE
    have e : m.dim.nout * m.dim.osz * (1 + m.dim.nin + m.dim.nout) =
      m.dim.nout * m.dim.osz + m.dim.nout * m.dim.osz * m.dim.nout + m.dim.nout * m.dim.osz * m.dim.nin := by ring
    rw [e] at hE; omega
  · exact fits_most (hsm m hm) ha hn hz

/-- Buffers the user allocated are never touched. -/
theorem C68_user (cs : List Shape) : (calls (Rec.new true) cs) = Rec.new true := by
  have H : ∀ (cs : List Shape) (r : Rec), r.user = true → calls r cs = r := by
    intro cs
    induction cs with
    | nil => intro r _; rfl
    | cons c cs ih =>
      intro r hr
      have : call r c = r := by simp [call, hr]
      simp only [calls, List.foldl_cons, this]
      exact ih r hr
  exact H cs _ rfl

/-- The full statement fails for `Zp`: if the sizes are not enough, the last entry of `Zp` lies outside the block (after a first call whose last input
block is the longest). -/
theorem C68_Zp_outside (c : Shape) (hsm : Small c) (hne : ¬ Enough c.dim) (hn : 0 < c.nin) (hz : 0 < c.insz (c.nin - 1))
    (hl : ∀ i < c.nin, c.insz i ≤ c.insz (c.nin - 1)) :
    ∃ b q, (calls (Rec.new false) [c]).buf = some b ∧ Used c .Zp (c.nin - 1) (c.insz (c.nin - 1) - 1) ∧
      b.addr .Zp (c.nin - 1) (c.insz (c.nin - 1) - 1) = some q ∧ b.size < q + 8 := by
  have hmx : maxOf c.nin c.insz = c.insz (c.nin - 1) := le_antisymm (maxOf_le hl) (le_maxOf (by omega))
  refine ⟨alloc c.dim, base c.dim .Zp + 8 * c.nin + 8 * ((c.nin - 1) * c.insz (c.nin - 1) + (c.insz (c.nin - 1) - 1)), rfl, ?_, ?_, ?_⟩
  · show (if Name.Zp.isIn = true then _ else _); rw [if_pos (show Name.Zp.isIn = true from rfl)]; omega
  · rw [addr_eq, if_pos (show c.nin - 1 < dN c.dim .Zp by simp [dN, Name.isIn, Shape.dim]; omega)]
    simp only [dN, dM, Name.isIn, if_true, Shape.dim, hmx]
  · rw [base_Zp, size_eq hsm, words_eq]
    unfold Enough at hne
    have e : c.dim.nout * c.dim.osz * (1 + c.dim.nin + c.dim.nout) =
      c.dim.nout * c.dim.osz + c.dim.nout * c.dim.osz * c.dim.nout + c.dim.nout * c.dim.osz * c.dim.nin := by ring
    rw [e] at hne
    have e1 : c.dim.nin = c.nin := rfl
    have e2 : c.dim.isz = c.insz (c.nin - 1) := hmx
    rw [e1, e2] at hne ⊢
    have e3 : c.nin * c.insz (c.nin - 1) = (c.nin - 1) * c.insz (c.nin - 1) + c.insz (c.nin - 1) := by
      obtain ⟨k, hk⟩ : ∃ k, c.nin = k + 1 := ⟨c.nin - 1, by omega⟩
      rw [hk]; simp only [Nat.add_sub_cancel]; ring
    omega

/-- The full statement fails for a history: a call with fewer but longer blocks replaces the block by one with fewer rows, and a call with more blocks
that comes later, or one made before and replayed by a sweep, has no row for its last blocks. -/
theorem C68_fewer_blocks (c d : Shape) (hn : d.nin < c.nin) (hlen : ∃ i < d.nin, ∀ j < c.nin, c.insz j < d.insz i) (i : ℕ)
    (hi : d.nin ≤ i) (hi' : i < c.nin) (j : ℕ) (hj : j < c.insz i) :
    ∃ b, (calls (Rec.new false) [c, d]).buf = some b ∧ (calls (Rec.new false) [c, d, c]).buf = some b ∧ Used c .x i j ∧ b.addr .x i j = none ∧
      ¬ Room b c (· = .x) := by
  obtain ⟨k, hk, hlen⟩ := hlen
  have h1 : maxOf d.nin d.insz ≥ d.insz k := le_maxOf hk
  have h2 : maxOf c.nin c.insz < d.insz k := by
    have h3 : maxOf c.nin c.insz ≤ d.insz k - 1 := maxOf_le fun j hj => by have := hlen j hj; omega
    have := hlen i hi'
    omega
  have hst : stale (call (Rec.new false) c) d.dim = true := by
    have : (call (Rec.new false) c).mx = c.dim := by
      obtain ⟨_, c', hc', _, hm, _⟩ := Inv.first c
      rw [List.mem_singleton.mp hc'] at hm; exact hm
    simp only [stale, this, Bool.or_eq_true, decide_eq_true_eq]
    left; right
    show maxOf c.nin c.insz < maxOf d.nin d.insz
    omega
  have hbuf : (calls (Rec.new false) [c, d]).buf = some (alloc d.dim) := by
    show (call (call (Rec.new false) c) d).buf = _
    have hu : (call (Rec.new false) c).user = false := rfl
    unfold call at hu hst ⊢
    simp only [hu, Bool.false_eq_true, if_false] at hst ⊢
    simp only [update, Rec.new, Bool.false_eq_true, if_false] at hst ⊢
    rw [hst]; rfl
  have hadr : (alloc d.dim).addr .x i j = none := by
    rw [addr_eq, if_neg (show ¬ i < dN d.dim .x by simp [dN, Name.isIn, Shape.dim]; omega)]
  have hus : Used c .x i j := by show (if Name.x.isIn = true then _ else _); rw [if_pos (show Name.x.isIn = true from rfl)]; exact ⟨hi', hj⟩
  refine ⟨_, hbuf, ?_, hus, hadr, fun hr => ?_⟩
  · show (call (calls (Rec.new false) [c, d]) c).buf = _
    have hu : (calls (Rec.new false) [c, d]).user = false := rfl
    have hmx : DLe c.dim (calls (Rec.new false) [c, d]).mx := by
      have hup : ∀ a b : ℕ, a ≤ upto (upto 0 a) b := by intro a b; unfold upto; split <;> split <;> omega
      exact ⟨hup _ _, hup _ _, hup _ _, hup _ _⟩
    have hns : stale (calls (Rec.new false) [c, d]) c.dim = false := by
      have h1 := hmx.nin; have h2 := hmx.nout; have h3 := hmx.isz; have h4 := hmx.osz
      simp only [stale, hbuf, Option.isNone_some, Bool.false_or, Bool.or_eq_false_iff, decide_eq_false_iff_not, not_lt]
      exact ⟨⟨⟨h1, h2⟩, h3⟩, h4⟩
    unfold call
    simp only [hu, Bool.false_eq_true, if_false, update, hns, hbuf]
  · obtain ⟨_, q, _, _, hq, _⟩ := hr.inside .x rfl i j hus
    rw [hadr] at hq; exact absurd hq (by simp)

/-- If no output block has a variable, `populate_dppp_nodata` itself writes the pointers of `Zp` behind the block. -/
theorem C68_no_output (c : Shape) (hsm : Small c) (hn : 0 < c.nin) (h0 : ∀ i < c.nout, c.outsz i = 0) :
    ∃ b p, (calls (Rec.new false) [c]).buf = some b ∧ b.ptr .Zp (c.nin - 1) = some p ∧ b.size < p + 8 := by
  have hz : maxOf c.nout c.outsz = 0 := Nat.le_zero.mp (maxOf_le fun i hi => (h0 i hi).le)
  refine ⟨alloc c.dim, base c.dim .Zp + 8 * (c.nin - 1), rfl, ?_, ?_⟩
  · rw [ptr_eq, if_pos (show c.nin - 1 < dN c.dim .Zp by simp [dN, Name.isIn, Shape.dim]; omega)]
  · rw [base_Zp, size_eq hsm, words_eq]
    have e2 : c.dim.osz = 0 := hz
    have e1 : c.dim.nin = c.nin := rfl
    rw [e1, e2]; simp only [Nat.mul_zero, Nat.zero_mul]; omega

/-- Conversely, with at least one output variable the allocation writes its tables inside the block. -/
theorem C68_tables (c : Shape) (hsm : Small c) (ho : ∃ i < c.nout, 0 < c.outsz i) (a : Name) (i : ℕ) (p : ℕ) (h : (alloc c.dim).ptr a i = some p) :
    p + 8 ≤ (alloc c.dim).size := by
  obtain ⟨k, hk, hpos⟩ := ho
  have hm : c.outsz k ≤ maxOf c.nout c.outsz := le_maxOf hk
  have hq : c.dim.nout * 1 ≤ c.dim.nout * c.dim.osz := Nat.mul_le_mul_left _ (show 1 ≤ c.dim.osz from by show 1 ≤ maxOf c.nout c.outsz; omega)
  have hq0 : 1 ≤ c.dim.nout * c.dim.osz := by have : 1 ≤ c.dim.nout := by show 1 ≤ c.nout; omega
                                              omega
  have hq1 : 1 * c.dim.nin ≤ c.dim.nout * c.dim.osz * c.dim.nin := Nat.mul_le_mul_right _ hq0
  rw [ptr_eq] at h
  by_cases hi : i < dN c.dim a
  · rw [if_pos hi, Option.some.injEq] at h
    rw [size_eq hsm, words_eq]
    by_cases ha : a = .Zp
    · subst ha
      rw [base_Zp] at h
      simp only [dN, Name.isIn, if_true] at hi
      omega
    · have hp : a.pos < Name.pos .Zp := by cases a <;> simp [Name.pos] at ha ⊢
      have hb := base_mono c.dim a .Zp hp
      rw [base_Zp, len] at hb
      omega
  · rw [if_neg hi] at h; exact absurd h (by simp)

/-! ## The hypotheses are met -/

/-- `y = f(x, w)` with blocks of 3 and 2 inputs and one block of 2 outputs. -/
def f32 : Shape := ⟨2, 1, fun i => if i = 0 then 3 else 2, fun _ => 2⟩
/-- A smaller call of the same function. -/
def f21 : Shape := ⟨2, 1, fun i => if i = 0 then 2 else 1, fun _ => 1⟩

example : Covers f32 f21 := ⟨by decide, by decide, by decide, by decide⟩
theorem covers_refl (c : Shape) : Covers c c := ⟨le_refl _, le_refl _, fun i hi => Or.inr ⟨i, hi, le_refl _⟩, fun i hi => Or.inr ⟨i, hi, le_refl _⟩⟩
theorem small32 : Small f32 := by unfold Small; decide
theorem small21 : Small f21 := by unfold Small; decide
/-- Two calls of different sizes. -/
example : ∃ b, (calls (Rec.new false) [f21, f32, f21]).buf = some b ∧ ∀ c ∈ [f21, f32, f21], Room b c (· ≠ .Zp) := by
  have h : Covers f32 f21 := ⟨by decide, by decide, by decide, by decide⟩
  refine C68_room_partial f21 [f32, f21] ?_ ?_
  · intro c hc d hd
    simp only [List.mem_cons, List.not_mem_nil, or_false] at hc hd
    rcases hc with rfl | rfl | rfl <;> rcases hd with rfl | rfl | rfl <;>
      first | exact Or.inl (covers_refl _) | exact Or.inl h | exact Or.inr h
  · intro c hc
    simp only [List.mem_cons, List.not_mem_nil, or_false] at hc
    rcases hc with rfl | rfl | rfl <;> first | exact small21 | exact small32
/-- 2 inputs and 4 outputs: `Zp` fits. -/
example : ∃ b, (calls (Rec.new false) [⟨1, 1, fun _ => 2, fun _ => 4⟩]).buf = some b ∧ Room b ⟨1, 1, fun _ => 2, fun _ => 4⟩ fun _ => True := by
  obtain ⟨b, h1, h2⟩ := C68_room_Zp_partial ⟨1, 1, fun _ => 2, fun _ => 4⟩ [] (fun c hc d hd => by
    rw [List.mem_singleton] at hc hd; subst hc hd; exact Or.inl (covers_refl _)) (fun c hc => by
    rw [List.mem_singleton] at hc; subst hc; unfold Small; decide) (fun c hc => by
    rw [List.mem_singleton] at hc; subst hc; unfold Enough; decide)
  exact ⟨b, h1, h2 _ (by simp)⟩

/-- A function of ten variables with one result. -/
def grad10 : Shape := ⟨1, 1, fun _ => 10, fun _ => 1⟩
/-- Its `Zp[0][9]` lies behind the block. -/
example : ∃ b q, (calls (Rec.new false) [grad10]).buf = some b ∧ Used grad10 .Zp 0 9 ∧ b.addr .Zp 0 9 = some q ∧ b.size < q + 8 :=
  C68_Zp_outside grad10 (by unfold Small; decide) (by unfold Enough; decide) (by decide) (by decide) (by decide)
/-- Three blocks of two variables, then one block of five. -/
example : ∃ b, (calls (Rec.new false) [⟨3, 1, fun _ => 2, fun _ => 1⟩, ⟨1, 1, fun _ => 5, fun _ => 1⟩]).buf = some b ∧
    b.addr .x 2 0 = none := by
  obtain ⟨b, h, _, _, h2, _⟩ := C68_fewer_blocks ⟨3, 1, fun _ => 2, fun _ => 1⟩ ⟨1, 1, fun _ => 5, fun _ => 1⟩ (by decide)
    ⟨0, by decide, by decide⟩ 2 (by decide) (by decide) 0 (by decide)
  exact ⟨b, h, h2⟩
/-- Two input blocks, no output. -/
example : ∃ b p, (calls (Rec.new false) [⟨2, 0, fun _ => 3, fun _ => 0⟩]).buf = some b ∧ b.ptr .Zp 1 = some p ∧ b.size < p + 8 :=
  C68_no_output ⟨2, 0, fun _ => 3, fun _ => 0⟩ (by unfold Small; decide) (by decide) (by decide)

end Verif.Props.ExtBuf
