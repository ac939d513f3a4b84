import Verif.Num.Convolut
import Verif.Num.Tensor
import Verif.Num.Buffer

/-!
Property theorems about the numerical utilities.

C26.  Arrays are identified by base addresses in one memory `M : Nat → K`, so coinciding arrays
are covered; `ser M a` is the power series whose coefficients are the array at `a`.
`K` is any field (exact arithmetic).
-/
set_option linter.all false
namespace Verif.Props.Num
open Verif.Num

variable {K : Type} [Field K]

/-- C26.  `conv` writes the truncated product and nothing else; the target may be one of the
factors (or both). -/
theorem C26_conv {dim a b c : Nat} (M : Nat → K) (hca : Same dim c a) (hcb : Same dim c b) :
    (∀ i < dim, conv dim a b c M (c + i) = PowerSeries.coeff i (ser M a * ser M b)) ∧
    ∀ l, (l < c ∨ c + dim ≤ l) → conv dim a b c M l = M l :=
  loop_spec (fun _ t => t) hca hcb dim le_rfl M

/-- C26.  `inconv`/`inconv1` add the truncated product. -/
theorem C26_inconv {dim a b c : Nat} (M : Nat → K) (hca : Same dim c a) (hcb : Same dim c b) :
    (∀ i < dim, inconv dim a b c M (c + i) = M (c + i) + PowerSeries.coeff i (ser M a * ser M b)) ∧
    ∀ l, (l < c ∨ c + dim ≤ l) → inconv dim a b c M l = M l :=
  loop_spec (fun x t => x + t) hca hcb dim le_rfl M

/-- C26.  `deconv`/`deconv1` subtract the truncated product. -/
theorem C26_deconv {dim a b c : Nat} (M : Nat → K) (hca : Same dim c a) (hcb : Same dim c b) :
    (∀ i < dim, deconv dim a b c M (c + i) = M (c + i) - PowerSeries.coeff i (ser M a * ser M b)) ∧
    ∀ l, (l < c ∨ c + dim ≤ l) → deconv dim a b c M l = M l :=
  loop_spec (fun x t => x - t) hca hcb dim le_rfl M

/-- C26.  `inconv0`: as `inconv`, and the first factor is zero afterwards. -/
theorem C26_inconv0 {dim a b c : Nat} (M : Nat → K) (hca : Disj dim c a) (hcb : Same dim c b)
    (hab : Disj dim a b) :
    (∀ i < dim, inconv0 dim a b c M (c + i) = M (c + i) + PowerSeries.coeff i (ser M a * ser M b)) ∧
    (∀ i < dim, inconv0 dim a b c M (a + i) = 0) ∧
    ∀ l, (l < c ∨ c + dim ≤ l) → (l < a ∨ a + dim ≤ l) → inconv0 dim a b c M l = M l :=
  loop0_spec (fun x t => x + t) hca hcb hab dim le_rfl M

/-- C26.  `deconv0`: as `deconv`, and the first factor is zero afterwards. -/
theorem C26_deconv0 {dim a b c : Nat} (M : Nat → K) (hca : Disj dim c a) (hcb : Same dim c b)
    (hab : Disj dim a b) :
    (∀ i < dim, deconv0 dim a b c M (c + i) = M (c + i) - PowerSeries.coeff i (ser M a * ser M b)) ∧
    (∀ i < dim, deconv0 dim a b c M (a + i) = 0) ∧
    ∀ l, (l < c ∨ c + dim ≤ l) → (l < a ∨ a + dim ≤ l) → deconv0 dim a b c M l = M l :=
  loop0_spec (fun x t => x - t) hca hcb hab dim le_rfl M

/-- C26.  `divide` writes the truncated quotient; the target may be the numerator. -/
theorem C26_divide {dim a b c : Nat} (M : Nat → K) (hca : Same dim c a) (hcb : Disj dim c b) (h0 : M b ≠ 0) :
    (∀ i < dim, divide dim a b c M (c + i) = PowerSeries.coeff i (ser M a * (ser M b)⁻¹)) ∧
    ∀ l, (l < c ∨ c + dim ≤ l) → divide dim a b c M l = M l :=
  divide_spec M hca hcb h0

/-- C26.  `recipr` writes the truncated quotient of a constant. -/
theorem C26_recipr {dim : Nat} (hd : 0 < dim) (a : K) {b c : Nat} (M : Nat → K) (hcb : Disj dim c b) (h0 : M b ≠ 0) :
    (∀ i < dim, recipr dim a b c M (c + i) = PowerSeries.coeff i (PowerSeries.C a * (ser M b)⁻¹)) ∧
    ∀ l, (l < c ∨ c + dim ≤ l) → recipr dim a b c M l = M l :=
  recipr_spec hd a M hcb h0

/-- C26.  `zeroset` and `copyAndZeroset`. -/
theorem C26_zeroset (dim a t : Nat) (M : Nat → K) (h : Disj dim a t) :
    (∀ l, zeroset dim a M l = if a ≤ l ∧ l < a + dim then 0 else M l) ∧
    (∀ i < dim, copyAndZeroset dim a t M (t + i) = M (a + i)) ∧
    (∀ i < dim, copyAndZeroset dim a t M (a + i) = 0) ∧
    ∀ l, (l < a ∨ a + dim ≤ l) → (l < t ∨ t + dim ≤ l) → copyAndZeroset dim a t M l = M l :=
  ⟨zeroset_spec dim a M, copyAndZeroset_spec h M⟩

/-- The hypotheses are met: `(1 + 2t + 3t²) * (1 + 2t + 3t²)` in place, and a quotient. -/
example : conv 3 0 0 0 (fun i => (i : ℚ) + 1) 2 = 10 ∧ Same 3 0 0 ∧
    divide 3 0 10 0 (fun i => if i < 10 then (i : ℚ) + 1 else 2) 1 = 1 / 2 ∧ Disj 3 0 10 := by
  refine ⟨by norm_num [conv, down, inner, wr, List.range'], by simp [Same],
    by norm_num [divide, divInner, wr, List.range, List.range.loop], by simp [Disj]⟩

/-! ### C25: compressed symmetric tensors -/
section
open Verif.Num.Tensor

/-- A non-increasing multi-index of degree `d` in `p` directions (0 = no differentiation). -/
def MultiIndex (p d : Nat) (j : List Nat) : Prop := j.length = d ∧ j.Pairwise (· ≥ ·) ∧ ∀ k ∈ j, k ≤ p

/-- `binomi` computes binomial coefficients (exact arithmetic). -/
theorem C25_binomi (n k : Nat) : binomi n k = (n.choose k : Int) := binomi_eq n k

/-- C25 for multi-indices whose nonzero entries are non-increasing: the positions of the
non-increasing multi-indices of degree `d` in `p` directions are exactly `0 .. binomi(p+d,d)-1`,
each taken once; and the position does not depend on how zeros are interspersed.
Missing: arbitrary order of the entries, see `C25_order_matters`. -/
theorem C25_tensor_address_partial (p d : Nat) :
    (∀ j, MultiIndex p d j → 0 ≤ tensorAddress j ∧ tensorAddress j < binomi (p + d) d) ∧
    (∀ r : Nat, (r : Int) < binomi (p + d) d → ∃! j, MultiIndex p d j ∧ tensorAddress j = r) ∧
    (∀ j j', j.Perm j' → NzDesc j → NzDesc j' → tensorAddress j = tensorAddress j') := by
  refine ⟨?_, ?_, fun j j' hp h h' => address_perm h h' hp⟩
  · rintro j ⟨h1, h2, h3⟩
    rw [address_rank h2, binomi_eq, ← h1]
    have := rank_lt h2 h3
    omega
  · intro r hr
    rw [binomi_eq] at hr
    obtain ⟨L, h1, h2, h3, h4⟩ := rank_surj d p r (by exact_mod_cast hr)
    refine ⟨L, ⟨⟨h1, h2, h3⟩, by rw [address_rank h2, h4]⟩, ?_⟩
    rintro L' ⟨⟨g1, g2, g3⟩, g4⟩
    rw [address_rank g2] at g4
    exact rank_inj g2 h2 (by rw [g1, h1]) (by rw [h4]; exact_mod_cast g4)

/-- C25, second access method: `tensorsetup` makes `tensorentry[j1]…[jd]` address the entry
`tensor[tensor_address(d, j)]`, and consumes exactly `binomi(p+d,d)` entries. -/
theorem C25_tensorentry (p d base : Nat) (hd : 0 < d) :
    (∀ j, MultiIndex p d j → ∃ a : Nat, deref (tensorpoint p (d - 1) base).1 j = some (base + a) ∧
      tensorAddress j = a) ∧
    ((tensorpoint p (d - 1) base).2 : Int) = base + binomi (p + d) d := by
  constructor
  · rintro j ⟨h1, h2, h3⟩
    exact ⟨rank j, deref_rank (d - 1) p base j (by omega) h2 h3, address_rank h2⟩
  · rw [point_size, binomi_eq, show d - 1 + 1 = d by omega]
    push_cast
    rfl

/-- The code violates the unrestricted property: the manual allows (1,1,2) for (2,1,1), but the
selection loop passes over the entries only once, so the position is that of (2,0,0). -/
theorem C25_order_matters : tensorAddress [1, 1, 2] ≠ tensorAddress [2, 1, 1] ∧
    tensorAddress [1, 1, 2] = tensorAddress [2, 0, 0] := by
  simp [tensorAddress, sorted, body, maxOf, binomi_eq, List.range, List.range.loop]

/-- The hypotheses are met by non-trivial multi-indices. -/
example : MultiIndex 2 3 [2, 1, 1] ∧ NzDesc [0, 2, 0, 1] ∧ tensorAddress [2, 1, 1] = 6 := by
  refine ⟨by simp [MultiIndex], by simp [NzDesc], ?_⟩
  rw [address_rank (by simp)]
  decide

end

/-! ### C30: records of external and checkpointed functions -/
section
open Verif.Num.Buffer

/-- C30.  Start from an empty buffer with sub-buffers of any size `B > 0` in any heap, and run any
history `h` of registrations and writes (the allocator returning any unused address each time),
then any continuation `h'`.  Then nothing undefined happens; if `n` records were registered in
`h`, then after `h ++ h'` every `i < n` is looked up at the pointer the `i`-th registration in `h`
returned, distinct registrations have distinct pointers, the record says `index = i`, and its
content is what the client last wrote through that pointer; an index not yet registered is refused. -/
theorem C30_records {α : Type} {B : Nat} (hB : 0 < B) (H : Heap α) (f : Option (α → α)) (h h' : List (Ev α))
    (hl : LegalRun B ⟨H, { init := f }, []⟩ (h ++ h')) :
    ∃ s s', h.foldlM (step B) ⟨H, { init := f }, []⟩ = some s ∧
      (h ++ h').foldlM (step B) ⟨H, { init := f }, []⟩ = some s' ∧
      s.ptrs.length = (h.map regs).sum ∧
      (∀ i < s.ptrs.length, getElement B s'.H s'.b i = s.ptrs[i]?) ∧
      (∀ i, getElement B s'.H s'.b i = none ↔ s'.ptrs.length ≤ i) ∧
      (∀ i j, i < s'.ptrs.length → getElement B s'.H s'.b i = getElement B s'.H s'.b j → i = j) ∧
      ∀ i p, getElement B s'.H s'.b i = some p → ∃ r, load s'.H p = some r ∧ r.index = i ∧
        ∀ v, (h ++ h').foldl specStep (fun _ => none) i = some v → r.data = v := by
  have legal_split : ∀ (h : List (Ev α)) (s : St α), LegalRun B s (h ++ h') →
      LegalRun B s h ∧ ∀ s', h.foldlM (step B) s = some s' → LegalRun B s' h' := by
    intro h
    induction h with
    | nil => intro s hl; exact ⟨trivial, fun s' hs => by cases hs; exact hl⟩
    | cons e es ih =>
      intro s hl
      refine ⟨⟨hl.1, fun s1 h1 => (ih s1 (hl.2 s1 h1)).1⟩, fun s' hs => ?_⟩
      rw [List.foldlM_cons] at hs
      cases he : step B s e with
      | none => rw [he] at hs; cases hs
      | some s1 => rw [he] at hs; exact (ih s1 (hl.2 s1 he)).2 s' hs
  obtain ⟨l1, l2⟩ := legal_split h _ hl
  obtain ⟨s, r1, i1, _, n1⟩ := run_inv hB h (inv_init hB H f) l1
  obtain ⟨s', r2, i2, pre, n2⟩ := run_inv hB h' i1 (l2 s r1)
  rw [← List.foldl_append] at i2
  refine ⟨s, s', r1, ?_, by simpa using n1, ?_, ?_, ?_, ?_⟩
  · rw [List.foldlM_append, r1]; exact r2
  · intro i hi
    rw [getElement_ptr hB i2]
    obtain ⟨t, ht⟩ := pre
    rw [← ht, List.getElem?_append_left hi]
  · intro i
    rw [getElement_ptr hB i2]
    simp
  · intro i j hi he
    rw [getElement_ptr hB i2, getElement_ptr hB i2] at he
    have e1 : s'.ptrs[i]? = some s'.ptrs[i] := List.getElem?_eq_getElem hi
    exact ptrs_nodup hB i2 e1 (he ▸ e1)
  · intro i p hp
    rw [getElement_ptr hB i2] at hp
    obtain ⟨r, a1, a2, _, a4⟩ := i2.data i p hp
    exact ⟨r, a1, a2, a4⟩

/-- A legal history over three sub-buffers of two records exists and ends as claimed. -/
example : LegalRun 2 (⟨fun _ => none, { init := none }, []⟩ : St Nat)
    ([.reg 7 (fun _ => ⟨9, some 1, 5⟩), .reg 0 (fun _ => ⟨9, none, 5⟩), .write 1 42] ++
      [.reg 3 (fun _ => ⟨9, none, 5⟩), .reg 1 (fun _ => ⟨9, none, 5⟩), .reg 4 (fun _ => ⟨9, none, 5⟩), .write 4 43]) := by
  simp [LegalRun, Legal, step, append, walk_lt, walk_ge, upd, store]

end

end Verif.Props.Num
