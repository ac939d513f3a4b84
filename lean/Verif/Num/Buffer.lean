import Mathlib.Data.List.Basic
import Mathlib.Data.List.Nodup

/-!
# `include/adolc/buffer_temp.h`: the chained buffer of function records
-/
set_option linter.all false
namespace Verif.Num.Buffer

/-- An element: the fields `index`, `allmem` (null or not) and the rest. -/
structure Rec (α : Type) where
  index : Nat
  allmem : Option Nat
  data : α

/-- `SubBuffer`: buffer_temp.h:33-37. -/
structure Sub (α : Type) where
  elements : Nat → Rec α
  next : Option Nat

/-- Heap of sub-buffers by address. -/
abbrev Heap (α : Type) := Nat → Option (Sub α)

/-- Members of `Buffer`: buffer_temp.h:56-58. -/
structure Buf (α : Type) where
  first : Option Nat := none
  init : Option (α → α) := none
  num : Nat := 0

def upd {β : Type} (f : Nat → β) (k : Nat) (v : β) : Nat → β := fun i => if i = k then v else f i

/-- The walk loops buffer_temp.h:109-113 and 139-142; `none` is a null dereference (or, for
`buff_size = 0`, non-termination). -/
def walk {α : Type} (B : Nat) (H : Heap α) (prev cur : Option Nat) (tmp : Nat) : Option (Option Nat × Option Nat × Nat) :=
  if h : 0 < B ∧ B ≤ tmp then
    match cur with
    | none => none
    | some a => match H a with
      | none => none
      | some s => walk B H (some a) s.next (tmp - B)
  else if B = 0 then none else some (prev, cur, tmp)
termination_by tmp

/-- `append`: buffer_temp.h:104-130.  `a` and `junk` are the address and the uninitialised content
`new SubBuffer` would yield.  The result is the pointer (address, slot). -/
def append {α : Type} (B : Nat) (H : Heap α) (b : Buf α) (a : Nat) (junk : Nat → Rec α) : Option (Heap α × Buf α × (Nat × Nat)) :=
  match walk B H none b.first b.num with
  | none => none
  | some (prev, cur, tmp) =>
    -- 114-121
    let r : Option (Heap α × Buf α × Nat) :=
      match cur with
      | some c => some (H, b, c)
      | none =>
        let H := upd H a (some { elements := junk, next := none })
        match b.first with
        | none => some (H, { b with first := some a }, a)
        | some _ => match prev with
          | none => none
          | some q => match H q with
            | none => none
            | some s => some (upd H q (some { s with next := some a }), b, a)
    match r with
    | none => none
    | some (H, b, c) => match H c with
      | none => none
      | some s =>
        -- 122-129
        let e := s.elements tmp
        let e := { e with allmem := none }
        let e := match b.init with | none => e | some f => { e with data := f e.data }
        let e := { e with index := b.num }
        some (upd H c (some { s with elements := upd s.elements tmp e }), { b with num := b.num + 1 }, (c, tmp))

/-- `getElement`: buffer_temp.h:132-144.  `none`: the error is raised or a null pointer is followed. -/
def getElement {α : Type} (B : Nat) (H : Heap α) (b : Buf α) (i : Nat) : Option (Nat × Nat) :=
  if i ≥ b.num then none
  else match walk B H none b.first i with
    | some (_, some c, t) => some (c, t)
    | _ => none

/-- `*p` -/
def load {α : Type} (H : Heap α) (p : Nat × Nat) : Option (Rec α) := (H p.1).map fun s => s.elements p.2

/-- `p->field = v` for the fields other than `index`, `allmem`. -/
def store {α : Type} (H : Heap α) (p : Nat × Nat) (v : α) : Option (Heap α) :=
  (H p.1).map fun s => upd H p.1 (some { s with elements := upd s.elements p.2 { s.elements p.2 with data := v } })

/-! ## Histories -/

/-- A client registers a record, or writes the record it registered as number `i` through the
pointer it was given then. -/
inductive Ev (α : Type) where
  | reg (a : Nat) (junk : Nat → Rec α)
  | write (i : Nat) (v : α)

structure St (α : Type) where
  H : Heap α
  b : Buf α
  /-- the pointers handed out so far -/
  ptrs : List (Nat × Nat)

/-- The allocator returns an address not in use; clients only write records they registered. -/
def step {α : Type} (B : Nat) (s : St α) : Ev α → Option (St α)
  | .reg a junk => match append B s.H s.b a junk with
    | none => none
    | some (H, b, p) => some { H := H, b := b, ptrs := s.ptrs ++ [p] }
  | .write i v => match s.ptrs[i]? with
    | none => none
    | some p => match store s.H p v with
      | none => none
      | some H => some { s with H := H }

/-- Legality of an event in a state: fresh addresses, existing records. -/
def Legal {α : Type} (s : St α) : Ev α → Prop
  | .reg a _ => s.H a = none
  | .write i _ => i < s.ptrs.length

/-! ## Proofs -/

/-- The chain of sub-buffers starting at `cur`. -/
def Chain {α : Type} (H : Heap α) : Option Nat → List Nat → Prop
  | cur, [] => cur = none
  | cur, a :: L => cur = some a ∧ ∃ s, H a = some s ∧ Chain H s.next L

theorem walk_chain {α : Type} {B : Nat} (hB : 0 < B) {H : Heap α} : ∀ (tmp : Nat) (L : List Nat) (prev cur : Option Nat),
    Chain H cur L → tmp / B ≤ L.length →
    walk B H prev cur tmp = some (if tmp / B = 0 then prev else L[tmp / B - 1]?, L[tmp / B]?, tmp % B) := by
  intro tmp
  induction tmp using Nat.strongRecOn with
  | ind tmp ih =>
    intro L prev cur hc hl
    rw [walk.eq_def]
    by_cases h : B ≤ tmp
    · rw [dif_pos ⟨hB, h⟩]
      have hd : tmp / B = (tmp - B) / B + 1 := by rw [Nat.div_eq tmp B, if_pos ⟨hB, h⟩]
      have hm : tmp % B = (tmp - B) % B := by rw [Nat.mod_eq_sub_mod h]
      rw [hd, hm]
      rw [hd] at hl
      have ih := ih (tmp - B) (by omega)
      generalize (tmp - B) / B = qq at *
      generalize (tmp - B) % B = rr at *
      cases L with
      | nil => simp only [List.length_nil] at hl; omega
      | cons a L =>
        obtain ⟨rfl, s, hs, hc⟩ := hc
        simp only [hs]
        rw [ih L (some a) s.next hc (by simp only [List.length_cons] at hl; omega)]
        simp only [Nat.add_sub_cancel, List.getElem?_cons_succ]
        rw [if_neg (by omega : ¬ (qq + 1 = 0))]
        congr 2
        by_cases h0 : qq = 0
        · rw [if_pos h0, h0]; rfl
        · rw [if_neg h0]
          obtain ⟨q, hq⟩ := Nat.exists_eq_succ_of_ne_zero h0
          rw [hq]; rfl
    · rw [dif_neg (by omega), if_neg (by omega)]
      rw [Nat.div_eq_of_lt (by omega), Nat.mod_eq_of_lt (by omega)]
      cases L with
      | nil => simp only [Chain] at hc; simp [hc]
      | cons a L => simp only [Chain] at hc; simp [hc.1]

theorem walk_lt {α : Type} {B tmp : Nat} (h : tmp < B) (H : Heap α) (prev cur : Option Nat) :
    walk B H prev cur tmp = some (prev, cur, tmp) := by
  rw [walk.eq_def, dif_neg (by omega), if_neg (by omega)]

theorem walk_ge {α : Type} {B tmp a : Nat} (hB : 0 < B) (h : B ≤ tmp) {H : Heap α} {s : Sub α} (hs : H a = some s) (prev : Option Nat) :
    walk B H prev (some a) tmp = walk B H (some a) s.next (tmp - B) := by
  rw [walk.eq_def, dif_pos ⟨hB, h⟩]
  simp only [hs]

theorem Chain.alloc {α : Type} {H : Heap α} {cur : Option Nat} {L : List Nat} (h : Chain H cur L) : ∀ a ∈ L, ∃ s, H a = some s := by
  induction L generalizing cur with
  | nil => simp
  | cons a L ih =>
    obtain ⟨_, s, hs, hc⟩ := h
    intro q hq
    rcases List.mem_cons.1 hq with rfl | hq
    · exact ⟨s, hs⟩
    · exact ih hc q hq

/-- Changing elements, or addresses off the chain, keeps it. -/
theorem Chain.congr {α : Type} {H H' : Heap α} {cur : Option Nat} {L : List Nat} (h : Chain H cur L)
    (hh : ∀ a ∈ L, ∀ s, H a = some s → ∃ s', H' a = some s' ∧ s'.next = s.next) : Chain H' cur L := by
  induction L generalizing cur with
  | nil => exact h
  | cons a L ih =>
    obtain ⟨h1, s, hs, hc⟩ := h
    obtain ⟨s', hs', hn⟩ := hh a (by simp) s hs
    refine ⟨h1, s', hs', ?_⟩
    rw [hn]
    exact ih hc (fun q hq => hh q (by simp [hq]))

/-- Linking a new sub-buffer behind the last one. -/
theorem Chain.snoc {α : Type} {H : Heap α} {cur : Option Nat} {L : List Nat} (h : Chain H cur L) (hnd : L.Nodup)
    {a : Nat} (ha : H a = none) {q : Nat} (hq : L.getLast? = some q) {sub s : Sub α} (hsub : sub.next = none) (hs : H q = some s) :
    Chain (upd (upd H a (some sub)) q (some { s with next := some a })) cur (L ++ [a]) := by
  induction L generalizing cur with
  | nil => simp at hq
  | cons b L ih =>
    obtain ⟨h1, t, ht, hc⟩ := h
    have hba : b ≠ a := by rintro rfl; rw [ha] at ht; cases ht
    obtain ⟨hn1, hn2⟩ := List.nodup_cons.1 hnd
    cases L with
    | nil =>
      simp only [List.getLast?_singleton, Option.some.injEq] at hq
      subst hq
      rw [hs] at ht
      refine ⟨h1, { s with next := some a }, by simp [upd], rfl, sub, ?_, hsub⟩
      simp [upd, Ne.symm hba]
    | cons c L =>
      rw [List.getLast?_cons_cons] at hq
      have hqb : q ≠ b := by
        rintro rfl
        exact hn1 (List.mem_of_getLast? hq)
      refine ⟨h1, t, ?_, ih hc hn2 hq⟩
      simp [upd, Ne.symm hqb, hba, ht]

/-- Invariant. `sp` is the specification: the last value written to each record. -/
structure Inv {α : Type} (B : Nat) (s : St α) (sp : Nat → Option α) : Prop where
  num : s.b.num = s.ptrs.length
  chain : ∃ L, Chain s.H s.b.first L ∧ L.Nodup ∧ L.length = (s.b.num + (B - 1)) / B ∧
    ∀ i, i < s.b.num → ∃ c, L[i / B]? = some c ∧ s.ptrs[i]? = some (c, i % B)
  data : ∀ (i : Nat) p, s.ptrs[i]? = some p → ∃ r, load s.H p = some r ∧ r.index = i ∧ r.allmem = none ∧ ∀ v, sp i = some v → r.data = v
  fresh : ∀ i, s.b.num ≤ i → sp i = none

/-- Number of records an event registers. -/
def regs {α : Type} : Ev α → Nat
  | .reg _ _ => 1
  | .write _ _ => 0

/-- Specification of a history: the last value written to each record. -/
def specStep {α : Type} (sp : Nat → Option α) : Ev α → (Nat → Option α)
  | .reg _ _ => sp
  | .write i v => upd sp i (some v)

theorem ptr_inj {B : Nat} (hB : 0 < B) {L : List Nat} (hnd : L.Nodup) {i j c : Nat}
    (hi : L[i / B]? = some c) (hj : L[j / B]? = some c) (hm : i % B = j % B) : i = j := by
  have h : i / B = j / B := by
    obtain ⟨h1, e1⟩ := List.getElem?_eq_some_iff.1 hi
    obtain ⟨h2, e2⟩ := List.getElem?_eq_some_iff.1 hj
    exact (List.Nodup.getElem_inj_iff hnd).1 (e1.trans e2.symm)
  rw [← Nat.div_add_mod i B, ← Nat.div_add_mod j B, h, hm]

theorem getElement_ptr {α : Type} {B : Nat} (hB : 0 < B) {s : St α} {sp : Nat → Option α} (h : Inv B s sp) (i : Nat) :
    getElement B s.H s.b i = s.ptrs[i]? := by
  unfold getElement
  by_cases hi : i ≥ s.b.num
  · rw [if_pos hi, List.getElem?_eq_none (by rw [← h.num]; exact hi)]
  · rw [if_neg hi]
    obtain ⟨L, hc, hnd, hl, hp⟩ := h.chain
    obtain ⟨c, h1, h2⟩ := hp i (by omega)
    obtain ⟨h3, _⟩ := List.getElem?_eq_some_iff.1 h1
    rw [walk_chain hB i L none _ hc (by omega), h1, h2]

theorem ptrs_nodup {α : Type} {B : Nat} (hB : 0 < B) {s : St α} {sp : Nat → Option α} (h : Inv B s sp)
    {i j : Nat} {p : Nat × Nat} (hi : s.ptrs[i]? = some p) (hj : s.ptrs[j]? = some p) : i = j := by
  obtain ⟨L, hc, hnd, hl, hp⟩ := h.chain
  have li := (List.getElem?_eq_some_iff.1 hi).1
  have lj := (List.getElem?_eq_some_iff.1 hj).1
  obtain ⟨c, h1, h2⟩ := hp i (by rw [h.num]; exact li)
  obtain ⟨d, h3, h4⟩ := hp j (by rw [h.num]; exact lj)
  rw [hi] at h2
  rw [hj] at h4
  cases h2
  obtain ⟨hcd, hm⟩ := Prod.mk.inj (Option.some.inj h4)
  subst hcd
  exact ptr_inj hB hnd h1 h3 hm

theorem ceil_cases {B : Nat} (hB : 0 < B) (n : Nat) :
    (n % B = 0 ∧ (n + (B - 1)) / B = n / B ∨ n % B ≠ 0 ∧ (n + (B - 1)) / B = n / B + 1) ∧
    (n + 1 + (B - 1)) / B = n / B + 1 := by
  have h := Nat.div_add_mod n B
  have hm := Nat.mod_lt n hB
  generalize n / B = q at *
  generalize n % B = r at *
  subst h
  have key : ∀ x, x < B → (B * q + x) / B = q := fun x hx => by
    rw [Nat.mul_add_div hB, Nat.div_eq_of_lt hx, Nat.add_zero]
  have key2 : ∀ x, B ≤ x → x < 2 * B → (B * q + x) / B = q + 1 := fun x h1 h2 => by
    rw [Nat.mul_add_div hB]
    congr 1
    rw [Nat.div_eq_iff (by omega)]
    omega
  refine ⟨?_, by rw [show B * q + r + 1 + (B - 1) = B * q + (r + B) by omega]; exact key2 _ (by omega) (by omega)⟩
  by_cases hr : r = 0
  · left; exact ⟨hr, by rw [hr, Nat.add_zero]; exact key _ (by omega)⟩
  · right; exact ⟨hr, by rw [Nat.add_assoc]; exact key2 _ (by omega) (by omega)⟩

/-- The record written by `append`. -/
def fresh {α : Type} (b : Buf α) (e : Rec α) : Rec α :=
  let e := { e with allmem := none }
  let e := match b.init with | none => e | some f => { e with data := f e.data }
  { e with index := b.num }

theorem fresh_index {α : Type} (b : Buf α) (e : Rec α) : (fresh b e).index = b.num ∧ (fresh b e).allmem = none := by
  unfold fresh
  cases b.init <;> exact ⟨rfl, rfl⟩

/-- Preservation, once the sub-buffer of the new record is on the chain. -/
theorem inv_reg {α : Type} {B : Nat} (hB : 0 < B) {s : St α} {sp : Nat → Option α} (h : Inv B s sp)
    {H : Heap α} {first : Option Nat} {L : List Nat} {c : Nat} {sub : Sub α}
    (hch : Chain H first L) (hnd : L.Nodup) (hlen : L.length = (s.b.num + 1 + (B - 1)) / B)
    (hptr : ∀ i, i < s.b.num → ∃ c, L[i / B]? = some c ∧ s.ptrs[i]? = some (c, i % B))
    (hc : L[s.b.num / B]? = some c) (hsub : H c = some sub)
    (hold : ∀ (i : Nat) p, s.ptrs[i]? = some p → load H p = load s.H p) :
    Inv B { H := upd H c (some { sub with elements := upd sub.elements (s.b.num % B) (fresh s.b (sub.elements (s.b.num % B))) }),
            b := { s.b with first := first, num := s.b.num + 1 }, ptrs := s.ptrs ++ [(c, s.b.num % B)] } sp := by
  have hget : ∀ i, i < s.b.num → (s.ptrs ++ [(c, s.b.num % B)])[i]? = s.ptrs[i]? := fun i hi => by
    rw [List.getElem?_append_left (by rw [← h.num]; exact hi)]
  refine ⟨by simp [h.num], ⟨L, ?_, hnd, hlen, ?_⟩, ?_, fun i hi => h.fresh i (by simp only at hi; omega)⟩
  · refine hch.congr fun a _ t ht => ?_
    by_cases hac : a = c
    · subst hac
      rw [hsub] at ht
      cases ht
      exact ⟨_, if_pos rfl, rfl⟩
    · exact ⟨t, by simp [upd, hac, ht], rfl⟩
  · intro i hi
    by_cases hin : i < s.b.num
    · obtain ⟨d, h1, h2⟩ := hptr i hin
      exact ⟨d, h1, by simp only; rw [hget i hin]; exact h2⟩
    · have : i = s.b.num := by simp only at hi; omega
      subst this
      refine ⟨c, hc, ?_⟩
      simp only
      rw [List.getElem?_append_right (Nat.le_of_eq h.num.symm)]
      simp [h.num]
  · intro i p hp
    simp only at hp
    by_cases hin : i < s.b.num
    · rw [hget i hin] at hp
      obtain ⟨r, h1, h2, h3, h4⟩ := h.data i p hp
      refine ⟨r, ?_, h2, h3, h4⟩
      have hl := hold i p hp
      rw [h1] at hl
      obtain ⟨d, g1, g2⟩ := hptr i hin
      rw [hp] at g2
      cases g2
      by_cases hdc : d = c
      · subst hdc
        have hne : i % B ≠ s.b.num % B := fun e => by
          have := ptr_inj hB hnd g1 hc e
          omega
        simp only [load, hsub, Option.map_some] at hl
        simp [load, upd, hne]
        exact Option.some.inj hl
      · simpa [load, upd, hdc] using hl
    · have hl := (List.getElem?_eq_some_iff.1 hp).1
      have hi : i = s.b.num := by simp only [List.length_append, List.length_singleton, ← h.num] at hl; omega
      subst hi
      rw [List.getElem?_append_right (Nat.le_of_eq h.num.symm)] at hp
      simp only [h.num, Nat.sub_self, List.getElem?_cons_zero, Option.some.injEq] at hp
      subst hp
      refine ⟨fresh s.b (sub.elements (s.b.num % B)), by simp [load, upd, h.num], (fresh_index _ _).1, (fresh_index _ _).2, ?_⟩
      intro v hv
      rw [h.fresh _ (Nat.le_refl _)] at hv
      cases hv

theorem step_inv {α : Type} {B : Nat} (hB : 0 < B) {s : St α} {sp : Nat → Option α} (h : Inv B s sp)
    (e : Ev α) (hl : Legal s e) : ∃ s', step B s e = some s' ∧ Inv B s' (specStep sp e) ∧ s.ptrs <+: s'.ptrs ∧
      s'.ptrs.length = s.ptrs.length + regs e := by
  cases e with
  | reg a junk =>
    obtain ⟨L, hc, hnd, hlen, hp⟩ := h.chain
    obtain ⟨hcase, hceil⟩ := ceil_cases hB s.b.num
    have hle : s.b.num / B ≤ L.length := by omega
    have hw := walk_chain hB s.b.num L none _ hc hle
    have hloc : ∀ (i : Nat) p, s.ptrs[i]? = some p → p.1 ∈ L := by
      intro i p hip
      obtain ⟨c, h1, h2⟩ := hp i (by rw [h.num]; exact (List.getElem?_eq_some_iff.1 hip).1)
      rw [hip] at h2
      cases h2
      exact List.mem_of_getElem? h1
    have haL : a ∉ L := fun hm => by
      obtain ⟨t, ht⟩ := hc.alloc a hm
      rw [show s.H a = none from hl] at ht
      cases ht
    simp only [step, append, hw]
    rcases hcase with ⟨hm, hlen'⟩ | ⟨hm, hlen'⟩
    · -- a new sub-buffer
      have hnone : L[s.b.num / B]? = none := List.getElem?_eq_none (by omega)
      simp only [hnone]
      cases hL : L with
      | nil =>
        subst hL
        have hf : s.b.first = none := hc
        have hz : s.b.num = 0 := by
          have := Nat.div_add_mod s.b.num B
          simp only [List.length_nil] at hlen
          rw [← this, hm, ← hlen', ← hlen]; simp
        simp only [hf]
        rw [show upd s.H a (some { elements := junk, next := none }) a = some { elements := junk, next := none } by simp [upd]]
        refine ⟨_, rfl, ?_, List.prefix_append _ _, by simp [regs]⟩
        have hpt : s.ptrs = [] := List.length_eq_zero_iff.1 (by rw [← h.num, hz])
        have := inv_reg hB h (H := upd s.H a (some { elements := junk, next := none })) (first := some a) (L := [a]) (c := a)
          (sub := { elements := junk, next := none }) ⟨rfl, { elements := junk, next := none }, by simp [upd], rfl⟩ (by simp)
          (by rw [hceil, hz]; simp) (fun i hi => by omega) (by rw [hz]; simp) (by simp [upd])
          (fun i p hip => by rw [hpt] at hip; simp at hip)
        exact this
      | cons x xs =>
        rw [← hL]
        have hf : s.b.first = some x := by rw [hL] at hc; exact hc.1
        have hne : s.b.num / B ≠ 0 := by
          have : L.length = xs.length + 1 := by rw [hL]; rfl
          omega
        have hpos : s.b.num / B - 1 < L.length := by omega
        have hq : L[s.b.num / B - 1]? = some L[s.b.num / B - 1] := List.getElem?_eq_getElem hpos
        have hlast : L.getLast? = some L[s.b.num / B - 1] := by
          rw [List.getLast?_eq_getElem?, ← hq]
          congr 1
          omega
        generalize L[s.b.num / B - 1] = q at hq hlast
        have hqL : q ∈ L := List.mem_of_getElem? hq
        obtain ⟨t, ht⟩ := hc.alloc q hqL
        have hqa : q ≠ a := fun e => haL (e ▸ hqL)
        simp only [hf, if_neg hne, hq]
        rw [show upd s.H a (some { elements := junk, next := none }) q = some t by simp [upd, hqa, ht]]
        simp only
        rw [show upd (upd s.H a (some { elements := junk, next := none })) q (some { t with next := some a }) a
          = some { elements := junk, next := none } by simp [upd, Ne.symm hqa]]
        refine ⟨_, rfl, ?_, List.prefix_append _ _, by simp [regs]⟩
        have hchain := hc.snoc hnd (a := a) hl hlast (sub := { elements := junk, next := none }) rfl ht
        have := inv_reg hB h hchain (c := a) (sub := { elements := junk, next := none })
          (by rw [List.nodup_append]; exact ⟨hnd, by simp, fun y hy z hz => by
            rw [List.mem_singleton.1 hz]; exact fun e => haL (e ▸ hy)⟩)
          (by rw [List.length_append, List.length_singleton, hceil]; omega)
          (fun i hi => by
            obtain ⟨d, h1, h2⟩ := hp i hi
            exact ⟨d, by rw [List.getElem?_append_left (List.getElem?_eq_some_iff.1 h1).1]; exact h1, h2⟩)
          (by rw [List.getElem?_append_right (by omega)]; simp [show s.b.num / B - L.length = 0 by omega])
          (by simp [upd, Ne.symm hqa])
          (fun i p hip => by
            have hpL := hloc i p hip
            have hpa : p.1 ≠ a := fun e => haL (e ▸ hpL)
            by_cases hpq : p.1 = q
            · simp [load, upd, hpq, ht]
            · simp [load, upd, hpq, hpa])
        exact this
    · -- room in the last sub-buffer
      have hlt : s.b.num / B < L.length := by omega
      have hq : L[s.b.num / B]? = some L[s.b.num / B] := List.getElem?_eq_getElem hlt
      generalize L[s.b.num / B] = c at hq
      obtain ⟨t, ht⟩ := hc.alloc c (List.mem_of_getElem? hq)
      simp only [hq, ht]
      refine ⟨_, rfl, ?_, List.prefix_append _ _, by simp [regs]⟩
      have := inv_reg hB h hc hnd (by rw [hlen, hlen', hceil]) hp hq ht (fun _ _ _ => rfl)
      exact this
  | write i v =>
    have hi : s.ptrs[i]? = some s.ptrs[i] := List.getElem?_eq_getElem hl
    generalize s.ptrs[i]'hl = p at hi
    obtain ⟨r, h1, h2, h3, h4⟩ := h.data i p hi
    obtain ⟨t, ht, hr⟩ := Option.map_eq_some_iff.1 h1
    simp only [step, hi, store, ht, Option.map_some]
    refine ⟨_, rfl, ⟨h.num, ?_, ?_, ?_⟩, List.prefix_refl _, by simp [regs]⟩
    · obtain ⟨L, hc, hnd, hlen, hp⟩ := h.chain
      refine ⟨L, hc.congr fun a _ u hu => ?_, hnd, hlen, hp⟩
      by_cases hap : a = p.1
      · subst hap
        rw [ht] at hu
        cases hu
        exact ⟨_, if_pos rfl, rfl⟩
      · exact ⟨u, by simp [upd, hap, hu], rfl⟩
    · intro j p' hj
      obtain ⟨r', g1, g2, g3, g4⟩ := h.data j p' hj
      by_cases hij : j = i
      · subst hij
        rw [hi] at hj
        cases hj
        rw [h1] at g1
        cases g1
        refine ⟨{ r with data := v }, by simp [load, upd, hr], g2, g3, ?_⟩
        intro w hw
        simpa [specStep, upd] using hw
      · have hne : p' ≠ p := fun e => hij (ptrs_nodup hB h hj (e ▸ hi))
        refine ⟨r', ?_, g2, g3, fun w hw => g4 w (by simpa [specStep, upd, hij] using hw)⟩
        by_cases hap : p'.1 = p.1
        · have h2 : p'.2 ≠ p.2 := fun e => hne (Prod.ext hap e)
          simp only [load, hap, ht, Option.map_some, Option.some.injEq] at g1
          simp [load, upd, hap, h2, g1]
        · simpa [load, upd, hap] using g1
    · intro j hj
      have : j ≠ i := by
        rintro rfl
        have : s.b.num ≤ j := hj
        rw [h.num] at this
        exact absurd (show j < s.ptrs.length from hl) (by omega)
      simpa [specStep, upd, this] using h.fresh j hj

/-- Legality of a whole history. -/
def LegalRun {α : Type} (B : Nat) : St α → List (Ev α) → Prop
  | _, [] => True
  | s, e :: es => Legal s e ∧ ∀ s', step B s e = some s' → LegalRun B s' es

theorem run_inv {α : Type} {B : Nat} (hB : 0 < B) : ∀ (es : List (Ev α)) {s : St α} {sp : Nat → Option α}, Inv B s sp →
    LegalRun B s es → ∃ s', es.foldlM (step B) s = some s' ∧ Inv B s' (es.foldl specStep sp) ∧ s.ptrs <+: s'.ptrs ∧
      s'.ptrs.length = s.ptrs.length + (es.map regs).sum := by
  intro es
  induction es with
  | nil => intro s sp h _; exact ⟨s, rfl, h, List.prefix_refl _, by simp⟩
  | cons e es ih =>
    intro s sp h hl
    obtain ⟨s1, h1, h2, h3, h3'⟩ := step_inv hB h e hl.1
    obtain ⟨s2, h4, h5, h6, h6'⟩ := ih h2 (hl.2 s1 h1)
    refine ⟨s2, ?_, h5, h3.trans h6, ?_⟩
    · rw [List.foldlM_cons, h1]; exact h4
    · rw [h6', h3', List.map_cons, List.sum_cons]; omega

theorem inv_init {α : Type} {B : Nat} (hB : 0 < B) (H : Heap α) (f : Option (α → α)) :
    Inv B ⟨H, { init := f }, []⟩ (fun _ => none) := by
  refine ⟨rfl, ⟨[], rfl, by simp, ?_, fun i hi => absurd hi (Nat.not_lt_zero i)⟩, fun i p hp => by simp at hp, fun _ _ => rfl⟩
  simp only [List.length_nil, Nat.zero_add]
  rw [Nat.div_eq_of_lt (by omega)]

end Verif.Num.Buffer
