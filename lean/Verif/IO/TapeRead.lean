import Verif.IO.TapeLemmas
import Mathlib.Data.List.Induction
set_option linter.all false
namespace Verif.IO
variable {V : Type} [Zero V]

/-! ### Reading forward -/

/-- The data in `all` agree with what has been written so far, from position `lo` on. -/
def Ext {α : Type} (lo : Nat) (s : Strm α) (all : List α) : Prop :=
  ∀ i x, lo ≤ i → (s.file ++ s.buf)[i]? = some x → all[i]? = some x

/-- The reader stands where the writer stood. -/
structure RF {α : Type} (all : List α) (disk : Bool) (s : Strm α) (r : Rd α) : Prop where
  pos : r.pos = s.buf.length
  cap : r.cap = s.cap
  get : ∀ i, i < s.cap → r.buf[i]? = all[s.file.length + i]?
  num : r.num = all.length - (s.file.length + s.cap)
  file : disk = true → r.file = all

theorem nexts_eq {α : Type} (xs : List α) (r : Rd α)
    (h : ∀ j, j < xs.length → r.buf[r.pos + j]? = xs[j]?) :
    r.nexts xs.length = some (xs, { r with pos := r.pos + xs.length }) := by
  induction xs generalizing r with
  | nil => simp [Rd.nexts]
  | cons x xs ih =>
    have h0 := h 0 (by simp)
    simp only [Nat.add_zero, List.getElem?_cons_zero] at h0
    simp only [List.length_cons, Rd.nexts, Rd.next, h0]
    rw [ih]
    · simp; omega
    · intro j hj
      have := h (j + 1) (by simpa using hj)
      simpa [Nat.add_assoc, Nat.add_comm 1 j] using this

theorem RF.nexts {α : Type} {all : List α} {disk : Bool} {s : Strm α} {r : Rd α} {lo : Nat} (xs : List α)
    (h : RF all disk s r) (hlo : lo ≤ s.file.length + s.buf.length)
    (hc : s.buf.length + xs.length ≤ s.cap) (he : Ext lo { s with buf := s.buf ++ xs } all) :
    ∃ r', r.nexts xs.length = some (xs, r') ∧ RF all disk { s with buf := s.buf ++ xs } r' := by
  refine ⟨_, nexts_eq xs r ?_, ?_⟩
  · intro j hj
    rw [h.pos, h.get _ (by omega), ← Nat.add_assoc]
    have := he (s.file.length + s.buf.length + j) xs[j] (by omega) (by
      simp only
      rw [List.getElem?_append_right (by omega), List.getElem?_append_right (by omega)]
      simp [show s.file.length + s.buf.length + j - s.file.length - s.buf.length = j by omega, hj])
    rw [this]; simp [hj]
  · exact ⟨by simp [h.pos], h.cap, h.get, h.num, h.file⟩

theorem RF.next {α : Type} {all : List α} {disk : Bool} {s : Strm α} {r : Rd α} {lo : Nat} (x : α)
    (h : RF all disk s r) (hlo : lo ≤ s.file.length + s.buf.length)
    (hc : s.buf.length + 1 ≤ s.cap) (he : Ext lo { s with buf := s.buf ++ [x] } all) :
    ∃ r', r.next = some (x, r') ∧ RF all disk { s with buf := s.buf ++ [x] } r' := by
  obtain ⟨r', h1, h2⟩ := h.nexts [x] hlo (by simpa using hc) he
  simp only [List.length_singleton, Rd.nexts] at h1
  cases hn : r.next with
  | none => simp [hn] at h1
  | some p =>
    rw [hn] at h1; simp at h1
    exact ⟨p.2, by simp [← h1.1], by rw [h1.2]; exact h2⟩

theorem RF.blockF {α : Type} {all : List α} {disk : Bool} {s : Strm α} {r : Rd α} (block : List α)
    (h : RF all disk s r) (hd : disk = true) (hb : block.length = s.cap)
    (hl : s.file.length + s.cap ≤ all.length) :
    ∃ r', r.blockF = some r' ∧ RF all disk { s with file := s.file ++ block, buf := [] } r' := by
  have hn := h.num
  refine ⟨{ r with buf := (r.file.drop (r.file.length - r.num)).take (min r.cap r.num), num := r.num - min r.cap r.num, pos := 0 }, ?_, by simp, h.cap, ?_, ?_, fun _ => h.file hd⟩
  · simp only [Rd.blockF]; rw [if_neg (by omega)]
  · intro i hi
    simp only [h.file hd, h.cap, List.length_append, hb, hn] at *
    rw [List.getElem?_take, List.getElem?_drop]
    rw [show all.length - (all.length - (s.file.length + s.cap)) = s.file.length + s.cap by omega]
    split
    · rfl
    · rw [List.getElem?_eq_none (by omega)]
  · simp only [h.cap, List.length_append, hb, hn]; omega

/-- From the writer's side: the data written so far reach position `n` only if the final data do. -/
theorem Ext.length {α : Type} {lo : Nat} {s : Strm α} {all : List α} (h : Ext lo s all)
    (hlo : lo < s.file.length) : s.file.length ≤ all.length := by
  have := h (s.file.length - 1) (s.file[s.file.length - 1]'(by omega)) (by omega) (by
    rw [List.getElem?_append_left (by omega)]; simp)
  have := (List.getElem?_eq_some_iff.1 this).1
  omega

theorem Ext.pre {α : Type} {lo : Nat} {s t : Strm α} {all : List α} (h : Ext lo t all)
    (hp : s.file ++ s.buf <+: t.file ++ t.buf) : Ext lo s all := by
  intro i x hi hx
  apply h i x hi
  obtain ⟨r, hr⟩ := hp
  rw [← hr, List.getElem?_append_left (by have := (List.getElem?_eq_some_iff.1 hx).1; exact this)]
  exact hx

structure ExtW (w : W V) (oa : List Code) (la : List Nat) (va : List V) : Prop where
  op : Ext 0 w.op oa
  loc : Ext statSpace w.loc la
  val : Ext 0 w.val va

structure RFW (oa : List Code) (la : List Nat) (va : List V) (od ld vd : Bool) (w : W V) (r : R V) : Prop where
  op : RF oa od w.op r.op
  loc : RF la ld w.loc r.loc
  val : RF va vd w.val r.val

/-- Which streams must be on disk. -/
structure Dsk (od ld vd : Bool) (w : W V) : Prop where
  op : w.op.file ≠ [] → od = true
  loc : w.loc.file ≠ [] → ld = true
  val : w.val.file ≠ [] → vd = true

theorem locPad_prefix {l : Strm Nat} (h : l.buf.length < l.cap) : l.buf <+: locPad l := by
  simp only [locPad]
  rw [if_pos (by omega), List.append_assoc]
  exact List.prefix_append _ _

theorem prefix_app {α : Type} (f : List α) {a b : List α} (h : a <+: b) : f ++ a <+: f ++ b := by
  obtain ⟨r, rfl⟩ := h; exact ⟨r, by simp⟩

/-- What is written later extends what was written before. -/
theorem Mic.ext {w w' : W V} {is : List (Item V)} (m : Mic w is w') {oa : List Code} {la : List Nat}
    {va : List V} (h : ExtW w' oa la va) : ExtW w oa la va := by
  obtain ⟨h1, h2, h3⟩ := h
  cases m with
  | item o l v it ho hl hv =>
    exact ⟨h1.pre (prefix_app _ (List.prefix_append _ _)), h2.pre (prefix_app _ (List.prefix_append _ _)),
      h3.pre (prefix_app _ (List.prefix_append _ _))⟩
  | fo o l v ho =>
    exact ⟨h1.pre (by simp), h2, h3⟩
  | fl o l v ho hl =>
    exact ⟨h1.pre (prefix_app _ (List.prefix_append _ _)), h2.pre (by simpa using locPad_prefix hl), h3⟩
  | fv o l v ho hl hv =>
    exact ⟨h1.pre (prefix_app _ (List.prefix_append _ _)), h2.pre (prefix_app _ (List.prefix_append _ _)),
      h3.pre (by simp [Strm.flush])⟩

theorem Mic.dsk {w w' : W V} {is : List (Item V)} (m : Mic w is w') {od ld vd : Bool}
    (h : Dsk od ld vd w') : Dsk od ld vd w := by
  obtain ⟨h1, h2, h3⟩ := h
  cases m <;> constructor <;> simp_all [Strm.flush]

theorem Mic.stat {w w' : W V} {is : List (Item V)} (m : Mic w is w')
    (h : statSpace ≤ w.loc.file.length + w.loc.buf.length) :
    statSpace ≤ w'.loc.file.length + w'.loc.buf.length := by
  cases m with
  | fl o l v ho hl =>
    have := locPad_length hl
    simp only [List.length_append, List.length_nil] at *; omega
  | _ => simp_all <;> omega

/-- One iteration of a forward sweep undoes one event of the writer. -/
theorem Mic.stepF {w w' : W V} {is : List (Item V)} (m : Mic w is w') (ok : Ok w)
    {oa : List Code} {la : List Nat} {va : List V} {od ld vd : Bool}
    (he : ExtW w' oa la va) (hd : Dsk od ld vd w')
    (hs : statSpace ≤ w.loc.file.length + w.loc.buf.length) {r : R V}
    (h : RFW oa la va od ld vd w r) :
    ∃ r', RFW oa la va od ld vd w' r' ∧
      ((is = [] ∧ ∀ nl nv, stepF nl nv r = some (r', none)) ∨
        ∃ it, is = [it] ∧ stepF it.locs.length it.vals.length r = some (r', some it)) := by
  obtain ⟨ro, rl, rv⟩ := r
  obtain ⟨h1, h2, h3⟩ := h
  obtain ⟨e1, e2, e3⟩ := he
  cases m with
  | item o l v it ho hl hv =>
    obtain ⟨o', a1, a2⟩ := h1.next _ (Nat.zero_le _) (by simp only at *; omega) e1
    obtain ⟨l', b1, b2⟩ := h2.nexts _ hs hl e2
    obtain ⟨v', c1, c2⟩ := h3.nexts _ (Nat.zero_le _) hv e3
    refine ⟨⟨o', l', v'⟩, ⟨a2, b2, c2⟩, .inr ⟨it, rfl, ?_⟩⟩
    simp only [IO.stepF] at *
    simp only [a1, b1, c1]
  | fo o l v ho =>
    have hod := hd.op (by simp)
    obtain ⟨o', a1, a2⟩ := h1.next .endOp (Nat.zero_le _) (by simp only at *; omega)
      (e1.pre (by simp))
    have hlen := e1.length (by simp; omega)
    obtain ⟨rb, ab, a3⟩ := a2.blockF (o.buf ++ [.endOp]) hod (by simp; omega) (by simp at hlen ⊢; omega)
    obtain ⟨o'', b1, b2⟩ := a3.next .endOp (Nat.zero_le _) (by simp; have := ok.opc; simp only at this; omega) (by simpa using e1)
    refine ⟨⟨o'', rl, rv⟩, ⟨by simpa using b2, h2, h3⟩, .inl ⟨rfl, fun nl nv => ?_⟩⟩
    simp only [IO.stepF] at *
    simp only [a1, ab, b1]
  | fl o l v ho hl =>
    have hp := locPad_length hl
    have hlc := ok.locc
    have hld := hd.loc (by intro h0; simp at h0; simp [h0.2] at hp; simp only at hlc; omega)
    obtain ⟨o', a1, a2⟩ := h1.next _ (Nat.zero_le _) (by simp only at *; omega) e1
    have hlen := e2.length (by simp [hp, statSpace]; simp only at hlc; omega)
    obtain ⟨rb, ab, a3⟩ := h2.blockF (locPad l) hld hp (by simp [hp] at hlen ⊢; omega)
    refine ⟨⟨o', _, rv⟩, ⟨a2, a3, h3⟩, .inl ⟨rfl, fun nl nv => ?_⟩⟩
    simp only [IO.stepF] at *
    simp only [a1, ab]
    rfl
  | fv o l v ho hl hv =>
    have hvc := ok.valc
    have hlb : (v.buf ++ List.replicate (v.cap - v.buf.length) (0 : V)).length = v.cap := by simp; omega
    have hvd := hd.val (by intro h0; simp only [Strm.flush] at h0; rw [List.append_eq_nil_iff] at h0; rw [h0.2] at hlb; simp at hlb; simp only at hvc; omega)
    obtain ⟨o', a1, a2⟩ := h1.next _ (Nat.zero_le _) (by simp only at *; omega) e1
    obtain ⟨l', b1, b2⟩ := h2.next _ hs (by simp only at *; omega) e2
    have hlen := e3.length (by simp only [Strm.flush, List.length_append] at hlb ⊢; simp only at hvc; omega)
    obtain ⟨rb, ab, a3⟩ := h3.blockF _ hvd hlb (by simp only [Strm.flush, List.length_append] at hlb hlen ⊢; omega)
    refine ⟨⟨o', { rl with pos := rl.pos + 1 }, _⟩, ⟨a2, ?_, a3⟩, .inl ⟨rfl, fun nl nv => ?_⟩⟩
    · have := h2.pos; exact ⟨by simp at this ⊢; exact this, h2.cap, h2.get, h2.num, h2.file⟩
    · simp only [IO.stepF] at *
      simp only [a1, ab]
      rfl

def shape (it : Item V) : Nat × Nat := (it.locs.length, it.vals.length)

/-- A forward sweep over a finished tape meets the operations recorded. -/
theorem Mics.sweepF {w0 w : W V} {is : List (Item V)} (m : Mics w0 is w) (ok : Ok w0)
    (hs : statSpace ≤ w0.loc.file.length + w0.loc.buf.length)
    {oa : List Code} {la : List Nat} {va : List V} {od ld vd : Bool}
    (he : ExtW w oa la va) (hd : Dsk od ld vd w) {r : R V} (h : RFW oa la va od ld vd w0 r) :
    statSpace ≤ w.loc.file.length + w.loc.buf.length ∧
    ∃ r' n, RFW oa la va od ld vd w r' ∧ ∀ rest fuel, rest ≠ [] →
      sweepF (fuel + n) (is.map shape ++ rest) r = (sweepF fuel rest r').map (is ++ ·) := by
  induction m with
  | nil => exact ⟨hs, r, 0, h, fun rest fuel _ => by simp⟩
  | @snoc w1 w2 is js m1 m2 ih =>
    obtain ⟨hs', r', n, h1, h2⟩ := ih (m2.ext he) (m2.dsk hd)
    obtain ⟨r'', h3, h4⟩ := m2.stepF (m1.ok ok) he hd hs' h1
    refine ⟨m2.stat hs', r'', n + 1, h3, fun rest fuel hr => ?_⟩
    rcases h4 with ⟨rfl, h4⟩ | ⟨it, rfl, h4⟩
    · rw [show fuel + (n + 1) = (fuel + 1) + n by omega, List.append_nil, h2 _ _ hr]
      obtain ⟨s, ss, rfl⟩ := List.exists_cons_of_ne_nil hr
      simp [IO.sweepF, h4]
    · rw [show fuel + (n + 1) = (fuel + 1) + n by omega, List.map_append, List.append_assoc, h2 _ _ (by simp)]
      simp only [List.map_cons, List.map_nil, List.cons_append, List.nil_append, IO.sweepF, shape, h4, Option.map_map]
      congr 1
      funext x; simp

/-! ### Reading backward -/

structure RR {α : Type} (lo : Nat) (s : Strm α) (r : Rd α) : Prop where
  pos : r.pos = s.buf.length
  cap : r.cap = s.cap
  num : r.num = s.file.length
  hbuf : ∀ i x, lo ≤ s.file.length + i → s.buf[i]? = some x → r.buf[i]? = some x
  hfile : ∀ i x, lo ≤ i → s.file[i]? = some x → r.file[i]? = some x

theorem prevs_eq {α : Type} (xs : List α) (r : Rd α) (p : Nat) (hp : r.pos = p + xs.length)
    (h : ∀ j, j < xs.length → r.buf[p + j]? = xs[j]?) :
    r.prevs xs.length = some (xs, { r with pos := p }) := by
  induction xs using List.reverseRecOn generalizing r with
  | nil => simp at hp; simp [Rd.prevs, ← hp]
  | append_singleton xs x ih =>
    have h0 := h xs.length (by simp)
    simp at h0
    simp only [List.length_append, List.length_cons, List.length_nil] at hp
    simp only [List.length_append, List.length_cons, List.length_nil, Rd.prevs, Rd.prev]
    rw [if_neg (by omega), show r.pos - 1 = p + xs.length by omega, h0]
    simp only
    rw [ih]
    · simp
    · intro j hj
      have := h j (by simp; omega)
      simpa [List.getElem?_append_left hj] using this

theorem RR.prevs {α : Type} {lo : Nat} {s : Strm α} {xs : List α} {r : Rd α}
    (h : RR lo { s with buf := s.buf ++ xs } r) (hlo : lo ≤ s.file.length + s.buf.length) :
    ∃ r', r.prevs xs.length = some (xs, r') ∧ RR lo s r' := by
  refine ⟨_, prevs_eq xs r s.buf.length (by simpa using h.pos) ?_, ?_⟩
  · intro j hj
    have := h.hbuf (s.buf.length + j) xs[j] (by simp only; omega) (by simp [hj])
    rw [this]; simp [hj]
  · refine ⟨rfl, h.cap, h.num, ?_, h.hfile⟩
    intro i x hi hx
    apply h.hbuf i x hi
    rw [List.getElem?_append_left (List.getElem?_eq_some_iff.1 hx).1]; exact hx

theorem RR.prev {α : Type} {lo : Nat} {s : Strm α} {x : α} {r : Rd α}
    (h : RR lo { s with buf := s.buf ++ [x] } r) (hlo : lo ≤ s.file.length + s.buf.length) :
    ∃ r', r.prev = some (x, r') ∧ RR lo s r' := by
  obtain ⟨r', h1, h2⟩ := h.prevs hlo
  simp only [List.length_singleton, Rd.prevs] at h1
  cases hn : r.prev with
  | none => simp [hn] at h1
  | some p =>
    rw [hn] at h1; simp at h1
    exact ⟨p.2, by simp [← h1.1], by rw [h1.2]; exact h2⟩

/-- Loading the previous block. -/
theorem RR.blockR {α : Type} {lo : Nat} {s : Strm α} {block b : List α} {r : Rd α}
    (h : RR lo { s with file := s.file ++ block, buf := b } r) (hb : block.length = s.cap)
    (hp : s.buf <+: block) :
    ∃ r', r.blockR = some r' ∧ RR lo s { r' with pos := s.buf.length } ∧ r'.cap = s.cap ∧
      ∀ i x, i < s.cap → lo ≤ s.file.length + i → block[i]? = some x → r'.buf[i]? = some x := by
  have hn := h.num
  have hc := h.cap
  simp only [List.length_append] at hn hc
  have key : ∀ i x, i < s.cap → lo ≤ s.file.length + i → block[i]? = some x →
      ((r.file.drop (r.num - r.cap)).take r.cap)[i]? = some x := by
    intro i x hi hlo hx
    rw [hc, hn, hb, List.getElem?_take, if_pos hi, List.getElem?_drop]
    apply h.hfile _ _ (by omega)
    simp only
    rw [List.getElem?_append_right (by omega)]
    rw [show s.file.length + s.cap - s.cap + i - s.file.length = i by omega]; exact hx
  refine ⟨{ r with buf := (r.file.drop (r.num - r.cap)).take r.cap, num := r.num - r.cap }, by rw [Rd.blockR, if_neg (by omega)], ⟨rfl, hc, by simp only; omega, ?_, ?_⟩, hc, key⟩
  · intro i x hlo hx
    obtain ⟨t, ht⟩ := hp
    have hi := (List.getElem?_eq_some_iff.1 hx).1
    apply key i x (by rw [← hb, ← ht, List.length_append]; omega) hlo
    rw [← ht, List.getElem?_append_left hi]; exact hx
  · intro i x hlo hx
    apply h.hfile i x hlo
    simp only
    rw [List.getElem?_append_left (List.getElem?_eq_some_iff.1 hx).1]; exact hx

structure RRW (w : W V) (r : R V) : Prop where
  op : RR 0 w.op r.op
  loc : RR statSpace w.loc r.loc
  val : RR 0 w.val r.val

/-- One iteration of a reverse sweep undoes one event of the writer. -/
theorem Mic.stepR {w w' : W V} {is : List (Item V)} (m : Mic w is w') (ok : Ok w)
    (hs : statSpace ≤ w.loc.file.length + w.loc.buf.length) {r : R V} (h : RRW w' r) :
    ∃ r', RRW w r' ∧
      ((is = [] ∧ ∀ nl nv, stepR nl nv r = some (r', none)) ∨
        ∃ it, is = [it] ∧ stepR it.locs.length it.vals.length r = some (r', some it)) := by
  obtain ⟨ro, rl, rv⟩ := r
  obtain ⟨h1, h2, h3⟩ := h
  cases m with
  | item o l v it ho hl hv =>
    obtain ⟨o', a1, a2⟩ := h1.prev (Nat.zero_le _)
    obtain ⟨l', b1, b2⟩ := h2.prevs hs
    obtain ⟨v', c1, c2⟩ := h3.prevs (Nat.zero_le _)
    refine ⟨⟨o', l', v'⟩, ⟨a2, b2, c2⟩, .inr ⟨it, rfl, ?_⟩⟩
    simp only [IO.stepR] at *
    simp only [a1, b1, c1]
  | fo o l v ho =>
    obtain ⟨o', a1, a2⟩ := RR.prev (s := { o with file := o.file ++ (o.buf ++ [.endOp]), buf := [] }) (x := .endOp)
      (by simpa using h1) (Nat.zero_le _)
    obtain ⟨o'', b1, b2, b3, b4⟩ := RR.blockR (s := { o with buf := o.buf ++ [.endOp] }) (block := o.buf ++ [.endOp]) (b := []) (by simpa using a2)
      (by simp; omega) (List.prefix_refl _)
    obtain ⟨o3, c1, c2⟩ := b2.prev (Nat.zero_le _)
    refine ⟨⟨o3, rl, rv⟩, ⟨c2, h2, h3⟩, .inl ⟨rfl, fun nl nv => ?_⟩⟩
    simp only [IO.stepR] at *
    have hcap : o''.cap = (o.buf ++ [Code.endOp]).length := by rw [b3]; simp; omega
    simp only [a1, b1]
    rw [← hcap] at c1
    rw [c1]
  | fl o l v ho hl =>
    have hp := locPad_length hl
    have hlc := ok.locc
    simp only at hlc
    obtain ⟨o', a1, a2⟩ := h1.prev (Nat.zero_le _)
    obtain ⟨l', b1, b2, b3, b4⟩ := RR.blockR (s := l) h2 hp (locPad_prefix hl)
    have hk := b4 (l.cap - 1) (l.cap - l.buf.length) (by omega) (by simp only [statSpace]; omega) (by
      simp only [locPad]
      rw [if_pos (by omega), List.getElem?_append_right (by simp; omega)]
      simp [show l.cap - 1 - (l.buf.length + (l.cap - l.buf.length - 1)) = 0 by omega])
    refine ⟨⟨o', _, rv⟩, ⟨a2, b2, h3⟩, .inl ⟨rfl, fun nl nv => ?_⟩⟩
    simp only [IO.stepR] at *
    simp only [a1, b1, b3, hk, show l.cap - (l.cap - l.buf.length) = l.buf.length by omega]
  | fv o l v ho hl hv =>
    have hlb : (v.buf ++ List.replicate (v.cap - v.buf.length) (0 : V)).length = v.cap := by simp; omega
    obtain ⟨o', a1, a2⟩ := h1.prev (Nat.zero_le _)
    obtain ⟨l', b1, b2⟩ := h2.prev hs
    obtain ⟨v', c1, c2, c3, c4⟩ := RR.blockR (s := v) h3 hlb (List.prefix_append _ _)
    refine ⟨⟨o', l', _⟩, ⟨a2, b2, c2⟩, .inl ⟨rfl, fun nl nv => ?_⟩⟩
    simp only [IO.stepR] at *
    simp only [a1, b1, c1, c3, show v.cap - (v.cap - v.buf.length) = v.buf.length by omega]

theorem Mics.stat {w w' : W V} {is : List (Item V)} (m : Mics w is w')
    (h : statSpace ≤ w.loc.file.length + w.loc.buf.length) :
    statSpace ≤ w'.loc.file.length + w'.loc.buf.length := by
  induction m with
  | nil => exact h
  | snoc _ m ih => exact m.stat ih

/-- A reverse sweep over a tape meets the operations in reverse order. -/
theorem Mics.sweepR {w0 w : W V} {is : List (Item V)} (m : Mics w0 is w) (ok : Ok w0)
    (hs : statSpace ≤ w0.loc.file.length + w0.loc.buf.length) {r : R V} (h : RRW w r) :
    ∃ r' n, RRW w0 r' ∧ ∀ rest fuel, rest ≠ [] →
      sweepR (fuel + n) ((is.map shape).reverse ++ rest) r = (sweepR fuel rest r').map (is.reverse ++ ·) := by
  induction m generalizing r with
  | nil => exact ⟨r, 0, h, fun rest fuel _ => by simp⟩
  | @snoc w1 w2 is js m1 m2 ih =>
    obtain ⟨r1, h1, h2⟩ := m2.stepR (m1.ok ok) (m1.stat hs) h
    obtain ⟨r2, n, h3, h4⟩ := ih h1
    refine ⟨r2, n + 1, h3, fun rest fuel hr => ?_⟩
    rcases h2 with ⟨rfl, h2⟩ | ⟨it, rfl, h2⟩
    · rw [List.append_nil, ← h4 _ _ hr, show fuel + (n + 1) = (fuel + n) + 1 by omega]
      cases hl : (is.map shape).reverse ++ rest with
      | nil => simp at hl; exact absurd hl.2 hr
      | cons s ss => simp [IO.sweepR, h2]
    · rw [show fuel + (n + 1) = (fuel + n) + 1 by omega]
      simp only [List.map_append, List.reverse_append, List.map_cons, List.map_nil, List.reverse_cons, List.reverse_nil,
        List.nil_append, List.cons_append, IO.sweepR, shape, h2]
      rw [h4 _ _ hr, Option.map_map]
      congr 1

end Verif.IO
