import Verif.IO.Tape
set_option linter.all false
namespace Verif.IO
variable {V : Type} [Zero V]

/-- Elementary events of the writer: an operation, or a flush of one of the three buffers. -/
inductive Mic : W V → List (Item V) → W V → Prop
  | item (o : Strm Code) (l : Strm Nat) (v : Strm V) (it : Item V)
      (ho : o.buf.length + 1 < o.cap) (hl : l.buf.length + it.locs.length ≤ l.cap)
      (hv : v.buf.length + it.vals.length ≤ v.cap) :
      Mic ⟨o, l, v⟩ [it] ⟨{ o with buf := o.buf ++ [.op it.code] }, { l with buf := l.buf ++ it.locs },
        { v with buf := v.buf ++ it.vals }⟩
  | fo (o : Strm Code) (l : Strm Nat) (v : Strm V) (ho : o.buf.length + 1 = o.cap) :
      Mic ⟨o, l, v⟩ [] ⟨{ o with file := o.file ++ (o.buf ++ [.endOp]), buf := [.endOp] }, l, v⟩
  | fl (o : Strm Code) (l : Strm Nat) (v : Strm V) (ho : o.buf.length + 1 < o.cap)
      (hl : l.buf.length < l.cap) :
      Mic ⟨o, l, v⟩ [] ⟨{ o with buf := o.buf ++ [.endInt] },
        { l with file := l.file ++ locPad l, buf := [] }, v⟩
  | fv (o : Strm Code) (l : Strm Nat) (v : Strm V) (ho : o.buf.length + 1 < o.cap)
      (hl : l.buf.length < l.cap) (hv : v.buf.length ≤ v.cap) :
      Mic ⟨o, l, v⟩ [] ⟨{ o with buf := o.buf ++ [.endVal] },
        { l with buf := l.buf ++ [v.cap - v.buf.length] },
        v.flush (List.replicate (v.cap - v.buf.length) 0)⟩

/-- Sequences of events. -/
inductive Mics : W V → List (Item V) → W V → Prop
  | nil (w : W V) : Mics w [] w
  | snoc {w w1 w2 : W V} {is js : List (Item V)} : Mics w is w1 → Mic w1 js w2 → Mics w (is ++ js) w2

theorem Mics.trans {w w1 w2 : W V} {is js : List (Item V)} (h : Mics w is w1) (k : Mics w1 js w2) :
    Mics w (is ++ js) w2 := by
  induction k with
  | nil => simpa using h
  | snoc _ m ih => rw [← List.append_assoc]; exact .snoc ih m

theorem Mics.one {w w1 : W V} {is : List (Item V)} (m : Mic w is w1) : Mics w is w1 := by
  simpa using Mics.snoc (.nil w) m

/-- Shape of the streams. -/
structure Ok (w : W V) : Prop where
  opc : 3 ≤ w.op.cap
  locc : 43 ≤ w.loc.cap
  valc : 5 ≤ w.val.cap
  opb : w.op.buf.length + 1 ≤ w.op.cap
  locb : w.loc.buf.length ≤ w.loc.cap
  valb : w.val.buf.length ≤ w.val.cap
  opf : w.op.cap ∣ w.op.file.length
  locf : w.loc.cap ∣ w.loc.file.length
  valf : w.val.cap ∣ w.val.file.length

theorem locPad_length {l : Strm Nat} (h : l.buf.length < l.cap) : (locPad l).length = l.cap := by
  simp only [locPad]
  rw [if_pos (by omega)]
  simp; omega

theorem Mic.ok {w w' : W V} {is : List (Item V)} (m : Mic w is w') (h : Ok w) : Ok w' := by
  obtain ⟨h1, h2, h3, h4, h5, h6, h7, h8, h9⟩ := h
  cases m with
  | item o l v it ho hl hv => constructor <;> simp_all <;> omega
  | fo o l v ho =>
    constructor <;> simp_all <;> first | omega | exact Nat.dvd_add (by assumption) (Nat.dvd_refl _)
  | fl o l v ho hl =>
    have := locPad_length hl
    constructor <;> simp_all <;> first | omega | exact Nat.dvd_add (by assumption) (Nat.dvd_refl _)
  | fv o l v ho hl hv =>
    have : v.buf.length + (v.cap - v.buf.length) = v.cap := by omega
    constructor <;> simp_all [Strm.flush] <;> first | omega | exact Nat.dvd_add (by assumption) (Nat.dvd_refl _)

theorem Mics.ok {w w' : W V} {is : List (Item V)} (m : Mics w is w') (h : Ok w) : Ok w' := by
  induction m with
  | nil => exact h
  | snoc _ m ih => exact m.ok ih

theorem Mic.caps {w w' : W V} {is : List (Item V)} (m : Mic w is w') :
    w'.op.cap = w.op.cap ∧ w'.loc.cap = w.loc.cap ∧ w'.val.cap = w.val.cap := by
  cases m <;> simp [Strm.flush]

theorem Mics.caps {w w' : W V} {is : List (Item V)} (m : Mics w is w') :
    w'.op.cap = w.op.cap ∧ w'.loc.cap = w.loc.cap ∧ w'.val.cap = w.val.cap := by
  induction m with
  | nil => simp
  | snoc _ m ih => have := m.caps; simp_all

/-! ### The writer -/

theorem writes_eq {α : Type} (s : Strm α) (vs : List α) (h : s.buf.length + vs.length ≤ s.cap) :
    s.writes vs = some { s with buf := s.buf ++ vs } := by
  induction vs generalizing s with
  | nil => simp [Strm.writes]
  | cons v vs ih =>
    simp only [List.length_cons] at h
    simp only [Strm.writes, Strm.write, if_pos (show s.buf.length < s.cap by omega)]
    rw [ih _ (by simp; omega)]
    simp

theorem putCode_spec (o : Strm Code) (hc : 3 ≤ o.cap) (hb : o.buf.length + 1 ≤ o.cap) :
    ∃ o' : Strm Code, o'.cap = o.cap ∧ o'.buf.length + 1 < o'.cap ∧
      (∀ (l : Strm Nat) (v : Strm V), Mics ⟨o, l, v⟩ [] ⟨o', l, v⟩) ∧
      ∀ (l : Strm Nat) (v : Strm V) c, putCode ⟨o, l, v⟩ c = some ⟨{ o' with buf := o'.buf ++ [c] }, l, v⟩ := by
  by_cases h : o.buf.length = o.cap - 1
  · refine ⟨{ o with file := o.file ++ (o.buf ++ [.endOp]), buf := [.endOp] }, rfl, by simp; omega, ?_, ?_⟩
    · intro l v; exact .one (.fo o l v (by omega))
    · intro l v c
      have h1 : o.buf.length < o.cap := by omega
      have h2 : 0 < o.cap := by omega
      have h3 : 1 < o.cap := by omega
      have h4 : o.cap - 1 < o.cap := by omega
      simp [putCode, h, Strm.write, Strm.flush, h1, h2, h3, h4]
  · refine ⟨o, rfl, by omega, fun l v => .nil _, ?_⟩
    intro l v c
    have h1 : o.buf.length < o.cap := by omega
    simp [putCode, h, Strm.write, h1]

theorem roomLoc_spec (extra : Nat) (w : W V) (h : Ok w) (hl : w.loc.buf.length < w.loc.cap)
    (he : 10 + extra ≤ w.loc.cap) :
    ∃ w', roomLoc extra w = some w' ∧ Mics w [] w' ∧ w'.val = w.val ∧
      w'.loc.buf.length + 10 + extra ≤ w'.loc.cap ∧ Ok w' := by
  obtain ⟨o, l, v⟩ := w
  by_cases hc : l.buf.length > l.cap - 10 - extra
  · obtain ⟨o', c1, c2, c3, c4⟩ := putCode_spec (V := V) o h.opc h.opb
    have m := Mics.snoc (c3 l v) (.fl o' l v c2 hl)
    refine ⟨_, ?_, m, rfl, by simpa using he, m.ok h⟩
    simp only [roomLoc]
    rw [if_pos ⟨he, hc⟩, c4]
  · refine ⟨_, ?_, .nil _, rfl, ?_, h⟩
    · simp only [roomLoc]; rw [if_neg (by tauto)]
    · simp only; simp only at he; omega

theorem roomVal_spec (w : W V) (h : Ok w) (hl : w.loc.buf.length < w.loc.cap) :
    ∃ w', roomVal w = some w' ∧ Mics w [] w' ∧
      w'.loc.buf.length ≤ w.loc.buf.length + 1 ∧ w'.val.buf.length + 5 ≤ w'.val.cap ∧ Ok w' ∧
      (w.val.buf.length + 5 ≤ w.val.cap → w' = w) := by
  obtain ⟨o, l, v⟩ := w
  by_cases hc : v.buf.length > v.cap - 5
  · obtain ⟨o', c1, c2, c3, c4⟩ := putCode_spec (V := V) o h.opc h.opb
    have m := Mics.snoc (c3 l v) (.fv o' l v c2 hl h.valb)
    refine ⟨_, ?_, m, by simp, by simpa [Strm.flush] using h.valc, m.ok h, by simp only; omega⟩
    simp only [roomVal]
    rw [if_pos ⟨h.valc, hc⟩]
    simp only [putLoc, Strm.write, if_pos hl, Option.map_some, c4]
  · refine ⟨_, ?_, .nil _, by simp, ?_, h, fun _ => rfl⟩
    · simp only [roomVal]; rw [if_neg (by tauto)]
    · have := h.valc; simp only at *; omega

/-- `put_op` prepares the streams and writes the opcode. -/
theorem putOp_spec (c extra : Nat) (w : W V) (h : Ok w) (hl : w.loc.buf.length < w.loc.cap)
    (he : 10 + extra ≤ w.loc.cap) :
    ∃ w', Mics w [] w' ∧ putOp c extra w = some { w' with op := { w'.op with buf := w'.op.buf ++ [.op c] } } ∧
      w'.op.buf.length + 1 < w'.op.cap ∧ w'.loc.buf.length + 9 + extra ≤ w'.loc.cap ∧
      w'.val.buf.length + 5 ≤ w'.val.cap ∧ Ok w' ∧
      (w.val.buf.length + 5 ≤ w.val.cap → w'.val = w.val) := by
  obtain ⟨w1, a1, a2, a3, a4, a5⟩ := roomLoc_spec extra w h hl he
  obtain ⟨w2, b1, b2, b3, b4, b5, b6⟩ := roomVal_spec w1 a5 (by omega)
  obtain ⟨o', c1, c2, c3, c4⟩ := putCode_spec (V := V) w2.op b5.opc b5.opb
  have m := (a2.trans b2).trans (c3 w2.loc w2.val)
  have cp := a2.caps; have cp2 := b2.caps
  refine ⟨⟨o', w2.loc, w2.val⟩, by simpa using m, ?_, c2, ?_, b4, (c3 _ _).ok b5, ?_⟩
  · simp only [putOp, a1, b1]
    exact c4 _ _ _
  · simp only; omega
  · intro hv; rw [b6 (by rw [a3]; exact hv)]; exact a3

/-- Recording one operation. -/
theorem putItem_spec (extra : Nat) (it : Item V) (w : W V) (h : Ok w)
    (hl : w.loc.buf.length < w.loc.cap) (he : 10 + extra ≤ w.loc.cap)
    (h1 : it.locs.length ≤ 8 + extra) (h2 : it.vals.length ≤ 5) :
    ∃ w1 w', Mics w [] w1 ∧ Mic w1 [it] w' ∧ putItem extra it w = some w' ∧
      w'.loc.buf.length < w'.loc.cap := by
  obtain ⟨w1, a1, a2, a3, a4, a5, a6, _⟩ := putOp_spec it.code extra w h hl he
  obtain ⟨o, l, v⟩ := w1
  have := Mic.item o l v it a3 (by simp only at *; omega) (by simp only at *; omega)
  refine ⟨_, _, a1, this, ?_, ?_⟩
  · simp only [putItem, a2]
    rw [writes_eq _ _ (by simp only at *; omega), writes_eq _ _ (by simp only at *; omega)]
  · simp only [List.length_append] at *; omega

end Verif.IO
