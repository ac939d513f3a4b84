import Verif.IO.DocProofs
set_option linter.all false

/-!
C67: the listing of a trace (`tape_doc`).
-/
namespace Verif.Props.Doc
open Verif.IO Verif.IO.Doc
variable {V : Type}

/-- The calls of the overloaded operators record operations `tape_doc` knows; a product retargeted
by `+=` or `-=` becomes `eq_plus_prod` (54) or `eq_min_prod` (55). -/
def CallPlain : Call V → Prop
  | .put _ it => Plain it
  | .incProd _ _ newop => newop = 54 ∨ newop = 55

theorem stock_plain : ∀ (js : List (Item V)) (l : Nat), IsStock codes.stock l js → ∀ it ∈ js, Plain it
  | j :: js, l, h, it, hit => by
    rcases List.mem_cons.1 hit with rfl | hit
    · exact .inl ⟨h.1, ⟨l, h.2.1⟩, h.2.2.1⟩
    · exact stock_plain js _ h.2.2.2 it hit

theorem calls_plain [DecidableEq V] : ∀ (cs : List (Call V)) (is : List (Item V)), (∀ c ∈ cs, CallPlain c) → (∀ it ∈ is, Plain it) →
    ∀ it ∈ cs.foldl (specCall codes) is, Plain it
  | [], is, _, h => h
  | c :: cs, is, hc, h => by
    refine calls_plain cs _ (fun x hx => hc x (by simp [hx])) ?_
    have h1 := hc c (by simp)
    cases c with
    | put e it =>
      intro x hx
      simp only [specCall, List.mem_append, List.mem_singleton] at hx
      rcases hx with hx | rfl
      · exact h x hx
      · exact h1
    | incProd temp newlhs newop =>
      intro x hx
      simp only [specCall] at hx
      split at hx
      case h_2 => exact h x hx
      case h_1 c a b t _ =>
      split at hx
      · simp only [List.mem_append, List.mem_singleton] at hx
        rcases hx with hx | rfl
        · exact h x (List.dropLast_subset _ hx)
        · refine .inr ?_
          rcases h1 with rfl | rfl
          · exact ⟨by simp [arities], show (54 : Nat) ∉ unlisted by decide⟩
          · exact ⟨by simp [arities], show (55 : Nat) ∉ unlisted by decide⟩
      · exact h x hx

/-- C67 (full statement: for every trace).  `tape_doc`, called with the numbers of dependents and
independents of the trace, prints the line of the start of the tape, then exactly one line per
operation of the trace (blocks of initial values, then the recorded operations), in order, with its
position from the start and from the end, its opcode and name, its locations and its constants, and
last the line of the end of the tape.  Proved for traces without the operations `unlisted` and without external functions. -/
theorem C67_listing_partial [Zero V] [DecidableEq V] {g : Verif.IO.Cfg} (hc : CfgOk g) (stock : List V)
    (cs : List (Call V)) (hcs : ∀ c ∈ cs, CallOk codes g c) (hpl : ∀ c ∈ cs, CallPlain c)
    (ps : List V) (hp : ps.length ≤ g.valCap) (flag : Bool) (stats : List Nat) (hst : stats.length ≤ statSpace)
    (ndep nind : Nat) :
    ∃ w js, record codes g stock cs ps = some w ∧ IsStock codes.stock 0 js ∧ js.flatMap (·.vals) = stock ∧
      ∃ n body, (∀ fuel, n ≤ fuel →
          tapeDoc fuel (w.op.close flag).data.length ndep nind ndep nind (openFor flag stats w) =
            some (.file (.top 33 :: body ++ [.bottom (w.op.close flag).data.length 1 32]))) ∧
        Lists (w.op.close flag).data (cs.foldl (specCall codes) js) (itemRows body) := by
  obtain ⟨w, js, h1, h2, h3, n, body, h4, h5⟩ := trace_listing hc stock cs hcs ps hp flag stats hst
    (fun js hj => calls_plain cs js hpl (stock_plain js 0 hj))
  refine ⟨w, js, h1, h2, h3, n, body, fun fuel hf => ?_, h5⟩
  unfold tapeDoc
  rw [if_neg (by simp)]
  simp only [Nat.add_sub_cancel, Strm.close]
  rw [h4 fuel hf]; rfl

/-- If the numbers do not agree with the trace, no file is written. -/
theorem C67_mismatch (fuel nops ndep nind : Nat) (depcheck indcheck : Int) (r : R V)
    (h : depcheck ≠ ndep ∨ indcheck ≠ nind) : tapeDoc fuel nops ndep nind depcheck indcheck r = some .mismatch := by
  unfold tapeDoc; rw [if_pos h]

/-! ### Pages -/

/-- `pg` lines fit the current page, of which there are 101 (numbered from 0 to 100). -/
def Fits : Int → List (Line V) → Prop
  | _, [] => True
  | _, .brk :: ls => Fits (-1) ls
  | pg, .row _ :: ls => pg + 1 ≤ 100 ∧ Fits (pg + 1) ls
  | _, .top _ :: ls => Fits 0 ls
  | pg, .bottom _ _ _ :: ls => Fits pg ls

theorem fits_fw (pg : Int) (h : pg ≤ 100) (cnt rev code : Nat) (name : String) (locs : List Nat) (csts : List V) (ls : List (Line V))
    (h2 : Fits (filewrite pg cnt rev code name locs csts).2 ls) :
    Fits pg ((filewrite pg cnt rev code name locs csts).1 ++ ls) := by
  unfold filewrite at *
  split at h2 <;> rename_i hp
  · rw [if_pos hp]; exact ⟨by omega, h2⟩
  · rw [if_neg hp]; exact ⟨by omega, h2⟩

theorem fw_le (pg : Int) (h : pg ≤ 100) (cnt rev code : Nat) (name : String) (locs : List Nat) (csts : List V) :
    (filewrite pg cnt rev code name locs csts).2 ≤ 100 := by
  unfold filewrite
  split <;> simp only <;> omega

theorem loop_fits : ∀ (fuel : Nat) (r : R V) (cnt rev : Nat) (pg : Int) (ls : List (Line V)), pg ≤ 100 →
    docLoop fuel r cnt rev pg = some ls → Fits pg ls
  | 0, r, cnt, rev, pg, ls, _, h => by simp [docLoop] at h
  | fuel + 1, r, cnt, rev, pg, ls, hp, h => by
    have step : ∀ (r' : R V) (cnt' rev' code : Nat) (name : String) (locs : List Nat) (csts : List V),
        (docLoop fuel r' cnt' rev' (filewrite pg cnt rev code name locs csts).2).map
          ((filewrite pg cnt rev code name locs csts).1 ++ ·) = some ls → Fits pg ls := by
      intro r' cnt' rev' code name locs csts h
      rw [Option.map_eq_some_iff] at h
      obtain ⟨a, h1, h2⟩ := h
      rw [← h2]
      exact fits_fw pg hp _ _ _ _ _ _ _ (loop_fits fuel _ _ _ _ _ (fw_le pg hp _ _ _ _ _ _) h1)
    rw [docLoop] at h
    split at h
    · simp at h
    · split at h
      · simp at h
      · split at h
        · simp at h
        · exact step _ _ _ _ _ _ _ h
    · split at h
      · simp at h
      · exact step _ _ _ _ _ _ _ h
    · split at h
      · simp at h
      · exact step _ _ _ _ _ _ _ h
    · split at h
      · injection h with h; subst h; trivial
      · split at h
        · rw [Option.map_eq_some_iff] at h
          obtain ⟨a, h1, h2⟩ := h
          rw [← h2]
          exact (loop_fits fuel _ _ _ 0 a (by omega) h1 : Fits 0 a)
        · split at h
          · simp at h
          · exact loop_fits fuel _ _ _ _ _ hp h
          · exact step _ _ _ _ _ _ _ h

theorem fits_rows : ∀ (b c : List (Line V)) (pg : Int), pg ≤ 100 → Fits pg (b ++ c) → (∀ x ∈ b, ∃ t, x = .row t) →
    pg + b.length ≤ 100
  | [], c, pg, hp, _, _ => by simpa using hp
  | x :: b, c, pg, hp, h, hb => by
    obtain ⟨t, rfl⟩ := hb x (by simp)
    obtain ⟨h1, h2⟩ := h
    have := fits_rows b c (pg + 1) h1 h2 (fun x hx => hb x (by simp [hx]))
    simp only [List.length_cons]; omega

theorem fits_pages : ∀ (a b c : List (Line V)) (pg : Int), -1 ≤ pg → pg ≤ 100 → Fits pg (a ++ b ++ c) →
    (∀ x ∈ b, ∃ t, x = .row t) → b.length ≤ 101
  | [], b, c, pg, h0, hp, h, hb => by have := fits_rows b c pg hp h hb; omega
  | .brk :: a, b, c, pg, h0, hp, h, hb => fits_pages a b c (-1) (by omega) (by omega) h hb
  | .top _ :: a, b, c, pg, h0, hp, h, hb => fits_pages a b c 0 (by omega) (by omega) h hb
  | .bottom _ _ _ :: a, b, c, pg, h0, hp, h, hb => fits_pages a b c pg h0 hp h hb
  | .row _ :: a, b, c, pg, h0, hp, h, hb => fits_pages a b c (pg + 1) (by omega) h.1 h.2 hb

/-- C67, layout: whatever is on the tape, no page has more than 101 lines (the line that ends the table, which is
written without a check, not counted). -/
theorem C67_pages (fuel nops ndep nind : Nat) (depcheck indcheck : Int) (r : R V) (ls : List (Line V))
    (h : tapeDoc fuel nops ndep nind depcheck indcheck r = some (.file ls)) : PagesAtMost 101 ls := by
  unfold tapeDoc at h
  split at h
  · simp at h
  · rw [Option.map_eq_some_iff] at h
    obtain ⟨a, h1, h2⟩ := h
    injection h2 with h2; subst h2
    intro x b c e hb
    have := loop_fits _ _ _ _ _ _ (by omega) h1
    rw [e] at this
    exact fits_pages x b c 0 (by omega) (by omega) this hb

/-- Different operations have different names: the table `nameOf` is injective on the operations listed. -/
theorem C67_names : ∀ a ∈ arities, ∀ b ∈ arities, a.1 ∉ unlisted → b.1 ∉ unlisted → nameOf a.1 = nameOf b.1 → a = b := by
  decide +kernel

/-! ### Operations that are not listed -/

/-- `tape_doc` has no case for them. -/
theorem C67_unlisted : ∀ c ∈ unlisted, c ≠ 86 → ∀ r : R V, readCase c r = some (none, r) := by
  intro c hc h86 r
  have hn : ∀ c ∈ unlisted, c ≠ 39 ∧ c ≠ 60 ∧ c ≠ 61 ∧ c ≠ 63 ∧ c ≠ 84 ∧ c ≠ 85 := by decide
  obtain ⟨h1, h2, h3, h4, h5, h6⟩ := hn c hc
  have hk : (caseOf c).isNone = true := by
    have : ∀ c ∈ unlisted, c ≠ 86 → (caseOf c).isNone = true := by decide
    exact this c hc h86
  unfold readCase
  rw [if_neg h1, if_neg h86, if_neg h2, if_neg h3, if_neg h4]
  cases h : caseOf c with
  | none => rfl
  | some k => rw [h] at hk; simp at hk

theorem nexts_of {α : Type} (r : Rd α) (xs rest : List α) (h : r.buf.drop r.pos = xs ++ rest) :
    r.nexts xs.length = some (xs, { r with pos := r.pos + xs.length }) := by
  refine nexts_eq xs r (fun j hj => ?_)
  rw [← List.getElem?_drop, h, List.getElem?_append_left hj]

/-- C67 is false for them, in every trace: an operation without a case is left out, its locations
are not skipped, and the next operation is printed with the locations of the missing one.  (`it` is
unlisted, `jt` a listed operation after it, both without values and in the blocks loaded.) -/
theorem C67_next_is_wrong (fuel : Nat) (r : R V) (cnt rev : Nat) (pg : Int) (it jt : Item V) (c0 : List Code) (l0 : List Nat)
    (hi : it.code ∈ unlisted ∧ it.code ≠ 86) (hj : Plain jt) (hj0 : jt.vals = [])
    (hop : r.op.buf.drop r.op.pos = .op it.code :: .op jt.code :: c0)
    (hloc : r.loc.buf.drop r.loc.pos = it.locs ++ jt.locs ++ l0) (ls : List (Line V))
    (h : docLoop (fuel + 2) r cnt rev pg = some ls) :
    ∃ rest, ls = (filewrite pg (cnt + 1) (rev - 1) jt.code (nameOf jt.code) ((it.locs ++ jt.locs).take jt.locs.length) []).1 ++ rest := by
  have hn1 : r.op.next = some (.op it.code, { r.op with pos := r.op.pos + 1 }) := by
    unfold Rd.next
    have : r.op.buf[r.op.pos]? = some (.op it.code) := by
      have := congrArg (·[0]?) hop; simpa using this
    rw [this]
  have hn2 : ({ r.op with pos := r.op.pos + 1 } : Rd Code).next = some (.op jt.code, { r.op with pos := r.op.pos + 2 }) := by
    unfold Rd.next
    have : r.op.buf[r.op.pos + 1]? = some (.op jt.code) := by
      have := congrArg (·[1]?) hop; simpa using this
    simp only [this]
  have hu : it.code ≠ 32 ∧ it.code ≠ 33 := by
    have : ∀ c ∈ unlisted, c ≠ 32 ∧ c ≠ 33 := by decide
    exact this _ hi.1
  rw [docLoop, hn1] at h
  simp only [hu.1, hu.2, if_false] at h
  rw [C67_unlisted _ hi.1 hi.2] at h
  simp only at h
  rw [docLoop] at h
  simp only [hn2] at h
  obtain ⟨c1, c2, c3, c4⟩ := plain_code hj
  simp only [List.mem_cons, List.not_mem_nil, or_false, not_or] at c1
  simp only [c1.1, c1.2.1, if_false] at h
  set xs := (it.locs ++ jt.locs).take jt.locs.length with hxs
  have hx : xs.length = jt.locs.length := by simp [hxs]
  have hl := nexts_of r.loc xs ((it.locs ++ jt.locs).drop jt.locs.length ++ l0) (by rw [hloc, hxs, ← List.append_assoc, List.take_append_drop])
  rcases hj with ⟨_, _, h3⟩ | ⟨h1, h2⟩
  · exact absurd hj0 h3
  · have hq : Plain (⟨jt.code, xs, []⟩ : Item V) := .inr ⟨by rw [hj0] at h1; simp only [hx]; exact h1, h2⟩
    have hr := readCase_plain hq (r := { r with op := { r.op with pos := r.op.pos + 2 } }) hl (v := r.val) rfl
    simp only at hr
    rw [hr] at h
    simp only [Option.map_eq_some_iff] at h
    obtain ⟨a, _, h⟩ := h
    refine ⟨a, ?_⟩
    rw [← h]
    have : shownVals (⟨jt.code, xs, []⟩ : Item V) = [] := by unfold shownVals; split <;> rfl
    rw [this]

/-- C67 is false for external functions (and checkpointed loops): a call records three locations, its index and the two numbers of
variables (externfcts.cpp:66-71, checkpointing.cpp:654-657), but `tape_doc` skips six: the three locations that
follow, which belong to the next operations, are lost. -/
theorem C67_external_is_wrong (r : R V) (i n m a b c : Nat) (l0 : List Nat)
    (hloc : r.loc.buf.drop r.loc.pos = [i, n, m] ++ [a, b, c] ++ l0) :
    readCase 60 r = some (some ("extern diff", [i + 1, n, m], []), { r with loc := { r.loc with pos := r.loc.pos + 6 } }) := by
  have := nexts_of r.loc [i, n, m, a, b, c] l0 (by simpa using hloc)
  simp only [List.length_cons, List.length_nil] at this
  simp [readCase, locN, this]

/-- Moreover its line has nine cells instead of ten. -/
theorem C67_external_cells (cnt rev i n m : Nat) :
    cols (fwRow (V := V) cnt rev 60 "extern diff" [i, n, m] []) =
      [[.num cnt], [.num rev], [.num 60], [.txt "extern diff"], [.fctn i], [.num n], [.num m], [], []] := by
  simp [fwRow, isExt, cols, List.replicate]

/-- `vec_axpy` is read completely, but the second of its five locations (the scalar) is not printed. -/
theorem C67_axpy_is_wrong (r : R V) (res arg arg1 arg2 size : Nat) (l0 : List Nat)
    (hloc : r.loc.buf.drop r.loc.pos = [res, arg, arg1, arg2, size] ++ l0) :
    readCase 86 r = some (some ("vec axpy $\\longrightarrow$", [res, arg1, arg2, size], []),
      { r with loc := { r.loc with pos := r.loc.pos + 5 } }) := by
  have := nexts_of r.loc [res, arg, arg1, arg2, size] l0 hloc
  simp only [List.length_cons, List.length_nil] at this
  simp [readCase, locN, this]

/-! ### Concrete traces -/

def cfg : Verif.IO.Cfg := ⟨6, 80, 30⟩

/-- `x0 <<= …; x1 <<= …; x1 += x0 * x1 (retargeted product); x1 *= 3; x1 >>= …` after two live values. -/
def calls : List (Call Int) :=
  [.put 0 ⟨1, [0], []⟩, .put 0 ⟨1, [1], []⟩, .put 0 ⟨15, [0, 1, 2], []⟩, .incProd 2 3 54,
   .put 0 ⟨9, [1], [3]⟩, .put 0 ⟨2, [1], []⟩]

example : CfgOk cfg ∧ (∀ c ∈ calls, CallOk codes cfg c ∧ CallPlain c) := by
  refine ⟨⟨by decide, by decide, by decide⟩, ?_⟩
  intro c hc
  simp only [calls, List.mem_cons, List.not_mem_nil, or_false] at hc
  rcases hc with rfl | rfl | rfl | rfl | rfl | rfl <;>
    refine ⟨by simp [CallOk, codes, cfg], ?_⟩ <;>
    first
      | exact .inl rfl
      | exact .inr ⟨by simp [arities], by simp [unlisted]; decide⟩

/-- The listing of that trace (operation buffer of six codes: `end of op` occurs). -/
theorem C67_listing_witness :
    ((record codes cfg ([5, 6] : List Int) calls []).bind fun w =>
      (docLoop 40 (openFor false [] w) 1 (w.op.close false).data.length 0).map fun ls =>
        ((w.op.close false).data.length, itemRows ls)) =
    some (10, [cells 2 9 ⟨39, [2, 0], [5, 6]⟩, cells 3 8 ⟨1, [0], []⟩, cells 4 7 ⟨1, [1], []⟩, cells 5 6 ⟨54, [0, 1, 3], []⟩,
      cells 8 3 ⟨9, [1], [3]⟩, cells 9 2 ⟨2, [1], []⟩]) := by
  decide +kernel

/-- One row in full. -/
example : cells 8 3 (⟨9, [1], [3]⟩ : Item Int) =
    [[.num 8], [.num 3], [.num 9], [.txt "eq mult d"], [], [], [], [.num 1], [], [.dbl 3]] := by decide +kernel

/-- A conditional assignment with `condeqassign` (64: four locations) before `x1 += x0`: it is not
listed, and the sum is listed with two of its locations, as is everything after it. -/
theorem C67_unlisted_witness :
    ((record codes cfg ([] : List Int) [.put 0 ⟨1, [0], []⟩, .put 0 ⟨64, [7, 8, 9, 10], [1]⟩, .put 0 ⟨6, [0, 1], []⟩, .put 0 ⟨9, [1], [3]⟩] []).bind fun w =>
      (docLoop 40 (openFor false [] w) 1 (w.op.close false).data.length 0).map itemRows) =
    some [cells 2 7 ⟨1, [0], []⟩, cells 4 5 ⟨6, [7, 8], []⟩, cells 5 4 ⟨9, [9], [1]⟩] := by
  decide +kernel

/-- A call of an external function (60: index 0, one argument, one result) before `x1 += x0`,
`x3 += x2`, `x5 += x4`: the sums are listed with wrong locations and the reader runs out of them. -/
theorem C67_external_witness :
    ((record codes ⟨20, 80, 30⟩ ([] : List Int) [.put 0 ⟨60, [0, 1, 1], []⟩, .put 0 ⟨6, [0, 1], []⟩, .put 0 ⟨6, [2, 3], []⟩, .put 0 ⟨6, [4, 5], []⟩] []).bind fun w =>
      docLoop 40 (openFor false [] w) 1 (w.op.close false).data.length 0) = none ∧
    ((record codes ⟨20, 80, 30⟩ ([] : List Int) [.put 0 ⟨60, [0, 1, 1], []⟩, .put 0 ⟨6, [0, 1], []⟩, .put 0 ⟨6, [2, 3], []⟩, .put 0 ⟨64, [4, 5, 6, 7], [1]⟩] []).bind fun w =>
      (docLoop 40 (openFor false [] w) 1 (w.op.close false).data.length 0).map itemRows) =
    some [[[.num 2], [.num 5], [.num 60], [.txt "extern diff"], [.fctn 1], [.num 1], [.num 1], [], []],
      cells 3 4 ⟨6, [3, 4], []⟩, cells 4 3 ⟨6, [5, 6], []⟩] := by
  decide +kernel

end Verif.Props.Doc
