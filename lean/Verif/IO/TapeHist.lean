import Verif.IO.TapeRead
set_option linter.all false
namespace Verif.IO
variable {V : Type} [Zero V]

/-! ### Specification -/

/-- The operations on the tape after a call: `put` appends one; `incProd` retargets the last one if
it is a product with result `temp` whose arguments are not `newlhs`. -/
def specCall [DecidableEq V] (k : Codes) (is : List (Item V)) : Call V → List (Item V)
  | .put _ it => is ++ [it]
  | .incProd temp newlhs newop =>
    match is.getLast? with
    | some ⟨c, [a, b, t], []⟩ =>
      if c = k.mult ∧ t = temp ∧ newlhs ≠ b ∧ newlhs ≠ a then is.dropLast ++ [⟨newop, [a, b, newlhs], []⟩] else is
    | _ => is

/-- Blocks of initial values, none empty: each has `take_stock_op`, its length and first location, and the values. -/
def IsStock (c : Nat) : Nat → List (Item V) → Prop
  | _, [] => True
  | loc, it :: its => it.code = c ∧ it.locs = [it.vals.length, loc] ∧ it.vals ≠ [] ∧ IsStock c (loc + it.vals.length) its

/-- Calls of the operators: locations and values fit the reserve of `put_op`, and `mult_a_a` has
three locations and no value. -/
def CallOk (k : Codes) (g : Cfg) : Call V → Prop
  | .put extra it => 10 + extra ≤ g.locCap ∧ it.locs.length ≤ 8 + extra ∧ it.vals.length ≤ 5 ∧
      (it.code = k.mult → it.locs.length = 3 ∧ it.vals = [])
  | .incProd _ _ newop => newop ≠ k.mult

/-! ### Histories -/

/-- The writer's state after a sequence of complete operations: the last event was an operation. -/
inductive Hist (k : Codes) (w0 : W V) : List (Item V) → W V → Prop
  | nil : Hist k w0 [] w0
  | snoc {is : List (Item V)} {it : Item V} {w1 w : W V} : Mics w0 is w1 → Mic w1 [it] w →
      (it.code = k.mult → it.locs.length = 3 ∧ it.vals = []) → Hist k w0 (is ++ [it]) w
  | flush {is : List (Item V)} {it : Item V} {w1 w w' : W V} : Mics w0 is w1 → Mic w1 [it] w →
      Mics w [] w' → it.code ≠ k.mult → w'.op.buf.getLast? = some .endVal → Hist k w0 (is ++ [it]) w'

theorem Hist.mics {k : Codes} {w0 w : W V} {is : List (Item V)} (h : Hist k w0 is w) : Mics w0 is w := by
  cases h with
  | nil => exact .nil _
  | snoc m1 m2 => exact .snoc m1 m2
  | flush m1 m2 m3 => simpa using (Mics.snoc m1 m2).trans m3

theorem Hist.put {k : Codes} {w0 w : W V} {is : List (Item V)} (h : Hist k w0 is w) (ok : Ok w0)
    (hl : w.loc.buf.length < w.loc.cap) (extra : Nat) (it : Item V)
    (he : 10 + extra ≤ w0.loc.cap)
    (h1 : it.locs.length ≤ 8 + extra) (h2 : it.vals.length ≤ 5)
    (h3 : it.code = k.mult → it.locs.length = 3 ∧ it.vals = []) :
    ∃ w', putItem extra it w = some w' ∧ Hist k w0 (is ++ [it]) w' ∧ w'.loc.buf.length < w'.loc.cap := by
  obtain ⟨w1, w', a1, a2, a3, a4⟩ := putItem_spec extra it w (h.mics.ok ok) hl (by rw [h.mics.caps.2.1]; exact he) h1 h2
  exact ⟨w', a3, .snoc (by simpa using h.mics.trans a1) a2 h3, a4⟩

/-- The start state. -/
def w0 (k : Codes) (g : Cfg) : W V :=
  { op := { cap := g.opCap, buf := [.op k.sot] }, loc := { cap := g.locCap, buf := List.replicate statSpace 0 },
    val := { cap := g.valCap } }

structure CfgOk (g : Cfg) : Prop where
  op : 3 ≤ g.opCap
  loc : 43 ≤ g.locCap
  val : 5 ≤ g.valCap

theorem w0_ok (k : Codes) {g : Cfg} (h : CfgOk g) : Ok (w0 k g : W V) := by
  obtain ⟨h1, h2, h3⟩ := h
  constructor <;> simp [w0, statSpace] <;> omega

theorem startTrace_eq (k : Codes) {g : Cfg} (h : CfgOk g) :
    startTrace k.sot ({ op := { cap := g.opCap }, loc := { cap := g.locCap }, val := { cap := g.valCap } } : W V)
      = some (w0 k g) := by
  obtain ⟨h1, h2, h3⟩ := h
  have e1 : ¬ (10 ≤ g.locCap ∧ 0 > g.locCap - 10) := by omega
  have e2 : ¬ (0 = g.opCap - 1) := by omega
  have e3 : 0 < g.opCap := by omega
  simp only [startTrace, putOp, roomLoc, roomVal, List.length_nil, Nat.add_zero, Nat.sub_zero, gt_iff_lt,
    Nat.not_lt_zero, and_false, if_false, putCode, if_neg e2, Strm.write, if_pos e3, Option.map_some]
  rw [writes_eq _ _ (by simp [statSpace]; omega)]
  simp [w0]

theorem updIncProd_hist [DecidableEq V] {k : Codes} {g : Cfg} {w : W V} {is : List (Item V)}
    (h : Hist k (w0 k g) is w) (hc : CfgOk g) (temp newlhs newop : Nat) (hn : newop ≠ k.mult)
    (hl : w.loc.buf.length < w.loc.cap) :
    Hist k (w0 k g) (specCall k is (.incProd temp newlhs newop)) (updIncProd k.mult temp newlhs newop w).1 ∧
      (updIncProd k.mult temp newlhs newop w).1.loc.buf.length < (updIncProd k.mult temp newlhs newop w).1.loc.cap := by
  cases h with
  | nil =>
    have : (updIncProd k.mult temp newlhs newop (w0 k g : W V)).1 = w0 k g := by
      simp [updIncProd, w0, k.h1]
    rw [this]
    exact ⟨by simp only [specCall]; exact .nil, hl⟩
  | flush m1 m2 m3 h1 h2 =>
    rename_i js it w1 w2
    have : (updIncProd k.mult temp newlhs newop w).1 = w := by
      have h2' := List.getLast?_eq_getElem? ▸ h2
      simp only [updIncProd]
      split
      · rfl
      · split
        · rfl
        · rw [if_neg]
          rw [h2']; simp
    rw [this]
    refine ⟨?_, hl⟩
    have : specCall k (js ++ [it]) (.incProd temp newlhs newop) = js ++ [it] := by
      obtain ⟨c, ls, vs⟩ := it
      simp only [specCall, List.getLast?_append, List.getLast?_singleton, Option.some_or]
      split
      · rename_i h; injection h with h; injection h with h3; subst h3; rw [if_neg]; simp_all
      · rfl
    rw [this]
    exact .flush m1 m2 m3 h1 h2
  | snoc m1 m2 h1 =>
    rename_i js it w1
    cases m2 with
    | item o l v _ ho hll hv =>
    obtain ⟨c, ls, vs⟩ := it
    simp only at *
    by_cases hm : c = k.mult
    · obtain ⟨h1a, h1b⟩ := h1 hm
      subst h1b
      match ls, h1a with
      | [a, b, t], _ =>
        simp only [specCall, List.getLast?_append, List.getLast?_singleton, Option.some_or]
        have g1 : (l.buf ++ [a, b, t])[(l.buf ++ [a, b, t]).length - 1]? = some t := by simp
        have g2 : (l.buf ++ [a, b, t])[(l.buf ++ [a, b, t]).length - 2]? = some b := by simp
        have g3 : (l.buf ++ [a, b, t])[(l.buf ++ [a, b, t]).length - 3]? = some a := by simp
        have g4 : (o.buf ++ [Code.op c])[(o.buf ++ [Code.op c]).length - 1]? = some (.op c) := by simp
        have e1 : ¬ (l.buf ++ [a, b, t]).length < 3 := by simp
        have e2 : ¬ (o.buf ++ [Code.op c]).length < 1 := by simp
        have e3 := List.dropLast_concat (l₁ := o.buf) (b := Code.op c)
        have e4 : (l.buf ++ [a, b, t]).dropLast ++ [newlhs] = l.buf ++ [a, b, newlhs] := by simp [List.dropLast_append]
        simp only [updIncProd, if_neg e1, if_neg e2, g1, g2, g3, g4, e3, e4]
        by_cases hh : c = k.mult ∧ t = temp ∧ newlhs ≠ b ∧ newlhs ≠ a
        · rw [if_pos hh, if_pos (by obtain ⟨q1, q2, q3, q4⟩ := hh; subst q1 q2; simp [q3, q4])]
          refine ⟨?_, ?_⟩
          · rw [List.dropLast_concat]
            exact .snoc m1 (.item o l v ⟨newop, [a, b, newlhs], []⟩ ho (by simpa using hll) (by simpa using hv))
              (by intro h; exact absurd h hn)
          · simp only [List.length_append, List.length_cons, List.length_nil] at hl ⊢; omega
        · rw [if_neg hh, if_neg (by intro q; apply hh; obtain ⟨q1, q2, q3, q4⟩ := q; simp at q1 q2 q3 q4; exact ⟨q2, q1.symm, q3, q4⟩)]
          exact ⟨.snoc m1 (.item o l v _ ho hll hv) (fun _ => ⟨rfl, rfl⟩), hl⟩
    · have e : (updIncProd k.mult temp newlhs newop
          (⟨{ o with buf := o.buf ++ [.op c] }, { l with buf := l.buf ++ ls }, { v with buf := v.buf ++ vs }⟩ : W V)).1
          = ⟨{ o with buf := o.buf ++ [.op c] }, { l with buf := l.buf ++ ls }, { v with buf := v.buf ++ vs }⟩ := by
        simp only [updIncProd]
        split
        · rfl
        · split
          · rfl
          · rw [if_neg]
            simp [hm]
      rw [e]
      refine ⟨?_, hl⟩
      have : specCall k (js ++ [⟨c, ls, vs⟩]) (.incProd temp newlhs newop) = js ++ [⟨c, ls, vs⟩] := by
        simp only [specCall, List.getLast?_append, List.getLast?_singleton, Option.some_or]
        split
        · rename_i h; injection h with h; injection h with h3; subst h3; rw [if_neg]; simp_all
        · rfl
      rw [this]
      exact .snoc m1 (.item o l v _ ho hll hv) h1

theorem runCalls_hist [DecidableEq V] {k : Codes} {g : Cfg} (hc : CfgOk g) (cs : List (Call V))
    (hcs : ∀ c ∈ cs, CallOk k g c) {w : W V} {is : List (Item V)} (h : Hist k (w0 k g) is w)
    (hl : w.loc.buf.length < w.loc.cap) :
    ∃ w', runCalls k cs w = some w' ∧ Hist k (w0 k g) (cs.foldl (specCall k) is) w' ∧
      w'.loc.buf.length < w'.loc.cap := by
  induction cs generalizing w is with
  | nil => exact ⟨w, rfl, h, hl⟩
  | cons c cs ih =>
    have hc1 := hcs c (by simp)
    cases c with
    | put extra it =>
      obtain ⟨c1, c2, c3, c4⟩ := hc1
      obtain ⟨w', a1, a2, a3⟩ := h.put (w0_ok k hc) hl extra it c1 c2 c3 c4
      obtain ⟨w'', b1, b2, b3⟩ := ih (fun c hc => hcs c (by simp [hc])) a2 a3
      exact ⟨w'', by simp only [runCalls, runCall, a1, b1], b2, b3⟩
    | incProd temp newlhs newop =>
      obtain ⟨a2, a3⟩ := updIncProd_hist h hc temp newlhs newop hc1 hl
      obtain ⟨w'', b1, b2, b3⟩ := ih (fun c hc => hcs c (by simp [hc])) a2 a3
      exact ⟨w'', by simp only [runCalls, runCall, b1], b2, b3⟩

/-- `take_stock`. -/
theorem takeStock_hist {k : Codes} {g : Cfg} (hc : CfgOk g) (fuel : Nat) (vals : List V) (loc : Nat)
    {w : W V} {is : List (Item V)} (h : Hist k (w0 k g) is w) (hl : w.loc.buf.length < w.loc.cap)
    (hv : w.val.buf.length + 5 ≤ w.val.cap) (hf : vals.length < fuel) :
    ∃ w' js, takeStock k.stock fuel vals loc w = some w' ∧ Hist k (w0 k g) (is ++ js) w' ∧
      w'.loc.buf.length < w'.loc.cap ∧ IsStock k.stock loc js ∧ js.flatMap (·.vals) = vals := by
  induction fuel generalizing vals loc w is with
  | zero => omega
  | succ fuel ih =>
    have ok := h.mics.ok (w0_ok k hc)
    obtain ⟨w1, a1, a2, a3, a4, a5, a6⟩ := roomVal_spec w ok hl
    obtain rfl := a6 hv
    simp only [takeStock, a1]
    obtain ⟨w2, b1, b2, b3, b4, b5, b6, b7⟩ := putOp_spec k.stock 0 w1 ok hl (by have := ok.locc; omega)
    have b7 := b7 hv
    obtain ⟨o, l, v⟩ := w2
    simp only at b1 b2 b3 b4 b5 b7
    subst b7
    have hcap := ok.locc
    by_cases hs : w1.val.cap - w1.val.buf.length < vals.length
    · rw [if_pos hs, b2]
      set sp := w1.val.cap - w1.val.buf.length with hsp
      have hsp5 : 5 ≤ sp := by omega
      simp only
      rw [writes_eq _ _ (by simp; omega)]
      simp only [putValsWriteBlock]
      rw [writes_eq _ _ (by simp; omega)]
      simp only [putLoc, Strm.write, List.length_append, List.length_cons, List.length_nil, List.length_take]
      rw [if_pos (by omega)]
      simp only [Option.map_some]
      -- the operation
      let it : Item V := ⟨k.stock, [sp, loc], vals.take sp⟩
      have m1 : Mic ⟨o, l, w1.val⟩ [it] _ := Mic.item o l w1.val it b3 (by simp [it]; omega) (by simp [it]; omega)
      have ok1 := m1.ok b6
      obtain ⟨o', c1, c2, c3, c4⟩ := putCode_spec (V := V) _ ok1.opc ok1.opb
      rw [c4]
      have m2 := Mics.snoc (c3 _ _) (.fv o' { l with buf := l.buf ++ it.locs } { w1.val with buf := w1.val.buf ++ it.vals } c2
        (by simp [it]; omega) (by simp [it]; omega))
      have hh : Hist k (w0 k g) (is ++ [it]) _ := .flush (by simpa using h.mics.trans b1) m1 (by simpa using m2)
        (by simpa [it] using k.h2) (by simp)
      obtain ⟨w', js, d1, d2, d3, d4, d5⟩ := ih (vals.drop sp) (loc + sp) hh (by simp [it]; omega)
        (by simp [Strm.flush]; exact ok.valc) (by simp; omega)
      refine ⟨w', it :: js, ?_, by simpa using d2, d3, ⟨rfl, by simp [it]; omega, ?_, ?_⟩, ?_⟩
      · have e : w1.val.buf.length + min sp vals.length = w1.val.cap := by omega
        simp only [it, Strm.flush, List.append_assoc, List.length_append, List.length_take, e, Nat.sub_self, List.cons_append, List.nil_append] at d1 ⊢
        exact d1
      · have : it.vals.length = sp := by simp [it]; omega
        intro h0; rw [h0] at this; simp at this; omega
      · have : it.vals.length = sp := by simp [it]; omega
        rw [this]; exact d4
      · simp [it, d5]
    · rw [if_neg hs]
      by_cases h0 : vals.length > 0
      · rw [if_pos h0, b2]
        simp only
        rw [writes_eq _ _ (by simp; omega), writes_eq _ _ (by omega)]
        let it : Item V := ⟨k.stock, [vals.length, loc], vals⟩
        have m1 : Mic ⟨o, l, w1.val⟩ [it] _ := Mic.item o l w1.val it b3 (by simp [it]; omega) (by simp [it]; omega)
        refine ⟨_, [it], rfl, .snoc (by simpa using h.mics.trans b1) m1 (by simp [it, k.h2]), ?_, ⟨rfl, rfl, by simp [it]; intro h; simp [h] at h0, trivial⟩, by simp [it]⟩
        simp; omega
      · rw [if_neg h0]
        have : vals = [] := by cases vals <;> simp_all
        exact ⟨w1, [], rfl, by simpa using h, hl, trivial, by simp [this]⟩

/-! ### Parameters on the value stream -/

theorem saveLoop_spec (fuel : Nat) (ps : List V) (s : Strm V) (hc : 1 ≤ s.cap) (hb : s.buf.length ≤ s.cap)
    (hf : ps.length + (if s.buf.length = s.cap then 2 else 1) ≤ fuel) :
    ∃ s', saveLoop fuel ps s = some s' ∧ s'.cap = s.cap ∧ s'.buf.length ≤ s'.cap ∧
      s'.file ++ s'.buf = s.file ++ s.buf ++ ps ∧ (s.file ≠ [] → s'.file ≠ []) ∧
      s.file.length ≤ s'.file.length ∧ (s.buf.length + ps.length ≤ s.cap → s' = { s with buf := s.buf ++ ps }) := by
  induction fuel generalizing ps s with
  | zero => split at hf <;> omega
  | succ fuel ih =>
    simp only [saveLoop]
    by_cases h0 : ps.length > 0
    · rw [if_pos h0]
      by_cases h1 : s.cap - s.buf.length < ps.length
      · rw [if_pos h1, writes_eq _ _ (by simp; omega)]
        simp only
        rw [if_pos h1]
        obtain ⟨s', a1, a2, a3, a4, a5, a6, a7⟩ := ih (ps.drop (s.cap - s.buf.length))
          ({ s with buf := s.buf ++ ps.take (s.cap - s.buf.length) }.flush []) hc (by simp [Strm.flush]) (by
            have : ({ s with buf := s.buf ++ ps.take (s.cap - s.buf.length) }.flush []).buf.length
              ≠ ({ s with buf := s.buf ++ ps.take (s.cap - s.buf.length) }.flush []).cap := by simp [Strm.flush]; omega
            rw [if_neg this, List.length_drop]
            split at hf <;> omega)
        refine ⟨s', a1, a2, a3, ?_, ?_, ?_, fun h => by omega⟩
        · rw [a4]; simp [Strm.flush]
        · intro h; apply a5; simp [Strm.flush, h]
        · simp [Strm.flush] at a6; omega
      · rw [if_neg h1, List.take_length, List.drop_length, writes_eq _ _ (by omega)]
        simp only [Nat.lt_irrefl, if_false]
        cases fuel with
        | zero => split at hf <;> omega
        | succ fuel =>
          refine ⟨{ s with buf := s.buf ++ ps }, by simp [saveLoop], rfl, by simp; omega, by simp, fun h => h, Nat.le_refl _, fun _ => rfl⟩
    · rw [if_neg h0]
      have : ps = [] := by cases ps <;> simp_all
      subst this
      exact ⟨s, rfl, rfl, hb, by simp, fun h => h, Nat.le_refl _, fun _ => by simp⟩

theorem saveParams_spec (ps : List V) (s : Strm V) (hc : 1 ≤ s.cap) (hb : s.buf.length ≤ s.cap)
    (hp : ps.length ≤ s.cap) :
    ∃ s', saveParams ps s = some s' ∧ s'.cap = s.cap ∧ s'.buf.length ≤ s'.cap ∧
      s'.file ++ s'.buf = s.file ++ s.buf ++ ps ∧ (s.file ≠ [] → s'.file ≠ []) ∧
      s.file.length ≤ s'.file.length ∧ (s.buf.length + ps.length ≤ s.cap → s' = { s with buf := s.buf ++ ps }) := by
  simp only [saveParams]
  by_cases h : s.cap < ps.length ∨ s.buf.length < s.cap - ps.length
  · rw [if_pos h, writes_eq _ _ (by omega)]
    exact ⟨{ s with buf := s.buf ++ ps }, rfl, rfl, by simp; omega, by simp, fun h => h, Nat.le_refl _, fun _ => rfl⟩
  · rw [if_neg h]
    exact saveLoop_spec _ ps s hc hb (by split <;> omega)

/-! ### Whole traces -/

theorem record_spec [DecidableEq V] (k : Codes) {g : Cfg} (hc : CfgOk g) (stock : List V) (cs : List (Call V))
    (hcs : ∀ c ∈ cs, CallOk k g c) (ps : List V) (hp : ps.length ≤ g.valCap) (hk : k.eot ≠ k.mult) :
    ∃ w w1 js v, record k g stock cs ps = some { w with val := v } ∧
      IsStock k.stock 0 js ∧ js.flatMap (·.vals) = stock ∧
      Mics (w0 k g) (cs.foldl (specCall k) js) w1 ∧ Mic w1 [⟨k.eot, [], []⟩] w ∧
      w.val.buf.length + 5 ≤ w.val.cap ∧ w.loc.buf.length < w.loc.cap ∧
      saveParams ps w.val = some v ∧ record k g stock cs ([] : List V) = some w := by
  obtain ⟨w1, js, a1, a2, a3, a4, a5⟩ := takeStock_hist hc (stock.length + 1) stock 0 (.nil (k := k) (w0 := (w0 k g : W V)))
    (by simp [w0]; have := hc.loc; simp [statSpace]; omega) (by simp [w0]; exact hc.val) (by omega)
  obtain ⟨w2, b1, b2, b3⟩ := runCalls_hist hc cs hcs a2 a3
  simp only [List.nil_append] at b2
  have ok2 := b2.mics.ok (w0_ok k hc)
  obtain ⟨w3, c1, c2, c3, c4, c5, c6, _⟩ := putOp_spec k.eot 0 w2 ok2 b3 (by have := ok2.locc; omega)
  have caps := b2.mics.caps.2.2
  have caps2 := c1.caps.2.2
  obtain ⟨v, d1, d2⟩ := saveParams_spec ps w3.val (by omega) (by omega) (by rw [caps2, caps]; exact hp)
  obtain ⟨o, l, v3⟩ := w3
  have m : Mic ⟨o, l, v3⟩ [⟨k.eot, [], []⟩] _ := Mic.item o l v3 ⟨k.eot, [], []⟩ c3 (by simp only at *; simp; omega) (by simp only at *; simp; omega)
  refine ⟨_, ⟨o, l, v3⟩, js, v, ?_, a4, a5, by simpa using b2.mics.trans c1, m, by simpa using c5, by simp at c4 ⊢; omega, by simpa using d1, ?_⟩
  all_goals simp only [record, startTrace_eq k hc, a1, b1, putItem, c2]
  all_goals rw [writes_eq _ _ (by simp only at *; simp; omega), writes_eq _ _ (by simp only at *; simp; omega)]
  · simp [d1]
  · have : v3.buf.length < v3.cap := by simp only at c5; omega
    simp [saveParams, this, Strm.writes]

theorem ext_refl {α : Type} (lo : Nat) (s : Strm α) (all : List α) (h : s.file ++ s.buf <+: all) : Ext lo s all := by
  intro i x _ hx
  obtain ⟨t, rfl⟩ := h
  rw [List.getElem?_append_left (List.getElem?_eq_some_iff.1 hx).1]; exact hx

theorem ext_closeLoc (flag : Bool) (stats : List Nat) (hs : stats.length ≤ statSpace) (s : Strm Nat) :
    Ext statSpace s (closeLoc flag stats s).data := by
  simp only [closeLoc]
  split
  · intro i x hi hx
    have := (List.getElem?_eq_some_iff.1 hx).1
    simp only [Strm.close]
    rw [List.getElem?_append_right (by omega), List.getElem?_drop, show stats.length + (i - stats.length) = i by omega]
    exact hx
  · exact ext_refl _ _ _ (by simp [Strm.close])

theorem prepFor_RF {α : Type} (c : Closed α) (s : Strm α) (hcap : c.cap = s.cap) (hf : s.file = [])
    (hd : c.disk = false → c.data.length ≤ c.cap) : RF c.data c.disk s (prepFor s.buf.length c) := by
  simp only [prepFor]
  rw [if_neg (show ¬ c.data.length < min c.cap c.data.length by omega)]
  by_cases h : c.disk
  · rw [if_pos h]
    refine ⟨rfl, hcap, ?_, ?_, fun _ => rfl⟩
    · intro i hi
      simp only [hf, List.length_nil, Nat.zero_add, List.getElem?_take]
      split
      · rfl
      · rw [List.getElem?_eq_none (by omega)]
    · simp [hf, hcap]; omega
  · rw [if_neg h]
    have := hd (by simpa using h)
    refine ⟨rfl, hcap, ?_, ?_, fun h' => absurd h' h⟩
    · intro i hi; simp [hf]
    · simp [hf]; omega

theorem mics_dsk {w w' : W V} {is : List (Item V)} (flag : Bool) (w : W V) (v : Strm V) (stats : List Nat)
    (hv : w.val.file ≠ [] → v.file ≠ []) :
    Dsk (w.op.close flag).disk (closeLoc flag stats w.loc).disk (v.close flag).disk w := by
  constructor
  · intro h; simp [Strm.close, h]
  · intro h
    have : (w.loc.close flag).disk = true := by simp [Strm.close, h]
    simp [closeLoc, this]
  · intro h; simp [Strm.close, hv h]

/-- Forward read-back of a whole trace. -/
theorem forward_readback [DecidableEq V] (k : Codes) {g : Cfg} (hc : CfgOk g) (stock : List V) (cs : List (Call V))
    (hcs : ∀ c ∈ cs, CallOk k g c) (ps : List V) (hp : ps.length ≤ g.valCap) (hk : k.eot ≠ k.mult)
    (flag : Bool) (stats : List Nat) (hst : stats.length ≤ statSpace) :
    ∃ w js, record k g stock cs ps = some w ∧ IsStock k.stock 0 js ∧ js.flatMap (·.vals) = stock ∧
      ∃ n, ∀ fuel, n ≤ fuel →
        sweepF fuel ((0, 0) :: (cs.foldl (specCall k) js).map shape ++ [(0, 0)]) (openFor flag stats w)
          = some (⟨k.sot, [], []⟩ :: cs.foldl (specCall k) js ++ [⟨k.eot, [], []⟩]) := by
  obtain ⟨w, w1, js, v, a1, a2, a3, a4, a5, a6, a7, a8, a9⟩ := record_spec k hc stock cs hcs ps hp hk
  refine ⟨_, js, a1, a2, a3, ?_⟩
  have okw := a5.ok (a4.ok (w0_ok k hc))
  have caps := (Mics.snoc a4 a5).caps
  obtain ⟨v', d1, d2, d3, d4, d5, d6, d7⟩ := saveParams_spec ps w.val (by omega) okw.valb (by rw [caps.2.2]; exact hp)
  obtain rfl : v' = v := by rw [d1] at a8; injection a8
  set oc := w.op.close flag with hoc
  set lc := closeLoc flag stats w.loc with hlc
  set vc := v'.close flag with hvc
  have hdsk := mics_dsk (w := w) (w' := w) (is := []) flag w v' stats d5
  have hext : ExtW w oc.data lc.data vc.data :=
    ⟨ext_refl _ _ _ (by simp [oc, Strm.close]), ext_closeLoc flag stats hst _, ext_refl _ _ _ (by simp [vc, Strm.close, d4, List.append_assoc])⟩
  -- start of tape
  have hext0 : ExtW (w0 k g) oc.data lc.data vc.data := by
    have : ∀ {w w' : W V} {is : List (Item V)}, Mics w is w' → ExtW w' oc.data lc.data vc.data → ExtW w oc.data lc.data vc.data := by
      intro w w' is m; induction m with
      | nil => exact id
      | snoc _ m ih => exact fun h => ih (m.ext h)
    exact this (.snoc a4 a5) hext
  have eop : RF oc.data oc.disk ({ cap := g.opCap } : Strm Code) (prepFor 0 oc) := by
    refine prepFor_RF oc _ (by simp [oc, Strm.close]; exact caps.1) rfl ?_
    intro h; simp [oc, Strm.close] at h ⊢; have := okw.opb; rw [h.2]; simp; omega
  have eloc : RF lc.data lc.disk (w0 k g : W V).loc (prepFor statSpace lc) := by
    have hcap : lc.cap = w.loc.cap := by simp only [lc, closeLoc]; split <;> rfl
    have := prepFor_RF lc (w0 k g : W V).loc (by rw [hcap]; exact caps.2.1) rfl ?_
    · simpa [w0] using this
    · intro h
      have hd : (w.loc.close flag).disk = false := by
        by_contra hd; simp only [Bool.not_eq_false] at hd; simp [lc, closeLoc, hd] at h
      have e : lc = w.loc.close flag := by simp [lc, closeLoc, hd]
      rw [e] at hcap ⊢; simp [Strm.close] at hd ⊢
      have := okw.locb; rw [hd.2]; simp; omega
  have eval : RF vc.data vc.disk (w0 k g : W V).val (prepFor 0 vc) := by
    refine prepFor_RF vc _ (by simp [vc, Strm.close, w0, d2]; exact caps.2.2) rfl ?_
    intro h; simp [vc, Strm.close] at h ⊢; rw [h.2]; simp; exact d3
  obtain ⟨o1, s1, s2⟩ := eop.next (.op k.sot) (Nat.zero_le _) (by simp; have := hc.op; omega)
    (by simpa [w0] using hext0.op)
  have hr0 : RFW oc.data lc.data vc.data oc.disk lc.disk vc.disk (w0 k g) ⟨o1, prepFor statSpace lc, prepFor 0 vc⟩ :=
    ⟨by simpa [w0] using s2, eloc, eval⟩
  obtain ⟨hs1, r1, n, r2, r3⟩ := a4.sweepF (w0_ok k hc) (by simp [w0]) (a5.ext hext) (a5.dsk hdsk) hr0
  obtain ⟨r4, r5, r6⟩ := a5.stepF (a4.ok (w0_ok k hc)) hext hdsk hs1 r2
  refine ⟨n + 2, fun fuel hfu => ?_⟩
  obtain ⟨fuel', rfl⟩ : ∃ f', fuel = ((f' + 1) + n) + 1 := ⟨fuel - n - 2, by omega⟩
  have hop : openFor flag stats ({ w with val := v' } : W V) = ⟨prepFor 0 oc, prepFor statSpace lc, prepFor 0 vc⟩ := rfl
  rw [hop]
  simp only [List.cons_append, sweepF, stepF, s1, Rd.nexts]
  rw [r3 _ _ (by simp)]
  rcases r6 with ⟨hh, _⟩ | ⟨it, hit, r6⟩
  · cases hh
  · injection hit with hit; subst hit
    simp only [List.length_nil] at r6
    simp [sweepF, r6]

theorem prepRev_RR {α : Type} (lo : Nat) (c : Closed α) (s : Strm α) (hcap : c.cap = s.cap)
    (hdv : s.cap ∣ s.file.length) (hb : s.buf.length < s.cap) (hlen : c.data.length = s.file.length + s.buf.length)
    (he : Ext lo s c.data) (hd : c.disk = false → s.file = []) : RR lo s (prepRev c) := by
  simp only [prepRev]
  obtain ⟨q, hq⟩ := hdv
  have hmod : c.data.length % c.cap = s.buf.length := by
    rw [hlen, hq, hcap, Nat.mul_add_mod, Nat.mod_eq_of_lt hb]
  have hdiv : c.data.length / c.cap * c.cap = s.file.length := by
    have := Nat.div_add_mod c.data.length c.cap
    rw [hmod, Nat.mul_comm] at this; omega
  by_cases h : c.disk
  · rw [if_pos h]
    simp only [hmod, hdiv]
    refine ⟨rfl, hcap, by simp only; omega, ?_, ?_⟩
    · intro i x hlo hx
      have hi := (List.getElem?_eq_some_iff.1 hx).1
      simp only
      rw [List.getElem?_take, if_pos hi, List.getElem?_drop]
      apply he _ _ hlo
      rw [List.getElem?_append_right (by omega)]; simpa using hx
    · intro i x hlo hx
      apply he _ _ hlo
      rw [List.getElem?_append_left (List.getElem?_eq_some_iff.1 hx).1]; exact hx
  · rw [if_neg h]
    have h0 := hd (by simpa using h)
    refine ⟨by simp [hlen, h0], hcap, by simp [h0], ?_, by simp [h0]⟩
    intro i x hlo hx
    apply he _ _ (by simpa [h0] using hlo)
    simpa [h0] using hx

/-- Reverse read-back of a whole trace whose parameters fit the last value block. -/
theorem reverse_readback [DecidableEq V] (k : Codes) {g : Cfg} (hc : CfgOk g) (stock : List V) (cs : List (Call V))
    (hcs : ∀ c ∈ cs, CallOk k g c) (ps : List V) (hk : k.eot ≠ k.mult)
    (hp : ps.length ≤ g.valCap)
    (hfit : ∀ wn, record k g stock cs ([] : List V) = some wn → wn.val.buf.length + ps.length < g.valCap)
    (flag : Bool) (stats : List Nat) (hst : stats.length ≤ statSpace) :
    ∃ w js, record k g stock cs ps = some w ∧ IsStock k.stock 0 js ∧ js.flatMap (·.vals) = stock ∧
      ∃ n, ∀ fuel, n ≤ fuel →
        sweepRev ps.length fuel (((cs.foldl (specCall k) js).map shape).reverse ++ [(0, 0)]) (openRev flag stats w)
          = some (⟨k.eot, [], []⟩ :: (cs.foldl (specCall k) js).reverse ++ [⟨k.sot, [], []⟩]) := by
  obtain ⟨w, w1, js, v, a1, a2, a3, a4, a5, a6, a7, a8, a9⟩ := record_spec k hc stock cs hcs ps hp hk
  refine ⟨_, js, a1, a2, a3, ?_⟩
  have okw := a5.ok (a4.ok (w0_ok k hc))
  have okc := okw.valc
  have caps := (Mics.snoc a4 a5).caps
  have hfit := hfit w a9
  have hvc : w.val.cap = g.valCap := caps.2.2
  obtain ⟨v', d1, d2, d3, d4, d5, d6, d7⟩ := saveParams_spec ps w.val (by omega) okw.valb (by omega)
  obtain rfl : v' = v := by rw [d1] at a8; injection a8
  have d7 := d7 (by omega)
  subst d7
  set oc := w.op.close flag with hoc
  set lc := closeLoc flag stats w.loc with hlc
  set v' : Strm V := { w.val with buf := w.val.buf ++ ps } with hv'
  set vc := v'.close flag with hvc
  have opb : w.op.buf.length + 1 ≤ w.op.cap := okw.opb
  have h1 : RR 0 w.op (prepRev oc) := by
    refine prepRev_RR 0 oc w.op rfl okw.opf (by omega) (by simp [oc, Strm.close]) (ext_refl _ _ _ (by simp [oc, Strm.close])) ?_
    intro h; simp [oc, Strm.close] at h; exact h.2
  have h2 : RR statSpace w.loc (prepRev lc) := by
    have hstat := a5.stat (a4.stat (by simp [w0]))
    refine prepRev_RR _ lc w.loc (by simp only [lc, closeLoc]; split <;> rfl) okw.locf a7 ?_ (ext_closeLoc flag stats hst _) ?_
    · simp only [lc, closeLoc]
      split
      · simp [Strm.close]; omega
      · simp [Strm.close]
    · intro h
      have hd : (w.loc.close flag).disk = false := by
        by_contra hd; simp only [Bool.not_eq_false] at hd; simp [lc, closeLoc, hd] at h
      simp [Strm.close] at hd; exact hd.2
  have h3 : RR 0 v' (prepRev vc) := by
    refine prepRev_RR 0 vc v' rfl okw.valf (by simp [v']; omega) (by simp [vc, Strm.close]) (ext_refl _ _ _ (by simp [vc, Strm.close])) ?_
    intro h; simp [vc, Strm.close] at h; simp [h.2]
  -- end of tape, then the parameters
  cases a5 with
  | item o l vv _ ho hl hv =>
  simp only [List.append_nil] at *
  obtain ⟨o1, s1, s2⟩ := h1.prev (Nat.zero_le _)
  obtain ⟨v1, t1, t2⟩ := h3.prevs (Nat.zero_le _)
  have hpos : (prepRev vc).pos = vv.buf.length + ps.length := by simpa [v'] using h3.pos
  have hdisc : discardParams (ps.length + 2) ps.length (prepRev vc) = some { prepRev vc with pos := vv.buf.length } := by
    by_cases hp0 : ps.length = 0
    · rw [discardParams, if_neg (by omega)]
      rw [hp0] at hpos
      congr 1
      rw [← Nat.add_zero vv.buf.length, ← hpos]
    · rw [discardParams, if_pos (by omega)]
      simp only
      rw [if_neg (show ¬ (prepRev vc).pos < ps.length by omega), if_neg (by omega), discardParams, if_neg (by omega),
        show (prepRev vc).pos - ps.length = vv.buf.length by omega]
  have h3' : RR 0 vv { prepRev vc with pos := vv.buf.length } := by
    refine ⟨rfl, h3.cap, h3.num, ?_, h3.hfile⟩
    intro i x hi hx
    apply h3.hbuf i x hi
    simp only [v', List.append_nil]
    rw [List.getElem?_append_left (List.getElem?_eq_some_iff.1 hx).1]; exact hx
  have hr : RRW ⟨o, l, vv⟩ ⟨o1, prepRev lc, { prepRev vc with pos := vv.buf.length }⟩ := ⟨s2, h2, h3'⟩
  obtain ⟨r', n, r1, r2⟩ := a4.sweepR (w0_ok k hc) (by simp [w0]) hr
  obtain ⟨o2, u1, u2⟩ := RR.prev (s := { cap := g.opCap }) (x := Code.op k.sot) (by simpa [w0] using r1.op) (Nat.zero_le _)
  refine ⟨n + 1, fun fuel hfu => ?_⟩
  obtain ⟨f', rfl⟩ : ∃ f', fuel = (f' + 1) + n := ⟨fuel - n - 1, by omega⟩
  have hop : openRev flag stats ({ op := { o with buf := o.buf ++ [Code.op k.eot] }, loc := l, val := v' } : W V)
    = ⟨prepRev oc, prepRev lc, prepRev vc⟩ := by simp [openRev, oc, lc, vc, v']
  rw [hop]
  simp only [sweepRev, stepR, s1, Rd.prevs, hdisc]
  rw [r2 _ _ (by simp)]
  simp [sweepR, stepR, u1, Rd.prevs]

end Verif.IO
