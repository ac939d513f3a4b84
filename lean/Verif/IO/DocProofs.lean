import Verif.IO.DocSpec
import Mathlib.Data.List.Forall2
set_option linter.all false
namespace Verif.IO.Doc
open Verif.IO
variable {V : Type}

theorem cols_fwRow (cnt rev code : Nat) (name : String) (locs : List Nat) (csts : List V)
    (he : isExt code = false) (hl : locs.length ≤ 4) (hc : csts.length ≤ 2) :
    cols (fwRow cnt rev code name locs csts) =
      [[.num cnt], [.num rev], [.num code], [.txt name]] ++ List.replicate (4 - locs.length) [] ++
        locs.map (fun l => [.num l]) ++ List.replicate (2 - csts.length) [] ++ csts.map (fun v => [.dbl v]) := by
  unfold fwRow
  rw [he]
  rcases locs with _ | ⟨a, _ | ⟨b, _ | ⟨c, _ | ⟨d, _ | ⟨e, l⟩⟩⟩⟩⟩
  case cons.cons.cons.cons.cons => exact absurd hl (by simp)
  all_goals
    rcases csts with _ | ⟨u, _ | ⟨v, _ | ⟨w, l⟩⟩⟩
  case nil.cons.cons.cons | cons.nil.cons.cons.cons | cons.cons.nil.cons.cons.cons | cons.cons.cons.nil.cons.cons.cons | cons.cons.cons.cons.nil.cons.cons.cons => exact absurd hc (by simp)
  all_goals simp [cols, List.replicate]

theorem isMarker_fwRow (cnt rev code : Nat) (name : String) (locs : List Nat) (csts : List V)
    (he : isExt code = false) (hl : locs.length ≤ 4) (hc : csts.length ≤ 2) :
    isMarker (fwRow cnt rev code name locs csts) = (code = 34 || code = 35 || code = 36) := by
  unfold isMarker
  rw [cols_fwRow _ _ _ _ _ _ he hl hc]
  simp

theorem fw_fst (pg : Int) (cnt rev code : Nat) (name : String) (locs : List Nat) (csts : List V) :
    itemRows (filewrite pg cnt rev code name locs csts).1 =
      if isMarker (fwRow cnt rev code name locs csts) then [] else [cols (fwRow cnt rev code name locs csts)] := by
  unfold filewrite itemRows
  split <;> by_cases h : isMarker (fwRow cnt rev code name locs csts) <;> simp [h]

/-- The regular operations of the specification have a case of the switch, of the recorded shape. -/
theorem case_of_arity : ∀ a ∈ arities, a.1 ∉ unlisted →
    (caseOf a.1).isSome = true ∧ ((caseOf a.1).map (·.nl)) = some a.2.1 ∧ ((caseOf a.1).map (·.nv)) = some a.2.2 ∧
    a.2.1 ≤ 4 ∧ a.2.2 ≤ 2 ∧ isExt a.1 = false ∧ a.1 ∉ [32, 33, 34, 35, 36, 39, 60, 61, 63, 86] := by
  decide +kernel

theorem nexts_head {α : Type} {n : Nat} {r r' : Rd α} {v : α} {vs : List α} (h : r.nexts n = some (v :: vs, r')) :
    r.buf[r.pos]? = some v := by
  cases n with
  | zero => simp [Rd.nexts] at h
  | succ n =>
    simp only [Rd.nexts, Rd.next] at h
    cases hb : r.buf[r.pos]? with
    | none => rw [hb] at h; simp at h
    | some x =>
      rw [hb] at h
      simp only at h
      split at h
      · simp at h
      · injection h with h; injection h with h1 h2; injection h1 with h1 h3; rw [h1]

theorem plain_code {it : Item V} (h : Plain it) : it.code ∉ [32, 33, 34, 35, 36] ∧ isExt it.code = false ∧
    it.locs.length ≤ 4 ∧ (shownVals it).length ≤ 2 := by
  rcases h with ⟨h1, ⟨l, h2⟩, h3⟩ | ⟨h1, h2⟩
  · rw [h1, h2]; refine ⟨by decide, by decide, by simp, ?_⟩
    unfold shownVals; rw [if_pos h1]; simp; omega
  · obtain ⟨_, _, _, a1, a2, a3, a4⟩ := case_of_arity _ h1 h2
    refine ⟨?_, a3, a1, ?_⟩
    · intro hh; apply a4; simp only [List.mem_cons, List.not_mem_nil, or_false] at hh ⊢; omega
    · have : it.code ≠ 39 := by intro hh; apply a4; simp [hh]
      unfold shownVals; rw [if_neg this]; exact a2

/-- A plain operation is read with all its locations and values. -/
theorem readCase_plain {it : Item V} (h : Plain it) {r : R V} {l : Rd Nat} {v : Rd V}
    (hl : r.loc.nexts it.locs.length = some (it.locs, l)) (hv : r.val.nexts it.vals.length = some (it.vals, v)) :
    readCase it.code r = some (some (nameOf it.code, it.locs, shownVals it), { r with loc := l, val := v }) := by
  rcases h with ⟨h1, ⟨a, h2⟩, h3⟩ | ⟨h1, h2⟩
  · obtain ⟨code, locs, vals⟩ := it
    simp only at h1 h2 h3 hl hv
    subst h1 h2
    obtain ⟨d, ds, rfl⟩ := List.exists_cons_of_ne_nil h3
    have hb := nexts_head hv
    simp only [List.length_cons, List.length_nil] at hl hv
    simp [readCase, locN, valN, hl, hv, hb, nameOf, shownVals]
  · obtain ⟨a1, a2, a3, a4, a5, a6, a7⟩ := case_of_arity _ h1 h2
    simp only [List.mem_cons, List.not_mem_nil, or_false, not_or] at a7
    simp only at a2 a3
    unfold readCase
    rw [if_neg a7.2.2.2.2.2.1, if_neg a7.2.2.2.2.2.2.2.2.2, if_neg a7.2.2.2.2.2.2.1, if_neg a7.2.2.2.2.2.2.2.1,
      if_neg a7.2.2.2.2.2.2.2.2.1]
    cases hk : caseOf it.code with
    | none => rw [hk] at a2; simp at a2
    | some k =>
      rw [hk] at a2 a3
      simp only [Option.map_some, Option.some.injEq] at a2 a3
      simp [locN, valN, a2, a3, hl, hv, nameOf, shownVals, a7.2.2.2.2.2.1, hk]

/-! ### The loop -/

/-- Position of the writer on the operation tape. -/
def opLen (w : W V) : Nat := (w.op.file ++ w.op.buf).length

theorem Mic.opPlain [Zero V] {w w' : W V} {it : Item V} (m : Mic w [it] w') :
    w'.op.file ++ w'.op.buf = w.op.file ++ w.op.buf ++ [.op it.code] := by
  cases m; simp

/-- One iteration of the loop for one event of the writer. -/
theorem Mic.doc [Zero V] {w w' : W V} {is : List (Item V)} (m : Mic w is w') (ok : Ok w)
    {oa : List Code} {la : List Nat} {va : List V} {od ld vd : Bool}
    (he : ExtW w' oa la va) (hd : Dsk od ld vd w')
    (hs : statSpace ≤ w.loc.file.length + w.loc.buf.length) {r : R V}
    (h : RFW oa la va od ld vd w r) (hp : ∀ it ∈ is, Plain it) (pg : Int) (N : Nat) :
    ∃ r' pg' ls cs, RFW oa la va od ld vd w' r' ∧
      (∀ fuel, docLoop (fuel + 1) r (opLen w + 1) (N - opLen w) pg =
        (docLoop fuel r' (opLen w' + 1) (N - opLen w') pg').map (ls ++ ·)) ∧
      opLen w ≤ opLen w' ∧
      itemRows ls = List.zipWith (fun c it => cells c (N + 1 - c) it) cs is ∧
      List.Forall₂ (fun c (it : Item V) => 0 < c ∧ oa[c - 1]? = some (.op it.code)) cs is ∧
      cs.Pairwise (· < ·) ∧ (∀ c ∈ cs, opLen w < c ∧ c ≤ opLen w') := by
  obtain ⟨r', h1, h2⟩ := m.stepF ok he hd hs h
  rcases h2 with ⟨rfl, h2⟩ | ⟨it, rfl, h2⟩
  · have h0 := h2 0 0
    have mk : ∀ (c : Nat) (n : String), (c = 34 ∨ c = 35 ∨ c = 36) →
        itemRows (filewrite (V := V) pg (opLen w + 1) (N - opLen w) c n [] []).1 = [] := by
      intro c n hc
      rw [fw_fst, isMarker_fwRow _ _ _ _ _ _ (by rcases hc with rfl | rfl | rfl <;> rfl) (by simp) (by simp)]
      rcases hc with rfl | rfl | rfl <;> rfl
    have hbyte : ∀ c o, r.op.next = some (c, o) → oa[opLen w]? = some c := by
      intro c o hn
      simp only [Rd.next] at hn
      have hg := h.op.get r.op.pos (by rw [h.op.pos]; exact ok.opb)
      rw [h.op.pos] at hg hn
      unfold opLen
      rw [List.length_append, ← hg]
      cases hb : r.op.buf[w.op.buf.length]? with
      | none => rw [hb] at hn; simp at hn
      | some x => rw [hb] at hn; simp at hn; rw [hn.1]
    have hm : (oa[opLen w]? = some .endOp ∧ opLen w' = opLen w + 2) ∨ (oa[opLen w]? = some .endInt ∧ opLen w' = opLen w + 1) ∨
        (oa[opLen w]? = some .endVal ∧ opLen w' = opLen w + 1) := by
      have hx := he.op (opLen w)
      have e : ∀ (f b : List Code) (x : Code), ((f ++ (b ++ [x]))[f.length + b.length]? = some x) := by
        intro f b x; rw [← List.append_assoc, ← List.length_append]; simp
      cases m with
      | fo o l v ho => exact .inl ⟨hx _ (Nat.zero_le _) (by simp only [opLen, List.length_append]; rw [List.getElem?_append_left (by simp)]; exact e _ _ _), by simp [opLen]; omega⟩
      | fl o l v ho hl => exact .inr (.inl ⟨hx _ (Nat.zero_le _) (by simp only [opLen, List.length_append]; exact e _ _ _), by simp [opLen]; omega⟩)
      | fv o l v ho hl hv => exact .inr (.inr ⟨hx _ (Nat.zero_le _) (by simp only [opLen, List.length_append]; exact e _ _ _), by simp [opLen]; omega⟩)
    have key : ∃ (c k : Nat) (n : String), (c = 34 ∨ c = 35 ∨ c = 36) ∧ opLen w' = opLen w + k ∧
        ∀ fuel, docLoop (fuel + 1) r (opLen w + 1) (N - opLen w) pg =
          (docLoop fuel r' (opLen w + 1 + k) (N - opLen w - k) (filewrite (V := V) pg (opLen w + 1) (N - opLen w) c n [] []).2).map
            ((filewrite (V := V) pg (opLen w + 1) (N - opLen w) c n [] []).1 ++ ·) := by
      simp only [stepF] at h0
      cases hn : r.op.next with
      | none => rw [hn] at h0; simp at h0
      | some x =>
        obtain ⟨c, o⟩ := x
        rw [hn] at h0
        have hb' := hbyte _ _ hn
        rw [hb'] at hm
        simp only [Option.some.injEq] at hm
        cases c with
        | endOp =>
          simp only at h0
          cases hb : o.blockF with
          | none => rw [hb] at h0; simp at h0
          | some o1 =>
            rw [hb] at h0; simp only at h0
            cases hn1 : o1.next with
            | none => rw [hn1] at h0; simp at h0
            | some y =>
              rw [hn1] at h0; simp only [Option.some.injEq, Prod.mk.injEq, and_true] at h0
              refine ⟨34, 2, "end of op", .inl rfl, ?_, fun fuel => ?_⟩
              · simpa using hm
              · simp only [docLoop, hn, hb, hn1]; rw [← h0]
        | endInt =>
          simp only at h0
          cases hb : r.loc.blockF with
          | none => rw [hb] at h0; simp at h0
          | some l =>
            rw [hb] at h0; simp only [Option.map_some, Option.some.injEq, Prod.mk.injEq, and_true] at h0
            refine ⟨35, 1, "end of int", .inr (.inl rfl), ?_, fun fuel => ?_⟩
            · simpa using hm
            · simp only [docLoop, hn, hb]; rw [← h0]
        | endVal =>
          simp only at h0
          cases hb : r.val.blockF with
          | none => rw [hb] at h0; simp at h0
          | some l =>
            rw [hb] at h0; simp only [Option.map_some, Option.some.injEq, Prod.mk.injEq, and_true] at h0
            refine ⟨36, 1, "end of val", .inr (.inr rfl), ?_, fun fuel => ?_⟩
            · simpa using hm
            · simp only [docLoop, hn, hb]; rw [← h0]
        | op c =>
          simp only at h0
          split at h0 <;> simp at h0
    obtain ⟨c, k, n, hc, hk, key⟩ := key
    refine ⟨r', (filewrite (V := V) pg (opLen w + 1) (N - opLen w) c n [] []).2, (filewrite (V := V) pg (opLen w + 1) (N - opLen w) c n [] []).1, [], h1, fun fuel => ?_, by omega, by rw [mk c n hc]; rfl, .nil, .nil, by simp⟩
    rw [key fuel, hk, show opLen w + 1 + k = opLen w + k + 1 by omega, show N - opLen w - k = N - (opLen w + k) by omega]
  · have hpl := hp it (by simp)
    have hop := Mic.opPlain m
    have hlen : opLen w' = opLen w + 1 := by unfold opLen; rw [hop]; simp; omega
    obtain ⟨c1, c2, c3, c4⟩ := plain_code hpl
    simp only [List.mem_cons, List.not_mem_nil, or_false, not_or] at c1
    have hoa : oa[opLen w]? = some (.op it.code) := by
      apply he.op _ _ (Nat.zero_le _)
      rw [hop]; unfold opLen; simp
    simp only [stepF] at h2
    cases hn : r.op.next with
    | none => rw [hn] at h2; simp at h2
    | some x =>
      obtain ⟨c, o⟩ := x
      rw [hn] at h2
      cases c with
      | endOp => simp only at h2; split at h2 <;> try split at h2 
                 all_goals simp at h2
      | endInt => simp only [Option.map_eq_some_iff] at h2; obtain ⟨_, _, h2⟩ := h2; simp at h2
      | endVal => simp only [Option.map_eq_some_iff] at h2; obtain ⟨_, _, h2⟩ := h2; simp at h2
      | op c =>
        simp only at h2
        split at h2
        case h_2 => simp at h2
        case h_1 ls l vs v hl hv =>
        simp only [Option.some.injEq, Prod.mk.injEq] at h2
        obtain ⟨e1, e2⟩ := h2
        subst e2
        simp only at *
        have hr := readCase_plain hpl (r := { r with op := o }) hl hv
        simp only at hr
        let f := filewrite pg (opLen w + 1) (N - opLen w) c (nameOf c) ls (shownVals ⟨c, ls, vs⟩)
        refine ⟨r', f.2, f.1, [opLen w + 1], h1, fun fuel => ?_, by omega, ?_, .cons ⟨by omega, by simpa using hoa⟩ .nil, by simp, by simp; omega⟩
        · simp only [docLoop, hn]
          rw [if_neg c1.1, if_neg c1.2.1, hr, ← e1, hlen]
          simp only [Nat.sub_sub, f]
        · simp only [f]
          rw [fw_fst, isMarker_fwRow _ _ _ _ _ _ c2 c3 c4, cols_fwRow _ _ _ _ _ _ c2 c3 c4]
          simp [c1, cells]

/-- The loop over everything the writer did between two points. -/
theorem Mics.doc [Zero V] {w0 w : W V} {is : List (Item V)} (m : Mics w0 is w) (ok : Ok w0)
    (hs : statSpace ≤ w0.loc.file.length + w0.loc.buf.length)
    {oa : List Code} {la : List Nat} {va : List V} {od ld vd : Bool}
    (he : ExtW w oa la va) (hd : Dsk od ld vd w) {r : R V} (h : RFW oa la va od ld vd w0 r)
    (hp : ∀ it ∈ is, Plain it) (pg : Int) (N : Nat) :
    statSpace ≤ w.loc.file.length + w.loc.buf.length ∧
    ∃ r' n pg' ls cs, RFW oa la va od ld vd w r' ∧
      (∀ fuel, docLoop (fuel + n) r (opLen w0 + 1) (N - opLen w0) pg =
        (docLoop fuel r' (opLen w + 1) (N - opLen w) pg').map (ls ++ ·)) ∧
      itemRows ls = List.zipWith (fun c it => cells c (N + 1 - c) it) cs is ∧
      List.Forall₂ (fun c (it : Item V) => 0 < c ∧ oa[c - 1]? = some (.op it.code)) cs is ∧
      cs.Pairwise (· < ·) ∧ (∀ c ∈ cs, c ≤ opLen w) := by
  induction m with
  | nil => exact ⟨hs, r, 0, pg, [], [], h, fun fuel => by simp, rfl, .nil, .nil, by simp⟩
  | @snoc w1 w2 is js m1 m2 ih =>
    obtain ⟨hs', r1, n, pg1, ls, cs, h1, h2, h3, h4, h5, h6⟩ := ih (m2.ext he) (m2.dsk hd) (fun it hit => hp it (by simp [hit]))
    obtain ⟨r2, pg2, ls2, cs2, k1, k2, k3, k4, k5, k6, k7⟩ := Mic.doc m2 (m1.ok ok) he hd hs' h1 (fun it hit => hp it (by simp [hit])) pg1 N
    refine ⟨m2.stat hs', r2, n + 1, pg2, ls ++ ls2, cs ++ cs2, k1, fun fuel => ?_, ?_, ?_, ?_, ?_⟩
    · rw [show fuel + (n + 1) = (fuel + 1) + n by omega, h2, k2, Option.map_map]
      congr 1; funext x; simp
    · rw [List.zipWith_append h4.length_eq]
      unfold itemRows at *
      rw [List.filterMap_append, h3, k4]
    · exact List.rel_append (R := fun c (it : Item V) => 0 < c ∧ oa[c - 1]? = some (.op it.code)) h4 k5
    · rw [List.pairwise_append]
      refine ⟨h5, k6, fun a ha b hb => ?_⟩
      have := h6 a ha; have := (k7 b hb).1; omega
    · intro c hc
      rcases List.mem_append.1 hc with hc | hc
      · have := h6 c hc; omega
      · exact (k7 c hc).2

/-- The codes of oplate.h. -/
def codes : Codes := ⟨33, 32, 39, 15, by decide, by decide⟩

/-- The listing of a whole trace. -/
theorem trace_listing [Zero V] [DecidableEq V] {g : Cfg} (hc : CfgOk g) (stock : List V) (cs : List (Call V))
    (hcs : ∀ c ∈ cs, CallOk codes g c) (ps : List V) (hp : ps.length ≤ g.valCap)
    (flag : Bool) (stats : List Nat) (hst : stats.length ≤ statSpace)
    (hpl : ∀ js, IsStock codes.stock 0 js → ∀ it ∈ cs.foldl (specCall codes) js, Plain it) :
    ∃ w js, record codes g stock cs ps = some w ∧ IsStock codes.stock 0 js ∧ js.flatMap (·.vals) = stock ∧
      ∃ n body, (∀ fuel, n ≤ fuel → docLoop fuel (openFor flag stats w) 1 (w.op.file ++ w.op.buf).length 0
          = some (.top 33 :: body ++ [.bottom (w.op.file ++ w.op.buf).length 1 32])) ∧
        Lists (w.op.file ++ w.op.buf) (cs.foldl (specCall codes) js) (itemRows body) := by
  have hk : codes.eot ≠ codes.mult := by decide
  obtain ⟨w, w1, js, v, a1, a2, a3, a4, a5, a6, a7, a8, a9⟩ := record_spec codes hc stock cs hcs ps hp hk
  refine ⟨_, js, a1, a2, a3, ?_⟩
  have okw := a5.ok (a4.ok (w0_ok codes hc))
  have caps := (Mics.snoc a4 a5).caps
  obtain ⟨v', d1, d2, d3, d4, d5, d6, d7⟩ := saveParams_spec ps w.val (by omega) okw.valb (by rw [caps.2.2]; exact hp)
  obtain rfl : v' = v := by rw [d1] at a8; injection a8
  set oc := w.op.close flag with hoc
  set lc := closeLoc flag stats w.loc with hlc
  set vc := v'.close flag with hvc
  have hdsk := mics_dsk (w := w) (w' := w) (is := []) flag w v' stats d5
  have hext : ExtW w oc.data lc.data vc.data :=
    ⟨ext_refl _ _ _ (by simp [oc, Strm.close]), ext_closeLoc flag stats hst _, ext_refl _ _ _ (by simp [vc, Strm.close, d4, List.append_assoc])⟩
  have hext0 : ExtW (w0 codes g) oc.data lc.data vc.data := by
    have : ∀ {w w' : W V} {is : List (Item V)}, Mics w is w' → ExtW w' oc.data lc.data vc.data → ExtW w oc.data lc.data vc.data := by
      intro w w' is m; induction m with
      | nil => exact id
      | snoc _ m ih => exact fun h => ih (m.ext h)
    exact this (.snoc a4 a5) hext
  have eop : RF oc.data oc.disk ({ cap := g.opCap } : Strm Code) (prepFor 0 oc) := by
    refine prepFor_RF oc _ (by simp [oc, Strm.close]; exact caps.1) rfl ?_
    intro h; simp [oc, Strm.close] at h ⊢; have := okw.opb; rw [h.2]; simp; omega
  have eloc : RF lc.data lc.disk (w0 codes g : W V).loc (prepFor statSpace lc) := by
    have hcap : lc.cap = w.loc.cap := by simp only [lc, closeLoc]; split <;> rfl
    have := prepFor_RF lc (w0 codes g : W V).loc (by rw [hcap]; exact caps.2.1) rfl ?_
    · simpa [w0] using this
    · intro h
      have hd : (w.loc.close flag).disk = false := by
        by_contra hd; simp only [Bool.not_eq_false] at hd; simp [lc, closeLoc, hd] at h
      have e : lc = w.loc.close flag := by simp [lc, closeLoc, hd]
      rw [e] at hcap ⊢; simp [Strm.close] at hd ⊢
      have := okw.locb; rw [hd.2]; simp; omega
  have eval : RF vc.data vc.disk (w0 codes g : W V).val (prepFor 0 vc) := by
    refine prepFor_RF vc _ (by simp [vc, Strm.close, w0, d2]; exact caps.2.2) rfl ?_
    intro h; simp [vc, Strm.close] at h ⊢; rw [h.2]; simp; exact d3
  obtain ⟨o1, s1, s2⟩ := eop.next (.op codes.sot) (Nat.zero_le _) (by simp; have := hc.op; omega)
    (by simpa [w0] using hext0.op)
  have hr0 : RFW oc.data lc.data vc.data oc.disk lc.disk vc.disk (w0 codes g) ⟨o1, prepFor statSpace lc, prepFor 0 vc⟩ :=
    ⟨by simpa [w0] using s2, eloc, eval⟩
  have hN : oc.data = w.op.file ++ w.op.buf := rfl
  obtain ⟨hs1, r1, n, pg1, ls, ks, r2, r3, r4, r5, r6, r7⟩ := Mics.doc a4 (w0_ok codes hc) (by simp [w0]) (a5.ext hext) (a5.dsk hdsk) hr0
    (hpl js a2) 0 (w.op.file ++ w.op.buf).length
  obtain ⟨r8, t1, t2⟩ := a5.stepF (a4.ok (w0_ok codes hc)) hext hdsk hs1 r2
  have hop : openFor flag stats ({ w with val := v' } : W V) = ⟨prepFor 0 oc, prepFor statSpace lc, prepFor 0 vc⟩ := rfl
  have hlast := Mic.opPlain a5
  have hl1 : opLen w1 + 1 = (w.op.file ++ w.op.buf).length := by rw [hlast]; simp [opLen]; omega
  refine ⟨n + 2, ls, fun fuel hfu => ?_, ks, r6, r5, r4⟩
  obtain ⟨fuel', rfl⟩ : ∃ f', fuel = ((f' + 1) + n) + 1 := ⟨fuel - n - 2, by omega⟩
  have s1' : (prepFor 0 oc).next = some (.op 33, o1) := s1
  rw [hop, docLoop]
  simp only [s1']
  simp only [if_true, show (33 : Nat) ≠ 32 by decide, if_false]
  have e0 : opLen (w0 codes g : W V) = 1 := by simp [opLen, w0]
  have e1 := r3 (fuel' + 1)
  rw [e0] at e1
  rw [e1]
  rcases t2 with ⟨hh, _⟩ | ⟨it, hit, t2⟩
  · cases hh
  · injection hit with hit; subst hit
    simp only [List.length_nil, stepF] at t2
    have : ∃ o, r1.op.next = some (.op 32, o) := by
      cases hn : r1.op.next with
      | none => rw [hn] at t2; simp at t2
      | some x =>
        obtain ⟨c, o⟩ := x
        rw [hn] at t2
        cases c with
        | endOp => simp only at t2; split at t2 <;> try split at t2
                   all_goals simp at t2
        | endInt => simp only [Option.map_eq_some_iff] at t2; obtain ⟨_, _, t2⟩ := t2; simp at t2
        | endVal => simp only [Option.map_eq_some_iff] at t2; obtain ⟨_, _, t2⟩ := t2; simp at t2
        | op c => simp [Rd.nexts] at t2; exact ⟨o, by rw [t2.2]; rfl⟩
    obtain ⟨o, ho⟩ := this
    rw [docLoop]
    simp only [ho]
    simp [hl1, show (w.op.file ++ w.op.buf).length - opLen w1 = 1 by omega]
    have := hl1; simp at this; omega

end Verif.IO.Doc
