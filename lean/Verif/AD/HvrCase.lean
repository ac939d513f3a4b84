import Verif.AD.HvrStep

/-! Every case of `hov_ti_reverse`/`hos_ov_reverse` acts on each row, direction as `hos_ti_reverse`. -/
set_option linter.all false
namespace Verif.AD
open Elem

variable {K : Type} [Scalar K] {c : RVCfg K} {l : Nat} {V : RVS K} {h : HRS K}

theorem S0_S1 {q : Row} (hq : S0 q) : S1 q := by cases q <;> first | trivial | exact hq.elim

theorem ok_bind' {α β : Type} (a : α) (f : α → Except HRStop β) : (Except.ok a >>= f) = f a := rfl

theorem dropS {k : Nat} {S : Row → Prop} {M M' : Row → Nat → K} (h : Agr k S M M') (hs : ∀ q, S0 q → S q) : Agr k S0 M M' := h.mono hs

theorem RJ.cast {h h' : HRS K} (hJ : RJ c l V h) (e : h = h') : ESim c l (.ok V) (.ok h') := e ▸ hJ

/-- 1473-1526 -/
def powF (k a r : Nat) (v : K) (tres : Row) (M : Row → Nat → K) : Row → Nat → K :=
  if M (.T a) 0 > adolcEps ∨ M (.T a) 0 < -adolcEps then
    inconv0R k (.A r) .tt (.A a) (mapR k .tt (fun x => x * v) (divideR k tres (.T a) .tt M))
  else powSmall k a r v M

theorem hvr_step (hk : 0 < c.k) (hL : c.ov = true → ∀ l j i, c.L l j i = c.L 0 j i) (hl : l < c.p) (hJ : RJ c l V h) (o : Base K) (ok : o.rowOk c V) :
    ESim c l (hvrStep c o V) (hosRevStep c.k (c.L l) o h) := by
  cases o with
  | cmp _ _ => exact hJ
  | assignA a r => exact (hJ.move hl a r).pop hl r
  | assignD r _ => exact (hJ.zero hl r).pop hl r
  | assignP _ r => exact (hJ.zero hl r).pop hl r
  | assignD0 r => exact (hJ.zero hl r).pop hl r
  | assignD1 r => exact (hJ.zero hl r).pop hl r
  | assignInd r =>
    simp only [hvrStep, hosRevStep]
    refine ESim.bind (RJ.pop hl ?_ r) ?_
    · refine ⟨⟨hJ.T, hJ.A, hJ.fl, hJ.stk, hJ.ii, hJ.di, fun j i hi => ?_⟩, ⟨hJ.ofl, hJ.T0, hJ.ostk⟩⟩
      simp only [hJ.ii]
      by_cases e : j = h.ii - 1
      · rw [if_pos ⟨hl, e, hi⟩, if_pos ⟨e, hi⟩]; exact hJ.A r i hi
      · rw [if_neg (fun x => e x.2.1), if_neg (fun x => e x.1)]; exact hJ.Z j i hi
    · intro V h hJ
      exact ⟨⟨hJ.T, hJ.A, hJ.fl, hJ.stk, by rw [hJ.ii], hJ.di, hJ.Z⟩, ⟨hJ.ofl, hJ.T0, hJ.ostk⟩⟩
  | assignDep r =>
    simp only [hvrStep, hosRevStep]
    refine ⟨⟨fun r' i hi => ?_, fun r' i hi => ?_, fun r' => ?_, hJ.stk, hJ.ii, by rw [hJ.di], hJ.Z⟩, ⟨fun ho r' l' hl' => ?_, fun ho r' d hd => ?_, hJ.ostk⟩⟩
    · simp only [setRowR_eq]
      rw [if_neg (by simp), ovR_ne (by simp)]
      exact hJ.T r' i hi
    · simp only [setRowR_eq]
      by_cases er : r' = r
      · subst er
        rw [if_pos ⟨rfl, hl, hi⟩, ovR_lt hi, hJ.di]
      · rw [if_neg (by simp [er]), ovR_ne (by simp [er])]
        exact hJ.A r' i hi
    · simp only [upd_apply]
      by_cases er : r' = r
      · rw [if_pos ⟨er, hl⟩, if_pos er, hJ.di]
        rfl
      · rw [if_neg (fun x => er x.1), if_neg er]; exact hJ.fl r'
    · have e : c.L l' (V.di - 1) = c.L 0 (V.di - 1) := funext fun i => hL ho _ _ _
      by_cases er : r' = r
      · simp only
        rw [if_pos ⟨er, hl'⟩, if_pos ⟨er, by omega⟩, e]
      · simp only
        rw [if_neg (fun x => er x.1), if_neg (fun x => er x.1)]; exact hJ.ofl ho r' l' hl'
    · simp only
      rw [if_neg (by simp), if_neg (by simp)]
      exact hJ.T0 ho r' d hd
  | eqPlusD r _ => exact hJ.pop hl r
  | eqMinD r _ => exact hJ.pop hl r
  | incrA r => exact hJ.pop hl r
  | decrA r => exact hJ.pop hl r
  | eqPlusA a r => exact RJ.pop hl (hJ.rows0 hl (fun M M' hM => by exact hM.acc (by trivial) (by trivial) _) (fun M => (FrT.refl M).acc (by exact id) _)) r
  | eqMinA a r => exact RJ.pop hl (hJ.rows0 hl (fun M M' hM => by exact hM.acc (by trivial) (by trivial) _) (fun M => (FrT.refl M).acc (by exact id) _)) r
  | eqMultD r v => exact RJ.pop hl (hJ.rows0 hl (fun M M' hM => by exact hM.map (by trivial) _) (fun M => (FrT.refl M).map (by exact id) _)) r
  | eqMultA a r =>
    refine (hJ.pop hl r).bind fun V h hJ => RJ.ite ?_
    refine hJ.rows0 hl (fun M M' hM => ?_) (fun M => ?_)
    · have h1 := hM.conv (c := .at1) (a := .A r) (b := .T a) trivial trivial
      beta_reduce
      by_cases e : a ≠ r
      · simp only [if_pos e]
        have h2 := h1.inconv (a := .A r) (b := .T r) (c := .A a) (Or.inr trivial) (Or.inr trivial) (Or.inr trivial)
        exact dropS (h2.copy (c := .A r) (a := .at1) (Or.inl rfl)) fun q hq => Or.inr (Or.inr hq)
      · simp only [if_neg e]
        refine dropS (S := ins .at1 S0) ?_ fun q hq => Or.inr hq
        refine Agr.loop h1 fun i M M' hi hM => hM.wr _ _ ?_
        rw [hM .at1 (Or.inl rfl) i hi]
    · beta_reduce
      by_cases e : a ≠ r
      · simp only [if_pos e]
        exact (((FrT.refl M).conv id).inconv id).copy id
      · simp only [if_neg e]
        exact ((FrT.refl M).conv id).loop fun i M' hM => hM.wr id _ _
  | plusAA a b r => exact RJ.pop hl (hJ.rows0 hl (fun M M' hM => by exact hM.spread2 (by trivial) (by trivial) (by trivial) _ _) (fun M => (FrT.refl M).spread2 (by exact id) (by exact id) (by exact id) _ _)) r
  | plusDA a r _ => exact RJ.pop hl (hJ.rows0 hl (fun M M' hM => by exact hM.spread (by trivial) (by trivial) _) (fun M => (FrT.refl M).spread (by exact id) (by exact id) _)) r
  | minAA a b r => exact RJ.pop hl (hJ.rows0 hl (fun M M' hM => by exact hM.spread2 (by trivial) (by trivial) (by trivial) _ _) (fun M => (FrT.refl M).spread2 (by exact id) (by exact id) (by exact id) _ _)) r
  | minDA a r _ => exact RJ.pop hl (hJ.rows0 hl (fun M M' hM => by exact hM.spread (by trivial) (by trivial) _) (fun M => (FrT.refl M).spread (by exact id) (by exact id) _)) r
  | multDA a r _ => exact RJ.pop hl (hJ.rows0 hl (fun M M' hM => by exact hM.spread (by trivial) (by trivial) _) (fun M => (FrT.refl M).spread (by exact id) (by exact id) _)) r
  | posSign a r => exact RJ.pop hl (hJ.rows0 hl (fun M M' hM => by exact hM.spread (by trivial) (by trivial) _) (fun M => (FrT.refl M).spread (by exact id) (by exact id) _)) r
  | negSign a r => exact RJ.pop hl (hJ.rows0 hl (fun M M' hM => by exact hM.spread (by trivial) (by trivial) _) (fun M => (FrT.refl M).spread (by exact id) (by exact id) _)) r
  | multAA a b r =>
    refine (hJ.pop hl r).bind fun V h hJ => RJ.ite ?_
    refine hJ.rows0 hl (fun M M' hM => ?_) (fun M => (((FrT.refl M).cpz id id).inconv id).inconv id)
    have h1 := hM.cpz (c := .at1) (a := .A r) trivial
    have h2 := h1.inconv (a := .at1) (b := .T a) (c := .A b) (Or.inl rfl) (Or.inr trivial) (Or.inr trivial)
    exact dropS (h2.inconv (a := .at1) (b := .T b) (c := .A a) (Or.inl rfl) (Or.inr trivial) (Or.inr trivial)) fun q hq => Or.inr hq
  | expOp a r => exact RJ.pop hl (hJ.rows0 hl (fun M M' hM => by exact hM.inconv0 trivial trivial trivial) (fun M => (FrT.refl M).inconv0 id id)) r
  | genQuad a b r _ _ => exact RJ.pop hl (hJ.rows0 hl (fun M M' hM => by exact hM.inconv0 trivial trivial trivial) (fun M => (FrT.refl M).inconv0 id id)) r
  | sinOp a b r =>
    exact ((hJ.rows0 hl (fun M M' hM => by exact hM.inconv0 trivial trivial trivial) (fun M => (FrT.refl M).inconv0 id id)).pop hl r).bind
      fun V h hJ => hJ.pop hl b
  | cosOp a b r =>
    exact ((hJ.rows0 hl (fun M M' hM => by exact hM.deconv0 trivial trivial trivial) (fun M => (FrT.refl M).deconv0 id id)).pop hl r).bind
      fun V h hJ => hJ.pop hl b
  | quad _ a b r =>
    exact (hJ.pop hl r).bind fun V h hJ => RJ.ite <|
      hJ.rows0 hl (fun M M' hM => by exact hM.inconv0 trivial trivial trivial) (fun M => (FrT.refl M).inconv0 id id)
  | logOp a r =>
    exact (hJ.pop hl r).bind fun V h hJ => RJ.ite <|
      hJ.rows0 hl (fun M M' hM => dropS ((hM.recipr (c := .tt) (b := .T a) trivial (by simp) _).inconv0 (a := .A r) (b := .tt) (c := .A a)
        (Or.inr trivial) (Or.inl rfl) (Or.inr trivial)) fun q hq => Or.inr hq)
        (fun M => ((FrT.refl M).recipr id _).inconv0 id id)
  | sqrtOp a r =>
    exact RJ.pop hl (hJ.rows0 hl (fun M M' hM => dropS ((hM.recipr (c := .tt) (b := .T r) trivial (by simp) _).inconv0 (a := .A r) (b := .tt) (c := .A a)
        (Or.inr trivial) (Or.inl rfl) (Or.inr trivial)) fun q hq => Or.inr hq)
        (fun M => ((FrT.refl M).recipr id _).inconv0 id id)) r
  | cbrtOp _ _ => rfl
  | eqPlusProd a b r =>
    have epre : deconvR (K := K) c.k (.T a) (.T b) (.T r) = fun M => ovR M (.T r) c.k (preW (fun x y => x - y) a b r M) :=
      funext fun M => deconvR_eq _ _ _ _ M
    have h1 : ∀ M M' : Row → Nat → K, Agr c.k S0 M M' → Agr c.k S0 (inconvR c.k (.A r) (.T b) (.A a) (inconvR c.k (.A r) (.T a) (.A b) M))
        (inconvR c.k (.A r) (.T b) (.A a) (inconvR c.k (.A r) (.T a) (.A b) M')) :=
      fun M M' hM => (hM.inconv (a := .A r) (b := .T a) (c := .A b) trivial trivial trivial).inconv (a := .A r) (b := .T b) (c := .A a) trivial trivial trivial
    have h2 : ∀ M : Row → Nat → K, FrT M (inconvR c.k (.A r) (.T b) (.A a) (inconvR c.k (.A r) (.T a) (.A b) M)) :=
      fun M => ((FrT.refl M).inconv id).inconv id
    simp only [hvrStep, hosRevStep, epre]
    cases ho : c.ov with
    | false =>
      simp only [Bool.false_eq_true, if_false]
      exact RJ.ite ((hJ.pre ho hl _ a b r).rows0 hl h1 h2)
    | true =>
      simp only [if_true]
      have h0 : V.fl r 0 ≠ 0 := ok.resolve_left (by simp [ho])
      have h0' : h.fl r ≠ 0 := by rw [← hJ.fl r, hJ.ofl ho r l hl]; exact h0
      rw [if_neg h0']
      exact hJ.preOV hk ho hl _ a b r h0 h1 h2
  | eqMinProd a b r =>
    have epre : inconvR (K := K) c.k (.T a) (.T b) (.T r) = fun M => ovR M (.T r) c.k (preW (fun x y => x + y) a b r M) :=
      funext fun M => inconvR_eq _ _ _ _ M
    have h1 : ∀ M M' : Row → Nat → K, Agr c.k S0 M M' → Agr c.k S0 (deconvR c.k (.A r) (.T b) (.A a) (deconvR c.k (.A r) (.T a) (.A b) M))
        (deconvR c.k (.A r) (.T b) (.A a) (deconvR c.k (.A r) (.T a) (.A b) M')) :=
      fun M M' hM => (hM.deconv (a := .A r) (b := .T a) (c := .A b) trivial trivial trivial).deconv (a := .A r) (b := .T b) (c := .A a) trivial trivial trivial
    have h2 : ∀ M : Row → Nat → K, FrT M (deconvR c.k (.A r) (.T b) (.A a) (deconvR c.k (.A r) (.T a) (.A b) M)) :=
      fun M => ((FrT.refl M).deconv id).deconv id
    simp only [hvrStep, hosRevStep, epre]
    cases ho : c.ov with
    | false =>
      simp only [Bool.false_eq_true, if_false]
      exact RJ.ite ((hJ.pre ho hl _ a b r).rows0 hl h1 h2)
    | true =>
      simp only [if_true]
      have h0 : V.fl r 0 ≠ 0 := ok.resolve_left (by simp [ho])
      have h0' : h.fl r ≠ 0 := by rw [← hJ.fl r, hJ.ofl ho r l hl]; exact h0
      rw [if_neg h0']
      exact hJ.preOV hk ho hl _ a b r h0 h1 h2
  | divAA a b r =>
    have hg : ∀ tres : Row, S1 tres → ∀ M M' : Row → Nat → K, Agr c.k S1 M M' → Agr c.k S0
        (deconvR c.k .at1 .at2 (.A b) (inconvR c.k .at1 .tt (.A a) (cpzR c.k (.A r) .at1 (convR c.k .tt tres .at2 (reciprR c.k 1 (.T b) .tt M)))))
        (deconvR c.k .at1 .at2 (.A b) (inconvR c.k .at1 .tt (.A a) (cpzR c.k (.A r) .at1 (convR c.k .tt tres .at2 (reciprR c.k 1 (.T b) .tt M'))))) := by
      intro tres ht M M' hM
      have h1 := hM.recipr (c := .tt) (b := .T b) (show S1 (.T b) from trivial) (by simp) 1
      have h2 := h1.conv (c := .at2) (a := .tt) (b := tres) (Or.inl rfl) (Or.inr ht)
      have h3 := h2.cpz (c := .at1) (a := .A r) (Or.inr (Or.inr trivial))
      have h4 := h3.inconv (a := .at1) (b := .tt) (c := .A a) (Or.inl rfl) (Or.inr (Or.inr (Or.inl rfl))) (Or.inr (Or.inr (Or.inr trivial)))
      have h5 := h4.deconv (a := .at1) (b := .at2) (c := .A b) (Or.inl rfl) (Or.inr (Or.inl rfl)) (Or.inr (Or.inr (Or.inr trivial)))
      exact dropS h5 fun q hq => Or.inr (Or.inr (Or.inr (S0_S1 hq)))
    have hfr : ∀ (tres : Row) (M : Row → Nat → K), FrT M
        (deconvR c.k .at1 .at2 (.A b) (inconvR c.k .at1 .tt (.A a) (cpzR c.k (.A r) .at1 (convR c.k .tt tres .at2 (reciprR c.k 1 (.T b) .tt M))))) :=
      fun tres M => (((((FrT.refl M).recipr id _).conv id).cpz id id).inconv id).deconv id
    simp only [hvrStep, hosRevStep]
    by_cases e : b = r
    · subst e
      simp only [not_true, if_false, if_true, ne_eq]
      obtain ⟨s1, s2⟩ := hJ.saveT hl _
      refine ESim.popTT hl s1 s2 fun V h hJ htt => ?_
      exact hJ.rows hl (S := S1) (fun q hq => hq) (fun _ => htt) (RGood.mk' (hg .tt2 trivial) (hfr .tt2)) (fun _ _ _ _ _ => rfl)
    · simp only [e, not_false_eq_true, if_true, if_false, ne_eq, ok_bind']
      refine RJ.pop hl ?_ r
      refine hJ.rows0 hl (fun M M' hM => ?_) (hfr _)
      have h1 := hM.recipr (c := .tt) (b := .T b) (show S0 (.T b) from trivial) (by simp) 1
      have h2 := h1.conv (c := .at2) (a := .tt) (b := .T r) (Or.inl rfl) (Or.inr trivial)
      have h3 := h2.cpz (c := .at1) (a := .A r) (Or.inr (Or.inr trivial))
      have h4 := h3.inconv (a := .at1) (b := .tt) (c := .A a) (Or.inl rfl) (Or.inr (Or.inr (Or.inl rfl))) (Or.inr (Or.inr (Or.inr trivial)))
      have h5 := h4.deconv (a := .at1) (b := .at2) (c := .A b) (Or.inl rfl) (Or.inr (Or.inl rfl)) (Or.inr (Or.inr (Or.inr trivial)))
      exact dropS h5 fun q hq => Or.inr (Or.inr (Or.inr hq))
  | divDA a r _ =>
    have hg : ∀ (S : Row → Prop) (tres : Row), S tres → (∀ q, S0 q → S q) → ∀ M M' : Row → Nat → K, Agr c.k S M M' → Agr c.k S0
        (deconv0R c.k (.A r) .at1 (.A a) (convR c.k .tt tres .at1 (reciprR c.k 1 (.T a) .tt M)))
        (deconv0R c.k (.A r) .at1 (.A a) (convR c.k .tt tres .at1 (reciprR c.k 1 (.T a) .tt M'))) := by
      intro S tres ht hs M M' hM
      have h1 := hM.recipr (c := .tt) (b := .T a) (hs (.T a) trivial) (by simp) 1
      have h2 := h1.conv (c := .at1) (a := .tt) (b := tres) (Or.inl rfl) (Or.inr ht)
      have h3 := h2.deconv0 (a := .A r) (b := .at1) (c := .A a) (Or.inr (Or.inr (hs (.A r) trivial))) (Or.inl rfl) (Or.inr (Or.inr (hs (.A a) trivial)))
      exact dropS h3 fun q hq => Or.inr (Or.inr (hs q hq))
    have hfr : ∀ (tres : Row) (M : Row → Nat → K), FrT M (deconv0R c.k (.A r) .at1 (.A a) (convR c.k .tt tres .at1 (reciprR c.k 1 (.T a) .tt M))) :=
      fun tres M => (((FrT.refl M).recipr id _).conv id).deconv0 id id
    simp only [hvrStep, hosRevStep]
    by_cases e : a = r
    · subst e
      simp only [not_true, if_false, if_true, ne_eq]
      obtain ⟨s1, s2⟩ := hJ.saveT hl _
      refine ESim.popTT hl s1 s2 fun V h hJ htt => ?_
      exact hJ.rows hl (S := S1) (fun q hq => hq) (fun _ => htt) (RGood.mk' (hg S1 .tt2 trivial fun q hq => S0_S1 hq) (hfr .tt2)) (fun _ _ _ _ _ => rfl)
    · simp only [e, not_false_eq_true, if_true, if_false, ne_eq, ok_bind']
      refine RJ.pop hl ?_ r
      exact hJ.rows0 hl (hg S0 (.T r) trivial fun q hq => hq) (hfr _)
  | powOp a r v =>
    have hg : ∀ (S : Row → Prop) (tres : Row), S tres → (∀ q, S0 q → S q) → ∀ M M' : Row → Nat → K, Agr c.k S M M' → Agr c.k S0
        (powF c.k a r v tres M) (powF c.k a r v tres M') := by
      intro S tres ht hs M M' hM
      unfold powF
      rw [hM (.T a) (hs (.T a) trivial) 0 hk]
      split_ifs
      · have h1 := hM.divide (c := .tt) (a := tres) (b := .T a) ht (hs (.T a) trivial) (by simp)
        have h2 := h1.map (c := .tt) (Or.inl rfl) (fun x => x * v)
        have h3 := h2.inconv0 (a := .A r) (b := .tt) (c := .A a) (Or.inr (hs (.A r) trivial)) (Or.inl rfl) (Or.inr (hs (.A a) trivial))
        exact dropS h3 fun q hq => Or.inr (hs q hq)
      · exact powSmall_agr (hM.mono hs)
    have hfr : ∀ (tres : Row) (M : Row → Nat → K), FrT M (powF c.k a r v tres M) := by
      intro tres M
      unfold powF
      split_ifs
      · exact (((FrT.refl M).divide id).map id _).inconv0 id id
      · exact powSmall_fr M
    have hos : ∀ (tres : Row) (h : HRS K), (if h.fl r = 0 then h
        else if h.M (.T a) 0 > adolcEps ∨ h.M (.T a) 0 < -adolcEps then
          { h with fl := h.flUn a r 4, M := inconv0R c.k (.A r) .tt (.A a) (mapR c.k .tt (fun x => x * v) (divideR c.k tres (.T a) .tt h.M)) }
        else { h with fl := h.flUn a r 4, M := powSmall c.k a r v h.M }) =
        (if h.fl r = 0 then h else { h with fl := gUn a r 4 h.fl, M := powF c.k a r v tres h.M }) := by
      intro tres h
      unfold powF
      split_ifs <;> rfl
    have hrow : ∀ (tres : Row), (mkB (gUn a r 4) fun M => if M (.T a) 0 > adolcEps ∨ M (.T a) 0 < -adolcEps then
        inconv0R c.k (.A r) .tt (.A a) (mapR c.k .tt (fun x => x * v) (divideR c.k tres (.T a) .tt M)) else powSmall c.k a r v M) =
        mkB (gUn a r 4) (powF c.k a r v tres) := fun tres => rfl
    simp only [hvrStep, hosRevStep]
    by_cases e : a = r
    · subst e
      simp only [not_true, if_false, if_true, ne_eq]
      obtain ⟨s1, s2⟩ := hJ.saveT hl _
      refine ESim.popTT hl s1 s2 fun V h hJ htt => ?_
      rw [hos, hrow]
      exact hJ.rows hl (S := S1) (fun q hq => hq) (fun _ => htt) (RGood.mk' (hg S1 .tt2 trivial fun q hq => S0_S1 hq) (hfr .tt2)) (fun _ _ _ _ _ => rfl)
    · simp only [e, not_false_eq_true, if_true, if_false, ne_eq, ok_bind']
      refine RJ.pop hl ?_ r
      rw [hos, hrow]
      exact hJ.rows0 hl (hg S0 (.T r) trivial fun q hq => hq) (hfr _)
  | minOp a b r w =>
    simp only [hvrStep, hosRevStep]
    have hp := hJ.pop hl r
    simp only [Base.rowOk] at ok
    revert hp ok
    cases V.pop c r with
    | error e1 => cases h.pop c.k r with
      | error e2 => intro ok hp; exact hp
      | ok h2 => intro ok hp; exact hp.elim
    | ok V2 => cases h.pop c.k r with
      | error e2 => intro ok hp; exact hp.elim
      | ok h2 =>
        intro ok hJ
        change RJ c l V2 h2 at hJ
        show ESim c l (match minPick c.k (V2.M (.T a) 0) (V2.M (.T b) 0) with | some (snd, tie) => _ | none => _) _
        have hv1 := hJ.val hk hl a
        have hv2 := hJ.val hk hl b
        have epick : (c.ov = false ∧ minPick c.k (V2.M (.T a) 0) (V2.M (.T b) 0) = minPick c.k (h2.M (.T a)) (h2.M (.T b))) ∨
            ∃ snd, minPick c.k (V2.M (.T a) 0) (V2.M (.T b) 0) = some (snd, false) ∧ minPick c.k (h2.M (.T a)) (h2.M (.T b)) = some (snd, false) := by
          rcases ok with ho | hne
          · left
            refine ⟨ho, minPick_congr hk (fun i hi => ?_) (fun i hi => ?_)⟩
            · have := hJ.T a i hi; rwa [adv_nov ho, zero_mul] at this
            · have := hJ.T b i hi; rwa [adv_nov ho, zero_mul] at this
          · right
            have hne := hne _ rfl
            have hne' := hne
            rw [hv1, hv2] at hne'
            unfold minPick
            rw [hv1, hv2]
            rcases lt_or_gt_of_ne hne' with hlt | hgt
            · exact ⟨false, by rw [if_neg (not_lt.2 hlt.le), if_pos hlt], by rw [if_neg (not_lt.2 hlt.le), if_pos hlt]⟩
            · exact ⟨true, by rw [if_pos hgt], by rw [if_pos hgt]⟩
        rcases epick with ⟨ho, ep⟩ | ⟨snd, ep1, ep2⟩
        · rw [ep]
          simp only [ok_bind']
          cases hm : minPick c.k (h2.M (.T a)) (h2.M (.T b)) with
          | none =>
            simp only [ho, Bool.false_eq_true, if_false]
            exact RJ.ite (hJ.rows0 hl (fun M M' hM => by exact hM.spread2 (by trivial) (by trivial) (by trivial) _ _) (fun M => (FrT.refl M).spread2 (by exact id) (by exact id) (by exact id) _ _))
          | some x =>
            obtain ⟨snd, tie⟩ := x
            simp only [ho, Bool.false_eq_true, false_and, if_false]
            refine RJ.ite ?_
            exact hJ.rows0 hl (fun M M' hM => by exact hM.spread (by trivial) (by trivial) _) (fun M => (FrT.refl M).spread (by exact id) (by exact id) _)
        · simp only [ok_bind']
          rw [ep1, ep2]
          simp only [Bool.false_eq_true, and_false, if_false]
          exact RJ.ite (hJ.rows0 hl (fun M M' hM => by exact hM.spread (by trivial) (by trivial) _) (fun M => (FrT.refl M).spread (by exact id) (by exact id) _))
  | absVal a r w =>
    refine (hJ.pop hl r).bind fun V h hJ => ?_
    have key : ESim c l (.ok (V.rows c r (absB c.k a r))) (if h.fl r = 0 then .ok h else .ok { h with fl := (absB c.k a r h.fl h.M).1, M := (absB c.k a r h.fl h.M).2 }) := by
      refine RJ.ite (hJ.rows hl (S := S0) (fun q hq => S0_S1 hq) (fun hq => hq.elim) (absB_good hk a r) ?_)
      intro ho fl M M' hM
      simp only [absB]
      rw [hM a]
    cases ho : c.ov with
    | true =>
      simp only [if_true]
      rw [absLoop hJ.toOVInv ho]
      exact key
    | false =>
      simp only [Bool.false_eq_true, if_false]
      have hp1 : c.p ≤ 1 := ok.resolve_left (by simp [ho])
      rw [if_neg]
      · exact key
      · rintro ⟨l', hl', hne, _⟩
        rw [List.mem_range] at hl'
        omega
  | ceilOp _ _ _ => exact ok.elim
  | floorOp _ _ _ => exact ok.elim
  | condAssign a a1 a2 r w =>
    refine (hJ.pop hl r).bind fun V h hJ => ?_
    have hv := hJ.val hk hl a
    simp only [hv]
    by_cases e1 : h.M (.T a) 0 > 0
    · rw [if_pos e1, if_pos e1]
      split_ifs
      · exact hJ.move hl a1 r
      · exact hJ
    · rw [if_neg e1, if_neg e1]
      by_cases e2 : r ≠ a2
      · rw [if_pos e2, if_pos e2]
        exact RJ.ite (hJ.rows0 hl (fun M M' hM => by exact hM.move trivial trivial) (fun M => (FrT.refl M).move id id))
      · rw [if_neg e2, if_neg e2]
        have := hJ.rows0 hl (r := r) (g := fun fl => if h.M (.T a) 0 = 0 then upd (upd fl a1 5) a2 5 else fl) (f := id) (fun M M' hM => hM) (fun M => FrT.refl M)
        refine RJ.cast this (?_ : (if h.fl r = 0 then h else { h with fl := if h.M (.T a) 0 = 0 then upd (upd h.fl a1 5) a2 5 else h.fl, M := h.M }) = _)
        by_cases f1 : h.fl r = 0
        · simp [f1]
        · by_cases f2 : h.M (.T a) 0 = 0 <;> simp [f1, f2]
  | condEqAssign a a1 a2 r w =>
    refine (hJ.pop hl r).bind fun V h hJ => ?_
    have hv := hJ.val hk hl a
    simp only [hv]
    split_ifs <;> first | exact hJ.move hl _ r | exact hJ
  | condAssignS a a1 r w =>
    refine (hJ.pop hl r).bind fun V h hJ => ?_
    have hv := hJ.val hk hl a
    simp only [hv]
    by_cases e1 : h.M (.T a) 0 = 0
    · rw [if_pos e1, if_pos e1]
      have := hJ.rows0 hl (r := r) (g := fun fl => upd fl a1 5) (f := id) (fun M M' hM => hM) (fun M => FrT.refl M)
      refine RJ.cast this (?_ : (if h.fl r = 0 then h else { h with fl := upd h.fl a1 5, M := h.M }) = _)
      by_cases f1 : h.fl r = 0 <;> simp [f1]
    · rw [if_neg e1, if_neg e1]
      split_ifs <;> first | exact hJ.move hl _ r | exact hJ
  | condEqAssignS a a1 r w =>
    refine (hJ.pop hl r).bind fun V h hJ => ?_
    have hv := hJ.val hk hl a
    simp only [hv]
    split_ifs <;> first | exact hJ.move hl _ r | exact hJ
  | setRef r _ => exact hJ.pop hl r
  | vecCopy a n r => exact foldlM_RJ _ (fun V h q hJ => (hJ.move hl (a + q) (r + q)).pop hl (r + q)) hJ
  | vecDot a b n r =>
    refine RJ.pop hl (foldl_RJ _ (fun V h q hJ => ?_) hJ) r
    exact hJ.rows0 hl (fun M M' hM => by exact (hM.inconv (a := .A r) (b := .T (a + q)) (c := .A (b + q)) trivial trivial trivial).inconv trivial trivial trivial) (fun M => ((FrT.refl M).inconv id).inconv id)
  | vecAxpy a a1 a2 n r =>
    have hp1 : c.p = 1 := by have : c.p ≤ 1 := ok; omega
    refine foldlM_RJ _ (fun V h q hJ => RJ.pop hl ?_ (r + q)) hJ
    have e1 : ∀ (b : RBody K), (if V.fl (r + q) 0 = 0 then V else V.onRow 0 0 b) = V.rows c (r + q) b := by
      intro b
      unfold RVS.rows
      rw [hp1, forUp_succ]
      show _ = (if V.fl (r + q) 0 = 0 then (V, 0) else (V.onRow 0 0 b, 0 + c.adv)).1
      split_ifs <;> rfl
    rw [e1]
    refine hJ.rows0 hl (fun M M' hM => ?_) (fun M => ((((FrT.refl M).cpz id id).inconv id).inconv id).acc id _)
    have h1 := hM.cpz (c := .at1) (a := .A (r + q)) trivial
    have h2 := h1.inconv (a := .at1) (b := .T (a1 + q)) (c := .A a) (Or.inl rfl) (Or.inr trivial) (Or.inr trivial)
    have h3 := h2.inconv (a := .at1) (b := .T a) (c := .A (a1 + q)) (Or.inl rfl) (Or.inr trivial) (Or.inr trivial)
    have h4 := h3.acc (a := .A (a2 + q)) (b := .at1) (Or.inr trivial) (Or.inl rfl) (fun x t => x + t)
    exact dropS h4 fun q hq => Or.inr hq
  | takeStock r vs => exact foldl_RJ _ (fun V h q hJ => hJ.zero hl _) hJ
  | deathNot a b =>
    exact foldlM_RJ _ (fun V h q hJ => hJ.pop hl _) (foldl_RJ _ (fun V h q hJ => hJ.zero hl _) hJ)

/-- `rowOk` at every operation met by the reverse loop. -/
def AlongRV (c : RVCfg K) : List (Base K) → RVS K → Prop
  | [], _ => True
  | o :: os, s => AlongRV c os s ∧ ∀ s', hvrRun c os s = .ok s' → o.rowOk c s'

theorem hvr_run (hk : 0 < c.k) (hL : c.ov = true → ∀ l j i, c.L l j i = c.L 0 j i) (hl : l < c.p) (hJ : RJ c l V h) (ops : List (Base K))
    (ok : AlongRV c ops V) : ESim c l (hvrRun c ops V) (hosRevRun c.k (c.L l) ops h) := by
  induction ops with
  | nil => exact hJ
  | cons o os ih =>
    have i1 := ih ok.1
    have i2 := ok.2
    simp only [hvrRun, hosRevRun]
    revert i1 i2
    cases hvrRun c os V <;> cases hosRevRun c.k (c.L l) os h
    · intro i1 _; exact i1
    · intro i1 _; exact i1.elim
    · intro i1 _; exact i1.elim
    · intro i1 i2
      exact hvr_step hk hL hl i1 o (i2 _ rfl)

theorem RJ.init {n m : Nat} (c : RVCfg K) (l : Nat) (stk : List (Nat → Nat → K)) (hs : c.ov = true → ∀ x ∈ stk, ∀ d, d < c.p → x d 0 = x 0 0) :
    RJ c l (RVS.init n m stk) (HRS.init n m (stk.map fun x => x (c.adv * l))) :=
  ⟨⟨fun _ _ _ => rfl, fun _ _ _ => rfl, fun _ => rfl, rfl, rfl, rfl, fun _ _ _ => rfl⟩, ⟨fun _ _ _ _ => rfl, fun _ _ _ _ => rfl, hs⟩⟩

end Verif.AD
