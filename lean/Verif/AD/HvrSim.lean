import Verif.AD.HvrRows
import Verif.AD.HoRevRows

/-! Every row of `hov_ti_reverse`, every direction of `hos_ov_reverse`, is a run of `hos_ti_reverse`. -/
set_option linter.all false
namespace Verif.AD
open Elem

variable {K : Type} [Scalar K]

/-- Row `l` of the vector sweep is the state `h` of `hos_ti_reverse`. -/
structure RRow (c : RVCfg K) (l : Nat) (V : RVS K) (h : HRS K) : Prop where
  T : ∀ r i, i < c.k → V.M (.T r) (c.adv * l) i = h.M (.T r) i
  A : ∀ r i, i < c.k → V.M (.A r) l i = h.M (.A r) i
  fl : ∀ r, V.fl r l = h.fl r
  stk : h.stk = V.stk.map fun x => x (c.adv * l)
  ii : V.ii = h.ii
  di : V.di = h.di
  Z : ∀ j i, i < c.k → V.Z l j i = h.Z j i

/-- In `hos_ov_reverse` the flags do not depend on the direction, and neither do the values. -/
structure OVInv (c : RVCfg K) (V : RVS K) : Prop where
  ofl : c.ov = true → ∀ r l, l < c.p → V.fl r l = V.fl r 0
  T0 : c.ov = true → ∀ r d, d < c.p → V.M (.T r) d 0 = V.M (.T r) 0 0
  ostk : c.ov = true → ∀ x ∈ V.stk, ∀ d, d < c.p → x d 0 = x 0 0

structure RJ (c : RVCfg K) (l : Nat) (V : RVS K) (h : HRS K) : Prop extends RRow c l V h, OVInv c V

def ESim (c : RVCfg K) (l : Nat) : Except HRStop (RVS K) → Except HRStop (HRS K) → Prop
  | .ok V, .ok h => RJ c l V h
  | .error e, .error e' => e = e'
  | _, _ => False

theorem ESim.bind {c : RVCfg K} {l : Nat} {A : Except HRStop (RVS K)} {B : Except HRStop (HRS K)} {f : RVS K → Except HRStop (RVS K)}
    {g : HRS K → Except HRStop (HRS K)} (h : ESim c l A B) (hf : ∀ V h, RJ c l V h → ESim c l (f V) (g h)) :
    ESim c l (A >>= f) (B >>= g) := by
  cases A <;> cases B
  · exact h
  · exact h.elim
  · exact h.elim
  · exact hf _ _ h

section
variable {c : RVCfg K} {l : Nat} {V : RVS K} {h : HRS K}

theorem adv_lt (hl : l < c.p) : c.adv * l < c.pT := by
  unfold RVCfg.adv RVCfg.pT
  split_ifs <;> omega

theorem adv_ov (ho : c.ov = true) : c.adv = 1 := by unfold RVCfg.adv; rw [if_pos ho]
theorem adv_nov (ho : c.ov = false) : c.adv = 0 := by unfold RVCfg.adv; rw [if_neg (by simp [ho])]
theorem pT_ov (ho : c.ov = true) : c.pT = c.p := by unfold RVCfg.pT; rw [if_pos ho]

theorem cntF_all {r n : Nat} (hz : ∀ l, l < n → V.fl r l ≠ 0) : cntF V r n = n := by
  induction n with
  | zero => rfl
  | succ n ih =>
    simp only [cntF]
    rw [if_neg (hz n (by omega)), ih fun l hl => hz l (by omega)]

/-- Pointers into `rpp_T` are at polynomial `l` in pass `l` (of `hos_ov_reverse`), if that pass computes. -/
theorem adv_cnt (hI : OVInv c V) (hl : l < c.p) {r : Nat} (hr : V.fl r l ≠ 0) : c.adv * cntF V r l = c.adv * l := by
  cases ho : c.ov with
  | false => simp [adv_nov ho]
  | true =>
    rw [cntF_all]
    intro l' hl'
    rw [hI.ofl ho r l' (by omega), ← hI.ofl ho r l hl]
    exact hr

theorem RJ.rows (hl : l < c.p) (hJ : RJ c l V h) {S : Row → Prop} (hS : ∀ q, S q → S1 q)
    (htt : S .tt2 → ∀ i, i < c.k → V.M .tt2 (c.adv * l) i = h.M .tt2 i) {r : Nat} {b : RBody K} (hb : RGood c.k S b)
    (hg : c.ov = true → ∀ fl M M', (∀ r, M (.T r) 0 = M' (.T r) 0) → (b fl M).1 = (b fl M').1) :
    RJ c l (V.rows c r b) (if h.fl r = 0 then h else { h with fl := (b h.fl h.M).1, M := (b h.fl h.M).2 }) := by
  obtain ⟨i1, i2, i3, i4, i5, i6, i7⟩ := rows_spec c r b hb.frame V
  obtain ⟨M, m1, m2, m3, m4⟩ := i7 l hl
  have efl : (fun r => V.fl r l) = h.fl := funext hJ.fl
  have hI : OVInv c (V.rows c r b) := by
    refine ⟨fun ho r' l' hl' => ?_, fun ho r' d hd => ?_, fun ho => by rw [i2]; exact hJ.ostk ho⟩
    · obtain ⟨M1, a1, a2, a3, a4⟩ := i7 l' hl'
      obtain ⟨M2, b1, b2, b3, b4⟩ := i7 0 (by omega)
      rw [a3, b3, hJ.ofl ho r l' hl', hJ.ofl ho r' l' hl']
      split_ifs with h0
      · rfl
      · have : (fun r => V.fl r l') = fun r => V.fl r 0 := funext fun r => hJ.ofl ho r l' hl'
        rw [this]
        refine congrFun (hg ho _ _ _ fun r => ?_) r'
        have e1 := adv_cnt (l := l') hJ.toOVInv hl' (r := _) (by rw [hJ.ofl ho _ l' hl']; exact h0)
        rw [a1 (.T r) trivial, b1 (.T r) trivial, e1, adv_ov ho, one_mul]
        simp only [cntF, mul_zero]
        exact hJ.T0 ho r l' hl'
    · rw [i1 (.T r') trivial]
      exact hJ.T0 ho r' d hd
  refine ⟨?_, hI⟩
  by_cases h0 : h.fl r = 0
  · rw [if_pos h0]
    have h0' : V.fl r l = 0 := by rw [hJ.fl]; exact h0
    refine ⟨fun r' i hi => ?_, fun r' i hi => ?_, fun r' => ?_, ?_, by rw [i3]; exact hJ.ii, by rw [i4]; exact hJ.di, fun j i hi => by rw [i5]; exact hJ.Z j i hi⟩
    · rw [i1 (.T r') trivial]; exact hJ.T r' i hi
    · rw [m4, if_pos h0']; exact hJ.A r' i hi
    · rw [m3, if_pos h0']; exact hJ.fl r'
    · rw [i2]; exact hJ.stk
  · rw [if_neg h0]
    have h0' : V.fl r l ≠ 0 := by rw [hJ.fl]; exact h0
    have ecn := adv_cnt hJ.toOVInv hl h0'
    have hag : Agr c.k S M h.M := by
      intro q hq i hi
      have := hS q hq
      cases q with
      | T r' => rw [m1 (.T r') trivial, ecn]; exact hJ.T r' i hi
      | A r' => rw [m2]; exact hJ.A r' i hi
      | tt2 => rw [m1 .tt2 trivial, ecn]; exact htt hq i hi
      | _ => exact this.elim
    obtain ⟨s1, s2⟩ := hb.sim h.fl M h.M hag
    refine ⟨fun r' i hi => ?_, fun r' i hi => ?_, fun r' => ?_, ?_, by rw [i3]; exact hJ.ii, by rw [i4]; exact hJ.di, fun j i hi => by rw [i5]; exact hJ.Z j i hi⟩
    · rw [i1 (.T r') trivial]
      show _ = (b h.fl h.M).2 (.T r') i
      rw [hb.frame _ _ (.T r') trivial]
      exact hJ.T r' i hi
    · rw [m4, if_neg h0', efl]; exact s2 (.A r') trivial i hi
    · rw [m3, if_neg h0', efl, s1]
    · rw [i2]; exact hJ.stk

theorem RJ.rows0 (hl : l < c.p) (hJ : RJ c l V h) {r : Nat} {g : (Nat → K) → Nat → K} {f : (Row → Nat → K) → Row → Nat → K}
    (h1 : ∀ M M', Agr c.k S0 M M' → Agr c.k S0 (f M) (f M')) (h2 : ∀ M, FrT M (f M)) :
    RJ c l (V.rows c r (mkB g f)) (if h.fl r = 0 then h else { h with fl := g h.fl, M := f h.M }) :=
  hJ.rows hl (S := S0) (fun q hq => by cases q <;> first | trivial | exact hq.elim) (fun hq => hq.elim) (RGood.mk' h1 h2) (fun _ _ _ _ _ => rfl)

theorem RJ.pop (hl : l < c.p) (hJ : RJ c l V h) (r : Nat) : ESim c l (V.pop c r) (h.pop c.k r) := by
  unfold RVS.pop HRS.pop
  have hs := hJ.stk
  cases e : V.stk with
  | nil =>
    rw [e] at hs
    simp only [List.map_nil] at hs
    rw [hs]; rfl
  | cons x st =>
    rw [e] at hs
    simp only [List.map_cons] at hs
    rw [hs]
    refine ⟨⟨fun r' i hi => ?_, fun r' i hi => ?_, hJ.fl, rfl, hJ.ii, hJ.di, hJ.Z⟩, ?_⟩
    · show (if Row.T r' = .T r ∧ c.adv * l < c.pT ∧ i < c.k then x (c.adv * l) i else V.M (.T r') (c.adv * l) i) = _
      rw [setRowR_eq]
      by_cases er : r' = r
      · subst er
        rw [if_pos ⟨rfl, adv_lt hl, hi⟩]
        exact (ovR_lt hi).symm
      · rw [if_neg (by simp [er])]
        show _ = ovR h.M (.T r) c.k (x (c.adv * l)) (.T r') i
        rw [ovR_ne (by simp [er])]
        exact hJ.T r' i hi
    · show (if Row.A r' = .T r ∧ l < c.pT ∧ i < c.k then x l i else V.M (.A r') l i) = _
      rw [setRowR_eq, if_neg (by simp)]
      show _ = ovR h.M (.T r) c.k (x (c.adv * l)) (.A r') i
      rw [ovR_ne (by simp)]
      exact hJ.A r' i hi
    · refine ⟨hJ.ofl, fun ho r' d hd => ?_, fun ho y hy => hJ.ostk ho y (by rw [e]; exact List.mem_cons_of_mem _ hy)⟩
      show (if Row.T r' = .T r ∧ d < c.pT ∧ 0 < c.k then x d 0 else V.M (.T r') d 0) =
        (if Row.T r' = .T r ∧ 0 < c.pT ∧ 0 < c.k then x 0 0 else V.M (.T r') 0 0)
      rw [pT_ov ho]
      by_cases hc : r' = r ∧ 0 < c.k
      · rw [if_pos ⟨by rw [hc.1], hd, hc.2⟩, if_pos ⟨by rw [hc.1], by omega, hc.2⟩]
        exact hJ.ostk ho x (by rw [e]; exact List.mem_cons_self ..) d hd
      · rw [if_neg (fun hx => hc ⟨by simpa using hx.1, hx.2.2⟩), if_neg (fun hx => hc ⟨by simpa using hx.1, hx.2.2⟩)]
        exact hJ.T0 ho r' d hd

theorem RJ.zero (hl : l < c.p) (hJ : RJ c l V h) (r : Nat) : RJ c l (V.zero c r) (h.zero c.k r) := by
  refine ⟨⟨fun r' i hi => ?_, fun r' i hi => ?_, fun r' => ?_, hJ.stk, hJ.ii, hJ.di, hJ.Z⟩, ⟨fun ho r' l' hl' => ?_, fun ho r' d hd => ?_, hJ.ostk⟩⟩
  · simp only [RVS.zero, HRS.zero]
    rw [setRowR_eq, if_neg (by simp), ovR_ne (by simp)]
    exact hJ.T r' i hi
  · simp only [RVS.zero, HRS.zero]
    rw [setRowR_eq]
    by_cases er : r' = r
    · subst er
      rw [if_pos ⟨rfl, hl, hi⟩, ovR_lt hi]
    · rw [if_neg (by simp [er]), ovR_ne (by simp [er])]
      exact hJ.A r' i hi
  · simp only [RVS.zero, HRS.zero]
    rw [upd_apply]
    by_cases er : r' = r
    · rw [if_pos ⟨er, hl⟩, if_pos er]
    · rw [if_neg (fun x => er x.1), if_neg er]; exact hJ.fl r'
  · simp only [RVS.zero]
    by_cases er : r' = r
    · rw [if_pos ⟨er, hl'⟩, if_pos ⟨er, by omega⟩]
    · rw [if_neg (fun x => er x.1), if_neg (fun x => er x.1)]; exact hJ.ofl ho r' l' hl'
  · simp only [RVS.zero]
    rw [if_neg (by simp), if_neg (by simp)]
    exact hJ.T0 ho r' d hd

theorem RJ.ok (hJ : RJ c l V h) : ESim c l (.ok V) (.ok h) := hJ

/-- Saving the result's polynomial before restoring the argument's. -/
theorem RJ.saveT (hl : l < c.p) (hJ : RJ c l V h) (r : Nat) :
    RJ c l (V.saveT c r) { h with M := copyR c.k (.T r) .tt2 h.M } ∧
    ∀ i, i < c.k → (V.saveT c r).M .tt2 (c.adv * l) i = copyR c.k (.T r) .tt2 h.M .tt2 i := by
  refine ⟨⟨⟨fun r' i hi => ?_, fun r' i hi => ?_, hJ.fl, hJ.stk, hJ.ii, hJ.di, hJ.Z⟩, ⟨hJ.ofl, fun ho r' d hd => ?_, hJ.ostk⟩⟩, fun i hi => ?_⟩
  · simp only [RVS.saveT]
    rw [copyR_eq, if_neg (by simp), ovR_ne (by simp)]
    exact hJ.T r' i hi
  · simp only [RVS.saveT]
    rw [copyR_eq, if_neg (by simp), ovR_ne (by simp)]
    exact hJ.A r' i hi
  · simp only [RVS.saveT]
    rw [if_neg (by simp), if_neg (by simp)]
    exact hJ.T0 ho r' d hd
  · simp only [RVS.saveT]
    rw [copyR_eq, if_pos ⟨trivial, adv_lt hl, hi⟩, ovR_lt hi]
    exact hJ.T r i hi

/-- `pop` leaves the scratch rows alone. -/
theorem ESim.popTT {r : Nat} (hl : l < c.p) (hJ : RJ c l V h) (htt : ∀ i, i < c.k → V.M .tt2 (c.adv * l) i = h.M .tt2 i)
    {f : RVS K → Except HRStop (RVS K)} {g : HRS K → Except HRStop (HRS K)}
    (hf : ∀ V h, RJ c l V h → (∀ i, i < c.k → V.M .tt2 (c.adv * l) i = h.M .tt2 i) → ESim c l (f V) (g h)) :
    ESim c l (V.pop c r >>= f) (h.pop c.k r >>= g) := by
  have hp := hJ.pop hl r
  have e1 : ∀ V', V.pop c r = .ok V' → V'.M .tt2 = V.M .tt2 := by
    intro V' hV
    unfold RVS.pop at hV
    cases e : V.stk with
    | nil => rw [e] at hV; cases hV
    | cons x st => rw [e] at hV; cases hV; funext d i; simp
  have e2 : ∀ h', h.pop c.k r = .ok h' → h'.M .tt2 = h.M .tt2 := by
    intro V' hV
    unfold HRS.pop at hV
    cases e : h.stk with
    | nil => rw [e] at hV; cases hV
    | cons x st => rw [e] at hV; cases hV; simp only [setRowR_eq]; exact ovR_ne (by simp)
  revert hp e1 e2
  cases V.pop c r <;> cases h.pop c.k r <;> intro hp e1 e2
  · exact hp
  · exact hp.elim
  · exact hp.elim
  · exact hf _ _ hp fun i hi => by rw [e1 _ rfl, e2 _ rfl]; exact htt i hi
end

end Verif.AD
