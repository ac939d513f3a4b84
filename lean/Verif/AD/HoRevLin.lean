import Verif.AD.HvrRun

/-! The flags of `hos_ti_reverse`: a flag below 2 (`nonzero` = 0 or 1) means that the adjoint is constant. -/
set_option linter.all false
namespace Verif.AD
open Elem

/-- Flag 0: the adjoint's coefficients are zero; flag below 2: those of order at least 1 are. -/
def FlagLin (k : Nat) (fl : Nat → ℝ) (M : Row → Nat → ℝ) : Prop :=
  ∀ l, 0 ≤ fl l ∧ (fl l = 0 → ∀ i, i < k → M (.A l) i = 0) ∧ (fl l < 2 → ∀ i, 0 < i → i < k → M (.A l) i = 0)

variable {k : Nat} {fl fl' : Nat → ℝ} {M M' : Row → Nat → ℝ}

theorem FlagLin.of (h : FlagLin k fl M) (e : ∀ l, 2 ≤ fl' l ∨ (fl' l = fl l ∧ ∀ i < k, M' (.A l) i = M (.A l) i) ∨ (fl' l = 0 ∧ ∀ i < k, M' (.A l) i = 0)) :
    FlagLin k fl' M' := by
  intro l
  rcases e l with e | ⟨e1, e2⟩ | ⟨e1, e2⟩
  · exact ⟨by linarith, fun h => by linarith, fun h => by linarith⟩
  · obtain ⟨h1, h2, h3⟩ := h l
    refine ⟨by rw [e1]; exact h1, fun hh i hi => ?_, fun hh i h0 hi => ?_⟩
    · rw [e2 i hi]; exact h2 (by rw [← e1]; exact hh) i hi
    · rw [e2 i hi]; exact h3 (by rw [← e1]; exact hh) i h0 hi
  · exact ⟨by rw [e1], fun _ i hi => e2 i hi, fun _ i _ hi => e2 i hi⟩

theorem FlagLin.rows (h : FlagLin k fl M) (e : ∀ l, M' (.A l) = M (.A l)) : FlagLin k fl M' :=
  h.of fun l => .inr (.inl ⟨rfl, fun i _ => by rw [e]⟩)

theorem FlagLin.zero (h : FlagLin k fl M) (r : Nat) : FlagLin k (upd fl r 0) (ovR M (.A r) k fun _ => 0) :=
  h.of fun l => by
    by_cases hl : l = r
    · subst hl; exact .inr (.inr ⟨by simp, fun i hi => ovR_lt hi⟩)
    · exact .inr (.inl ⟨upd_ne _ _ hl, fun i _ => by rw [ovR_ne (by simp [hl])]⟩)

theorem maxdec_other {a : Nat} {x : ℝ} {l : Nat} (h : l ≠ a) : maxdec fl a x l = fl l := upd_ne _ _ h

/-- `*Aarg` receives a multiple of `*Ares`. -/
theorem FlagLin.lin (h : FlagLin k fl M) {a : Nat} {x : ℝ} (hx : 0 < x) {w : Nat → ℝ}
    (hw : x < 2 → ∀ i, 0 < i → i < k → M (.A a) i = 0 → w i = 0) : FlagLin k (maxdec fl a x) (ovR M (.A a) k w) := by
  intro l
  by_cases hl : l = a
  · subst hl
    have h1 : x ≤ maxdec fl l x l := le_maxdec
    have h2 : fl l ≤ maxdec fl l x l := maxdec_le l
    refine ⟨by linarith, fun e => by linarith, fun e i h0 hi => ?_⟩
    rw [ovR_lt hi]
    exact hw (by linarith) i h0 hi ((h l).2.2 (by linarith) i h0 hi)
  · rw [maxdec_other hl, ovR_ne (by simp [hl])]; exact h l

theorem FlagLin.pop {r : Nat} {s s' : HRS ℝ} (h : FlagLin k s.fl s.M) (e : s.pop k r = .ok s') : FlagLin k s'.fl s'.M ∧ s'.fl = s.fl ∧ ∀ l, s'.M (.A l) = s.M (.A l) := by
  unfold HRS.pop at e
  split at e
  · cases e
  · cases e
    have : ∀ l, setRowR k (.T r) ‹_› s.M (.A l) = s.M (.A l) := fun l => by rw [setRowR_eq, ovR_ne (by simp)]
    exact ⟨h.rows this, rfl, this⟩

/-- Rows of `rpp_A` are not touched. -/
def FrA (M M' : Row → Nat → ℝ) : Prop := ∀ l, M' (.A l) = M (.A l)

theorem FrA.refl (M : Row → Nat → ℝ) : FrA M M := fun _ => rfl
theorem FrA.wr (h : FrA M M') {c : Row} (hc : ∀ l, c ≠ .A l) (i : Nat) (v : ℝ) : FrA M (wrR M' c i v) := by
  intro l
  funext j
  have : Row.A l ≠ c := (hc l).symm
  simp only [wrR, this, false_and, if_false]
  exact congrFun (h l) j
theorem FrA.loop {n : Nat} {f : Nat → (Row → Nat → ℝ) → Row → Nat → ℝ} (h : FrA M M') (hf : ∀ i M', FrA M M' → FrA M (f i M')) : FrA M (forUp n f M') :=
  forUp_inv (fun _ M' => FrA M M') h fun i s _ hs => hf i s hs
theorem FrA.loopDown {n : Nat} {f : Nat → (Row → Nat → ℝ) → Row → Nat → ℝ} (h : FrA M M') (hf : ∀ i M', FrA M M' → FrA M (f i M')) : FrA M (forDown n f M') :=
  forDown_inv (fun _ M' => FrA M M') h fun i s _ hs => hf i s hs

section
variable {a b c : Row}
theorem FrA.conv (h : FrA M M') (hc : ∀ l, c ≠ .A l) : FrA M (convR k a b c M') := h.loopDown fun i M' h => h.wr hc _ _
theorem FrA.inconv (h : FrA M M') (hc : ∀ l, c ≠ .A l) : FrA M (inconvR k a b c M') := h.loopDown fun i M' h => h.wr hc _ _
theorem FrA.deconv (h : FrA M M') (hc : ∀ l, c ≠ .A l) : FrA M (deconvR k a b c M') := h.loopDown fun i M' h => h.wr hc _ _
theorem FrA.copy (h : FrA M M') (hc : ∀ l, c ≠ .A l) : FrA M (copyR k a c M') := h.loop fun i M' h => h.wr hc _ _
theorem FrA.map (h : FrA M M') (hc : ∀ l, c ≠ .A l) (f : ℝ → ℝ) : FrA M (mapR k c f M') := h.loop fun i M' h => h.wr hc _ _
theorem FrA.divInner (h : FrA M M') (hc : ∀ l, c ≠ .A l) (i : Nat) : FrA M (divInnerR b c i M') := h.loop fun i M' h => h.wr hc _ _
theorem FrA.recipr (h : FrA M M') (hc : ∀ l, c ≠ .A l) (v : ℝ) : FrA M (reciprR k v b c M') :=
  (h.wr hc _ _).loop fun i M' h => ((h.wr hc _ _).divInner hc _).wr hc _ _
theorem FrA.divide (h : FrA M M') (hc : ∀ l, c ≠ .A l) : FrA M (divideR k a b c M') :=
  h.loop fun i M' h => ((h.wr hc _ _).divInner hc _).wr hc _ _
end

theorem maxdec_nn (h : ∀ l, 0 ≤ fl l) (a : Nat) (x : ℝ) : ∀ l, 0 ≤ maxdec fl a x l := fun l => le_trans (h l) (maxdec_le l)

theorem flUn_at {s : HRS ℝ} {a r : Nat} {x : ℝ} (hx : 2 ≤ x) : 2 ≤ s.flUn a r x a := le_trans hx le_maxdec
theorem flUn_other {s : HRS ℝ} {a r : Nat} {x : ℝ} {l : Nat} (h : l ≠ a) : s.flUn a r x l = upd s.fl r 0 l := by
  unfold HRS.flUn; rw [maxdec_other h, maxdec_other h]

/-- A unary operation that is not linear. -/
theorem FlagLin.un {s : HRS ℝ} (h : FlagLin k s.fl s.M) {a r : Nat} {x : ℝ} (hx : 2 ≤ x) (e : ∀ l, l ≠ a → l ≠ r → M' (.A l) = s.M (.A l))
    (e2 : r ≠ a → ∀ i < k, M' (.A r) i = 0) : FlagLin k (s.flUn a r x) M' :=
  h.of fun l => by
    by_cases ha : l = a
    · subst ha; exact .inl (flUn_at hx)
    · rw [flUn_other ha]
      by_cases hr : l = r
      · subst hr; exact .inr (.inr ⟨by simp, e2 ha⟩)
      · exact .inr (.inl ⟨upd_ne _ _ hr, fun i _ => by rw [e l ha hr]⟩)

theorem FlagLin.un0 {s : HRS ℝ} (h : FlagLin k s.fl s.M) {M1 : Row → Nat → ℝ} (h1 : FrA s.M M1) {a r : Nat} {x : ℝ} (hx : 2 ≤ x) {b : Row} (hb : Row.A r ≠ b) :
    FlagLin k (s.flUn a r x) (inconv0R k (.A r) b (.A a) M1) := by
  rw [inconv0R_eq _ _ _ _ hb]
  refine h.un hx (fun l ha hr => ?_) fun ha i hi => ?_
  · rw [ovR_ne (by simpa using ha), ovR_ne (by simpa using hr)]; exact h1 l
  · rw [ovR_ne (by simpa using ha), ovR_lt hi]

theorem FlagLin.un0' {s : HRS ℝ} (h : FlagLin k s.fl s.M) {M1 : Row → Nat → ℝ} (h1 : FrA s.M M1) {a r : Nat} {x : ℝ} (hx : 2 ≤ x) {b : Row} (hb : Row.A r ≠ b) :
    FlagLin k (s.flUn a r x) (deconv0R k (.A r) b (.A a) M1) := by
  rw [deconv0R_eq _ _ _ _ hb]
  refine h.un hx (fun l ha hr => ?_) fun ha i hi => ?_
  · rw [ovR_ne (by simpa using ha), ovR_ne (by simpa using hr)]; exact h1 l
  · rw [ovR_ne (by simpa using ha), ovR_lt hi]

theorem FlagLin.gt (h : FlagLin k fl M) {r : Nat} (hr : fl r ≠ 0) : 0 < fl r := lt_of_le_of_ne (h r).1 (Ne.symm hr)

theorem FlagLin.spread {s : HRS ℝ} (h : FlagLin k s.fl s.M) {a r : Nat} (hr : s.fl r ≠ 0) {f : ℝ → ℝ → ℝ} (hf : f 0 0 = 0) :
    FlagLin k (s.flLin a r) (spreadR k (.A a) (.A r) f s.M) := by
  rw [spreadR_eq]
  refine (h.zero r).lin (h.gt hr) fun hx i h0 hi e => ?_
  rw [e, (h r).2.2 hx i h0 hi, hf]

theorem FlagLin.spread2 {s : HRS ℝ} (h : FlagLin k s.fl s.M) {a b r : Nat} (hr : s.fl r ≠ 0) {f g : ℝ → ℝ → ℝ} (hf : f 0 0 = 0) (hg : g 0 0 = 0) :
    FlagLin k (s.flLin2 a b r) (spread2R k (.A a) (.A b) (.A r) f g s.M) := by
  rw [spread2R_eq]
  refine FlagLin.lin ((h.zero r).lin (h.gt hr) fun hx i h0 hi e => ?_) (h.gt hr) fun hx i h0 hi e => ?_
  · rw [e, (h r).2.2 hx i h0 hi, hf]
  · rw [e, (h r).2.2 hx i h0 hi, hg]

theorem FlagLin.move {s : HRS ℝ} (h : FlagLin k s.fl s.M) (a r : Nat) : FlagLin k (s.move k a r).fl (s.move k a r).M := by
  unfold HRS.move
  split_ifs with hr
  · exact h
  · simp only [moveR_eq]
    refine FlagLin.zero (h.lin (h.gt hr) fun hx i h0 hi e => ?_) r
    rw [e, (h r).2.2 hx i h0 hi, add_zero]

theorem FlagLin.acc {s : HRS ℝ} (h : FlagLin k s.fl s.M) {a r : Nat} (hr : s.fl r ≠ 0) {f : ℝ → ℝ → ℝ} (hf : f 0 0 = 0) :
    FlagLin k (maxdec s.fl a (s.fl r)) (accR' k (.A a) (.A r) f s.M) := by
  rw [accR'_eq]
  refine h.lin (h.gt hr) fun hx i h0 hi e => ?_
  rw [e, (h r).2.2 hx i h0 hi, hf]

theorem FlagLin.zeroS {s : HRS ℝ} (h : FlagLin k s.fl s.M) (r : Nat) : FlagLin k (s.zero k r).fl (s.zero k r).M := by
  unfold HRS.zero
  simp only [setRowR_eq]
  exact h.zero r

theorem comp_ge (x : ℝ) : 2 ≤ (if x > 2 then x else 2) := by split_ifs <;> linarith

theorem powSmall_A (k a r : Nat) (v : ℝ) (M : Row → Nat → ℝ) :
    (∀ l, l ≠ a → l ≠ r → powSmall k a r v M (.A l) = M (.A l)) ∧ (r ≠ a → ∀ i < k, powSmall k a r v M (.A r) i = 0) := by
  have key : ∀ f : Nat → (Row → Nat → ℝ) → Row → Nat → ℝ,
      (∀ i M l, l ≠ a → l ≠ r → f i M (.A l) = M (.A l)) → (∀ i M, r ≠ a → f i M (.A r) i = 0) →
      (∀ i M j, r ≠ a → j ≠ i → f i M (.A r) j = M (.A r) j) →
      (∀ l, l ≠ a → l ≠ r → forUp k f M (.A l) = M (.A l)) ∧ (r ≠ a → ∀ i < k, forUp k f M (.A r) i = 0) := by
    intro f h1 h2 h3
    have := forUp_inv (n := k) (s := M) (f := f) (fun m M' => (∀ l, l ≠ a → l ≠ r → M' (.A l) = M (.A l)) ∧ (r ≠ a → ∀ i < m, M' (.A r) i = 0))
      ⟨fun _ _ _ => rfl, fun _ i hi => by omega⟩ (fun i s _ hs => ⟨fun l ha hr => by rw [h1 _ _ _ ha hr, hs.1 l ha hr], fun ha j hj => by
        by_cases hji : j = i
        · subst hji; exact h2 _ _ ha
        · rw [h3 _ _ _ ha hji]; exact hs.2 ha j (by omega)⟩)
    exact this
  unfold powSmall
  split_ifs with c1 c2 c3 c4
  · refine key _ (fun i M l ha hr => ?_) (fun i M ha => ?_) fun i M j ha hj => ?_
    · funext j; simp [wrR, ha, hr]
    · simp [wrR]
    · simp [wrR, hj]
  · refine key _ (fun i M l ha hr => ?_) (fun i M ha => ?_) fun i M j ha hj => ?_
    · funext j
      split_ifs <;> simp [wrR, ha, hr]
    · have hne : ∀ z : ℤ, v ≠ z := by
        intro z hz
        apply c2
        rw [hz]
        show (z : ℝ) - ((⌊(z : ℝ)⌋ : ℤ) : ℝ) = 0
        rw [Int.floor_intCast, sub_self]
      have h0 : v - i ≠ 0 := fun h => hne i (by push_cast; linarith)
      have h1 : v - i ≠ 1 := fun h => hne (i + 1) (by push_cast; linarith)
      rcases lt_or_gt_of_ne h1 with h1 | h1
      · rcases lt_or_gt_of_ne h0 with h0 | h0
        · have e1 : ¬ (v - i > 1) := by linarith
          have e2 : ¬ (v - (i : ℝ) < 1 ∧ v - i > 0) := fun h => by linarith [h.2]
          simp only [e1, e2, h0, if_true, if_false]
          simp [wrR]
        · have e1 : ¬ (v - i > 1) := by linarith
          have e2 : (v - (i : ℝ) < 1 ∧ v - i > 0) := ⟨h1, h0⟩
          have e3 : ¬ (v - i < 0) := by linarith
          simp only [e1, e2, e3, if_true, if_false]
          simp [wrR]
      · have e1 : (v - i > 1) := h1
        have e2 : ¬ (v - (i : ℝ) < 1 ∧ v - i > 0) := fun h => by linarith [h.1]
        have e3 : ¬ (v - i < 0) := by linarith
        simp only [e1, e2, e3, if_true, if_false]
        simp [wrR]
    · split_ifs <;> simp [wrR, hj]
  · rw [moveR_eq]
    refine ⟨fun l ha hr => ?_, fun ha i hi => ovR_lt hi⟩
    rw [ovR_ne (by simpa using hr), ovR_ne (by simpa using ha)]
  · simp only [cpzR_eq, inconvR_eq, convR_eq]
    have key2 : ∀ f : Nat → (Row → Nat → ℝ) → Row → Nat → ℝ, (∀ i M l, l ≠ a → f i M (.A l) = M (.A l)) → ∀ M l, l ≠ a → forUp k f M (.A l) = M (.A l) := by
      intro f h1 M l hl
      exact forUp_inv (n := k) (s := M) (f := f) (fun _ M' => M' (.A l) = M (.A l)) rfl (fun i s _ hs => by rw [h1 _ _ _ hl, hs])
    refine ⟨fun l ha hr => ?_, fun ha i hi => ?_⟩
    · rw [key2 _ (fun i M l hl => by funext j; simp [wrR, hl]) _ _ ha]
      rw [ovR_ne (by simp), ovR_ne (by simpa using ha), ovR_ne (by simpa using ha), ovR_ne (by simpa using hr), ovR_ne (by simp)]
    · rw [key2 _ (fun i M l hl => by funext j; simp [wrR, hl]) _ _ ha]
      rw [ovR_ne (by simp), ovR_ne (by simpa using ha), ovR_ne (by simpa using ha), ovR_lt hi]
  · simp only [cpzR_eq, inconvR_eq]
    refine ⟨fun l ha hr => ?_, fun ha i hi => ?_⟩
    · rw [ovR_ne (by simpa using ha), ovR_ne (by simpa using ha), ovR_ne (by simpa using hr), ovR_ne (by simp)]
    · rw [ovR_ne (by simpa using ha), ovR_ne (by simpa using ha), ovR_lt hi]

theorem bind_ok {α β ε : Type} {x : Except ε α} {f : α → Except ε β} {b : β} (h : (x >>= f) = .ok b) : ∃ a, x = .ok a ∧ f a = .ok b := by
  cases x with
  | error e => cases h
  | ok a => exact ⟨a, rfl, h⟩

theorem ite_bind_ok {α β ε : Type} {P : Prop} [Decidable P] {x y : Except ε α} {f : α → Except ε β} {b : β} (h : (if P then x >>= f else y >>= f) = .ok b) :
    ∃ a, (if P then x else y) = .ok a ∧ f a = .ok b := by
  split_ifs at h ⊢ <;> exact bind_ok h

/-- The if-statement that a linear operation starts with, followed by `pop`. -/
theorem FlagLin.popIf {s : HRS ℝ} (h : FlagLin k s.fl s.M) {r : Nat} {s1 s' : HRS ℝ} (h1 : s.fl r ≠ 0 → FlagLin k s1.fl s1.M)
    (e : (if s.fl r = 0 then s else s1).pop k r = .ok s') : FlagLin k s'.fl s'.M := by
  split_ifs at e with hr
  · exact (h.pop e).1
  · exact ((h1 hr).pop e).1

theorem FlagLin.div {s1 s' : HRS ℝ} (h : FlagLin k s1.fl s1.M) {P : Prop} [Decidable P] {r : Nat} {s2 : HRS ℝ} (h2 : s1.fl r ≠ 0 → FlagLin k s2.fl s2.M)
    (e : (if P then (if s1.fl r = 0 then s1 else s2).pop k r else .ok (if s1.fl r = 0 then s1 else s2)) = .ok s') : FlagLin k s'.fl s'.M := by
  by_cases hr : s1.fl r = 0
  · rw [if_pos hr] at e
    split_ifs at e
    · exact (h.pop e).1
    · cases e; exact h
  · rw [if_neg hr] at e
    split_ifs at e
    · exact ((h2 hr).pop e).1
    · cases e; exact h2 hr

theorem FlagLin.ite {P : Prop} [Decidable P] {s1 s2 : HRS ℝ} (h1 : FlagLin k s1.fl s1.M) (h2 : FlagLin k s2.fl s2.M) :
    FlagLin k (if P then s1 else s2).fl (if P then s1 else s2).M := by split_ifs <;> assumption

theorem foldlM_fl {f : HRS ℝ → Nat → Except HRStop (HRS ℝ)} (hf : ∀ q s s', FlagLin k s.fl s.M → f s q = .ok s' → FlagLin k s'.fl s'.M) :
    ∀ (l : List Nat) (s s' : HRS ℝ), FlagLin k s.fl s.M → l.foldlM f s = .ok s' → FlagLin k s'.fl s'.M := by
  intro l
  induction l with
  | nil => intro s s' h e; cases e; exact h
  | cons q l ih =>
    intro s s' h e
    rw [List.foldlM_cons] at e
    obtain ⟨s1, e1, e2⟩ := bind_ok e
    exact ih _ _ (hf _ _ _ h e1) e2

theorem foldl_fl {f : HRS ℝ → Nat → HRS ℝ} (hf : ∀ q s, FlagLin k s.fl s.M → FlagLin k (f s q).fl (f s q).M) :
    ∀ (l : List Nat) (s : HRS ℝ), FlagLin k s.fl s.M → FlagLin k (l.foldl f s).fl (l.foldl f s).M := by
  intro l
  induction l with
  | nil => intro s h; exact h
  | cons q l ih => intro s h; exact ih _ (hf _ _ h)

/-- One operation keeps the invariant. -/
theorem fl_step {L : Nat → Nat → ℝ} {o : Base ℝ} {s s' : HRS ℝ} (h : FlagLin k s.fl s.M) (ho : ¬ o.rare) (hs : hosRevStep k L o s = .ok s') :
    FlagLin k s'.fl s'.M := by
  cases o
  case cmp => cases hs; exact h
  case assignA a r => exact ((h.move a r).pop hs).1
  case assignD r _ => exact ((h.zeroS r).pop hs).1
  case assignP _ r => exact ((h.zeroS r).pop hs).1
  case assignD0 r => exact ((h.zeroS r).pop hs).1
  case assignD1 r => exact ((h.zeroS r).pop hs).1
  case eqPlusD r _ => exact (h.pop hs).1
  case eqMinD r _ => exact (h.pop hs).1
  case incrA r => exact (h.pop hs).1
  case decrA r => exact (h.pop hs).1
  case setRef r _ => exact (h.pop hs).1
  case assignInd r =>
    obtain ⟨s1, e1, e2⟩ := bind_ok hs
    cases e2
    exact (FlagLin.pop (s := { s with Z := fun j i => if j = s.ii - 1 ∧ i < k then s.M (.A r) i else s.Z j i }) h e1).1
  case assignDep r =>
    cases hs
    simp only [setRowR_eq]
    intro l
    by_cases hl : l = r
    · subst hl
      simp only [upd_same]
      rcases e : (List.range k).reverse.find? (fun i => L (s.di - 1) i ≠ 0) with _ | _ | m
      · have hz : ∀ i < k, L (s.di - 1) i = 0 := fun i hi => by
          have := List.find?_eq_none.1 e i (by simpa using hi); simpa using this
        exact ⟨le_refl _, fun _ i hi => by rw [ovR_lt hi]; exact hz i hi, fun _ i _ hi => by rw [ovR_lt hi]; exact hz i hi⟩
      · refine ⟨zero_le_one, fun h => absurd h one_ne_zero, fun _ i h0 hi => ?_⟩
        rw [ovR_lt hi]
        by_contra hne
        obtain ⟨_, as, bs, e3, e4⟩ := List.find?_eq_some_iff_append.1 e
        have hp : (List.range k).reverse.Pairwise (· > ·) := List.pairwise_reverse.2 (List.pairwise_lt_range (n := k))
        rw [e3] at hp
        have hmem : i ∈ as ++ 0 :: bs := by rw [← e3]; simpa using hi
        rcases List.mem_append.1 hmem with hm | hm
        · have := e4 i hm; simp at this; exact hne this
        · rcases List.mem_cons.1 hm with rfl | hm
          · omega
          · have := (List.pairwise_cons.1 (List.pairwise_append.1 hp).2.1).1 i hm
            omega
      · exact ⟨zero_le_two, fun h => absurd h two_ne_zero, fun h => absurd h (lt_irrefl _)⟩
    · rw [upd_ne _ _ hl, ovR_ne (by simp [hl])]; exact h l
  case eqPlusA a r => exact h.popIf (fun hr => h.acc hr (by simp)) hs
  case eqMinA a r => exact h.popIf (fun hr => h.acc hr (by simp)) hs
  case eqMultD r c =>
    refine h.popIf (fun hr => ?_) hs
    simp only [mapR_eq]
    intro l
    by_cases hl : l = r
    · subst hl
      obtain ⟨h1, h2, h3⟩ := h l
      exact ⟨h1, fun e i hi => by rw [ovR_lt hi, h2 e i hi, zero_mul], fun e i h0 hi => by rw [ovR_lt hi, h3 e i h0 hi, zero_mul]⟩
    · rw [ovR_ne (by simp [hl])]; exact h l
  case eqMultA a r =>
    obtain ⟨s1, e1, e2⟩ := bind_ok hs
    obtain ⟨h1, _, _⟩ := h.pop e1
    by_cases hr : s1.fl r = 0
    · rw [if_pos hr] at e2; cases e2; exact h1
    · rw [if_neg hr] at e2
      cases e2
      refine FlagLin.of (fl := s1.fl) (M := s1.M) h1 fun l => ?_
      dsimp only
      by_cases hl : l = r
      · subst hl; exact .inl (le_trans (le_maxdec (fl := s1.fl) (x := 2)) (maxdec_le l))
      · by_cases hla : l = a
        · subst hla
          exact .inl (le_trans (le_maxdec (fl := s1.fl) (a := r) (x := 2)) le_maxdec)
        · refine .inr (.inl ⟨by rw [maxdec_other hla, maxdec_other hl], fun i _ => ?_⟩)
          by_cases har : a ≠ r
          · rw [if_pos har]
            simp only [copyR_eq, inconvR_eq, convR_eq]
            rw [ovR_ne (by simp [hl]), ovR_ne (by simp [hla]), ovR_ne (by simp)]
          · rw [if_neg har]
            have key : ∀ M1 : Row → Nat → ℝ, forUp k (fun i M => wrR M (.A r) i (2 * M .at1 i)) M1 (.A l) = M1 (.A l) := fun M1 =>
               forUp_inv (n := k) (s := M1) (fun _ M' => M' (.A l) = M1 (.A l)) rfl (fun i s _ hs => by rw [← hs]; funext j; simp [wrR, hl])
            rw [key, convR_eq, ovR_ne (by simp)]
  case plusAA a b r => exact h.popIf (fun hr => h.spread2 hr (by simp) (by simp)) hs
  case plusDA a r _ => exact h.popIf (fun hr => h.spread hr (by simp)) hs
  case minAA a b r => exact h.popIf (fun hr => h.spread2 hr (by simp) (by simp)) hs
  case minDA a r _ => exact h.popIf (fun hr => h.spread hr (by simp)) hs
  case multDA a r c => exact h.popIf (fun hr => h.spread hr (f := fun x t => x + c * t) (by simp)) hs
  case posSign a r => exact h.popIf (fun hr => h.spread hr (by simp)) hs
  case negSign a r => exact h.popIf (fun hr => h.spread hr (by simp)) hs
  case multAA a b r =>
    obtain ⟨s1, e1, e2⟩ := bind_ok hs
    obtain ⟨h1, _, _⟩ := h.pop e1
    by_cases hr : s1.fl r = 0
    · rw [if_pos hr] at e2; cases e2; exact h1
    · rw [if_neg hr] at e2; cases e2
      dsimp only
      have hc := comp_ge (s1.fl r)
      generalize (if s1.fl r > 2 then s1.fl r else 2) = x at *
      refine h1.of fun l => ?_
      by_cases hb : l = b
      · subst hb; exact .inl (le_trans hc le_maxdec)
      · by_cases ha : l = a
        · subst ha; exact .inl (le_trans (le_trans hc le_maxdec) (maxdec_le l))
        · rw [maxdec_other hb, maxdec_other ha]
          simp only [cpzR_eq, inconvR_eq]
          rw [ovR_ne (by simp [ha]), ovR_ne (by simp [hb])]
          by_cases hl : l = r
          · subst hl; exact .inr (.inr ⟨upd_same _ _ _, fun i hi => ovR_lt hi⟩)
          · rw [ovR_ne (by simp [hl]), ovR_ne (by simp)]
            exact .inr (.inl ⟨upd_ne _ _ hl, fun _ _ => rfl⟩)
  case eqPlusProd a b r =>
    simp only [hosRevStep] at hs
    by_cases hr : s.fl r = 0
    · rw [if_pos hr] at hs; cases hs
      exact FlagLin.rows h fun l => by dsimp only; rw [deconvR_eq, ovR_ne (by simp)]
    · rw [if_neg hr] at hs; cases hs
      dsimp only
      have hc := comp_ge (s.fl r)
      generalize (if s.fl r > 2 then s.fl r else 2) = x at *
      refine h.of fun l => ?_
      by_cases hb : l = b
      · subst hb; exact .inl (le_trans hc le_maxdec)
      · by_cases ha : l = a
        · subst ha; exact .inl (le_trans (le_trans hc le_maxdec) (maxdec_le l))
        · rw [maxdec_other hb, maxdec_other ha]
          by_cases hl : l = r
          · subst hl; exact .inl (by rw [upd_same]; exact hc)
          · refine .inr (.inl ⟨upd_ne _ _ hl, fun _ _ => ?_⟩)
            simp only [inconvR_eq, deconvR_eq]
            rw [ovR_ne (by simp [ha]), ovR_ne (by simp [hb]), ovR_ne (by simp)]
  case eqMinProd a b r =>
    simp only [hosRevStep] at hs
    by_cases hr : s.fl r = 0
    · rw [if_pos hr] at hs; cases hs
      exact FlagLin.rows h fun l => by dsimp only; rw [inconvR_eq, ovR_ne (by simp)]
    · rw [if_neg hr] at hs; cases hs
      dsimp only
      have hc := comp_ge (s.fl r)
      generalize (if s.fl r > 2 then s.fl r else 2) = x at *
      refine h.of fun l => ?_
      by_cases hb : l = b
      · subst hb; exact .inl (le_trans hc le_maxdec)
      · by_cases ha : l = a
        · subst ha; exact .inl (le_trans (le_trans hc le_maxdec) (maxdec_le l))
        · rw [maxdec_other hb, maxdec_other ha]
          by_cases hl : l = r
          · subst hl; exact .inl (by rw [upd_same]; exact hc)
          · refine .inr (.inl ⟨upd_ne _ _ hl, fun _ _ => ?_⟩)
            simp only [inconvR_eq, deconvR_eq]
            rw [ovR_ne (by simp [ha]), ovR_ne (by simp [hb]), ovR_ne (by simp)]
  case divAA a b r =>
    obtain ⟨s1, e1, e2⟩ := ite_bind_ok hs
    have h1 : FlagLin k s1.fl s1.M := by
      by_cases hbr : b = r
      · rw [if_pos hbr] at e1
        exact (FlagLin.pop (s := { s with M := copyR k (.T r) .tt2 s.M }) (FlagLin.rows h fun l => by dsimp only; rw [copyR_eq, ovR_ne (by simp)]) e1).1
      · rw [if_neg hbr] at e1; cases e1; exact h
    have key : ∀ tres : Row, s1.fl r ≠ 0 → FlagLin k (maxdec (maxdec (maxdec (maxdec (upd s1.fl r 0) a 3) a (s1.fl r)) b 3) b (s1.fl r))
        (deconvR k .at1 .at2 (.A b) (inconvR k .at1 .tt (.A a) (cpzR k (.A r) .at1 (convR k .tt tres .at2 (reciprR k 1 (.T b) .tt s1.M))))) := by
      intro tres hr
      have hA : FrA s1.M (convR k .tt tres .at2 (reciprR k 1 (.T b) .tt s1.M)) := ((FrA.refl _).recipr (by simp) _).conv (by simp)
      generalize convR k .tt tres .at2 (reciprR k 1 (.T b) .tt s1.M) = M1 at *
      have p3 : (2:ℝ) ≤ 3 := by norm_num
      refine h1.of fun l => ?_
      by_cases hb : l = b
      · subst hb; exact .inl (le_trans (le_trans p3 le_maxdec) (maxdec_le l))
      · by_cases ha : l = a
        · subst ha
          exact .inl (le_trans (le_trans (le_trans (le_trans p3 le_maxdec) (maxdec_le l)) (maxdec_le l)) (maxdec_le l))
        · rw [maxdec_other hb, maxdec_other hb, maxdec_other ha, maxdec_other ha]
          simp only [cpzR_eq, inconvR_eq, deconvR_eq]
          rw [ovR_ne (by simp [hb]), ovR_ne (by simp [ha])]
          by_cases hl : l = r
          · subst hl; exact .inr (.inr ⟨upd_same _ _ _, fun i hi => ovR_lt hi⟩)
          · rw [ovR_ne (by simp [hl]), ovR_ne (by simp), hA]
            exact .inr (.inl ⟨upd_ne _ _ hl, fun _ _ => rfl⟩)
    exact FlagLin.div h1 (fun hr => key _ hr) e2
  case divDA a r _ =>
    obtain ⟨s1, e1, e2⟩ := ite_bind_ok hs
    have h1 : FlagLin k s1.fl s1.M := by
      by_cases hbr : a = r
      · rw [if_pos hbr] at e1
        exact (FlagLin.pop (s := { s with M := copyR k (.T r) .tt2 s.M }) (FlagLin.rows h fun l => by dsimp only; rw [copyR_eq, ovR_ne (by simp)]) e1).1
      · rw [if_neg hbr] at e1; cases e1; exact h
    exact FlagLin.div h1 (fun hr => h1.un0' (((FrA.refl _).recipr (by simp) _).conv (by simp)) (by norm_num) (by simp)) e2
  case expOp a r => exact h.popIf (fun hr => h.un0 (.refl _) (by norm_num) (by simp)) hs
  case sinOp a b r =>
    obtain ⟨s1, e1, e2⟩ := bind_ok hs
    exact ((h.popIf (fun hr => h.un0 (.refl _) (by norm_num) (by simp)) e1).pop e2).1
  case cosOp a b r =>
    obtain ⟨s1, e1, e2⟩ := bind_ok hs
    exact ((h.popIf (fun hr => h.un0' (.refl _) (by norm_num) (by simp)) e1).pop e2).1
  case quad q a b r =>
    obtain ⟨s1, e1, e2⟩ := bind_ok hs
    obtain ⟨h1, _, _⟩ := h.pop e1
    by_cases hr : s1.fl r = 0
    · rw [if_pos hr] at e2; cases e2; exact h1
    · rw [if_neg hr] at e2; cases e2; exact h1.un0 (.refl _) (by norm_num) (by simp)
  case logOp a r =>
    obtain ⟨s1, e1, e2⟩ := bind_ok hs
    obtain ⟨h1, _, _⟩ := h.pop e1
    by_cases hr : s1.fl r = 0
    · rw [if_pos hr] at e2; cases e2; exact h1
    · rw [if_neg hr] at e2; cases e2; exact h1.un0 ((FrA.refl _).recipr (by simp) _) (by norm_num) (by simp)
  case powOp a r v =>
    obtain ⟨s1, e1, e2⟩ := ite_bind_ok hs
    have h1 : FlagLin k s1.fl s1.M := by
      by_cases hbr : a = r
      · rw [if_pos hbr] at e1
        exact (FlagLin.pop (s := { s with M := copyR k (.T r) .tt2 s.M }) (FlagLin.rows h fun l => by dsimp only; rw [copyR_eq, ovR_ne (by simp)]) e1).1
      · rw [if_neg hbr] at e1; cases e1; exact h
    refine FlagLin.div h1 (fun hr => FlagLin.ite ?_ ?_) e2
    · exact h1.un0 (((FrA.refl _).divide (by simp)).map (by simp) _) (by norm_num) (by simp)
    · exact h1.un (by norm_num) (powSmall_A ..).1 (powSmall_A ..).2
  case sqrtOp a r => exact h.popIf (fun hr => h.un0 ((FrA.refl _).recipr (by simp) _) (by norm_num) (by simp)) hs
  case cbrtOp => cases hs
  case genQuad a b r _ _ => exact h.popIf (fun hr => h.un0 (.refl _) (by norm_num) (by simp)) hs
  case minOp a b r _ =>
    obtain ⟨s1, e1, e2⟩ := bind_ok hs
    obtain ⟨h1, _, _⟩ := h.pop e1
    by_cases hr : s1.fl r = 0
    · rw [if_pos hr] at e2; cases e2; exact h1
    · rw [if_neg hr] at e2
      rcases hp : minPick k (s1.M (.T a)) (s1.M (.T b)) with _ | ⟨snd, tie⟩
      · rw [hp] at e2; cases e2
        exact h1.spread2 hr (f := fun x t => x + t / 2) (g := fun x t => x + t / 2) (by norm_num) (by norm_num)
      · rw [hp] at e2; cases e2
        dsimp only
        generalize (if snd = true then b else a) = q
        have hsp := h1.spread (a := q) hr (f := fun x t => x + t) (by simp)
        cases tie
        · simpa using hsp
        · simp only [if_true]
          rw [spreadR_eq]
          refine h1.of fun l => ?_
          by_cases hq : l = q
          · subst hq; exact .inl (by rw [upd_same]; norm_num)
          · rw [upd_ne _ _ hq, ovR_ne (by simp [hq])]
            by_cases hl : l = r
            · subst hl; exact .inr (.inr ⟨upd_same _ _ _, fun i hi => ovR_lt hi⟩)
            · exact .inr (.inl ⟨upd_ne _ _ hl, fun i _ => by rw [ovR_ne (by simp [hl])]⟩)
  case absVal a r _ =>
    obtain ⟨s1, e1, e2⟩ := bind_ok hs
    obtain ⟨h1, _, _⟩ := h.pop e1
    by_cases hr : s1.fl r = 0
    · rw [if_pos hr] at e2; cases e2; exact h1
    · rw [if_neg hr] at e2
      rcases hp : absSign k (s1.M (.T a)) with ⟨jj, x⟩
      rw [hp] at e2; cases e2
      dsimp only
      by_cases h0 : s1.M (.T a) 0 = 0
      · rw [if_pos h0]
        have hj : jj ≤ k := by
          unfold absSign at hp
          split at hp
          · cases hp; exact Nat.zero_le _
          · rename_i i hi
            cases hp
            have := List.mem_of_find?_eq_some hi
            simp at this; omega
        have key := forUp_inv (n := k - jj) (s := setRowR jj (.A r) (fun _ => 0) s1.M)
          (f := fun i M => wrR (wrR M (.A r) (jj + i) 0) (.A a) (jj + i) ((wrR M (.A r) (jj + i) 0) (.A a) (jj + i) + x * M (.A r) (jj + i)))
          (fun m M' => ∀ l, l ≠ a → (l ≠ r → M' (.A l) = s1.M (.A l)) ∧ (l = r → ∀ i < jj + m, M' (.A l) i = 0))
          (fun l ha => ⟨fun hl => by rw [setRowR_eq, ovR_ne (by simp [hl])], fun hl i hi => by subst hl; rw [setRowR_eq, ovR_lt (by omega)]⟩)
          (fun i s _ hs l ha => ⟨fun hl => by rw [← (hs l ha).1 hl]; funext j; simp [wrR, ha, hl], fun hl j hj => by
            subst hl
            by_cases e : j = jj + i
            · subst e; simp [wrR, ha]
            · simp only [wrR]
              simp only [Row.A.injEq, ha, false_and, if_false, e, and_false]
              exact (hs l ha).2 rfl j (by omega)⟩)
        refine h1.of fun l => ?_
        by_cases hla : l = a
        · subst hla; exact .inl (by rw [upd_same]; norm_num)
        · rw [upd_ne _ _ hla]
          by_cases hl : l = r
          · exact .inr (.inr ⟨by rw [hl, upd_same], fun i hi => (key l hla).2 hl i (by omega)⟩)
          · exact .inr (.inl ⟨upd_ne _ _ hl, fun i _ => by rw [show _ = _ from (key l hla).1 hl]⟩)
      · rw [if_neg h0]
        have hsp := h1.spread (a := a) hr (f := fun y t => y + x * t) (by simp)
        by_cases hk : k = 0
        · subst hk
          intro l
          refine ⟨?_, fun _ i hi => by omega, fun _ i _ hi => by omega⟩
          exact (hsp l).1
        · have hjj : jj = 0 := by
            unfold absSign at hp
            have : (List.range k).find? (fun i => s1.M (.T a) i ≠ 0) = some 0 := by
              obtain ⟨k', rfl⟩ := Nat.exists_eq_succ_of_ne_zero hk
              rw [List.range_succ_eq_map, List.find?_cons]
              simp [h0]
            rw [this] at hp
            cases hp; rfl
          subst hjj
          have e0 : setRowR 0 (.A r) (fun _ => 0) s1.M = s1.M := by rw [setRowR_eq]; funext c i; simp [ovR]
          rw [e0]
          simp only [Nat.zero_add, Nat.sub_zero]
          exact hsp
  case ceilOp => exact absurd trivial ho
  case floorOp => exact absurd trivial ho
  case condAssign a a1 a2 r _ =>
    obtain ⟨s1, e1, e2⟩ := bind_ok hs
    obtain ⟨h1, _, _⟩ := h.pop e1
    by_cases hc : s1.M (.T a) 0 > 0
    · rw [if_pos hc] at e2; cases e2; exact FlagLin.ite (h1.move _ _) h1
    · rw [if_neg hc] at e2
      by_cases hr2 : r ≠ a2
      · rw [if_pos hr2] at e2
        by_cases hr : s1.fl r = 0
        · rw [if_pos hr] at e2; cases e2; exact h1
        · rw [if_neg hr] at e2; cases e2
          dsimp only
          have hm := h1.move a2 r
          unfold HRS.move at hm
          rw [if_neg hr] at hm
          dsimp only at hm
          by_cases h0 : s1.M (.T a) 0 = 0
          · rw [if_pos h0]
            refine hm.of fun l => ?_
            by_cases hl : l = r
            · subst hl
              refine .inr (.inr ⟨upd_same _ _ _, fun i hi => ?_⟩)
              rw [moveR_eq, ovR_lt hi]
            · by_cases h2 : l = a2
              · subst h2; exact .inl (by rw [upd_ne _ _ hl, upd_same]; norm_num)
              · by_cases h3 : l = a1
                · subst h3; exact .inl (by rw [upd_ne _ _ hl, upd_ne _ _ h2, upd_same]; norm_num)
                · exact .inr (.inl ⟨by rw [upd_ne _ _ hl, upd_ne _ _ h2, upd_ne _ _ h3, upd_ne _ _ hl, maxdec_other h2], fun _ _ => rfl⟩)
          · rw [if_neg h0]; exact hm
      · rw [if_neg hr2] at e2; cases e2
        refine FlagLin.ite (FlagLin.of h1 fun l => ?_) h1
        dsimp only
        by_cases h2 : l = a2
        · subst h2; exact .inl (by rw [upd_same]; norm_num)
        · by_cases h3 : l = a1
          · subst h3; exact .inl (by rw [upd_ne _ _ h2, upd_same]; norm_num)
          · exact .inr (.inl ⟨by rw [upd_ne _ _ h2, upd_ne _ _ h3], fun _ _ => rfl⟩)
  case condEqAssign a a1 a2 r _ =>
    obtain ⟨s1, e1, e2⟩ := bind_ok hs
    obtain ⟨h1, _, _⟩ := h.pop e1
    by_cases hc : s1.M (.T a) 0 ≥ 0
    · rw [if_pos hc] at e2; cases e2; exact FlagLin.ite (h1.move _ _) h1
    · rw [if_neg hc] at e2; cases e2; first | exact FlagLin.ite (h1.move _ _) h1 | exact h1
  case condAssignS a a1 r _ =>
    obtain ⟨s1, e1, e2⟩ := bind_ok hs
    obtain ⟨h1, _, _⟩ := h.pop e1
    by_cases hc : s1.M (.T a) 0 = 0
    · rw [if_pos hc] at e2; cases e2
      refine FlagLin.ite (FlagLin.of h1 fun l => ?_) h1
      dsimp only
      by_cases h3 : l = a1
      · subst h3; exact .inl (by rw [upd_same]; norm_num)
      · exact .inr (.inl ⟨by rw [upd_ne _ _ h3], fun _ _ => rfl⟩)
    · rw [if_neg hc] at e2
      by_cases hc2 : s1.M (.T a) 0 > 0
      · rw [if_pos hc2] at e2; cases e2; exact FlagLin.ite (h1.move _ _) h1
      · rw [if_neg hc2] at e2; cases e2; exact h1
  case condEqAssignS a a1 r _ =>
    obtain ⟨s1, e1, e2⟩ := bind_ok hs
    obtain ⟨h1, _, _⟩ := h.pop e1
    by_cases hc : s1.M (.T a) 0 ≥ 0
    · rw [if_pos hc] at e2; cases e2; exact FlagLin.ite (h1.move _ _) h1
    · rw [if_neg hc] at e2; cases e2; first | exact FlagLin.ite (h1.move _ _) h1 | exact h1
  case vecCopy a n r => exact foldlM_fl (fun q s s' h e => ((h.move _ _).pop e).1) _ _ _ h hs
  case vecDot a b n r =>
    have key : ∀ (l : List Nat) (s : HRS ℝ), FlagLin k s.fl s.M → FlagLin k (l.foldl (fun s q =>
      if s.fl r = 0 then s
      else
        let comp := if s.fl r > 2 then s.fl r else 2
        let fl := maxdec (maxdec (upd s.fl r comp) (a + q) comp) (b + q) comp
        let M := inconvR k (.A r) (.T (a + q)) (.A (b + q)) s.M
        let M := inconvR k (.A r) (.T (b + q)) (.A (a + q)) M
        { s with fl := fl, M := M }) s).fl (l.foldl (fun s q =>
      if s.fl r = 0 then s
      else
        let comp := if s.fl r > 2 then s.fl r else 2
        let fl := maxdec (maxdec (upd s.fl r comp) (a + q) comp) (b + q) comp
        let M := inconvR k (.A r) (.T (a + q)) (.A (b + q)) s.M
        let M := inconvR k (.A r) (.T (b + q)) (.A (a + q)) M
        { s with fl := fl, M := M }) s).M := by
      intro l
      induction l with
      | nil => intro s h; exact h
      | cons q l ih =>
        intro s h
        rw [List.foldl_cons]
        refine ih _ ?_
        refine FlagLin.ite h ?_
        dsimp only
        have hc := comp_ge (s.fl r)
        generalize (if s.fl r > 2 then s.fl r else 2) = x at *
        refine h.of fun l => ?_
        by_cases hb : l = b + q
        · subst hb; exact .inl (le_trans hc le_maxdec)
        · by_cases ha : l = a + q
          · subst ha; exact .inl (le_trans (le_trans hc le_maxdec) (maxdec_le _))
          · rw [maxdec_other hb, maxdec_other ha]
            by_cases hl : l = r
            · subst hl; exact .inl (by rw [upd_same]; exact hc)
            · refine .inr (.inl ⟨upd_ne _ _ hl, fun _ _ => ?_⟩)
              simp only [inconvR_eq]
              rw [ovR_ne (by simp [ha]), ovR_ne (by simp [hb])]
    exact ((key _ _ h).pop hs).1
  case vecAxpy => exact absurd trivial ho
  case takeStock r vs =>
    cases hs
    exact foldl_fl (fun q s h => h.zeroS _) _ _ h
  case deathNot a b =>
    exact foldlM_fl (fun q s s' h e => (h.pop e).1) _ _ _ (foldl_fl (fun q s h => h.zeroS _) _ _ h) hs

/-- The whole sweep keeps the invariant. -/
theorem fl_run {d : Nat} {L : Nat → Nat → ℝ} {h : HRS ℝ} (h0 : FlagLin (d + 1) h.fl h.M) :
    ∀ (ops : List (Base ℝ)), HrevOK d L h ops → ∀ {h' : HRS ℝ}, hosRevRun (d + 1) L ops h = .ok h' → FlagLin (d + 1) h'.fl h'.M := by
  intro ops
  induction ops with
  | nil => intro _ h' e; cases e; exact h0
  | cons o os ih =>
    intro hok h' e
    simp only [hosRevRun] at e
    split at e
    · cases e
    · rename_i h1 e1
      obtain ⟨H1, H2, g1, g2, g3, g4, g5⟩ := hok [] o os rfl
      exact fl_step (ih (fun pre o' os' he => hok (o :: pre) o' os' (by simp [he])) e1) g4 e

section
variable {c : RVCfg ℝ} {l d : Nat}

/-- `nonzero[l][j]` is below 2 only if the derivatives of order at least one in row `l` with respect to the `j`-th independent are zero. -/
theorem hvr_nz1 (hk : c.k = d + 1) (hov : c.ov = false) (hl : l < c.p) {V : RVS ℝ} {h : HRS ℝ} (hJ : RJ c l V h) (hfl : FlagLin (d + 1) h.fl h.M)
    (h0 : ∀ j, V.nz l j < 2 → ∀ i, 0 < i → i < c.k → V.Z l j i = 0)
    (ops : List (Base ℝ)) (ha : AlongRV c ops V) (hok : HrevOK d (c.L l) h ops) {V' : RVS ℝ} (hV : hvrRun c ops V = .ok V') :
    ∀ j, V'.nz l j < 2 → ∀ i, 0 < i → i < c.k → V'.Z l j i = 0 := by
  induction ops generalizing V' with
  | nil => cases hV; exact h0
  | cons o os ih =>
    simp only [hvrRun] at hV
    split at hV
    · cases hV
    · rename_i V1 hV1
      have hok1 : HrevOK d (c.L l) h os := fun pre o' os' he => hok (o :: pre) o' os' (by simp [he])
      have i1 := ih ha.1 hok1 hV1
      obtain ⟨H1, H2, e1, e2, e3, e4, e5⟩ := hok [] o os rfl
      have hr := hvr_run (by omega) (by simp [hov]) hl hJ os ha.1
      rw [hV1, hk, e1] at hr
      have hJ1 : RJ c l V1 H1 := hr
      have hf1 := fl_run hfl os hok1 e1
      by_cases hi : ∃ r, o = .assignInd r
      · obtain ⟨r, rfl⟩ := hi
        simp only [hvrStep] at hV
        unfold RVS.pop at hV
        cases hst : V1.stk with
        | nil => simp only [hst] at hV; cases hV
        | cons x st =>
          simp only [hst] at hV
          cases hV
          intro j hj i hi0 hi
          simp only [hl, hov, hi, true_and, and_true] at hj ⊢
          by_cases hji : j = V1.ii - 1
          · rw [if_pos hji] at hj ⊢
            rw [hJ1.A r i hi]
            exact (hf1 r).2.2 (by rw [← hJ1.fl]; exact hj) i hi0 (by omega)
          · rw [if_neg hji] at hj ⊢
            exact i1 j hj i hi0 hi
      · have := hvrStep_keepsZ (c := c) o (fun r hr => hi ⟨r, hr⟩) V1 V' hV
        rw [this.1, this.2]
        exact i1

end

theorem FlagLin.init (k n m : Nat) (st : List (Nat → ℝ)) : FlagLin k (HRS.init n m st).fl (HRS.init n m st).M :=
  fun l => ⟨le_refl _, fun _ _ _ => rfl, fun _ _ _ _ => rfl⟩

end Verif.AD
