import Verif.AD.HoRevRows
import Verif.AD.RecordSmooth
import Verif.AD.HosStep

/-! Jets of the reverse sweep: invariants. -/
set_option linter.all false
namespace Verif.AD
open Elem Filter Topology ContDiff Finset

variable {d : Nat} {T A : ℝ → Nat → ℝ} {M : Row → Nat → ℝ} {f g : ℝ → ℝ} {w v : Nat → ℝ}

theorem Jet.ov (h : Jet d g w) {M : Row → Nat → ℝ} {c : Row} : Jet d g (ovR M c (d + 1) w c) :=
  h.coefs fun n hn => ovR_lt (by omega)

theorem Jet.zero' : Jet d (fun _ => 0) (fun _ => 0) := (Jet.const 0).coefs fun n hn => by simp

theorem Jet.cv (hf : Jet d f w) (hg : Jet d g v) : Jet d (fun t => f t * g t) (Verif.AD.cv w v) := hf.mul hg

theorem Jet.fn (h : Jet d f w) (e : ∀ t, g t = f t) : Jet d g w := h.congr (.of_forall e)

/-- All coefficients vanish. -/
abbrev ZJ (d : Nat) (f : ℝ → ℝ) : Prop := Jet d f fun _ => 0

theorem ZJ.mul (h : ZJ d f) (hg : ContDiffAt ℝ ∞ g 0) : ZJ d (fun t => f t * g t) :=
  (Jet.mul h (Jet.of hg)).coefs fun n hn => by simp
theorem ZJ.add (h : ZJ d f) (hg : ZJ d g) : ZJ d (fun t => f t + g t) := (Jet.add h hg).coefs fun n hn => by simp
theorem ZJ.neg (h : ZJ d f) : ZJ d (fun t => - f t) := (Jet.neg h).coefs fun n hn => by simp
theorem Jet.addZ (h : Jet d f w) (hz : ZJ d g) : Jet d (fun t => f t + g t) w := (h.add hz).coefs fun n hn => by simp
theorem Jet.toZ (h : Jet d f w) (hz : ∀ i, i ≤ d → w i = 0) : ZJ d f := h.coefs fun n hn => (hz n hn).symm
theorem ZJ.row (h : ZJ d f) (hz : ∀ i, i ≤ d → w i = 0) : Jet d f w := h.coefs hz

/-- Values and adjoints have the coefficients stored in the rows. -/
structure JM (d : Nat) (T A : ℝ → Nat → ℝ) (M : Row → Nat → ℝ) : Prop where
  T : ∀ l, Jet d (fun t => T t l) (M (.T l))
  A : ∀ l, Jet d (fun t => A t l) (M (.A l))

theorem JM.setA (h : JM d T A M) {r : Nat} (hg : Jet d g w) :
    JM d T (fun t => upd (A t) r (g t)) (ovR M (.A r) (d + 1) w) := by
  refine ⟨fun l => by rw [ovR_ne (by simp)]; exact h.T l, fun l => ?_⟩
  by_cases hl : l = r
  · subst hl; simp only [upd_same]; exact hg.ov
  · rw [ovR_ne (by simp [hl])]; simp only [upd_ne _ _ hl]; exact h.A l

theorem JM.setT (h : JM d T A M) {r : Nat} (hg : Jet d g w) :
    JM d (fun t => upd (T t) r (g t)) A (ovR M (.T r) (d + 1) w) := by
  refine ⟨fun l => ?_, fun l => by rw [ovR_ne (by simp)]; exact h.A l⟩
  by_cases hl : l = r
  · subst hl; simp only [upd_same]; exact hg.ov
  · rw [ovR_ne (by simp [hl])]; simp only [upd_ne _ _ hl]; exact h.T l

/-- Overwriting an adjoint whose coefficients are already right. -/
theorem JM.keepA (h : JM d T A M) {r : Nat} (hg : Jet d g (M (.A r))) : JM d T (fun t => upd (A t) r (g t)) M := by
  refine ⟨h.T, fun l => ?_⟩
  by_cases hl : l = r
  · subst hl; simp only [upd_same]; exact hg
  · simp only [upd_ne _ _ hl]; exact h.A l

theorem JM.tmp (h : JM d T A M) {c : Row} {k : Nat} {w : Nat → ℝ} (hT : ∀ l, Row.T l ≠ c) (hA : ∀ l, Row.A l ≠ c) :
    JM d T A (ovR M c k w) :=
  ⟨fun l => by rw [ovR_ne (hT l)]; exact h.T l, fun l => by rw [ovR_ne (hA l)]; exact h.A l⟩

theorem JM.congr {T' A' : ℝ → Nat → ℝ} (h : JM d T A M) (hT : ∀ᶠ t in 𝓝 0, T' t = T t) (hA : ∀ᶠ t in 𝓝 0, A' t = A t) :
    JM d T' A' M :=
  ⟨fun l => (h.T l).congr (hT.mono fun t e => by simp only [e]), fun l => (h.A l).congr (hA.mono fun t e => by simp only [e])⟩

/-! ### Quotients -/

theorem tc_quot (hf : ContDiffAt ℝ ∞ f 0) (hg : ContDiffAt ℝ ∞ g 0) (h0 : g 0 ≠ 0) (i : Nat) :
    (tc f i - ∑ j ∈ range i, tc (fun t => f t / g t) j * tc g (i - j)) * (1 / g 0) = tc (fun t => f t / g t) i := by
  have e : f =ᶠ[𝓝 0] fun t => f t / g t * g t := by
    filter_upwards [ev_ne hg h0] with t ht
    rw [div_mul_cancel₀ _ ht]
  have h := tc_mul (smooth_div hf hg h0) hg i
  rw [← tc_congr e, Finset.sum_range_succ, Nat.sub_self, tc_zero] at h
  rw [h]
  field_simp
  ring

theorem divideR_jet {a b c : Row} (hf : Jet d f (M a)) (hg : Jet d g (M b)) (h0 : g 0 ≠ 0) (hbc : b ≠ c) (hac : a ≠ c) :
    divideR (d + 1) a b c M = ovR M c (d + 1) (tc fun t => f t / g t) := by
  unfold divideR
  simp only
  have key : ∀ m ≤ d + 1, forUp m (fun i M' => wrR (divInnerR b c i (wrR M' c i (M' a i))) c i
      (divInnerR b c i (wrR M' c i (M' a i)) c i * (1 / M b 0))) M = ovR M c m (tc fun t => f t / g t) := by
    intro m
    induction m with
    | zero => intro _; funext r i; simp [ovR]
    | succ m ih =>
      intro hm
      rw [forUp_succ, ih (by omega), divInnerR_eq hbc]
      have e1 : ovR M c m (tc fun t => f t / g t) a m = tc f m := by rw [ovR_ne hac, hf.coef m (by omega)]
      rw [e1]
      have e2 : ∑ j ∈ range m, wrR (ovR M c m (tc fun t => f t / g t)) c m (tc f m) c j *
          wrR (ovR M c m (tc fun t => f t / g t)) c m (tc f m) b (m - j) =
          ∑ j ∈ range m, tc (fun t => f t / g t) j * tc g (m - j) := by
        refine Finset.sum_congr rfl fun j hj => ?_
        have := Finset.mem_range.1 hj
        rw [wrR_ne (by omega), ovR_lt this]
        congr 1
        simp only [wrR, hbc, false_and, if_false]
        rw [ovR_ne hbc, hg.coef (m - j) (by omega)]
      rw [e2]
      have e3 := tc_quot hf.smooth hg.smooth h0 m
      rw [hg.zero] at e3
      funext r j
      simp only [wrR, and_self, if_true, ovR]
      by_cases h1 : r = c ∧ j = m
      · obtain ⟨rfl, rfl⟩ := h1
        simp only [and_self, if_true, true_and, Nat.lt_succ_self]
        exact e3
      · simp only [h1, if_false]
        have : (r = c ∧ j < m) ↔ (r = c ∧ j < m + 1) := by
          constructor
          · rintro ⟨x, y⟩; exact ⟨x, by omega⟩
          · rintro ⟨x, y⟩; exact ⟨x, by by_contra; exact h1 ⟨x, by omega⟩⟩
        simp only [this]
  exact key (d + 1) le_rfl

theorem reciprR_jet {b c : Row} (x : ℝ) (hg : Jet d g (M b)) (h0 : g 0 ≠ 0) (hbc : b ≠ c) :
    reciprR (d + 1) x b c M = ovR M c (d + 1) (tc fun t => x / g t) := by
  unfold reciprR
  simp only [Nat.add_sub_cancel]
  have hc : ContDiffAt ℝ ∞ (fun _ : ℝ => x) 0 := contDiffAt_const
  have q := fun m => tc_quot hc hg.smooth h0 m
  have key : ∀ m ≤ d, forUp m (fun i M' => wrR (divInnerR b c (i + 1) (wrR M' c (i + 1) 0)) c (i + 1)
      (divInnerR b c (i + 1) (wrR M' c (i + 1) 0) c (i + 1) * (1 / M b 0))) (wrR M c 0 (x * (1 / M b 0))) =
        ovR M c (m + 1) (tc fun t => x / g t) := by
    intro m
    induction m with
    | zero =>
      intro _
      funext r i
      have := q 0
      rw [hg.zero] at this
      simp only [Finset.range_zero, Finset.sum_empty, sub_zero, tc_zero] at this
      simp only [forUp_zero, wrR, ovR]
      by_cases h1 : r = c ∧ i = 0
      · obtain ⟨rfl, rfl⟩ := h1
        simp only [and_self, if_true, true_and, Nat.lt_succ_self, tc_zero]
        rw [hg.zero]; ring
      · have : (r = c ∧ i < 0 + 1) ↔ (r = c ∧ i = 0) := by constructor <;> rintro ⟨x, y⟩ <;> exact ⟨x, by omega⟩
        simp only [this]
        simp only [h1, if_false]
    | succ m ih =>
      intro hm
      rw [forUp_succ, ih (by omega), divInnerR_eq hbc]
      have e2 : ∑ j ∈ range (m + 1), wrR (ovR M c (m + 1) (tc fun t => x / g t)) c (m + 1) 0 c j *
          wrR (ovR M c (m + 1) (tc fun t => x / g t)) c (m + 1) 0 b (m + 1 - j) =
          ∑ j ∈ range (m + 1), tc (fun t => x / g t) j * tc g (m + 1 - j) := by
        refine Finset.sum_congr rfl fun j hj => ?_
        have := Finset.mem_range.1 hj
        rw [wrR_ne (by omega), ovR_lt this]
        congr 1
        simp only [wrR, hbc, false_and, if_false]
        rw [ovR_ne hbc, hg.coef (m + 1 - j) (by omega)]
      rw [e2]
      have e3 := q (m + 1)
      rw [hg.zero, tc_const, if_neg (Nat.succ_ne_zero m)] at e3
      funext r j
      simp only [wrR, and_self, if_true, ovR]
      by_cases h1 : r = c ∧ j = m + 1
      · obtain ⟨rfl, rfl⟩ := h1
        simp only [and_self, if_true, true_and, Nat.lt_succ_self]
        exact e3
      · simp only [h1, if_false]
        have : (r = c ∧ j < m + 1) ↔ (r = c ∧ j < m + 1 + 1) := by
          constructor
          · rintro ⟨x, y⟩; exact ⟨x, by omega⟩
          · rintro ⟨x, y⟩; exact ⟨x, by by_contra; exact h1 ⟨x, by omega⟩⟩
        simp only [this]
  exact key d le_rfl

/-! ### Flags -/

/-- A zero flag means that the adjoint's coefficients are zero. -/
def FlagOk (d : Nat) (fl : Nat → ℝ) (M : Row → Nat → ℝ) : Prop :=
  ∀ l, 0 ≤ fl l ∧ (fl l = 0 → ∀ i, i ≤ d → M (.A l) i = 0)

variable {fl : Nat → ℝ}

theorem FlagOk.zero (h : FlagOk d fl M) (r : Nat) : FlagOk d (upd fl r 0) (ovR M (.A r) (d + 1) fun _ => 0) := by
  intro l
  by_cases hl : l = r
  · subst hl; refine ⟨by simp, fun _ i hi => ovR_lt (by omega)⟩
  · rw [upd_ne _ _ hl, ovR_ne (by simp [hl])]; exact h l

theorem FlagOk.rows {M' : Row → Nat → ℝ} (h : FlagOk d fl M) (e : ∀ l, M' (.A l) = M (.A l)) : FlagOk d fl M' := by
  intro l; rw [e]; exact h l

theorem maxdec_le {fl : Nat → ℝ} {a : Nat} {x : ℝ} (l : Nat) : fl l ≤ maxdec fl a x l := by
  unfold maxdec
  by_cases hl : l = a
  · subst hl; rw [upd_same]; split_ifs <;> linarith
  · rw [upd_ne _ _ hl]

theorem le_maxdec {fl : Nat → ℝ} {a : Nat} {x : ℝ} : x ≤ maxdec fl a x a := by
  unfold maxdec; rw [upd_same]; split_ifs <;> linarith

theorem FlagOk.max (h : FlagOk d fl M) (a : Nat) (x : ℝ) : FlagOk d (maxdec fl a x) M := fun l =>
  ⟨le_trans (h l).1 (maxdec_le l), fun e => (h l).2 (le_antisymm (e ▸ maxdec_le l) (h l).1)⟩

theorem FlagOk.pos (h : FlagOk d fl M) {a : Nat} (ha : 0 < fl a) (k : Nat) (w : Nat → ℝ) : FlagOk d fl (ovR M (.A a) k w) := by
  intro l
  by_cases hl : l = a
  · subst hl; exact ⟨(h l).1, fun e => absurd e ha.ne'⟩
  · rw [ovR_ne (by simp [hl])]; exact h l

theorem FlagOk.add (h : FlagOk d fl M) {a : Nat} {x : ℝ} (hx : 0 < x) (k : Nat) (w : Nat → ℝ) :
    FlagOk d (maxdec fl a x) (ovR M (.A a) k w) := (h.max a x).pos (lt_of_lt_of_le hx le_maxdec) k w

theorem FlagOk.gt (h : FlagOk d fl M) {r : Nat} (hr : fl r ≠ 0) : 0 < fl r := lt_of_le_of_ne (h r).1 (Ne.symm hr)

/-! ### States -/

/-- The family `S t` of first-order reverse states has the coefficients `H`. -/
structure JetR (d : Nat) (S : ℝ → RS ℝ) (H : HRS ℝ) : Prop where
  J : JM d (fun t => (S t).T) (fun t => (S t).A) H.M
  fl : FlagOk d H.fl H.M
  ii : ∀ t, (S t).ii = H.ii
  di : ∀ t, (S t).di = H.di
  stk : ∃ fs : List (ℝ → ℝ), (∀ t, (S t).stk = fs.map (fun f => f t)) ∧ List.Forall₂ (Jet d) fs H.stk
  bar : ∀ i, Jet d (fun t => (S t).bar i) (H.Z i)

theorem JetR.top {S : ℝ → RS ℝ} {H : HRS ℝ} (h : JetR d S H) (hne : (S 0).stk ≠ []) :
    ∃ (f : ℝ → ℝ) (fs : List (ℝ → ℝ)) (x : Nat → ℝ) (st : List (Nat → ℝ)),
      (∀ t, (S t).stk = f t :: fs.map (fun f => f t)) ∧ H.stk = x :: st ∧ Jet d f x ∧ List.Forall₂ (Jet d) fs st := by
  obtain ⟨fs, h1, h2⟩ := h.stk
  generalize H.stk = hs at h2 ⊢
  cases h2 with
  | nil => simp [h1] at hne
  | @cons f x fs st a b => exact ⟨f, fs, x, st, fun t => by simpa using h1 t, rfl, a, b⟩

/-- Assemble the state after an operation that pops one row into `r`. -/
theorem JetR.mk1 {S : ℝ → RS ℝ} {H : HRS ℝ} (h : JetR d S H) {T' A' : ℝ → Nat → ℝ} {M' : Row → Nat → ℝ} {fl' : Nat → ℝ}
    {fs : List (ℝ → ℝ)} {st : List (Nat → ℝ)} (hs : List.Forall₂ (Jet d) fs st) (hJ : JM d T' A' M') (hfl : FlagOk d fl' M') :
    JetR d (fun t => { S t with T := T' t, A := A' t, stk := fs.map fun f => f t }) { H with M := M', fl := fl', stk := st } :=
  ⟨hJ, hfl, h.ii, h.di, ⟨fs, fun t => rfl, hs⟩, h.bar⟩

/-- The same without a pop. -/
theorem JetR.mk0 {S : ℝ → RS ℝ} {H : HRS ℝ} (h : JetR d S H) {T' A' : ℝ → Nat → ℝ} {M' : Row → Nat → ℝ} {fl' : Nat → ℝ}
    (hJ : JM d T' A' M') (hfl : FlagOk d fl' M') :
    JetR d (fun t => { S t with T := T' t, A := A' t }) { H with M := M', fl := fl' } :=
  ⟨hJ, hfl, h.ii, h.di, h.stk, h.bar⟩

end Verif.AD
