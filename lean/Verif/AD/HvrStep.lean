import Verif.AD.HvrSim

/-! One case of `hov_ti_reverse`/`hos_ov_reverse` on a row, direction. -/
set_option linter.all false
namespace Verif.AD
open Elem

variable {K : Type} [Scalar K]

/-- Passes with the pointers into `rpp_T` at polynomial `l` in pass `l`. -/
theorem loopll_spec (b : RBody K) (V : RVS K) (n : Nat) : ∀ V', V' = forUp n (fun l V => V.onRow l l b) V →
    V'.stk = V.stk ∧ V'.ii = V.ii ∧ V'.di = V.di ∧ V'.Z = V.Z ∧ V'.nz = V.nz ∧
    (∀ l, n ≤ l → (∀ q, S1 q → V'.M q l = V.M q l) ∧ ∀ r', V'.fl r' l = V.fl r' l) ∧
    ∀ l, l < n → ∃ M, (∀ q, S1 q → M q = V.M q l) ∧ (∀ r', V'.fl r' l = (b (fun r => V.fl r l) M).1 r') ∧
      (∀ q, S1 q → V'.M q l = (b (fun r => V.fl r l) M).2 q) := by
  have hpl : ∀ n q, S1 q → plane n n q = n := by
    intro n q hq
    cases q <;> first | rfl | exact hq.elim
  induction n with
  | zero =>
    rintro V' rfl
    exact ⟨rfl, rfl, rfl, rfl, rfl, fun l _ => ⟨fun _ _ => rfl, fun _ => rfl⟩, fun l hl => by omega⟩
  | succ n ih =>
    rintro V' rfl
    rw [forUp_succ]
    obtain ⟨i1, i2, i3, i4, i5, i6, i7⟩ := ih _ rfl
    generalize forUp n (fun l V => RVS.onRow l l b V) V = w at *
    have hfl : (fun r => w.fl r n) = fun r => V.fl r n := funext fun r' => (i6 n (le_refl _)).2 r'
    refine ⟨i1, i2, i3, i4, i5, fun l hl => ⟨fun q hq => ?_, fun r' => ?_⟩, fun l hl => ?_⟩
    · funext i
      simp only [RVS.onRow]
      rw [if_neg (by rw [hpl n q hq]; omega)]
      exact congrFun ((i6 l (by omega)).1 q hq) i
    · simp only [RVS.onRow]
      rw [if_neg (by omega)]
      exact (i6 l (by omega)).2 r'
    · by_cases hln : l = n
      · subst hln
        refine ⟨w.view l l, fun q hq => ?_, fun r' => ?_, fun q hq => ?_⟩
        · funext i
          simp only [RVS.view]
          rw [hpl l q hq]
          exact congrFun ((i6 l (le_refl _)).1 q hq) i
        · simp only [RVS.onRow, if_true]
          rw [hfl]
        · funext i
          simp only [RVS.onRow]
          rw [if_pos (hpl l q hq).symm, hfl]
      · obtain ⟨M, m1, m2, m3⟩ := i7 l (by omega)
        refine ⟨M, m1, fun r' => ?_, fun q hq => ?_⟩
        · simp only [RVS.onRow]
          rw [if_neg hln]
          exact m2 r'
        · funext i
          simp only [RVS.onRow]
          rw [if_neg (by rw [hpl n q hq]; exact hln)]
          exact congrFun (m3 q hq) i

theorem onRow_fl (l t r : Nat) (pre : (Row → Nat → K) → Row → Nat → K) (V : RVS K) : (V.onRow l t (mkB id pre)).fl r l = V.fl r l := by
  simp only [RVS.onRow, if_true, mkB, id]

/-- Two passes over a row in a row. -/
def seqB (b b' : RBody K) : RBody K := fun fl M => b' (b fl M).1 (b fl M).2

theorem onRow_seq (l t : Nat) (b b' : RBody K) (V : RVS K) :
    (V.onRow l t b).onRow l t b' = V.onRow l t (seqB b b') := by
  have hv : (V.onRow l t b).view l t = (b (fun r => V.fl r l) (V.view l t)).2 := by
    funext q i
    simp only [RVS.view, RVS.onRow, if_true]
  have hf : (fun r => (V.onRow l t b).fl r l) = (b (fun r => V.fl r l) (V.view l t)).1 := by
    funext r
    simp only [RVS.onRow, if_true]
  have : (V.onRow l t b).onRow l t b' = { V.onRow l t b with
      M := fun q d i => if d = plane l t q then (b' (b (fun r => V.fl r l) (V.view l t)).1 (b (fun r => V.fl r l) (V.view l t)).2).2 q i
        else (V.onRow l t b).M q d i,
      fl := fun r d => if d = l then (b' (b (fun r => V.fl r l) (V.view l t)).1 (b (fun r => V.fl r l) (V.view l t)).2).1 r
        else (V.onRow l t b).fl r d } := by
    rw [← hv, ← hf]; rfl
  rw [this]
  simp only [RVS.onRow, seqB]
  congr 1
  · funext q d i; split_ifs <;> rfl
  · funext r d; split_ifs <;> rfl

section
variable {c : RVCfg K} {l : Nat} {V : RVS K} {h : HRS K}

/-- `rows` in `hos_ov_reverse`, all flags nonzero. -/
theorem rows_ll {r : Nat} {b : RBody K} (ho : c.ov = true) (hf : ∀ l, l < c.p → V.fl r l ≠ 0) :
    V.rows c r b = forUp c.p (fun l V => V.onRow l l b) V := by
  unfold RVS.rows
  have : ∀ n, n ≤ c.p → forUp n (fun l (vt : RVS K × Nat) =>
      if vt.1.fl r l = 0 then vt else (vt.1.onRow l vt.2 b, vt.2 + c.adv)) (V, 0) = (forUp n (fun l V => V.onRow l l b) V, n) := by
    intro n hn
    induction n with
    | zero => rfl
    | succ n ih =>
      rw [forUp_succ, forUp_succ, ih (by omega)]
      obtain ⟨_, _, _, _, _, i6, _⟩ := loopll_spec b V n _ rfl
      rw [if_neg (by rw [(i6 n (le_refl _)).2]; exact hf n (by omega)), adv_ov ho]
  rw [this c.p (le_refl _)]

theorem rowsPre_ll {r : Nat} {pre : (Row → Nat → K) → Row → Nat → K} {b : RBody K} (ho : c.ov = true) (hf : ∀ l, l < c.p → V.fl r l ≠ 0) :
    V.rowsPre c r pre b = forUp c.p (fun l V => V.onRow l l (seqB (mkB id pre) b)) V := by
  unfold RVS.rowsPre
  have : ∀ n, n ≤ c.p → forUp n (fun l (vt : RVS K × Nat) =>
      let V := vt.1.onRow l vt.2 (mkB id pre)
      if V.fl r l = 0 then (V, vt.2) else (V.onRow l vt.2 b, vt.2 + c.adv)) (V, 0) =
      (forUp n (fun l V => V.onRow l l (seqB (mkB id pre) b)) V, n) := by
    intro n hn
    induction n with
    | zero => rfl
    | succ n ih =>
      rw [forUp_succ, forUp_succ, ih (by omega)]
      obtain ⟨_, _, _, _, _, i6, _⟩ := loopll_spec (seqB (mkB id pre) b) V n _ rfl
      have h1 := (i6 n (le_refl _)).2 r
      beta_reduce
      simp only
      rw [if_neg (by rw [onRow_fl, h1]; exact hf n (by omega)), adv_ov ho,
        onRow_seq]
  rw [this c.p (le_refl _)]

theorem RJ.ite {P : Prop} [Decidable P] {a b : HRS K} (hJ : RJ c l V (if P then a else b)) :
    ESim c l (.ok V) (if P then .ok a else .ok b) := by
  split_ifs at hJ ⊢ <;> exact hJ

/-- The loop of `abs_val` in `hos_ov_reverse`. -/
theorem absLoop {r : Nat} {b : RBody K} (hJ : OVInv c V) (ho : c.ov = true) :
    forUp c.p (fun l (s : RVS K) => if s.fl r l = 0 then s else s.onRow l l b) V = V.rows c r b := by
  by_cases h0 : V.fl r 0 = 0
  · have hz : ∀ l, l < c.p → V.fl r l = 0 := fun l hl => by rw [hJ.ofl ho r l hl]; exact h0
    have e1 : ∀ n, n ≤ c.p → forUp n (fun l (s : RVS K) => if s.fl r l = 0 then s else s.onRow l l b) V = V := by
      intro n hn
      induction n with
      | zero => rfl
      | succ n ih => rw [forUp_succ, ih (by omega), if_pos (hz n (by omega))]
    have e2 : ∀ n, n ≤ c.p → forUp n (fun l (vt : RVS K × Nat) =>
        if vt.1.fl r l = 0 then vt else (vt.1.onRow l vt.2 b, vt.2 + c.adv)) (V, 0) = (V, 0) := by
      intro n hn
      induction n with
      | zero => rfl
      | succ n ih => rw [forUp_succ, ih (by omega), if_pos (hz n (by omega))]
    unfold RVS.rows
    rw [e1 c.p (le_refl _), e2 c.p (le_refl _)]
  · have hz : ∀ l, l < c.p → V.fl r l ≠ 0 := fun l hl => by rw [hJ.ofl ho r l hl]; exact h0
    rw [rows_ll ho hz]
    have : ∀ n, n ≤ c.p → forUp n (fun l (s : RVS K) => if s.fl r l = 0 then s else s.onRow l l b) V = forUp n (fun l V => V.onRow l l b) V := by
      intro n hn
      induction n with
      | zero => rfl
      | succ n ih =>
        rw [forUp_succ, forUp_succ, ih (by omega)]
        obtain ⟨_, _, _, _, _, i6, _⟩ := loopll_spec b V n _ rfl
        rw [if_neg (by rw [(i6 n (le_refl _)).2]; exact hz n (by omega))]
    exact this c.p (le_refl _)

/-- Recomputation of the result's polynomial in `eq_plus_prod`, `eq_min_prod`. -/
def preW (f : K → K → K) (a b r : Nat) (M : Row → Nat → K) (i : Nat) : K := f (M (.T r) i) (cv (M (.T a)) (M (.T b)) i)

theorem preW_congr {f : K → K → K} {k a b r : Nat} {M M' : Row → Nat → K} (hM : ∀ r i, i < k → M (.T r) i = M' (.T r) i) {i : Nat} (hi : i < k) :
    preW f a b r M i = preW f a b r M' i := by
  unfold preW
  rw [hM r i hi, cv_congr (fun j hj => hM a j (by omega)) (fun j hj => hM b j (by omega))]

theorem RJ.pre (ho : c.ov = false) (hl : l < c.p) (hJ : RJ c l V h) (f : K → K → K) (a b r : Nat) :
    RJ c l (V.onRow 0 0 (mkB id fun M => ovR M (.T r) c.k (preW f a b r M))) { h with M := ovR h.M (.T r) c.k (preW f a b r h.M) } := by
  have ha := adv_nov ho
  have hT : ∀ r i, i < c.k → V.M (.T r) 0 i = h.M (.T r) i := fun r i hi => by have := hJ.T r i hi; rwa [ha, zero_mul] at this
  refine ⟨⟨fun r' i hi => ?_, fun r' i hi => ?_, fun r' => ?_, hJ.stk, hJ.ii, hJ.di, hJ.Z⟩,
    ⟨fun ho' => by simp [ho] at ho', fun ho' => by simp [ho] at ho', fun ho' => by simp [ho] at ho'⟩⟩
  · rw [ha, zero_mul]
    show (if 0 = plane 0 0 (.T r') then ovR (V.view 0 0) (.T r) c.k (preW f a b r (V.view 0 0)) (.T r') i else V.M (.T r') 0 i) =
      ovR h.M (.T r) c.k (preW f a b r h.M) (.T r') i
    rw [if_pos (show 0 = plane 0 0 (.T r') from rfl)]
    by_cases er : r' = r
    · subst er
      rw [ovR_lt hi, ovR_lt hi]
      exact preW_congr (fun r i hi => hT r i hi) hi
    · rw [ovR_ne (by simp [er]), ovR_ne (by simp [er])]
      exact hT r' i hi
  · show (if l = plane 0 0 (.A r') then ovR (V.view 0 0) (.T r) c.k (preW f a b r (V.view 0 0)) (.A r') i else V.M (.A r') l i) =
      ovR h.M (.T r) c.k (preW f a b r h.M) (.A r') i
    rw [ovR_ne (by simp), ovR_ne (by simp), ← hJ.A r' i hi]
    split_ifs with e
    · rw [show l = 0 from e]; rfl
    · rfl
  · show (if l = 0 then V.fl r' 0 else V.fl r' l) = h.fl r'
    rw [← hJ.fl r']
    split_ifs with e
    · rw [e]
    · rfl

/-- `eq_plus_prod`, `eq_min_prod` in `hos_ov_reverse`, flags nonzero. -/
theorem RJ.preOV (hk : 0 < c.k) (ho : c.ov = true) (hl : l < c.p) (hJ : RJ c l V h) (f : K → K → K) (a b r : Nat) (h0 : V.fl r 0 ≠ 0) {g : (Nat → K) → Nat → K}
    {F : (Row → Nat → K) → Row → Nat → K} (h1 : ∀ M M', Agr c.k S0 M M' → Agr c.k S0 (F M) (F M')) (h2 : ∀ M, FrT M (F M)) :
    RJ c l (V.rowsPre c r (fun M => ovR M (.T r) c.k (preW f a b r M)) (mkB g F))
      { h with fl := g h.fl, M := F (ovR h.M (.T r) c.k (preW f a b r h.M)) } := by
  have hz : ∀ l, l < c.p → V.fl r l ≠ 0 := fun l hl => by rw [hJ.ofl ho r l hl]; exact h0
  have hadv : c.adv * l = l := by rw [adv_ov ho, one_mul]
  rw [rowsPre_ll ho hz]
  obtain ⟨i1, i2, i3, i4, i5, i6, i7⟩ := loopll_spec (seqB (mkB id fun M => ovR M (.T r) c.k (preW f a b r M)) (mkB g F)) V c.p _ rfl
  generalize forUp c.p (fun l V => RVS.onRow l l (seqB (mkB id fun M => ovR M (.T r) c.k (preW f a b r M)) (mkB g F)) V) V = W at *
  obtain ⟨M, m1, m2, m3⟩ := i7 l hl
  simp only [seqB, mkB, id] at m2 m3
  have hT : ∀ r i, i < c.k → M (.T r) i = h.M (.T r) i := fun r i hi => by
    rw [m1 (.T r) trivial]; have := hJ.T r i hi; rwa [hadv] at this
  have hag : Agr c.k S0 (ovR M (.T r) c.k (preW f a b r M)) (ovR h.M (.T r) c.k (preW f a b r h.M)) := by
    intro q hq i hi
    cases q with
    | T r' =>
      by_cases er : r' = r
      · subst er
        rw [ovR_lt hi, ovR_lt hi]
        exact preW_congr hT hi
      · rw [ovR_ne (by simp [er]), ovR_ne (by simp [er])]
        exact hT r' i hi
    | A r' =>
      rw [ovR_ne (by simp), ovR_ne (by simp), m1 (.A r') trivial]
      exact hJ.A r' i hi
    | _ => exact hq.elim
  have hF := h1 _ _ hag
  refine ⟨⟨fun r' i hi => ?_, fun r' i hi => ?_, fun r' => ?_, by rw [i1]; exact hJ.stk, by rw [i2]; exact hJ.ii, by rw [i3]; exact hJ.di,
    fun j i hi => by rw [i4]; exact hJ.Z j i hi⟩, ⟨fun _ r' l' hl' => ?_, fun _ r' d hd => ?_, fun _ => by rw [i1]; exact hJ.ostk ho⟩⟩
  · rw [hadv, m3 (.T r') trivial]
    exact hF (.T r') trivial i hi
  · rw [m3 (.A r') trivial]
    exact hF (.A r') trivial i hi
  · rw [m2]
    exact congrFun (congrArg g (funext hJ.fl)) r'
  · obtain ⟨M1, _, a2, _⟩ := i7 l' hl'
    obtain ⟨M2, _, b2, _⟩ := i7 0 (by omega)
    rw [a2, b2]
    simp only [seqB, mkB, id]
    rw [show (fun r => V.fl r l') = fun r => V.fl r 0 from funext fun r => hJ.ofl ho r l' hl']
  · obtain ⟨M1, a1, _, a3⟩ := i7 d hd
    obtain ⟨M2, b1, _, b3⟩ := i7 0 (by omega)
    rw [a3 (.T r') trivial, b3 (.T r') trivial]
    simp only [seqB, mkB, id]
    rw [h2 _ (.T r') trivial, h2 _ (.T r') trivial]
    have hT0 : ∀ r, M1 (.T r) 0 = M2 (.T r) 0 := fun r => by
      rw [a1 (.T r) trivial, b1 (.T r) trivial]; exact hJ.T0 ho r d hd
    by_cases er : r' = r
    · subst er
      rw [ovR_lt hk, ovR_lt hk]
      exact preW_congr (k := 1) (fun r i hi => by have : i = 0 := by omega
                                                  subst this; exact hT0 r) Nat.one_pos
    · rw [ovR_ne (by simp [er]), ovR_ne (by simp [er])]
      exact hT0 r'

theorem RJ.val (hk : 0 < c.k) (hl : l < c.p) (hJ : RJ c l V h) (a : Nat) : V.M (.T a) 0 0 = h.M (.T a) 0 := by
  rw [← hJ.T a 0 hk]
  cases ho : c.ov with
  | false => simp [adv_nov ho]
  | true => rw [adv_ov ho, one_mul]; exact (hJ.T0 ho a l hl).symm

theorem RJ.move (hl : l < c.p) (hJ : RJ c l V h) (a r : Nat) : RJ c l (V.rows c r (moveB c.k a r)) (h.move c.k a r) :=
  hJ.rows0 hl (fun M M' hM => hM.move trivial trivial) (fun M => (FrT.refl M).move id id)

theorem minPick_congr {k : Nat} {t1 t2 s1 s2 : Nat → K} (hk : 0 < k) (h1 : ∀ i, i < k → t1 i = s1 i) (h2 : ∀ i, i < k → t2 i = s2 i) :
    minPick k t1 t2 = minPick k s1 s2 := by
  unfold minPick
  rw [h1 0 hk, h2 0 hk]
  have : (List.range' 1 (k - 1)).find? (fun i => decide (t1 i > t2 i ∨ t1 i < t2 i)) = (List.range' 1 (k - 1)).find? (fun i => decide (s1 i > s2 i ∨ s1 i < s2 i)) := by
    have : ∀ L : List Nat, (∀ i ∈ L, i < k) → L.find? (fun i => decide (t1 i > t2 i ∨ t1 i < t2 i)) = L.find? (fun i => decide (s1 i > s2 i ∨ s1 i < s2 i)) := by
      intro L
      induction L with
      | nil => intro _; rfl
      | cons a L ih =>
        intro hL
        rw [List.find?_cons, List.find?_cons, h1 a (hL a (List.mem_cons_self ..)), h2 a (hL a (List.mem_cons_self ..)), ih fun i hi => hL i (List.mem_cons_of_mem _ hi)]
    exact this _ fun i hi => by rw [List.mem_range'_1] at hi; omega
  rw [this]
  split_ifs
  · rfl
  · rfl
  · cases hf : (List.range' 1 (k - 1)).find? (fun i => decide (s1 i > s2 i ∨ s1 i < s2 i)) with
    | none => rfl
    | some i =>
      have hi : i < k := by
        have := List.mem_of_find?_eq_some hf
        rw [List.mem_range'_1] at this; omega
      simp only [h1 i hi, h2 i hi]

theorem absSign_congr {k : Nat} {t s : Nat → K} (h1 : ∀ i, i < k → t i = s i) : absSign k t = absSign k s := by
  unfold absSign
  have : (List.range k).find? (fun i => decide (t i ≠ 0)) = (List.range k).find? (fun i => decide (s i ≠ 0)) := by
    have : ∀ L : List Nat, (∀ i ∈ L, i < k) → L.find? (fun i => decide (t i ≠ 0)) = L.find? (fun i => decide (s i ≠ 0)) := by
      intro L
      induction L with
      | nil => intro _; rfl
      | cons a L ih =>
        intro hL
        rw [List.find?_cons, List.find?_cons, h1 a (hL a (List.mem_cons_self ..)), ih fun i hi => hL i (List.mem_cons_of_mem _ hi)]
    exact this _ fun i hi => List.mem_range.1 hi
  rw [this]
  cases hf : (List.range k).find? (fun i => decide (s i ≠ 0)) with
  | none => rfl
  | some i =>
    have hi : i < k := List.mem_range.1 (List.mem_of_find?_eq_some hf)
    simp only [h1 i hi]

theorem absB_good {k : Nat} (hk : 0 < k) (a r : Nat) : RGood k S0 (absB (K := K) k a r) := by
  refine ⟨fun fl M M' hM => ?_, fun fl M => ?_⟩
  · have e := absSign_congr (k := k) (fun i hi => hM (.T a) trivial i hi)
    simp only [absB]
    rw [e, hM (.T a) trivial 0 hk]
    refine ⟨rfl, ?_⟩
    generalize absSign k (M' (.T a)) = p
    refine (hM.setRow _ _).loop fun i M M' hi hM => ?_
    have hlt : p.1 + i < k := by omega
    refine (hM.wr _ _ rfl).wr _ _ ?_
    rw [(hM.wr _ _ rfl) (.A a) trivial _ hlt, hM (.A r) trivial _ hlt]
  · simp only [absB]
    exact ((FrT.refl M).setRow id _ _).loop fun i M' hM => (hM.wr id _ _).wr id _ _

theorem powSmall_agr {k a r : Nat} {v : K} {M M' : Row → Nat → K} (hM : Agr k S0 M M') : Agr k S0 (powSmall k a r v M) (powSmall k a r v M') := by
  unfold powSmall
  split_ifs with e1 e2 e3 e4
  · exact hM.loop fun i M M' hi hM => (hM.wr _ _ rfl).wr _ _ rfl
  · refine hM.loop fun i M M' hi hM => ?_
    have step : ∀ {P : Prop} [Decidable P] (w : K) {N N' : Row → Nat → K}, Agr k S0 N N' →
        Agr k S0 (if P then wrR (wrR N (.A a) i w) (.A r) i 0 else N) (if P then wrR (wrR N' (.A a) i w) (.A r) i 0 else N') := by
      intro P _ w N N' hN
      split_ifs
      · exact (hN.wr _ _ rfl).wr _ _ rfl
      · exact hN
    exact step _ (step _ (step _ hM))
  · exact hM.move trivial trivial
  · have h1 := hM.cpz (c := .at1) (a := .A r) trivial
    have h2 := h1.inconv (a := .at1) (b := .T a) (c := .A a) (Or.inl rfl) (Or.inr trivial) (Or.inr trivial)
    have h3 := h2.inconv (a := .at1) (b := .T a) (c := .A a) (Or.inl rfl) (Or.inr trivial) (Or.inr trivial)
    have h4 := h3.conv (c := .at1) (a := .A a) (b := .T a) (Or.inr trivial) (Or.inr trivial)
    refine Agr.mono (S := ins .at1 (ins .at1 S0)) ?_ fun q hq => Or.inr (Or.inr hq)
    refine Agr.loop h4 fun i M M' hi hM => hM.wr _ _ ?_
    rw [hM .at1 (Or.inl rfl) i hi]
  · have h1 := hM.cpz (c := .at1) (a := .A r) trivial
    have h2 := h1.inconv (a := .at1) (b := .T a) (c := .A a) (Or.inl rfl) (Or.inr trivial) (Or.inr trivial)
    have h3 := h2.inconv (a := .at1) (b := .T a) (c := .A a) (Or.inl rfl) (Or.inr trivial) (Or.inr trivial)
    exact h3.mono fun q hq => Or.inr hq

theorem powSmall_fr {k a r : Nat} {v : K} (M : Row → Nat → K) : FrT M (powSmall k a r v M) := by
  unfold powSmall
  have hM := FrT.refl M
  split_ifs with e1 e2 e3 e4
  · exact hM.loop fun i M' hM => (hM.wr id _ _).wr id _ _
  · refine hM.loop fun i M' hM => ?_
    have step : ∀ {P : Prop} [Decidable P] (w : K) {N : Row → Nat → K}, FrT M N → FrT M (if P then wrR (wrR N (.A a) i w) (.A r) i 0 else N) := by
      intro P _ w N hN
      split_ifs
      · exact (hN.wr id _ _).wr id _ _
      · exact hN
    exact step _ (step _ (step _ hM))
  · exact hM.move id id
  · exact ((((hM.cpz id id).inconv id).inconv id).conv id).loop fun i M' hM => hM.wr id _ _
  · exact ((hM.cpz id id).inconv id).inconv id

theorem foldl_RJ {f : RVS K → Nat → RVS K} {g : HRS K → Nat → HRS K} (L : List Nat) (hf : ∀ V h q, RJ c l V h → RJ c l (f V q) (g h q))
    (hJ : RJ c l V h) : RJ c l (L.foldl f V) (L.foldl g h) := by
  induction L generalizing V h with
  | nil => exact hJ
  | cons a L ih => exact ih (hf _ _ a hJ)

theorem foldlM_RJ {f : RVS K → Nat → Except HRStop (RVS K)} {g : HRS K → Nat → Except HRStop (HRS K)} (L : List Nat)
    (hf : ∀ V h q, RJ c l V h → ESim c l (f V q) (g h q)) (hJ : RJ c l V h) : ESim c l (L.foldlM f V) (L.foldlM g h) := by
  induction L generalizing V h with
  | nil => exact hJ
  | cons a L ih =>
    rw [List.foldlM_cons, List.foldlM_cons]
    exact (hf _ _ a hJ).bind fun V h hJ => ih hJ
end

/-- Operations for which the code handles rows, directions independently. -/
def Base.rowOk (c : RVCfg K) (V : RVS K) : Base K → Prop
  -- the tie case is not implemented in `hos_ov_reverse`
  | .minOp a b r _ => c.ov = false ∨ ∀ V', V.pop c r = .ok V' → V'.M (.T a) 0 0 ≠ V'.M (.T b) 0 0
  | .absVal _ _ _ => c.ov = true ∨ c.p ≤ 1
  | .ceilOp _ _ _ => False
  | .floorOp _ _ _ => False
  | .eqPlusProd _ _ r => c.ov = false ∨ V.fl r 0 ≠ 0
  | .eqMinProd _ _ r => c.ov = false ∨ V.fl r 0 ≠ 0
  | .vecAxpy _ _ _ _ _ => c.p ≤ 1
  | _ => True

end Verif.AD
