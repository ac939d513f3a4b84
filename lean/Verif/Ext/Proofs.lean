import Verif.Ext.Model

/-! # External functions: reading back what was recorded; forward and reverse sweep -/
set_option linter.all false
namespace Verif.Ext
open Verif.AD Finset

variable {K : Type}

/-! ## The location tape -/

theorem takeF_append (a l : List Nat) : takeF a.length (a ++ l) = some (a, l) := by
  induction a with
  | nil => rfl
  | cons x a ih => simp [takeF, ih]

theorem takeR_append (a acc l : List Nat) : takeR a.length acc (a.reverse ++ l) = some (a ++ acc, l) := by
  induction a using List.reverseRecOn generalizing acc with
  | nil => rfl
  | append_singleton a x ih => simp [takeR, ih]

theorem pairsF_append (g : List (Nat × Nat)) (l : List Nat) :
    pairsF g.length (g.flatMap (fun p => [p.2, p.1]) ++ l) = some (g, l) := by
  induction g with
  | nil => rfl
  | cons x g ih => simp [pairsF, ih]

theorem pairsR_append (g acc : List (Nat × Nat)) (l : List Nat) :
    pairsR g.length acc ((g.flatMap (fun p => [p.2, p.1])).reverse ++ l) = some (g ++ acc, l) := by
  induction g using List.reverseRecOn generalizing acc with
  | nil => rfl
  | append_singleton g x ih =>
    simp only [List.length_append, List.length_singleton, List.flatMap_append, List.flatMap_cons, List.flatMap_nil,
      List.append_nil, List.reverse_append, List.append_assoc, List.cons_append, List.nil_append, List.reverse_cons,
      List.reverse_nil, pairsR]
    rw [ih]

theorem decF1_enc (c : Call) (l : List Nat) : decF1 (enc1 c ++ l) = some ((c.i, (locsOf c.xs).length, (locsOf c.ys).length), l) := rfl
theorem decR1_enc (c : Call) (l : List Nat) : decR1 ((enc1 c).reverse ++ l) = some ((c.i, (locsOf c.xs).length, (locsOf c.ys).length), l) := rfl

theorem decFI_enc (c : Call) (l : List Nat) :
    decFI (encI c ++ l) = some ((c.iArr, c.i, (locsOf c.xs).length, (locsOf c.ys).length), l) := by
  have := takeF_append c.iArr (c.iArr.length :: (enc1 c ++ l))
  simp [decFI, encI, this, decF1_enc]

theorem decRI_enc (c : Call) (l : List Nat) :
    decRI ((encI c).reverse ++ l) = some ((c.iArr, c.i, (locsOf c.xs).length, (locsOf c.ys).length), l) := by
  have h1 : (encI c).reverse ++ l = (enc1 c).reverse ++ (c.iArr.length :: (c.iArr.reverse ++ (c.iArr.length :: l))) := by
    simp [encI]
  have h2 := takeR_append c.iArr [] (c.iArr.length :: l)
  rw [List.append_nil] at h2
  rw [h1]
  simp only [decRI, decR1_enc, h2]

theorem decF2_enc (c : Call) (l : List Nat) : decF2 (enc2 c ++ l) = some (c, l) := by
  obtain ⟨i, a, xs, ys⟩ := c
  simp only [enc2, List.append_assoc, List.cons_append, List.nil_append, decF2, takeF_append, pairsF_append]

theorem decR2_enc (c : Call) (l : List Nat) : decR2 ((enc2 c).reverse ++ l) = some (c, l) := by
  obtain ⟨i, a, xs, ys⟩ := c
  simp only [enc2, List.reverse_append, List.reverse_cons, List.reverse_nil, List.append_assoc, List.cons_append,
    List.nil_append, decR2, pairsR_append, takeR_append, List.append_nil]

/-! ## Which variables a call is replayed on -/

/-- The call, if it is one of the first version. -/
def Stm.first? : Stm K → Option Call
  | .v1 c | .iarr c => some c
  | _ => none

theorem record_tbl (p : List (Stm K)) (t : Tbl) (i : Nat) (v : Nat × Nat)
    (h : ∀ s ∈ p, ∀ c, s.first? = some c → c.i = i → (first c.xs, first c.ys) = v)
    (h0 : t i = v) : (record p t).2 i = v := by
  induction p generalizing t with
  | nil => exact h0
  | cons s p ih =>
    have hp : ∀ s ∈ p, ∀ c, s.first? = some c → c.i = i → (first c.xs, first c.ys) = v :=
      fun s hs => h s (List.mem_cons_of_mem _ hs)
    have key : ∀ c, s.first? = some c → setFirst t c i = v := by
      intro c hc
      unfold setFirst
      split
      · rename_i e; exact h s (by simp) c hc e.symm
      · exact h0
    cases s with
    | base o => exact ih t hp h0
    | v1 c => exact ih _ hp (key c rfl)
    | iarr c => exact ih _ hp (key c rfl)
    | v2 c => exact ih t hp h0

theorem locsOf_single (l n : Nat) : locsOf [(l, n)] = span l n := by simp [locsOf, span]
theorem span_length (l n : Nat) : (span l n).length = n := by simp [span]

/-- Calls of the first version have one group of inputs and one of outputs. -/
def Single (s : Stm K) : Prop := ∀ c, s.first? = some c → ∃ xl n yl m, c.xs = [(xl, n)] ∧ c.ys = [(yl, m)]

theorem record_steps (e1 e2 : Nat → Edf K) (p : List (Stm K)) (t tf : Tbl) (hs : ∀ s ∈ p, Single s)
    (h : ∀ s ∈ p, ∀ c, s.first? = some c → tf c.i = (first c.xs, first c.ys)) :
    (record p t).1.map (Op.step e1 e2 tf) = p.map (Stm.step e1 e2) := by
  induction p generalizing t with
  | nil => rfl
  | cons s p ih =>
    have hp := fun s hs' => h s (List.mem_cons_of_mem _ hs')
    have hsp := fun s hs' => hs s (List.mem_cons_of_mem _ hs')
    cases s with
    | base o => simp only [record, List.map_cons, ih t hsp hp]; rfl
    | v2 c => simp only [record, List.map_cons, ih t hsp hp]; rfl
    | v1 c =>
      obtain ⟨xl, n, yl, m, hx, hy⟩ := hs (.v1 c) (by simp) c rfl
      have := h (.v1 c) (by simp) c rfl
      simp only [record, List.map_cons, ih _ hsp hp]
      simp [Op.step, Stm.step, this, hx, hy, first, locsOf_single, span_length]
    | iarr c =>
      obtain ⟨xl, n, yl, m, hx, hy⟩ := hs (.iarr c) (by simp) c rfl
      have := h (.iarr c) (by simp) c rfl
      simp only [record, List.map_cons, ih _ hsp hp]
      simp [Op.step, Stm.step, this, hx, hy, first, locsOf_single, span_length]

theorem record_agree (p : List (Stm K)) (t : Tbl)
    (h : ∀ s ∈ p, ∀ s' ∈ p, ∀ c c', s.first? = some c → s'.first? = some c' → c.i = c'.i →
      (first c.xs, first c.ys) = (first c'.xs, first c'.ys)) :
    ∀ s ∈ p, ∀ c, s.first? = some c → (record p t).2 c.i = (first c.xs, first c.ys) := by
  intro s hs c hc
  obtain ⟨a, b, rfl⟩ := List.append_of_mem hs
  have split : ∀ (a b : List (Stm K)) t, (record (a ++ b) t).2 = (record b (record a t).2).2 := by
    intro a b
    induction a with
    | nil => intro t; rfl
    | cons s a ih => intro t; cases s <;> exact ih _
  rw [split]
  have hb : ∀ s' ∈ b, ∀ c', s'.first? = some c' → c'.i = c.i → (first c'.xs, first c'.ys) = (first c.xs, first c.ys) :=
    fun s' hs' c' hc' e => h s' (by simp [hs']) s (by simp) c' c hc' hc e
  have hset : ∀ t : Tbl, (record b (setFirst t c)).2 c.i = (first c.xs, first c.ys) :=
    fun t => record_tbl b _ _ _ hb (by simp [setFirst])
  cases s with
  | base o => simp [Stm.first?] at hc
  | v2 c' => simp [Stm.first?] at hc
  | v1 c' => cases hc; exact hset _
  | iarr c' => cases hc; exact hset _

/-! ## One call: forward and back -/

variable [Scalar K]

theorem wr_not_mem (T : Nat → K) (X : List Nat) (vs : List K) {l : Nat} (h : l ∉ X) : wr T X vs l = T l := by
  induction X generalizing T vs with
  | nil => cases vs <;> rfl
  | cons x X ih =>
    cases vs with
    | nil => rfl
    | cons v vs =>
      simp only [List.mem_cons, not_or] at h
      rw [wr, ih _ _ h.2, upd_ne _ _ h.1]

theorem rd_wr (T : Nat → K) (X : List Nat) (vs : List K) (hn : X.Nodup) (hl : vs.length = X.length) :
    rd (wr T X vs) X = vs := by
  induction X generalizing T vs with
  | nil => cases vs with | nil => rfl | cons _ _ => simp at hl
  | cons x X ih =>
    cases vs with
    | nil => simp at hl
    | cons v vs =>
      rw [List.nodup_cons] at hn
      have h1 : wr (upd T x v) X vs x = v := by rw [wr_not_mem _ _ _ hn.1]; simp [upd]
      have h2 := ih (upd T x v) vs hn.2 (by simpa using hl)
      unfold rd at h2 ⊢
      simp only [wr, List.map_cons, h1, h2]

theorem rd_congr {T T' : Nat → K} {X : List Nat} (h : ∀ l ∈ X, T l = T' l) : rd T X = rd T' X :=
  List.map_congr_left h

theorem rd_wr_disjoint (T : Nat → K) (X Y : List Nat) (vs : List K) (h : ∀ l ∈ X, l ∉ Y) : rd (wr T Y vs) X = rd T X :=
  rd_congr fun l hl => wr_not_mem _ _ _ (h l hl)

theorem rd_length (T : Nat → K) (X : List Nat) : (rd T X).length = X.length := by simp [rd]

theorem wr_rd (T : Nat → K) (X : List Nat) : wr T X (rd T X) = T := by
  induction X with
  | nil => rfl
  | cons x X ih => simp only [rd, List.map_cons, wr, upd_self]; exact ih

theorem sum_split (f : Nat → K) (N : Nat) (X : List Nat) (hn : X.Nodup) (hb : ∀ l ∈ X, l < N) :
    ∑ l ∈ range N, f l = ∑ l ∈ range N \ X.toFinset, f l + (X.map f).sum := by
  have hs : X.toFinset ⊆ range N := fun l hl => mem_range.2 (hb l (List.mem_toFinset.1 hl))
  rw [← List.sum_toFinset f hn]
  exact (Finset.sum_sdiff hs).symm

theorem ldot_rd (A d : Nat → K) (X : List Nat) : (X.map fun l => A l * d l).sum = ldot (rd A X) (rd d X) := by
  unfold ldot rd
  congr 1
  induction X with
  | nil => rfl
  | cons x X ih => rw [List.map_cons, List.map_cons, List.map_cons, List.zipWith_cons_cons, ih]

theorem dot_split (A d : Nat → K) (N : Nat) (X Y : List Nat) (hn : (X ++ Y).Nodup) (hb : ∀ l ∈ X ++ Y, l < N) :
    dot N A d = ∑ l ∈ range N \ (X ++ Y).toFinset, A l * d l + ldot (rd A X) (rd d X) + ldot (rd A Y) (rd d Y) := by
  unfold dot
  rw [sum_split (fun l => A l * d l) N (X ++ Y) hn hb, List.map_append, List.sum_append, ldot_rd, ldot_rd]
  ring

theorem ldot_zero (Y : List Nat) (b : List K) : ldot (Y.map fun _ => (0 : K)) b = 0 := by
  unfold ldot
  induction Y generalizing b with
  | nil => simp
  | cons y Y ih =>
    cases b with
    | nil => simp
    | cons x b => rw [List.map_cons, List.zipWith_cons_cons, List.sum_cons, ih]; simp

theorem fpush_list {c : Cfg K} (hk : c.keep = true) (X : List Nat) (s : FS K) :
    X.foldl (fun s l => s.push c l) s = { s with stk := (rd s.T X).reverse ++ s.stk, rows := (X.map fun q i => if i = 0 then s.T q else s.dT q).reverse ++ s.rows } :=
  push_fold hk id X s

theorem pop_list (F : Nat → K) (st : List K) (L : List Nat) (r : RS K) (h : r.stk = rd F L ++ st) :
    ∃ r', L.foldlM (fun s l => RS.pop l s) r = .ok r' ∧ r'.stk = st ∧ r'.A = r.A ∧
      r'.ii = r.ii ∧ r'.di = r.di ∧ r'.bar = r.bar ∧ ∀ l, r'.T l = if l ∈ L then F l else r.T l := by
  have := pop_fold F id st L r h
  simpa using this

/-- Side conditions on the variables of a call: all different, below `N`. -/
structure Sep (N : Nat) (X Y : List Nat) : Prop where
  nodup : (X ++ Y).Nodup
  lt : ∀ l ∈ X ++ Y, l < N

/-- The reverse sweep undoes a call. -/
theorem undo_call {N n : Nat} {c : Cfg K} (hk : c.keep = true) {u v : Nat → K} {e : Edf K} (he : e.Good)
    {X Y : List Nat} (b : Bool) (hs : Sep N X Y) (s : FS K) (A bar : Nat → K) :
    ∃ r, callRev e X Y b ⟨(callFos c e X Y s).T, A, (callFos c e X Y s).stk, (callFos c e X Y s).ii,
        (callFos c e X Y s).dy.length, bar⟩ = .ok r ∧
      Undo N n u v s (callFos c e X Y s) A bar r ∧ (∀ l ∈ Y, r.A l = 0) ∧ ∀ l, l ∉ X → l ∉ Y → r.A l = A l := by
  obtain ⟨T, dT, stk, rc, ii, y, dy, rows⟩ := s
  have hnX : X.Nodup := (List.nodup_append.1 hs.nodup).1
  have hnY : Y.Nodup := (List.nodup_append.1 hs.nodup).2.1
  have hXY : ∀ l ∈ X, l ∉ Y := fun l hl hl' => (List.nodup_append.1 hs.nodup).2.2 l hl l hl' rfl
  have hYX : ∀ l ∈ Y, l ∉ X := fun l hl hl' => hXY l hl' hl
  -- names
  set x := rd T X with hx
  set yv := rd T Y with hy
  set dx := rd dT X with hdx
  set dyv := rd dT Y with hdy
  obtain ⟨v1, v2, v3⟩ := he.val x dx yv dyv
  set x' := (e.fn x yv).2.1 with hx'
  set y' := (e.fn x yv).2.2 with hy'
  set dx' := (e.fos x dx yv dyv).2.1.2 with hdx'
  set dy' := (e.fos x dx yv dyv).2.2.2 with hdy'
  have lx : x.length = X.length := rd_length _ _
  have ly : yv.length = Y.length := rd_length _ _
  have ldx : dx.length = X.length := rd_length _ _
  have ldy : dyv.length = Y.length := rd_length _ _
  have lx' : x'.length = X.length := by rw [hx', he.lenx, lx]
  have ly' : y'.length = Y.length := by rw [hy', he.leny, ly]
  have ldx' : dx'.length = X.length := by rw [hdx', he.lendx _ _ _ _ (by omega), lx]
  have ldy' : dy'.length = Y.length := by rw [hdy', he.lendy _ _ _ _ (by omega), ly]
  set T' := wr (wr T X x') Y y' with hT'
  set dT' := wr (wr dT X dx') Y dy' with hdT'
  have rX' : rd T' X = x' := by rw [hT', rd_wr_disjoint _ _ _ _ hXY, rd_wr _ _ _ hnX lx']
  have rY' : rd T' Y = y' := by rw [hT', rd_wr _ _ _ hnY ly']
  have rdX' : rd dT' X = dx' := by rw [hdT', rd_wr_disjoint _ _ _ _ hXY, rd_wr _ _ _ hnX ldx']
  have rdY' : rd dT' Y = dy' := by rw [hdT', rd_wr _ _ _ hnY ldy']
  set stk' := yv.reverse ++ (if e.xChanges then x.reverse ++ stk else stk) with hstk'
  obtain ⟨rows', hfos⟩ : ∃ rows', callFos c e X Y ⟨T, dT, stk, rc, ii, y, dy, rows⟩ =
      ⟨T', dT', stk', mindec rc (e.fos x dx yv dyv).1, ii, y, dy, rows'⟩ := by
    simp only [callFos, he.ypri, if_true, fpush_list hk]
    rw [hT', hdT', ← v2, ← v3]
    cases hxc : e.xChanges <;>
      simp [hstk', hxc, hx, hy, hdx, hdy, hdx', hdy']
  rw [hfos]
  set z := e.rev (rd A Y) (rd A X) x' y' with hz
  have lz : z.length = X.length := by rw [hz, he.lenz, rd_length]
  set A' := (if b then wr (wr A X z) Y (Y.map fun _ => 0) else wr (wr A Y (Y.map fun _ => 0)) X z) with hA'
  have AX : rd A' X = z := by
    rw [hA']
    cases b <;> simp only [Bool.false_eq_true, if_false, if_true]
    · rw [rd_wr _ _ _ hnX lz]
    · rw [rd_wr_disjoint _ _ _ _ hXY, rd_wr _ _ _ hnX lz]
  have AY : rd A' Y = Y.map fun _ => 0 := by
    rw [hA']
    cases b <;> simp only [Bool.false_eq_true, if_false, if_true]
    · rw [rd_wr_disjoint _ _ _ _ hYX, rd_wr _ _ _ hnY (by simp)]
    · rw [rd_wr _ _ _ hnY (by simp)]
  have Aoff : ∀ l, l ∉ X → l ∉ Y → A' l = A l := by
    intro l h1 h2
    rw [hA']
    cases b <;> simp only [Bool.false_eq_true, if_false, if_true]
    · rw [wr_not_mem _ _ _ h1, wr_not_mem _ _ _ h2]
    · rw [wr_not_mem _ _ _ h2, wr_not_mem _ _ _ h1]
  have Toff : ∀ l, l ∉ X → l ∉ Y → T' l = T l := by
    intro l h1 h2; rw [hT', wr_not_mem _ _ _ h2, wr_not_mem _ _ _ h1]
  have hrev : callRev e X Y b ⟨T', A, stk', ii, dy.length, bar⟩ =
      (match Y.reverse.foldlM (fun s l => RS.pop l s) (⟨T', A', stk', ii, dy.length, bar⟩ : RS K) with
        | .error er => .error er
        | .ok s => if e.xChanges then X.reverse.foldlM (fun s l => RS.pop l s) s else .ok s) := by
    simp only [callRev, he.ypri, if_true, rX', rY', ← hz, ← hA']
    rfl
  obtain ⟨r1, p1, p2, p3, p4, p5, p6, p7⟩ := pop_list T (if e.xChanges then x.reverse ++ stk else stk) Y.reverse
    ⟨T', A', stk', ii, dy.length, bar⟩ (by simp [hstk', hy, rd])
  have pair : dot N A' dT = dot N A dT' := by
    rw [dot_split A' dT N X Y hs.nodup hs.lt, dot_split A dT' N X Y hs.nodup hs.lt, AX, AY, ldot_zero, rdX', rdY',
      ← hdx]
    have := he.dual x dx yv dyv (rd A Y) (rd A X) (by omega) (by omega) (by rw [rd_length]; omega) (by rw [rd_length]; omega)
    rw [← hx', ← hy', ← hz, ← hdy', ← hdx'] at this
    rw [this]
    have hoff : ∑ l ∈ range N \ (X ++ Y).toFinset, A' l * dT l = ∑ l ∈ range N \ (X ++ Y).toFinset, A l * dT' l := by
      refine sum_congr rfl fun l hl => ?_
      simp only [mem_sdiff, List.mem_toFinset, List.mem_append, not_or] at hl
      rw [Aoff l hl.2.1 hl.2.2, hdT', wr_not_mem _ _ _ hl.2.2, wr_not_mem _ _ _ hl.2.1]
    rw [hoff]; ring
  have yzero : ∀ (r : RS K), r.A = A' → ∀ l ∈ Y, r.A l = 0 := by
    intro r hr l hl
    have : (rd A' Y) = Y.map fun _ => 0 := AY
    rw [hr]
    exact List.map_inj_left.1 this l hl
  cases hxc : e.xChanges with
  | false =>
    rw [hrev, p1]
    simp only [hxc, Bool.false_eq_true, if_false] at p2 ⊢
    refine ⟨r1, rfl, ⟨?_, p2, p4, p5, fun i _ => by rw [p6], ?_⟩, yzero r1 p3, fun l h1 h2 => by rw [p3]; exact Aoff l h1 h2⟩
    · funext l
      rw [p7 l]
      split
      · rfl
      · rename_i hl
        have hlY : l ∉ Y := fun h => hl (List.mem_reverse.2 h)
        show T' l = T l
        by_cases hlX : l ∈ X
        · have : x' = x := he.xsame hxc x yv
          rw [hT', wr_not_mem _ _ _ hlY, this, hx, wr_rd]
        · exact Toff l hlX hlY
    · rw [p3, p6]; simp [pair]
  | true =>
    simp only [hxc, if_true] at p2 hrev
    obtain ⟨r2, q1, q2, q3, q4, q5, q6, q7⟩ := pop_list T stk X.reverse r1 (by rw [p2, hx]; simp [rd])
    rw [hrev, p1]
    simp only [q1]
    refine ⟨r2, rfl, ⟨?_, q2, by rw [q4, p4], by rw [q5, p5], fun i _ => by rw [q6, p6], ?_⟩,
      yzero r2 (by rw [q3, p3]), fun l h1 h2 => by rw [q3, p3]; exact Aoff l h1 h2⟩
    · funext l
      rw [q7 l]
      split
      · rfl
      · rename_i hl
        have hlX : l ∉ X := fun h => hl (List.mem_reverse.2 h)
        rw [p7 l]
        split
        · rfl
        · rename_i hl'
          exact Toff l hlX (fun h => hl' (List.mem_reverse.2 h))
    · rw [q3, p3, q6, p6]; simp [pair]

end Verif.Ext
