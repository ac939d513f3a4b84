import Verif.Sparse.SparseANF

/-! The pattern computed by `indopro_forward_absnormal` covers the tangent sweep in which the tangents of the results of
`fabs` are prescribed. -/
set_option linter.all false
namespace Verif.Sparse
open Verif.AD Elem

variable {K : Type} [Scalar K]

theorem anStep_other {n : Nat} {o : Base K} (ho : o.isAbs = false) (s : AIS) :
    anStep n o s = match idStep none o s.i with | .error e => .error e | .ok i => .ok { s with i := i } := by
  cases o <;> first | rfl | (cases ho; done)

/-- Coverage along the sweep, for the column `i` of `[x ; |z|]`. -/
structure CoversA (L : Set Nat) (i : Nat) (s : AIS) (f : PlF K) : Prop where
  base : CoversI L i s.i f.f
  sw : s.sw = f.swT.length
  len : s.Z.length = f.swT.length
  out : ∀ (k : Nat) (z : List Nat), s.Z[k]? = some z → i ∉ z.tail → f.swT[k]? = some 0

theorem coversA_step {c : Cfg K} {n i : Nat} {v dw : Nat → K} (hv : ∀ k, k ≠ i → v k = 0) (hdw : ∀ k, n + k ≠ i → dw k = 0)
    {o : Base K} {s s' : AIS} {f f' : PlF K} {L : Set Nat}
    (hok : domOk (none : Option (Nat → K)) o) (hokT : o.okT) (hz : ∀ l ∈ o.zeroAdj, l ∉ L) (hpow : powOk o f.f.T)
    (h : CoversA (o.adjStep L) i s f) (hs : anStep n o s = .ok s') (hf : swStep c v dw o f = .ok f') :
    CoversA L i s' f' := by
  cases ho : o.isAbs
  · rw [anStep_other ho] at hs
    obtain ⟨h1, h2, h3⟩ := swStep_other ho hf
    cases hi : idStep none o s.i with
    | error e => rw [hi] at hs; cases hs
    | ok i1 =>
      rw [hi] at hs
      cases hs
      refine ⟨coversI_step hv (by simp) hok hokT hz hpow h.base hi h1, ?_, ?_, ?_⟩
      · rw [h3]; exact h.sw
      · rw [h3]; exact h.len
      · rw [h3]; exact h.out
  · cases o <;> simp only [Base.isAbs] at ho <;> try cases ho
    rename_i a r k
    simp only [anStep, Except.ok.injEq] at hs
    subst hs
    obtain ⟨h1, h2, h3, h4, h5, h6, h7, h8⟩ := swStep_abs hf
    obtain ⟨g1, g2, g3, g4⟩ := h
    refine ⟨?_, by rw [h8]; simp [g2], by rw [h8]; simp [g3], ?_⟩
    · refine g1.set (r := r) (Q := i = n + s.sw) (fun x hx hxr => by simp [Base.adjStep, hx, hxr]) rfl rfl
        (fun x => by simp only [upd_apply]; split_ifs <;> simp) h2 h4 h6 (fun _ hn => ?_)
      rw [← g2]
      exact hdw _ (fun hh => hn hh.symm)
    · intro j z hj hzz
      rw [h8]
      simp only [List.getElem?_append, g3] at hj ⊢
      split_ifs at hj ⊢ with hlt
      · exact g4 j z hj hzz
      · rcases Nat.eq_zero_or_pos (j - f.swT.length) with h0 | h0
        · rw [h0] at hj ⊢
          simp only [List.getElem?_cons_zero, Option.some.injEq] at hj ⊢
          subst hj
          exact g1.cov a (by simp [Base.adjStep]) hzz
        · rw [List.getElem?_eq_none (by simp only [List.length_singleton]; omega)] at hj; cases hj

theorem coversA_run {c : Cfg K} {n i : Nat} {v dw : Nat → K} (hv : ∀ k, k ≠ i → v k = 0) (hdw : ∀ k, n + k ≠ i → dw k = 0)
    {N : Nat} {ops : List (Base K)} {Z : Set Nat} (hwf : WfFrom N Z ops) (hok : ∀ o ∈ ops, domOk (none : Option (Nat → K)) o)
    {s s' : AIS} {f f' : PlF K} {z : ZS K} (h : CoversA (liveAdj ops) i s f)
    (hz : SameZ f.f z) (hpow : Along powOk c ops z)
    (hs : anRun n ops s = .ok s') (hf : swRun c v dw ops f = .ok f') : CoversA ∅ i s' f' := by
  induction ops generalizing s f z Z with
  | nil => cases hs; cases hf; exact h
  | cons o os ih =>
    simp only [anRun] at hs
    simp only [swRun] at hf
    cases h1 : anStep n o s with
    | error e => rw [h1] at hs; cases hs
    | ok s1 =>
      cases h2 : swStep c v dw o f with
      | error e => rw [h2] at hf; cases hf
      | ok f1 =>
        rw [h1] at hs
        rw [h2] at hf
        obtain ⟨z1, h3, hzz⟩ := sw_zos h2 hz
        obtain ⟨_, w2, _, w4, w5⟩ := hwf
        refine ih w5 (fun o ho => hok o (List.mem_cons_of_mem _ ho)) ?_ hzz (hpow.2 z1 h3) hs hf
        exact coversA_step hv hdw (hok o (by simp)) w2 w4 (by have := hpow.1; rwa [← hz.T] at this) h h1 h2

/-- On a complete trace. -/
theorem coversA_full {c : Cfg K} {n i : Nat} {v dw : Nat → K} (hv : ∀ k, k ≠ i → v k = 0) (hdw : ∀ k, n + k ≠ i → dw k = 0)
    {N : Nat} {stock : List (Nat × List K)} {body : List (Base K)} (hw : WfTrace stock body N)
    (hok : ∀ o ∈ fullTrace stock body N, domOk (none : Option (Nat → K)) o)
    {s s' : AIS} {f f' : PlF K} {z : ZS K} (h : CoversA Set.univ i s f) (hd : ∀ l, f.f.dT l = 0)
    (hz : SameZ f.f z) (hpow : Along powOk c (fullTrace stock body N) z)
    (hs : anRun n (fullTrace stock body N) s = .ok s') (hf : swRun c v dw (fullTrace stock body N) f = .ok f') :
    CoversA ∅ i s' f' := by
  obtain ⟨hN, hst, hb⟩ := hw
  clear hst
  obtain ⟨Z, hb', _⟩ := WfFrom.death hN hb
  unfold fullTrace at *
  induction stock generalizing s f z with
  | nil =>
    exact coversA_run hv hdw hb' hok ⟨⟨fun a _ => h.base.cov a trivial, h.base.ii, h.base.len, h.base.out⟩, h.sw, h.len, h.out⟩
      hz hpow hs hf
  | cons p stock ih =>
    simp only [List.map_cons, List.cons_append, anRun, anStep, idStep] at hs
    simp only [List.map_cons, List.cons_append, swRun] at hf
    cases h2 : swStep c v dw (.takeStock p.1 p.2) f with
    | error e => rw [h2] at hf; cases hf
    | ok f1 =>
      rw [h2] at hf
      obtain ⟨z1, h3, hzz⟩ := sw_zos h2 hz
      obtain ⟨k1, k2, k3⟩ := swStep_other rfl h2
      obtain ⟨g1, g2⟩ := h.base.stock hd k1
      exact ih (fun o ho => hok o (List.mem_cons_of_mem _ ho)) ⟨g1, by rw [k3]; exact h.sw, by rw [k3]; exact h.len, by rw [k3]; exact h.out⟩
        g2 hzz (hpow.2 z1 h3) hs hf

/-! ## Shape of the rows, totality -/

theorem idStep_ii {o : Base K} (h : ∀ r, o ≠ .assignInd r) (hok : domOk (none : Option (Nat → K)) o) (s : IS) (B : Nat) :
    idStep (none : Option (Nat → K)) o { s with ii := B } = (idStep none o s).map fun s' => { s' with ii := B } := by
  cases o <;> first
    | rfl
    | exact absurd rfl (h _)
    | exact hok.elim
  
/-- A row of the pattern with columns below `B`. -/
def RowOk (B : Nat) (y : List Nat) : Prop := ∃ L : List Nat, y = L.length :: L ∧ L.Pairwise (· < ·) ∧ ∀ i ∈ L, i < B

structure AOk (B : Nat) (s : AIS) : Prop where
  dom : DomOk B s.i.dom
  Y : ∀ y ∈ s.i.Y, RowOk B y
  Z : ∀ y ∈ s.Z, RowOk B y

theorem idStep_bound {B : Nat} {o : Base K} (ho : noStop o) (hok : domOk (none : Option (Nat → K)) o) {s : IS}
    (hB : s.ii + o.nInd ≤ B) (h1 : DomOk B s.dom) (h2 : ∀ y ∈ s.Y, RowOk B y) :
    ∃ s', idStep (none : Option (Nat → K)) o s = .ok s' ∧ DomOk B s'.dom ∧ (∀ y ∈ s'.Y, RowOk B y) ∧
      s'.Y.length = s.Y.length + (if isDep o then 1 else 0) ∧ s'.ii = s.ii + o.nInd := by
  by_cases hi : ∃ r, o = .assignInd r
  · obtain ⟨r, rfl⟩ := hi
    refine ⟨_, rfl, ?_, h2, rfl, rfl⟩
    refine DomOk.upd h1 (by simp) ?_
    simp only [Base.nInd] at hB
    simp only [List.mem_singleton, forall_eq]
    omega
  · obtain ⟨s1, g1, g2, g3, g4⟩ := idStep_total (none : Option (Nat → K)) ho (s := { s with ii := B }) ⟨h1, h2⟩
    have h0 : o.nInd = 0 := by
      cases o <;> first | rfl | exact absurd ⟨_, rfl⟩ hi
    have hi' : ∀ r, o ≠ .assignInd r := fun r e => hi ⟨r, e⟩
    rw [idStep_ii hi' hok] at g1
    cases hs : idStep (none : Option (Nat → K)) o s with
    | error e => rw [hs] at g1; cases g1
    | ok s' =>
      rw [hs] at g1
      simp only [Except.map, Except.ok.injEq] at g1
      subst g1
      simp only [h0, Nat.add_zero] at g4
      refine ⟨s', rfl, ?_, ?_, g3, ?_⟩
      · have := g2.dom; exact this
      · have := g2.rows; exact this
      · rw [h0, Nat.add_zero]
        cases o <;> simp only [idStep, Except.ok.injEq] at hs <;> first
          | (subst hs; rfl)
          | exact hok.elim
          | exact ho.elim
          | exact absurd ⟨_, rfl⟩ hi

theorem an_total {n B : Nat} {ops : List (Base K)} (ho : ∀ o ∈ ops, noStop o) (hok : ∀ o ∈ ops, domOk (none : Option (Nat → K)) o)
    {s : AIS} (h : AOk B s) (h1 : s.i.ii + numInd ops ≤ B) (h2 : n + s.sw + numSw ops ≤ B) :
    ∃ s', anRun n ops s = .ok s' ∧ AOk B s' ∧ s'.i.Y.length = s.i.Y.length + ops.countP isDep ∧
      s'.Z.length = s.Z.length + numSw ops := by
  induction ops generalizing s with
  | nil => exact ⟨s, rfl, h, rfl, rfl⟩
  | cons o os ih =>
    have e1 : numInd (o :: os) = o.nInd + numInd os := by simp [numInd]
    rw [e1] at h1
    rw [numSw_cons] at h2
    have step : ∃ s1, anStep n o s = .ok s1 ∧ AOk B s1 ∧ s1.i.ii = s.i.ii + o.nInd ∧ s1.sw = s.sw + (if o.isAbs then 1 else 0) ∧
        s1.i.Y.length = s.i.Y.length + (if isDep o then 1 else 0) ∧ s1.Z.length = s.Z.length + (if o.isAbs then 1 else 0) := by
      cases hb : o.isAbs
      · obtain ⟨i1, g1, g2, g3, g4, g5⟩ := idStep_bound (B := B) (ho o (by simp)) (hok o (by simp)) (by omega) h.dom h.Y
        refine ⟨{ s with i := i1 }, by rw [anStep_other hb, g1], ⟨g2, g3, h.Z⟩, g5, by simp, g4, by simp⟩
      · rw [hb] at h2
        cases o <;> simp only [Base.isAbs] at hb <;> try cases hb
        rename_i a r k
        refine ⟨_, rfl, ⟨?_, h.Y, ?_⟩, rfl, by simp [Base.isAbs], rfl, by simp [Base.isAbs]⟩
        · exact DomOk.upd h.dom (by simp) (by simp only [List.mem_singleton, forall_eq]; simp at h2; omega)
        · intro y hy
          rcases List.mem_append.1 hy with hy | hy
          · exact h.Z y hy
          · rw [List.mem_singleton.1 hy]
            exact ⟨_, rfl, (h.dom a).1, (h.dom a).2⟩
    obtain ⟨s1, g1, g2, g3, g4, g5, g6⟩ := step
    obtain ⟨s2, k1, k2, k3, k4⟩ := ih (fun o h => ho o (List.mem_cons_of_mem _ h)) (fun o h => hok o (List.mem_cons_of_mem _ h)) g2
      (by rw [g3]; omega) (by rw [g4]; omega)
    refine ⟨s2, by simp only [anRun, g1, k1], k2, ?_, ?_⟩
    · rw [k3, g5, List.countP_cons]; omega
    · rw [k4, g6, numSw_cons]; omega

end Verif.Sparse
