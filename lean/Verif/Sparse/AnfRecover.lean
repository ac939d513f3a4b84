import Verif.Sparse.AnfCov

/-! Splitting the entries of the extended Jacobian into the four blocks; the constants. -/
set_option linter.all false
namespace Verif.Sparse
open Verif.AD

/-- The positions of a pattern in the order of the loops. -/
def positions (JP : List (List Nat)) : List (Nat × Nat) :=
  (List.range JP.length).flatMap fun i => (patRow JP i).map fun j => (i, j)

theorem overPattern_eq {S : Type} {JP : List (List Nat)} (h : ∀ r ∈ JP, RowWf r) (g : S → Nat → Nat → S) (s : S) :
    overPattern JP g s = (positions JP).foldl (fun s e => g s e.1 e.2) s := by
  unfold overPattern positions
  rw [← foldl_flatMap']
  apply List.foldl_ext
  intro st i hi
  rw [List.mem_range] at hi
  rw [← rows_of_wf h i hi, List.map_map, List.foldl_map]
  rfl

variable {K : Type}

theorem entries_positions (JP : List (List Nat)) (val : Nat → Nat → K) :
    entries JP val = (positions JP).map fun e => (e.1, e.2, val e.1 e.2) := by
  unfold entries positions
  rw [List.map_flatMap]
  congr 1
  funext i
  rw [List.map_map]
  rfl

/-- The entries in block `b`, whose upper left corner is `(r, c)`, with block-local coordinates. -/
def split (b : Block) (r c m n : Nat) (E : List (Entry K)) : List (Entry K) :=
  (E.filter fun e => classify m n e.1 e.2.1 = b).map fun e => (e.1 - r, e.2.1 - c, e.2.2)

section
variable [Scalar K]

theorem countANF_eq {JP : List (List Nat)} (h : ∀ r ∈ JP, RowWf r) (val : Nat → Nat → K) (m n : Nat) :
    countANF JP m n = ((split .Y 0 0 m n (entries JP val)).length, (split .J 0 n m n (entries JP val)).length,
      (split .Z m 0 m n (entries JP val)).length, (split .L m n m n (entries JP val)).length) := by
  unfold countANF
  rw [overPattern_eq h, entries_positions]
  have key : ∀ (P : List (Nat × Nat)) (a b c d : Nat),
      P.foldl (fun (d : Nat × Nat × Nat × Nat) e =>
        match classify m n e.1 e.2 with
        | .Y => (d.1 + 1, d.2.1, d.2.2.1, d.2.2.2)
        | .J => (d.1, d.2.1 + 1, d.2.2.1, d.2.2.2)
        | .Z => (d.1, d.2.1, d.2.2.1 + 1, d.2.2.2)
        | .L => (d.1, d.2.1, d.2.2.1, d.2.2.2 + 1)) (a, b, c, d) =
      (a + P.countP (fun e => classify m n e.1 e.2 = .Y), b + P.countP (fun e => classify m n e.1 e.2 = .J),
       c + P.countP (fun e => classify m n e.1 e.2 = .Z), d + P.countP (fun e => classify m n e.1 e.2 = .L)) := by
    intro P
    induction P with
    | nil => intros; rfl
    | cons e P ih =>
      intro a b c d
      rw [List.foldl_cons]
      cases hc : classify m n e.1 e.2 <;> simp only [ih, List.countP_cons, hc] <;>
        simp only [decide_true, reduceCtorEq, decide_false, if_true, Bool.false_eq_true, if_false, Prod.mk.injEq] <;> omega
  have e0 := key (positions JP) 0 0 0 0
  simp only [Nat.zero_add] at e0
  refine Eq.trans e0 ?_
  simp only [split, List.length_map, List.filter_map, ← List.countP_eq_length_filter, Function.comp_def]

/-- What `fillSparseANF` does to the lists. -/
theorem fillANF_eq {JP : List (List Nat)} (h : ∀ r ∈ JP, RowWf r) (B : Nat → Nat → K) (left : Nat → Nat) (m n : Nat) (A : SANF K)
    (h1 : (split .Y 0 0 m n (entries JP fun i j => B (left i) j)).length = A.Y.length)
    (h2 : (split .J 0 n m n (entries JP fun i j => B (left i) j)).length = A.J.length)
    (h3 : (split .Z m 0 m n (entries JP fun i j => B (left i) j)).length = A.Z.length)
    (h4 : (split .L m n m n (entries JP fun i j => B (left i) j)).length = A.L.length) :
    fillANF JP B left m n A =
      { A with Y := split .Y 0 0 m n (entries JP fun i j => B (left i) j),
               J := split .J 0 n m n (entries JP fun i j => B (left i) j),
               Z := split .Z m 0 m n (entries JP fun i j => B (left i) j),
               L := split .L m n m n (entries JP fun i j => B (left i) j) } := by
  unfold fillANF
  rw [overPattern_eq h]
  rw [entries_positions] at *
  have key : ∀ (P : List (Nat × Nat)) (A : SANF K) (a b c d : Nat),
      (P.foldl (fun (s : SANF K × (Nat × Nat × Nat × Nat)) e =>
        match classify m n e.1 e.2 with
        | .Y => ({ s.1 with Y := s.1.Y.set s.2.1 (e.1, e.2, B (left e.1) e.2) }, (s.2.1 + 1, s.2.2.1, s.2.2.2.1, s.2.2.2.2))
        | .J => ({ s.1 with J := s.1.J.set s.2.2.1 (e.1, e.2 - n, B (left e.1) e.2) }, (s.2.1, s.2.2.1 + 1, s.2.2.2.1, s.2.2.2.2))
        | .Z => ({ s.1 with Z := s.1.Z.set s.2.2.2.1 (e.1 - m, e.2, B (left e.1) e.2) }, (s.2.1, s.2.2.1, s.2.2.2.1 + 1, s.2.2.2.2))
        | .L => ({ s.1 with L := s.1.L.set s.2.2.2.2 (e.1 - m, e.2 - n, B (left e.1) e.2) }, (s.2.1, s.2.2.1, s.2.2.2.1, s.2.2.2.2 + 1)))
        (A, (a, b, c, d))).1 =
      { A with
        Y := ((split .Y 0 0 m n (P.map fun e => (e.1, e.2, B (left e.1) e.2))).foldl (fun (st : List (Entry K) × ℕ) e => (st.1.set st.2 e, st.2 + 1)) (A.Y, a)).1,
        J := ((split .J 0 n m n (P.map fun e => (e.1, e.2, B (left e.1) e.2))).foldl (fun (st : List (Entry K) × ℕ) e => (st.1.set st.2 e, st.2 + 1)) (A.J, b)).1,
        Z := ((split .Z m 0 m n (P.map fun e => (e.1, e.2, B (left e.1) e.2))).foldl (fun (st : List (Entry K) × ℕ) e => (st.1.set st.2 e, st.2 + 1)) (A.Z, c)).1,
        L := ((split .L m n m n (P.map fun e => (e.1, e.2, B (left e.1) e.2))).foldl (fun (st : List (Entry K) × ℕ) e => (st.1.set st.2 e, st.2 + 1)) (A.L, d)).1 } := by
    intro P
    induction P with
    | nil => intros; rfl
    | cons e P ih =>
      intro A a b c d
      rw [List.foldl_cons]
      cases hc : classify m n e.1 e.2 <;> simp only [ih, split, List.map_cons, List.filter_cons, hc] <;>
        simp only [decide_true, reduceCtorEq, decide_false, if_true, Bool.false_eq_true, if_false, List.map_cons, List.foldl_cons, Nat.sub_zero]
  have e0 := key (positions JP) A 0 0 0 0
  refine Eq.trans e0 ?_
  have w : ∀ (L M : List (Entry K)), L.length = M.length →
      (L.foldl (fun (st : List (Entry K) × ℕ) e => (st.1.set st.2 e, st.2 + 1)) (M, 0)).1 = L := by
    intro L M hl
    rw [foldl_write _ _ _ (by omega)]
    simp [← hl]
  rw [w _ _ h1, w _ _ h2, w _ _ h3, w _ _ h4]

/-- `recover<MH>`: automatically sized, or sized right by the caller. -/
theorem recoverA_eq {JP : List (List Nat)} (h : ∀ r ∈ JP, RowWf r) (B : Nat → Nat → K) (left : Nat → Nat) (m n : Nat) (A : SANF K)
    (manual : Bool)
    (hm : manual = true → A.dims = countANF JP m n ∧ A.dims = (A.Y.length, A.J.length, A.Z.length, A.L.length)) :
    recoverA manual JP left B m n A =
      { A with dims := countANF JP m n,
               Y := split .Y 0 0 m n (entries JP fun i j => B (left i) j),
               J := split .J 0 n m n (entries JP fun i j => B (left i) j),
               Z := split .Z m 0 m n (entries JP fun i j => B (left i) j),
               L := split .L m n m n (entries JP fun i j => B (left i) j) } := by
  have hc := countANF_eq h (fun i j => B (left i) j) m n
  unfold recoverA
  cases manual with
  | false =>
    simp only [Bool.false_eq_true, if_false]
    rw [fillANF_eq h] <;> simp only [SANF.resize, resize_length, hc]
  | true =>
    obtain ⟨d1, d2⟩ := hm rfl
    simp only [if_true]
    have d3 := d2
    rw [d1, hc] at d3
    simp only [Prod.mk.injEq] at d3
    rw [fillANF_eq h B left m n A d3.1 d3.2.1 d3.2.2.1 d3.2.2.2, ← d1]
end

/-! ## Blocks -/

/-- What a sparse `R × C` matrix with the entries `D i j` must be: ordered by row and column; every entry is right; all
others vanish. -/
structure IsSparse (D : Nat → Nat → ℝ) (R C : Nat) (E : List (Entry ℝ)) : Prop where
  sorted : E.Pairwise fun e e' => e.1 < e'.1 ∨ (e.1 = e'.1 ∧ e.2.1 < e'.2.1)
  value : ∀ e ∈ E, e.1 < R ∧ e.2.1 < C ∧ e.2.2 = D e.1 e.2.1
  zero : ∀ i j, i < R → j < C → (∀ v, (i, j, v) ∉ E) → D i j = 0

theorem isSparse_split {G : Nat → Nat → ℝ} {M C : Nat} {E : List (Entry ℝ)} (h : IsSparse G M C E) {b : Block} {m n r c R S : Nat}
    (hb : ∀ i j, i < M → j < C → (classify m n i j = b ↔ r ≤ i ∧ i < r + R ∧ c ≤ j ∧ j < c + S)) (hM : r + R ≤ M) (hC : c + S ≤ C) :
    IsSparse (fun i j => G (r + i) (c + j)) R S (split b r c m n E) := by
  have hin : ∀ e ∈ E, classify m n e.1 e.2.1 = b → r ≤ e.1 ∧ e.1 < r + R ∧ c ≤ e.2.1 ∧ e.2.1 < c + S := by
    intro e he hc
    obtain ⟨h1, h2, _⟩ := h.value e he
    exact (hb _ _ h1 h2).1 hc
  refine ⟨?_, ?_, ?_⟩
  · unfold split
    rw [List.pairwise_map, List.pairwise_filter]
    refine h.sorted.imp_of_mem fun {a d} ha hd' hs h1 h2 => ?_
    have a1 := hin a ha (by simpa using h1)
    have a2 := hin d hd' (by simpa using h2)
    simp only
    omega
  · intro e he
    unfold split at he
    obtain ⟨e', h1, rfl⟩ := List.mem_map.1 he
    obtain ⟨h1, h2⟩ := List.mem_filter.1 h1
    obtain ⟨a1, a2, a3, a4⟩ := hin e' h1 (by simpa using h2)
    refine ⟨by simp only; omega, by simp only; omega, ?_⟩
    simp only
    rw [show r + (e'.1 - r) = e'.1 by omega, show c + (e'.2.1 - c) = e'.2.1 by omega]
    exact (h.value e' h1).2.2
  · intro i j hi hj hE
    refine h.zero _ _ (by omega) (by omega) fun v hv => hE v ?_
    unfold split
    refine List.mem_map.2 ⟨_, List.mem_filter.2 ⟨hv, ?_⟩, by simp⟩
    simp only [decide_eq_true_eq]
    exact (hb _ _ (by omega) (by omega)).2 ⟨by omega, by omega, by omega, by omega⟩

theorem split_blocks {G : Nat → Nat → ℝ} {m n q : Nat} {E : List (Entry ℝ)} (h : IsSparse G (m + q) (n + q) E) :
    IsSparse (fun i j => G i j) m n (split .Y 0 0 m n E) ∧ IsSparse (fun i k => G i (n + k)) m q (split .J 0 n m n E) ∧
    IsSparse (fun k j => G (m + k) j) q n (split .Z m 0 m n E) ∧ IsSparse (fun k l => G (m + k) (n + l)) q q (split .L m n m n E) := by
  refine ⟨?_, ?_, ?_, ?_⟩
  · have := isSparse_split h (b := .Y) (m := m) (n := n) (r := 0) (c := 0) (R := m) (S := n) (fun i j hi hj => by
      unfold classify; split_ifs <;> simp <;> omega) (by omega) (by omega)
    simpa using this
  · have := isSparse_split h (b := .J) (m := m) (n := n) (r := 0) (c := n) (R := m) (S := q) (fun i j hi hj => by
      unfold classify; split_ifs <;> simp <;> omega) (by omega) (by omega)
    simpa using this
  · have := isSparse_split h (b := .Z) (m := m) (n := n) (r := m) (c := 0) (R := q) (S := n) (fun i j hi hj => by
      unfold classify; split_ifs <;> simp <;> omega) (by omega) (by omega)
    simpa using this
  · exact isSparse_split h (b := .L) (m := m) (n := n) (r := m) (c := n) (R := q) (S := q) (fun i j hi hj => by
      unfold classify; split_ifs <;> simp <;> omega) (by omega) (by omega)

/-! ## The constants -/

theorem updateC_spec (z : List ℝ) (E : List (Entry ℝ)) (c : List ℝ) :
    (updateC E z c).length = c.length ∧ ∀ i < c.length, (updateC E z c)[i]?.getD 0 =
      c[i]?.getD 0 - (E.map fun e => if e.1 = i then e.2.2 * |z[e.2.1]?.getD 0| else 0).sum := by
  induction E generalizing c with
  | nil => exact ⟨rfl, fun i _ => by simp [updateC]⟩
  | cons e E ih =>
    obtain ⟨h1, h2⟩ := ih (c.set e.1 (c[e.1]?.getD 0 - e.2.2 * Elem.fabs (z[e.2.1]?.getD 0)))
    simp only [List.length_set] at h1 h2
    refine ⟨h1, fun i hi => ?_⟩
    have := h2 i hi
    show (updateC E z _)[i]?.getD 0 = _
    rw [this, List.map_cons, List.sum_cons, List.getElem?_set]
    by_cases hei : e.1 = i
    · subst hei
      rw [if_pos rfl, if_pos hi, if_pos rfl, Option.getD_some]
      show _ - _ * |_| - _ = _
      ring
    · rw [if_neg hei, if_neg hei]; ring

theorem updateC_sparse {D : Nat → Nat → ℝ} {R C : Nat} {E : List (Entry ℝ)} (h : IsSparse D R C E) (z c : List ℝ) {i : Nat} (hi : i < R)
    (hc : c.length = R) :
    (updateC E z c)[i]?.getD 0 = c[i]?.getD 0 - ∑ k ∈ Finset.range C, D i k * |z[k]?.getD 0| := by
  rw [(updateC_spec z E c).2 i (by omega)]
  congr 1
  have hnd : E.Nodup := h.sorted.imp fun {a b} hs e => by subst e; omega
  rw [← List.sum_toFinset _ hnd, ← Finset.sum_filter]
  have hinj : Set.InjOn (fun e : Entry ℝ => e.2.1) ((E.toFinset.filter fun e => e.1 = i : Finset (Entry ℝ)) : Set (Entry ℝ)) := by
    intro a ha b hb hab
    simp only [Finset.coe_filter, List.mem_toFinset, Set.mem_setOf_eq] at ha hb
    obtain ⟨_, _, v1⟩ := h.value a ha.1
    obtain ⟨_, _, v2⟩ := h.value b hb.1
    have hab' : a.2.1 = b.2.1 := hab
    refine Prod.ext (ha.2.trans hb.2.symm) (Prod.ext hab' ?_)
    rw [v1, v2, ha.2, hb.2, hab']
  have e1 : ∀ e ∈ E.toFinset.filter (fun e : Entry ℝ => e.1 = i), e.2.2 * |z[e.2.1]?.getD 0| =
      (fun k => D i k * |z[k]?.getD 0|) e.2.1 := by
    intro e he
    rw [Finset.mem_filter, List.mem_toFinset] at he
    rw [(h.value e he.1).2.2, he.2]
  rw [Finset.sum_congr rfl e1, ← Finset.sum_image (f := fun k => D i k * |z[k]?.getD 0|) hinj]
  refine Finset.sum_subset ?_ ?_
  · intro k hk
    obtain ⟨e, he, rfl⟩ := Finset.mem_image.1 hk
    rw [Finset.mem_filter, List.mem_toFinset] at he
    exact Finset.mem_range.2 (h.value e he.1).2.1
  · intro k hk hn
    rw [Finset.mem_range] at hk
    have : D i k = 0 := h.zero i k hi hk fun v hv => hn (Finset.mem_image.2 ⟨(i, k, v), Finset.mem_filter.2 ⟨List.mem_toFinset.2 hv, rfl⟩, rfl⟩)
    simp [this]

end Verif.Sparse
