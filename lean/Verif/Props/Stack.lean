import Verif.IO.TaylorLemmas
/-!
Property theorems about the value stack: C07 (values) and C08 (rows of Taylor coefficients).
`cap` is the size of the value stack buffer (`TBUFSIZE` of the configuration, or the argument
of `trace_on`).
-/
set_option linter.all false
namespace Verif.Props.Stack
open Verif.IO
variable {V : Type} [Zero V]

theorem popN_spec (n : Nat) : ∀ {t0 t : TR V} {S : List V}, Rem t0 t S → n ≤ S.length →
    ∃ t', popN n t = some (S.reverse.take n, t') ∧ Rem t0 t' (S.take (S.length - n)) := by
  induction n with
  | zero => intro t0 t S h _; exact ⟨t, by simp [popN], by simpa using h⟩
  | succ n ih =>
    intro t0 t S h hn
    rcases List.eq_nil_or_concat S with rfl | ⟨S', x, rfl⟩
    · simp at hn
    · rw [List.concat_eq_append] at *
      obtain ⟨t1, a1, a2⟩ := h.get
      obtain ⟨t2, b1, b2⟩ := ih a2 (by simp at hn; omega)
      refine ⟨t2, by simp [popN, a1, b1], ?_⟩
      have : (S' ++ [x]).take ((S' ++ [x]).length - (n + 1)) = S'.take (S'.length - n) := by
        rw [List.length_append, List.length_singleton, Nat.add_sub_add_right]
        exact List.take_append_of_le_length (by omega)
      rw [this]; exact b2

theorem popRows_spec {α : Type} (get : (Nat → V) → TR V → Option ((Nat → V) × TR V)) (m : Nat → V) (enc : α → List V)
    (out : α → Nat → V) (P : Nat → Nat → Prop) (Q : α → Prop)
    (hg : ∀ a (t0 t : TR V) (S : List V), Q a → Rem t0 t (S ++ enc a) → P t.cap (S.length) →
      ∃ t', get m t = some (out a, t') ∧ Rem t0 t' S) (as : List α) :
    ∀ (t0 t : TR V) (S : List V), (∀ a ∈ as, Q a) → Rem t0 t (S ++ as.flatMap enc) →
      (∀ bs a cs, as = bs ++ a :: cs → P t0.cap (S.length + (bs.flatMap enc).length)) →
      ∃ t', popRows get m as.length t = some (as.reverse.map out, t') ∧ Rem t0 t' S := by
  induction as using List.reverseRecOn with
  | nil => intro t0 t S _ h _; exact ⟨t, by simp [popRows], by simpa using h⟩
  | append_singleton as a ih =>
    intro t0 t S hq h hp
    obtain ⟨t1, a1, a2⟩ := hg a t0 t (S ++ as.flatMap enc) (hq a (by simp)) (by simpa using h)
      (by rw [h.cap, List.length_append]; exact hp as a [] rfl)
    obtain ⟨t2, b1, b2⟩ := ih t0 t1 S (fun b hb => hq b (by simp [hb])) a2 (fun bs b cs e => hp bs b (cs ++ [a]) (by simp [e]))
    exact ⟨t2, by simp [popRows, a1, b1], b2⟩

/-- C07 (full statement: without `hne`; it is then false, see `C07_exactly_full`).  Values pushed one
after the other onto an empty stack, whatever the size of its buffer, are popped in the
opposite order, by each of any number of reverse sweeps, none of which pops more than was pushed. -/
theorem C07_value_stack_partial (cap : Nat) (hc : 1 ≤ cap) (xs : List V) (hne : xs.length ≠ cap)
    (ns : List Nat) (hns : ∀ n ∈ ns, n ≤ xs.length) :
    ∃ s, runAll writeScaylor xs ({ cap := cap } : Strm V) = some s ∧
      revSweeps ns (taylorClose s) = some (ns.map (fun n => xs.reverse.take n)) := by
  obtain ⟨s, a1, a2, a3, a4⟩ := runAll_spec writeScaylor (fun v => [v]) (fun _ _ => True)
    (fun x s h _ => writeScaylor_spec x s h) xs _ (empty_ok (V := V) hc) (by simp)
  refine ⟨s, a1, ?_⟩
  have hcont : cont s = xs := by rw [a3]; simp [cont]
  have hn : s.file = [] → s.buf.length ≠ s.cap := by
    intro hf
    have : s.buf = xs := by rw [← hcont, cont, hf]; rfl
    rw [this, a4]; exact hne
  have key : ∀ (ns : List Nat) (t : TR V), (∀ n ∈ ns, n ≤ xs.length) →
      (∃ t', taylorBack t = some t' ∧ Rem (taylorClose s) t' (cont s)) →
      revSweeps ns t = some (ns.map (fun n => xs.reverse.take n)) := by
    intro ns
    induction ns with
    | nil => intro t _ _; rfl
    | cons n ns ih =>
      rintro t hle ⟨t1, b1, b2⟩
      rw [hcont] at b2
      obtain ⟨t2, c1, c2⟩ := popN_spec n b2 (hle n (by simp))
      have := ih t2 (fun k hk => hle k (by simp [hk])) (back_again a2 hn c2)
      simp only [revSweeps, b1, c1, this, List.map_cons]
  exact key ns _ hns (back_close a2 hn)

example : (1 ≤ 3 ∧ [1, 2, 3, 4, 5, 6, 7].length ≠ 3) ∧ (∀ n ∈ [7, 2, 7], n ≤ [1, 2, 3, 4, 5, 6, 7].length) ∧
    (runAll writeScaylor [1, 2, 3, 4, 5, 6, 7] ({ cap := 3 } : Strm Int)).bind
      (fun s => revSweeps [7, 2, 7] (taylorClose s)) = some [[7, 6, 5, 4, 3, 2, 1], [7, 6], [7, 6, 5, 4, 3, 2, 1]] := by decide +kernel

/-- C07 fails when the values exactly fill the buffer, for every buffer size: the first pop of the
reverse sweep tries to read a block from a file that does not exist. -/
theorem C07_exactly_full (xs : List V) (h : xs ≠ []) :
    ∃ s, runAll writeScaylor xs ({ cap := xs.length } : Strm V) = some s ∧ s.file = [] ∧ s.buf = xs ∧
      revSweeps [1] (taylorClose s) = none := by
  have hl : 1 ≤ xs.length := List.length_pos_iff.2 h
  have key : ∀ (ys : List V) (s : Strm V), s.file = [] → s.buf.length + ys.length ≤ s.cap →
      runAll writeScaylor ys s = some { s with buf := s.buf ++ ys } := by
    intro ys
    induction ys with
    | nil => intro s _ _; simp [runAll]
    | cons y ys ih =>
      intro s hf hle
      simp only [List.length_cons] at hle
      simp only [runAll, writeScaylor, if_neg (show ¬ s.buf.length = s.cap by omega), Strm.write,
        if_pos (show s.buf.length < s.cap by omega)]
      rw [ih _ (by simpa using hf) (by simp; omega)]
      simp
  have e := key xs ({ cap := xs.length } : Strm V) rfl (by simp)
  simp only [List.nil_append] at e
  refine ⟨_, e, rfl, rfl, ?_⟩
  simp [revSweeps, taylorBack, taylorClose, popN, getTaylor, getTayBlockR]

/-- C08 for higher-order scalar sweeps (full statement: for all row lengths and buffer sizes).  The
rows, each of `k ≥ 1` coefficients, are restored in the opposite order; nothing outside the `k`
places of the row is written.  Proved when the row length divides the buffer size, or when the
stack has never been moved to the file; otherwise false, see `C08_straddling_row`. -/
theorem C08_rows_partial (cap k : Nat) (hk : 1 ≤ k) (hkc : k ≤ cap) (rows : List (List V)) (hr : ∀ r ∈ rows, r.length = k)
    (hd : (k ∣ cap ∧ k * rows.length ≠ cap) ∨ k * rows.length < cap) (m : Nat → V) :
    ∃ s, runAll saveRow rows ({ cap := cap } : Strm V) = some s ∧
      ∃ t t', taylorBack (taylorClose s) = some t ∧
        popRows (getTaylors k) m rows.length t = some (rows.reverse.map (fun r i => (r[i]?).getD (m i)), t') := by
  have hc : 1 ≤ cap := by omega
  obtain ⟨s, a1, a2, a3, a4⟩ := runAll_spec saveRow (fun r => r) (fun c r => r.length ≤ c + 1)
    (fun x s h hp => saveRow_spec x s h hp) rows _ (empty_ok (V := V) hc) (fun r hr' => by rw [hr r hr']; simp; omega)
  refine ⟨s, a1, ?_⟩
  have hlen : ∀ bs : List (List V), (∀ r ∈ bs, r.length = k) → (bs.flatMap (fun r => r)).length = k * bs.length := by
    intro bs hb
    induction bs with
    | nil => rfl
    | cons b bs ih => simp only [List.flatMap_cons, List.length_append, ih (fun r h => hb r (by simp [h])), hb b (by simp),
        List.length_cons]; rw [Nat.mul_add]; omega
  have hcont : cont s = rows.flatMap (fun r => r) := by rw [a3]; simp [cont]
  have htot : (cont s).length = k * rows.length := by rw [hcont, hlen rows hr]
  have hn : s.file = [] → s.buf.length ≠ s.cap := by
    intro hf
    have : s.buf = cont s := by simp [cont, hf]
    rw [this, htot, a4]
    rcases hd with hd | hd
    · exact hd.2
    · simp; omega
  obtain ⟨t, b1, b2⟩ := back_close a2 hn
  have hcap : (taylorClose s).cap = cap := a4
  -- rows do not straddle blocks
  obtain ⟨t', c1, c2⟩ := popRows_spec (getTaylors k) m (fun r : List V => r)
    (fun r i => (r[i]?).getD (m i)) (fun c l => c = cap ∧ (k ∣ cap ∧ k ∣ l ∨ l + k < cap)) (fun r => r.length = k)
    (by
      rintro a t0 t S ha h ⟨hp1, hp2⟩
      have hpos : a.length ≤ t.pos ∨ (t.pos = 0 ∧ a.length ≤ t.cap) := by
        obtain ⟨q, hq⟩ := h.len
        rw [List.length_append, ha, hp1] at hq
        rw [ha, hp1]
        rcases hp2 with ⟨⟨u, hu⟩, ⟨w, hw⟩⟩ | hp2
        · by_cases h0 : t.pos = 0
          · right; omega
          · left
            have : k ∣ t.pos := by
              have h1 : k ∣ q * cap := ⟨q * u, by rw [hu]; ring⟩
              have h2 : k ∣ q * cap + t.pos := by rw [← hq, hw]; exact ⟨w + 1, by ring⟩
              exact (Nat.dvd_add_right h1).1 h2
            exact Nat.le_of_dvd (by omega) this
        · left
          have : q = 0 := by
            by_contra hq0
            have : cap ≤ q * cap := Nat.le_mul_of_pos_left _ (by omega)
            omega
          subst this; omega
      obtain ⟨m', t', d1, d2, d3⟩ := getTaylors_spec a h (by rintro rfl; simp at ha; omega) hpos m
      refine ⟨t', ?_, d2⟩
      rw [ha] at d1
      rw [d1]
      congr 2
      funext i
      rw [d3 i]
      split
      · rw [List.getElem?_eq_getElem (by assumption)]; rfl
      · rw [List.getElem?_eq_none (by omega)]; rfl)
    rows (taylorClose s) t [] hr (by rw [hcont] at b2; simpa using b2)
    (by
      intro bs a cs e
      refine ⟨hcap, ?_⟩
      have hb : (bs.flatMap (fun r => r)).length = k * bs.length := hlen bs (fun r h => hr r (by simp [e, h]))
      have hl : bs.length + 1 ≤ rows.length := by
        have := congrArg List.length e
        simp at this; omega
      rw [List.length_nil, Nat.zero_add, hb]
      rcases hd with hd | hd
      · exact .inl ⟨hd.1, Nat.dvd_mul_right _ _⟩
      · right
        have := Nat.mul_le_mul_left k hl
        rw [Nat.mul_add] at this; omega)
  exact ⟨t, t', b1, c1⟩

example : (1 ≤ 2 ∧ 2 ≤ 4) ∧ (∀ r ∈ [[1, 2], [3, 4], [5, 6], [7, 8], [9, (10 : Int)]], r.length = 2) ∧
    ((2 ∣ 4 ∧ 2 * 5 ≠ 4) ∨ 2 * 5 < 4) ∧
    ((runAll saveRow [[1, 2], [3, 4], [5, 6], [7, 8], [9, 10]] ({ cap := 4 } : Strm Int)).bind fun s =>
      (taylorBack (taylorClose s)).bind fun t => (popRows (getTaylors 2) (fun _ => 0) 5 t).map fun r => r.1.map fun f => [f 0, f 1, f 2])
    = some [[9, 10, 0], [7, 8, 0], [5, 6, 0], [3, 4, 0], [1, 2, 0]] := by decide +kernel

/-- C08 fails for a row that straddles a block boundary: buffer of 5, rows `1,2`, `3,4`, `5,6`; the
last one comes back as `5, 0`, with `6` written behind its end. -/
theorem C08_straddling_row :
    ((runAll saveRow [[1, 2], [3, 4], [5, 6]] ({ cap := 5 } : Strm Int)).bind fun s =>
      (taylorBack (taylorClose s)).bind fun t => (popRows (getTaylors 2) (fun _ => 0) 3 t).map fun r => r.1.map fun f => [f 0, f 1, f 2])
    = some [[5, 0, 6], [3, 4, 0], [1, 2, 0]] := by decide +kernel

/-- C08 fails for rows of more than `cap + 1` coefficients: saving one writes outside the buffer. -/
theorem C08_row_too_long (x : V) (row : List V) (s : Strm V) (h : s.cap < row.length) (hb : s.buf.length ≤ s.cap) (hc : 1 ≤ s.cap) :
    saveRow (x :: row) s = none := by
  have key : ∀ (ps : List V) (s : Strm V), s.cap < s.buf.length + ps.length → s.buf.length ≤ s.cap → s.writes ps = none := by
    intro ps
    induction ps with
    | nil => intro s h1 h2; simp at h1; omega
    | cons p ps ih =>
      intro s h1 h2
      simp only [Strm.writes, Strm.write]
      split
      · rfl
      · rename_i s' hs
        split at hs
        · injection hs with hs; subst hs
          exact ih _ (by simp at h1 ⊢; omega) (by simp; omega)
        · cases hs
  have hne : row ≠ [] := by rintro rfl; simp at h
  simp only [saveRow, writeScaylor]
  split
  · rfl
  · rename_i s' hs
    have : s'.cap = s.cap ∧ s'.buf.length ≤ s'.cap := by
      by_cases hf : s.buf.length = s.cap
      · rw [if_pos hf] at hs
        have hw : (s.flush []).write x = some { s with file := s.file ++ s.buf, buf := [x] } := by
          have : 0 < s.cap := hc
          simp [Strm.write, Strm.flush, this]
        rw [hw] at hs
        injection hs with hs; subst hs; simp; exact hc
      · rw [if_neg hf] at hs
        simp only [Strm.write] at hs
        split at hs
        · injection hs with hs; subst hs; simp; omega
        · cases hs
    rw [if_neg hne]
    simp only [writeTaylor]
    rw [if_neg (by omega)]
    exact key _ _ (by omega) (by omega)

/-- C08 for higher-order vector sweeps: base point `x` and `p` directions of `deg - 1` coefficients
for each saved variable; all rows are restored, for all buffer sizes.  `getTaylorsP` lays the
row out as `hos_ov_reverse` uses it: place `j * deg` holds the base point and the following
places the coefficients of direction `j`. (Full statement: without the last hypothesis; the stack that exactly fills
its buffer fails as in C07.) -/
theorem C08_rows_vector_partial (cap deg p : Nat) (hc : 1 ≤ cap) (hdeg : 1 ≤ deg) (rows : List (V × List (List V)))
    (hr : ∀ r ∈ rows, r.2.length = p ∧ ∀ c ∈ r.2, c.length = deg - 1) (m : Nat → V)
    (hne : (rows.flatMap (fun r => r.1 :: r.2.flatten)).length ≠ cap) :
    ∃ s, runAll saveRows rows ({ cap := cap } : Strm V) = some s ∧
      ∃ t t', taylorBack (taylorClose s) = some t ∧
        popRows (getTaylorsP deg p) m rows.length t = some (rows.reverse.map (fun r i =>
          if i < deg * p then (if i % deg = 0 then r.1 else ((r.2[i / deg]?).getD [])[i % deg - 1]?.getD (m i)) else m i), t') := by
  obtain ⟨s, a1, a2, a3, a4⟩ := runAll_spec saveRows (fun r => r.1 :: r.2.flatten) (fun _ _ => True)
    (by
      rintro ⟨x, rs⟩ s h _
      obtain ⟨s1, b1, b2, b3, b4⟩ := writeScaylor_spec x s h
      obtain ⟨s2, c1, c2, c3, c4⟩ := writeAll_spec rs.flatten s1 b2
      exact ⟨s2, by simp only [saveRows, b1, c1], c2, by rw [c3, b3]; simp, by omega⟩) rows _ (empty_ok (V := V) hc) (by simp)
  refine ⟨s, a1, ?_⟩
  have hcont : cont s = rows.flatMap (fun r => r.1 :: r.2.flatten) := by rw [a3]; simp [cont]
  have hn : s.file = [] → s.buf.length ≠ s.cap := by
    intro hf
    have : s.buf = cont s := by simp [cont, hf]
    rw [this, hcont, a4]; exact hne
  obtain ⟨t, b1, b2⟩ := back_close a2 hn
  obtain ⟨t', c1, c2⟩ := popRows_spec (getTaylorsP deg p) m (fun r : V × List (List V) => r.1 :: r.2.flatten)
    (fun r i => if i < deg * p then (if i % deg = 0 then r.1 else ((r.2[i / deg]?).getD [])[i % deg - 1]?.getD (m i)) else m i)
    (fun _ _ => True) (fun r => r.2.length = p ∧ ∀ c ∈ r.2, c.length = deg - 1)
    (by
      rintro ⟨x, rs⟩ t0 t S ⟨ha1, ha2⟩ h _
      simp only at ha1 ha2 h ⊢
      subst ha1
      obtain ⟨m', t', d1, d2, d3, d4⟩ := getTaylorsP_spec deg hdeg x rs ha2 h m
      refine ⟨t', ?_, d2⟩
      rw [d1]; congr 2
      funext i
      by_cases hi : i < deg * rs.length
      · rw [if_pos hi]
        have hj : i / deg < rs.length := Nat.div_lt_of_lt_mul hi
        have hm := Nat.mod_lt i hdeg
        have he : i / deg * deg + i % deg = i := Nat.div_add_mod' i deg
        have hx := (d3 (i / deg) hj)
        by_cases h0 : i % deg = 0
        · rw [if_pos h0, ← hx.1]; congr 1; omega
        · rw [if_neg h0]
          have := hx.2 (i % deg - 1) (by omega)
          rw [show i / deg * deg + 1 + (i % deg - 1) = i by omega] at this
          have hl : (rs[i / deg]).length = deg - 1 := ha2 _ (by simp)
          rw [this, List.getElem?_eq_getElem hj, Option.getD_some, List.getElem?_eq_getElem (by omega)]; rfl
      · rw [if_neg hi]; exact d4 i (by omega))
    rows (taylorClose s) t [] hr (by rw [hcont] at b2; simpa using b2) (by simp)
  exact ⟨t, t', b1, c1⟩

/-- Two variables, two directions of degree 2, buffer of 4: rows straddle blocks and are restored. -/
example : (∀ r ∈ [((1 : Int), [[2, 3], [4, 5]]), (6, [[7, 8], [9, 10]])], r.2.length = 2 ∧ ∀ c ∈ r.2, c.length = 3 - 1) ∧
    ((runAll saveRows [(1, [[2, 3], [4, 5]]), (6, [[7, 8], [9, 10]])] ({ cap := 4 } : Strm Int)).bind fun s =>
      (taylorBack (taylorClose s)).bind fun t => (popRows (getTaylorsP 3 2) (fun _ => 0) 2 t).map fun r =>
        r.1.map fun f => [f 0, f 1, f 2, f 3, f 4, f 5, f 6])
    = some [[6, 7, 8, 6, 9, 10, 0], [1, 2, 3, 1, 4, 5, 0]] := by decide +kernel

end Verif.Props.Stack
