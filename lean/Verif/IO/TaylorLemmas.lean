import Verif.IO.Taylor
import Verif.IO.TapeLemmas
import Mathlib.Data.List.Induction
import Mathlib.Tactic.Ring
set_option linter.all false
namespace Verif.IO
variable {V : Type} [Zero V]

/-- Writer invariant: a full number of blocks on file, and the buffer is in use if there is a file. -/
structure TOk (s : Strm V) : Prop where
  cap : 1 ≤ s.cap
  buf : s.buf.length ≤ s.cap
  file : s.cap ∣ s.file.length
  use : s.file ≠ [] → s.buf ≠ []

/-- The stack contents. -/
def cont (s : Strm V) : List V := s.file ++ s.buf

theorem writeScaylor_spec (v : V) (s : Strm V) (h : TOk s) :
    ∃ s', writeScaylor v s = some s' ∧ TOk s' ∧ cont s' = cont s ++ [v] ∧ s'.cap = s.cap := by
  obtain ⟨h1, h2, h3, h4⟩ := h
  by_cases hf : s.buf.length = s.cap
  · refine ⟨{ s with file := s.file ++ s.buf, buf := [v] }, ?_, ⟨h1, by simpa using h1, ?_, by simp⟩, by simp [cont], rfl⟩
    · have : 0 < s.cap := h1
      simp [writeScaylor, hf, Strm.flush, Strm.write, this]
    · simp only [List.length_append, hf]; exact Nat.dvd_add h3 (Nat.dvd_refl _)
  · refine ⟨{ s with buf := s.buf ++ [v] }, ?_, ⟨h1, by simp; omega, h3, by simp⟩, by simp [cont], rfl⟩
    have : s.buf.length < s.cap := by omega
    simp [writeScaylor, hf, Strm.write, this]

theorem writeAll_spec (vs : List V) (s : Strm V) (h : TOk s) :
    ∃ s', writeAll vs s = some s' ∧ TOk s' ∧ cont s' = cont s ++ vs ∧ s'.cap = s.cap := by
  induction vs generalizing s with
  | nil => exact ⟨s, rfl, h, by simp, rfl⟩
  | cons v vs ih =>
    obtain ⟨s1, a1, a2, a3, a4⟩ := writeScaylor_spec v s h
    obtain ⟨s2, b1, b2, b3, b4⟩ := ih s1 a2
    exact ⟨s2, by simp only [writeAll, a1, b1], b2, by rw [b3, a3]; simp, by omega⟩

theorem writeTaylor_spec (row : List V) (s : Strm V) (h : TOk s) (hr : row ≠ []) (hl : row.length ≤ s.cap) (fuel : Nat)
    (hf : 2 ≤ fuel) :
    ∃ s', writeTaylor fuel row s = some s' ∧ TOk s' ∧ cont s' = cont s ++ row ∧ s'.cap = s.cap := by
  obtain ⟨h1, h2, h3, h4⟩ := h
  obtain ⟨f, rfl⟩ : ∃ f, fuel = f + 2 := ⟨fuel - 2, by omega⟩
  simp only [writeTaylor]
  by_cases hc : s.buf.length > s.cap - row.length
  · rw [if_pos ⟨hl, hc⟩]
    simp only [Strm.flush, List.length_nil, gt_iff_lt, Nat.not_lt_zero, and_false, if_false]
    rw [writes_eq _ _ (by simp; omega)]
    refine ⟨_, rfl, ⟨h1, by simp; omega, ?_, ?_⟩, ?_, rfl⟩
    · have : (s.buf ++ row.take (s.cap - s.buf.length)).length = s.cap := by simp; omega
      simp only [List.append_nil, List.length_append (as := s.file), this]
      exact Nat.dvd_add h3 (Nat.dvd_refl _)
    · intro _ hh; simp at hh; omega
    · simp [cont]
  · rw [if_neg (by tauto), writes_eq _ _ (by omega)]
    exact ⟨_, rfl, ⟨h1, by simp; omega, h3, by simp [hr]⟩, by simp [cont], rfl⟩

theorem saveRow_spec (row : List V) (s : Strm V) (h : TOk s) (hl : row.length ≤ s.cap + 1) :
    ∃ s', saveRow row s = some s' ∧ TOk s' ∧ cont s' = cont s ++ row ∧ s'.cap = s.cap := by
  cases row with
  | nil => exact ⟨s, rfl, h, by simp, rfl⟩
  | cons v vs =>
    obtain ⟨s1, a1, a2, a3, a4⟩ := writeScaylor_spec v s h
    simp only [saveRow, a1]
    by_cases hv : vs = []
    · rw [if_pos hv]; subst hv; exact ⟨s1, rfl, a2, a3, a4⟩
    · rw [if_neg hv]
      obtain ⟨s2, b1, b2, b3, b4⟩ := writeTaylor_spec vs s1 a2 hv (by simp at hl; omega) (vs.length + 2) (by omega)
      exact ⟨s2, b1, b2, by rw [b3, a3]; simp, by omega⟩

theorem runAll_spec {α : Type} (f : α → Strm V → Option (Strm V)) (vals : α → List V) (P : Nat → α → Prop)
    (hf : ∀ x s, TOk s → P s.cap x → ∃ s', f x s = some s' ∧ TOk s' ∧ cont s' = cont s ++ vals x ∧ s'.cap = s.cap)
    (xs : List α) (s : Strm V) (h : TOk s) (hp : ∀ x ∈ xs, P s.cap x) :
    ∃ s', runAll f xs s = some s' ∧ TOk s' ∧ cont s' = cont s ++ xs.flatMap vals ∧ s'.cap = s.cap := by
  induction xs generalizing s with
  | nil => exact ⟨s, rfl, h, by simp, rfl⟩
  | cons x xs ih =>
    obtain ⟨s1, a1, a2, a3, a4⟩ := hf x s h (hp x (by simp))
    obtain ⟨s2, b1, b2, b3, b4⟩ := ih s1 a2 (fun y hy => by rw [a4]; exact hp y (by simp [hy]))
    exact ⟨s2, by simp only [runAll, a1, b1], b2, by rw [b3, a3]; simp, by omega⟩

theorem empty_ok {cap : Nat} (h : 1 ≤ cap) : TOk ({ cap := cap } : Strm V) :=
  ⟨h, by simp, by simp, by simp⟩

/-! ### Reading -/

/-- `S` is what a reverse sweep has not popped yet; `t0` is the state left by `taylor_close`. -/
structure Rem (t0 t : TR V) (S : List V) : Prop where
  cap : t.cap = t0.cap
  capp : 1 ≤ t.cap
  file : t.file = t0.file
  num : t.num = t0.num
  core : t.inCore = true → t.buf = t0.buf
  ncore : t.inCore = false → t.file.isSome
  pos : t.pos ≤ t.buf.length
  posc : t.pos ≤ t.cap
  nx : ∃ q : Nat, t.next = (q : Int) - 1 ∧ S = (t.file.getD []).take (q * t.cap) ++ t.buf.take t.pos ∧
    q * t.cap ≤ (t.file.getD []).length

theorem Rem.len {t0 t : TR V} {S : List V} (h : Rem t0 t S) : ∃ q : Nat, S.length = q * t.cap + t.pos := by
  obtain ⟨q, h1, h2, h3⟩ := h.nx
  have := h.pos
  exact ⟨q, by rw [h2]; simp; omega⟩

theorem Rem.prev {t0 t : TR V} {S : List V} {x : V} (h : Rem t0 t (S ++ [x])) (hp : t.pos ≠ 0) :
    ∃ t', t.prev = some (x, t') ∧ Rem t0 t' S ∧ t'.pos = t.pos - 1 := by
  obtain ⟨q, h1, h2, h3⟩ := h.nx
  have hpos := h.pos
  have e : t.buf.take t.pos = t.buf.take (t.pos - 1) ++ [t.buf[t.pos - 1]'(by omega)] := by
    have := List.take_succ_eq_append_getElem (l := t.buf) (i := t.pos - 1) (by omega)
    rwa [show t.pos - 1 + 1 = t.pos by omega] at this
  rw [e, ← List.append_assoc] at h2
  have h2' := List.append_inj' h2 rfl
  obtain ⟨h4, h5⟩ := h2'
  injection h5 with h5
  refine ⟨{ t with pos := t.pos - 1 }, ?_, ?_, rfl⟩
  · simp only [TR.prev]
    rw [if_neg hp, List.getElem?_eq_getElem (by omega)]
    simp [h5]
  · have := h.posc
    exact ⟨h.cap, h.capp, h.file, h.num, h.core, h.ncore, by simp only; omega, by simp only; omega, q, h1, h4, h3⟩

/-- Loading the previous block when the buffer has been used up. -/
theorem Rem.block {t0 t : TR V} {S : List V} (h : Rem t0 t S) (hp : t.pos = 0) (hS : S ≠ []) :
    ∃ t', getTayBlockR t = some t' ∧ Rem t0 t' S ∧ t'.pos = t.cap := by
  obtain ⟨q, h1, h2, h3⟩ := h.nx
  rw [hp, List.take_zero, List.append_nil] at h2
  have hcap := h.capp
  cases hf : t.file with
  | none => rw [hf] at h2; simp at h2; exact absurd h2 hS
  | some f =>
    rw [hf] at h2 h3; simp only [Option.getD_some] at h2 h3
    have hq : q ≠ 0 := by rintro rfl; simp at h2; exact hS h2
    obtain ⟨p, rfl⟩ : ∃ p, q = p + 1 := ⟨q - 1, by omega⟩
    have hnx : t.next = (p : Int) := by rw [h1]; push_cast; ring
    rw [Nat.add_mul, Nat.one_mul] at h2 h3
    refine ⟨{ t with inCore := false, buf := (f.drop (p * t.cap)).take t.cap, pos := t.cap, next := t.next - 1 }, ?_, ?_, rfl⟩
    · simp only [getTayBlockR, hf, hnx, Int.toNat_natCast]
      rw [if_neg (by omega), if_neg (by omega)]
    · have hl : ((f.drop (p * t.cap)).take t.cap).length = t.cap := by simp; omega
      refine ⟨h.cap, hcap, by simpa using h.file, h.num, by simp, by simp [hf], by simp only [hl]; exact le_refl _, le_refl _,
        p, by simp only [hnx], ?_, ?_⟩
      · simp only [hf, Option.getD_some]
        rw [List.take_take, Nat.min_self, h2, List.take_add]
      · simp only [hf, Option.getD_some]; omega

theorem Rem.get {t0 t : TR V} {S : List V} {x : V} (h : Rem t0 t (S ++ [x])) :
    ∃ t', getTaylor t = some (x, t') ∧ Rem t0 t' S := by
  by_cases hp : t.pos = 0
  · obtain ⟨t1, a1, a2, a3⟩ := h.block hp (by simp)
    obtain ⟨t2, b1, b2, _⟩ := a2.prev (by rw [a3]; have := h.capp; omega)
    exact ⟨t2, by simp only [getTaylor, if_pos hp, a1, b1], b2⟩
  · obtain ⟨t2, b1, b2, _⟩ := h.prev hp
    exact ⟨t2, by simp only [getTaylor, if_neg hp, b1], b2⟩

/-- After `taylor_close`, and again after any reverse sweep, `taylor_back` makes the whole stack
available, unless the stack has exactly filled the buffer and was never spilled. -/
theorem back_close {s : Strm V} (h : TOk s) (hn : s.file = [] → s.buf.length ≠ s.cap) :
    ∃ t, taylorBack (taylorClose s) = some t ∧ Rem (taylorClose s) t (cont s) := by
  obtain ⟨h1, h2, h3, h4⟩ := h
  obtain ⟨q, hq⟩ := h3
  refine ⟨{ taylorClose s with pos := (taylorClose s).num % (taylorClose s).cap, next := (((taylorClose s).num / (taylorClose s).cap : Nat) : Int) - 1 }, by simp [taylorBack, taylorClose], ?_⟩
  by_cases hf : s.file = []
  · have hlt : s.buf.length < s.cap := by have := hn hf; omega
    have hm : s.buf.length % s.cap = s.buf.length := Nat.mod_eq_of_lt hlt
    have hd : s.buf.length / s.cap = 0 := Nat.div_eq_of_lt hlt
    refine ⟨rfl, h1, rfl, rfl, by simp [taylorClose], by simp [taylorClose], ?_, ?_, 0, ?_⟩
    · simp [taylorClose, hf, hm]
    · simp [taylorClose, hf, hm]; omega
    · simp [taylorClose, hf, hm, hd, cont]
  · have hb := h4 hf
    have hbl : 0 < s.buf.length := List.length_pos_iff.2 hb
    have hfe : s.file.isEmpty = false := by simp [hf]
    by_cases hfull : s.buf.length = s.cap
    · have hm : (s.file.length + s.buf.length) % s.cap = 0 := by rw [hq, hfull, Nat.mul_add_mod, Nat.mod_self]
      have hd : (s.file.length + s.buf.length) / s.cap = q + 1 := by
        rw [hq, hfull, Nat.mul_add_div (by omega), Nat.div_self (by omega)]
      have hx : (q + 1) * s.cap = s.file.length + s.buf.length := by rw [hq, hfull]; ring
      refine ⟨rfl, h1, rfl, rfl, by simp [taylorClose], by simp [taylorClose], ?_, ?_, q + 1, ?_⟩
      · simp [taylorClose, hm]
      · simp [taylorClose, hm]
      · simp only [taylorClose, hm, hd, hfe, cont]
        refine ⟨trivial, ?_, ?_⟩
        · rw [hx]; simp; rw [List.take_of_length_le (by simp)]
        · rw [hx]; simp
    · have hlt : s.buf.length < s.cap := by omega
      have hm : (s.file.length + s.buf.length) % s.cap = s.buf.length := by rw [hq, Nat.mul_add_mod, Nat.mod_eq_of_lt hlt]
      have hd : (s.file.length + s.buf.length) / s.cap = q := by
        rw [hq, Nat.mul_add_div (by omega), Nat.div_eq_of_lt hlt]; omega
      have hx : q * s.cap = s.file.length := by rw [hq]; ring
      refine ⟨rfl, h1, rfl, rfl, by simp [taylorClose], by simp [taylorClose], ?_, ?_, q, ?_⟩
      · simp [taylorClose, hm]
      · simp [taylorClose, hm]; omega
      · simp only [taylorClose, hm, hd, hfe, cont]
        refine ⟨trivial, ?_, ?_⟩
        · rw [hx]; simp
        · rw [hx]; simp

/-- A second reverse sweep starts with the whole stack again. -/
theorem back_again {s : Strm V} (h : TOk s) (hn : s.file = [] → s.buf.length ≠ s.cap) {t : TR V} {S : List V}
    (hr : Rem (taylorClose s) t S) :
    ∃ t', taylorBack t = some t' ∧ Rem (taylorClose s) t' (cont s) := by
  obtain ⟨t1, a1, a2⟩ := back_close h hn
  have hcap := hr.cap
  have hnum := hr.num
  have hfile := hr.file
  cases hc : t.inCore with
  | true =>
    have hb := hr.core hc
    have e : taylorBack t = some t1 := by
      rw [← a1]
      simp only [taylorBack, hc, hcap, hnum]
      simp only [taylorClose] at *
      obtain ⟨c, f, b, p, n, i, m⟩ := t
      simp_all
    exact ⟨t1, e, a2⟩
  | false =>
    have hs := hr.ncore hc
    obtain ⟨f, hf⟩ := Option.isSome_iff_exists.1 hs
    rw [hf] at hfile
    have hne : s.file ≠ [] := by intro h0; simp [taylorClose, h0] at hfile
    have hfe : s.file.isEmpty = false := by simp [hne]
    obtain ⟨k1, k2, k3, k4⟩ := h
    obtain ⟨q, hq⟩ := k3
    have hff : f = s.file ++ s.buf := by simp [taylorClose, hne] at hfile; exact hfile
    have hcc : t.cap = s.cap := hcap
    have hnn : t.num = s.file.length + s.buf.length := hnum
    refine ⟨_, by simp only [taylorBack, hc, hf]; rfl, ?_⟩
    by_cases hfull : s.buf.length = s.cap
    · have hm : (s.file.length + s.buf.length) % s.cap = 0 := by rw [hq, hfull, Nat.mul_add_mod, Nat.mod_self]
      have hd : (s.file.length + s.buf.length) / s.cap = q + 1 := by
        rw [hq, hfull, Nat.mul_add_div (by omega), Nat.div_self (by omega)]
      have hx : (q + 1) * s.cap = s.file.length + s.buf.length := by rw [hq, hfull]; ring
      refine ⟨hcap, by rw [hcc]; exact k1, by simpa [hf] using hfile, hnum, by simp [hc], by simp [hf], ?_, ?_, q + 1, ?_⟩
      · simp [hcc, hnn, hm]
      · simp [hcc, hnn, hm]
      · simp only [hcc, hnn, hm, hd, hf, Option.getD_some, hff, cont]
        refine ⟨trivial, ?_, ?_⟩
        · rw [hx, ← List.length_append, List.take_length]; simp
        · rw [hx]; simp
    · have hlt : s.buf.length < s.cap := by omega
      have hm : (s.file.length + s.buf.length) % s.cap = s.buf.length := by rw [hq, Nat.mul_add_mod, Nat.mod_eq_of_lt hlt]
      have hd : (s.file.length + s.buf.length) / s.cap = q := by
        rw [hq, Nat.mul_add_div (by omega), Nat.div_eq_of_lt hlt]; omega
      have hx : q * s.cap = s.file.length := by rw [hq]; ring
      refine ⟨hcap, by rw [hcc]; exact k1, by simpa [hf] using hfile, hnum, by simp [hc], by simp [hf], ?_, ?_, q, ?_⟩
      · simp [hcc, hnn, hm, hd, hx, hff]
      · simp [hcc, hnn, hm]; omega
      · simp only [hcc, hnn, hm, hd, hf, Option.getD_some, hff, cont]
        refine ⟨trivial, ?_, ?_⟩
        · rw [hx]; simp
        · rw [hx]; simp

theorem popDown_spec (xs : List V) {t0 t : TR V} {S : List V} (h : Rem t0 t (S ++ xs)) (hp : xs.length ≤ t.pos)
    (m : Nat → V) :
    ∃ m' t', popDown xs.length xs.length m t = some (m', t') ∧ Rem t0 t' S ∧
      ∀ i, m' i = if h : i < xs.length then xs[i] else m i := by
  induction xs using List.reverseRecOn generalizing t m with
  | nil => exact ⟨m, t, rfl, by simpa using h, by simp⟩
  | append_singleton xs x ih =>
    simp only [List.length_append, List.length_singleton] at hp
    obtain ⟨t1, a1, a2, a3⟩ := Rem.prev (S := S ++ xs) (by simpa using h) (by omega)
    obtain ⟨m', t', b1, b2, b3⟩ := ih a2 (by omega) (fun i => if i = xs.length then x else m i)
    refine ⟨m', t', ?_, b2, ?_⟩
    · simp only [List.length_append, List.length_singleton, popDown, a1, Nat.add_sub_cancel]
      exact b1
    · intro i
      rw [b3 i]
      by_cases h1 : i < xs.length
      · rw [dif_pos h1, dif_pos (by simp; omega), List.getElem_append_left h1]
      · rw [dif_neg h1]
        by_cases h2 : i = xs.length
        · subst h2; simp
        · rw [if_neg h2, dif_neg (by simp; omega)]

/-- `get_taylors` restores a row that does not straddle a block boundary. -/
theorem getTaylors_spec (row : List V) {t0 t : TR V} {S : List V} (h : Rem t0 t (S ++ row))
    (hr : row ≠ []) (hp : row.length ≤ t.pos ∨ (t.pos = 0 ∧ row.length ≤ t.cap)) (m : Nat → V) :
    ∃ m' t', getTaylors row.length m t = some (m', t') ∧ Rem t0 t' S ∧
      ∀ i, m' i = if h : i < row.length then row[i] else m i := by
  have hl : 0 < row.length := List.length_pos_iff.2 hr
  rcases hp with hp | ⟨hp, hc⟩
  · obtain ⟨m', t', a1, a2, a3⟩ := popDown_spec row h hp m
    exact ⟨m', t', by simp only [getTaylors, getTaylorsLoop]; rw [if_neg (by omega)]; exact a1, a2, a3⟩
  · obtain ⟨t1, b1, b2, b3⟩ := h.block hp (by simp [hr])
    obtain ⟨m', t', a1, a2, a3⟩ := popDown_spec row b2 (by omega) m
    refine ⟨m', t', ?_, a2, a3⟩
    simp only [getTaylors, getTaylorsLoop]
    rw [if_pos (by omega), hp]
    simp only [List.take_zero, List.reverse_nil, storeDown, b1, Nat.sub_zero]
    rw [if_neg (by omega)]
    exact a1

theorem popTay_spec (xs : List V) (T : Nat) (hT : xs.length ≤ T) {t0 t : TR V} {S : List V} (h : Rem t0 t (S ++ xs)) (m : Nat → V) :
    ∃ m' t', popTay xs.length T m t = some (m', t') ∧ Rem t0 t' S ∧
      ∀ i, m' i = if h : T - xs.length ≤ i ∧ i < T then xs[i - (T - xs.length)]'(by omega) else m i := by
  induction xs using List.reverseRecOn generalizing t m T with
  | nil => exact ⟨m, t, rfl, by simpa using h, by simp⟩
  | append_singleton xs x ih =>
    simp only [List.length_append, List.length_singleton] at hT
    obtain ⟨t1, a1, a2⟩ := Rem.get (S := S ++ xs) (by simpa using h)
    obtain ⟨m', t', b1, b2, b3⟩ := ih (T - 1) (by omega) a2 (fun i => if i = T - 1 then x else m i)
    refine ⟨m', t', ?_, b2, ?_⟩
    · simp only [List.length_append, List.length_singleton, popTay, a1]; exact b1
    · intro i
      rw [b3 i]
      simp only [List.length_append, List.length_singleton]
      by_cases h1 : T - 1 - xs.length ≤ i ∧ i < T - 1
      · rw [dif_pos h1, dif_pos (by omega), List.getElem_append_left (by omega)]
        congr 1; omega
      · rw [dif_neg h1]
        by_cases h2 : i = T - 1
        · subst h2
          rw [if_pos rfl, dif_pos (by omega), List.getElem_append_right (by omega)]
          simp
        · rw [if_neg h2, dif_neg (by omega)]

/-- Directions are restored one after the other. -/
theorem popDirs_spec (deg : Nat) (hd : 1 ≤ deg) (rows : List (List V)) (hrow : ∀ r ∈ rows, r.length = deg - 1)
    {t0 t : TR V} {S : List V} (h : Rem t0 t (S ++ rows.flatten)) (m : Nat → V) :
    ∃ m' t', popDirs deg rows.length (deg * rows.length) m t = some (m', t') ∧ Rem t0 t' S ∧
      (∀ j (hj : j < rows.length) i (hi : i < deg - 1), m' (j * deg + 1 + i) = (rows[j])[i]'(by rw [hrow _ (by simp)]; exact hi)) ∧
      ∀ l, (deg * rows.length ≤ l ∨ l % deg = 0) → m' l = m l := by
  induction rows using List.reverseRecOn generalizing t m with
  | nil => exact ⟨m, t, rfl, by simpa using h, by simp, by simp⟩
  | append_singleton rows r ih =>
    have hr : r.length = deg - 1 := hrow r (by simp)
    obtain ⟨m1, t1, a1, a2, a3⟩ := popTay_spec r (deg * (rows.length + 1)) (by rw [hr, Nat.mul_add]; omega) (S := S ++ rows.flatten) (by simpa using h) m
    obtain ⟨m2, t2, b1, b2, b3, b4⟩ := ih (fun q hq => hrow q (by simp [hq])) a2 m1
    have e1 : deg * (rows.length + 1) - (deg - 1) = deg * rows.length + 1 := by
      rw [Nat.mul_add, Nat.mul_one]; omega
    refine ⟨m2, t2, ?_, b2, ?_, ?_⟩
    · simp only [List.length_append, List.length_singleton, popDirs]
      rw [hr] at a1; rw [a1]
      simp only
      rw [e1, Nat.add_sub_cancel]; exact b1
    · intro j hj i hi
      simp only [List.length_append, List.length_singleton] at hj
      by_cases h1 : j < rows.length
      · rw [b3 j h1 i hi]; simp [List.getElem_append_left h1]
      · have hje : j = rows.length := by omega
        subst hje
        rw [b4 _ (.inl (by rw [Nat.mul_comm]; omega)), a3]
        rw [dif_pos (by rw [hr, e1, Nat.mul_add, Nat.mul_comm rows.length]; omega)]
        simp only [List.getElem_append_right (Nat.le_refl _), Nat.sub_self, List.getElem_cons_zero]
        congr 1
        rw [hr, e1, Nat.mul_comm rows.length]; omega
    · intro l hl
      simp only [List.length_append, List.length_singleton] at hl
      rw [b4 l (by rcases hl with h | h; left; rw [Nat.mul_add] at h; omega; right; exact h), a3]
      rw [dif_neg]
      rintro ⟨g1, g2⟩
      rw [hr, e1] at g1
      rcases hl with h | h
      · omega
      · have : l = deg * rows.length + (l - deg * rows.length) := by omega
        rw [this, Nat.mul_add_mod, Nat.mod_eq_of_lt (by rw [Nat.mul_add] at g2; omega)] at h
        omega

/-- `get_taylors_p` restores the coefficients of all directions, also across blocks. -/
theorem getTaylorsP_spec (deg : Nat) (hd : 1 ≤ deg) (x : V) (rows : List (List V))
    (hrow : ∀ r ∈ rows, r.length = deg - 1) {t0 t : TR V} {S : List V}
    (h : Rem t0 t (S ++ x :: rows.flatten)) (m : Nat → V) :
    ∃ m' t', getTaylorsP deg rows.length m t = some (m', t') ∧ Rem t0 t' S ∧
      (∀ j (hj : j < rows.length), m' (j * deg) = x ∧
        ∀ i (hi : i < deg - 1), m' (j * deg + 1 + i) = (rows[j])[i]'(by rw [hrow _ (by simp)]; exact hi)) ∧
      ∀ l, deg * rows.length ≤ l → m' l = m l := by
  obtain ⟨m1, t1, a1, a2, a3, a4⟩ := popDirs_spec deg hd rows hrow (S := S ++ [x]) (by simpa using h) m
  obtain ⟨t2, b1, b2⟩ := a2.get
  refine ⟨fun i => if i % deg = 0 ∧ i < deg * rows.length then x else m1 i, t2, by simp only [getTaylorsP, a1, b1], b2, ?_, ?_⟩
  · intro j hj
    have hlt : j * deg < deg * rows.length := by rw [Nat.mul_comm]; exact Nat.mul_lt_mul_of_pos_left hj (by omega)
    refine ⟨by simp [hlt], ?_⟩
    intro i hi
    simp only
    rw [if_neg]
    · exact a3 j hj i hi
    · rintro ⟨g1, _⟩
      rw [show j * deg + 1 + i = deg * j + (1 + i) by rw [Nat.mul_comm]; omega, Nat.mul_add_mod,
        Nat.mod_eq_of_lt (by omega)] at g1
      omega
  · intro l hl
    simp only
    rw [if_neg (by omega)]
    exact a4 l (.inl hl)

end Verif.IO
