import Verif.StoreSingle

/-! Helper lemmas for the singleton location manager. -/
namespace Verif.StoreSingle

/-- `Path nxt h l`: following `nxt` from `h` visits exactly the nonzero entries `l`, then 0. -/
def Path (nxt : Nat → Nat) : Nat → List Nat → Prop
  | h, [] => h = 0
  | h, x :: l => h = x ∧ x ≠ 0 ∧ Path nxt (nxt x) l

theorem Path.congr {f g : Nat → Nat} {h : Nat} {l : List Nat} (hp : Path f h l)
    (he : ∀ x ∈ l, f x = g x) : Path g h l := by
  induction l generalizing h with
  | nil => exact hp
  | cons x l ih =>
    obtain ⟨h1, h2, h3⟩ := hp
    refine ⟨h1, h2, ?_⟩
    rw [← he x (by simp)]
    exact ih h3 (fun y hy => he y (by simp [hy]))

/-- Invariant: the free list visits every location of `1 .. maxsize-1` that is not live, once. -/
structure Inv {α : Type} (s : SM α) (live fl : List Nat) : Prop where
  path : Path s.indexFree s.head fl
  perm : (fl ++ live).Perm (List.range' 1 (s.maxsize - 1))
  fill : s.fill = live.length
  sz : s.maxsize = 0 ∨ 8 ≤ s.maxsize

theorem path_range (f : Nat → Nat) (a n : Nat) (ha : 0 < a) (hn : 0 < n)
    (h1 : ∀ j, a ≤ j → j + 1 < a + n → f j = j + 1) (h2 : f (a + n - 1) = 0) :
    Path f a (List.range' a n) := by
  induction n generalizing a with
  | zero => omega
  | succ n ih =>
    rw [List.range'_succ]
    refine ⟨rfl, by omega, ?_⟩
    by_cases hn0 : n = 0
    · subst hn0; simp [Path]; simpa using h2
    · rw [h1 a (Nat.le_refl _) (by omega)]
      refine ih (a + 1) (by omega) (by omega) (fun j hj hj2 => h1 j (by omega) (by omega)) ?_
      rw [← h2]; congr 1; omega

theorem grow_inv {α : Type} (junk : Nat → α) {s : SM α} {live : List Nat} (h : Inv s live []) :
    ∃ fl, Inv (s.grow junk 0) live fl ∧ fl ≠ [] ∧ s.maxsize ≤ (s.grow junk 0).maxsize ∧
      (∀ i, 1 ≤ i → i < s.maxsize → (s.grow junk 0).store i = s.store i) := by
  by_cases hm : s.maxsize = 0
  · have hl : live = [] := by
      have := h.perm; simp [hm] at this; exact this
    subst hl
    have hsz : (s.grow junk 0).maxsize = 8 := by simp [SM.grow, hm, initialSize]
    refine ⟨List.range' 1 7, ⟨?_, by simp [hsz], h.fill, by omega⟩, by simp [List.range'], by omega, ?_⟩
    · have : (s.grow junk 0).head = 1 := by simp [SM.grow, hm, initialSize]
      rw [this]
      apply path_range <;> try omega
      · intro j h1 h2
        simp [SM.grow, hm, initialSize]
        rw [if_neg (by omega), if_pos (by omega)]
      · simp [SM.grow, hm, initialSize]
    · intro i _ hi; omega
  · have h8 : 8 ≤ s.maxsize := by rcases h.sz with h | h; exact absurd h hm; exact h
    have h4 : s.maxsize ≠ 4 := by omega
    have hsz : (s.grow junk 0).maxsize = s.maxsize * 2 := by simp [SM.grow, hm]
    have hperm := h.perm
    simp only [List.nil_append] at hperm
    refine ⟨List.range' s.maxsize s.maxsize, ⟨?_, ?_, h.fill, by omega⟩, ?_, by omega, ?_⟩
    · have : (s.grow junk 0).head = s.maxsize := by simp [SM.grow, hm, initialSize, h4]
      rw [this]
      apply path_range <;> try omega
      · intro j h1 h2
        simp [SM.grow, hm, initialSize]
        rw [if_neg (by omega), if_pos (by simp [h4]; omega)]
      · simp [SM.grow, hm, initialSize]; intro hc; omega
    · rw [hsz]
      refine (hperm.append_left _).trans ?_
      refine List.perm_append_comm.trans ?_
      rw [show s.maxsize * 2 - 1 = (s.maxsize - 1) + s.maxsize by omega, ← List.range'_append_1,
        show 1 + (s.maxsize - 1) = s.maxsize by omega]
    · intro hc
      have := congrArg List.length hc
      simp at this; omega
    · intro i h1 h2
      simp [SM.grow, hm, initialSize, h4]
      intro hc; omega

theorem nextLoc_spec {α : Type} (junk : Nat → α) {s : SM α} {live fl : List Nat} (h : Inv s live fl) :
    ∃ loc s' fl', s.nextLoc junk = some (loc, s') ∧ Inv s' (loc :: live) fl' ∧ loc ∉ live ∧
      0 < loc ∧ loc < s'.maxsize ∧ s.maxsize ≤ s'.maxsize ∧
      (∀ i, 1 ≤ i → i < s.maxsize → s'.store i = s.store i) ∧
      (fl ≠ [] → s'.maxsize = s.maxsize ∧ loc ∈ fl) := by
  have key : ∀ s1 : SM α, ∀ fl1, Inv s1 live fl1 → fl1 ≠ [] → s.maxsize ≤ s1.maxsize →
      (∀ i, 1 ≤ i → i < s.maxsize → s1.store i = s.store i) →
      (fl ≠ [] → s1.maxsize = s.maxsize ∧ fl1 = fl) →
      s1 = (if s.head = 0 then s.grow junk 0 else s) →
      ∃ loc s' fl', s.nextLoc junk = some (loc, s') ∧ Inv s' (loc :: live) fl' ∧ loc ∉ live ∧
      0 < loc ∧ loc < s'.maxsize ∧ s.maxsize ≤ s'.maxsize ∧
      (∀ i, 1 ≤ i → i < s.maxsize → s'.store i = s.store i) ∧
      (fl ≠ [] → s'.maxsize = s.maxsize ∧ loc ∈ fl) := by
    intro s1 fl1 h1 hne hmx hst hfl hs1
    cases fl1 with
    | nil => exact absurd rfl hne
    | cons x r =>
      obtain ⟨hp1, hp2, hp3⟩ := h1.path
      have hmem : x ∈ List.range' 1 (s1.maxsize - 1) := h1.perm.subset (by simp)
      simp only [List.mem_range'_1] at hmem
      have hnd := h1.perm.nodup_iff.2 List.nodup_range'
      have hnot : x ∉ live := by
        intro hc
        exact (List.nodup_append.1 hnd).2.2 x (by simp) _ hc rfl
      unfold SM.nextLoc
      simp only [← hs1]
      rw [if_neg (by rw [hp1]; exact hp2), if_neg (by rw [hp1]; omega)]
      refine ⟨_, _, r, rfl, ⟨?_, ?_, by simp [h1.fill], h1.sz⟩, by rw [hp1]; exact hnot,
        by rw [hp1]; omega, by rw [hp1]; simp; omega, hmx, hst, ?_⟩
      · simpa [hp1] using hp3
      · refine List.Perm.trans ?_ h1.perm
        rw [hp1]
        exact List.perm_middle
      · intro hh
        obtain ⟨ha, hb⟩ := hfl hh
        exact ⟨ha, by rw [hp1, ← hb]; simp⟩
  by_cases hh : s.head = 0
  · have hfl : fl = [] := by
      cases fl with
      | nil => rfl
      | cons x r => exact absurd (h.path.1.symm.trans hh) h.path.2.1
    subst hfl
    obtain ⟨fl', hi, hne, hmx, hst⟩ := grow_inv junk h
    exact key _ fl' hi hne hmx hst (by simp) (by simp [hh])
  · have hne : fl ≠ [] := by
      intro hc; subst hc; exact hh h.path
    exact key s fl h hne (Nat.le_refl _) (fun _ _ _ => rfl) (fun _ => ⟨rfl, rfl⟩) (by simp [hh])

theorem live_range {α : Type} {s : SM α} {live fl : List Nat} (h : Inv s live fl) {loc : Nat}
    (hl : loc ∈ live) : 0 < loc ∧ loc < s.maxsize := by
  have : loc ∈ List.range' 1 (s.maxsize - 1) := h.perm.subset (by simp [hl])
  simp only [List.mem_range'_1] at this
  omega

theorem freeLoc_spec {α : Type} {s : SM α} {live fl : List Nat} (h : Inv s live fl) {loc : Nat}
    (hl : loc ∈ live) :
    ∃ s', s.freeLoc loc = some s' ∧ Inv s' (live.erase loc) (loc :: fl) ∧ s'.maxsize = s.maxsize ∧
      s'.store = s.store := by
  have hr := live_range h hl
  unfold SM.freeLoc
  rw [if_pos hr]
  have hnd := h.perm.nodup_iff.2 List.nodup_range'
  have hnot : loc ∉ fl := by
    intro hc
    exact (List.nodup_append.1 hnd).2.2 loc hc _ hl rfl
  refine ⟨_, rfl, ⟨⟨rfl, by omega, ?_⟩, ?_, ?_, h.sz⟩, rfl, rfl⟩
  · simp only [if_true]
    exact h.path.congr (fun x hx => by
      rw [if_neg]; intro hc; subst hc; exact hnot hx)
  · refine List.Perm.trans ?_ h.perm
    refine List.Perm.trans (List.perm_middle.symm) ?_
    exact (List.perm_cons_erase hl).symm.append_left _
  · simp [h.fill, List.length_erase_of_mem hl]

theorem init_inv {α : Type} [Zero α] : Inv (SM.init (α := α)) [] [] :=
  ⟨rfl, by simp [SM.init], rfl, by simp [SM.init]⟩

end Verif.StoreSingle
