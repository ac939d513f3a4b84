import Verif.StoreBlock

/-! Helper lemmas for the block location manager. -/
namespace Verif.StoreBlock

/-- The locations contained in a free list. -/
def locs (fl : List Blk) : List Nat := fl.flatMap (fun b => List.range' b.next b.size)

@[simp] theorem locs_nil : locs [] = [] := rfl
@[simp] theorem locs_cons (b : Blk) (bs : List Blk) :
    locs (b :: bs) = List.range' b.next b.size ++ locs bs := by simp [locs]

/-- Invariant: free locations and live locations together are exactly
`0 .. maxsize-1`, each once; no empty block; the counter counts the live ones. -/
structure Inv {α : Type} (s : SM α) (live : List Nat) : Prop where
  perm : (locs s.free ++ live).Perm (List.range s.maxsize)
  nonempty : ∀ b ∈ s.free, 0 < b.size
  fill : s.fill = live.length
  grown : s.maxsize ≠ 0 → s.free ≠ []

theorem growLoop_spec (old minGrow m : Nat) (hm : 0 < m) :
    m ≤ growLoop old minGrow m ∧ minGrow ≤ growLoop old minGrow m - old := by
  fun_induction growLoop old minGrow m with
  | case1 m h ih => have := ih (by omega); omega
  | case2 m h => omega

theorem growTarget_spec (old minGrow : Nat) :
    old < growTarget old minGrow ∧ minGrow ≤ growTarget old minGrow - old := by
  unfold growTarget initialSize
  split
  · have := growLoop_spec old minGrow 4 (by omega); omega
  · have := growLoop_spec old minGrow (old * 2) (by omega); omega

theorem locs_extractTail {old : Nat} {fl : List Blk} {b : Blk} {rest : List Blk}
    (h : extractTail old fl = some (b, rest)) :
    fl.Perm (b :: rest) ∧ b.next + b.size = old := by
  induction fl generalizing b rest with
  | nil => simp [extractTail] at h
  | cons c cs ih =>
    unfold extractTail at h
    split at h
    · simp at h; obtain ⟨rfl, rfl⟩ := h; exact ⟨.refl _, ‹_›⟩
    · split at h
      · simp at h
      · next d ds hd =>
        simp at h; obtain ⟨rfl, rfl⟩ := h
        obtain ⟨hp, he⟩ := ih hd
        exact ⟨(hp.cons c).trans (.swap _ _ _), he⟩

theorem extractFit_spec {n : Nat} {fl : List Blk} {b : Blk} {rest : List Blk}
    (h : extractFit n fl = some (b, rest)) :
    fl.Perm (b :: rest) ∧ n ≤ b.size := by
  induction fl generalizing b rest with
  | nil => simp [extractFit] at h
  | cons c cs ih =>
    unfold extractFit at h
    split at h
    · simp at h; obtain ⟨rfl, rfl⟩ := h; exact ⟨.refl _, ‹_›⟩
    · split at h
      · simp at h
      · next d ds hd =>
        simp at h; obtain ⟨rfl, rfl⟩ := h
        obtain ⟨hp, he⟩ := ih hd
        exact ⟨(hp.cons c).trans (.swap _ _ _), he⟩

theorem locs_perm {a b : List Blk} (h : a.Perm b) : (locs a).Perm (locs b) := by
  induction h with
  | nil => exact .refl _
  | cons x _ ih => simpa using ih.append_left _
  | swap x y l =>
    simp only [locs_cons, ← List.append_assoc]
    exact List.perm_append_comm.append_right _
  | trans _ _ h1 h2 => exact h1.trans h2

theorem locs_dropEmpty (fl : List Blk) : locs (dropEmpty fl) = locs fl := by
  induction fl with
  | nil => rfl
  | cons b bs ih =>
    unfold dropEmpty
    split
    · next h => simp [ih, h]
    · simp [ih]

theorem mem_dropEmpty {fl : List Blk} {b : Blk} (h : b ∈ dropEmpty fl) : 0 < b.size := by
  induction fl with
  | nil => simp [dropEmpty] at h
  | cons c cs ih =>
    unfold dropEmpty at h
    split at h
    · exact ih h
    · rcases List.mem_cons.1 h with rfl | h
      · omega
      · exact ih h

/-- The free list after growth starts with a block containing all the new space. -/
theorem grow_head {α : Type} [Zero α] (s : SM α) (minGrow : Nat) :
    ∃ b rest, (s.grow minGrow).free = b :: rest ∧ 0 < b.size ∧ minGrow ≤ b.size := by
  have ht := growTarget_spec s.maxsize minGrow
  unfold SM.grow
  simp only
  split
  · next b rest _ =>
    refine ⟨_, dropEmpty rest, by rw [dropEmpty, if_neg]; simp; omega, ?_, ?_⟩ <;> simp <;> omega
  · refine ⟨_, dropEmpty s.free, by rw [dropEmpty, if_neg]; simp; omega, ?_, ?_⟩ <;> simp <;> omega

theorem range_append (a b : Nat) (h : a ≤ b) :
    List.range b = List.range a ++ List.range' a (b - a) := by
  rw [List.range_eq_range', List.range_eq_range']
  rw [show b = a + (b - a) by omega, ← List.range'_append_1]
  simp

theorem grow_locs {α : Type} [Zero α] (s : SM α) (minGrow : Nat) :
    (locs (s.grow minGrow).free).Perm
      (locs s.free ++ List.range' s.maxsize ((s.grow minGrow).maxsize - s.maxsize)) := by
  have ht := growTarget_spec s.maxsize minGrow
  unfold SM.grow
  simp only [locs_dropEmpty]
  split
  · next b rest hx =>
    obtain ⟨hp, he⟩ := locs_extractTail hx
    have := locs_perm hp
    simp only [locs_cons] at this ⊢
    rw [← List.range'_append_1, he]
    refine List.Perm.trans ?_ (this.symm.append_right _)
    simp only [List.append_assoc]
    exact (List.perm_append_comm).append_left _
  · simp only [locs_cons]
    exact List.perm_append_comm

theorem grow_maxsize {α : Type} [Zero α] (s : SM α) (n : Nat) :
    s.maxsize < (s.grow n).maxsize := (growTarget_spec s.maxsize n).1

/-- `grow` keeps a weak form of the invariant (which tolerates an empty block). -/
theorem grow_inv {α : Type} [Zero α] (s : SM α) (n : Nat) (live : List Nat)
    (hp : (locs s.free ++ live).Perm (List.range s.maxsize)) (hf : s.fill = live.length) :
    Inv (s.grow n) live where
  perm := by
    have h1 := grow_locs s n
    rw [range_append _ _ (Nat.le_of_lt (grow_maxsize s n))]
    refine (h1.append_right live).trans ?_
    rw [List.append_assoc]
    refine ((List.perm_append_comm).append_left _).trans ?_
    rw [← List.append_assoc]
    exact hp.append_right _
  nonempty := by
    intro b hb
    exact mem_dropEmpty (by simpa [SM.grow] using hb)
  fill := hf
  grown := by
    obtain ⟨b, r, h, _⟩ := grow_head s n
    simp [h]

theorem nextLoc_spec {α : Type} [Zero α] {s : SM α} {live : List Nat} (h : Inv s live) :
    ∃ loc s', s.nextLoc = some (loc, s') ∧ Inv s' (loc :: live) ∧ loc ∉ live ∧
      loc < s'.maxsize ∧ s.maxsize ≤ s'.maxsize ∧
      (∀ i < s.maxsize, s'.store i = s.store i) ∧ s'.gc = s.gc ∧
      (∀ b rest, s.free = b :: rest → loc = b.next ∧
        (2 ≤ b.size → s'.free = { next := b.next + 1, size := b.size - 1 } :: rest)) := by
  -- first normalise the possible initial growth
  have key : ∀ s1 : SM α, Inv s1 live → s1.free ≠ [] → s.maxsize ≤ s1.maxsize →
      (∀ i < s.maxsize, s1.store i = s.store i) → s1.gc = s.gc →
      (∀ b rest, s.free = b :: rest → s1 = s) →
      s1 = (if s.free.isEmpty then s.grow 0 else s) →
      ∃ loc s', s.nextLoc = some (loc, s') ∧ Inv s' (loc :: live) ∧ loc ∉ live ∧
      loc < s'.maxsize ∧ s.maxsize ≤ s'.maxsize ∧
      (∀ i < s.maxsize, s'.store i = s.store i) ∧ s'.gc = s.gc ∧
      (∀ b rest, s.free = b :: rest → loc = b.next ∧
        (2 ≤ b.size → s'.free = { next := b.next + 1, size := b.size - 1 } :: rest)) := by
    intro s1 h1 hne hmx hst hgc hsame hs1
    unfold SM.nextLoc
    simp only [← hs1]
    obtain ⟨b, rest, hfree⟩ : ∃ b rest, s1.free = b :: rest := by
      cases hh : s1.free with
      | nil => exact absurd hh hne
      | cons b r => exact ⟨b, r, rfl⟩
    simp only [hfree]
    have hb : 0 < b.size := h1.nonempty b (by simp [hfree])
    have hperm := h1.perm
    rw [hfree, locs_cons, show b.size = (b.size - 1) + 1 by omega, List.range'_succ] at hperm
    -- hperm : b.next :: range' (b.next+1) (size-1) ++ locs rest ++ live ~ range
    have hnotin : b.next ∉ live := by
      have hnd : ((b.next :: (List.range' (b.next + 1) (b.size - 1)) ++ locs rest) ++ live).Nodup :=
        hperm.nodup_iff.2 List.nodup_range
      intro hc
      exact (List.nodup_append.1 hnd).2.2 b.next (by simp) _ hc rfl
    have hlt : b.next < s1.maxsize := by
      have : b.next ∈ List.range s1.maxsize := hperm.subset (by simp)
      simpa using this
    have hperm' : ((List.range' (b.next + 1) (b.size - 1) ++ locs rest) ++ (b.next :: live)).Perm
        (List.range s1.maxsize) := by
      refine List.Perm.trans ?_ hperm
      simp only [List.cons_append]
      exact List.perm_middle
    split
    · next hz =>
      split
      · next hre =>
        have hre' : rest = [] := by simpa using hre
        subst hre'
        refine ⟨_, _, rfl, ?_, hnotin, ?_, ?_, ?_, ?_, ?_⟩
        · have hg := grow_inv ({ s1 with free := [{ next := b.next + 1, size := 0 }], fill := s1.fill + 1 })
            0 (b.next :: live) (by simpa [hz] using hperm') (by simp [h1.fill])
          exact ⟨hg.perm, hg.nonempty, by simp [SM.grow, h1.fill], hg.grown⟩
        · exact Nat.lt_trans hlt (grow_maxsize { s1 with free := [_] } 0)
        · exact Nat.le_trans hmx (Nat.le_of_lt (grow_maxsize { s1 with free := [_] } 0))
        · intro i hi
          have : i < s1.maxsize := by omega
          simp [SM.grow, this, hst i hi]
        · simpa [SM.grow] using hgc
        · intro b' r' hb'
          have := hsame b' r' hb'
          subst this
          rw [hfree] at hb'
          simp at hb'
          obtain ⟨rfl, rfl⟩ := hb'
          exact ⟨rfl, by omega⟩
      · next hre =>
        refine ⟨_, _, rfl, ?_, hnotin, hlt, hmx, hst, hgc, ?_⟩
        · refine ⟨by simpa [hz] using hperm', ?_, by simp [h1.fill], ?_⟩
          · intro c hc; exact h1.nonempty c (by rw [hfree]; simp at hc; simp [hc])
          · intro _ hc; simp at hre; exact hre hc
        · intro b' r' hb'
          have := hsame b' r' hb'
          subst this
          rw [hfree] at hb'
          simp at hb'
          obtain ⟨rfl, rfl⟩ := hb'
          exact ⟨rfl, by omega⟩
    · next hz =>
      refine ⟨_, _, rfl, ?_, hnotin, hlt, hmx, hst, hgc, ?_⟩
      · refine ⟨by simpa using hperm', ?_, by simp [h1.fill], by simp⟩
        intro c hc
        simp at hc
        rcases hc with rfl | hc
        · simp; omega
        · exact h1.nonempty c (by rw [hfree]; simp [hc])
      · intro b' r' hb'
        have := hsame b' r' hb'
        subst this
        rw [hfree] at hb'
        simp at hb'
        obtain ⟨rfl, rfl⟩ := hb'
        exact ⟨rfl, fun _ => rfl⟩
  by_cases hemp : s.free = []
  · have hm0 : s.maxsize = 0 := by
      by_cases hm : s.maxsize = 0
      · exact hm
      · exact absurd hemp (h.grown hm)
    refine key (s.grow 0) (grow_inv s 0 live h.perm h.fill) ?_ (by omega) (by intro i hi; omega)
      rfl (by intro b r hh; simp [hemp] at hh) (by simp [hemp])
    obtain ⟨b, r, hh, _⟩ := grow_head s 0
    simp [hh]
  · exact key s h hemp (Nat.le_refl _) (fun _ _ => rfl) rfl (fun _ _ _ => rfl) (by simp [hemp])

theorem freeLoc_spec {α : Type} {s : SM α} {live : List Nat} (h : Inv s live) {loc : Nat}
    (hl : loc ∈ live) :
    ∃ s', s.freeLoc loc = some s' ∧ Inv s' (live.erase loc) ∧ s'.maxsize = s.maxsize ∧
      s'.store = s.store ∧ s'.gc = s.gc := by
  have hlt : loc < s.maxsize := by
    have : loc ∈ List.range s.maxsize := h.perm.subset (by simp [hl])
    simpa using this
  obtain ⟨b, rest, hfree⟩ : ∃ b rest, s.free = b :: rest := by
    cases hh : s.free with
    | nil => exact absurd hh (h.grown (by omega))
    | cons b r => exact ⟨b, r, rfl⟩
  have hb : 0 < b.size := h.nonempty b (by simp [hfree])
  have hlen : live.length - 1 = (live.erase loc).length := by
    rw [List.length_erase_of_mem hl]
  have hperm : (loc :: locs s.free ++ live.erase loc).Perm (List.range s.maxsize) := by
    refine List.Perm.trans ?_ h.perm
    refine List.Perm.trans (List.perm_middle.symm) ?_
    exact (List.perm_cons_erase hl).symm.append_left _
  have hpos : 0 < live.length := List.length_pos_of_mem hl
  unfold SM.freeLoc
  rw [if_neg (by omega), hfree]
  simp only
  split
  · next hc =>
    refine ⟨_, rfl, ⟨?_, ?_, by simp [h.fill, hlen], by simp⟩, rfl, rfl, rfl⟩
    · refine List.Perm.trans ?_ hperm
      apply List.Perm.append_right
      rw [hfree]
      simp only [locs_cons]
      by_cases h1 : loc + 1 = b.next
      · simp only [h1, if_true, List.range'_succ]
        exact List.Perm.refl _
      · have h2 : b.next + b.size = loc := by rcases hc with h | h; exact absurd h h1; exact h
        simp only [h1, if_false, List.range'_concat, Nat.one_mul, h2, ← List.cons_append]
        exact (List.perm_append_comm (l₁ := List.range' b.next b.size) (l₂ := [loc])).append_right _
    · intro c hc'
      simp at hc'
      rcases hc' with rfl | hc'
      · simp
      · exact h.nonempty c (by simp [hfree, hc'])
  · refine ⟨_, rfl, ⟨?_, ?_, by simp [h.fill, hlen], by simp⟩, rfl, rfl, rfl⟩
    · simpa [hfree] using hperm
    · intro c hc'
      simp at hc'
      rcases hc' with rfl | rfl | hc'
      · simp
      · exact hb
      · exact h.nonempty c (by simp [hfree, hc'])

theorem locs_mergeAdj (cur : Blk) (bs : List Blk) :
    locs (mergeAdj cur bs) = List.range' cur.next cur.size ++ locs bs := by
  induction bs generalizing cur with
  | nil => simp [mergeAdj]
  | cons b bs ih =>
    unfold mergeAdj
    split
    · next h => rw [ih]; simp [← List.range'_append_1, h]
    · simp [ih]

theorem mergeAdj_pos (cur : Blk) (bs : List Blk) (hc : 0 < cur.size) (h : ∀ b ∈ bs, 0 < b.size) :
    ∀ b ∈ mergeAdj cur bs, 0 < b.size := by
  induction bs generalizing cur with
  | nil => simpa [mergeAdj] using hc
  | cons b bs ih =>
    unfold mergeAdj
    split
    · exact ih _ (by simp; omega) (fun c hc => h c (by simp [hc]))
    · intro c hcm
      rcases List.mem_cons.1 hcm with rfl | hcm
      · exact hc
      · exact ih b (h b (by simp)) (fun c hc => h c (by simp [hc])) c hcm

theorem mergeAdj_ne_nil (cur : Blk) (bs : List Blk) : mergeAdj cur bs ≠ [] := by
  induction bs generalizing cur with
  | nil => simp [mergeAdj]
  | cons b bs ih => unfold mergeAdj; split <;> simp [ih]

theorem consolidate_spec (fl : List Blk) (h : ∀ b ∈ fl, 0 < b.size) :
    (locs (consolidate fl)).Perm (locs fl) ∧ (∀ b ∈ consolidate fl, 0 < b.size) ∧
      (fl ≠ [] → consolidate fl ≠ []) := by
  unfold consolidate
  have hp := List.mergeSort_perm fl (fun a b => decide (a.next ≤ b.next))
  split
  · next he =>
    rw [he] at hp
    have := hp.nil_eq
    subst this
    simp
  · next b bs he =>
    rw [he] at hp
    refine ⟨?_, ?_, fun _ => mergeAdj_ne_nil _ _⟩
    · rw [locs_mergeAdj, ← locs_cons]; exact locs_perm hp
    · refine mergeAdj_pos b bs (h b (hp.subset (by simp))) (fun c hc => h c (hp.subset (by simp [hc])))

theorem ensureBlock_spec {α : Type} [Zero α] {s : SM α} {live : List Nat} (h : Inv s live) (n : Nat) :
    ∃ s', s.ensureBlock n = some s' ∧ Inv s' live ∧ s.maxsize ≤ s'.maxsize ∧
      (∀ i < s.maxsize, s'.store i = s.store i) ∧ s'.gc = s.gc ∧
      ∃ b rest, s'.free = b :: rest ∧ n ≤ b.size := by
  have growcase : ∀ s1 : SM α, Inv s1 live → s1.maxsize = s.maxsize → s1.store = s.store →
      s1.gc = s.gc →
      Inv (s1.grow n) live ∧ s.maxsize ≤ (s1.grow n).maxsize ∧
      (∀ i < s.maxsize, (s1.grow n).store i = s.store i) ∧ (s1.grow n).gc = s.gc ∧
      ∃ b rest, (s1.grow n).free = b :: rest ∧ n ≤ b.size := by
    intro s1 h1 hm hs hg
    refine ⟨grow_inv s1 n live h1.perm h1.fill, ?_, ?_, hg, ?_⟩
    · have := grow_maxsize s1 n; omega
    · intro i hi
      have : i < s1.maxsize := by omega
      simp [SM.grow, this, hs]
    · obtain ⟨b, r, hh, _, hn⟩ := grow_head s1 n
      exact ⟨b, r, hh, hn⟩
  unfold SM.ensureBlock
  split
  · next hgt =>
    obtain ⟨b, rest, hfree⟩ : ∃ b rest, s.free = b :: rest := by
      cases hh : s.free with
      | nil => exact absurd hh (h.grown (by omega))
      | cons b r => exact ⟨b, r, rfl⟩
    rw [hfree]
    simp only
    split
    · next hn => exact ⟨s, rfl, h, Nat.le_refl _, fun _ _ => rfl, rfl, b, rest, hfree, hn⟩
    · split
      · obtain ⟨hc1, hc2, hc3⟩ := consolidate_spec s.free h.nonempty
        rw [hfree] at hc1 hc2 hc3
        have hinv : Inv { s with free := consolidate (b :: rest) } live := by
          refine ⟨?_, hc2, h.fill, fun _ => hc3 (by simp)⟩
          refine List.Perm.trans ?_ h.perm
          simpa [hfree] using hc1.append_right live
        split
        · next c cs hx =>
          obtain ⟨hp, hn⟩ := extractFit_spec hx
          refine ⟨_, rfl, ⟨?_, ?_, h.fill, by simp⟩, Nat.le_refl _, fun _ _ => rfl, rfl, c, cs, rfl, hn⟩
          · exact ((locs_perm hp).symm.append_right live).trans hinv.perm
          · intro d hd
            exact hinv.nonempty d (hp.symm.subset hd)
        · exact ⟨_, rfl, growcase _ hinv rfl rfl rfl⟩
      · exact ⟨_, rfl, growcase s h rfl rfl rfl⟩
  · exact ⟨_, rfl, growcase s h rfl rfl rfl⟩

theorem init_inv {α : Type} [Zero α] (gc : Nat → Nat → Bool) : Inv (SM.init (α := α) gc) [] :=
  ⟨by simp [SM.init], by simp [SM.init], rfl, by simp [SM.init]⟩

end Verif.StoreBlock
