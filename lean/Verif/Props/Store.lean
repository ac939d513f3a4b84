import Verif.StoreClient

/-!
Property theorems C01–C04: locations of active variables.

A history is a list of events of a program (`Op`): construct / destroy / assign an `adouble`,
`ensureContiguousLocations(n)`, `setStoreManagerControl`.  `Legal` says only what the C++
object model guarantees: an object is constructed before use and destroyed once.  `spec ops`
is the independent specification (a map from variable names to last assigned value) and
`count ops` is constructions minus destructions.  `none` from `run` is undefined behaviour.
-/
namespace Verif.Props.Store
open Verif.StoreClient

/-- C01.  For every legal history and every GC policy the block manager is never driven into
undefined behaviour, and afterwards exactly the live variables own a location, two different
live variables never own the same one, and every owned location is inside the store. -/
theorem C01_no_aliasing {α : Type} [Zero α] (gc : Nat → Nat → Bool) (ops : List (Op α))
    (hl : Legal true (fun _ => none) ops) :
    ∃ c, run (block α gc) ops = some c ∧
      (∀ id, (c.loc id).isSome ↔ spec ops id ≠ none) ∧
      (∀ id id' l, c.loc id = some l → c.loc id' = some l → id = id') ∧
      (∀ id l, c.loc id = some l → l < c.st.maxsize) := by
  obtain ⟨c, h1, h2⟩ := sim_run (blockLaws α gc) ops (sim_init _) hl
  refine ⟨c, h1, ?_, ?_, ?_⟩
  · intro id
    rw [show spec ops id ≠ none ↔ _ from h2.dom id]
    constructor
    · intro h
      obtain ⟨l, hl⟩ := Option.isSome_iff_exists.1 h
      exact List.mem_map.2 ⟨_, mem_of_lookup hl, rfl⟩
    · intro h
      obtain ⟨l, hl, _⟩ := lookup_mem h
      simp [Client.loc, hl]
  · intro id id' l ha hb
    exact snd_unique h2.ndl (mem_of_lookup ha) (mem_of_lookup hb)
  · intro id l ha
    exact blockRange h2.inv (List.mem_map.2 ⟨_, mem_of_lookup ha, rfl⟩)

/-- A concrete history used in the non-vacuity examples. -/
def demo (b : Bool) : List (Op Int) :=
  [.new 1, .new 2, .set 1 5, .new 3, .del 2, .new 4, .set 4 7] ++
    (if b then [.ensure 6, .control (fun _ _ => true), .new 9, .ensure 3] else []) ++
    [.new 5, .new 6, .new 7, .set 3 8, .del 1]

example : Legal true (fun _ => none) (demo true) ∧ Legal false (fun _ => none) (demo false) ∧
    spec (demo true) 4 = some (some 7) ∧ count (demo true) = 6 := by
  refine ⟨?_, ?_, ?_, ?_⟩ <;> simp [demo, Legal, legal, specStep, spec, count]

/-- Constructing `n` variables with the given names, one after the other. -/
def news {α : Type} (ids : List Nat) : List (Op α) := ids.map .new

theorem consec_aux {α : Type} [Zero α] (gc : Nat → Nat → Bool) (ids : List Nat) :
    ∀ (c : Client (block α gc)) (live : List Nat), StoreBlock.Inv c.st live → ids.Nodup →
      ∀ b rest, c.st.free = b :: rest → ids.length ≤ b.size →
      ∃ c', (news ids).foldlM (step (block α gc)) c = some c' ∧
        (∀ id, id ∉ ids → c'.loc id = c.loc id) ∧
        ∀ k (hk : k < ids.length), c'.loc ids[k] = some (b.next + k) := by
  induction ids with
  | nil => intro c live hi _ b rest hb hs; exact ⟨c, rfl, fun _ _ => rfl, by simp⟩
  | cons id ids ih =>
    intro c live hi hnd b rest hb hs
    obtain ⟨l, s', h1, h2, _, _, _, _, _, h3⟩ := StoreBlock.nextLoc_spec hi
    obtain ⟨h4, h5⟩ := h3 b rest hb
    have hnd' := List.nodup_cons.1 hnd
    have hstep : step (block α gc) c (.new id) =
        some { st := s', env := (id, l) :: c.env } := by
      show ((StoreBlock.SM.nextLoc c.st).map _) = _
      rw [h1]; rfl
    by_cases hn : ids = []
    · subst hn
      refine ⟨_, by simp only [news, List.map_cons, List.map_nil, List.foldlM_cons, hstep]; rfl, ?_, ?_⟩
      · intro i hi'
        simp only [List.mem_singleton] at hi'
        simp only [Client.loc]
        rw [List.lookup_cons, show (i == id) = false from beq_false_of_ne hi']
      · intro k hk
        have : k = 0 := by simpa using hk
        subst this
        simp [Client.loc, h4]
    · have hlen : 1 ≤ ids.length := List.length_pos_iff.2 hn
      simp only [List.length_cons] at hs
      have h6 := h5 (by omega)
      obtain ⟨c', e1, e2, e3⟩ := ih { st := s', env := (id, l) :: c.env } _ h2 hnd'.2 _ _ h6 (by
        simp only; omega)
      refine ⟨c', ?_, ?_, ?_⟩
      · simp only [news, List.map_cons, List.foldlM_cons, hstep]
        exact e1
      · intro i hi'
        simp only [List.mem_cons, not_or] at hi'
        rw [e2 i hi'.2]
        simp only [Client.loc]
        rw [List.lookup_cons, show (i == id) = false from beq_false_of_ne hi'.1]
      · intro k hk
        cases k with
        | zero =>
          simp only [List.getElem_cons_zero]
          rw [e2 id hnd'.1]
          simp [Client.loc, h4]
        | succ k =>
          simp only [List.getElem_cons_succ]
          rw [e3 k (by simpa using hk)]
          simp only [Option.some.injEq]
          omega

/-- C02.  After any legal history followed by `ensureContiguousLocations(n)`, the next `n`
variables (with any distinct names) get consecutive locations, whatever the fragmentation,
the store size and the garbage-collection policy. -/
theorem C02_contiguous {α : Type} [Zero α] (gc : Nat → Nat → Bool) (ops : List (Op α))
    (hl : Legal true (fun _ => none) ops) (ids : List Nat) (hnd : ids.Nodup) (n : Nat)
    (hn : ids.length ≤ n) :
    ∃ c base, run (block α gc) (ops ++ [.ensure n] ++ ids.map .new) = some c ∧
      ∀ k (hk : k < ids.length), c.loc ids[k] = some (base + k) := by
  obtain ⟨c, h1, h2⟩ := sim_run (blockLaws α gc) ops (sim_init _) hl
  obtain ⟨s', e1, e2, _, _, _, b, rest, e3, e4⟩ := StoreBlock.ensureBlock_spec
    (show StoreBlock.Inv c.st _ from h2.inv) n
  obtain ⟨c', f1, _, f2⟩ := consec_aux gc ids { c with st := s' } _ e2 hnd b rest e3 (by omega)
  refine ⟨c', b.next, ?_, f2⟩
  unfold run
  rw [List.foldlM_append, List.foldlM_append]
  rw [show List.foldlM (step (block α gc)) _ ops = some c from h1]
  have hs : step (block α gc) c (.ensure n) = some { c with st := s' } := by
    show ((StoreBlock.SM.ensureBlock c.st n).map _) = _
    rw [e1]; rfl
  simp only [Option.bind_eq_bind, Option.bind_some, List.foldlM_cons, List.foldlM_nil, hs]
  exact f1

example : Legal true (fun _ => none) (demo true) ∧ [20, 21, 22, 23].Nodup ∧
    [20, 21, 22, 23].length ≤ 4 := by
  refine ⟨?_, by decide, by decide⟩; simp [demo, Legal, legal, specStep]

/-- C03, block manager.  Whatever happens to other variables (construction, destruction,
block requests, growth, consolidation) a live variable keeps the value last assigned to it, and
the reported number of live variables is exact. -/
theorem C03_values_and_accounting {α : Type} [Zero α] (gc : Nat → Nat → Bool) (ops : List (Op α))
    (hl : Legal true (fun _ => none) ops) :
    ∃ c, run (block α gc) ops = some c ∧
      (∀ id v, spec ops id = some (some v) → ∃ l, c.loc id = some l ∧ c.st.read l = some v) ∧
      (c.st.fill : Int) = count ops ∧ c.st.fill ≤ c.st.maxsize := by
  obtain ⟨c, h1, h2⟩ := sim_run (blockLaws α gc) ops (sim_init _) hl
  refine ⟨c, h1, ?_, ?_, ?_⟩
  · intro id v hv
    obtain ⟨l, hl, hm⟩ := lookup_mem ((h2.dom id).1 (by show spec ops id ≠ none; rw [hv]; simp))
    exact ⟨l, hl, h2.val id l v hm hv⟩
  · have := env_count (blockLaws α gc) ops (sim_init _) hl h1
    have hs := (blockLaws α gc).size _ _ h2.inv
    have hs' : c.st.fill = c.env.length := hs.trans (List.length_map _)
    rw [hs', this]; simp
  · have hs := h2.inv.fill
    have hp := (show StoreBlock.Inv c.st _ from h2.inv).perm.length_eq
    simp only [List.length_append, List.length_range] at hp
    have : c.st.fill = (c.env.map (·.2)).length := hs
    omega

/-- C03, singleton manager. -/
theorem C03_values_and_accounting_single {α : Type} [Zero α] (junk : Nat → α) (ops : List (Op α))
    (hl : Legal false (fun _ => none) ops) :
    ∃ c, run (single α junk) ops = some c ∧
      (∀ id v, spec ops id = some (some v) → ∃ l, c.loc id = some l ∧ c.st.read l = some v) ∧
      (c.st.fill : Int) = count ops := by
  obtain ⟨c, h1, h2⟩ := sim_run (singleLaws α junk) ops (sim_init _) hl
  refine ⟨c, h1, ?_, ?_⟩
  · intro id v hv
    obtain ⟨l, hl, hm⟩ := lookup_mem ((h2.dom id).1 (by show spec ops id ≠ none; rw [hv]; simp))
    exact ⟨l, hl, h2.val id l v hm hv⟩
  · have := env_count (singleLaws α junk) ops (sim_init _) hl h1
    have hs := (singleLaws α junk).size _ _ h2.inv
    have hs' : c.st.fill = c.env.length := hs.trans (List.length_map _)
    rw [hs', this]; simp

/-- C04.  Singleton manager: no undefined behaviour, locations of live variables are pairwise
different and strictly between 0 and the store size; and while fewer than `maxsize - 1`
variables are alive, constructing another one does not enlarge the store (free locations are
reused before the store grows). -/
theorem C04_singleton {α : Type} [Zero α] (junk : Nat → α) (ops : List (Op α))
    (hl : Legal false (fun _ => none) ops) :
    ∃ c, run (single α junk) ops = some c ∧
      (∀ id, (c.loc id).isSome ↔ spec ops id ≠ none) ∧
      (∀ id id' l, c.loc id = some l → c.loc id' = some l → id = id') ∧
      (∀ id l, c.loc id = some l → 0 < l ∧ l < c.st.maxsize) ∧
      (∀ id, spec ops id = none → ∃ c', step (single α junk) c (.new id) = some c' ∧
        (count ops < (c.st.maxsize : Int) - 1 → c'.st.maxsize = c.st.maxsize)) := by
  obtain ⟨c, h1, h2⟩ := sim_run (singleLaws α junk) ops (sim_init _) hl
  refine ⟨c, h1, ?_, ?_, ?_, ?_⟩
  · intro id
    rw [show spec ops id ≠ none ↔ _ from h2.dom id]
    constructor
    · intro h
      obtain ⟨l, hl⟩ := Option.isSome_iff_exists.1 h
      exact List.mem_map.2 ⟨_, mem_of_lookup hl, rfl⟩
    · intro h
      obtain ⟨l, hl, _⟩ := lookup_mem h
      simp [Client.loc, hl]
  · intro id id' l ha hb
    exact snd_unique h2.ndl (mem_of_lookup ha) (mem_of_lookup hb)
  · intro id l ha
    have := (singleLaws α junk).range _ _ l h2.inv (List.mem_map.2 ⟨_, mem_of_lookup ha, rfl⟩)
    exact this
  · intro id _
    obtain ⟨fl, hi⟩ := h2.inv
    obtain ⟨l, s', fl', g1, g2, g3, g4, g5, g6, g7, g8⟩ := StoreSingle.nextLoc_spec junk hi
    refine ⟨{ st := s', env := (id, l) :: c.env }, ?_, ?_⟩
    · show ((StoreSingle.SM.nextLoc junk c.st).map _) = _
      rw [g1]; rfl
    · intro hc
      have hcount := env_count (singleLaws α junk) ops (sim_init _) hl h1
      have hp := hi.perm.length_eq
      simp only [List.length_append, List.length_range', List.length_map] at hp
      refine (g8 ?_).1
      intro hfl
      subst hfl
      simp only [List.length_nil] at hp hcount
      omega

example : Legal false (fun _ => none) (demo false) ∧ spec (demo false) 9 = none ∧
    spec (demo false) 3 = some (some 8) := by
  refine ⟨?_, ?_, ?_⟩ <;> simp [demo, Legal, legal, specStep, spec]

end Verif.Props.Store
