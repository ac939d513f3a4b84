import Verif.StoreBlockProofs
import Verif.StoreSingleProofs

/-!
A client of a location manager: the life of `adouble` objects.
`tape_location` (ADOL-C/include/adolc/adtb_types.h:70-180) takes a location with `next_loc`
when an `adouble` is constructed and gives it back with `free_loc` when it is destroyed;
assignments write `store[loc]` (valuetape.h:462-465).  Variables are named by an identifier
chosen by the user; the program never uses an identifier that is not alive.
-/
namespace Verif.StoreClient

/-- The interface `StoreManager` (storemanager.h:80-113) plus reads and writes of the store. -/
structure Mgr (α : Type) where
  St : Type
  init : St
  alloc : St → Option (Nat × St)
  free : St → Nat → Option St
  ensure : St → Nat → Option St
  control : St → (Nat → Nat → Bool) → St
  write : St → Nat → α → Option St
  read : St → Nat → Option α
  size : St → Nat
  maxSize : St → Nat

/-- The block manager (the default one, globaltapevarscl.h:9-20), started with a given GC policy. -/
def block (α : Type) [Zero α] (gc : Nat → Nat → Bool) : Mgr α where
  St := StoreBlock.SM α
  init := StoreBlock.SM.init gc
  alloc := StoreBlock.SM.nextLoc
  free := StoreBlock.SM.freeLoc
  ensure := StoreBlock.SM.ensureBlock
  control := StoreBlock.SM.setControl
  write := StoreBlock.SM.write
  read := StoreBlock.SM.read
  size s := s.fill
  maxSize s := s.maxsize

/-- The singleton manager (chosen by `setStoreManagerType`, valuetape.h:435-446); `junk` is the
content of uninitialised memory. -/
def single (α : Type) [Zero α] (junk : Nat → α) : Mgr α where
  St := StoreSingle.SM α
  init := StoreSingle.SM.init
  alloc := StoreSingle.SM.nextLoc junk
  free := StoreSingle.SM.freeLoc
  ensure := StoreSingle.SM.ensureBlock
  control s _ := s
  write := StoreSingle.SM.write
  read := StoreSingle.SM.read
  size s := s.fill
  maxSize s := s.maxsize

/-- Events of a program using `adouble`s (identifiers are arbitrary numbers). -/
inductive Op (α : Type) where
  | new (id : Nat)                       -- construct adouble `id`
  | del (id : Nat)                       -- destroy it
  | set (id : Nat) (v : α)               -- assign a value
  | ensure (n : Nat)                     -- ensureContiguousLocations(n)
  | control (gc : Nat → Nat → Bool)      -- setStoreManagerControl

/-- Client state: manager state and the location of each live variable. -/
structure Client {α : Type} (M : Mgr α) where
  st : M.St
  env : List (Nat × Nat)

/-- Location of a variable. -/
def Client.loc {α : Type} {M : Mgr α} (c : Client M) (id : Nat) : Option Nat := c.env.lookup id

/-- One event; `none` = undefined behaviour or an exception. -/
def step {α : Type} (M : Mgr α) (c : Client M) : Op α → Option (Client M)
  | .new id => (M.alloc c.st).map fun (l, st) => { st := st, env := (id, l) :: c.env }
  | .del id => (c.loc id).bind fun l =>
      (M.free c.st l).map fun st => { st := st, env := c.env.filter (·.1 != id) }
  | .set id v => (c.loc id).bind fun l => (M.write c.st l v).map fun st => { c with st := st }
  | .ensure n => (M.ensure c.st n).map fun st => { c with st := st }
  | .control gc => some { c with st := M.control c.st gc }

/-- A whole history from the initial state. -/
def run {α : Type} (M : Mgr α) (ops : List (Op α)) : Option (Client M) :=
  ops.foldlM (step M) { st := M.init, env := [] }

/-! ### Independent specification: a set of named variables with values -/

/-- `none`: not alive; `some none`: alive, never assigned; `some (some v)`: last assigned `v`. -/
abbrev Spec (α : Type) := Nat → Option (Option α)

def specStep {α : Type} (s : Spec α) : Op α → Spec α
  | .new id => fun i => if i = id then some none else s i
  | .del id => fun i => if i = id then none else s i
  | .set id v => fun i => if i = id then some (some v) else s i
  | .ensure _ => s
  | .control _ => s

def spec {α : Type} (ops : List (Op α)) : Spec α := ops.foldl specStep (fun _ => none)

/-- What a C++ program can do: construct new objects, destroy / assign live ones.
`blocks = false` excludes `ensureContiguousLocations` (an exception with the singleton manager). -/
def legal {α : Type} (blocks : Bool) (s : Spec α) : Op α → Prop
  | .new id => s id = none
  | .del id => s id ≠ none
  | .set id _ => s id ≠ none
  | .ensure _ => blocks = true
  | .control _ => True

/-- Every prefix of the history is legal. -/
def Legal {α : Type} (blocks : Bool) : Spec α → List (Op α) → Prop
  | _, [] => True
  | s, op :: ops => legal blocks s op ∧ Legal blocks (specStep s op) ops

/-- Number of live variables: constructed minus destroyed. -/
def count {α : Type} : List (Op α) → Int
  | [] => 0
  | .new _ :: ops => count ops + 1
  | .del _ :: ops => count ops - 1
  | _ :: ops => count ops

/-! ### Generic refinement proof -/

/-- What is needed of a manager (proved for both managers below). -/
structure Laws {α : Type} (M : Mgr α) (blocks : Bool) where
  Inv : M.St → List Nat → Prop
  lo : Nat
  init : Inv M.init []
  perm : ∀ s l l', l.Perm l' → Inv s l → Inv s l'
  alloc : ∀ s live, Inv s live → ∃ l s', M.alloc s = some (l, s') ∧ Inv s' (l :: live) ∧ l ∉ live ∧
    ∀ i ∈ live, M.read s' i = M.read s i
  free : ∀ s live l, Inv s live → l ∈ live → ∃ s', M.free s l = some s' ∧ Inv s' (live.erase l) ∧
    ∀ i ∈ live, M.read s' i = M.read s i
  ensure : blocks = true → ∀ s live n, Inv s live → ∃ s', M.ensure s n = some s' ∧ Inv s' live ∧
    ∀ i ∈ live, M.read s' i = M.read s i
  control : ∀ s live gc, Inv s live → Inv (M.control s gc) live ∧
    ∀ i ∈ live, M.read (M.control s gc) i = M.read s i
  write : ∀ s live l v, Inv s live → l ∈ live → ∃ s', M.write s l v = some s' ∧ Inv s' live ∧
    (∀ i ∈ live, M.read s' i = if i = l then some v else M.read s i)
  range : ∀ s live l, Inv s live → l ∈ live → lo ≤ l ∧ l < M.maxSize s
  size : ∀ s live, Inv s live → M.size s = live.length

/-- Simulation relation between the client and the specification. -/
structure Sim {α : Type} {M : Mgr α} {b : Bool} (L : Laws M b) (c : Client M) (s : Spec α) : Prop where
  inv : L.Inv c.st (c.env.map (·.2))
  ndl : (c.env.map (·.2)).Nodup
  ndi : (c.env.map (·.1)).Nodup
  dom : ∀ id, s id ≠ none ↔ id ∈ c.env.map (·.1)
  val : ∀ id l v, (id, l) ∈ c.env → s id = some (some v) → M.read c.st l = some v

theorem lookup_mem {e : List (Nat × Nat)} {id : Nat} (h : id ∈ e.map (·.1)) :
    ∃ l, e.lookup id = some l ∧ (id, l) ∈ e := by
  induction e with
  | nil => simp at h
  | cons p e ih =>
    obtain ⟨a, b⟩ := p
    by_cases ha : id = a
    · subst ha; exact ⟨b, by simp [List.lookup], by simp⟩
    · simp [ha] at h
      obtain ⟨l, h1, h2⟩ := ih (by simpa using h)
      refine ⟨l, ?_, by simp [h2]⟩
      rw [List.lookup_cons, show (id == a) = false from beq_false_of_ne ha]; exact h1

theorem mem_of_lookup {e : List (Nat × Nat)} {id l : Nat} (h : e.lookup id = some l) : (id, l) ∈ e := by
  induction e with
  | nil => simp at h
  | cons p e ih =>
    obtain ⟨a, b⟩ := p
    by_cases ha : id = a
    · subst ha; simp [List.lookup_cons] at h; simp [h]
    · rw [List.lookup_cons, show (id == a) = false from beq_false_of_ne ha] at h
      exact List.mem_cons_of_mem _ (ih h)

theorem map_filter_erase {e : List (Nat × Nat)} {id l : Nat} (h : (id, l) ∈ e)
    (h1 : (e.map (·.1)).Nodup) (h2 : (e.map (·.2)).Nodup) :
    (e.filter (·.1 != id)).map (·.2) = (e.map (·.2)).erase l := by
  induction e with
  | nil => simp at h
  | cons p e ih =>
    obtain ⟨a, b⟩ := p
    simp only [List.map_cons, List.nodup_cons] at h1 h2
    rcases List.mem_cons.1 h with heq | hmem
    · simp only [Prod.mk.injEq] at heq
      obtain ⟨rfl, rfl⟩ := heq
      simp only [List.filter_cons, bne_self_eq_false, List.map_cons, List.erase_cons_head]
      have : e.filter (·.1 != id) = e := by
        apply List.filter_eq_self.2
        intro q hq
        simp only [bne_iff_ne, ne_eq]
        intro hc; subst hc
        exact h1.1 (List.mem_map.2 ⟨q, hq, rfl⟩)
      simp [this]
    · have ha : a ≠ id := by
        intro hc; subst hc; exact h1.1 (List.mem_map.2 ⟨_, hmem, rfl⟩)
      have hb : b ≠ l := by
        intro hc; subst hc; exact h2.1 (List.mem_map.2 ⟨_, hmem, rfl⟩)
      have hf : (((a, b) : Nat × Nat).1 != id) = true := by simp [ha]
      rw [List.filter_cons_of_pos (by simpa using ha)]
      simp only [List.map_cons]
      rw [List.erase_cons_tail (by simp [hb]), ih hmem h1.2 h2.2]

theorem fst_unique {e : List (Nat × Nat)} {i a b : Nat} (hnd : (e.map (·.1)).Nodup)
    (ha : (i, a) ∈ e) (hb : (i, b) ∈ e) : a = b := by
  induction e with
  | nil => simp at ha
  | cons p e ih =>
    simp only [List.map_cons, List.nodup_cons] at hnd
    rcases List.mem_cons.1 ha with h1 | h1 <;> rcases List.mem_cons.1 hb with h3 | h3
    · rw [← h1] at h3; simp only [Prod.mk.injEq] at h3; exact h3.2.symm
    · subst h1; exact absurd (List.mem_map.2 ⟨_, h3, rfl⟩) hnd.1
    · subst h3; exact absurd (List.mem_map.2 ⟨_, h1, rfl⟩) hnd.1
    · exact ih hnd.2 h1 h3

theorem snd_unique {e : List (Nat × Nat)} {i a b : Nat} (hnd : (e.map (·.2)).Nodup)
    (ha : (a, i) ∈ e) (hb : (b, i) ∈ e) : a = b := by
  induction e with
  | nil => simp at ha
  | cons p e ih =>
    simp only [List.map_cons, List.nodup_cons] at hnd
    rcases List.mem_cons.1 ha with h1 | h1 <;> rcases List.mem_cons.1 hb with h3 | h3
    · rw [← h1] at h3; simp only [Prod.mk.injEq] at h3; exact h3.1.symm
    · subst h1; exact absurd (List.mem_map.2 ⟨_, h3, rfl⟩) hnd.1
    · subst h3; exact absurd (List.mem_map.2 ⟨_, h1, rfl⟩) hnd.1
    · exact ih hnd.2 h1 h3

theorem sim_step {α : Type} {M : Mgr α} {b : Bool} (L : Laws M b) {c : Client M} {s : Spec α}
    (h : Sim L c s) {op : Op α} (hl : legal b s op) :
    ∃ c', step M c op = some c' ∧ Sim L c' (specStep s op) := by
  cases op with
  | new id =>
    obtain ⟨l, st, h1, h2, h3, h4⟩ := L.alloc _ _ h.inv
    refine ⟨_, by simp [step, h1]; rfl, ⟨h2, ?_, ?_, ?_, ?_⟩⟩
    · simp only [List.map_cons, List.nodup_cons]; exact ⟨h3, h.ndl⟩
    · simp only [List.map_cons, List.nodup_cons]
      refine ⟨fun hc => ?_, h.ndi⟩
      exact (h.dom id).2 hc hl
    · intro i
      by_cases hi : i = id
      · simp [specStep, hi]
      · simp only [specStep, if_neg hi, List.map_cons, List.mem_cons, hi, false_or]
        exact h.dom i
    · intro i l' v hm hv
      by_cases hi : i = id
      · simp [specStep, hi] at hv
      · simp only [specStep, if_neg hi] at hv
        rcases List.mem_cons.1 hm with heq | hm
        · simp only [Prod.mk.injEq] at heq; exact absurd heq.1 hi
        · rw [h4 l' (List.mem_map.2 ⟨_, hm, rfl⟩)]
          exact h.val i l' v hm hv
  | del id =>
    obtain ⟨l, h1, h2⟩ := lookup_mem ((h.dom id).1 hl)
    obtain ⟨st, h3, h4, h5⟩ := L.free _ _ l h.inv (List.mem_map.2 ⟨_, h2, rfl⟩)
    refine ⟨_, by simp [step, Client.loc, h1, h3]; rfl, ⟨?_, ?_, ?_, ?_, ?_⟩⟩
    · simpa [map_filter_erase h2 h.ndi h.ndl] using h4
    · exact h.ndl.sublist (List.filter_sublist.map _)
    · exact h.ndi.sublist (List.filter_sublist.map _)
    · intro i
      by_cases hi : i = id
      · subst hi; simp [specStep]
      · simp only [specStep, if_neg hi]
        rw [h.dom i]
        simp only [List.mem_map, List.mem_filter, bne_iff_ne, ne_eq]
        constructor
        · rintro ⟨q, hq, rfl⟩; exact ⟨q, ⟨hq, hi⟩, rfl⟩
        · rintro ⟨q, ⟨hq, _⟩, rfl⟩; exact ⟨q, hq, rfl⟩
    · intro i l' v hm hv
      simp only [List.mem_filter, bne_iff_ne, ne_eq] at hm
      simp only [specStep, if_neg hm.2] at hv
      rw [h5 l' (List.mem_map.2 ⟨_, hm.1, rfl⟩)]
      exact h.val i l' v hm.1 hv
  | set id v =>
    obtain ⟨l, h1, h2⟩ := lookup_mem ((h.dom id).1 hl)
    obtain ⟨st, h3, h4, h5⟩ := L.write _ _ l v h.inv (List.mem_map.2 ⟨_, h2, rfl⟩)
    refine ⟨{ c with st := st }, by simp [step, Client.loc, h1, h3], ⟨h4, h.ndl, h.ndi, ?_, ?_⟩⟩
    · intro i
      by_cases hi : i = id
      · subst hi; simp [specStep]; exact ⟨l, h2⟩
      · simp only [specStep, if_neg hi]; exact h.dom i
    · intro i l' w hm hv
      simp only
      rw [h5 l' (List.mem_map.2 ⟨_, hm, rfl⟩)]
      by_cases hi : i = id
      · subst hi
        simp only [specStep, if_true, Option.some.injEq] at hv
        have : l' = l := fst_unique h.ndi hm h2
        simp [this, hv]
      · simp only [specStep, if_neg hi] at hv
        have : l' ≠ l := by
          intro hc; subst hc; exact hi (snd_unique h.ndl hm h2)
        rw [if_neg this]
        exact h.val i l' w hm hv
  | ensure n =>
    obtain ⟨st, h3, h4, h5⟩ := L.ensure hl _ _ n h.inv
    refine ⟨{ c with st := st }, by simp [step, h3], ⟨h4, h.ndl, h.ndi, h.dom, ?_⟩⟩
    intro i l' v hm hv
    rw [h5 l' (List.mem_map.2 ⟨_, hm, rfl⟩)]
    exact h.val i l' v hm hv
  | control gc =>
    obtain ⟨h4, h5⟩ := L.control _ _ gc h.inv
    refine ⟨_, rfl, ⟨h4, h.ndl, h.ndi, h.dom, ?_⟩⟩
    intro i l' v hm hv
    rw [h5 l' (List.mem_map.2 ⟨_, hm, rfl⟩)]
    exact h.val i l' v hm hv

theorem sim_run {α : Type} {M : Mgr α} {b : Bool} (L : Laws M b) (ops : List (Op α)) {c : Client M}
    {s : Spec α} (h : Sim L c s) (hl : Legal b s ops) :
    ∃ c', ops.foldlM (step M) c = some c' ∧ Sim L c' (ops.foldl specStep s) := by
  induction ops generalizing c s with
  | nil => exact ⟨c, rfl, h⟩
  | cons op ops ih =>
    obtain ⟨c1, h1, h2⟩ := sim_step L h hl.1
    obtain ⟨c2, h3, h4⟩ := ih h2 hl.2
    exact ⟨c2, by simp [List.foldlM_cons, h1, h3], h4⟩

theorem sim_init {α : Type} {M : Mgr α} {b : Bool} (L : Laws M b) :
    Sim L { st := M.init, env := [] } (fun _ => none) :=
  ⟨L.init, by simp, by simp, by simp, by simp⟩

/-- `size` counts constructions minus destructions. -/
theorem env_count {α : Type} {M : Mgr α} {b : Bool} (L : Laws M b) (ops : List (Op α)) {c c' : Client M}
    {s : Spec α} (h : Sim L c s) (hl : Legal b s ops) (hr : ops.foldlM (step M) c = some c') :
    (c'.env.length : Int) = c.env.length + count ops := by
  induction ops generalizing c s with
  | nil => simp [List.foldlM] at hr; subst hr; simp [count]
  | cons op ops ih =>
    obtain ⟨c1, h1, h2⟩ := sim_step L h hl.1
    simp [List.foldlM_cons, h1] at hr
    have hih := ih h2 hl.2 hr
    rw [hih]
    cases op with
    | new id =>
      obtain ⟨l, st, ha, _⟩ := L.alloc _ _ h.inv
      simp [step, ha] at h1
      subst h1
      simp [count]; omega
    | del id =>
      obtain ⟨l, ha, hb⟩ := lookup_mem ((h.dom id).1 hl.1)
      obtain ⟨st, hc, _⟩ := L.free _ _ l h.inv (List.mem_map.2 ⟨_, hb, rfl⟩)
      simp [step, Client.loc, ha, hc] at h1
      subst h1
      have hlen := congrArg List.length (map_filter_erase hb h.ndi h.ndl)
      have hm : l ∈ c.env.map (·.2) := List.mem_map.2 ⟨_, hb, rfl⟩
      rw [List.length_erase_of_mem hm] at hlen
      have hpos := List.length_pos_of_mem hm
      simp only [List.length_map] at hlen hpos
      simp only [count]
      rw [hlen]
      omega
    | set id v =>
      obtain ⟨l, ha, hb⟩ := lookup_mem ((h.dom id).1 hl.1)
      obtain ⟨st, hc, _⟩ := L.write _ _ l v h.inv (List.mem_map.2 ⟨_, hb, rfl⟩)
      simp [step, Client.loc, ha, hc] at h1
      subst h1; simp [count]
    | ensure n =>
      obtain ⟨st, hc, _⟩ := L.ensure hl.1 _ _ n h.inv
      simp [step, hc] at h1
      subst h1; simp [count]
    | control gc => simp [step] at h1; subst h1; simp [count]

/-! ### The two managers satisfy the laws -/

theorem blockRange {α : Type} {s : StoreBlock.SM α} {live : List Nat} (h : StoreBlock.Inv s live)
    {l : Nat} (hl : l ∈ live) : l < s.maxsize := by
  have : l ∈ List.range s.maxsize := h.perm.subset (by simp [hl])
  simpa using this

def blockLaws (α : Type) [Zero α] (gc : Nat → Nat → Bool) : Laws (block α gc) true where
  Inv := StoreBlock.Inv
  lo := 0
  init := StoreBlock.init_inv gc
  perm s l l' hp h := ⟨(hp.symm.append_left _).trans h.perm, h.nonempty, by rw [h.fill, hp.length_eq], h.grown⟩
  alloc s live h := by
    obtain ⟨l, s', h1, h2, h3, h4, h5, h6, _⟩ := StoreBlock.nextLoc_spec h
    refine ⟨l, s', h1, h2, h3, fun i hi => ?_⟩
    have hr := blockRange h hi
    simp only [block, StoreBlock.SM.read]
    rw [if_neg (by omega), if_neg (by omega), h6 i hr]
  free s live l h hl := by
    obtain ⟨s', h1, h2, h3, h4, _⟩ := StoreBlock.freeLoc_spec h hl
    exact ⟨s', h1, h2, fun i hi => by simp [block, StoreBlock.SM.read, h3, h4]⟩
  ensure _ s live n h := by
    obtain ⟨s', h1, h2, h3, h4, _⟩ := StoreBlock.ensureBlock_spec h n
    refine ⟨s', h1, h2, fun i hi => ?_⟩
    have hr := blockRange h hi
    simp only [block, StoreBlock.SM.read]
    rw [if_neg (by omega), if_neg (by omega), h4 i hr]
  control s live gc h := ⟨⟨h.perm, h.nonempty, h.fill, h.grown⟩, fun i hi => rfl⟩
  write s live l v h hl := by
    have hr := blockRange h hl
    refine ⟨{ s with store := fun i => if i = l then v else s.store i },
      by simp only [block, StoreBlock.SM.write]; rw [if_neg (by omega)],
      ⟨h.perm, h.nonempty, h.fill, h.grown⟩, fun i hi => ?_⟩
    have hr' := blockRange h hi
    simp only [block, StoreBlock.SM.read]
    rw [if_neg (by omega)]
    split <;> simp_all
  range s live l h hl := ⟨Nat.zero_le _, blockRange h hl⟩
  size s live h := h.fill

def singleLaws (α : Type) [Zero α] (junk : Nat → α) : Laws (single α junk) false where
  Inv s live := ∃ fl, StoreSingle.Inv s live fl
  lo := 1
  init := ⟨[], StoreSingle.init_inv⟩
  perm s l l' hp := fun ⟨fl, h⟩ =>
    ⟨fl, h.path, (hp.symm.append_left _).trans h.perm, by rw [h.fill, hp.length_eq], h.sz⟩
  alloc s live := fun ⟨fl, h⟩ => by
    obtain ⟨l, s', fl', h1, h2, h3, h4, h5, h6, h7, _⟩ := StoreSingle.nextLoc_spec junk h
    refine ⟨l, s', h1, ⟨fl', h2⟩, h3, fun i hi => ?_⟩
    have hr := StoreSingle.live_range h hi
    simp only [single, StoreSingle.SM.read]
    rw [if_neg (by omega), if_neg (by omega), h7 i (by omega) (by omega)]
  free s live l := fun ⟨fl, h⟩ hl => by
    obtain ⟨s', h1, h2, h3, h4⟩ := StoreSingle.freeLoc_spec h hl
    exact ⟨s', h1, ⟨_, h2⟩, fun i hi => by simp [single, StoreSingle.SM.read, h3, h4]⟩
  ensure hb := by simp at hb
  control s live gc h := ⟨h, fun i hi => rfl⟩
  write s live l v := fun ⟨fl, h⟩ hl => by
    have hr := StoreSingle.live_range h hl
    refine ⟨{ s with store := fun i => if i = l then v else s.store i },
      by simp only [single, StoreSingle.SM.write]; rw [if_neg (by omega)],
      ⟨fl, h.path, h.perm, h.fill, h.sz⟩, fun i hi => ?_⟩
    have hr' := StoreSingle.live_range h hi
    simp only [single, StoreSingle.SM.read]
    rw [if_neg (by omega)]
    split <;> simp_all
  range s live l := fun ⟨fl, h⟩ hl => by
    have := StoreSingle.live_range h hl
    exact ⟨this.1, this.2⟩
  size s live := fun ⟨fl, h⟩ => h.fill

end Verif.StoreClient
