import Mathlib.Data.List.Basic
import Mathlib.Data.List.Nodup
import Mathlib.Data.List.Induction
import Mathlib.Tactic.IntervalCases

/-!
# `tape_interface.h`, `persistanttapeinfos.cpp`: the tapes of all threads and their files

Every thread has its own list of tapes, counter of ids and current tape; the threads share the
counter of thread numbers from which file names are formed.

Simplifications.  A call of `createNewTape` is one step: it touches the state of other threads only
through one atomic increment.  The directory of the files is the same for all tapes.  The counter of
threads does not overflow.  Destruction of a thread's tapes at its end is not a step.
-/
set_option linter.all false
namespace Verif.Reg

/-- Conversion to `short`. -/
def toShort (z : Int) : Int := (z + 32768) % 65536 - 32768

/-- `std::to_string` of a natural number. -/
def digit (n : Nat) : Char := Char.ofNat (48 + n)
def dec (n : Nat) : List Char := if n < 10 then [digit n] else dec (n / 10) ++ [digit (n % 10)]
decreasing_by omega

/-- `std::to_string` of an integer. -/
def decI : Int → List Char
  | .ofNat n => dec n
  | .negSucc n => '-' :: dec (n + 1)

/-- `PersistantTapeInfos::TAPENAMES`: persistanttapeinfos.h:11. -/
inductive Kind | locations | values | operations | taylors
deriving DecidableEq

/-- dvlparms.h:30-33 and valuetape.cpp:687-693 (`dir` is `TAPE_DIR`). -/
def base : Kind → List Char
  | .locations => ['A', 'D', 'O', 'L', 'C', '-', 'L', 'o', 'c', 'a', 't', 'i', 'o', 'n', 's', '_']
  | .values => ['A', 'D', 'O', 'L', 'C', '-', 'V', 'a', 'l', 'u', 'e', 's', '_']
  | .operations => ['A', 'D', 'O', 'L', 'C', '-', 'O', 'p', 'e', 'r', 'a', 't', 'i', 'o', 'n', 's', '_']
  | .taylors => ['A', 'D', 'O', 'L', 'C', '-', 'T', 'a', 'y', 'l', 'o', 'r', 's', '_']

/-- `createFileName(tapeId, tapeType)` in thread number `ix`: persistanttapeinfos.cpp:157-170. -/
def fileName (dir : List Char) (k : Kind) (ix : Nat) (id : Int) : List Char :=
  dir ++ '/' :: base k ++ ['t', 'h', 'r', 'e', 'a', 'd', '-'] ++ dec ix ++ ['_'] ++ ['t', 'a', 'p', 'e', '-'] ++ decI id ++ ['.', 't', 'a', 'p']

/-- A `ValueTape`: which object it is, its id and its file names (persistanttapeinfos.h:22-29). -/
structure Tp where
  obj : Nat
  id : Int
  names : Kind → List Char

/-- The state of the process: the number of objects made, `nextId` (persistanttapeinfos.cpp:148), and for each thread its
number (149), `tapeIdCounter` (tape_interface.h:158), `tapeBuffer` (23-26) and `currentTapePtr` (106-109). -/
structure Proc where
  objs : Nat := 0
  nextId : Nat := 0
  index : Nat → Option Nat := fun _ => none
  counter : Nat → Int := fun _ => 0
  tapes : Nat → List Tp := fun _ => []
  current : Nat → Option Tp := fun _ => none

/-- `findTapePtr_(tapeId)`: tape_interface.h:51-56. -/
def findTape (p : Proc) (th : Nat) (id : Int) : Option Tp := (p.tapes th).find? (fun t => t.id == id)

def upd {β : Type} (f : Nat → β) (i : Nat) (b : β) : Nat → β := fun j => if j = i then b else f j

/-- `getThreadIndex()`: persistanttapeinfos.cpp:147-151. -/
def threadIndex (p : Proc) (th : Nat) : Proc × Nat :=
  match p.index th with
  | some i => (p, i)
  | none => ({ p with nextId := p.nextId + 1, index := upd p.index th (some p.nextId) }, p.nextId)

/-- `createNewTape()`: tape_interface.h:157-166. -/
def createNewTape (dir : List Char) (th : Nat) (p : Proc) : Proc × Int :=
  let c := p.counter th
  let (p, ix) := threadIndex p th
  let t : Tp := ⟨p.objs, c, fun k => fileName dir k ix c⟩
  let p := { p with objs := p.objs + 1, tapes := upd p.tapes th (p.tapes th ++ [t]) }
  let p := if (p.current th).isNone then { p with current := upd p.current th (findTape p th c) } else p
  ({ p with counter := upd p.counter th (toShort (c + 1)) }, c)

/-- `cachedTraceTags(result)`: tape_interface.cpp:117-124. -/
def cachedTraceTags (p : Proc) (th : Nat) (result : List Int) : List Int :=
  if (p.tapes th).isEmpty then result else (p.tapes th).map (·.id)

/-- The calls of `createNewTape` by all threads, in the order they take effect. -/
def runAll (dir : List Char) (evs : List Nat) : Proc := evs.foldl (fun p th => (createNewTape dir th p).1) {}

/-! ### Names -/

theorem digit_inj : ∀ a < 10, ∀ b < 10, digit a = digit b → a = b := by decide

theorem dec_ne (n : Nat) : dec n ≠ [] := by rw [dec]; split <;> simp

theorem dec_inj : ∀ a b, dec a = dec b → a = b := by
  intro a
  induction a using Nat.strong_induction_on with
  | _ a ih =>
    intro b h
    rw [dec, dec.eq_def b] at h
    split at h <;> split at h <;> rename_i h1 h2
    · exact digit_inj a h1 b h2 (by simpa using h)
    · have hl := congrArg List.length h
      have := List.length_pos_of_ne_nil (dec_ne (b / 10))
      simp only [List.length_append, List.length_cons, List.length_nil] at hl; omega
    · have hl := congrArg List.length h
      have := List.length_pos_of_ne_nil (dec_ne (a / 10))
      simp only [List.length_append, List.length_cons, List.length_nil] at hl; omega
    · have e := List.append_inj' h rfl
      have e1 := ih (a / 10) (by omega) (b / 10) e.1
      have e2 := digit_inj _ (Nat.mod_lt a (by decide)) _ (Nat.mod_lt b (by decide)) (by simpa using e.2)
      omega

theorem digit_not : ∀ a < 10, digit a ≠ '_' ∧ digit a ≠ '-' := by decide

theorem dec_not (n : Nat) : ∀ c ∈ dec n, c ≠ '_' ∧ c ≠ '-' := by
  induction n using Nat.strong_induction_on with
  | _ n ih =>
    intro c hc
    rw [dec] at hc
    split at hc
    · rename_i h; simp at hc; subst hc; exact digit_not n h
    · rcases List.mem_append.1 hc with hc | hc
      · exact ih (n / 10) (by omega) c hc
      · simp at hc; subst hc; exact digit_not _ (Nat.mod_lt n (by decide))

theorem decI_inj (a b : Int) (h : decI a = decI b) : a = b := by
  cases a <;> cases b <;> simp only [decI] at h
  · rw [dec_inj _ _ h]
  · exact absurd rfl (dec_not _ '-' (by rw [h]; simp)).2
  · exact absurd rfl (dec_not _ '-' (by rw [← h]; simp)).2
  · injection h with _ h
    have := dec_inj _ _ h
    simp at this; rw [this]

theorem split_at {c : Char} : ∀ (xs ys us vs : List Char), c ∉ xs → c ∉ ys → xs ++ c :: us = ys ++ c :: vs → xs = ys ∧ us = vs
  | [], [], us, vs, _, _, h => by simpa using h
  | [], y :: ys, us, vs, _, h2, h => by simp at h h2; exact absurd h.1 h2.1
  | x :: xs, [], us, vs, h1, _, h => by simp at h h1; exact absurd h.1.symm h1.1
  | x :: xs, y :: ys, us, vs, h1, h2, h => by
    simp only [List.cons_append, List.cons.injEq] at h
    have := split_at xs ys us vs (fun hh => h1 (by simp [hh])) (fun hh => h2 (by simp [hh])) h.2
    exact ⟨by rw [h.1, this.1], this.2⟩

theorem fileName_inj (dir : List Char) (k k' : Kind) (ix ix' : Nat) (id id' : Int)
    (h : fileName dir k ix id = fileName dir k' ix' id') : k = k' ∧ ix = ix' ∧ id = id' := by
  simp only [fileName, List.append_assoc, List.append_cancel_left_eq, List.cons_append, List.cons.injEq, true_and] at h
  have hk : k = k' := by
    cases k <;> cases k' <;> first | rfl | (exfalso; simp [base] at h)
  subst hk
  simp only [List.append_cancel_left_eq] at h
  simp only [List.cons_append, List.nil_append, List.cons.injEq, true_and] at h
  obtain ⟨h1, h2⟩ := split_at _ _ _ _ (fun hh => (dec_not _ _ hh).1 rfl) (fun hh => (dec_not _ _ hh).1 rfl) h
  simp only [List.cons.injEq, true_and, List.append_cancel_right_eq] at h2
  exact ⟨rfl, dec_inj _ _ h1, decI_inj _ _ h2⟩

/-! ### Invariant -/

theorem toShort_succ (n : Nat) : toShort (toShort n + 1) = toShort ((n + 1 : Nat) : Int) := by
  simp only [toShort]; push_cast; omega

theorem toShort_inj {a b : Nat} (ha : a < 65536) (hb : b < 65536) (h : toShort a = toShort b) : a = b := by
  simp only [toShort] at h; omega

/-- After the calls `evs`: what is in the state. -/
structure RegInv (dir : List Char) (evs : List Nat) (p : Proc) : Prop where
  objs : p.objs = evs.length
  counter : ∀ th, p.counter th = toShort (evs.count th : Nat)
  ids : ∀ th, (p.tapes th).map (·.id) = (List.range (evs.count th)).map (fun n => toShort (n : Nat))
  lt : ∀ th, ∀ t ∈ p.tapes th, t.obj < p.objs
  asc : ∀ th, ((p.tapes th).map (·.obj)).Pairwise (· < ·)
  disj : ∀ th th', th ≠ th' → ∀ t ∈ p.tapes th, ∀ t' ∈ p.tapes th', t.obj ≠ t'.obj
  ixlt : ∀ th i, p.index th = some i → i < p.nextId
  ixinj : ∀ th th' i, p.index th = some i → p.index th' = some i → th = th'
  named : ∀ th, ∀ t ∈ p.tapes th, ∃ i, p.index th = some i ∧ ∀ k, t.names k = fileName dir k i t.id
  cur : ∀ th, p.current th = (p.tapes th).head?

theorem upd_same {β : Type} (f : Nat → β) (i : Nat) (b : β) : upd f i b i = b := by simp [upd]
theorem upd_ne {β : Type} (f : Nat → β) {i j : Nat} (h : j ≠ i) (b : β) : upd f i b j = f j := by simp [upd, h]

theorem inv_step {dir : List Char} {evs : List Nat} {p : Proc} (h : RegInv dir evs p) (th : Nat) :
    RegInv dir (evs ++ [th]) (createNewTape dir th p).1 := by
  -- the state after the thread has a number
  obtain ⟨p1, ix, hp1⟩ : ∃ p1 ix, threadIndex p th = (p1, ix) := ⟨_, _, rfl⟩
  have hq : p1.objs = p.objs ∧ p1.counter = p.counter ∧ p1.tapes = p.tapes ∧ p1.current = p.current ∧ p1.index th = some ix ∧
      (∀ t i, p1.index t = some i → i < p1.nextId) ∧ (∀ t t' i, p1.index t = some i → p1.index t' = some i → t = t') ∧
      (∀ t i, p.index t = some i → p1.index t = some i) := by
    unfold threadIndex at hp1
    cases hi : p.index th with
    | some i =>
      rw [hi] at hp1
      injection hp1 with e1 e2
      subst e1 e2
      exact ⟨rfl, rfl, rfl, rfl, hi, h.ixlt, h.ixinj, fun _ _ hh => hh⟩
    | none =>
      rw [hi] at hp1
      injection hp1 with e1 e2
      subst e1 e2
      refine ⟨rfl, rfl, rfl, rfl, by simp [upd], ?_, ?_, ?_⟩
      · intro t i ht
        simp only [upd] at ht
        split at ht
        · injection ht with ht; simp only; omega
        · have := h.ixlt t i ht; simp only; omega
      · intro t t' i ht ht'
        simp only [upd] at ht ht'
        split at ht <;> split at ht'
        · simp [*]
        · injection ht with ht; have := h.ixlt t' i ht'; omega
        · injection ht' with ht'; have := h.ixlt t i ht; omega
        · exact h.ixinj t t' i ht ht'
      · intro t i ht
        simp only [upd]
        rw [if_neg (by rintro rfl; rw [hi] at ht; cases ht)]; exact ht
  obtain ⟨q1, q2, q3, q4, q5, q6, q7, q8⟩ := hq
  set t0 : Tp := ⟨p1.objs, p.counter th, fun k => fileName dir k ix (p.counter th)⟩ with ht0
  have hres : (createNewTape dir th p).1 =
      { objs := p1.objs + 1, nextId := p1.nextId, index := p1.index, counter := upd p1.counter th (toShort (p.counter th + 1)),
        tapes := upd p1.tapes th (p1.tapes th ++ [t0]),
        current := if (p1.current th).isNone then upd p1.current th ((p1.tapes th ++ [t0]).find? (fun t => t.id == p.counter th)) else p1.current } := by
    simp only [createNewTape, hp1, findTape, upd_same]
    split <;> rfl
  rw [hres]
  have hc : (evs ++ [th]).count th = evs.count th + 1 := by simp
  have hc' : ∀ t, t ≠ th → (evs ++ [th]).count t = evs.count t := by
    intro t ht; rw [List.count_append, List.count_singleton]; simp [Ne.symm ht]
  constructor
  · simp [q1, h.objs]
  · intro t
    simp only [q2]
    by_cases e : t = th
    · subst e; rw [upd_same, hc, h.counter, toShort_succ]
    · rw [upd_ne _ e, hc' t e, h.counter]
  · intro t
    simp only [q3]
    by_cases e : t = th
    · subst e
      rw [upd_same, hc, List.range_succ, List.map_append, List.map_append, h.ids]
      simp [ht0, h.counter]
    · rw [upd_ne _ e, hc' t e, h.ids]
  · intro t x hx
    simp only [q3] at hx ⊢
    by_cases e : t = th
    · subst e
      rw [upd_same] at hx
      rcases List.mem_append.1 hx with hx | hx
      · have := h.lt _ x hx; omega
      · simp at hx; subst hx; simp [ht0]
    · rw [upd_ne _ e] at hx
      have := h.lt _ x hx; omega
  · intro t
    simp only [q3]
    by_cases e : t = th
    · subst e
      rw [upd_same, List.map_append, List.pairwise_append]
      refine ⟨h.asc _, by simp, ?_⟩
      intro a ha b hb
      obtain ⟨x, hx, rfl⟩ := List.mem_map.1 ha
      simp [ht0] at hb; subst hb
      have := h.lt _ x hx; omega
    · rw [upd_ne _ e]; exact h.asc t
  · intro t t' ht x hx y hy
    simp only [q3] at hx hy
    by_cases e : t = th
    · subst e
      rw [upd_ne _ (Ne.symm ht)] at hy
      rw [upd_same] at hx
      rcases List.mem_append.1 hx with hx | hx
      · exact h.disj _ _ ht x hx y hy
      · simp at hx; subst hx
        have := h.lt _ y hy
        simp only [ht0]; omega
    · rw [upd_ne _ e] at hx
      by_cases e' : t' = th
      · subst e'
        rw [upd_same] at hy
        rcases List.mem_append.1 hy with hy | hy
        · exact h.disj _ _ ht x hx y hy
        · simp at hy; subst hy
          have := h.lt _ x hx
          simp only [ht0]; omega
      · rw [upd_ne _ e'] at hy
        exact h.disj _ _ ht x hx y hy
  · exact q6
  · exact q7
  · intro t x hx
    simp only [q3] at hx ⊢
    by_cases e : t = th
    · subst e
      rw [upd_same] at hx
      rcases List.mem_append.1 hx with hx | hx
      · obtain ⟨i, h1, h2⟩ := h.named _ x hx
        exact ⟨i, q8 _ _ h1, h2⟩
      · simp at hx; subst hx; exact ⟨ix, q5, fun k => rfl⟩
    · rw [upd_ne _ e] at hx
      obtain ⟨i, h1, h2⟩ := h.named _ x hx
      exact ⟨i, q8 _ _ h1, h2⟩
  · intro t
    simp only [q3, q4]
    have hcur := h.cur th
    by_cases e : t = th
    · subst e
      rw [upd_same]
      cases ht : p.tapes t with
      | nil =>
        rw [ht] at hcur; simp only [List.head?_nil] at hcur
        rw [hcur]; simp [upd_same, ht0]
      | cons a as =>
        rw [ht] at hcur
        rw [hcur]
        simp [hcur]
    · rw [upd_ne _ e]
      split
      · rw [upd_ne _ e]; exact h.cur t
      · exact h.cur t

theorem inv_all (dir : List Char) (evs : List Nat) : RegInv dir evs (runAll dir evs) := by
  induction evs using List.reverseRecOn with
  | nil =>
    refine ⟨rfl, ?_, ?_, ?_, ?_, ?_, ?_, ?_, ?_, ?_⟩ <;> simp [runAll] <;> (try decide)
  | append_singleton evs th ih =>
    have : runAll dir (evs ++ [th]) = (createNewTape dir th (runAll dir evs)).1 := by simp [runAll]
    rw [this]; exact inv_step ih th

end Verif.Reg
