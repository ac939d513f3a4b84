import Verif.Session.Registry

/-!
Property theorems about the tapes of all threads: C62.

Vocabulary.  `evs` lists the threads calling `createNewTape()`, in the order in which the calls take
effect; `runAll dir evs` is the state of the process after them.  A tape is an object (`obj`: the
number of objects made before it) with an id and four file names; `findTape p th id` is what
`findTape(id)` (hence `trace_on(id)` and every driver) finds in thread `th`.
-/
set_option linter.all false
namespace Verif.Props.Registry
open Verif.Reg

/-- C62 (full statement: for all histories).  Proved for histories in which no thread makes more than 65536 tapes;
otherwise see `C62_wrap`.  Whatever the interleaving of the threads: a call by thread `th` makes a new object, and
from then on, whatever calls `more` follow, the id it returned designates this object in thread `th`. -/
theorem C62_create_partial (dir : List Char) (evs more : List Nat) (th : Nat)
    (h : (evs ++ th :: more).count th ≤ 65536) :
    ∃ t, findTape (runAll dir (evs ++ th :: more)) th (createNewTape dir th (runAll dir evs)).2 = some t ∧
      t.obj = evs.length ∧ t.id = (createNewTape dir th (runAll dir evs)).2 := by
  have hi := inv_all dir (evs ++ th :: more)
  have h0 := inv_all dir evs
  have hid : (createNewTape dir th (runAll dir evs)).2 = toShort (evs.count th : Nat) := by
    rw [← h0.counter]; simp only [createNewTape]
  rw [hid]
  set n := evs.count th with hn
  have hlen : ((runAll dir (evs ++ th :: more)).tapes th).length = (evs ++ th :: more).count th := by
    have := congrArg List.length (hi.ids th); simpa using this
  have hlt : n < (evs ++ th :: more).count th := by simp [hn]
  -- the tape at position `n`, and that it is the object made by this call
  have hpre : ∃ t, t.obj = evs.length ∧ ((runAll dir (evs ++ th :: more)).tapes th)[n]? = some t := by
    have grow : ∀ (more : List Nat) (q : Proc), ∃ ys, (more.foldl (fun p th => (createNewTape dir th p).1) q).tapes th = q.tapes th ++ ys := by
      intro more
      induction more with
      | nil => intro q; exact ⟨[], by simp⟩
      | cons a as ih =>
        intro q
        obtain ⟨ys, hy⟩ := ih (createNewTape dir a q).1
        have : ∃ zs, (createNewTape dir a q).1.tapes th = q.tapes th ++ zs := by
          have e : (threadIndex q a).1.tapes = q.tapes := by simp only [threadIndex]; split <;> rfl
          simp only [createNewTape]
          by_cases hth : th = a
          · subst hth
            refine ⟨[⟨(threadIndex q th).1.objs, q.counter th, fun k => fileName dir k (threadIndex q th).2 (q.counter th)⟩], ?_⟩
            split <;> simp [upd, e]
          · refine ⟨[], ?_⟩
            split <;> simp [upd, hth, e]
        obtain ⟨zs, hz⟩ := this
        exact ⟨zs ++ ys, by simp only [List.foldl_cons, hy, hz, List.append_assoc]⟩
    obtain ⟨ys, hy⟩ := grow more (createNewTape dir th (runAll dir evs)).1
    have hrun : runAll dir (evs ++ th :: more) = more.foldl (fun p th => (createNewTape dir th p).1) (createNewTape dir th (runAll dir evs)).1 := by
      simp [runAll]
    have e : (threadIndex (runAll dir evs) th).1.tapes = (runAll dir evs).tapes := by simp only [threadIndex]; split <;> rfl
    have eo : (threadIndex (runAll dir evs) th).1.objs = (runAll dir evs).objs := by simp only [threadIndex]; split <;> rfl
    have hlen0 : ((runAll dir evs).tapes th).length = n := by
      have := congrArg List.length (h0.ids th); simpa using this
    have hx : ∃ t, t.obj = evs.length ∧ (createNewTape dir th (runAll dir evs)).1.tapes th = (runAll dir evs).tapes th ++ [t] := by
      refine ⟨⟨(threadIndex (runAll dir evs) th).1.objs, (runAll dir evs).counter th,
        fun k => fileName dir k (threadIndex (runAll dir evs) th).2 ((runAll dir evs).counter th)⟩, by simp [eo, h0.objs], ?_⟩
      simp only [createNewTape]
      split <;> simp [upd, e]
    obtain ⟨t, ht, htt⟩ := hx
    refine ⟨t, ht, ?_⟩
    rw [hrun, hy, htt, List.append_assoc, List.getElem?_append_right (by omega), hlen0]
    simp
  obtain ⟨t, ht1, ht2⟩ := hpre
  have hidt : t.id = toShort (n : Nat) := by
    have := congrArg (·[n]?) (hi.ids th)
    simp only [List.getElem?_map, ht2, Option.map_some, List.getElem?_range hlt] at this
    simpa using this
  refine ⟨t, ?_, ht1, hidt⟩
  unfold findTape
  rw [List.find?_eq_some_iff_getElem]
  obtain ⟨hl, hv⟩ := List.getElem?_eq_some_iff.1 ht2
  refine ⟨by simp [hidt], n, hl, hv, ?_⟩
  intro j hj
  have hids := congrArg (·[j]?) (hi.ids th)
  have hjl : j < ((runAll dir (evs ++ th :: more)).tapes th).length := by omega
  simp only [List.getElem?_map, List.getElem?_eq_getElem hjl, Option.map_some, List.getElem?_range (show j < (evs ++ th :: more).count th by omega)] at hids
  injection hids with hids
  simp only [hids]
  have : toShort (j : Nat) ≠ toShort (n : Nat) := fun hh => by
    have := toShort_inj (by omega) (by omega) hh; omega
  simpa using this

/-- Ids that no call of the thread has returned are refused, in any history. -/
theorem C62_unknown (dir : List Char) (evs : List Nat) (th : Nat) (id : Int)
    (h : ∀ n < evs.count th, id ≠ toShort (n : Nat)) : findTape (runAll dir evs) th id = none := by
  have hi := inv_all dir evs
  unfold findTape
  rw [List.find?_eq_none]
  intro t ht hh
  have : t.id ∈ ((runAll dir evs).tapes th).map (·.id) := List.mem_map_of_mem ht
  rw [hi.ids, List.mem_map] at this
  obtain ⟨n, hn, e⟩ := this
  simp only [beq_iff_eq] at hh
  exact h n (by simpa using hn) (by rw [e, hh])

/-- C62 (full statement: for all histories).  In a process whose threads make at most 65536 tapes each, no two
files of tapes have the same name, within a thread or between threads: neither of two tapes nor the
four of one tape. -/
theorem C62_files_partial (dir : List Char) (evs : List Nat) (h : ∀ th, evs.count th ≤ 65536) (th th' : Nat) (t t' : Tp)
    (ht : t ∈ (runAll dir evs).tapes th) (ht' : t' ∈ (runAll dir evs).tapes th') (k k' : Kind)
    (he : t.names k = t'.names k') : t = t' ∧ th = th' ∧ k = k' := by
  have hi := inv_all dir evs
  obtain ⟨i, a1, a2⟩ := hi.named th t ht
  obtain ⟨i', b1, b2⟩ := hi.named th' t' ht'
  rw [a2, b2] at he
  obtain ⟨e1, e2, e3⟩ := fileName_inj dir k k' i i' t.id t'.id he
  subst e2
  have e4 := hi.ixinj th th' i a1 b1
  subst e4
  refine ⟨?_, rfl, e1⟩
  have hnd : (((runAll dir evs).tapes th).map (·.id)).Nodup := by
    rw [hi.ids]
    refine List.Nodup.map_on ?_ List.nodup_range
    intro a ha b hb hab
    simp only [List.mem_range] at ha hb
    have := h th
    exact toShort_inj (by omega) (by omega) hab
  exact List.inj_on_of_nodup_map hnd ht ht' e3

/-- The current tape of a thread is none before its first `createNewTape()`, then the first tape it made. -/
theorem C62_current (dir : List Char) (evs : List Nat) (th : Nat) :
    (runAll dir evs).current th = ((runAll dir evs).tapes th).head? := (inv_all dir evs).cur th

/-- `cachedTraceTags(result)` gives the ids of the thread's tapes in order of creation (full statement:
always; proved if there is one). -/
theorem C62_tags_partial (dir : List Char) (evs : List Nat) (th : Nat) (h : 0 < evs.count th) (result : List Int) :
    cachedTraceTags (runAll dir evs) th result = (List.range (evs.count th)).map (fun n => toShort (n : Nat)) := by
  have hi := (inv_all dir evs).ids th
  unfold cachedTraceTags
  rw [if_neg ?_, hi]
  intro hh
  rw [List.isEmpty_iff] at hh
  rw [hh] at hi
  have := congrArg List.length hi
  simp at this; omega

/-- A thread without tapes: the vector keeps what it held. -/
theorem C62_tags_witness (dir : List Char) (result : List Int) : cachedTraceTags (runAll dir []) 0 result = result := rfl

/-- C62 fails at the 65537th tape of a thread, in every history: the id returned is 0, which designates
the first tape; the new object cannot be reached. -/
theorem C62_wrap (dir : List Char) (evs : List Nat) (th : Nat) (h : evs.count th = 65536) :
    (createNewTape dir th (runAll dir evs)).2 = 0 ∧
    findTape (runAll dir (evs ++ [th])) th 0 = ((runAll dir (evs ++ [th])).tapes th).head? ∧
    ∀ t, findTape (runAll dir (evs ++ [th])) th 0 = some t → t.obj < evs.length := by
  have h0 := inv_all dir evs
  have hi := inv_all dir (evs ++ [th])
  have hid : (createNewTape dir th (runAll dir evs)).2 = 0 := by
    have : (createNewTape dir th (runAll dir evs)).2 = (runAll dir evs).counter th := by simp only [createNewTape]
    rw [this, h0.counter, h]; decide
  have hids := hi.ids th
  have hc : (evs ++ [th]).count th = 65536 + 1 := by simp [h]
  rw [hc, List.range_succ_eq_map, List.map_cons] at hids
  cases ht : (runAll dir (evs ++ [th])).tapes th with
  | nil => rw [ht] at hids; simp at hids
  | cons a as =>
    rw [ht, List.map_cons] at hids
    injection hids with e1 e2
    have ea : a.id = 0 := by rw [e1]; decide
    have hf : findTape (runAll dir (evs ++ [th])) th 0 = some a := by
      unfold findTape; rw [ht]; simp [ea]
    refine ⟨hid, by rw [hf]; rfl, ?_⟩
    intro t htt
    rw [hf] at htt; injection htt with htt; subst htt
    have hasc := hi.asc th
    rw [ht, List.map_cons, List.pairwise_cons] at hasc
    have hne : as ≠ [] := by
      intro hh; rw [hh] at e2
      have := congrArg List.length e2
      rw [List.length_map, List.length_map, List.length_map, List.length_range] at this
      simp at this
    obtain ⟨b, bs, rfl⟩ := List.exists_cons_of_ne_nil hne
    have h1 := hasc.1 b.obj (by simp)
    have h2 := hi.lt th b (by rw [ht]; simp)
    rw [hi.objs] at h2
    simp at h2; omega

/-! Concrete instances. -/

/-- Two threads: 7 makes three tapes, 3 makes two. -/
example : (∀ th, [7, 3, 7, 7, 3].count th ≤ 65536) ∧
    ((runAll ['.'] [7, 3, 7, 7, 3]).tapes 7).map (fun t => (t.obj, t.id)) = [(0, 0), (2, 1), (3, 2)] ∧
    ((runAll ['.'] [7, 3, 7, 7, 3]).tapes 3).map (fun t => (t.obj, t.id)) = [(1, 0), (4, 1)] := by
  refine ⟨fun th => ?_, by decide, by decide⟩
  have := List.count_le_length (a := th) (l := [7, 3, 7, 7, 3])
  simp at this; omega

/-- The second tape of the second thread writes its operations here. -/
example : fileName ['.'] .operations 1 1 = "./ADOLC-Operations_thread-1_tape-1.tap".toList := by
  simp [fileName, base, dec, decI, digit]

/-- The hypothesis of `C62_wrap` is met. -/
example : (List.replicate 65536 7).count 7 = 65536 := by rw [List.count_replicate_self]

/-- The id handed out by the `n`-th call of a thread (counting from 0) is the signed 16-bit number congruent to `n`. -/
theorem C62_id_range (dir : List Char) (evs : List Nat) (th : Nat) :
    let id := (createNewTape dir th (runAll dir evs)).2
    id ≤ 32767 ∧ -32768 ≤ id ∧ (65536 : Int) ∣ id - evs.count th ∧ (evs.count th < 32768 → id = evs.count th) := by
  have h0 := inv_all dir evs
  have hid : (createNewTape dir th (runAll dir evs)).2 = toShort (evs.count th : Nat) := by
    rw [← h0.counter]; simp only [createNewTape]
  simp only [hid, toShort]
  omega

end Verif.Props.Registry
