import Verif.Session.Model

/-! # Nested tracing puts every statement on the innermost active trace -/
set_option linter.all false
namespace Verif.Session
variable {O : Type}

theorem traces_congr (p : Part O) {d d' : Nat → Option (Done O)} {u : Nat} (h : d u = d' u) :
    p.traces d u = p.traces d' u := by
  induction p generalizing d d' with
  | done => exact h
  | op o k ih => exact ih h
  | eval t dims k ih => exact ih h
  | block t keep dims npar body k ihb ihk =>
    refine ihk ?_
    show (if u = t then _ else _) = (if u = t then _ else _)
    split
    · rfl
    · exact ihb h

/-- What is on the operation tape of a finished trace. -/
def Done.items (e : Done O) : List (Item O) :=
  [.start, .stock] ++ e.ops.map .op ++ [.death, .stop]

/-- Tape `tp` holds the finished trace `e`. -/
def Holds (tp : Tp O) (e : Done O) : Prop :=
  tp.items = e.items ∧ tp.dims = e.dims ∧ tp.npar = e.npar ∧ tp.keep = e.keep

/-- The tapes with tags in `act` are being traced, the others are idle and hold `d`. -/
structure Rep (n : Nat) (s : Ses O) (act : List Nat) (d : Nat → Option (Done O)) : Prop where
  len : s.tapes.length = n
  active : ∀ u ∈ act, ∃ tp, s.tapes[u]? = some tp ∧ tp.mode = .write
  idle : ∀ u, u ∉ act → ∀ tp, s.tapes[u]? = some tp → tp.mode = .none ∧ ∀ e, d u = some e → Holds tp e
  exist : ∀ u, u ∉ act → (d u).isSome → u < n

theorem get_put (s : Ses O) (t u : Nat) (tp : Tp O) (h : t < s.tapes.length) :
    (s.put t tp).tapes[u]? = if u = t then some tp else s.tapes[u]? := by
  unfold Ses.put
  simp only [List.getElem?_set]
  by_cases hu : t = u
  · subst hu; simp [h]
  · simp [hu, fun h : u = t => hu h.symm]
    try (intro h; exact absurd h.symm hu)

theorem exec_legal {n : Nat} (p : Part O) : ∀ {act : List Nat} {d : Nat → Option (Done O)} {s : Ses O} {c : Nat},
    p.legal n act d → Rep n s act d → s.cur = some c → c < n →
    ∃ s', p.exec s = (s', none) ∧ s'.cur = s.cur ∧ s'.stack = s.stack ∧ Rep n s' act (p.traces d) ∧
      ∀ u ∈ act, ∀ tp, s.tapes[u]? = some tp →
        s'.tapes[u]? = some (if u = c then { tp with items := tp.items ++ p.own.map .op } else tp) := by
  induction p with
  | done =>
    intro act d s c hl hr hc hn
    refine ⟨s, rfl, rfl, rfl, hr, fun u hu tp htp => ?_⟩
    simp [htp, Part.own]
  | op o k ih =>
    intro act d s c hl hr hc hn
    have hcl : c < s.tapes.length := by rw [hr.len]; exact hn
    obtain ⟨tp, htp⟩ : ∃ tp, s.tapes[c]? = some tp := ⟨_, List.getElem?_eq_getElem hcl⟩
    by_cases hca : c ∈ act
    · have hm : tp.mode = .write := by
        obtain ⟨tp', h1, h2⟩ := hr.active c hca
        rw [htp] at h1; cases h1; exact h2
      set s1 := s.put c { tp with items := tp.items ++ [.op o] } with hs1
      have hstep : stmt o s = (s1, .ret 0) := by simp [stmt, hc, htp, hm, hs1]
      have hg : ∀ u, s1.tapes[u]? = if u = c then some { tp with items := tp.items ++ [.op o] } else s.tapes[u]? :=
        fun u => get_put s c u _ hcl
      have hr1 : Rep n s1 act d := by
        refine ⟨by simp [hs1, Ses.put, hr.len], fun u hu => ?_, fun u hu tp' htp' => ?_, hr.exist⟩
        · rw [hg]; split
          · exact ⟨_, rfl, hm⟩
          · exact hr.active u hu
        · rw [hg, if_neg (fun h : u = c => hu (h ▸ hca))] at htp'
          exact hr.idle u hu tp' htp'
      obtain ⟨s', h1, h2, h3, h4, h5⟩ := ih (c := c) (d := d) hl hr1 (by simp [hs1, Ses.put, hc]) hn
      refine ⟨s', by simp [Part.exec, hstep, h1], by rw [h2]; rfl, by rw [h3]; rfl, h4, fun u hu tp' htp' => ?_⟩
      by_cases huc : u = c
      · subst huc
        rw [htp] at htp'; cases htp'
        rw [h5 u hu { tp with items := tp.items ++ [.op o] } (by rw [hg]; simp)]
        simp [Part.own]
      · rw [h5 u hu tp' (by rw [hg, if_neg huc]; exact htp')]
        simp [huc]
    · have hm : tp.mode = .none := (hr.idle c hca tp htp).1
      have hstep : stmt o s = (s, .ret 0) := by simp [stmt, hc, htp, hm]
      obtain ⟨s', h1, h2, h3, h4, h5⟩ := ih hl hr hc hn
      refine ⟨s', by simp [Part.exec, hstep, h1], h2, h3, h4, fun u hu tp' htp' => ?_⟩
      rw [h5 u hu tp' htp']
      have : u ≠ c := fun h => hca (h ▸ hu)
      simp [this]
  | eval t dims k ih =>
    intro act d s c hl hr hc hn
    obtain ⟨ht, ⟨e, he, hdim⟩, hk⟩ := hl
    have htl : t < s.tapes.length := by rw [hr.len]; exact hr.exist t ht (by simp [he])
    obtain ⟨tp, htp⟩ : ∃ tp, s.tapes[t]? = some tp := ⟨_, List.getElem?_eq_getElem htl⟩
    obtain ⟨hm, hh⟩ := hr.idle t ht tp htp
    have hd := (hh e he).2.1
    have hstep : sweep t dims s = (s.put t { tp with mode := .none }, .ret 0) := by
      simp [sweep, htp, hm, hd, hdim]
    have hself : s.put t { tp with mode := .none } = s := by
      have : ({ tp with mode := .none } : Tp O) = tp := by cases tp; simp_all
      rw [this]
      unfold Ses.put
      have : s.tapes.set t tp = s.tapes := by
        apply List.ext_getElem?
        intro i
        rw [List.getElem?_set]
        split
        · rename_i h; subst h; rw [htp]
        · rfl
      rw [this]
    rw [hself] at hstep
    obtain ⟨s', h1, h2, h3, h4, h5⟩ := ih hk hr hc hn
    exact ⟨s', by simp [Part.exec, hstep, h1], h2, h3, h4, h5⟩
  | block t keep dims npar body k ihb ihk =>
    intro act d s c hl hr hc hn
    obtain ⟨htn, hta, hlb, hlk⟩ := hl
    have htl : t < s.tapes.length := by rw [hr.len]; exact htn
    obtain ⟨tp, htp⟩ : ∃ tp, s.tapes[t]? = some tp := ⟨_, List.getElem?_eq_getElem htl⟩
    have hm := (hr.idle t hta tp htp).1
    -- trace_on
    set tp1 : Tp O := { tp with mode := .write, items := [.start, .stock], sizes := tp.conf, keep := keep } with htp1
    set s1 : Ses O := ({ s with stack := s.cur :: s.stack, cur := some t } : Ses O).put t tp1 with hs1
    have hon : traceOn t keep s = (s1, .ret 0) := by
      simp [traceOn, htp, initNewTape, hm, hs1, htp1]
    have hg1 : ∀ u, s1.tapes[u]? = if u = t then some tp1 else s.tapes[u]? :=
      fun u => get_put { s with stack := s.cur :: s.stack, cur := some t } t u _ htl
    have hr1 : Rep n s1 (t :: act) (fun u => if u = t then none else d u) := by
      refine ⟨by simp [hs1, Ses.put, hr.len], fun u hu => ?_, fun u hu tp' htp' => ?_, fun u hu he => ?_⟩
      · rw [hg1]
        by_cases h : u = t
        · exact ⟨tp1, by simp [h], rfl⟩
        · rw [if_neg h]
          exact hr.active u (by simpa [h] using hu)
      · simp only [List.mem_cons, not_or] at hu
        rw [hg1, if_neg hu.1] at htp'
        obtain ⟨g1, g2⟩ := hr.idle u hu.2 tp' htp'
        refine ⟨g1, fun e he => g2 e ?_⟩
        simpa [hu.1] using he
      · simp only [List.mem_cons, not_or] at hu
        exact hr.exist u hu.2 (by simpa [hu.1] using he)
    obtain ⟨s2, b1, b2, b3, b4, b5⟩ := ihb hlb hr1 (c := t) rfl htn
    have hg2t : s2.tapes[t]? = some { tp1 with items := tp1.items ++ body.own.map .op } := by
      have := b5 t (by simp) tp1 (by rw [hg1]; simp)
      simpa using this
    have hlen2 : t < s2.tapes.length := by rw [b4.len]; exact htn
    -- trace_off
    set tp3 : Tp O := { tp1 with items := tp1.items ++ body.own.map .op ++ [.death, .stop], mode := .none, dims := dims, npar := npar } with htp3
    set s3 : Ses O := { s2.put t tp3 with cur := s.cur, stack := s.stack } with hs3
    have hoff : traceOff dims npar s2 = (s3, .ret 0) := by
      have hc2 : s2.cur = some t := by rw [b2]; rfl
      have hst2 : s2.stack = s.cur :: s.stack := by rw [b3]; rfl
      simp [traceOff, hc2, hg2t, htp1, Ses.put, hst2, hs3, htp3]
    have hg3 : ∀ u, s3.tapes[u]? = if u = t then some tp3 else s2.tapes[u]? :=
      fun u => get_put s2 t u _ hlen2
    have hr3 : Rep n s3 act (fun u => if u = t then some ⟨body.own, dims, npar, keep⟩ else body.traces d u) := by
      refine ⟨by simp [hs3, Ses.put, b4.len], fun u hu => ?_, fun u hu tp' htp' => ?_, fun u hu he => ?_⟩
      · have h : u ≠ t := fun h => hta (h ▸ hu)
        rw [hg3, if_neg h]
        exact b4.active u (by simp [hu])
      · by_cases h : u = t
        · subst h
          rw [hg3] at htp'
          simp only [if_true, Option.some.injEq] at htp'
          subst htp'
          refine ⟨rfl, fun e he => ?_⟩
          simp only [if_true, Option.some.injEq] at he
          subst he
          exact ⟨by simp [htp3, htp1, Done.items], rfl, rfl, rfl⟩
        · rw [hg3, if_neg h] at htp'
          obtain ⟨g1, g2⟩ := b4.idle u (by simp [h, hu]) tp' htp'
          refine ⟨g1, fun e he => g2 e ?_⟩
          rw [← he]
          simp only [if_neg h]
          exact traces_congr body (by simp [h])
      · by_cases h : u = t
        · subst h; exact htn
        · refine b4.exist u (by simp [h, hu]) ?_
          rw [← he]
          simp only [if_neg h]
          congr 1
          exact traces_congr body (by simp [h])
    obtain ⟨s4, k1, k2, k3, k4, k5⟩ := ihk hlk hr3 (c := c) hc hn
    refine ⟨s4, ?_, k2, k3, k4, fun u hu tp' htp' => ?_⟩
    · simp [Part.exec, hon, b1, hoff, k1]
    · have h : u ≠ t := fun h => hta (h ▸ hu)
      have e1 := b5 u (by simp [hu]) tp' (by rw [hg1, if_neg h]; exact htp')
      rw [if_neg h] at e1
      have e2 := k5 u hu tp' (by rw [hg3, if_neg h]; exact e1)
      rw [e2]
      rfl

end Verif.Session
