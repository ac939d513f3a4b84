import Verif.AD.ApiSpec

/-!
# Executing a source program computes its meaning

`cmd_ok`, `src_ok`: the calls a program makes, run on plain numbers (`Prog.spec`), give the values and outcomes `Src.sem` assigns to the program; and every call meets the
conditions `D` if the program does.
-/
set_option linter.all false
namespace Verif.AD
open Elem

variable {K : Type} [Scalar K]

/-- The conditions for a statement. -/
def Cmd.dom (D : Dom K) (par : Nat → K) (s : Cmd K) (e : SE K) : Prop :=
  let ok (a : Ex K) : Prop := a.dom D e.vars par []
  match s with
  | .declE _ a | .set _ a | .acc _ _ a => ok a
  | .divE _ a => ok (.un (.divD 1) a)
  | .cond _ c a b | .condEq _ c a b => ok c ∧ ok a ∧ ok b ∧ ∀ u, c.ev e.vars par [] = some u → D.cond u
  | .condS _ c a | .condEqS _ c a => ok c ∧ ok a ∧ ∀ u, c.ev e.vars par [] = some u → D.cond u
  | _ => True

/-- The conditions for a program, along the path it takes. -/
def Src.dom (D : Dom K) (x par : Nat → K) : Src K → SE K → Prop
  | .done, _ => True
  | .cmd c k, e => c.dom D par e ∧ ∀ e', c.sem x par e = some e' → k.dom D x par e'
  | .ifD c a q t f, e => a.dom D e.vars par [] ∧ ∀ v, a.ev e.vars par [] = some v → D.cond (-q + v) ∧ if c.rel v q then t.dom D x par e else f.dom D x par e
  | .ifD' c q a t f, e => a.dom D e.vars par [] ∧ ∀ v, a.ev e.vars par [] = some v → D.cond (-q + v) ∧ if c.rel q v then t.dom D x par e else f.dom D x par e
  | .ifA c a b t f, e => a.dom D e.vars par [] ∧ b.dom D e.vars par [] ∧ ∀ v w, a.ev e.vars par [] = some v → b.ev e.vars par [] = some w →
      D.cond (v - w) ∧ if c.rel v w then t.dom D x par e else f.dom D x par e

/-- The conditions for a sequence of calls with branches. -/
def Prog.okP (D : Dom K) (x par : Nat → K) : Prog K → SE K → Prop
  | .done, _ => True
  | .stmt s k, e => s.ok D e ∧ ∀ e', s.spec x par e = some e' → k.okP D x par e'
  | .branch c a t f, e => ∀ v, e.vars a = some v → D.cond v ∧ if c.holds v then t.okP D x par e else f.okP D x par e

section
variable {D : Dom K} {x par : Nat → K}

theorem pre_spec {L : List (Stmt K)} {k : Prog K} : ∀ {E E' : SE K}, Exec D x par L E E' → (Prog.pre L k).spec x par E = k.spec x par E' := by
  induction L with
  | nil => intro E E' h; have := h.1; simp [runL] at this; subst this; rfl
  | cons s L ih =>
    intro E E' h
    obtain ⟨h1, h2⟩ := h
    simp only [runL, Option.bind_eq_some_iff] at h1
    obtain ⟨E1, e1, e2⟩ := h1
    simp only [Prog.pre, Prog.spec, e1, Option.bind_some]
    exact ih ⟨e2, h2.2 _ e1⟩

theorem pre_ok {L : List (Stmt K)} {k : Prog K} : ∀ {E E' : SE K}, Exec D x par L E E' → k.okP D x par E' → (Prog.pre L k).okP D x par E := by
  induction L with
  | nil => intro E E' h hk; have := h.1; simp [runL] at this; subst this; exact hk
  | cons s L ih =>
    intro E E' h hk
    obtain ⟨h1, h2⟩ := h
    simp only [runL, Option.bind_eq_some_iff] at h1
    obtain ⟨E1, e1, e2⟩ := h1
    refine ⟨h2.1, fun e' he => ?_⟩
    rw [e1] at he; cases he
    exact ih ⟨e2, h2.2 _ e1⟩ hk

theorem se_eq {E E' : SE K} (h1 : ∀ k, E.vars k = E'.vars k) (h2 : E.ii = E'.ii) (h3 : E.ys = E'.ys) : E = E' := by
  cases E; cases E'; simp_all; exact funext h1

/-- Names from `n` on are unused. -/
def Unused (n : Nat) (E : SE K) : Prop := ∀ k, n ≤ k → E.vars k = none

theorem Unused.lt {n : Nat} {E : SE K} (h : Unused n E) {k : Nat} {v : K} (hv : E.vars k = some v) : k < n := by
  by_contra hk; rw [h k (by omega)] at hv; cases hv

theorem Unused.pre {n : Nat} {E : SE K} (h : Unused n E) : Pre E.vars [] [] n E := ⟨h, fun k v hv => ⟨h.lt hv, hv⟩, .nil⟩

theorem Unused.set {n : Nat} {E : SE K} (h : Unused n E) {d : Nat} (hd : d < n) (v : K) : Unused n (E.set d v) := fun k hk => by simp [show k ≠ d by omega, h k hk]

/-- After the last use of an expression's temporaries they are destroyed and nothing remains but the effect on the variables. -/
theorem finish {E2 F : SE K} {n : Nat} {M : List Nat} (hnd : M.Nodup) (hM : ∀ k ∈ M, n ≤ k) (hl : ∀ k, n ≤ k → ((E2.vars k).isSome ↔ k ∈ M))
    (hF : Unused n F) (hlow : ∀ k, k < n → E2.vars k = F.vars k) (hi : E2.ii = F.ii) (hy : E2.ys = F.ys) : Exec D x par (dels M) E2 F := by
  obtain ⟨E3, c, q, i, y⟩ := ex_dels' (D := D) (x := x) (par := par) M (E := E2) hnd (fun k hk => (hl k (hM k hk)).2 hk)
  have : E3 = F := by
    refine se_eq (fun k => ?_) (i.trans hi) (y.trans hy)
    rw [q]
    by_cases hk : k < n
    · rw [if_neg (fun h => by have := hM k h; omega), hlow k hk]
    · rw [hF k (by omega)]
      split_ifs with h
      · rfl
      · have := (hl k (by omega)).not.2 h
        simpa using this
  rw [← this]; exact c

/-- Two expressions one after the other. -/
theorem two_ok {E : SE K} {n : Nat} {a b : Ex K} {v w : K} (hE : Unused n E) (ha : a.ev E.vars par [] = some v) (hb : b.ev E.vars par [] = some w)
    (da : a.dom D E.vars par []) (db : b.dom D E.vars par []) :
    let ra := a.comp [] n
    let rb := b.comp [] ra.n
    ∃ E2, Exec D x par (ra.code ++ rb.code) E E2 ∧ E2.vars ra.res = some v ∧ E2.vars rb.res = some w ∧ (∀ k, k < n → E2.vars k = E.vars k) ∧
      (ra.all ++ rb.all).Nodup ∧ (∀ k ∈ ra.all ++ rb.all, n ≤ k ∧ k < rb.n) ∧ (∀ k, n ≤ k → ((E2.vars k).isSome ↔ k ∈ ra.all ++ rb.all)) ∧ E2.ii = E.ii ∧ E2.ys = E.ys ∧ n ≤ rb.n ∧
      Pre E.vars [] [] rb.n E2 ∧ ra.res < rb.n ∧ rb.res < rb.n := by
  intro ra rb
  have hp := hE.pre
  obtain ⟨E1, c1, p1⟩ := comp_ok (x := x) a hp ha da
  have n1 := hp.names ha
  have hp1 := hp.step n1 p1
  obtain ⟨E2, c2, p2⟩ := comp_ok (x := x) b hp1 hb db
  have n2 := hp1.names hb
  change Names n ra at n1
  change Post E n ra v E1 at p1
  change Names ra.n rb at n2
  change Post E1 ra.n rb w E2 at p2
  have l1 := n1.le; have l2 := n2.le
  have t1 := n1.res_lt; have t2 := n2.res_lt
  refine ⟨E2, c1.append c2, by rw [p2.low _ n1.res_lt, p1.res], p2.res, fun k hk => by rw [p2.low k (by omega), p1.low k hk],
    nodup_app n1.nd n2.nd n1.bd n2.bd, fun k hk => ?_, fun k hk => ?_, p2.ii.trans p1.ii, p2.ys.trans p1.ys, by omega, hp1.step n2 p2, by omega, t2⟩
  · rcases List.mem_append.1 hk with h | h
    · have := n1.bd k h; omega
    · have := n2.bd k h; omega
  · rw [List.mem_append]
    by_cases h1 : k < ra.n
    · rw [p2.low k h1, p1.high k hk]
      constructor
      · exact .inl
      · rintro (h | h)
        · exact h
        · have := n2.bd k h; omega
    · rw [p2.high k (by omega)]
      constructor
      · exact .inr
      · rintro (h | h)
        · have := n1.bd k h; omega
        · exact h

/-- A call that assigns to the variable `r < n`. -/
theorem finish_set {E2 : SE K} {n r : Nat} {M : List Nat} {z : K} {E : SE K} (hE : Unused n E) (hr : r < n) (hnd : M.Nodup) (hM : ∀ k ∈ M, n ≤ k) (hl : ∀ k, n ≤ k → ((E2.vars k).isSome ↔ k ∈ M))
    (hlow : ∀ k, k < n → E2.vars k = E.vars k) (hi : E2.ii = E.ii) (hy : E2.ys = E.ys) : Exec D x par (dels M) (E2.set r z) (E.set r z) :=
  finish hnd hM (fun k hk => by simp [show k ≠ r by omega]; exact hl k hk) (hE.set hr z)
    (fun k hk => by simp only [SE.set_vars]; split_ifs <;> simp_all) hi hy

theorem cond2_ok {E : SE K} {n r : Nat} {c a : Ex K} {u v : K} (hE : Unused n E) (s : Nat → Nat → Stmt K) (z : K) (hr : r < n)
    (hc : c.ev E.vars par [] = some u) (ha : a.ev E.vars par [] = some v) (dc : c.dom D E.vars par []) (da : a.dom D E.vars par [])
    (hs : ∀ (E2 : SE K) i j, E2.vars i = some u → E2.vars j = some v → E2.vars r = E.vars r → (s i j).spec x par E2 = some (E2.set r z) ∧ (s i j).ok D E2) :
    Exec D x par (two n c a s) E (E.set r z) := by
  obtain ⟨E2, c1, v1, v2, low, nd, bd, hl, hi, hy, _, _⟩ := two_ok (x := x) hE hc ha dc da
  obtain ⟨s1, s2⟩ := hs E2 _ _ v1 v2 (low r hr)
  exact (c1.append (Exec.cons s1 s2 .nil)).append (finish_set hE hr nd (fun k hk => (bd k hk).1) hl low hi hy)

theorem cond3_ok {E : SE K} {n r : Nat} {c a b : Ex K} {u v w : K} (hE : Unused n E) (s : Nat → Nat → Nat → Stmt K) (z : K) (hr : r < n)
    (hc : c.ev E.vars par [] = some u) (ha : a.ev E.vars par [] = some v) (hb : b.ev E.vars par [] = some w)
    (dc : c.dom D E.vars par []) (da : a.dom D E.vars par []) (db : b.dom D E.vars par [])
    (hs : ∀ (E2 : SE K) i j l, E2.vars i = some u → E2.vars j = some v → E2.vars l = some w → E2.vars r = E.vars r → (s i j l).spec x par E2 = some (E2.set r z) ∧ (s i j l).ok D E2) :
    Exec D x par (three n c a b s) E (E.set r z) := by
  obtain ⟨E2, c1, v1, v2, low, nd, bd, hl, hi, hy, hle, hp, t1, t2⟩ := two_ok (x := x) hE hc ha dc da
  obtain ⟨E3, c3, p3⟩ := comp_ok (x := x) b hp hb db
  have n3 := hp.names hb
  unfold three
  simp only []
  generalize c.comp [] n = rc at *
  generalize a.comp [] rc.n = ra at *
  generalize b.comp [] ra.n = rb at *
  have l3 := n3.le
  obtain ⟨s1, s2⟩ := hs E3 rc.res ra.res rb.res (by rw [p3.low _ t1, v1]) (by rw [p3.low _ t2, v2]) p3.res (by rw [p3.low r (by omega), low r hr])
  refine ((c1.append c3).append (Exec.cons s1 s2 .nil)).append (finish_set hE hr (nodup_app nd n3.nd bd n3.bd) (fun k hk => ?_) (fun k hk => ?_) (fun k hk => ?_) (p3.ii.trans hi) (p3.ys.trans hy))
  · rcases List.mem_append.1 hk with h | h
    · exact (bd k h).1
    · have := n3.bd k h; omega
  · rw [List.mem_append]
    by_cases h1 : k < ra.n
    · rw [p3.low k h1, hl k hk]
      constructor
      · exact .inl
      · rintro (h | h)
        · exact h
        · have := n3.bd k h; omega
    · rw [p3.high k (by omega)]
      constructor
      · exact .inr
      · rintro (h | h)
        · have := bd k h; omega
        · exact h
  · rw [p3.low k (by omega), low k hk]

/-- A statement with one expression whose temporary, if it is one, becomes or is added to the variable `d`. -/
theorem one_ok {E : SE K} {n d : Nat} {a : Ex K} {w z : K} (hE : Unused n E) (s1 s2 : Nat → Stmt K) (hd : d < n)
    (ha : a.ev E.vars par [] = some w) (da : a.dom D E.vars par [])
    (h1 : ∀ (E2 : SE K) i, i ≠ d → E2.vars i = some w → E2.vars d = E.vars d → ∃ E3, (s1 i).spec x par E2 = some E3 ∧ (s1 i).ok D E2 ∧ (∀ k, E3.vars k = if k = d then some z else if k = i then none else E2.vars k) ∧ E3.ii = E2.ii ∧ E3.ys = E2.ys)
    (h2 : ∀ (E2 : SE K) i, E2.vars i = some w → E2.vars d = E.vars d → (s2 i).spec x par E2 = some (E2.set d z) ∧ (s2 i).ok D E2) :
    let r := a.comp [] n
    Exec D x par (r.code ++ [if r.tmp then s1 r.res else s2 r.res] ++ dels r.gar) E (E.set d z) := by
  intro r
  have hp := hE.pre
  obtain ⟨E1, c1, p1⟩ := comp_ok (x := x) a hp ha da
  have n1 := hp.names ha
  change Names n r at n1
  change Post E n r w E1 at p1
  have nd := n1.nd'
  cases ht : r.tmp
  · simp only [Bool.false_eq_true, if_false]
    obtain ⟨s, s'⟩ := h2 E1 r.res p1.res (p1.low d hd)
    refine (c1.append (Exec.cons s s' .nil)).append (finish_set hE hd nd.1 (fun k hk => (n1.gar k hk).1) (fun k hk => ?_) p1.low p1.ii p1.ys)
    rw [p1.high k hk, mem_all]; simp [ht]
  · simp only [if_true]
    have hr := n1.bd _ (mem_all.2 (.inr ⟨ht, rfl⟩))
    obtain ⟨E3, s, s', q, i, y⟩ := h1 E1 r.res (by omega) p1.res (p1.low d hd)
    refine (c1.append (Exec.cons s s' .nil)).append (finish nd.1 (fun k hk => (n1.gar k hk).1) (fun k hk => ?_) (hE.set hd z) (fun k hk => ?_) (i.trans p1.ii) (y.trans p1.ys))
    · rw [q, if_neg (by omega)]
      split_ifs with h
      · simp; rw [h]; exact nd.2 ht
      · rw [p1.high k hk, mem_all]; simp [h]
    · rw [q]; simp only [SE.set_vars]
      rw [if_neg (show ¬ k = r.res by omega), p1.low k hk]

theorem accMult_ok {E : SE K} {n d : Nat} {a : Ex K} {u w : K} (hE : Unused n E) (hd : E.vars d = some u)
    (ha : a.ev E.vars par [] = some w) (da : a.dom D E.vars par []) : Exec D x par (accMult n d a) E (E.set d (u * w)) := by
  have hp := hE.pre
  have hdn := hE.lt hd
  obtain ⟨E1, c1, p1⟩ := comp_ok (x := x) a hp ha da
  have n1 := hp.names ha
  unfold accMult
  refine (c1.append (Exec.cons (s := .accA .mult d (a.comp [] n).res) (e1 := E1.set d (u * w)) ?_ trivial .nil)).append (finish_set hE hdn n1.nd (fun k hk => (n1.bd k hk).1) p1.high p1.low p1.ii p1.ys)
  simp [Stmt.spec, p1.res, p1.low d hdn, hd, Acc.fn]

theorem cmd_ok (c : Cmd K) {n : Nat} {E E' : SE K} (hE : Unused n E) (hf : c.fits n) (hd : c.dom D par E) (hs : c.sem x par E = some E') :
    Exec D x par (c.comp n) E E' ∧ Unused n E' := by
  cases c with
  | decl v =>
    simp only [Cmd.sem] at hs; split at hs
    · cases hs; rename_i h; exact ⟨.cons (by simp [Stmt.spec, h]) trivial .nil, hE.set hf _⟩
    · cases hs
  | kill v =>
    simp only [Cmd.sem] at hs; split at hs
    · cases hs; rename_i h; exact ⟨.cons (by simp [Stmt.spec, h]) trivial .nil, fun k hk => by simp; intro _; exact hE k hk⟩
    · cases hs
  | setD v a =>
    simp only [Cmd.sem] at hs; split at hs
    · cases hs; rename_i h; obtain ⟨u, hu⟩ := Option.isSome_iff_exists.1 h
      exact ⟨.cons (by simp [Stmt.spec, h]) trivial .nil, hE.set (hE.lt hu) _⟩
    · cases hs
  | setP v a =>
    simp only [Cmd.sem] at hs; split at hs
    · cases hs; rename_i h; obtain ⟨u, hu⟩ := Option.isSome_iff_exists.1 h
      exact ⟨.cons (by simp [Stmt.spec, h]) trivial .nil, hE.set (hE.lt hu) _⟩
    · cases hs
  | accD f v a =>
    simp only [Cmd.sem, Option.map_eq_some_iff] at hs; obtain ⟨u, hu, rfl⟩ := hs
    exact ⟨.cons (by simp [Stmt.spec, hu]) trivial .nil, hE.set (hE.lt hu) _⟩
  | divD v a =>
    simp only [Cmd.sem, Option.map_eq_some_iff] at hs; obtain ⟨u, hu, rfl⟩ := hs
    refine ⟨.cons (e1 := E.set v (u / a)) ?_ trivial .nil, hE.set (hE.lt hu) _⟩
    simp [Stmt.spec, hu, Acc.fn, div_eq_mul_inv]
  | incr v =>
    simp only [Cmd.sem, Option.map_eq_some_iff] at hs; obtain ⟨u, hu, rfl⟩ := hs
    exact ⟨.cons (by simp [Stmt.spec, hu]) trivial .nil, hE.set (hE.lt hu) _⟩
  | decr v =>
    simp only [Cmd.sem, Option.map_eq_some_iff] at hs; obtain ⟨u, hu, rfl⟩ := hs
    exact ⟨.cons (by simp [Stmt.spec, hu]) trivial .nil, hE.set (hE.lt hu) _⟩
  | indep v =>
    simp only [Cmd.sem] at hs; split at hs
    · cases hs; rename_i h; obtain ⟨u, hu⟩ := Option.isSome_iff_exists.1 h
      exact ⟨.cons (by simp [Stmt.spec, h]) trivial .nil, hE.set (hE.lt hu) _⟩
    · cases hs
  | dep v =>
    simp only [Cmd.sem, Option.map_eq_some_iff] at hs; obtain ⟨u, hu, rfl⟩ := hs
    exact ⟨.cons (by simp [Stmt.spec, hu]) trivial .nil, hE⟩
  | postIncr r v =>
    simp only [Cmd.sem] at hs; split at hs
    · rename_i h; simp only [Option.map_eq_some_iff] at hs; obtain ⟨u, hu, rfl⟩ := hs
      have hne : v ≠ r := by rintro rfl; simp [hu] at h
      refine ⟨.cons (e1 := E.set r 0) (by simp [Stmt.spec, h]) trivial (.cons (e1 := E.set r u) ?_ trivial (.cons (e1 := (E.set r u).set v (u + 1)) ?_ trivial .nil)), (hE.set hf.1 _).set (hE.lt hu) _⟩
      · simp only [Stmt.spec, SE.set_vars, if_true, Option.isSome_some, hne, if_false, hu, Option.map_some, Option.some.injEq]
        exact se_eq (fun k => by simp; split_ifs <;> rfl) rfl rfl
      · simp [Stmt.spec, hne, hu]
    · cases hs
  | postDecr r v =>
    simp only [Cmd.sem] at hs; split at hs
    · rename_i h; simp only [Option.map_eq_some_iff] at hs; obtain ⟨u, hu, rfl⟩ := hs
      have hne : v ≠ r := by rintro rfl; simp [hu] at h
      refine ⟨.cons (e1 := E.set r 0) (by simp [Stmt.spec, h]) trivial (.cons (e1 := E.set r u) ?_ trivial (.cons (e1 := (E.set r u).set v (u - 1)) ?_ trivial .nil)), (hE.set hf.1 _).set (hE.lt hu) _⟩
      · simp only [Stmt.spec, SE.set_vars, if_true, Option.isSome_some, hne, if_false, hu, Option.map_some, Option.some.injEq]
        exact se_eq (fun k => by simp; split_ifs <;> rfl) rfl rfl
      · simp [Stmt.spec, hne, hu]
    · cases hs
  | declE v a =>
    simp only [Cmd.sem] at hs; split at hs
    · rename_i h; simp only [Option.map_eq_some_iff] at hs; obtain ⟨w, hw, rfl⟩ := hs
      have hv : E.vars v = none := by simpa using h
      refine ⟨one_ok hE (Stmt.move v) (Stmt.copy v) hf.1 hw hd ?_ ?_, hE.set hf.1 _⟩
      · intro E2 i hi h1 h2
        refine ⟨(E2.del i).set v w, by simp [Stmt.spec, h2, hv, h1], trivial, fun k => by simp, rfl, rfl⟩
      · intro E2 i h1 h2
        exact ⟨by simp [Stmt.spec, h2, hv, h1], trivial⟩
    · cases hs
  | set v a =>
    simp only [Cmd.sem] at hs; split at hs
    · rename_i h; simp only [Option.map_eq_some_iff] at hs; obtain ⟨w, hw, rfl⟩ := hs
      obtain ⟨u, hu⟩ := Option.isSome_iff_exists.1 h
      refine ⟨one_ok hE (Stmt.moveA v) (Stmt.setA v) (hE.lt hu) hw hd ?_ ?_, hE.set (hE.lt hu) _⟩
      · intro E2 i hi h1 h2
        refine ⟨(E2.del i).set v w, by simp [Stmt.spec, h2, hu, h1, hi.symm], trivial, fun k => by simp, rfl, rfl⟩
      · intro E2 i h1 h2
        exact ⟨by simp [Stmt.spec, h2, hu, h1], trivial⟩
    · cases hs
  | acc f v a =>
    simp only [Cmd.sem, Option.bind_eq_some_iff, Option.map_eq_some_iff] at hs; obtain ⟨u, hu, w, hw, rfl⟩ := hs
    cases f with
    | mult => exact ⟨accMult_ok hE hu hw hd, hE.set (hE.lt hu) _⟩
    | plus =>
      refine ⟨one_ok hE (Stmt.accR (decide (Acc.plus = Acc.minus)) v) (Stmt.accA .plus v) (hE.lt hu) hw hd ?_ ?_, hE.set (hE.lt hu) _⟩
      · intro E2 i hi h1 h2
        refine ⟨(E2.set v (u + w)).del i, by simp [Stmt.spec, h2, hu, h1, hi.symm], trivial, fun k => ?_, rfl, rfl⟩
        simp [Acc.fn]; split_ifs <;> simp_all
      · intro E2 i h1 h2
        exact ⟨by simp [Stmt.spec, h2, hu, h1], trivial⟩
    | minus =>
      refine ⟨one_ok hE (Stmt.accR (decide (Acc.minus = Acc.minus)) v) (Stmt.accA .minus v) (hE.lt hu) hw hd ?_ ?_, hE.set (hE.lt hu) _⟩
      · intro E2 i hi h1 h2
        refine ⟨(E2.set v (u - w)).del i, by simp [Stmt.spec, h2, hu, h1, hi.symm], trivial, fun k => ?_, rfl, rfl⟩
        simp [Acc.fn]; split_ifs <;> simp_all
      · intro E2 i h1 h2
        exact ⟨by simp [Stmt.spec, h2, hu, h1], trivial⟩
  | divE v a =>
    simp only [Cmd.sem, Option.bind_eq_some_iff, Option.map_eq_some_iff] at hs; obtain ⟨u, hu, w, hw, rfl⟩ := hs
    have : (Ex.un (.divD 1) a).ev E.vars par [] = some (1 / w) := by simp [Ex.ev, hw, Un.fn]
    have h := accMult_ok (x := x) hE hu this hd
    rw [show u * (1 / w) = u / w by rw [mul_one_div]] at h
    exact ⟨h, hE.set (hE.lt hu) _⟩
  | cond r c a b =>
    simp only [Cmd.sem] at hs; split at hs
    · rename_i h
      obtain ⟨y, hy⟩ := Option.isSome_iff_exists.1 h
      simp only [Option.bind_eq_some_iff, Option.map_eq_some_iff] at hs
      obtain ⟨u, hu, v, hv, w, hw, rfl⟩ := hs
      refine ⟨cond3_ok hE _ _ (hE.lt hy) hu hv hw hd.1 hd.2.1 hd.2.2.1 ?_, hE.set (hE.lt hy) _⟩
      intro E2 i j l h1 h2 h3 h4
      exact ⟨by simp [Stmt.spec, h1, h2, h3, h4, hy], fun v' hv' => by rw [h1] at hv'; cases hv'; exact hd.2.2.2 u hu⟩
    · cases hs
  | condEq r c a b =>
    simp only [Cmd.sem] at hs; split at hs
    · rename_i h
      obtain ⟨y, hy⟩ := Option.isSome_iff_exists.1 h
      simp only [Option.bind_eq_some_iff, Option.map_eq_some_iff] at hs
      obtain ⟨u, hu, v, hv, w, hw, rfl⟩ := hs
      refine ⟨cond3_ok hE _ _ (hE.lt hy) hu hv hw hd.1 hd.2.1 hd.2.2.1 ?_, hE.set (hE.lt hy) _⟩
      intro E2 i j l h1 h2 h3 h4
      exact ⟨by simp [Stmt.spec, h1, h2, h3, h4, hy], fun v' hv' => by rw [h1] at hv'; cases hv'; exact hd.2.2.2 u hu⟩
    · cases hs
  | condS r c a =>
    simp only [Cmd.sem, Option.bind_eq_some_iff, Option.map_eq_some_iff] at hs
    obtain ⟨y, hy, u, hu, v, hv, rfl⟩ := hs
    refine ⟨cond2_ok hE _ _ (hE.lt hy) hu hv hd.1 hd.2.1 ?_, hE.set (hE.lt hy) _⟩
    intro E2 i j h1 h2 h4
    exact ⟨by simp [Stmt.spec, h1, h2, h4, hy], fun v' hv' => by rw [h1] at hv'; cases hv'; exact hd.2.2 u hu⟩
  | condEqS r c a =>
    simp only [Cmd.sem, Option.bind_eq_some_iff, Option.map_eq_some_iff] at hs
    obtain ⟨y, hy, u, hu, v, hv, rfl⟩ := hs
    refine ⟨cond2_ok hE _ _ (hE.lt hy) hu hv hd.1 hd.2.1 ?_, hE.set (hE.lt hy) _⟩
    intro E2 i j h1 h2 h4
    exact ⟨by simp [Stmt.spec, h1, h2, h4, hy], fun v' hv' => by rw [h1] at hv'; cases hv'; exact hd.2.2 u hu⟩

theorem cmp_shift (c : Cmp) (v q : K) : c.holds (-q + v) = true ↔ c.rel v q := by
  cases c <;> simp only [Cmp.holds, Cmp.rel, decide_eq_true_eq]
  · rw [neg_add_eq_zero, eq_comm]
  · rw [Ne, neg_add_eq_zero, eq_comm]
  · constructor <;> intro h <;> linarith
  · constructor <;> intro h <;> linarith
  · constructor <;> intro h <;> linarith
  · constructor <;> intro h <;> linarith

theorem cmp_diff (c : Cmp) (v w : K) : c.holds (v - w) = true ↔ c.rel v w := by
  rw [← cmp_shift, show -w + v = v - w by ring]

theorem cmp_flip (c : Cmp) (v q : K) : c.flip.rel v q ↔ c.rel q v := by
  cases c <;> simp only [Cmp.flip, Cmp.rel, eq_comm, ne_eq, ge_iff_le, gt_iff_lt]

/-- A branch on the object `r`. -/
theorem branch_ok {c : Cmp} {r : Nat} {T F : Prog K} {E1 : SE K} {v : K} {p : Prop} [Decidable p] (hv : E1.vars r = some v) (hp : c.holds v = true ↔ p) (hc : D.cond v)
    {RT RF : Option (SE K × List Bool)} {R : SE K × List Bool} (hT : p → ∀ R, RT = some R → T.spec x par E1 = some R ∧ T.okP D x par E1) (hF : ¬ p → ∀ R, RF = some R → F.spec x par E1 = some R ∧ F.okP D x par E1)
    (h : (if p then RT.map fun r => (r.1, true :: r.2) else RF.map fun r => (r.1, false :: r.2)) = some R) :
    (Prog.branch c r T F).spec x par E1 = some R ∧ (Prog.branch c r T F).okP D x par E1 := by
  simp only [Prog.spec, hv, Option.bind_some, Prog.okP, Option.some.injEq, forall_eq']
  by_cases hh : p
  · rw [if_pos hh] at h
    simp only [hp.2 hh, if_true]
    simp only [Option.map_eq_some_iff] at h
    obtain ⟨R', h1, rfl⟩ := h
    obtain ⟨a, b⟩ := hT hh _ h1
    simp [a, b, hc]
  · rw [if_neg hh] at h
    simp only [show ¬ c.holds v = true from fun e => hh (hp.1 e), if_false]
    simp only [Option.map_eq_some_iff] at h
    obtain ⟨R', h1, rfl⟩ := h
    obtain ⟨a, b⟩ := hF hh _ h1
    simp [a, b, hc]

theorem cmpD_ok {c : Cmp} {e : Ex K} {q : K} {T F : Prog K} {n : Nat} {E : SE K} {v : K} {p : Prop} [Decidable p] (hE : Unused n E) (hv : e.ev E.vars par [] = some v) (hd : e.dom D E.vars par [])
    (hp : c.rel v q ↔ p) (hc : D.cond (-q + v))
    {RT RF : Option (SE K × List Bool)} {R : SE K × List Bool} (hT : p → ∀ R, RT = some R → T.spec x par E = some R ∧ T.okP D x par E) (hF : ¬ p → ∀ R, RF = some R → F.spec x par E = some R ∧ F.okP D x par E)
    (h : (if p then RT.map fun r => (r.1, true :: r.2) else RF.map fun r => (r.1, false :: r.2)) = some R) :
    (cmpD n c e q T F).spec x par E = some R ∧ (cmpD n c e q T F).okP D x par E := by
  have hpre := hE.pre
  obtain ⟨E1, c1, p1⟩ := comp_ok (x := x) e hpre hv hd
  have n1 := hpre.names hv
  unfold cmpD
  simp only []
  generalize e.comp [] n = r at *
  have lt := n1.res_lt
  have le := n1.le
  split
  · rename_i hq
    subst hq
    rw [pre_spec c1]
    have fin : Exec D x par (dels r.all) E1 E := finish n1.nd (fun k hk => (n1.bd k hk).1) p1.high hE p1.low p1.ii p1.ys
    have := branch_ok (D := D) (x := x) (par := par) (c := c) (r := r.res) (T := Prog.pre (dels r.all) T) (F := Prog.pre (dels r.all) F) (RT := RT) (RF := RF) (p := p) p1.res (by rw [← hp, ← cmp_shift]; simp) (by simpa using hc)
      (fun hh R hR => by obtain ⟨a, b⟩ := hT hh R hR; exact ⟨by rw [pre_spec fin, a], pre_ok fin b⟩)
      (fun hh R hR => by obtain ⟨a, b⟩ := hF hh R hR; exact ⟨by rw [pre_spec fin, a], pre_ok fin b⟩) h
    exact ⟨this.1, pre_ok c1 this.2⟩
  · have hd0 := p1.dead n1 r.n le_rfl
    have c2 : Exec D x par (r.code ++ [.new r.n, .un (.plusD (-q)) r.res r.n]) E ((E1.set r.n 0).set r.n (-q + v)) :=
      c1.append (ex_new hd0 (ex_un (by simp; rfl) (by simp [show r.res ≠ r.n by omega]; exact p1.res) (D.plusD _ _) .nil))
    rw [pre_spec c2]
    have fin : Exec D x par (dels (r.all ++ [r.n])) ((E1.set r.n 0).set r.n (-q + v)) E := by
      refine finish ?_ (fun k hk => ?_) (fun k hk => ?_) hE (fun k hk => ?_) p1.ii p1.ys
      · rw [List.nodup_append]
        exact ⟨n1.nd, by simp, by intro a ha b hb; simp at hb; subst hb; rintro rfl; have := n1.bd _ ha; omega⟩
      · rcases List.mem_append.1 hk with h | h
        · exact (n1.bd k h).1
        · simp at h; omega
      · by_cases h : k = r.n
        · simp [h]
        · simp [h]; exact p1.high k hk
      · simp [show k ≠ r.n by omega]; exact p1.low k hk
    have := branch_ok (D := D) (x := x) (par := par) (c := c) (r := r.n) (T := Prog.pre (dels (r.all ++ [r.n])) T) (F := Prog.pre (dels (r.all ++ [r.n])) F) (RT := RT) (RF := RF) (p := p)
      (E1 := (E1.set r.n 0).set r.n (-q + v)) (v := -q + v) (by simp) (by rw [cmp_shift, hp]) hc
      (fun hh R hR => by obtain ⟨a, b⟩ := hT hh R hR; exact ⟨by rw [pre_spec fin, a], pre_ok fin b⟩)
      (fun hh R hR => by obtain ⟨a, b⟩ := hF hh R hR; exact ⟨by rw [pre_spec fin, a], pre_ok fin b⟩) h
    exact ⟨this.1, pre_ok c2 this.2⟩

/-- The calls of a program compute its meaning. -/
theorem src_ok (S : Src K) {n : Nat} : ∀ {E : SE K} {R : SE K × List Bool}, Unused n E → S.fits n → S.dom D x par E → S.sem x par E = some R →
    (S.comp n).spec x par E = some R ∧ (S.comp n).okP D x par E := by
  induction S with
  | done => intro E R _ _ _ h; exact ⟨h, trivial⟩
  | cmd c k ih =>
    intro E R hE hf hd h
    simp only [Src.sem, Option.bind_eq_some_iff] at h
    obtain ⟨E', h1, h2⟩ := h
    obtain ⟨e1, e2⟩ := cmd_ok c hE hf.1 hd.1 h1
    obtain ⟨i1, i2⟩ := ih e2 hf.2 (hd.2 E' h1) h2
    exact ⟨by simp only [Src.comp]; rw [pre_spec e1, i1], pre_ok e1 i2⟩
  | ifD c a q t f iht ihf =>
    intro E R hE hf hd h
    simp only [Src.sem, Option.bind_eq_some_iff] at h
    obtain ⟨v, h1, h2⟩ := h
    obtain ⟨d1, d2⟩ := hd.2 v h1
    exact cmpD_ok hE h1 hd.1 Iff.rfl d1 (fun hh R hR => iht hE hf.2.1 (by simpa [hh] using d2) hR) (fun hh R hR => ihf hE hf.2.2 (by simpa [hh] using d2) hR) h2
  | ifD' c q a t f iht ihf =>
    intro E R hE hf hd h
    simp only [Src.sem, Option.bind_eq_some_iff] at h
    obtain ⟨v, h1, h2⟩ := h
    obtain ⟨d1, d2⟩ := hd.2 v h1
    exact cmpD_ok hE h1 hd.1 (cmp_flip c v q) d1 (fun hh R hR => iht hE hf.2.1 (by simpa [hh] using d2) hR) (fun hh R hR => ihf hE hf.2.2 (by simpa [hh] using d2) hR) h2
  | ifA c a b t f iht ihf =>
    intro E R hE hf hd h
    simp only [Src.sem, Option.bind_eq_some_iff] at h
    obtain ⟨v, h1, w, h2, h3⟩ := h
    obtain ⟨d1, d2⟩ := hd.2.2 v w h1 h2
    obtain ⟨E2, c1, v1, v2, low, nd, bd, hl, hi, hy, hle, hpre, t1, t2⟩ := two_ok (x := x) hE h1 h2 hd.1 hd.2.1
    simp only [Src.comp]
    generalize a.comp [] n = ra at *
    generalize b.comp [] ra.n = rb at *
    have hd0 := hpre.dead rb.n le_rfl
    have c2 : Exec D x par (ra.code ++ rb.code ++ [.new rb.n, .bin .minus true ra.res rb.res rb.n]) E ((E2.set rb.n 0).set rb.n (v - w)) :=
      c1.append (ex_new hd0 (ex_bin (by simp; rfl) (by simp [show ra.res ≠ rb.n by omega]; exact v1) (by simp [show rb.res ≠ rb.n by omega]; exact v2) (D.minus _ _) .nil))
    rw [pre_spec c2]
    have fin : Exec D x par (dels (ra.all ++ rb.all ++ [rb.n])) ((E2.set rb.n 0).set rb.n (v - w)) E := by
      refine finish ?_ (fun k hk => ?_) (fun k hk => ?_) hE (fun k hk => ?_) hi hy
      · rw [List.nodup_append]
        exact ⟨nd, by simp, by intro a ha b hb; simp at hb; subst hb; rintro rfl; have := bd _ ha; omega⟩
      · rcases List.mem_append.1 hk with h | h
        · exact (bd k h).1
        · simp at h; omega
      · by_cases h : k = rb.n
        · simp [h]
        · simp only [SE.set_vars, h, if_false]; rw [hl k hk]; simp [h]
      · simp [show k ≠ rb.n by omega]; exact low k hk
    have := branch_ok (D := D) (x := x) (par := par) (c := c) (r := rb.n) (T := Prog.pre (dels (ra.all ++ rb.all ++ [rb.n])) (t.comp n)) (F := Prog.pre (dels (ra.all ++ rb.all ++ [rb.n])) (f.comp n))
      (E1 := (E2.set rb.n 0).set rb.n (v - w)) (v := v - w) (p := c.rel v w) (by simp) (cmp_diff c v w) d1
      (fun hh R hR => by obtain ⟨a, b⟩ := iht hE hf.2.2.1 (by simpa [hh] using d2) hR; exact ⟨by rw [pre_spec fin, a], pre_ok fin b⟩)
      (fun hh R hR => by obtain ⟨a, b⟩ := ihf hE hf.2.2.2 (by simpa [hh] using d2) hR; exact ⟨by rw [pre_spec fin, a], pre_ok fin b⟩) h3
    exact ⟨this.1, pre_ok c2 this.2⟩
end

end Verif.AD
