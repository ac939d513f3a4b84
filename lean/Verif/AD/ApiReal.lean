import Verif.AD.ApiProg
import Verif.AD.RecordSmooth
import Verif.AD.RecordWf
import Verif.AD.RecordKeep

/-!
# Differentiability and the tape discipline at source level

`Dom.real lv`: every call is differentiable at its arguments (`Stmt.smooth`).  `src_disc`: the calls of a program keep the discipline `Prog.disc` if the
program keeps the corresponding one on its variables.  `src_noFmin`: no `fmin` of two lvalues.
-/
set_option linter.all false
namespace Verif.AD
open Elem

/-! ## Conditions -/

/-- No conditions. -/
def Dom.all {K : Type} [Scalar K] : Dom K where
  un _ _ := True
  bin _ _ _ := True
  quad _ _ _ _ := True
  quadE _ _ _ := True
  cond _ := True
  neg _ := trivial
  plusD _ _ := trivial
  plus _ _ := trivial
  minus _ _ := trivial
  mult _ _ := trivial
  quad_ok q v i _ := ⟨by
    generalize (compChain q : List (Un K)) = C
    generalize quadStart q v = w
    induction C generalizing w with
    | nil => trivial
    | cons f C ih => exact ⟨trivial, ih _⟩, trivial⟩

/-- Differentiability: `Un.smooth`; the divisor and the condition are not 0, `fmin` is not called with equal values, the arguments of asin, … are in the open domain. -/
noncomputable def Dom.real (lv : Sm) : Dom ℝ where
  un := Un.smooth lv
  bin f v w := match f with
    | .div => w ≠ 0
    | .fmin => v ≠ w
    | _ => True
  quad q v w i := quadDom q v ∧ w = quadDer q v ∧ (i → quadEdge q (q.fn v))
  quadE q v i := quadDom q v ∧ (i → quadEdge q (q.fn v))
  cond v := v ≠ 0
  neg _ := trivial
  plusD _ _ := trivial
  plus _ _ := trivial
  minus _ _ := trivial
  mult _ _ := trivial
  quad_ok q v i h := by
    obtain ⟨h1, h2⟩ := h
    have e1 : quadDom q v → -1 < v → v < 1 → 0 < 1 - v * v := fun _ a b => by nlinarith
    have e2 : 0 < 1 + v * v := by nlinarith [mul_self_nonneg v]
    have key : chainDom (Un.smooth lv) (compChain q) (quadStart q v) ∧ chainVal (compChain q) (quadStart q v) = quadDer q v := by
      cases q <;> simp only [quadDom] at h1 <;>
        simp only [compChain, quadStart, chainDom, chainVal, quadDer, Un.smooth, Un.fn, and_true, true_and]
      · exact e2.ne'
      · have := e1 h1 h1.1 h1.2
        exact ⟨⟨this, (Real.sqrt_pos.2 this).ne'⟩, rfl⟩
      · have := e1 h1 h1.1 h1.2
        exact ⟨⟨this, (Real.sqrt_pos.2 this).ne'⟩, rfl⟩
      · exact ⟨⟨e2, (Real.sqrt_pos.2 e2).ne'⟩, rfl⟩
      · have : 0 < v * v - 1 := by nlinarith
        exact ⟨⟨this, (Real.sqrt_pos.2 this).ne'⟩, rfl⟩
      · exact (e1 h1 h1.1 h1.2).ne'
      · show 2 / √(Real.arccos (-1)) * _ = _
        rw [Real.arccos_neg_one]; rfl
      · show -2 / √(Real.arccos (-1)) * _ = _
        rw [Real.arccos_neg_one]; rfl
    exact ⟨key.1, h1, key.2, h2⟩

theorem ok_smooth {lv : Sm} {s : Stmt ℝ} {e : SE ℝ} (h : s.ok (Dom.real lv) e) : s.smooth lv e := by
  cases s with
  | un f a d => exact h
  | bin f l a b d =>
    cases f <;> simp only [Stmt.smooth]
    · intro w hw; obtain ⟨v', w', h1, h2, h3⟩ := h; rw [h2] at hw; cases hw; exact h3
    · intro v w hv hw; obtain ⟨v', w', h1, h2, h3⟩ := h; rw [h2] at hw; rw [h1] at hv; cases hw; cases hv; exact .inl h3
  | quad q a b d => exact h
  | cond r c a b => exact h
  | condS r c a => exact h
  | condEq r c a b => exact h
  | condEqS r c a => exact h
  | _ => trivial

theorem okP_smooth {lv : Sm} {x par : Nat → ℝ} (p : Prog ℝ) : ∀ {e : SE ℝ}, p.okP (Dom.real lv) x par e → p.smooth lv x par e := by
  induction p with
  | done => intro e _; trivial
  | stmt s k ih => intro e h; exact ⟨ok_smooth h.1, fun e' he => ih (h.2 e' he)⟩
  | branch c a t f iht ihf =>
    intro e h v hv
    obtain ⟨h1, h2⟩ := h v hv
    refine ⟨h1, ?_⟩
    split_ifs at h2 ⊢ with hh
    · exact iht h2
    · exact ihf h2

/-! ## The discipline -/

variable {K : Type} [Scalar K]

/-- All variables of an expression satisfy `P`. -/
def Ex.reads (P : Nat → Prop) : Ex K → Prop
  | .var v => P v
  | .arg _ | .par _ | .num _ => True
  | .lv e | .un _ e | .trig _ e | .quad _ e => e.reads P
  | .bin _ a b => a.reads P ∧ b.reads P
  | .cond c a b => c.reads P ∧ a.reads P ∧ b.reads P
  | .argE e b | .locE e b => e.reads P ∧ b.reads P

/-- A constant: `v = adouble(c)`. -/
def Ex.isConst : Ex K → Bool
  | .num _ | .par _ => true
  | _ => false

/-- No variable is read after `>>=` and before the next assignment to it; `<<=` is applied to a variable holding a constant. -/
def Cmd.disc (s : Cmd K) (m : Disc) : Prop :=
  match s with
  | .declE _ e | .set _ e | .acc _ _ e | .divE _ e => e.reads (· ∉ m.Q)
  | .cond _ c a b | .condEq _ c a b => c.reads (· ∉ m.Q) ∧ a.reads (· ∉ m.Q) ∧ b.reads (· ∉ m.Q)
  | .condS _ c a | .condEqS _ c a => c.reads (· ∉ m.Q) ∧ a.reads (· ∉ m.Q)
  | .postIncr _ v | .postDecr _ v | .dep v => v ∉ m.Q
  | .indep v => v ∈ m.C
  | _ => True

def Cmd.discNext (s : Cmd K) (m : Disc) : Disc :=
  match s with
  | .decl v | .setD v _ | .setP v _ => ⟨insert v m.C, m.Q \ {v}⟩
  | .declE v e | .set v e => ⟨if e.isConst then insert v m.C else m.C \ {v}, m.Q \ {v}⟩
  | .kill v | .postIncr v _ | .postDecr v _ => ⟨m.C \ {v}, m.Q \ {v}⟩
  | .acc _ v _ | .divE v _ | .indep v => ⟨m.C \ {v}, m.Q⟩
  | .accD _ _ _ | .divD _ _ | .incr _ | .decr _ => m
  | .dep v => ⟨m.C, insert v m.Q⟩
  | .cond r _ _ _ | .condS r _ _ | .condEq r _ _ _ | .condEqS r _ _ => ⟨m.C \ {r}, m.Q⟩

def Src.disc : Src K → Disc → Prop
  | .done, _ => True
  | .cmd c k, m => c.disc m ∧ k.disc (c.discNext m)
  | .ifD _ a _ t f, m | .ifD' _ _ a t f, m => a.reads (· ∉ m.Q) ∧ t.disc m ∧ f.disc m
  | .ifA _ a b t f, m => a.reads (· ∉ m.Q) ∧ b.reads (· ∉ m.Q) ∧ t.disc m ∧ f.disc m

def discL : List (Stmt K) → Disc → Prop
  | [], _ => True
  | s :: L, m => s.disc m ∧ discL L (s.discNext m)
def nextL : List (Stmt K) → Disc → Disc
  | [], m => m
  | s :: L, m => nextL L (s.discNext m)

theorem pre_disc {L : List (Stmt K)} {k : Prog K} : ∀ {m : Disc}, discL L m → k.disc (nextL L m) → (Prog.pre L k).disc m := by
  induction L with
  | nil => intro m _ h; exact h
  | cons s L ih => intro m h1 h2; exact ⟨h1.1, ih h1.2 h2⟩

/-- Nothing changes below `N`; nothing tainted from `N` on. -/
structure Clean (N : Nat) (m m' : Disc) : Prop where
  C : ∀ k, k < N → (k ∈ m'.C ↔ k ∈ m.C)
  Q : ∀ k, k < N → (k ∈ m'.Q ↔ k ∈ m.Q)
  hi : ∀ k, N ≤ k → k ∉ m'.Q

theorem Clean.trans {N : Nat} {m m' m'' : Disc} (h : Clean N m m') (h' : Clean N m' m'') : Clean N m m'' :=
  ⟨fun k hk => (h'.C k hk).trans (h.C k hk), fun k hk => (h'.Q k hk).trans (h.Q k hk), h'.hi⟩

/-- May be read: a temporary, or not tainted. -/
def Usable (N : Nat) (Q : Set Nat) (k : Nat) : Prop := N ≤ k ∨ k ∉ Q

/-- The calls keep the discipline and touch only names from `N` on. -/
def Tidy (N : Nat) (Q : Set Nat) (L : List (Stmt K)) : Prop :=
  ∀ m : Disc, (∀ k, k < N → k ∈ m.Q → k ∈ Q) → (∀ k, N ≤ k → k ∉ m.Q) → discL L m ∧ Clean N m (nextL L m)

theorem Tidy.nil {N : Nat} {Q : Set Nat} : Tidy N Q ([] : List (Stmt K)) := fun m _ h => ⟨trivial, fun _ _ => Iff.rfl, fun _ _ => Iff.rfl, h⟩

theorem discL_append {L M : List (Stmt K)} : ∀ {m : Disc}, discL (L ++ M) m ↔ discL L m ∧ discL M (nextL L m) := by
  induction L with
  | nil => intro m; simp [discL, nextL]
  | cons s L ih => intro m; simp only [List.cons_append, discL, nextL, ih, and_assoc]
theorem nextL_append {L M : List (Stmt K)} : ∀ {m : Disc}, nextL (L ++ M) m = nextL M (nextL L m) := by
  induction L with
  | nil => intro m; rfl
  | cons s L ih => intro m; simp only [List.cons_append, nextL, ih]

theorem Tidy.append {N : Nat} {Q : Set Nat} {L M : List (Stmt K)} (h : Tidy N Q L) (h' : Tidy N Q M) : Tidy N Q (L ++ M) := by
  intro m h1 h2
  obtain ⟨a, b⟩ := h m h1 h2
  obtain ⟨c, d⟩ := h' (nextL L m) (fun k hk hQ => h1 k hk ((b.Q k hk).1 hQ)) b.hi
  rw [discL_append, nextL_append]
  exact ⟨⟨a, c⟩, b.trans d⟩

/-- Calls other than sin, cos, `<<=`, `>>=` that write only to names from `N` on. -/
def Stmt.quiet (N : Nat) (Q : Set Nat) (s : Stmt K) : Prop :=
  (∀ a ∈ s.uses, Usable N Q a) ∧ match s with
  | .new d | .newD d _ | .setD d _ | .setP d _ | .copy d _ | .setA d _ | .un _ _ d | .bin _ _ _ _ d | .quad _ _ _ d | .del d | .accD _ d _ | .incr d | .decr d
  | .accA _ d _ | .cond d _ _ _ | .condS d _ _ | .condEq d _ _ _ | .condEqS d _ _ => N ≤ d
  | .move d a => N ≤ d ∧ N ≤ a
  | .moveA a b => N ≤ a ∧ N ≤ b
  | .accR _ a t => N ≤ a ∧ N ≤ t
  | .dep _ | .indep _ | .trig _ _ _ _ => False

theorem Stmt.quiet.tidy {N : Nat} {Q : Set Nat} {s : Stmt K} (h : s.quiet N Q) : Tidy N Q [s] := by
  intro m h1 h2
  have hu : ∀ a ∈ s.uses, a ∉ m.Q := fun a ha hm => by
    rcases h.1 a ha with h | h
    · exact h2 a h hm
    · by_cases hk : a < N
      · exact h (h1 a hk hm)
      · exact h2 a (by omega) hm
  have hq := h.2
  cases s <;> simp only [] at hq
  all_goals simp only [discL, nextL, Stmt.disc, Stmt.discNext, and_true]
  all_goals refine ⟨hu, ?_, ?_, ?_⟩
  all_goals intro k hk
  all_goals try simp only [moveSet, Set.mem_insert_iff, Set.mem_diff, Set.mem_singleton_iff, Set.mem_setOf_eq]
  all_goals first
      | exact h2 k hk
      | (have := h2 k hk; tauto)
      | grind

theorem tidy_quiet {N : Nat} {Q : Set Nat} {L : List (Stmt K)} (h : ∀ s ∈ L, s.quiet N Q) : Tidy N Q L := by
  induction L with
  | nil => exact .nil
  | cons s L ih => exact (h s (by simp)).tidy.append (M := L) (ih fun t ht => h t (by simp [ht]))

theorem tidy_trig {N : Nat} {Q : Set Nat} {co : Bool} {a b d : Nat} (ha : Usable N Q a) (hb : N ≤ b) (hd : N ≤ d) : Tidy N Q [(.trig co a b d : Stmt K), .del b] := by
  intro m h1 h2
  have hu : a ∉ m.Q := fun hm => by
    rcases ha with h | h
    · exact h2 a h hm
    · by_cases hk : a < N
      · exact h (h1 a hk hm)
      · exact h2 a (by omega) hm
  simp only [discL, nextL, Stmt.disc, Stmt.discNext, and_true, Stmt.uses, Set.mem_singleton_iff, forall_eq, Set.mem_empty_iff_false, false_implies, implies_true]
  refine ⟨hu, ?_, ?_, ?_⟩
  all_goals intro k hk
  all_goals simp only [Set.mem_insert_iff, Set.mem_diff, Set.mem_singleton_iff]
  all_goals first
      | (have := h2 k hk; tauto)
      | grind

theorem tidy_dels {N : Nat} {Q : Set Nat} {M : List Nat} (h : ∀ k ∈ M, N ≤ k) : Tidy N Q (dels M : List (Stmt K)) := by
  refine tidy_quiet fun s hs => ?_
  simp only [dels, List.mem_map, List.mem_reverse] at hs
  obtain ⟨k, hk, rfl⟩ := hs
  exact ⟨by simp [Stmt.uses], h k hk⟩

theorem usable_hi {N : Nat} {Q : Set Nat} {k : Nat} (h : N ≤ k) : Usable N Q k := .inl h

theorem tidy_chain {N : Nat} {Q : Set Nat} (C : List (Un K)) : ∀ {t : Nat}, N ≤ t → Tidy N Q (chainCode C t) := by
  induction C with
  | nil => intro t _; exact .nil
  | cons f C ih =>
    intro t ht
    refine Tidy.append (L := [_, _]) ?_ (ih (t := t + 1) (by omega))
    refine tidy_quiet fun s hs => ?_
    simp only [List.mem_cons, List.not_mem_nil, or_false] at hs
    rcases hs with rfl | rfl
    · exact ⟨by simp [Stmt.uses]; exact usable_hi ht, ht⟩
    · exact ⟨by simp [Stmt.uses], by omega, ht⟩

section
variable {N : Nat} {Q : Set Nat} {L : List (Stmt K)} {a b c d : Nat}
theorem td_cons {s : Stmt K} (h : s.quiet N Q) (hL : Tidy N Q L) : Tidy N Q (s :: L) := h.tidy.append (M := L) hL
theorem td_new (h : N ≤ d) (hL : Tidy N Q L) : Tidy N Q (.new d :: L) := td_cons ⟨by simp [Stmt.uses], h⟩ hL
theorem td_newD {v : K} (h : N ≤ d) (hL : Tidy N Q L) : Tidy N Q (.newD d v :: L) := td_cons ⟨by simp [Stmt.uses], h⟩ hL
theorem td_setP {p : Nat} (h : N ≤ d) (hL : Tidy N Q L) : Tidy N Q (.setP d p :: L) := td_cons ⟨by simp [Stmt.uses], h⟩ hL
theorem td_del (h : N ≤ d) (hL : Tidy N Q L) : Tidy N Q (.del d :: L) := td_cons ⟨by simp [Stmt.uses], h⟩ hL
theorem td_move (h : N ≤ d) (h' : N ≤ a) (hL : Tidy N Q L) : Tidy N Q (.move d a :: L) := td_cons ⟨by simp [Stmt.uses], h, h'⟩ hL
theorem td_copy (h : N ≤ d) (ha : Usable N Q a) (hL : Tidy N Q L) : Tidy N Q (.copy d a :: L) := td_cons ⟨by simp [Stmt.uses, ha], h⟩ hL
theorem td_un {f : Un K} (h : N ≤ d) (ha : Usable N Q a) (hL : Tidy N Q L) : Tidy N Q (.un f a d :: L) := td_cons ⟨by simp [Stmt.uses, ha], h⟩ hL
theorem td_bin {f : Bin} {l : Bool} (h : N ≤ d) (ha : Usable N Q a) (hb : Usable N Q b) (hL : Tidy N Q L) : Tidy N Q (.bin f l a b d :: L) := td_cons ⟨by simp [Stmt.uses, ha, hb], h⟩ hL
theorem td_quad {f : Quad} (h : N ≤ d) (ha : Usable N Q a) (hL : Tidy N Q L) : Tidy N Q (.quad f a b d :: L) := td_cons ⟨by simp [Stmt.uses, ha], h⟩ hL
theorem td_cond (h : N ≤ d) (ha : Usable N Q a) (hb : Usable N Q b) (hL : Tidy N Q L) : Tidy N Q (.cond d c a b :: L) := td_cons ⟨by simp [Stmt.uses, ha, hb], h⟩ hL

theorem tidy_start {q : Quad} {t : Nat} (ha : Usable N Q a) (ht : N ≤ t) : Tidy N Q (compStart q a t : List (Stmt K)) := by
  have k1 : Tidy N Q ([.new t, .bin .mult true a a t, .move (t + 1) t] : List (Stmt K)) := td_new ht (td_bin ht ha ha (td_move (by omega) ht .nil))
  have k2 : Tidy N Q ([.new t, .un .neg a t, .bin .mult false t a t, .move (t + 1) t] : List (Stmt K)) := td_new ht (td_un ht ha (td_bin ht (.inl ht) ha (td_move (by omega) ht .nil)))
  cases q <;> first | exact k1 | exact k2

theorem tidy_mat {n : Nat} {r : Out K} (hN : N ≤ n) (hn : Names n r) (h : Tidy N Q r.code) (hr : Usable N Q r.res) : Tidy N Q r.mat.code := by
  unfold Out.mat
  have := hn.le
  split
  · exact h
  · exact h.append (td_copy (by omega) hr .nil)

theorem res_hi {n : Nat} {r : Out K} (hn : Names n r) (ht : r.tmp = true) : n ≤ r.res := (hn.bd _ (mem_all.2 (.inr ⟨ht, rfl⟩))).1
end

theorem comp_tidy {N : Nat} {Q : Set Nat} (e : Ex K) : ∀ {A : List Nat} {n : Nat}, N ≤ n → (∀ k ∈ A, k < n ∧ Usable N Q k) → e.scoped N A.length → e.reads (· ∉ Q) →
    Tidy N Q (e.comp A n).code ∧ Usable N Q (e.comp A n).res := by
  induction e with
  | var v => intro A n hN hA hs hr; exact ⟨.nil, .inr hr⟩
  | arg i =>
    intro A n hN hA hs hr
    have hi : i < A.length := hs
    refine ⟨.nil, ?_⟩
    simp only [Ex.comp, List.getElem?_eq_getElem hi, Option.getD_some]
    exact (hA _ (List.getElem_mem hi)).2
  | par p => intro A n hN hA hs hr; exact ⟨td_new hN (td_setP hN .nil), .inl hN⟩
  | num c => intro A n hN hA hs hr; exact ⟨td_newD hN .nil, .inl hN⟩
  | lv e ih => intro A n hN hA hs hr; exact ih hN hA hs hr
  | un f e ih =>
    intro A n hN hA hs hr
    obtain ⟨t, u⟩ := ih hN hA hs hr
    have hn := comp_names e A n (fun k hk => (hA k hk).1) (e.scoped_mono hN _ hs)
    simp only [Ex.comp]
    generalize e.comp A n = r at *
    have := hn.le
    unfold unOut
    split
    · rename_i ht; have := res_hi hn ht
      exact ⟨t.append (td_un (by omega) u (td_move (by omega) (by omega) .nil)), .inl (show N ≤ r.n by omega)⟩
    · exact ⟨t.append (td_new (by omega) (td_un (by omega) u .nil)), .inl (show N ≤ r.n by omega)⟩
  | trig co e ih =>
    intro A n hN hA hs hr
    obtain ⟨t, u⟩ := ih hN hA hs hr
    have hn := comp_names e A n (fun k hk => (hA k hk).1) (e.scoped_mono hN _ hs)
    simp only [Ex.comp]
    generalize e.comp A n = r at *
    have := hn.le
    unfold trigOut
    split
    · rename_i ht; have := res_hi hn ht
      refine ⟨t.append (td_new (by omega) ((tidy_trig u (by omega) (by omega)).append (td_move (by omega) (by omega) .nil))), .inl (show N ≤ r.n + 1 by omega)⟩
    · refine ⟨t.append (td_new (by omega) (td_new (by omega) (tidy_trig u (by omega) (by omega)))), .inl (show N ≤ r.n by omega)⟩
  | quad q e ih =>
    intro A n hN hA hs hr
    obtain ⟨t, u⟩ := ih hN hA hs hr
    have hn := comp_names e A n (fun k hk => (hA k hk).1) (e.scoped_mono hN _ hs)
    simp only [Ex.comp]
    generalize e.comp A n = r at *
    have := hn.le
    unfold quadOut
    split
    · rename_i ht; have := res_hi hn ht
      exact ⟨((t.append (tidy_start u (by omega))).append (tidy_chain _ (by omega))).append (td_quad (by omega) u (td_del (by omega) (td_move (by omega) (by omega) .nil))), .inl (by show N ≤ _ + 1; omega)⟩
    · exact ⟨(((t.append (td_new (by omega) .nil)).append (tidy_start u (by omega))).append (tidy_chain _ (by omega))).append (td_quad (by omega) u (td_del (by omega) .nil)), .inl (show N ≤ r.n by omega)⟩
  | bin f a b iha ihb =>
    intro A n hN hA hs hr
    obtain ⟨t1, u1⟩ := iha hN hA hs.1 hr.1
    have n1 := comp_names a A n (fun k hk => (hA k hk).1) (a.scoped_mono hN _ hs.1)
    have l1 := n1.le
    have hA1 : ∀ k ∈ A, k < (a.comp A n).n ∧ Usable N Q k := fun k hk => ⟨by have := (hA k hk).1; omega, (hA k hk).2⟩
    obtain ⟨t2, u2⟩ := ihb (n := (a.comp A n).n) (by omega) hA1 hs.2 hr.2
    have n2 := comp_names b A (a.comp A n).n (fun k hk => (hA1 k hk).1) (b.scoped_mono (by omega) _ hs.2)
    simp only [Ex.comp]
    generalize a.comp A n = r1 at *
    generalize b.comp A r1.n = r2 at *
    have l2 := n2.le
    have tt := t1.append t2
    unfold binOut
    cases e1 : r1.tmp <;> cases e2 : r2.tmp <;> simp only []
    · exact ⟨tt.append (td_new (by omega) (td_bin (by omega) u1 u2 .nil)), .inl (by omega)⟩
    · have h2 := res_hi n2 e2
      cases f <;> simp only []
      · exact ⟨tt.append (td_bin (by omega) u2 u1 (td_move (by omega) (by omega) .nil)), .inl (by omega)⟩
      · exact ⟨tt.append (td_un (by omega) u2 (td_move (by omega) (by omega) (td_bin (by omega) (.inl (by omega)) u1 (td_move (by omega) (by omega) .nil)))), .inl (by omega)⟩
      · exact ⟨tt.append (td_bin (by omega) u2 u1 (td_move (by omega) (by omega) .nil)), .inl (by omega)⟩
      · exact ⟨tt.append (td_bin (by omega) u1 u2 (td_move (by omega) (by omega) .nil)), .inl (by omega)⟩
      · exact ⟨tt.append (td_bin (by omega) u1 u2 (td_move (by omega) (by omega) .nil)), .inl (by omega)⟩
    · have h1 := res_hi n1 e1
      exact ⟨tt.append (td_bin (by omega) u1 u2 (td_move (by omega) (by omega) .nil)), .inl (by omega)⟩
    · have h1 := res_hi n1 e1
      exact ⟨tt.append (td_bin (by omega) u1 u2 (td_move (by omega) (by omega) .nil)), .inl (by omega)⟩
  | cond c a b ihc iha ihb =>
    intro A n hN hA hs hr
    have hA0 : ∀ k ∈ A, k < n + 1 ∧ Usable N Q k := fun k hk => ⟨by have := (hA k hk).1; omega, (hA k hk).2⟩
    obtain ⟨t1, u1⟩ := ihc (n := n + 1) (by omega) hA0 hs.1 hr.1
    have n1 := comp_names c A (n + 1) (fun k hk => (hA0 k hk).1) (c.scoped_mono (by omega) _ hs.1)
    have l1 := n1.le
    have hA1 : ∀ k ∈ A, k < (c.comp A (n + 1)).n ∧ Usable N Q k := fun k hk => ⟨by have := (hA k hk).1; omega, (hA k hk).2⟩
    obtain ⟨t2, u2⟩ := iha (n := (c.comp A (n + 1)).n) (by omega) hA1 hs.2.1 hr.2.1
    have n2 := comp_names a A (c.comp A (n + 1)).n (fun k hk => (hA1 k hk).1) (a.scoped_mono (by omega) _ hs.2.1)
    have l2 := n2.le
    have hA2 : ∀ k ∈ A, k < (a.comp A (c.comp A (n + 1)).n).n ∧ Usable N Q k := fun k hk => ⟨by have := (hA k hk).1; omega, (hA k hk).2⟩
    obtain ⟨t3, u3⟩ := ihb (n := (a.comp A (c.comp A (n + 1)).n).n) (by omega) hA2 hs.2.2 hr.2.2
    have n3 := comp_names b A (a.comp A (c.comp A (n + 1)).n).n (fun k hk => (hA2 k hk).1) (b.scoped_mono (by omega) _ hs.2.2)
    simp only [Ex.comp]
    generalize c.comp A (n + 1) = rc at *
    generalize a.comp A rc.n = ra at *
    generalize b.comp A ra.n = rb at *
    refine ⟨td_new hN ((((t1.append t2).append t3).append (td_cond hN u2 u3 .nil)).append (tidy_dels fun k hk => ?_)), .inl hN⟩
    simp only [List.mem_append] at hk
    rcases hk with (h | h) | h
    · have := n1.bd k h; omega
    · have := n2.bd k h; omega
    · have := n3.bd k h; omega
  | argE e b ihe ihb =>
    intro A n hN hA hs hr
    obtain ⟨t1, u1⟩ := ihe hN hA hs.1 hr.1
    have n1 := comp_names e A n (fun k hk => (hA k hk).1) (e.scoped_mono hN _ hs.1)
    have l1 := n1.le
    simp only [Ex.comp]
    generalize e.comp A n = r1 at *
    have hA1 : ∀ k ∈ r1.res :: A, k < r1.n ∧ Usable N Q k := by
      intro k hk; rcases List.mem_cons.1 hk with rfl | hk
      · exact ⟨n1.res_lt, u1⟩
      · exact ⟨by have := (hA k hk).1; omega, (hA k hk).2⟩
    obtain ⟨t2, u2⟩ := ihb (n := r1.n) (by omega) hA1 hs.2 hr.2
    have n2 := comp_names b (r1.res :: A) r1.n (fun k hk => (hA1 k hk).1) (b.scoped_mono (by omega) _ hs.2)
    have t2' := tidy_mat (by omega) n2 t2 u2
    have n2' := n2.mat
    refine ⟨(t1.append t2').append (tidy_dels fun k hk => ?_), .inl ?_⟩
    · have := n2'.gar k hk; omega
    · have := res_hi n2' (mat_tmp _); omega
  | locE e b ihe ihb =>
    intro A n hN hA hs hr
    obtain ⟨t1', u1'⟩ := ihe hN hA hs.1 hr.1
    have n1' := comp_names e A n (fun k hk => (hA k hk).1) (e.scoped_mono hN _ hs.1)
    have n1 := n1'.mat
    have t1 := tidy_mat hN n1' t1' u1'
    have h1 := res_hi n1 (mat_tmp _)
    have l1 := n1.le
    simp only [Ex.comp]
    generalize (e.comp A n).mat = r1 at *
    have hA1 : ∀ k ∈ r1.res :: A, k < r1.n ∧ Usable N Q k := by
      intro k hk; rcases List.mem_cons.1 hk with rfl | hk
      · exact ⟨n1.res_lt, .inl (by omega)⟩
      · exact ⟨by have := (hA k hk).1; omega, (hA k hk).2⟩
    obtain ⟨t2, u2⟩ := ihb (n := r1.n) (by omega) hA1 hs.2 hr.2
    have n2 := comp_names b (r1.res :: A) r1.n (fun k hk => (hA1 k hk).1) (b.scoped_mono (by omega) _ hs.2)
    have t2' := tidy_mat (by omega) n2 t2 u2
    have n2' := n2.mat
    refine ⟨(((t1.append (tidy_dels fun k hk => ?_)).append t2').append (tidy_dels fun k hk => ?_)).append (td_del (by omega) .nil), .inl ?_⟩
    · have := n1.gar k hk; omega
    · have := n2'.gar k hk; omega
    · have := res_hi n2' (mat_tmp _); omega

/-- The discipline on the program's variables (`m`) describes the one on all objects (`m'`). -/
structure DRel (N : Nat) (m m' : Disc) : Prop where
  C : ∀ k, k < N → k ∈ m.C → k ∈ m'.C
  Q : ∀ k, k < N → k ∈ m'.Q → k ∈ m.Q
  hi : ∀ k, N ≤ k → k ∉ m'.Q

theorem DRel.tidy {N : Nat} {m m' : Disc} {L : List (Stmt K)} (h : DRel N m m') (hL : Tidy N m.Q L) : discL L m' ∧ DRel N m (nextL L m') := by
  obtain ⟨a, b⟩ := hL m' h.Q h.hi
  exact ⟨a, fun k hk hC => (b.C k hk).2 (h.C k hk hC), fun k hk hQ => h.Q k hk ((b.Q k hk).1 hQ), b.hi⟩

theorem DRel.seq {N : Nat} {m m1 m' : Disc} {L M : List (Stmt K)} (hL : discL L m' ∧ DRel N m (nextL L m')) (hM : ∀ m', DRel N m m' → discL M m' ∧ DRel N m1 (nextL M m')) :
    discL (L ++ M) m' ∧ DRel N m1 (nextL (L ++ M) m') := by
  obtain ⟨a, b⟩ := hM _ hL.2
  rw [discL_append, nextL_append]
  exact ⟨⟨hL.1, a⟩, b⟩

theorem DRel.usable {N : Nat} {m m' : Disc} (h : DRel N m m') {k : Nat} (hk : Usable N m.Q k) : k ∉ m'.Q := by
  rcases hk with hk | hk
  · exact h.hi k hk
  · intro hm
    by_cases hkN : k < N
    · exact hk (h.Q k hkN hm)
    · exact h.hi k (by omega) hm

/-- One call. -/
theorem DRel.stmt {N : Nat} {m m1 m' : Disc} {s : Stmt K} (hd : s.disc m') (hn : DRel N m1 (s.discNext m')) : discL [s] m' ∧ DRel N m1 (nextL [s] m') := ⟨⟨hd, trivial⟩, hn⟩

macro "drel" : tactic => `(tactic| (
  refine ⟨fun k hk => ?_, fun k hk => ?_, fun k hk => ?_⟩ <;>
  simp only [moveSet, Set.mem_insert_iff, Set.mem_diff, Set.mem_singleton_iff, Set.mem_setOf_eq] <;> grind))

theorem expr_disc {N : Nat} {m m' : Disc} (h : DRel N m m') {e : Ex K} (hs : e.scoped N 0) (hr : e.reads (· ∉ m.Q)) {n : Nat} (hn : N ≤ n) :
    (discL (e.comp [] n).code m' ∧ DRel N m (nextL (e.comp [] n).code m')) ∧ Usable N m.Q (e.comp [] n).res ∧ Names n (e.comp [] n) := by
  obtain ⟨a, b⟩ := comp_tidy e (N := N) (Q := m.Q) (A := []) hn (by simp) hs hr
  exact ⟨h.tidy a, b, comp_names e [] n (by simp) (e.scoped_mono hn _ hs)⟩

theorem one_disc {N : Nat} {m m1 m' : Disc} (h : DRel N m m') {e : Ex K} (hs : e.scoped N 0) (hr : e.reads (· ∉ m.Q)) (s1 s2 : Nat → Stmt K)
    (h1 : ∀ m' i, DRel N m m' → N ≤ i → (s1 i).disc m' ∧ DRel N m1 ((s1 i).discNext m'))
    (h2 : ∀ m' i, DRel N m m' → i ∉ m'.Q → (s2 i).disc m' ∧ DRel N m1 ((s2 i).discNext m')) :
    let r := e.comp [] N
    discL (r.code ++ [if r.tmp then s1 r.res else s2 r.res] ++ dels r.gar) m' ∧ DRel N m1 (nextL (r.code ++ [if r.tmp then s1 r.res else s2 r.res] ++ dels r.gar) m') := by
  intro r
  obtain ⟨a, b, c⟩ := expr_disc h hs hr le_rfl
  refine DRel.seq (m := m1) (DRel.seq (m := m) a fun m'' h'' => ?_) fun m'' h'' => h''.tidy (tidy_dels fun k hk => (c.gar k hk).1)
  cases ht : r.tmp
  · obtain ⟨u, v⟩ := h2 m'' r.res h'' (h''.usable b)
    exact DRel.stmt (m := m) u v
  · obtain ⟨u, v⟩ := h1 m'' r.res h'' (res_hi c ht)
    exact DRel.stmt (m := m) u v

theorem accMult_disc {N v : Nat} {m m' : Disc} (hv : v < N) (h : DRel N m m') {e : Ex K} (hs : e.scoped N 0) (hr : e.reads (· ∉ m.Q)) :
    discL (accMult N v e) m' ∧ DRel N ⟨m.C \ {v}, m.Q⟩ (nextL (accMult N v e) m') := by
  obtain ⟨a, b, c⟩ := expr_disc h hs hr le_rfl
  refine DRel.seq (m := ⟨m.C \ {v}, m.Q⟩) (DRel.seq (m := m) a fun m'' h'' => ?_) fun m'' h'' => h''.tidy (tidy_dels fun k hk => (c.bd k hk).1)
  refine DRel.stmt (m := m) ⟨by simp [Stmt.uses]; exact h''.usable b, trivial⟩ ?_
  obtain ⟨x1, x2, x3⟩ := h''
  simp only [Stmt.discNext]
  drel

theorem cmd_disc (c : Cmd K) {N : Nat} {m m' : Disc} (hf : c.fits N) (hd : c.disc m) (h : DRel N m m') :
    discL (c.comp N) m' ∧ DRel N (c.discNext m) (nextL (c.comp N) m') := by
  have two' : ∀ (r : Nat) (c a : Ex K) (s : Nat → Nat → Stmt K), r < N → c.scoped N 0 → a.scoped N 0 → c.reads (· ∉ m.Q) → a.reads (· ∉ m.Q) →
      (∀ i j m', DRel N m m' → j ∉ m'.Q → (s i j).disc m' ∧ DRel N ⟨m.C \ {r}, m.Q⟩ ((s i j).discNext m')) →
      discL (two N c a s) m' ∧ DRel N ⟨m.C \ {r}, m.Q⟩ (nextL (two N c a s) m') := by
    intro r c a s hr hc ha rc ra hs
    obtain ⟨a1, b1, c1⟩ := expr_disc h hc rc le_rfl
    refine DRel.seq (m := ⟨m.C \ {r}, m.Q⟩) (DRel.seq (m := m) (DRel.seq (m := m) a1 fun m1 h1 => ?_) fun m2 h2 => ?_) fun m3 h3 => h3.tidy (tidy_dels fun k hk => ?_)
    · exact (expr_disc h1 ha ra c1.le).1
    · have b2 := (expr_disc h2 ha ra c1.le).2.1
      obtain ⟨u, v⟩ := hs _ _ m2 h2 (h2.usable b2)
      exact DRel.stmt (m := m) u v
    · have c2 := (expr_disc h ha ra c1.le).2.2
      have := c1.le
      rcases List.mem_append.1 hk with hk | hk
      · have := c1.bd k hk; omega
      · have := c2.bd k hk; omega
  have three' : ∀ (r : Nat) (c a b : Ex K) (s : Nat → Nat → Nat → Stmt K), r < N → c.scoped N 0 → a.scoped N 0 → b.scoped N 0 → c.reads (· ∉ m.Q) → a.reads (· ∉ m.Q) → b.reads (· ∉ m.Q) →
      (∀ i j l m', DRel N m m' → j ∉ m'.Q → l ∉ m'.Q → (s i j l).disc m' ∧ DRel N ⟨m.C \ {r}, m.Q⟩ ((s i j l).discNext m')) →
      discL (three N c a b s) m' ∧ DRel N ⟨m.C \ {r}, m.Q⟩ (nextL (three N c a b s) m') := by
    intro r c a b s hr hc ha hb rc ra rb hs
    obtain ⟨a1, b1, c1⟩ := expr_disc h hc rc le_rfl
    have l1 := c1.le
    have e2 : ∀ m', DRel N m m' → _ := fun m' h' => expr_disc h' ha ra l1
    have c2 := (e2 m' h).2.2
    have l2 := c2.le
    have e3 : ∀ m', DRel N m m' → _ := fun m' h' => expr_disc h' hb rb (n := (a.comp [] (c.comp [] N).n).n) (by omega)
    have c3 := (e3 m' h).2.2
    refine DRel.seq (m := ⟨m.C \ {r}, m.Q⟩) (DRel.seq (m := m) (DRel.seq (m := m) (DRel.seq (m := m) a1 fun m1 h1 => (e2 m1 h1).1) fun m2 h2 => (e3 m2 h2).1) fun m2 h2 => ?_) fun m3 h3 => h3.tidy (tidy_dels fun k hk => ?_)
    · obtain ⟨u, v⟩ := hs (c.comp [] N).res _ _ m2 h2 (h2.usable (e2 m2 h2).2.1) (h2.usable (e3 m2 h2).2.1)
      exact DRel.stmt (m := m) u v
    · simp only [List.mem_append] at hk
      rcases hk with (hk | hk) | hk
      · have := c1.bd k hk; omega
      · have := c2.bd k hk; omega
      · have := c3.bd k hk; omega
  cases c with
  | declE v e =>
    have hv := hf.1
    by_cases hc : e.isConst = true
    · obtain ⟨x1, x2, x3⟩ := h
      cases e <;> simp only [Ex.isConst, Bool.false_eq_true] at hc
      · rename_i p
        refine ⟨⟨⟨by simp [Stmt.uses], trivial⟩, ⟨by simp [Stmt.uses], trivial⟩, ⟨by simp [Ex.comp, Stmt.uses], trivial⟩, trivial⟩, ?_⟩
        simp only [Cmd.comp, Ex.comp, dels, nextL, Stmt.discNext, Cmd.discNext, Ex.isConst, if_true, List.nil_append, List.append_nil, List.cons_append, List.reverse_nil, List.map_nil]
        drel
      · rename_i c
        refine ⟨⟨⟨by simp [Stmt.uses], trivial⟩, ⟨by simp [Ex.comp, Stmt.uses], trivial⟩, trivial⟩, ?_⟩
        simp only [Cmd.comp, Ex.comp, dels, nextL, Stmt.discNext, Cmd.discNext, Ex.isConst, if_true, List.nil_append, List.append_nil, List.cons_append, List.reverse_nil, List.map_nil]
        drel
    · have hm : (Cmd.declE v e).discNext m = ⟨m.C \ {v}, m.Q \ {v}⟩ := by simp [Cmd.discNext, hc]
      rw [hm]
      refine one_disc h hf.2 hd (Stmt.move v) (Stmt.copy v) (fun m'' i h'' hi => ⟨⟨by simp [Stmt.uses], trivial⟩, ?_⟩) (fun m'' i h'' hi => ⟨⟨by simpa [Stmt.uses] using hi, trivial⟩, ?_⟩) <;>
      · obtain ⟨x1, x2, x3⟩ := h''
        simp only [Stmt.discNext]
        drel
  | set v e =>
    have hv := hf.1
    by_cases hc : e.isConst = true
    · obtain ⟨x1, x2, x3⟩ := h
      cases e <;> simp only [Ex.isConst, Bool.false_eq_true] at hc
      · rename_i p
        refine ⟨⟨⟨by simp [Stmt.uses], trivial⟩, ⟨by simp [Stmt.uses], trivial⟩, ⟨by simp [Ex.comp, Stmt.uses], trivial⟩, trivial⟩, ?_⟩
        simp only [Cmd.comp, Ex.comp, dels, nextL, Stmt.discNext, Cmd.discNext, Ex.isConst, if_true, List.nil_append, List.append_nil, List.cons_append, List.reverse_nil, List.map_nil]
        drel
      · rename_i c
        refine ⟨⟨⟨by simp [Stmt.uses], trivial⟩, ⟨by simp [Ex.comp, Stmt.uses], trivial⟩, trivial⟩, ?_⟩
        simp only [Cmd.comp, Ex.comp, dels, nextL, Stmt.discNext, Cmd.discNext, Ex.isConst, if_true, List.nil_append, List.append_nil, List.cons_append, List.reverse_nil, List.map_nil]
        drel
    · have hm : (Cmd.set v e).discNext m = ⟨m.C \ {v}, m.Q \ {v}⟩ := by simp [Cmd.discNext, hc]
      rw [hm]
      refine one_disc h hf.2 hd (Stmt.moveA v) (Stmt.setA v) (fun m'' i h'' hi => ⟨⟨by simp [Stmt.uses], trivial⟩, ?_⟩) (fun m'' i h'' hi => ⟨⟨by simpa [Stmt.uses] using hi, trivial⟩, ?_⟩) <;>
      · obtain ⟨x1, x2, x3⟩ := h''
        simp only [Stmt.discNext]
        drel
  | acc f v e =>
    cases f with
    | mult => exact accMult_disc hf.1 h hf.2 hd
    | plus =>
      refine one_disc h hf.2 hd (Stmt.accR _ v) (Stmt.accA .plus v) (fun m'' i h'' hi => ⟨⟨by simpa [Stmt.uses] using h''.hi i hi, trivial⟩, ?_⟩) (fun m'' i h'' hi => ⟨⟨by simpa [Stmt.uses] using hi, trivial⟩, ?_⟩) <;>
      · obtain ⟨x1, x2, x3⟩ := h''
        have := hf.1
        simp only [Stmt.discNext, Cmd.discNext]
        drel
    | minus =>
      refine one_disc h hf.2 hd (Stmt.accR _ v) (Stmt.accA .minus v) (fun m'' i h'' hi => ⟨⟨by simpa [Stmt.uses] using h''.hi i hi, trivial⟩, ?_⟩) (fun m'' i h'' hi => ⟨⟨by simpa [Stmt.uses] using hi, trivial⟩, ?_⟩) <;>
      · obtain ⟨x1, x2, x3⟩ := h''
        have := hf.1
        simp only [Stmt.discNext, Cmd.discNext]
        drel
  | divE v e => exact accMult_disc hf.1 h (e := .un (.divD 1) e) hf.2 hd
  | cond r c a b =>
    exact three' r c a b _ hf.1 hf.2.1 hf.2.2.1 hf.2.2.2 hd.1 hd.2.1 hd.2.2 fun i j l m'' h'' hj hl => ⟨⟨by simp [Stmt.uses, hj, hl], trivial⟩, by
      obtain ⟨x1, x2, x3⟩ := h''; simp only [Stmt.discNext]; drel⟩
  | condEq r c a b =>
    exact three' r c a b _ hf.1 hf.2.1 hf.2.2.1 hf.2.2.2 hd.1 hd.2.1 hd.2.2 fun i j l m'' h'' hj hl => ⟨⟨by simp [Stmt.uses, hj, hl], trivial⟩, by
      obtain ⟨x1, x2, x3⟩ := h''; simp only [Stmt.discNext]; drel⟩
  | condS r c a =>
    exact two' r c a _ hf.1 hf.2.1 hf.2.2 hd.1 hd.2 fun i j m'' h'' hj => ⟨⟨by simp [Stmt.uses, hj], trivial⟩, by
      obtain ⟨x1, x2, x3⟩ := h''; simp only [Stmt.discNext]; drel⟩
  | condEqS r c a =>
    exact two' r c a _ hf.1 hf.2.1 hf.2.2 hd.1 hd.2 fun i j m'' h'' hj => ⟨⟨by simp [Stmt.uses, hj], trivial⟩, by
      obtain ⟨x1, x2, x3⟩ := h''; simp only [Stmt.discNext]; drel⟩
  | indep v =>
    obtain ⟨x1, x2, x3⟩ := h
    exact DRel.stmt (m := m) ⟨by simp [Stmt.uses], x1 v hf hd⟩ (by simp only [Stmt.discNext, Cmd.discNext]; drel)
  | dep v =>
    obtain ⟨x1, x2, x3⟩ := h
    refine DRel.stmt (m := m) ⟨by simp [Stmt.uses]; exact fun hm => hd (x2 v hf hm), trivial⟩ ?_
    simp only [Stmt.discNext, Cmd.discNext]
    simp only [Cmd.fits] at hf
    drel
  | postIncr r v =>
    obtain ⟨x1, x2, x3⟩ := h
    have h1 := hf.1; have h2 := hf.2
    have : v ∉ m'.Q := fun hm => hd (x2 v h2 hm)
    refine ⟨⟨⟨by simp [Stmt.uses], trivial⟩, ⟨?_, trivial⟩, ⟨by simp [Stmt.uses], trivial⟩, trivial⟩, ?_⟩
    · simp only [Stmt.uses, Set.mem_singleton_iff, forall_eq, Stmt.discNext, Set.mem_diff]; tauto
    · simp only [Cmd.comp, nextL, Stmt.discNext, Cmd.discNext]; drel
  | postDecr r v =>
    obtain ⟨x1, x2, x3⟩ := h
    have h1 := hf.1; have h2 := hf.2
    have : v ∉ m'.Q := fun hm => hd (x2 v h2 hm)
    refine ⟨⟨⟨by simp [Stmt.uses], trivial⟩, ⟨?_, trivial⟩, ⟨by simp [Stmt.uses], trivial⟩, trivial⟩, ?_⟩
    · simp only [Stmt.uses, Set.mem_singleton_iff, forall_eq, Stmt.discNext, Set.mem_diff]; tauto
    · simp only [Cmd.comp, nextL, Stmt.discNext, Cmd.discNext]; drel
  | _ =>
    obtain ⟨x1, x2, x3⟩ := h
    refine ⟨⟨⟨by simp [Stmt.uses], trivial⟩, trivial⟩, ?_⟩
    simp only [Cmd.comp, nextL, Stmt.discNext, Cmd.discNext]
    first | exact ⟨x1, x2, x3⟩ | drel

/-- The calls of a program keep the discipline. -/
theorem src_disc (S : Src K) {N : Nat} : ∀ {m m' : Disc}, S.fits N → S.disc m → DRel N m m' → (S.comp N).disc m' := by
  have cD : ∀ (c : Cmp) (e : Ex K) (q : K) (t f : Prog K) {m m' : Disc}, e.scoped N 0 → e.reads (· ∉ m.Q) → DRel N m m' →
      (∀ m', DRel N m m' → t.disc m') → (∀ m', DRel N m m' → f.disc m') → (cmpD N c e q t f).disc m' := by
    intro c e q t f m m' hs hr h ht hf
    obtain ⟨a, b, n1⟩ := expr_disc h hs hr le_rfl
    have l1 := n1.le
    unfold cmpD
    simp only []
    split
    · have dd : Tidy N m.Q (dels (e.comp [] N).all : List (Stmt K)) := tidy_dels fun k hk => (n1.bd k hk).1
      refine pre_disc a.1 ⟨?_, ?_⟩
      · obtain ⟨u, v⟩ := a.2.tidy dd; exact pre_disc u (ht _ v)
      · obtain ⟨u, v⟩ := a.2.tidy dd; exact pre_disc u (hf _ v)
    · have dd : Tidy N m.Q (dels ((e.comp [] N).all ++ [(e.comp [] N).n]) : List (Stmt K)) := tidy_dels fun k hk => by
        rcases List.mem_append.1 hk with h | h
        · exact (n1.bd k h).1
        · simp at h; omega
      have a' := DRel.seq (m := m) (m1 := m) a fun m1 h1 => h1.tidy (L := [.new (e.comp [] N).n, .un (.plusD (-q)) (e.comp [] N).res (e.comp [] N).n]) (td_new l1 (td_un l1 b .nil))
      refine pre_disc a'.1 ⟨?_, ?_⟩
      · obtain ⟨u, v⟩ := a'.2.tidy dd; exact pre_disc u (ht _ v)
      · obtain ⟨u, v⟩ := a'.2.tidy dd; exact pre_disc u (hf _ v)
  induction S with
  | done => intro m m' _ _ _; trivial
  | cmd c k ih =>
    intro m m' hf hd h
    obtain ⟨a, b⟩ := cmd_disc c hf.1 hd.1 h
    exact pre_disc a (ih hf.2 hd.2 b)
  | ifD c a q t f iht ihf => intro m m' hf hd h; exact cD _ _ _ _ _ hf.1 hd.1 h (fun _ h' => iht hf.2.1 hd.2.1 h') (fun _ h' => ihf hf.2.2 hd.2.2 h')
  | ifD' c q a t f iht ihf => intro m m' hf hd h; exact cD _ _ _ _ _ hf.1 hd.1 h (fun _ h' => iht hf.2.1 hd.2.1 h') (fun _ h' => ihf hf.2.2 hd.2.2 h')
  | ifA c a b t f iht ihf =>
    intro m m' hf hd h
    obtain ⟨a1, b1, n1⟩ := expr_disc h hf.1 hd.1 le_rfl
    have l1 := n1.le
    have e2 : ∀ m', DRel N m m' → _ := fun m' h' => expr_disc h' hf.2.1 hd.2.1 l1
    have n2 := (e2 m' h).2.2
    have b2 := (e2 m' h).2.1
    have l2 := n2.le
    have a' := DRel.seq (m := m) (m1 := m) (DRel.seq (m := m) (m1 := m) a1 fun m1 h1 => (e2 m1 h1).1) fun m1 h1 =>
      h1.tidy (L := [.new (b.comp [] (a.comp [] N).n).n, .bin .minus true (a.comp [] N).res (b.comp [] (a.comp [] N).n).res (b.comp [] (a.comp [] N).n).n]) (td_new (by omega) (td_bin (by omega) b1 b2 .nil))
    have dd : Tidy N m.Q (dels ((a.comp [] N).all ++ (b.comp [] (a.comp [] N).n).all ++ [(b.comp [] (a.comp [] N).n).n]) : List (Stmt K)) := tidy_dels fun k hk => by
      simp only [List.mem_append, List.mem_singleton] at hk
      rcases hk with (h | h) | h
      · exact (n1.bd k h).1
      · have := n2.bd k h; omega
      · omega
    refine pre_disc a'.1 ⟨?_, ?_⟩
    · obtain ⟨u, v⟩ := a'.2.tidy dd; exact pre_disc u (iht hf.2.2.1 hd.2.2.1 v)
    · obtain ⟨u, v⟩ := a'.2.tidy dd; exact pre_disc u (ihf hf.2.2.2 hd.2.2.2 v)

/-! ## fmin -/

/-- No `fmin(a, b)` with two lvalues. -/
def Ex.noFminLL : Ex K → Prop
  | .var _ | .arg _ | .par _ | .num _ => True
  | .lv e | .un _ e | .trig _ e | .quad _ e => e.noFminLL
  | .bin f a b => a.noFminLL ∧ b.noFminLL ∧ (f = .fmin → a.rv = true ∨ b.rv = true)
  | .cond c a b => c.noFminLL ∧ a.noFminLL ∧ b.noFminLL
  | .argE e b | .locE e b => e.noFminLL ∧ b.noFminLL

def Cmd.noFminLL : Cmd K → Prop
  | .declE _ e | .set _ e | .acc _ _ e | .divE _ e => e.noFminLL
  | .cond _ c a b | .condEq _ c a b => c.noFminLL ∧ a.noFminLL ∧ b.noFminLL
  | .condS _ c a | .condEqS _ c a => c.noFminLL ∧ a.noFminLL
  | _ => True

def Src.noFminLL : Src K → Prop
  | .done => True
  | .cmd c k => c.noFminLL ∧ k.noFminLL
  | .ifD _ a _ t f | .ifD' _ _ a t f => a.noFminLL ∧ t.noFminLL ∧ f.noFminLL
  | .ifA _ a b t f => a.noFminLL ∧ b.noFminLL ∧ t.noFminLL ∧ f.noFminLL

def NF (L : List (Stmt K)) : Prop := ∀ s ∈ L, s.notFminLL

theorem NF.append {L M : List (Stmt K)} (h : NF L) (h' : NF M) : NF (L ++ M) := fun s hs => (List.mem_append.1 hs).elim (h s) (h' s)
theorem NF.cons {s : Stmt K} {L : List (Stmt K)} (h : s.notFminLL) (h' : NF L) : NF (s :: L) := fun t ht => by
  rcases List.mem_cons.1 ht with rfl | ht
  · exact h
  · exact h' t ht
theorem NF.nil : NF ([] : List (Stmt K)) := fun _ h => by simp at h
theorem NF.dels (M : List Nat) : NF (dels M : List (Stmt K)) := fun s hs => by
  simp only [Verif.AD.dels, List.mem_map] at hs; obtain ⟨k, _, rfl⟩ := hs; trivial
theorem NF.mat {r : Out K} (h : NF r.code) : NF r.mat.code := by
  unfold Out.mat; split
  · exact h
  · exact h.append (.cons (by trivial) .nil)
theorem NF.chain (C : List (Un K)) : ∀ t, NF (chainCode C t) := by
  induction C with
  | nil => intro t; exact .nil
  | cons f C ih => intro t; exact .cons (by trivial) (.cons (by trivial) (ih _))

theorem comp_noFmin (e : Ex K) : ∀ A n, e.noFminLL → NF (e.comp A n).code := by
  induction e with
  | var v => intro A n _; exact .nil
  | arg v => intro A n _; exact .nil
  | lv e ih => intro A n h; exact ih A n h
  | par p => intro A n _; exact .cons (by trivial) (.cons (by trivial) .nil)
  | num p => intro A n _; exact .cons (by trivial) .nil
  | un f e ih =>
    intro A n h; have := ih A n h
    simp only [Ex.comp, unOut]; split <;> exact this.append (.cons (by trivial) (.cons (by trivial) .nil))
  | trig f e ih =>
    intro A n h; have := ih A n h
    simp only [Ex.comp, trigOut]; split <;> exact this.append (.cons (by trivial) (.cons (by trivial) (.cons (by trivial) (.cons (by trivial) .nil))))
  | quad q e ih =>
    intro A n h; have := ih A n h
    have st : ∀ a t, NF (compStart q a t : List (Stmt K)) := by
      intro a t; cases q <;> first | exact .cons (by trivial) (.cons (by trivial) (.cons (by trivial) .nil)) | exact .cons (by trivial) (.cons (by trivial) (.cons (by trivial) (.cons (by trivial) .nil)))
    simp only [Ex.comp, quadOut]; split
    · exact ((this.append (st _ _)).append (.chain _ _)).append (.cons (by trivial) (.cons (by trivial) (.cons (by trivial) .nil)))
    · exact (((this.append (.cons (by trivial) .nil)).append (st _ _)).append (.chain _ _)).append (.cons (by trivial) (.cons (by trivial) .nil))
  | bin f a b iha ihb =>
    intro A n h
    have ha := iha A n h.1
    have hb := ihb A (a.comp A n).n h.2.1
    have t1 := comp_tmp a A n
    have t2 := comp_tmp b A (a.comp A n).n
    have h3 := h.2.2
    rw [← t1, ← t2] at h3
    have hh := ha.append hb
    simp only [Ex.comp, binOut]
    generalize a.comp A n = r1 at *
    generalize b.comp A r1.n = r2 at *
    cases e1 : r1.tmp <;> cases e2 : r2.tmp <;> simp only []
    · refine hh.append (.cons (by trivial) (.cons ?_ .nil))
      cases f
      case fmin => have := h3 rfl; simp [e1, e2] at this
      all_goals trivial
    · cases f <;> simp only [] <;> first | exact hh.append (.cons (by trivial) (.cons (by trivial) .nil)) | exact hh.append (.cons (by trivial) (.cons (by trivial) (.cons (by trivial) (.cons (by trivial) .nil))))
    · refine hh.append (.cons ?_ (.cons (by trivial) .nil)); cases f <;> trivial
    · refine hh.append (.cons ?_ (.cons (by trivial) .nil)); cases f <;> trivial
  | cond c a b ihc iha ihb =>
    intro A n h
    exact .cons (by trivial) (((((ihc _ _ h.1).append (iha _ _ h.2.1)).append (ihb _ _ h.2.2)).append (.cons (by trivial) .nil)).append (.dels _))
  | argE e b ihe ihb => intro A n h; exact ((ihe _ _ h.1).append (ihb _ _ h.2).mat).append (.dels _)
  | locE e b ihe ihb =>
    intro A n h
    exact (((((ihe _ _ h.1).mat).append (.dels _)).append (ihb _ _ h.2).mat).append (.dels _)).append (.cons (by trivial) .nil)

theorem cmd_noFmin (c : Cmd K) (n : Nat) (h : c.noFminLL) : NF (c.comp n) := by
  cases c with
  | declE v e => refine ((comp_noFmin e _ _ h).append (.cons ?_ .nil)).append (.dels _); split <;> trivial
  | set v e => refine ((comp_noFmin e _ _ h).append (.cons ?_ .nil)).append (.dels _); split <;> trivial
  | acc f v e =>
    cases f with
    | mult => exact ((comp_noFmin e _ _ h).append (.cons (by trivial) .nil)).append (.dels _)
    | plus => refine ((comp_noFmin e _ _ h).append (.cons ?_ .nil)).append (.dels _); split <;> trivial
    | minus => refine ((comp_noFmin e _ _ h).append (.cons ?_ .nil)).append (.dels _); split <;> trivial
  | divE v e => exact ((comp_noFmin (.un (.divD 1) e) _ _ h).append (.cons (by trivial) .nil)).append (.dels _)
  | cond r c a b => exact ((((comp_noFmin _ _ _ h.1).append (comp_noFmin _ _ _ h.2.1)).append (comp_noFmin _ _ _ h.2.2)).append (.cons (by trivial) .nil)).append (.dels _)
  | condEq r c a b => exact ((((comp_noFmin _ _ _ h.1).append (comp_noFmin _ _ _ h.2.1)).append (comp_noFmin _ _ _ h.2.2)).append (.cons (by trivial) .nil)).append (.dels _)
  | condS r c a => exact (((comp_noFmin _ _ _ h.1).append (comp_noFmin _ _ _ h.2)).append (.cons (by trivial) .nil)).append (.dels _)
  | condEqS r c a => exact (((comp_noFmin _ _ _ h.1).append (comp_noFmin _ _ _ h.2)).append (.cons (by trivial) .nil)).append (.dels _)
  | postIncr r v => exact .cons (by trivial) (.cons (by trivial) (.cons (by trivial) .nil))
  | postDecr r v => exact .cons (by trivial) (.cons (by trivial) (.cons (by trivial) .nil))
  | _ => exact .cons (by trivial) .nil

theorem pre_noFmin {L : List (Stmt K)} {k : Prog K} (h : NF L) (hk : k.noFminLL) : (Prog.pre L k).noFminLL := by
  induction L with
  | nil => exact hk
  | cons s L ih => exact ⟨h s (by simp), ih fun t ht => h t (by simp [ht])⟩

theorem src_noFmin (S : Src K) {N : Nat} : S.noFminLL → (S.comp N).noFminLL := by
  have cD : ∀ (c : Cmp) (e : Ex K) (q : K) (t f : Prog K), e.noFminLL → t.noFminLL → f.noFminLL → (cmpD N c e q t f).noFminLL := by
    intro c e q t f he ht hf
    unfold cmpD
    simp only []
    split
    · exact pre_noFmin (comp_noFmin e _ _ he) ⟨pre_noFmin (.dels _) ht, pre_noFmin (.dels _) hf⟩
    · exact pre_noFmin ((comp_noFmin e _ _ he).append (.cons (by trivial) (.cons (by trivial) .nil))) ⟨pre_noFmin (.dels _) ht, pre_noFmin (.dels _) hf⟩
  induction S with
  | done => intro _; trivial
  | cmd c k ih => intro h; exact pre_noFmin (cmd_noFmin c N h.1) (ih h.2)
  | ifD c a q t f iht ihf => intro h; exact cD _ _ _ _ _ h.1 (iht h.2.1) (ihf h.2.2)
  | ifD' c q a t f iht ihf => intro h; exact cD _ _ _ _ _ h.1 (iht h.2.1) (ihf h.2.2)
  | ifA c a b t f iht ihf =>
    intro h
    exact pre_noFmin (((comp_noFmin a _ _ h.1).append (comp_noFmin b _ _ h.2.1)).append (.cons (by trivial) (.cons (by trivial) .nil))) ⟨pre_noFmin (.dels _) (iht h.2.2.1), pre_noFmin (.dels _) (ihf h.2.2.2)⟩

/-! ## Scoping -/

/-- `L`: the variables alive.  A variable is used only while it is alive, and is not declared twice. -/
def Cmd.wf (s : Cmd K) (L : Set Nat) : Prop :=
  match s with
  | .decl v => v ∉ L
  | .declE v e => v ∉ L ∧ e.reads (· ∈ L)
  | .kill v | .setD v _ | .setP v _ | .accD _ v _ | .divD v _ | .incr v | .decr v | .indep v | .dep v => v ∈ L
  | .set v e | .acc _ v e | .divE v e => v ∈ L ∧ e.reads (· ∈ L)
  | .postIncr r v | .postDecr r v => r ∉ L ∧ v ∈ L
  | .cond r c a b | .condEq r c a b => r ∈ L ∧ c.reads (· ∈ L) ∧ a.reads (· ∈ L) ∧ b.reads (· ∈ L)
  | .condS r c a | .condEqS r c a => r ∈ L ∧ c.reads (· ∈ L) ∧ a.reads (· ∈ L)

def Cmd.alive (s : Cmd K) (L : Set Nat) : Set Nat :=
  match s with
  | .decl v | .declE v _ | .postIncr v _ | .postDecr v _ => insert v L
  | .kill v => L \ {v}
  | _ => L

def Src.wf : Src K → Set Nat → Prop
  | .done, _ => True
  | .cmd c k, L => c.wf L ∧ k.wf (c.alive L)
  | .ifD _ a _ t f, L | .ifD' _ _ a t f, L => a.reads (· ∈ L) ∧ t.wf L ∧ f.wf L
  | .ifA _ a b t f, L => a.reads (· ∈ L) ∧ b.reads (· ∈ L) ∧ t.wf L ∧ f.wf L

/-- The variables alive in a state. -/
def SE.alive (e : SE K) : Set Nat := {v | (e.vars v).isSome}

theorem ev_some {V : Nat → Option K} {par : Nat → K} {n : Nat} (e : Ex K) : ∀ {As : List K}, e.scoped n As.length → e.reads (fun k => (V k).isSome) → ∃ v, e.ev V par As = some v := by
  induction e with
  | var k => intro As _ h; exact Option.isSome_iff_exists.1 h
  | arg i => intro As h _; exact ⟨As[i]'h, List.getElem?_eq_getElem h⟩
  | par p => intro As _ _; exact ⟨_, rfl⟩
  | num p => intro As _ _; exact ⟨_, rfl⟩
  | lv e ih => intro As h1 h2; exact ih h1 h2
  | un f e ih => intro As h1 h2; obtain ⟨v, h⟩ := ih (As := As) h1 h2; exact ⟨_, by simp only [Ex.ev, h]; rfl⟩
  | trig f e ih => intro As h1 h2; obtain ⟨v, h⟩ := ih (As := As) h1 h2; exact ⟨_, by simp only [Ex.ev, h]; rfl⟩
  | quad f e ih => intro As h1 h2; obtain ⟨v, h⟩ := ih (As := As) h1 h2; exact ⟨_, by simp only [Ex.ev, h]; rfl⟩
  | bin f a b iha ihb =>
    intro As h1 h2; obtain ⟨v, h⟩ := iha (As := As) h1.1 h2.1; obtain ⟨w, h'⟩ := ihb (As := As) h1.2 h2.2
    exact ⟨_, by simp only [Ex.ev, h, h']; rfl⟩
  | cond c a b ihc iha ihb =>
    intro As h1 h2; obtain ⟨u, h⟩ := ihc (As := As) h1.1 h2.1; obtain ⟨v, h'⟩ := iha (As := As) h1.2.1 h2.2.1; obtain ⟨w, h''⟩ := ihb (As := As) h1.2.2 h2.2.2
    exact ⟨_, by simp only [Ex.ev, h, h', h'']; rfl⟩
  | argE e b ihe ihb =>
    intro As h1 h2; obtain ⟨v, h⟩ := ihe (As := As) h1.1 h2.1; obtain ⟨w, h'⟩ := ihb (As := v :: As) h1.2 h2.2
    exact ⟨w, by simp only [Ex.ev, h]; exact h'⟩
  | locE e b ihe ihb =>
    intro As h1 h2; obtain ⟨v, h⟩ := ihe (As := As) h1.1 h2.1; obtain ⟨w, h'⟩ := ihb (As := v :: As) h1.2 h2.2
    exact ⟨w, by simp only [Ex.ev, h]; exact h'⟩

theorem alive_set {E : SE K} {d : Nat} {v : K} : (E.set d v).alive = insert d E.alive := by
  ext k; by_cases h : k = d <;> simp [SE.alive, h]
theorem alive_set' {E : SE K} {d : Nat} {v : K} (h : d ∈ E.alive) : (E.set d v).alive = E.alive := by
  rw [alive_set, Set.insert_eq_of_mem h]

theorem cmd_some (c : Cmd K) {x par : Nat → K} {n : Nat} {E : SE K} (hf : c.fits n) (hw : c.wf E.alive) : ∃ E', c.sem x par E = some E' ∧ E'.alive = c.alive E.alive := by
  have ev : ∀ e : Ex K, e.scoped n 0 → e.reads (· ∈ E.alive) → ∃ v, e.ev E.vars par [] = some v := fun e h1 h2 => ev_some e (As := []) h1 h2
  have sm : ∀ v, v ∈ E.alive → ∃ u, E.vars v = some u := fun v h => Option.isSome_iff_exists.1 h
  have nn : ∀ v, v ∉ E.alive → E.vars v = none := fun v h => by simpa [SE.alive] using h
  cases c with
  | decl v => exact ⟨_, by simp only [Cmd.sem, nn v hw, Option.isNone_none, Option.isSome_some, if_true, Option.bind_some, Option.map_some]; rfl, alive_set⟩
  | declE v e => obtain ⟨w, h⟩ := ev e hf.2 hw.2; exact ⟨_, by simp only [Cmd.sem, nn v hw.1, h, Option.isNone_none, Option.isSome_some, if_true, Option.bind_some, Option.map_some]; rfl, alive_set⟩
  | kill v => obtain ⟨u, h⟩ := sm v hw; exact ⟨_, by simp only [Cmd.sem, h, Option.isNone_none, Option.isSome_some, if_true, Option.bind_some, Option.map_some]; rfl, by ext k; by_cases hk : k = v <;> simp [SE.alive, hk, Cmd.alive]⟩
  | set v e => obtain ⟨u, hu⟩ := sm v hw.1; obtain ⟨w, h⟩ := ev e hf.2 hw.2; exact ⟨_, by simp only [Cmd.sem, hu, h, Option.isNone_none, Option.isSome_some, if_true, Option.bind_some, Option.map_some]; rfl, alive_set' hw.1⟩
  | acc f v e => obtain ⟨u, hu⟩ := sm v hw.1; obtain ⟨w, h⟩ := ev e hf.2 hw.2; exact ⟨_, by simp only [Cmd.sem, hu, h, Option.isNone_none, Option.isSome_some, if_true, Option.bind_some, Option.map_some]; rfl, alive_set' hw.1⟩
  | divE v e => obtain ⟨u, hu⟩ := sm v hw.1; obtain ⟨w, h⟩ := ev e hf.2 hw.2; exact ⟨_, by simp only [Cmd.sem, hu, h, Option.isNone_none, Option.isSome_some, if_true, Option.bind_some, Option.map_some]; rfl, alive_set' hw.1⟩
  | setD v c => obtain ⟨u, hu⟩ := sm v hw; exact ⟨_, by simp only [Cmd.sem, hu, Option.isNone_none, Option.isSome_some, if_true, Option.bind_some, Option.map_some]; rfl, alive_set' hw⟩
  | setP v c => obtain ⟨u, hu⟩ := sm v hw; exact ⟨_, by simp only [Cmd.sem, hu, Option.isNone_none, Option.isSome_some, if_true, Option.bind_some, Option.map_some]; rfl, alive_set' hw⟩
  | accD f v c => obtain ⟨u, hu⟩ := sm v hw; exact ⟨_, by simp only [Cmd.sem, hu, Option.isNone_none, Option.isSome_some, if_true, Option.bind_some, Option.map_some]; rfl, alive_set' hw⟩
  | divD v c => obtain ⟨u, hu⟩ := sm v hw; exact ⟨_, by simp only [Cmd.sem, hu, Option.isNone_none, Option.isSome_some, if_true, Option.bind_some, Option.map_some]; rfl, alive_set' hw⟩
  | incr v => obtain ⟨u, hu⟩ := sm v hw; exact ⟨_, by simp only [Cmd.sem, hu, Option.isNone_none, Option.isSome_some, if_true, Option.bind_some, Option.map_some]; rfl, alive_set' hw⟩
  | decr v => obtain ⟨u, hu⟩ := sm v hw; exact ⟨_, by simp only [Cmd.sem, hu, Option.isNone_none, Option.isSome_some, if_true, Option.bind_some, Option.map_some]; rfl, alive_set' hw⟩
  | indep v => obtain ⟨u, hu⟩ := sm v hw; exact ⟨{ E.set v (x E.ii) with ii := E.ii + 1 }, by simp [Cmd.sem, hu], alive_set' (v := x E.ii) hw⟩
  | dep v => obtain ⟨u, hu⟩ := sm v hw; exact ⟨{ E with ys := E.ys ++ [u] }, by simp only [Cmd.sem, hu, Option.isNone_none, Option.isSome_some, if_true, Option.bind_some, Option.map_some], rfl⟩
  | postIncr r v =>
    obtain ⟨u, hu⟩ := sm v hw.2
    exact ⟨_, by simp only [Cmd.sem, hu, nn r hw.1, Option.isNone_none, Option.isSome_some, if_true, Option.bind_some, Option.map_some]; rfl, by rw [alive_set, alive_set, Set.insert_comm, Set.insert_eq_of_mem hw.2]; rfl⟩
  | postDecr r v =>
    obtain ⟨u, hu⟩ := sm v hw.2
    exact ⟨_, by simp only [Cmd.sem, hu, nn r hw.1, Option.isNone_none, Option.isSome_some, if_true, Option.bind_some, Option.map_some]; rfl, by rw [alive_set, alive_set, Set.insert_comm, Set.insert_eq_of_mem hw.2]; rfl⟩
  | cond r c a b =>
    obtain ⟨u, hu⟩ := sm r hw.1; obtain ⟨v1, h1⟩ := ev c hf.2.1 hw.2.1; obtain ⟨v2, h2⟩ := ev a hf.2.2.1 hw.2.2.1; obtain ⟨v3, h3⟩ := ev b hf.2.2.2 hw.2.2.2
    exact ⟨_, by simp only [Cmd.sem, hu, h1, h2, h3, Option.isNone_none, Option.isSome_some, if_true, Option.bind_some, Option.map_some]; rfl, alive_set' hw.1⟩
  | condEq r c a b =>
    obtain ⟨u, hu⟩ := sm r hw.1; obtain ⟨v1, h1⟩ := ev c hf.2.1 hw.2.1; obtain ⟨v2, h2⟩ := ev a hf.2.2.1 hw.2.2.1; obtain ⟨v3, h3⟩ := ev b hf.2.2.2 hw.2.2.2
    exact ⟨_, by simp only [Cmd.sem, hu, h1, h2, h3, Option.isNone_none, Option.isSome_some, if_true, Option.bind_some, Option.map_some]; rfl, alive_set' hw.1⟩
  | condS r c a =>
    obtain ⟨u, hu⟩ := sm r hw.1; obtain ⟨v1, h1⟩ := ev c hf.2.1 hw.2.1; obtain ⟨v2, h2⟩ := ev a hf.2.2 hw.2.2
    exact ⟨_, by simp only [Cmd.sem, hu, h1, h2, Option.isNone_none, Option.isSome_some, if_true, Option.bind_some, Option.map_some]; rfl, alive_set' hw.1⟩
  | condEqS r c a =>
    obtain ⟨u, hu⟩ := sm r hw.1; obtain ⟨v1, h1⟩ := ev c hf.2.1 hw.2.1; obtain ⟨v2, h2⟩ := ev a hf.2.2 hw.2.2
    exact ⟨_, by simp only [Cmd.sem, hu, h1, h2, Option.isNone_none, Option.isSome_some, if_true, Option.bind_some, Option.map_some]; rfl, alive_set' hw.1⟩

/-- A program that keeps to the scoping rules has a meaning at every point. -/
theorem src_some (S : Src K) {x par : Nat → K} {n : Nat} : ∀ {E : SE K}, S.fits n → S.wf E.alive → ∃ R, S.sem x par E = some R := by
  induction S with
  | done => intro E _ _; exact ⟨_, rfl⟩
  | cmd c k ih =>
    intro E hf hw
    obtain ⟨E', h1, h2⟩ := cmd_some c (x := x) (par := par) hf.1 hw.1
    obtain ⟨R, h3⟩ := ih (E := E') hf.2 (h2 ▸ hw.2)
    exact ⟨R, by simp [Src.sem, h1, h3]⟩
  | ifD c a q t f iht ihf =>
    intro E hf hw
    obtain ⟨v, h1⟩ := ev_some (par := par) (V := E.vars) a (As := []) hf.1 hw.1
    obtain ⟨R, h2⟩ := iht (E := E) hf.2.1 hw.2.1
    obtain ⟨R', h3⟩ := ihf (E := E) hf.2.2 hw.2.2
    simp only [Src.sem, h1, h2, h3, Option.bind_some, Option.map_some]
    split <;> exact ⟨_, rfl⟩
  | ifD' c q a t f iht ihf =>
    intro E hf hw
    obtain ⟨v, h1⟩ := ev_some (par := par) (V := E.vars) a (As := []) hf.1 hw.1
    obtain ⟨R, h2⟩ := iht (E := E) hf.2.1 hw.2.1
    obtain ⟨R', h3⟩ := ihf (E := E) hf.2.2 hw.2.2
    simp only [Src.sem, h1, h2, h3, Option.bind_some, Option.map_some]
    split <;> exact ⟨_, rfl⟩
  | ifA c a b t f iht ihf =>
    intro E hf hw
    obtain ⟨v, h1⟩ := ev_some (par := par) (V := E.vars) a (As := []) hf.1 hw.1
    obtain ⟨w, h1'⟩ := ev_some (par := par) (V := E.vars) b (As := []) hf.2.1 hw.2.1
    obtain ⟨R, h2⟩ := iht (E := E) hf.2.2.1 hw.2.2.1
    obtain ⟨R', h3⟩ := ihf (E := E) hf.2.2.2 hw.2.2.2
    simp only [Src.sem, h1, h1', h2, h3, Option.bind_some, Option.map_some]
    split <;> exact ⟨_, rfl⟩

theorem ev_dom_all {V : Nat → Option K} {par : Nat → K} (e : Ex K) : ∀ As, e.dom Dom.all V par As := by
  induction e with
  | un f e ih => intro As; exact ⟨ih As, fun _ _ => trivial⟩
  | quad f e ih => intro As; exact ⟨ih As, fun _ _ => trivial⟩
  | lv e ih => intro As; exact ih As
  | trig f e ih => intro As; exact ih As
  | bin f a b iha ihb => intro As; exact ⟨iha As, ihb As, fun _ _ _ _ => trivial⟩
  | cond c a b ihc iha ihb => intro As; exact ⟨ihc As, iha As, ihb As, fun _ _ => trivial⟩
  | argE e b ihe ihb => intro As; exact ⟨ihe As, fun v _ => ihb _⟩
  | locE e b ihe ihb => intro As; exact ⟨ihe As, fun v _ => ihb _⟩
  | _ => intro As; trivial

theorem src_dom_all (S : Src K) {x par : Nat → K} : ∀ E, S.dom Dom.all x par E := by
  induction S with
  | done => intro E; trivial
  | cmd c k ih =>
    intro E
    refine ⟨?_, fun E' _ => ih E'⟩
    cases c <;> first
      | trivial
      | exact ev_dom_all _ _
      | exact ⟨ev_dom_all _ _, ev_dom_all _ _, fun _ _ => trivial⟩
      | exact ⟨ev_dom_all _ _, ev_dom_all _ _, ev_dom_all _ _, fun _ _ => trivial⟩
  | ifD c a q t f iht ihf => intro E; refine ⟨ev_dom_all _ _, fun v _ => ⟨trivial, ?_⟩⟩; split; exacts [iht E, ihf E]
  | ifD' c q a t f iht ihf => intro E; refine ⟨ev_dom_all _ _, fun v _ => ⟨trivial, ?_⟩⟩; split; exacts [iht E, ihf E]
  | ifA c a b t f iht ihf => intro E; refine ⟨ev_dom_all _ _, ev_dom_all _ _, fun v w _ _ => ⟨trivial, ?_⟩⟩; split; exacts [iht E, ihf E]

/-- The calls of a program compute its meaning, at every point. -/
theorem src_spec (S : Src K) {x par : Nat → K} {n : Nat} {E : SE K} (hu : Unused n E) (hf : S.fits n) (hw : S.wf E.alive) : (S.comp n).spec x par E = S.sem x par E := by
  obtain ⟨R, h⟩ := src_some S (x := x) (par := par) hf hw
  rw [(src_ok (D := Dom.all) S hu hf (src_dom_all S E) h).1, h]

end Verif.AD
