import Verif.AD.NoMinMax

/-!
# The switching variables of a source program

`Ex.kinks`, `Src.kinks`: the arguments of `fabs` the evaluation of a C++ expression or program meets, in the order of evaluation; with `no_min_max()` (`nmm`) also `a - b` for each
`fmin(a, b)`.  `src_switches`: they are the switching variables (`Prog.switches`) of the calls the program makes.
-/
set_option linter.all false
namespace Verif.AD
open Elem

variable {K : Type} [Scalar K]

/-- The argument, if the function is `fabs`. -/
def fabsArg : Un K → Option K → List K
  | .fabs, some v => [v]
  | _, _ => []

/-- The difference of the arguments, if the function is `fmin` and `no_min_max()` is set. -/
def fminArg (nmm : Bool) : Bin → Option K → Option K → List K
  | .fmin, some v, some w => if nmm then [v - w] else []
  | _, _, _ => []

/-- The arguments of `fabs` (and `a - b` for `fmin(a, b)` if `nmm`) in the evaluation of an expression, operands before the function applied to them, left operand first
(Simplified: C++ leaves the order of the operands unspecified; this is the order of the model, see `Ex.comp`). -/
def Ex.kinks (nmm : Bool) (V : Nat → Option K) (par : Nat → K) : List K → Ex K → List K
  | _, .var _ | _, .arg _ | _, .par _ | _, .num _ => []
  | As, .lv e | As, .trig _ e | As, .quad _ e => e.kinks nmm V par As
  | As, .un f e => e.kinks nmm V par As ++ fabsArg f (e.ev V par As)
  | As, .bin f a b => a.kinks nmm V par As ++ b.kinks nmm V par As ++ fminArg nmm f (a.ev V par As) (b.ev V par As)
  | As, .cond c a b => c.kinks nmm V par As ++ a.kinks nmm V par As ++ b.kinks nmm V par As
  | As, .argE e b | As, .locE e b => e.kinks nmm V par As ++ match e.ev V par As with | some v => b.kinks nmm V par (v :: As) | none => []

/-- The same for a statement. -/
def Cmd.kinks (nmm : Bool) (V : Nat → Option K) (par : Nat → K) : Cmd K → List K
  | .declE _ e | .set _ e | .acc _ _ e | .divE _ e => e.kinks nmm V par []
  | .cond _ c a b | .condEq _ c a b => c.kinks nmm V par [] ++ a.kinks nmm V par [] ++ b.kinks nmm V par []
  | .condS _ c a | .condEqS _ c a => c.kinks nmm V par [] ++ a.kinks nmm V par []
  | _ => []

/-- The same for a program, along the path it takes. -/
def Src.kinks (nmm : Bool) (x par : Nat → K) : Src K → SE K → List K
  | .done, _ => []
  | .cmd c k, e => c.kinks nmm e.vars par ++ match c.sem x par e with | some e' => k.kinks nmm x par e' | none => []
  | .ifD c a q t f, e => a.kinks nmm e.vars par [] ++ match a.ev e.vars par [] with
    | some v => if c.rel v q then t.kinks nmm x par e else f.kinks nmm x par e
    | none => []
  | .ifD' c q a t f, e => a.kinks nmm e.vars par [] ++ match a.ev e.vars par [] with
    | some v => if c.rel q v then t.kinks nmm x par e else f.kinks nmm x par e
    | none => []
  | .ifA c a b t f, e => a.kinks nmm e.vars par [] ++ b.kinks nmm e.vars par [] ++ match a.ev e.vars par [], b.ev e.vars par [] with
    | some v, some w => if c.rel v w then t.kinks nmm x par e else f.kinks nmm x par e
    | _, _ => []

/-! ## Proof -/

/-- The arguments of the calls of `fabs` in a sequence of calls. -/
def swL (x par : Nat → K) : List (Stmt K) → SE K → List K
  | [], _ => []
  | s :: L, E => s.switches E ++ match s.spec x par E with | some E' => swL x par L E' | none => []

section
variable {x par : Nat → K}

theorem swL_app {D : Dom K} {L M : List (Stmt K)} : ∀ {E E' : SE K}, Exec D x par L E E' → swL x par (L ++ M) E = swL x par L E ++ swL x par M E' := by
  induction L with
  | nil => intro E E' h; have := h.1; simp [runL] at this; subst this; rfl
  | cons s L ih =>
    intro E E' h
    obtain ⟨h1, h2⟩ := h
    simp only [runL, Option.bind_eq_some_iff] at h1
    obtain ⟨E1, e1, e2⟩ := h1
    simp only [List.cons_append, swL, e1]
    rw [ih ⟨e2, h2.2 _ e1⟩, List.append_assoc]

theorem switches_pre {D : Dom K} {L : List (Stmt K)} {k : Prog K} : ∀ {E E' : SE K}, Exec D x par L E E' →
    (Prog.pre L k).switches x par E = swL x par L E ++ k.switches x par E' := by
  induction L with
  | nil => intro E E' h; have := h.1; simp [runL] at this; subst this; rfl
  | cons s L ih =>
    intro E E' h
    obtain ⟨h1, h2⟩ := h
    simp only [runL, Option.bind_eq_some_iff] at h1
    obtain ⟨E1, e1, e2⟩ := h1
    simp only [Prog.pre, Prog.switches, swL, e1]
    rw [ih ⟨e2, h2.2 _ e1⟩, List.append_assoc]

/-- No call of `fabs`. -/
def Stmt.noAbs (s : Stmt K) : Prop := ∀ E, s.switches E = []
def NA (L : List (Stmt K)) : Prop := ∀ s ∈ L, s.noAbs
theorem NA.append {L M : List (Stmt K)} (h : NA L) (h' : NA M) : NA (L ++ M) := fun s hs => (List.mem_append.1 hs).elim (h s) (h' s)
theorem NA.cons {s : Stmt K} {L : List (Stmt K)} (h : s.noAbs) (h' : NA L) : NA (s :: L) := fun t ht => by
  rcases List.mem_cons.1 ht with rfl | ht
  · exact h
  · exact h' t ht
theorem NA.nil : NA ([] : List (Stmt K)) := fun _ h => by simp at h
theorem NA.dels (M : List Nat) : NA (dels M : List (Stmt K)) := fun s hs => by
  simp only [Verif.AD.dels, List.mem_map] at hs; obtain ⟨a, _, rfl⟩ := hs; exact fun _ => rfl
theorem NA.chain (C : List (Un K)) (h : ∀ f ∈ C, f ≠ .fabs) : ∀ t, NA (chainCode C t) := by
  induction C with
  | nil => intro t; exact .nil
  | cons f C ih =>
    intro t
    refine .cons ?_ (.cons (fun _ => rfl) (ih (fun f hf => h f (by simp [hf])) _))
    intro E; have := h f (by simp); cases f <;> first | rfl | exact absurd rfl this
theorem NA.compChain (q : Quad) (t : Nat) : NA (chainCode (compChain q : List (Un K)) t) := by
  refine .chain _ ?_ t
  intro f hf
  cases q <;> simp [Verif.AD.compChain] at hf <;> aesop

theorem NA.sw {L : List (Stmt K)} (h : NA L) : ∀ E, swL x par L E = [] := by
  induction L with
  | nil => intro E; rfl
  | cons s L ih =>
    intro E
    simp only [swL, h s (by simp) E, List.nil_append]
    cases s.spec x par E with
    | none => rfl
    | some E' => exact ih (fun t ht => h t (by simp [ht])) E'

theorem NA.binTail {f : Bin} {lv : Bool} {a b c : Nat} : (Stmt.bin f lv a b c : Stmt K).noAbs := fun _ => rfl

theorem swL_one (s : Stmt K) (E : SE K) : swL x par [s] E = s.switches E := by
  simp only [swL]; split <;> simp

theorem sw_mat {r : Out K} {D : Dom K} {E E' : SE K} (h : Exec D x par r.code E E') : swL x par r.mat.code E = swL x par r.code E := by
  unfold Out.mat
  split
  · rfl
  · rw [swL_app h, NA.sw (.cons (fun _ => rfl) .nil), List.append_nil]

theorem comp_sw {V : Nat → Option K} (e : Ex K) : ∀ {As : List K} {A : List Nat} {n : Nat} {E : SE K} {v : K},
    Pre V As A n E → e.ev V par As = some v → swL x par (e.comp A n).code E = e.kinks false V par As := by
  have tr : ∀ {s : Stmt K}, (∀ E, s.switches E = []) → s.noAbs := fun h => h
  induction e with
  | var k => intros; rfl
  | arg k => intros; rfl
  | par p => intros; exact NA.sw (.cons (fun _ => rfl) (.cons (fun _ => rfl) .nil)) _
  | num p => intros; exact NA.sw (.cons (fun _ => rfl) .nil) _
  | lv e ih => intro As A n E v hp he; exact ih hp he
  | trig co e ih =>
    intro As A n E v hp he
    simp only [Ex.ev, Option.map_eq_some_iff] at he
    obtain ⟨w, he, rfl⟩ := he
    obtain ⟨E', h1, h2⟩ := comp_ok (D := Dom.all) (x := x) e hp he (ev_dom_all e _)
    simp only [Ex.comp, trigOut, Ex.kinks]
    split <;> rw [swL_app h1, ih hp he, NA.sw (.cons (fun _ => rfl) (.cons (fun _ => rfl) (.cons (fun _ => rfl) (.cons (fun _ => rfl) .nil)))), List.append_nil]
  | quad q e ih =>
    intro As A n E v hp he
    simp only [Ex.ev, Option.map_eq_some_iff] at he
    obtain ⟨w, he, rfl⟩ := he
    obtain ⟨E', h1, h2⟩ := comp_ok (D := Dom.all) (x := x) e hp he (ev_dom_all e _)
    have st : ∀ a t, NA (compStart q a t : List (Stmt K)) := by
      intro a t; cases q <;> first | exact .cons (fun _ => rfl) (.cons (fun _ => rfl) (.cons (fun _ => rfl) .nil)) | exact .cons (fun _ => rfl) (.cons (fun _ => rfl) (.cons (fun _ => rfl) (.cons (fun _ => rfl) .nil)))
    simp only [Ex.comp, quadOut, Ex.kinks]
    split
    · simp only [List.append_assoc]
      rw [swL_app h1, ih hp he, NA.sw ((st _ _).append ((NA.compChain _ _).append (.cons (fun _ => rfl) (.cons (fun _ => rfl) (.cons (fun _ => rfl) .nil))))), List.append_nil]
    · simp only [List.append_assoc]
      rw [swL_app h1, ih hp he, NA.sw (NA.append (.cons (fun _ => rfl) .nil) ((st _ _).append ((NA.compChain _ _).append (.cons (fun _ => rfl) (.cons (fun _ => rfl) .nil))))), List.append_nil]
  | un f e ih =>
    intro As A n E v hp he
    simp only [Ex.ev, Option.map_eq_some_iff] at he
    obtain ⟨w, he, rfl⟩ := he
    obtain ⟨E', h1, h2⟩ := comp_ok (D := Dom.all) (x := x) e hp he (ev_dom_all e _)
    have n1 := hp.names he
    have hd := h2.dead n1 _ le_rfl
    have hr := h2.res
    have lt := n1.res_lt
    simp only [Ex.comp, unOut, Ex.kinks, he]
    split
    · rw [swL_app h1, ih hp he]
      congr 1
      simp only [swL]
      have : (Stmt.un f (e.comp A n).res (e.comp A n).res).switches E' = fabsArg f (some w) := by cases f <;> simp [Stmt.switches, fabsArg, hr]
      rw [this]
      simp [Stmt.spec, hr, Stmt.switches]
      try (split <;> simp)
    · rw [swL_app h1, ih hp he]
      congr 1
      have e0 : (Stmt.new (e.comp A n).n : Stmt K).spec x par E' = some (E'.set (e.comp A n).n 0) := by simp [Stmt.spec, hd]
      have e1 : (Stmt.new (e.comp A n).n : Stmt K).switches E' = [] := rfl
      rw [swL, e0, e1]
      simp only [swL_one, List.nil_append]
      have : (Stmt.un f (e.comp A n).res (e.comp A n).n).switches (E'.set (e.comp A n).n 0) = fabsArg f (some w) := by
        cases f <;> simp [Stmt.switches, fabsArg, hr, show (e.comp A n).res ≠ (e.comp A n).n by omega]
      exact this
  | bin f a b iha ihb =>
    intro As A n E v hp he
    simp only [Ex.ev, Option.bind_eq_some_iff, Option.map_eq_some_iff] at he
    obtain ⟨u, hu, w, hw, rfl⟩ := he
    obtain ⟨E1, h1, h2⟩ := comp_ok (D := Dom.all) (x := x) a hp hu (ev_dom_all a _)
    have hn1 := hp.names hu
    have hp1 := hp.step hn1 h2
    obtain ⟨E2, h3, h4⟩ := comp_ok (D := Dom.all) (x := x) b hp1 hw (ev_dom_all b _)
    have k1 := iha hp hu
    have k2 := ihb hp1 hw
    have hf : fminArg false f (a.ev V par As) (b.ev V par As) = [] := by
      rw [hu, hw]; cases f <;> simp [fminArg]
    have key : ∀ M : List (Stmt K), NA M → swL x par ((a.comp A n).code ++ (b.comp A (a.comp A n).n).code ++ M) E = a.kinks false V par As ++ b.kinks false V par As := by
      intro M hM
      rw [swL_app (h1.append h3), swL_app h1, k1, k2, hM.sw, List.append_nil]
    simp only [Ex.comp, Ex.kinks, hf, List.append_nil, binOut]
    generalize a.comp A n = r1 at *
    generalize b.comp A r1.n = r2 at *
    cases e1 : r1.tmp <;> cases e2 : r2.tmp <;> simp only [] <;> cases f <;> (try simp only []) <;> first
      | exact key _ (.cons (fun _ => rfl) (.cons (fun _ => rfl) .nil))
      | exact key _ (.cons (fun _ => rfl) (.cons (fun _ => rfl) (.cons (fun _ => rfl) (.cons (fun _ => rfl) .nil))))
  | cond c a b ihc iha ihb =>
    intro As A n E v hp he
    simp only [Ex.ev, Option.bind_eq_some_iff, Option.map_eq_some_iff] at he
    obtain ⟨u, hu, w, hw, z, hz, rfl⟩ := he
    have hd0 := hp.dead n le_rfl
    have hp0 : Pre V As A (n + 1) (E.set n 0) := hp.next (by omega) (fun k hk => by simp [show k ≠ n by omega]) (fun k hk => by simp [show k ≠ n by omega, hp.dead k (by omega)])
    obtain ⟨E1, c1, p1⟩ := comp_ok (D := Dom.all) (x := x) c hp0 hu (ev_dom_all c _)
    have hp1 := hp0.step (hp0.names hu) p1
    obtain ⟨E2, c2, p2⟩ := comp_ok (D := Dom.all) (x := x) a hp1 hw (ev_dom_all a _)
    have hp2 := hp1.step (hp1.names hw) p2
    obtain ⟨E3, c3, p3⟩ := comp_ok (D := Dom.all) (x := x) b hp2 hz (ev_dom_all b _)
    have k1 := ihc hp0 hu
    have k2 := iha hp1 hw
    have k3 := ihb hp2 hz
    simp only [Ex.comp, Ex.kinks, List.append_assoc]
    have e0 : (Stmt.new n : Stmt K).spec x par E = some (E.set n 0) := by simp [Stmt.spec, hd0]
    simp only [swL, e0, Stmt.switches, List.nil_append]
    rw [swL_app c1, swL_app c2, swL_app c3, k1, k2, k3, NA.sw (NA.append (.cons (fun _ => rfl) .nil) (.dels _)), List.append_nil]
  | argE e b ihe ihb =>
    intro As A n E v hp he
    simp only [Ex.ev, Option.bind_eq_some_iff] at he
    obtain ⟨u, hu, hv⟩ := he
    obtain ⟨E1, c1, p1⟩ := comp_ok (D := Dom.all) (x := x) e hp hu (ev_dom_all e _)
    have n1 := hp.names hu
    have hp1 := (hp.step n1 p1).bind n1.res_lt p1.res
    obtain ⟨E2', c2', p2'⟩ := comp_ok (D := Dom.all) (x := x) b hp1 hv (ev_dom_all b _)
    obtain ⟨E2, c2, p2⟩ := post_mat (hp1.names hv) p2' c2'
    have k1 := ihe hp hu
    have k2 := ihb hp1 hv
    simp only [Ex.comp, Ex.kinks, hu, List.append_assoc]
    rw [swL_app c1, swL_app c2, sw_mat c2', k1, k2, NA.sw (.dels _), List.append_nil]
  | locE e b ihe ihb =>
    intro As A n E v hp he
    simp only [Ex.ev, Option.bind_eq_some_iff] at he
    obtain ⟨u, hu, hv⟩ := he
    obtain ⟨E1', c1', p1'⟩ := comp_ok (D := Dom.all) (x := x) e hp hu (ev_dom_all e _)
    obtain ⟨E1, c1, p1⟩ := post_mat (hp.names hu) p1' c1'
    have n1 := (hp.names hu).mat
    have ht1 := mat_tmp (e.comp A n)
    have k1 := ihe hp hu
    rw [← sw_mat c1'] at k1
    clear p1' c1'
    simp only [Ex.comp, Ex.kinks, hu]
    generalize (e.comp A n).mat = r1 at *
    have l1 := n1.le
    have hr1 := n1.bd _ (mem_all.2 (.inr ⟨ht1, rfl⟩))
    obtain ⟨F1, d1, f1, i1, y1⟩ := ex_dels' (D := Dom.all) (x := x) (par := par) r1.gar (E := E1) n1.nd'.1 (fun k hk => by
      obtain ⟨w, hw⟩ := p1.live n1 (mem_all.2 (.inl hk)); simp [hw])
    have hlowF : ∀ k, k < n → F1.vars k = E.vars k := fun k hk => by
      rw [f1, if_neg (fun h => by have := n1.gar k h; omega), p1.low k hk]
    have hresF : F1.vars r1.res = some u := by rw [f1, if_neg (n1.nd'.2 ht1), p1.res]
    have hdeadF : ∀ k, n ≤ k → k ≠ r1.res → F1.vars k = none := by
      intro k hk hne; rw [f1]; split_ifs with h
      · rfl
      · exact p1.gone hk (by rw [mem_all]; simp [h, hne])
    have hp1 : Pre V (u :: As) (r1.res :: A) r1.n F1 := (hp.next l1 hlowF (fun k hk => hdeadF k (by omega) (by omega))).bind hr1.2 hresF
    obtain ⟨E2', c2', p2'⟩ := comp_ok (D := Dom.all) (x := x) b hp1 hv (ev_dom_all b _)
    obtain ⟨E2, c2, p2⟩ := post_mat (hp1.names hv) p2' c2'
    have k2 := ihb hp1 hv
    simp only [List.append_assoc]
    rw [swL_app c1, swL_app d1, swL_app c2, sw_mat c2', k1, k2, NA.sw (.dels _), NA.sw (NA.append (.dels _) (.cons (fun _ => rfl) .nil))]
    simp

theorem two_sw {E : SE K} {n : Nat} {c a : Ex K} {u v : K} (hE : Unused n E) (s : Nat → Nat → Stmt K) (hs : ∀ i j, (s i j).noAbs)
    (hc : c.ev E.vars par [] = some u) (ha : a.ev E.vars par [] = some v) :
    swL x par (two n c a s) E = c.kinks false E.vars par [] ++ a.kinks false E.vars par [] := by
  have hp := hE.pre
  obtain ⟨E1, c1, p1⟩ := comp_ok (D := Dom.all) (x := x) c hp hc (ev_dom_all c _)
  have hp1 := hp.step (hp.names hc) p1
  obtain ⟨E2, c2, p2⟩ := comp_ok (D := Dom.all) (x := x) a hp1 ha (ev_dom_all a _)
  have k1 := comp_sw (x := x) c hp hc
  have k2 := comp_sw (x := x) a hp1 ha
  unfold two
  simp only [List.append_assoc]
  rw [swL_app c1, swL_app c2, k1, k2, NA.sw (NA.append (.cons (hs _ _) .nil) (.dels _)), List.append_nil]

theorem three_sw {E : SE K} {n : Nat} {c a b : Ex K} {u v w : K} (hE : Unused n E) (s : Nat → Nat → Nat → Stmt K) (hs : ∀ i j l, (s i j l).noAbs)
    (hc : c.ev E.vars par [] = some u) (ha : a.ev E.vars par [] = some v) (hb : b.ev E.vars par [] = some w) :
    swL x par (three n c a b s) E = c.kinks false E.vars par [] ++ a.kinks false E.vars par [] ++ b.kinks false E.vars par [] := by
  have hp := hE.pre
  obtain ⟨E1, c1, p1⟩ := comp_ok (D := Dom.all) (x := x) c hp hc (ev_dom_all c _)
  have hp1 := hp.step (hp.names hc) p1
  obtain ⟨E2, c2, p2⟩ := comp_ok (D := Dom.all) (x := x) a hp1 ha (ev_dom_all a _)
  have hp2 := hp1.step (hp1.names ha) p2
  obtain ⟨E3, c3, p3⟩ := comp_ok (D := Dom.all) (x := x) b hp2 hb (ev_dom_all b _)
  have k1 := comp_sw (x := x) c hp hc
  have k2 := comp_sw (x := x) a hp1 ha
  have k3 := comp_sw (x := x) b hp2 hb
  unfold three
  simp only [List.append_assoc]
  rw [swL_app c1, swL_app c2, swL_app c3, k1, k2, k3, NA.sw (NA.append (.cons (hs _ _ _) .nil) (.dels _)), List.append_nil]

theorem one_sw {E : SE K} {n : Nat} {a : Ex K} {w : K} (hE : Unused n E) (ha : a.ev E.vars par [] = some w) (M : List (Stmt K)) (hM : NA M) :
    swL x par ((a.comp [] n).code ++ M) E = a.kinks false E.vars par [] := by
  have hp := hE.pre
  obtain ⟨E1, c1, p1⟩ := comp_ok (D := Dom.all) (x := x) a hp ha (ev_dom_all a _)
  rw [swL_app c1, comp_sw a hp ha, hM.sw, List.append_nil]

theorem cmd_sw (c : Cmd K) {n : Nat} {E E' : SE K} (hE : Unused n E) (hs : c.sem x par E = some E') :
    swL x par (c.comp n) E = c.kinks false E.vars par := by
  cases c with
  | declE v a =>
    simp only [Cmd.sem] at hs; split at hs
    · simp only [Option.map_eq_some_iff] at hs; obtain ⟨w, hw, rfl⟩ := hs
      simp only [Cmd.comp, List.append_assoc]
      exact one_sw hE hw _ (NA.append (.cons (by split <;> exact fun _ => rfl) .nil) (.dels _))
    · cases hs
  | set v a =>
    simp only [Cmd.sem] at hs; split at hs
    · simp only [Option.map_eq_some_iff] at hs; obtain ⟨w, hw, rfl⟩ := hs
      simp only [Cmd.comp, List.append_assoc]
      exact one_sw hE hw _ (NA.append (.cons (by split <;> exact fun _ => rfl) .nil) (.dels _))
    · cases hs
  | acc f v a =>
    simp only [Cmd.sem, Option.bind_eq_some_iff, Option.map_eq_some_iff] at hs; obtain ⟨u, hu, w, hw, rfl⟩ := hs
    cases f <;> simp only [Cmd.comp, accMult, List.append_assoc] <;>
      exact one_sw hE hw _ (NA.append (.cons (by first | exact fun _ => rfl | (split <;> exact fun _ => rfl)) .nil) (.dels _))
  | divE v a =>
    simp only [Cmd.sem, Option.bind_eq_some_iff, Option.map_eq_some_iff] at hs; obtain ⟨u, hu, w, hw, rfl⟩ := hs
    have : (Ex.un (.divD 1) a).ev E.vars par [] = some (1 / w) := by simp [Ex.ev, hw, Un.fn]
    simp only [Cmd.comp, accMult, List.append_assoc]
    rw [one_sw hE this _ (NA.append (.cons (fun _ => rfl) .nil) (.dels _))]
    simp [Ex.kinks, Cmd.kinks, fabsArg]
  | cond r c a b =>
    simp only [Cmd.sem] at hs; split at hs
    · simp only [Option.bind_eq_some_iff, Option.map_eq_some_iff] at hs
      obtain ⟨u, hu, v, hv, w, hw, rfl⟩ := hs
      exact three_sw hE _ (fun _ _ _ _ => rfl) hu hv hw
    · cases hs
  | condEq r c a b =>
    simp only [Cmd.sem] at hs; split at hs
    · simp only [Option.bind_eq_some_iff, Option.map_eq_some_iff] at hs
      obtain ⟨u, hu, v, hv, w, hw, rfl⟩ := hs
      exact three_sw hE _ (fun _ _ _ _ => rfl) hu hv hw
    · cases hs
  | condS r c a =>
    simp only [Cmd.sem, Option.bind_eq_some_iff, Option.map_eq_some_iff] at hs
    obtain ⟨y, hy, u, hu, v, hv, rfl⟩ := hs
    exact two_sw hE _ (fun _ _ _ => rfl) hu hv
  | condEqS r c a =>
    simp only [Cmd.sem, Option.bind_eq_some_iff, Option.map_eq_some_iff] at hs
    obtain ⟨y, hy, u, hu, v, hv, rfl⟩ := hs
    exact two_sw hE _ (fun _ _ _ => rfl) hu hv
  | postIncr r v => exact NA.sw (.cons (fun _ => rfl) (.cons (fun _ => rfl) (.cons (fun _ => rfl) .nil))) _
  | postDecr r v => exact NA.sw (.cons (fun _ => rfl) (.cons (fun _ => rfl) (.cons (fun _ => rfl) .nil))) _
  | _ => exact NA.sw (.cons (fun _ => rfl) .nil) _

theorem cmpD_sw {c : Cmp} {e : Ex K} {q : K} {T F : Prog K} {n : Nat} {E : SE K} {v : K} {p : Prop} [Decidable p] (hE : Unused n E) (hv : e.ev E.vars par [] = some v) (hp : c.rel v q ↔ p) :
    (cmpD n c e q T F).switches x par E = e.kinks false E.vars par [] ++ if p then T.switches x par E else F.switches x par E := by
  have hpre := hE.pre
  obtain ⟨E1, c1, p1⟩ := comp_ok (D := Dom.all) (x := x) e hpre hv (ev_dom_all e _)
  have n1 := hpre.names hv
  have k1 := comp_sw (x := x) e hpre hv
  unfold cmpD
  simp only []
  generalize e.comp [] n = r at *
  have lt := n1.res_lt
  have le := n1.le
  split
  · rename_i hq
    subst hq
    rw [switches_pre c1, k1]
    have fin : Exec Dom.all x par (dels r.all) E1 E := finish n1.nd (fun k hk => (n1.bd k hk).1) p1.high hE p1.low p1.ii p1.ys
    have hh : c.holds v = true ↔ p := by rw [← hp, ← cmp_shift]; simp
    simp only [Prog.switches, p1.res, hh, switches_pre fin, NA.sw (.dels _), List.nil_append]
  · have hd0 := p1.dead n1 r.n le_rfl
    have c2 : Exec Dom.all x par [.new r.n, .un (.plusD (-q)) r.res r.n] E1 ((E1.set r.n 0).set r.n (-q + v)) :=
      ex_new hd0 (ex_un (by simp; rfl) (by simp [show r.res ≠ r.n by omega]; exact p1.res) trivial .nil)
    rw [switches_pre (c1.append c2), swL_app c1, k1, NA.sw (.cons (fun _ => rfl) (.cons (fun _ => rfl) .nil)), List.append_nil]
    have fin : Exec Dom.all x par (dels (r.all ++ [r.n])) ((E1.set r.n 0).set r.n (-q + v)) E := by
      refine finish ?_ (fun k hk => ?_) (fun k hk => ?_) hE (fun k hk => ?_) p1.ii p1.ys
      · rw [List.nodup_append]
        exact ⟨n1.nd, by simp, by intro a ha b hb; simp at hb; subst hb; rintro rfl; have := n1.bd _ ha; omega⟩
      · rcases List.mem_append.1 hk with h | h
        · exact (n1.bd k h).1
        · simp at h; omega
      · by_cases h : k = r.n
        · simp [h]
        · simp [h]; exact p1.high k hk
      · simp [show k ≠ r.n by omega]; exact p1.low k hk
    have hh : c.holds (-q + v) = true ↔ p := by rw [cmp_shift, hp]
    have vr : ((E1.set r.n 0).set r.n (-q + v)).vars r.n = some (-q + v) := by simp
    simp only [Prog.switches, vr, hh, switches_pre fin, NA.sw (.dels _), List.nil_append]

/-- The switching variables of a program (without `no_min_max()`) are the arguments of `fabs` its evaluation meets. -/
theorem src_switches (S : Src K) {n : Nat} : ∀ {E : SE K} {R : SE K × List Bool}, Unused n E → S.fits n → S.sem x par E = some R →
    (S.comp n).switches x par E = S.kinks false x par E := by
  induction S with
  | done => intros; rfl
  | cmd c k ih =>
    intro E R hE hf h
    simp only [Src.sem, Option.bind_eq_some_iff] at h
    obtain ⟨E', h1, h2⟩ := h
    have hd : c.dom Dom.all par E := (src_dom_all (Src.cmd c .done) (x := x) E).1
    obtain ⟨e1, e2⟩ := cmd_ok c hE hf.1 hd h1
    simp only [Src.comp, Src.kinks, h1]
    rw [switches_pre e1, cmd_sw c hE h1, ih e2 hf.2 h2]
  | ifD c a q t f iht ihf =>
    intro E R hE hf h
    simp only [Src.sem, Option.bind_eq_some_iff] at h
    obtain ⟨v, h1, h2⟩ := h
    simp only [Src.comp, Src.kinks, h1]
    rw [cmpD_sw hE h1 Iff.rfl]
    congr 1
    split_ifs at h2 ⊢ with hh
    · simp only [Option.map_eq_some_iff] at h2; obtain ⟨R', h2, _⟩ := h2; exact iht hE hf.2.1 h2
    · simp only [Option.map_eq_some_iff] at h2; obtain ⟨R', h2, _⟩ := h2; exact ihf hE hf.2.2 h2
  | ifD' c q a t f iht ihf =>
    intro E R hE hf h
    simp only [Src.sem, Option.bind_eq_some_iff] at h
    obtain ⟨v, h1, h2⟩ := h
    simp only [Src.comp, Src.kinks, h1]
    rw [cmpD_sw hE h1 (cmp_flip c v q)]
    congr 1
    split_ifs at h2 ⊢ with hh
    · simp only [Option.map_eq_some_iff] at h2; obtain ⟨R', h2, _⟩ := h2; exact iht hE hf.2.1 h2
    · simp only [Option.map_eq_some_iff] at h2; obtain ⟨R', h2, _⟩ := h2; exact ihf hE hf.2.2 h2
  | ifA c a b t f iht ihf =>
    intro E R hE hf h
    simp only [Src.sem, Option.bind_eq_some_iff] at h
    obtain ⟨v, h1, w, h2, h3⟩ := h
    have hp := hE.pre
    obtain ⟨G1, g1, q1⟩ := comp_ok (D := Dom.all) (x := x) a hp h1 (ev_dom_all a _)
    have hp1 := hp.step (hp.names h1) q1
    obtain ⟨G2, g2, q2⟩ := comp_ok (D := Dom.all) (x := x) b hp1 h2 (ev_dom_all b _)
    have k1 := comp_sw (x := x) a hp h1
    have k2 := comp_sw (x := x) b hp1 h2
    obtain ⟨E2, c1, v1, v2, low, nd, bd, hl, hi, hy, hle, hpre, t1, t2⟩ := two_ok (x := x) hE h1 h2 (ev_dom_all a _) (ev_dom_all b _)
    simp only [Src.comp, Src.kinks, h1, h2]
    generalize a.comp [] n = ra at *
    generalize b.comp [] ra.n = rb at *
    have hd0 := hpre.dead rb.n le_rfl
    have c2 : Exec Dom.all x par [.new rb.n, .bin .minus true ra.res rb.res rb.n] E2 ((E2.set rb.n 0).set rb.n (v - w)) :=
      ex_new hd0 (ex_bin (by simp; rfl) (by simp [show ra.res ≠ rb.n by omega]; exact v1) (by simp [show rb.res ≠ rb.n by omega]; exact v2) trivial .nil)
    rw [switches_pre (c1.append c2), swL_app c1, swL_app g1, k1, k2, NA.sw (.cons (fun _ => rfl) (.cons (fun _ => rfl) .nil)), List.append_nil]
    have fin : Exec Dom.all x par (dels (ra.all ++ rb.all ++ [rb.n])) ((E2.set rb.n 0).set rb.n (v - w)) E := by
      refine finish ?_ (fun k hk => ?_) (fun k hk => ?_) hE (fun k hk => ?_) hi hy
      · rw [List.nodup_append]
        exact ⟨nd, by simp, by intro a ha b hb; simp at hb; subst hb; rintro rfl; have := bd _ ha; omega⟩
      · rcases List.mem_append.1 hk with h | h
        · exact (bd k h).1
        · simp at h; omega
      · by_cases h : k = rb.n
        · simp [h]
        · simp only [SE.set_vars, h, if_false]; rw [hl k hk]; simp [h]
      · simp [show k ≠ rb.n by omega]; exact low k hk
    have vr : ((E2.set rb.n 0).set rb.n (v - w)).vars rb.n = some (v - w) := by simp
    congr 1
    simp only [Prog.switches, vr, cmp_diff, switches_pre fin, NA.sw (.dels _), List.nil_append]
    split_ifs at h3 ⊢ with hh
    · simp only [Option.map_eq_some_iff] at h3; obtain ⟨R', h3, _⟩ := h3; exact iht hE hf.2.2.1 h3
    · simp only [Option.map_eq_some_iff] at h3; obtain ⟨R', h3, _⟩ := h3; exact ihf hE hf.2.2.2 h3

end

/-! ### With no_min_max() -/

theorem kinks_shift {nmm : Bool} {V : Nat → Option K} {par : Nat → K} (e : Ex K) : ∀ (L : List K) (z : K) (As : List K),
    (e.shift L.length).kinks nmm V par (L ++ z :: As) = e.kinks nmm V par (L ++ As) := by
  induction e with
  | var v => intros; rfl
  | arg i => intros; rfl
  | lv e ih => intro L z As; exact ih L z As
  | par p => intros; rfl
  | num c => intros; rfl
  | un f e ih => intro L z As; simp only [Ex.shift, Ex.kinks]; rw [ih, ev_shift]
  | bin f a b iha ihb => intro L z As; simp only [Ex.shift, Ex.kinks]; rw [iha, ihb, ev_shift, ev_shift]
  | trig co e ih => intro L z As; exact ih L z As
  | quad q e ih => intro L z As; exact ih L z As
  | cond c a b ihc iha ihb => intro L z As; simp only [Ex.shift, Ex.kinks]; rw [iha, ihb, ihc]
  | argE e b ihe ihb => intro L z As; simp only [Ex.shift, Ex.kinks]; rw [ihe, ev_shift]; cases e.ev V par (L ++ As) with | none => rfl | some v => simp only []; rw [← List.length_cons (a := v), ← List.cons_append, ihb]; rfl
  | locE e b ihe ihb => intro L z As; simp only [Ex.shift, Ex.kinks]; rw [ihe, ev_shift]; cases e.ev V par (L ++ As) with | none => rfl | some v => simp only []; rw [← List.length_cons (a := v), ← List.cons_append, ihb]; rfl

theorem kinks_absForm {V : Nat → Option ℝ} {par : Nat → ℝ} (e : Ex ℝ) : ∀ As, (e.ev V par As).isSome → e.absForm.kinks false V par As = e.kinks true V par As := by
  induction e with
  | var v => intros; rfl
  | arg i => intros; rfl
  | lv e ih => intro As h; exact ih As h
  | par p => intros; rfl
  | num c => intros; rfl
  | un f e ih => intro As h; simp only [Ex.absForm, Ex.kinks]; rw [ih _ (by simpa [Ex.ev] using h), ev_absForm]
  | bin f a b iha ihb =>
    intro As h
    obtain ⟨v, h⟩ := Option.isSome_iff_exists.1 h
    simp only [Ex.ev, Option.bind_eq_some_iff, Option.map_eq_some_iff] at h
    obtain ⟨u, hu, w, hw, rfl⟩ := h
    have ka := iha As (by simp [hu])
    have kb := ihb As (by simp [hw])
    cases f with
    | fmin =>
      simp only [Ex.absForm, Ex.kinks, ka, ev_absForm, ev_shift0, hu, hw]
      have := kinks_shift (nmm := false) (V := V) (par := par) b.absForm [] u As
      simp only [List.length_nil, List.nil_append] at this
      rw [this, kb]
      simp [Ex.minBody, Ex.kinks, Ex.ev, Bin.fn, fabsArg, fminArg]
    | _ => simp [Ex.absForm, Ex.kinks, ka, kb, fminArg]
  | trig co e ih => intro As h; exact ih As (by simpa [Ex.ev] using h)
  | quad q e ih => intro As h; exact ih As (by simpa [Ex.ev] using h)
  | cond c a b ihc iha ihb =>
    intro As h
    obtain ⟨v, h⟩ := Option.isSome_iff_exists.1 h
    simp only [Ex.ev, Option.bind_eq_some_iff, Option.map_eq_some_iff] at h
    obtain ⟨u, hu, w, hw, z, hz, rfl⟩ := h
    simp only [Ex.absForm, Ex.kinks]; rw [ihc As (by simp [hu]), iha As (by simp [hw]), ihb As (by simp [hz])]
  | argE e b ihe ihb =>
    intro As h
    obtain ⟨v, h⟩ := Option.isSome_iff_exists.1 h
    simp only [Ex.ev, Option.bind_eq_some_iff] at h
    obtain ⟨u, hu, hv⟩ := h
    simp only [Ex.absForm, Ex.kinks, ev_absForm, hu]; rw [ihe As (by simp [hu]), ihb (u :: As) (by simp [hv])]
  | locE e b ihe ihb =>
    intro As h
    obtain ⟨v, h⟩ := Option.isSome_iff_exists.1 h
    simp only [Ex.ev, Option.bind_eq_some_iff] at h
    obtain ⟨u, hu, hv⟩ := h
    simp only [Ex.absForm, Ex.kinks, ev_absForm, hu]; rw [ihe As (by simp [hu]), ihb (u :: As) (by simp [hv])]

theorem cmd_kinks_absForm (x par : Nat → ℝ) (c : Cmd ℝ) (e : SE ℝ) (h : (c.sem x par e).isSome) : c.absForm.kinks false e.vars par = c.kinks true e.vars par := by
  obtain ⟨e', hs⟩ := Option.isSome_iff_exists.1 h
  cases c with
  | declE v a =>
    simp only [Cmd.sem] at hs; split at hs
    · simp only [Option.map_eq_some_iff] at hs; obtain ⟨w, hw, rfl⟩ := hs; exact kinks_absForm a _ (by simp [hw])
    · cases hs
  | set v a =>
    simp only [Cmd.sem] at hs; split at hs
    · simp only [Option.map_eq_some_iff] at hs; obtain ⟨w, hw, rfl⟩ := hs; exact kinks_absForm a _ (by simp [hw])
    · cases hs
  | acc f v a =>
    simp only [Cmd.sem, Option.bind_eq_some_iff, Option.map_eq_some_iff] at hs; obtain ⟨u, hu, w, hw, rfl⟩ := hs; exact kinks_absForm a _ (by simp [hw])
  | divE v a =>
    simp only [Cmd.sem, Option.bind_eq_some_iff, Option.map_eq_some_iff] at hs; obtain ⟨u, hu, w, hw, rfl⟩ := hs; exact kinks_absForm a _ (by simp [hw])
  | cond r c a b =>
    simp only [Cmd.sem] at hs; split at hs
    · simp only [Option.bind_eq_some_iff, Option.map_eq_some_iff] at hs
      obtain ⟨u, hu, v, hv, w, hw, rfl⟩ := hs
      simp only [Cmd.absForm, Cmd.kinks]; rw [kinks_absForm c _ (by simp [hu]), kinks_absForm a _ (by simp [hv]), kinks_absForm b _ (by simp [hw])]
    · cases hs
  | condEq r c a b =>
    simp only [Cmd.sem] at hs; split at hs
    · simp only [Option.bind_eq_some_iff, Option.map_eq_some_iff] at hs
      obtain ⟨u, hu, v, hv, w, hw, rfl⟩ := hs
      simp only [Cmd.absForm, Cmd.kinks]; rw [kinks_absForm c _ (by simp [hu]), kinks_absForm a _ (by simp [hv]), kinks_absForm b _ (by simp [hw])]
    · cases hs
  | condS r c a =>
    simp only [Cmd.sem, Option.bind_eq_some_iff, Option.map_eq_some_iff] at hs
    obtain ⟨y, hy, u, hu, v, hv, rfl⟩ := hs
    simp only [Cmd.absForm, Cmd.kinks]; rw [kinks_absForm c _ (by simp [hu]), kinks_absForm a _ (by simp [hv])]
  | condEqS r c a =>
    simp only [Cmd.sem, Option.bind_eq_some_iff, Option.map_eq_some_iff] at hs
    obtain ⟨y, hy, u, hu, v, hv, rfl⟩ := hs
    simp only [Cmd.absForm, Cmd.kinks]; rw [kinks_absForm c _ (by simp [hu]), kinks_absForm a _ (by simp [hv])]
  | _ => rfl

theorem src_kinks_absForm (x par : Nat → ℝ) (S : Src ℝ) : ∀ e, (S.sem x par e).isSome → S.absForm.kinks false x par e = S.kinks true x par e := by
  induction S with
  | done => intros; rfl
  | cmd c k ih =>
    intro e h
    obtain ⟨R, h⟩ := Option.isSome_iff_exists.1 h
    simp only [Src.sem, Option.bind_eq_some_iff] at h
    obtain ⟨e', h1, h2⟩ := h
    simp only [Src.absForm, Src.kinks, cmd_sem_absForm, h1]
    rw [cmd_kinks_absForm x par c e (by simp [h1]), ih e' (by simp [h2])]
  | ifD c a q t f iht ihf =>
    intro e h
    obtain ⟨R, h⟩ := Option.isSome_iff_exists.1 h
    simp only [Src.sem, Option.bind_eq_some_iff] at h
    obtain ⟨v, h1, h2⟩ := h
    simp only [Src.absForm, Src.kinks, ev_absForm, h1]
    rw [kinks_absForm a _ (by simp [h1])]
    congr 1
    split_ifs at h2 ⊢ with hh
    · simp only [Option.map_eq_some_iff] at h2; obtain ⟨R', h2, _⟩ := h2; exact iht _ (by simp [h2])
    · simp only [Option.map_eq_some_iff] at h2; obtain ⟨R', h2, _⟩ := h2; exact ihf _ (by simp [h2])
  | ifD' c q a t f iht ihf =>
    intro e h
    obtain ⟨R, h⟩ := Option.isSome_iff_exists.1 h
    simp only [Src.sem, Option.bind_eq_some_iff] at h
    obtain ⟨v, h1, h2⟩ := h
    simp only [Src.absForm, Src.kinks, ev_absForm, h1]
    rw [kinks_absForm a _ (by simp [h1])]
    congr 1
    split_ifs at h2 ⊢ with hh
    · simp only [Option.map_eq_some_iff] at h2; obtain ⟨R', h2, _⟩ := h2; exact iht _ (by simp [h2])
    · simp only [Option.map_eq_some_iff] at h2; obtain ⟨R', h2, _⟩ := h2; exact ihf _ (by simp [h2])
  | ifA c a b t f iht ihf =>
    intro e h
    obtain ⟨R, h⟩ := Option.isSome_iff_exists.1 h
    simp only [Src.sem, Option.bind_eq_some_iff] at h
    obtain ⟨v, h1, w, h2, h3⟩ := h
    simp only [Src.absForm, Src.kinks, ev_absForm, h1, h2]
    rw [kinks_absForm a _ (by simp [h1]), kinks_absForm b _ (by simp [h2])]
    congr 1
    split_ifs at h3 ⊢ with hh
    · simp only [Option.map_eq_some_iff] at h3; obtain ⟨R', h3, _⟩ := h3; exact iht _ (by simp [h3])
    · simp only [Option.map_eq_some_iff] at h3; obtain ⟨R', h3, _⟩ := h3; exact ihf _ (by simp [h3])

/-- The switching variables of what a program records, with and without `no_min_max()`. -/
theorem switches_compMM (nmm : Bool) (S : Src ℝ) {n : Nat} {x par : Nat → ℝ} {E : SE ℝ} {R : SE ℝ × List Bool} (hE : Unused n E) (hf : S.fits n) (h : S.sem x par E = some R) :
    (S.compMM nmm n).switches x par E = S.kinks nmm x par E := by
  cases nmm
  · exact src_switches S hE hf h
  · have : S.compMM true n = S.absForm.comp n := by simp [Src.compMM]
    rw [this, src_switches S.absForm hE (src_fits_absForm S hf) (by rw [src_sem_absForm]; exact h), src_kinks_absForm _ _ _ _ (by simp [h])]

end Verif.AD
