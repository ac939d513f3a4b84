import Verif.AD.Api
import Mathlib.Data.List.Nodup
import Mathlib.Tactic.Ring
import Mathlib.Tactic.Linarith

/-!
# Executing an expression computes its value

`comp_names`: the temporaries of an expression have distinct unused names.  `comp_ok`: executing `Ex.comp` leaves all variables unchanged, the
value of the expression in the result object and no live temporaries but the listed ones; and the conditions `D` on arguments hold at every call if they hold for the expression.
-/
set_option linter.all false
namespace Verif.AD
open Elem

variable {K : Type} [Scalar K]

/-! ## Names -/

theorem Ex.scoped_mono {n m : Nat} (h : n ≤ m) (e : Ex K) : ∀ j, e.scoped n j → e.scoped m j := by
  induction e <;> intro j hj <;> simp only [Ex.scoped] at hj ⊢ <;> first | omega | grind

structure Names (n : Nat) (r : Out K) : Prop where
  le : n ≤ r.n
  bd : ∀ k ∈ r.all, n ≤ k ∧ k < r.n
  nd : r.all.Nodup
  lv : r.tmp = false → r.res < n ∨ r.res ∈ r.gar

theorem mem_all {r : Out K} {k : Nat} : k ∈ r.all ↔ k ∈ r.gar ∨ (r.tmp = true ∧ k = r.res) := by
  unfold Out.all; cases r.tmp <;> simp

theorem Names.res_lt {n : Nat} {r : Out K} (h : Names n r) : r.res < r.n := by
  cases ht : r.tmp
  · rcases h.lv ht with h1 | h1
    · have := h.le; omega
    · exact (h.bd _ (mem_all.2 (.inl h1))).2
  · exact (h.bd _ (mem_all.2 (.inr ⟨ht, rfl⟩))).2

theorem Names.nd' {n : Nat} {r : Out K} (h : Names n r) : r.gar.Nodup ∧ (r.tmp = true → r.res ∉ r.gar) := by
  have := h.nd; unfold Out.all at this
  cases ht : r.tmp <;> simp [ht, List.nodup_append] at this ⊢
  · exact this
  · exact ⟨this.1, fun h => this.2 _ h rfl⟩

theorem Names.gar {n : Nat} {r : Out K} (h : Names n r) : ∀ k ∈ r.gar, n ≤ k ∧ k < r.n := fun k hk => h.bd k (mem_all.2 (.inl hk))

theorem names_mk {n : Nat} {r : Out K} (le : n ≤ r.n) (g : ∀ k ∈ r.gar, n ≤ k ∧ k < r.n) (nd : r.gar.Nodup)
    (t : r.tmp = true → (n ≤ r.res ∧ r.res < r.n) ∧ r.res ∉ r.gar) (lv : r.tmp = false → r.res < n ∨ r.res ∈ r.gar) : Names n r := by
  refine ⟨le, ?_, ?_, lv⟩
  · intro k hk; rcases mem_all.1 hk with h | ⟨h, rfl⟩
    · exact g k h
    · exact (t h).1
  · unfold Out.all
    cases ht : r.tmp
    · simpa using nd
    · simp only [if_true]; rw [List.nodup_append]
      exact ⟨nd, by simp, by intro a ha b hb; simp at hb; subst hb; rintro rfl; exact (t ht).2 ha⟩

/-- The result is a new temporary. -/
theorem names_new {n m res : Nat} {gar : List Nat} {code : List (Stmt K)} (h1 : n ≤ res) (h2 : res < m) (g : ∀ k ∈ gar, n ≤ k ∧ k < m) (nd : gar.Nodup) (hr : res ∉ gar) :
    Names n (⟨code, res, true, m, gar⟩ : Out K) := names_mk (by show n ≤ m; omega) g nd (fun _ => ⟨⟨h1, h2⟩, hr⟩) (by simp)

theorem Names.mat {n : Nat} {r : Out K} (h : Names n r) : Names n r.mat := by
  unfold Out.mat
  split
  · exact h
  · have := h.le
    exact names_new h.le (by omega) (fun k hk => by have := h.gar k hk; omega) h.nd'.1 (fun hk => by have := h.gar _ hk; omega)

theorem mat_tmp (r : Out K) : r.mat.tmp = true := by unfold Out.mat; split <;> simp_all

theorem names_un {n : Nat} {r : Out K} (h : Names n r) (f : Un K) : Names n (unOut f r) := by
  unfold unOut
  have := h.le
  split <;> exact names_new h.le (by omega) (fun k hk => by have := h.gar k hk; omega) h.nd'.1 (fun hk => by have := h.gar _ hk; omega)

theorem nodup_app {a b : List Nat} {n m p : Nat} (ha : a.Nodup) (hb : b.Nodup) (h1 : ∀ k ∈ a, n ≤ k ∧ k < m) (h2 : ∀ k ∈ b, m ≤ k ∧ k < p) :
    (a ++ b).Nodup := by
  rw [List.nodup_append]
  exact ⟨ha, hb, fun x hx y hy e => by have := h1 x hx; have := h2 y hy; omega⟩

theorem names_bin {n : Nat} {r1 r2 : Out K} (h1 : Names n r1) (h2 : Names r1.n r2) (f : Bin) : Names n (binOut f r1 r2) := by
  have l1 := h1.le; have l2 := h2.le
  have g1 := h1.gar; have g2 := h2.gar
  have d1 := h1.nd'; have d2 := h2.nd'
  have nd : (r1.gar ++ r2.gar).Nodup := nodup_app d1.1 d2.1 g1 g2
  have g : ∀ k ∈ r1.gar ++ r2.gar, n ≤ k ∧ k < r2.n := by
    intro k hk; rcases List.mem_append.1 hk with h | h
    · have := g1 k h; omega
    · have := g2 k h; omega
  have key : ∀ (code : List (Stmt K)) (j : Nat), r2.n ≤ j → Names n (⟨code, j, true, j + 1, r1.gar ++ r2.gar⟩ : Out K) := fun code j hj =>
    names_new (by omega) (by omega) (fun k hk => by have := g k hk; omega) nd (fun hk => by have := g _ hk; omega)
  unfold binOut
  cases e1 : r1.tmp <;> cases e2 : r2.tmp <;> simp only []
  · exact key _ _ (by omega)
  · cases f <;> simp only [] <;> first | exact key _ _ (by omega)
  · exact key _ _ (by omega)
  · have hr := h2.bd r2.res (mem_all.2 (.inr ⟨e2, rfl⟩))
    have hnot : r2.res ∉ r1.gar ++ r2.gar := by
      rw [List.mem_append]; rintro (h | h)
      · have := g1 _ h; omega
      · exact d2.2 e2 h
    have g' : ∀ k ∈ r1.gar ++ r2.gar ++ [r2.res], n ≤ k ∧ k < r2.n := by
      intro k hk
      rcases List.mem_append.1 hk with h | h
      · exact g k h
      · simp at h; subst h; omega
    refine names_new (by omega) (by omega) (fun k hk => by have := g' k hk; omega) ?_ (fun hk => by have := g' _ hk; omega)
    rw [List.nodup_append]
    exact ⟨nd, by simp, by intro a ha b hb; simp at hb; subst hb; rintro rfl; exact hnot ha⟩

theorem names_trig {n : Nat} {r : Out K} (h : Names n r) (co : Bool) : Names n (trigOut co r) := by
  unfold trigOut
  have := h.le
  split <;> exact names_new (by omega) (by omega) (fun k hk => by have := h.gar k hk; omega) h.nd'.1 (fun hk => by have := h.gar _ hk; omega)

theorem names_quad {n : Nat} {r : Out K} (h : Names n r) (q : Quad) : Names n (quadOut q r) := by
  unfold quadOut
  have := h.le
  split <;> exact names_new (by omega) (by omega) (fun k hk => by have := h.gar k hk; omega) h.nd'.1 (fun hk => by have := h.gar _ hk; omega)

theorem comp_names (e : Ex K) : ∀ (A : List Nat) (n : Nat), (∀ k ∈ A, k < n) → e.scoped n A.length → Names n (e.comp A n) := by
  induction e with
  | var v => intro A n _ h; exact names_mk (le_refl n) (by simp [Ex.comp]) (by simp [Ex.comp]) (by simp [Ex.comp]) (fun _ => .inl h)
  | arg i =>
    intro A n hA h
    refine names_mk (le_refl n) (by simp [Ex.comp]) (by simp [Ex.comp]) (by simp [Ex.comp]) (fun _ => .inl ?_)
    have hi : i < A.length := h
    simp only [Ex.comp, List.getElem?_eq_getElem hi, Option.getD_some]
    exact hA _ (List.getElem_mem hi)
  | lv e ih =>
    intro A n hA h
    have H := ih A n hA h
    refine names_mk H.le H.bd H.nd (by simp [Ex.comp]) (fun _ => ?_)
    simp only [Ex.comp]
    cases ht : (e.comp A n).tmp
    · rcases H.lv ht with h1 | h1
      · exact .inl h1
      · exact .inr (mem_all.2 (.inl h1))
    · exact .inr (mem_all.2 (.inr ⟨ht, rfl⟩))
  | par p => intro A n _ _; exact names_new (le_refl n) (by omega) (by simp) (by simp) (by simp)
  | num c => intro A n _ _; exact names_new (le_refl n) (by omega) (by simp) (by simp) (by simp)
  | un f e ih => intro A n hA h; exact names_un (ih A n hA h) f
  | bin f a b iha ihb =>
    intro A n hA h
    have H1 := iha A n hA h.1
    have hA' : ∀ k ∈ A, k < (a.comp A n).n := fun k hk => by have := hA k hk; have := H1.le; omega
    exact names_bin H1 (ihb A _ hA' (b.scoped_mono H1.le _ h.2)) f
  | trig co e ih => intro A n hA h; exact names_trig (ih A n hA h) co
  | quad q e ih => intro A n hA h; exact names_quad (ih A n hA h) q
  | cond c a b ihc iha ihb =>
    intro A n hA h
    have Hc := ihc A (n + 1) (fun k hk => by have := hA k hk; omega) (c.scoped_mono (by omega) _ h.1)
    have lc := Hc.le
    have Ha := iha A (c.comp A (n + 1)).n (fun k hk => by have := hA k hk; omega) (a.scoped_mono (by omega) _ h.2.1)
    have la := Ha.le
    have Hb := ihb A (a.comp A (c.comp A (n + 1)).n).n (fun k hk => by have := hA k hk; omega) (b.scoped_mono (by omega) _ h.2.2)
    have lb := Hb.le
    exact names_new (le_refl n) (by omega) (by simp) (by simp) (by simp)
  | argE e b ihe ihb =>
    intro A n hA h
    have H1 := ihe A n hA h.1
    have l1 := H1.le; have hr := H1.res_lt
    have H2 := (ihb ((e.comp A n).res :: A) (e.comp A n).n (by
      intro k hk; rcases List.mem_cons.1 hk with rfl | hk
      · exact hr
      · have := hA k hk; omega) (b.scoped_mono l1 _ h.2)).mat
    have l2 := H2.le
    have b2 := H2.bd _ (mem_all.2 (.inr ⟨mat_tmp _, rfl⟩))
    exact names_new (by omega) b2.2 (fun k hk => by have := H1.bd k hk; omega) H1.nd (fun hk => by have := H1.bd _ hk; omega)
  | locE e b ihe ihb =>
    intro A n hA h
    have H1 := (ihe A n hA h.1).mat
    have l1 := H1.le; have hr := H1.res_lt
    have H2 := (ihb ((e.comp A n).mat.res :: A) (e.comp A n).mat.n (by
      intro k hk; rcases List.mem_cons.1 hk with rfl | hk
      · exact hr
      · have := hA k hk; omega) (b.scoped_mono l1 _ h.2)).mat
    have l2 := H2.le
    have b2 := H2.bd _ (mem_all.2 (.inr ⟨mat_tmp _, rfl⟩))
    exact names_new (by omega) b2.2 (by simp) (by simp) (by simp)

/-! ## Execution -/

/-- Apply functions one after the other. -/
def chainVal : List (Un K) → K → K
  | [], v => v
  | f :: L, v => chainVal L (f.fn v)

/-- The companion of a `Quad` function is computed from `a * a` or `-a * a`. -/
def quadStart (q : Quad) (v : K) : K :=
  match q with
  | .erf | .erfc => -v * v
  | _ => v * v

def chainDom (P : Un K → K → Prop) : List (Un K) → K → Prop
  | [], _ => True
  | f :: L, v => P f v ∧ chainDom P L (f.fn v)

/-- Conditions on the arguments of calls. -/
structure Dom (K : Type) [Scalar K] where
  un : Un K → K → Prop
  bin : Bin → K → K → Prop
  /-- argument, companion, and whether the result replaces the argument -/
  quad : Quad → K → K → Prop → Prop
  quadE : Quad → K → Prop → Prop
  cond : K → Prop
  neg : ∀ v, un .neg v
  plusD : ∀ c v, un (.plusD c) v
  plus : ∀ v w, bin .plus v w
  minus : ∀ v w, bin .minus v w
  mult : ∀ v w, bin .mult v w
  quad_ok : ∀ q v i, quadE q v i → chainDom un (compChain q) (quadStart q v) ∧ quad q v (chainVal (compChain q) (quadStart q v)) i

def Stmt.ok (D : Dom K) (s : Stmt K) (e : SE K) : Prop :=
  match s with
  | .un f a _ => ∀ v, e.vars a = some v → D.un f v
  | .bin f _ a b _ => ∃ v w, e.vars a = some v ∧ e.vars b = some w ∧ D.bin f v w
  | .quad q a b d => ∀ v w, e.vars a = some v → e.vars b = some w → D.quad q v w (a = d)
  | .cond _ c _ _ | .condS _ c _ | .condEq _ c _ _ | .condEqS _ c _ => ∀ v, e.vars c = some v → D.cond v
  | _ => True

/-- The conditions hold for every function applied in the evaluation of the expression. -/
def Ex.dom (D : Dom K) (V : Nat → Option K) (par : Nat → K) : List K → Ex K → Prop
  | _, .var _ | _, .arg _ | _, .par _ | _, .num _ => True
  | As, .lv e | As, .trig _ e => e.dom D V par As
  | As, .un f e => e.dom D V par As ∧ ∀ v, e.ev V par As = some v → D.un f v
  | As, .bin f a b => a.dom D V par As ∧ b.dom D V par As ∧ ∀ v w, a.ev V par As = some v → b.ev V par As = some w → D.bin f v w
  | As, .quad q e => e.dom D V par As ∧ ∀ v, e.ev V par As = some v → D.quadE q v (e.rv = true)
  | As, .cond c a b => c.dom D V par As ∧ a.dom D V par As ∧ b.dom D V par As ∧ ∀ v, c.ev V par As = some v → D.cond v
  | As, .argE e b | As, .locE e b => e.dom D V par As ∧ ∀ v, e.ev V par As = some v → b.dom D V par (v :: As)

section
variable (D : Dom K) (x par : Nat → K)

def runL : List (Stmt K) → SE K → Option (SE K)
  | [], e => some e
  | s :: L, e => (s.spec x par e).bind (runL L)

def okL : List (Stmt K) → SE K → Prop
  | [], _ => True
  | s :: L, e => s.ok D e ∧ ∀ e', s.spec x par e = some e' → okL L e'

/-- The calls can be executed, meet the conditions, and lead from `e` to `e'`. -/
def Exec (L : List (Stmt K)) (e e' : SE K) : Prop := runL x par L e = some e' ∧ okL D x par L e

variable {D x par}

theorem Exec.nil {e : SE K} : Exec D x par [] e e := ⟨rfl, trivial⟩

theorem Exec.cons {s : Stmt K} {L : List (Stmt K)} {e e1 e2 : SE K} (h1 : s.spec x par e = some e1) (h2 : s.ok D e) (h : Exec D x par L e1 e2) :
    Exec D x par (s :: L) e e2 := by
  refine ⟨by simp [runL, h1, h.1], h2, fun e' he => ?_⟩
  rw [h1] at he; cases he; exact h.2

theorem Exec.append {L M : List (Stmt K)} {e e1 e2 : SE K} (h1 : Exec D x par L e e1) (h : Exec D x par M e1 e2) : Exec D x par (L ++ M) e e2 := by
  induction L generalizing e with
  | nil => obtain ⟨h1, _⟩ := h1; simp [runL] at h1; subst h1; exact h
  | cons s L ih =>
    obtain ⟨h1, h2⟩ := h1
    simp only [runL] at h1
    cases hs : s.spec x par e with
    | none => simp [hs] at h1
    | some e3 =>
      simp only [hs, Option.bind_some] at h1
      exact Exec.cons hs h2.1 (ih ⟨h1, h2.2 _ hs⟩)

end

@[simp] theorem SE.set_vars (e : SE K) (d k : Nat) (v : K) : (e.set d v).vars k = if k = d then some v else e.vars k := rfl
@[simp] theorem SE.del_vars (e : SE K) (d k : Nat) : (e.del d).vars k = if k = d then none else e.vars k := rfl
@[simp] theorem SE.set_ii (e : SE K) (d : Nat) (v : K) : (e.set d v).ii = e.ii := rfl
@[simp] theorem SE.del_ii (e : SE K) (d : Nat) : (e.del d).ii = e.ii := rfl
@[simp] theorem SE.set_ys (e : SE K) (d : Nat) (v : K) : (e.set d v).ys = e.ys := rfl
@[simp] theorem SE.del_ys (e : SE K) (d : Nat) : (e.del d).ys = e.ys := rfl

section
variable {D : Dom K} {x par : Nat → K} {L : List (Stmt K)} {E E' : SE K} {d a b r c : Nat} {v w u : K}

theorem ex_new (h : E.vars d = none) (k : Exec D x par L (E.set d 0) E') : Exec D x par (.new d :: L) E E' :=
  .cons (by simp [Stmt.spec, h]) trivial k
theorem ex_newD (h : E.vars d = none) (k : Exec D x par L (E.set d v) E') : Exec D x par (.newD d v :: L) E E' :=
  .cons (by simp [Stmt.spec, h]) trivial k
theorem ex_setP {p : Nat} (h : E.vars d = some v) (k : Exec D x par L (E.set d (par p)) E') : Exec D x par (.setP d p :: L) E E' :=
  .cons (by simp [Stmt.spec, h]) trivial k
theorem ex_copy (h : E.vars d = none) (ha : E.vars a = some v) (k : Exec D x par L (E.set d v) E') : Exec D x par (.copy d a :: L) E E' :=
  .cons (by simp [Stmt.spec, h, ha]) trivial k
theorem ex_move (h : E.vars d = none) (ha : E.vars a = some v) (k : Exec D x par L ((E.del a).set d v) E') : Exec D x par (.move d a :: L) E E' :=
  .cons (by simp [Stmt.spec, h, ha]) trivial k
theorem ex_del (ha : E.vars a = some v) (k : Exec D x par L (E.del a) E') : Exec D x par (.del a :: L) E E' :=
  .cons (by simp [Stmt.spec, ha]) trivial k
theorem ex_un {f : Un K} (hd : E.vars d = some w) (ha : E.vars a = some v) (hf : D.un f v) (k : Exec D x par L (E.set d (f.fn v)) E') :
    Exec D x par (.un f a d :: L) E E' :=
  .cons (by simp [Stmt.spec, hd, ha]) (by intro v' h; rw [ha] at h; cases h; exact hf) k
theorem ex_bin {f : Bin} {lv : Bool} (hd : E.vars d = some u) (ha : E.vars a = some v) (hb : E.vars b = some w) (hf : D.bin f v w)
    (k : Exec D x par L (E.set d (f.fn v w)) E') : Exec D x par (.bin f lv a b d :: L) E E' :=
  .cons (by simp [Stmt.spec, hd, ha, hb]) ⟨v, w, ha, hb, hf⟩ k
theorem ex_trig {co : Bool} (hd : E.vars d = some u) (ha : E.vars a = some v) (hb : E.vars b = some w) (h1 : a ≠ b) (h2 : b ≠ d)
    (k : Exec D x par L ((E.set b (if co then sin v else cos v)).set d (if co then cos v else sin v)) E') : Exec D x par (.trig co a b d :: L) E E' :=
  .cons (by simp [Stmt.spec, hd, ha, hb, h1, h2]) trivial k
theorem ex_quad {q : Quad} (hd : E.vars d = some u) (ha : E.vars a = some v) (hb : E.vars b = some w) (h2 : b ≠ d) (hq : D.quad q v w (a = d))
    (k : Exec D x par L (E.set d (q.fn v)) E') : Exec D x par (.quad q a b d :: L) E E' :=
  .cons (by simp [Stmt.spec, hd, ha, hb, h2]) (by intro v' w' h h'; rw [ha] at h; rw [hb] at h'; cases h; cases h'; exact hq) k
theorem ex_cond {y : K} (hr : E.vars r = some y) (hc : E.vars c = some u) (ha : E.vars a = some v) (hb : E.vars b = some w) (hf : D.cond u)
    (k : Exec D x par L (E.set r (if u > 0 then v else w)) E') : Exec D x par (.cond r c a b :: L) E E' :=
  .cons (by simp [Stmt.spec, hr, ha, hb, hc]) (by intro v' h; rw [hc] at h; cases h; exact hf) k

/-- Destruction of live objects. -/
theorem ex_dels (M : List Nat) : ∀ {E : SE K}, M.Nodup → (∀ k ∈ M, (E.vars k).isSome) →
    ∃ E', Exec D x par (M.map Stmt.del) E E' ∧ (∀ k, E'.vars k = if k ∈ M then none else E.vars k) ∧ E'.ii = E.ii ∧ E'.ys = E.ys := by
  induction M with
  | nil => intro E _ _; exact ⟨E, .nil, by simp, rfl, rfl⟩
  | cons m M ih =>
    intro E hn hs
    rw [List.nodup_cons] at hn
    obtain ⟨v, hv⟩ := Option.isSome_iff_exists.1 (hs m (by simp))
    obtain ⟨E', h1, h2, h3, h4⟩ := ih (E := E.del m) hn.2 (fun k hk => by
      have : k ≠ m := by rintro rfl; exact hn.1 hk
      simp [this, hs k (by simp [hk])])
    refine ⟨E', ex_del hv h1, fun k => ?_, h3, h4⟩
    rw [h2]; simp only [List.mem_cons, SE.del_vars]
    by_cases hk : k = m <;> simp [hk]

theorem ex_dels' (M : List Nat) {E : SE K} (hn : M.Nodup) (hs : ∀ k ∈ M, (E.vars k).isSome) :
    ∃ E', Exec D x par (dels M) E E' ∧ (∀ k, E'.vars k = if k ∈ M then none else E.vars k) ∧ E'.ii = E.ii ∧ E'.ys = E.ys := by
  obtain ⟨E', h1, h2, h3⟩ := ex_dels (D := D) (x := x) (par := par) M.reverse (E := E) (List.nodup_reverse.2 hn) (fun k hk => hs k (List.mem_reverse.1 hk))
  exact ⟨E', h1, fun k => by rw [h2]; simp, h3⟩
end

/-- After an expression: variables unchanged, the value in the result object, the listed temporaries alive. -/
structure Post (E : SE K) (n : Nat) (r : Out K) (v : K) (E' : SE K) : Prop where
  low : ∀ k, k < n → E'.vars k = E.vars k
  res : E'.vars r.res = some v
  high : ∀ k, n ≤ k → ((E'.vars k).isSome ↔ k ∈ r.all)
  ii : E'.ii = E.ii
  ys : E'.ys = E.ys

theorem Post.dead {E E' : SE K} {n : Nat} {r : Out K} {v : K} (h : Post E n r v E') (hn : Names n r) : ∀ k, r.n ≤ k → E'.vars k = none := by
  intro k hk
  have := hn.le
  cases hv : E'.vars k with
  | none => rfl
  | some w => have := (h.high k (by omega)).1 (by simp [hv]); have := hn.bd k this; omega

theorem Post.gone {E E' : SE K} {n : Nat} {r : Out K} {v : K} (h : Post E n r v E') {k : Nat} (hk : n ≤ k) (hm : k ∉ r.all) : E'.vars k = none := by
  cases hv : E'.vars k with
  | none => rfl
  | some w => exact absurd ((h.high k hk).1 (by simp [hv])) hm

theorem Post.live {E E' : SE K} {n : Nat} {r : Out K} {v : K} (h : Post E n r v E') (hn : Names n r) {k : Nat} (hm : k ∈ r.all) : ∃ w, E'.vars k = some w :=
  Option.isSome_iff_exists.1 ((h.high k (hn.bd k hm).1).2 hm)

/-- The new result in a new temporary `j`, the old result object gone if it was a temporary. -/
theorem post_new {E E1 E2 : SE K} {n j m : Nat} {r : Out K} {v v' : K} {code : List (Stmt K)} (hn : Names n r) (h : Post E n r v E1)
    (hj : r.n ≤ j) (hv : ∀ k, E2.vars k = if k = j then some v' else if r.tmp = true ∧ k = r.res then none else E1.vars k) (hi : E2.ii = E1.ii) (hy : E2.ys = E1.ys) :
    Post E n (⟨code, j, true, m, r.gar⟩ : Out K) v' E2 := by
  have hle := hn.le
  refine ⟨fun k hk => ?_, by rw [hv]; simp, fun k hk => ?_, hi.trans h.ii, hy.trans h.ys⟩
  · rw [hv, if_neg (show k ≠ j by omega), if_neg, h.low k hk]
    rintro ⟨ht, rfl⟩
    have := hn.bd _ (mem_all.2 (.inr ⟨ht, rfl⟩)); omega
  · rw [hv, mem_all]
    simp only []
    split_ifs with h1 h2
    · simp [h1]
    · simp [h1]; obtain ⟨ht, rfl⟩ := h2; exact hn.nd'.2 ht
    · rw [h.high k hk, mem_all]; simp [h1]; intro a b; exact absurd ⟨a, b⟩ h2

theorem post_un {D : Dom K} {x par : Nat → K} {E E1 : SE K} {n : Nat} {r : Out K} {v : K} {f : Un K} (hn : Names n r) (h : Post E n r v E1) (hc : Exec D x par r.code E E1) (hf : D.un f v) :
    ∃ E2, Exec D x par (unOut f r).code E E2 ∧ Post E n (unOut f r) (f.fn v) E2 := by
  have hdead := h.dead hn
  have hlt := hn.res_lt
  have hd := hdead r.n le_rfl
  unfold unOut
  split
  · rename_i ht
    refine ⟨_, hc.append (ex_un h.res h.res hf (ex_move (by simp [hd]; omega) (by simp; rfl) .nil)), ?_⟩
    refine post_new hn h le_rfl (fun k => ?_) rfl rfl
    simp [ht]; split_ifs <;> simp_all
  · rename_i ht
    refine ⟨_, hc.append (ex_new hd (ex_un (by simp; rfl) (by simp [Nat.ne_of_lt hlt]; exact h.res) hf .nil)), ?_⟩
    refine post_new hn h le_rfl (fun k => ?_) rfl rfl
    simp [ht]; split_ifs <;> simp_all

theorem post_gen {E E2 E3 : SE K} {n j m : Nat} {v' : K} {code : List (Stmt K)} {gar : List Nat} {P G : Nat → Prop}
    (hlow : ∀ k, k < n → E2.vars k = E.vars k) (hhigh : ∀ k, n ≤ k → ((E2.vars k).isSome ↔ P k)) (hG : ∀ k, G k → n ≤ k)
    (hj : n ≤ j) (hv : ∀ k, (k = j → E3.vars k = some v') ∧ (k ≠ j → (G k → E3.vars k = none) ∧ (¬ G k → E3.vars k = E2.vars k)))
    (hgar : ∀ k, n ≤ k → k ≠ j → (k ∈ gar ↔ P k ∧ ¬ G k)) (hi : E3.ii = E.ii) (hy : E3.ys = E.ys) :
    Post E n (⟨code, j, true, m, gar⟩ : Out K) v' E3 := by
  refine ⟨fun k hk => ?_, (hv j).1 rfl, fun k hk => ?_, hi, hy⟩
  · rw [((hv k).2 (by omega)).2 (fun h => by have := hG k h; omega), hlow k hk]
  · rw [mem_all]; simp only [true_and]
    by_cases h1 : k = j
    · rw [(hv k).1 h1]; simp [h1]
    · by_cases h2 : G k
      · simp [((hv k).2 h1).1 h2, h1, hgar k hk h1, h2]
      · rw [((hv k).2 h1).2 h2, hhigh k hk, hgar k hk h1]; simp [h1, h2]

theorem post_bin {D : Dom K} {x par : Nat → K} {E E1 E2 : SE K} {n : Nat} {r1 r2 : Out K} {v w : K} {f : Bin}
    (n1 : Names n r1) (h1 : Post E n r1 v E1) (c1 : Exec D x par r1.code E E1)
    (n2 : Names r1.n r2) (h2 : Post E1 r1.n r2 w E2) (c2 : Exec D x par r2.code E1 E2) (hf : D.bin f v w) :
    ∃ E3, Exec D x par (binOut f r1 r2).code E E3 ∧ Post E n (binOut f r1 r2) (f.fn v w) E3 := by
  have l1 := n1.le; have l2 := n2.le
  have t1 := n1.res_lt; have t2 := n2.res_lt
  have hlow : ∀ k, k < n → E2.vars k = E.vars k := fun k hk => by rw [h2.low k (by omega), h1.low k hk]
  have hhigh : ∀ k, n ≤ k → ((E2.vars k).isSome ↔ (k ∈ r1.all ∨ k ∈ r2.all)) := by
    intro k hk
    by_cases hk1 : k < r1.n
    · rw [h2.low k hk1, h1.high k hk]
      constructor
      · exact Or.inl
      · rintro (h | h)
        · exact h
        · have := n2.bd k h; omega
    · rw [h2.high k (by omega)]
      constructor
      · exact Or.inr
      · rintro (h | h)
        · have := n1.bd k h; omega
        · exact h
  have v1 : E2.vars r1.res = some v := by rw [h2.low _ t1, h1.res]
  have v2 : E2.vars r2.res = some w := h2.res
  have cc := c1.append c2
  have hi : E2.ii = E.ii := h2.ii.trans h1.ii
  have hy : E2.ys = E.ys := h2.ys.trans h1.ys
  have dead : ∀ k, r2.n ≤ k → E2.vars k = none := h2.dead n2
  have ne1 : r1.res ≠ r2.n := by omega
  have ne2 : r2.res ≠ r2.n := by omega
  have ne3 : r1.res ≠ r2.n + 1 := by omega
  have ne4 : r2.res ≠ r2.n + 1 := by omega
  have d1 := n1.nd'; have d2 := n2.nd'; have b1 := n1.bd; have b2 := n2.bd
  have g1 := n1.gar; have g2 := n2.gar
  have hn0 := dead r2.n le_rfl
  have hn1 := dead (r2.n + 1) (by omega)
  unfold binOut
  cases e1 : r1.tmp <;> cases e2 : r2.tmp <;> simp only []
  · refine ⟨_, cc.append (ex_new hn0 (ex_bin (by simp; rfl) (by simp [ne1]; exact v1) (by simp [ne2]; exact v2) hf .nil)), ?_⟩
    refine post_gen (G := fun _ => False) hlow hhigh (by simp) (by omega) (fun k => ?_) (fun k hk hj => ?_) hi hy
    · by_cases h : k = r2.n <;> simp [h]
    · simp [mem_all, e1, e2]
  · have b2' := b2 r2.res (mem_all.2 (.inr ⟨e2, rfl⟩))
    have n12 : r1.res ≠ r2.res := by omega
    have hgar : ∀ k, n ≤ k → (k ∈ r1.gar ++ r2.gar ↔ (k ∈ r1.all ∨ k ∈ r2.all) ∧ ¬ k = r2.res) := by
      intro k hk
      simp only [mem_all, e1, e2, List.mem_append]
      constructor
      · rintro (h | h)
        · exact ⟨.inl (.inl h), fun e => by have := g1 k h; omega⟩
        · exact ⟨.inr (.inl h), fun e => d2.2 e2 (e ▸ h)⟩
      · rintro ⟨(h | h) | (h | h), h'⟩ <;> simp_all
    cases f <;> simp only []
    · refine ⟨_, cc.append (ex_bin v2 v2 v1 (D.plus _ _) (ex_move (by simp [ne2.symm, hn0]) (by simp; rfl) .nil)), ?_⟩
      rw [show Bin.fn .plus v w = Bin.fn .plus w v from add_comm v w]
      refine post_gen (G := fun k => k = r2.res) hlow hhigh (fun k h => by omega) (by omega) (fun k => ?_) (fun k hk hj => hgar k hk) hi hy
      by_cases h : k = r2.n <;> by_cases h' : k = r2.res <;> simp_all
    · refine ⟨_, cc.append (ex_un v2 v2 (D.neg _) (ex_move (by simp [ne2.symm, hn0]) (by simp; rfl) (ex_bin (by simp; rfl) (by simp; rfl) (by simp [n12, ne1]; exact v1) (D.plus _ _)
        (ex_move (by simp [ne4.symm, hn1]) (by simp; rfl) .nil)))), ?_⟩
      rw [show Bin.fn .minus v w = Bin.fn .plus (Un.fn .neg w) v by simp [Bin.fn, Un.fn]; ring]
      refine post_gen (G := fun k => k = r2.res) hlow hhigh (fun k h => by omega) (by omega) (fun k => ?_) (fun k hk hj => hgar k hk) hi hy
      have : r2.n ≠ r2.n + 1 := by omega
      by_cases h : k = r2.n + 1 <;> by_cases h' : k = r2.res <;> by_cases h'' : k = r2.n <;> simp_all
    · refine ⟨_, cc.append (ex_bin v2 v2 v1 (D.mult _ _) (ex_move (by simp [ne2.symm, hn0]) (by simp; rfl) .nil)), ?_⟩
      rw [show Bin.fn .mult v w = Bin.fn .mult w v from mul_comm v w]
      refine post_gen (G := fun k => k = r2.res) hlow hhigh (fun k h => by omega) (by omega) (fun k => ?_) (fun k hk hj => hgar k hk) hi hy
      by_cases h : k = r2.n <;> by_cases h' : k = r2.res <;> simp_all
    all_goals
      refine ⟨_, cc.append (ex_bin v2 v1 v2 hf (ex_move (by simp [ne2.symm, hn0]) (by simp; rfl) .nil)), ?_⟩
      refine post_gen (G := fun k => k = r2.res) hlow hhigh (fun k h => by omega) (by omega) (fun k => ?_) (fun k hk hj => hgar k hk) hi hy
      by_cases h : k = r2.n <;> by_cases h' : k = r2.res <;> simp_all
  · have b1' := b1 r1.res (mem_all.2 (.inr ⟨e1, rfl⟩))
    refine ⟨_, cc.append (ex_bin v1 v1 v2 hf (ex_move (by simp [ne1.symm, hn0]) (by simp; rfl) .nil)), ?_⟩
    refine post_gen (G := fun k => k = r1.res) hlow hhigh (fun k h => by omega) (by omega) (fun k => ?_) (fun k hk hj => ?_) hi hy
    · by_cases h : k = r2.n <;> by_cases h' : k = r1.res <;> simp_all
    · simp only [mem_all, e1, e2, List.mem_append]
      constructor
      · rintro (h | h)
        · exact ⟨.inl (.inl h), fun e => d1.2 e1 (e ▸ h)⟩
        · exact ⟨.inr (.inl h), fun e => by have := g2 k h; omega⟩
      · rintro ⟨(h | h) | (h | h), h'⟩ <;> simp_all
  · have b1' := b1 r1.res (mem_all.2 (.inr ⟨e1, rfl⟩))
    refine ⟨_, cc.append (ex_bin v1 v1 v2 hf (ex_move (by simp [ne1.symm, hn0]) (by simp; rfl) .nil)), ?_⟩
    refine post_gen (G := fun k => k = r1.res) hlow hhigh (fun k h => by omega) (by omega) (fun k => ?_) (fun k hk hj => ?_) hi hy
    · by_cases h : k = r2.n <;> by_cases h' : k = r1.res <;> simp_all
    · have b2' := b2 r2.res (mem_all.2 (.inr ⟨e2, rfl⟩))
      simp only [mem_all, e1, e2, List.mem_append, List.mem_singleton]
      constructor
      · rintro ((h | h) | h)
        · exact ⟨.inl (.inl h), fun e => d1.2 e1 (e ▸ h)⟩
        · exact ⟨.inr (.inl h), fun e => by have := g2 k h; omega⟩
        · exact ⟨.inr (.inr ⟨trivial, h⟩), by omega⟩
      · rintro ⟨(h | h) | (h | h), h'⟩ <;> simp_all

theorem post_trig {D : Dom K} {x par : Nat → K} {E E1 : SE K} {n : Nat} {r : Out K} {v : K} {co : Bool} (hn : Names n r) (h : Post E n r v E1) (hc : Exec D x par r.code E E1) :
    ∃ E2, Exec D x par (trigOut co r).code E E2 ∧ Post E n (trigOut co r) (if co then cos v else sin v) E2 := by
  have hdead := h.dead hn
  have hlt := hn.res_lt
  have hd := hdead r.n le_rfl
  have hd1 := hdead (r.n + 1) (by omega)
  have ne : r.res ≠ r.n := by omega
  have ne1 : r.res ≠ r.n + 1 := by omega
  unfold trigOut
  split
  · rename_i ht
    refine ⟨_, hc.append (ex_new hd (ex_trig (by simp [ne]; exact h.res) (by simp [ne]; exact h.res) (by simp; rfl) ne ne.symm
      (ex_del (by simp [ne.symm]; rfl) (ex_move (by simp [hd1, ne1.symm]) (by simp [ne]; rfl) .nil)))), ?_⟩
    refine post_new hn h (by omega) (fun k => ?_) rfl rfl
    simp [ht]; split_ifs <;> simp_all
  · rename_i ht
    refine ⟨_, hc.append (ex_new hd (ex_new (by simp [hd1]) (ex_trig (by simp; rfl) (by simp [ne, ne1]; exact h.res) (by simp; rfl) ne1 (by omega)
      (ex_del (by simp; rfl) .nil)))), ?_⟩
    refine post_new hn h (by omega) (fun k => ?_) rfl rfl
    simp [ht]; split_ifs <;> simp_all

/-- A chain of functions on a temporary. -/
theorem ex_chain {D : Dom K} {x par : Nat → K} (C : List (Un K)) : ∀ {E : SE K} {t : Nat} {v : K}, E.vars t = some v → (∀ k, t < k → E.vars k = none) → chainDom D.un C v →
    ∃ F : SE K, Exec D x par (chainCode C t) E F ∧ (∀ k, F.vars k = if k = t + C.length then some (chainVal C v) else if k = t then none else E.vars k) ∧ F.ii = E.ii ∧ F.ys = E.ys := by
  induction C with
  | nil =>
    intro E t v h1 h2 _
    refine ⟨E, .nil, fun k => ?_, rfl, rfl⟩
    by_cases hk : k = t <;> simp [chainVal, hk, h1]
  | cons f C ih =>
    intro E t v h1 h2 h3
    obtain ⟨F, i1, i2, i3, i4⟩ := ih (E := ((E.set t (f.fn v)).del t).set (t + 1) (f.fn v)) (t := t + 1) (v := f.fn v) (by simp)
      (fun k hk => by simp [show k ≠ t + 1 by omega, show k ≠ t by omega, h2 k (by omega)]) h3.2
    refine ⟨F, ex_un h1 h1 h3.1 (ex_move (by simp [h2]) (by simp) i1), fun k => ?_, i3, i4⟩
    rw [i2]
    simp only [List.length_cons, chainVal, SE.set_vars, SE.del_vars]
    by_cases hk : k = t + 1 + C.length
    · rw [if_pos hk, if_pos (by omega)]
    · rw [if_neg hk, if_neg (show ¬ k = t + (C.length + 1) by omega)]
      by_cases h5 : k = t + 1
      · simp [h5, h2]
      · simp only [h5, if_false]
        by_cases h6 : k = t <;> simp [h6]

theorem ex_start {D : Dom K} {x par : Nat → K} {E : SE K} {q : Quad} {a t : Nat} {v : K} (ha : E.vars a = some v) (h1 : E.vars t = none) (h2 : E.vars (t + 1) = none) :
    ∃ F : SE K, Exec D x par (compStart q a t) E F ∧ (∀ k, F.vars k = if k = t + 1 then some (quadStart q v) else E.vars k) ∧ F.ii = E.ii ∧ F.ys = E.ys := by
  have n1 : a ≠ t := by rintro rfl; rw [ha] at h1; cases h1
  have n2 : a ≠ t + 1 := by rintro rfl; rw [ha] at h2; cases h2
  have key : ∃ F : SE K, Exec D x par [.new t, .bin .mult true a a t, .move (t + 1) t] E F ∧ (∀ k, F.vars k = if k = t + 1 then some (v * v) else E.vars k) ∧ F.ii = E.ii ∧ F.ys = E.ys := by
    refine ⟨_, ex_new h1 (ex_bin (by simp; rfl) (by simp [n1]; exact ha) (by simp [n1]; exact ha) (D.mult _ _) (ex_move (by simp [h2]) (by simp; rfl) .nil)), fun k => ?_, rfl, rfl⟩
    simp [Bin.fn]; split_ifs <;> simp_all
  have key' : ∃ F : SE K, Exec D x par [.new t, .un .neg a t, .bin .mult false t a t, .move (t + 1) t] E F ∧ (∀ k, F.vars k = if k = t + 1 then some (-v * v) else E.vars k) ∧ F.ii = E.ii ∧ F.ys = E.ys := by
    refine ⟨_, ex_new h1 (ex_un (by simp; rfl) (by simp [n1]; exact ha) (D.neg _) (ex_bin (by simp; rfl) (by simp; rfl) (by simp [n1]; exact ha) (D.mult _ _) (ex_move (by simp [h2]) (by simp; rfl) .nil))), fun k => ?_, rfl, rfl⟩
    simp [Bin.fn, Un.fn]; split_ifs <;> simp_all
  cases q <;> first | exact key | exact key'

theorem post_quad {D : Dom K} {x par : Nat → K} {E E1 : SE K} {n : Nat} {r : Out K} {v : K} {q : Quad} (hn : Names n r) (h : Post E n r v E1) (hc : Exec D x par r.code E E1)
    (hq : D.quadE q v (r.tmp = true)) :
    ∃ E2, Exec D x par (quadOut q r).code E E2 ∧ Post E n (quadOut q r) (q.fn v) E2 := by
  have hdead := h.dead hn
  have hlt := hn.res_lt
  obtain ⟨q1, q2⟩ := D.quad_ok _ _ _ hq
  unfold quadOut
  split
  · rename_i ht
    obtain ⟨F, f1, f2, f3, f4⟩ := ex_start (D := D) (x := x) (par := par) (q := q) h.res (hdead r.n le_rfl) (hdead (r.n + 1) (by omega))
    obtain ⟨G, g1, g2, g3, g4⟩ := ex_chain (D := D) (x := x) (par := par) (compChain q) (E := F) (t := r.n + 1) (v := quadStart q v) (by simp [f2])
      (fun k hk => by rw [f2, if_neg (by omega)]; exact hdead k (by omega)) q1
    generalize hl : (compChain (K := K) q).length = l at g2
    have hG : ∀ k, G.vars k = if k = r.n + 1 + l then some (chainVal (compChain q) (quadStart q v)) else E1.vars k := by
      intro k; rw [g2, f2]
      by_cases h1 : k = r.n + 1 + l
      · simp [h1]
      · by_cases h2 : k = r.n + 1
        · simp [h1, h2, hdead (r.n + 1) (by omega)]
        · simp [h1, h2]
    have nb : r.res ≠ r.n + 1 + l := by omega
    have vr : G.vars r.res = some v := by rw [hG, if_neg nb, h.res]
    refine ⟨_, ((hc.append f1).append g1).append (ex_quad vr vr (b := r.n + 1 + l) (by rw [hG, if_pos rfl]) nb.symm (by simpa [ht] using q2)
      (ex_del (by simp [nb.symm]; rw [hG, if_pos rfl]) (ex_move (by simp [show ¬ r.n + 1 + l + 1 = r.res by omega, hG, hdead (r.n + 1 + l + 1) (by omega)]) (by simp [nb]; rfl) .nil))), ?_⟩
    refine post_new hn h (by omega) (fun k => ?_) (g3.trans f3) (g4.trans f4)
    simp only [SE.set_vars, SE.del_vars, hG, ht, true_and]
    split_ifs <;> simp_all
    rw [hdead _ (by omega)]
  · rename_i ht
    have n0 : r.res ≠ r.n := by omega
    have hd0 := hdead r.n le_rfl
    obtain ⟨F, f1, f2, f3, f4⟩ := ex_start (D := D) (x := x) (par := par) (q := q) (E := E1.set r.n 0) (a := r.res) (t := r.n + 1) (v := v) (by simp [n0, h.res])
      (by simp [hdead (r.n + 1) (by omega)]) (by simp [show ¬ r.n + 1 + 1 = r.n by omega, hdead (r.n + 1 + 1) (by omega)])
    obtain ⟨G, g1, g2, g3, g4⟩ := ex_chain (D := D) (x := x) (par := par) (compChain q) (E := F) (t := r.n + 2) (v := quadStart q v) (by simp [f2])
      (fun k hk => by rw [f2, if_neg (by omega)]; simp [show k ≠ r.n by omega]; exact hdead k (by omega)) q1
    generalize hl : (compChain (K := K) q).length = l at g2
    have hG : ∀ k, G.vars k = if k = r.n + 2 + l then some (chainVal (compChain q) (quadStart q v)) else if k = r.n then some 0 else E1.vars k := by
      intro k; rw [g2, f2]
      by_cases h1 : k = r.n + 2 + l
      · simp [h1]
      · by_cases h2 : k = r.n + 2
        · simp [h1, h2, hdead (r.n + 2) (by omega)]
        · simp [h1, h2]
    have nb : r.res ≠ r.n + 2 + l := by omega
    have vr : G.vars r.res = some v := by rw [hG, if_neg nb, if_neg n0, h.res]
    have E1n : Exec D x par [.new r.n] E1 (E1.set r.n 0) := ex_new hd0 .nil
    refine ⟨_, (((hc.append E1n).append f1).append g1).append (ex_quad (d := r.n) (by rw [hG, if_neg (by omega), if_pos rfl]) vr (b := r.n + 2 + l) (by rw [hG, if_pos rfl]) (by omega)
      (by simpa [ht, n0] using q2) (ex_del (by simp; rw [if_neg (by omega), hG, if_pos rfl]) .nil)), ?_⟩
    refine post_new hn h (by omega) (fun k => ?_) (g3.trans f3) (g4.trans f4)
    simp only [SE.set_vars, SE.del_vars, hG, ht, false_and]
    by_cases h1 : k = r.n + 2 + l
    · rw [if_pos h1, if_neg (show ¬ k = r.n by omega), hdead k (by omega)]; simp
    · rw [if_neg h1, if_neg h1]; by_cases h2 : k = r.n <;> simp [h2]

theorem post_mat {D : Dom K} {x par : Nat → K} {E E1 : SE K} {n : Nat} {r : Out K} {v : K} (hn : Names n r) (h : Post E n r v E1) (hc : Exec D x par r.code E E1) :
    ∃ E2, Exec D x par r.mat.code E E2 ∧ Post E n r.mat v E2 := by
  unfold Out.mat
  split
  · exact ⟨E1, hc, h⟩
  · rename_i ht
    refine ⟨_, hc.append (ex_copy (h.dead hn r.n le_rfl) h.res .nil), post_new hn h le_rfl (fun k => ?_) rfl rfl⟩
    simp [ht]

theorem comp_tmp (e : Ex K) (A : List Nat) (n : Nat) : (e.comp A n).tmp = e.rv := by
  cases e <;> simp only [Ex.comp, Ex.rv]
  · unfold unOut; split <;> rfl
  · rename_i f a b
    unfold binOut; simp only []
    cases (a.comp A n).tmp <;> cases (b.comp A (a.comp A n).n).tmp <;> cases f <;> rfl
  · unfold trigOut; split <;> rfl
  · unfold quadOut; split <;> rfl

/-- The objects hold the values given to the expression; names from `n` on are unused. -/
structure Pre (V : Nat → Option K) (As : List K) (A : List Nat) (n : Nat) (E : SE K) : Prop where
  dead : ∀ k, n ≤ k → E.vars k = none
  var : ∀ k v, V k = some v → k < n ∧ E.vars k = some v
  arg : List.Forall₂ (fun nm v => nm < n ∧ E.vars nm = some v) A As

theorem Pre.next {V : Nat → Option K} {As : List K} {A : List Nat} {n m : Nat} {E E1 : SE K} (h : Pre V As A n E) (hle : n ≤ m) (low : ∀ k, k < n → E1.vars k = E.vars k)
    (hd : ∀ k, m ≤ k → E1.vars k = none) : Pre V As A m E1 :=
  ⟨hd, fun k v hv => by have := h.var k v hv; rw [low k this.1]; exact ⟨by omega, this.2⟩,
   h.arg.imp fun k v hv => by rw [low k hv.1]; exact ⟨by omega, hv.2⟩⟩

theorem Pre.step {V : Nat → Option K} {As : List K} {A : List Nat} {n : Nat} {E E1 : SE K} {r : Out K} {v : K} (h : Pre V As A n E) (hn : Names n r) (hp : Post E n r v E1) :
    Pre V As A r.n E1 := h.next hn.le hp.low (hp.dead hn)

theorem Pre.bind {V : Nat → Option K} {As : List K} {A : List Nat} {n a : Nat} {E : SE K} {v : K} (h : Pre V As A n E) (ha : a < n) (hv : E.vars a = some v) :
    Pre V (v :: As) (a :: A) n E := ⟨h.dead, h.var, .cons ⟨ha, hv⟩ h.arg⟩

theorem Pre.lt {V : Nat → Option K} {As : List K} {A : List Nat} {n : Nat} {E : SE K} (h : Pre V As A n E) : ∀ k ∈ A, k < n := by
  have := h.arg
  clear h
  induction this with
  | nil => simp
  | cons h _ ih => intro k hk; rcases List.mem_cons.1 hk with rfl | hk; exacts [h.1, ih k hk]

theorem Pre.len {V : Nat → Option K} {As : List K} {A : List Nat} {n : Nat} {E : SE K} (h : Pre V As A n E) : A.length = As.length := h.arg.length_eq

theorem scoped_of_ev {V : Nat → Option K} {par : Nat → K} {n : Nat} (hV : ∀ k v, V k = some v → k < n) (e : Ex K) :
    ∀ (As : List K) (v : K), e.ev V par As = some v → e.scoped n As.length := by
  induction e with
  | var k => intro As v h; exact hV k v h
  | arg i => intro As v h; simp only [Ex.ev] at h; exact (List.getElem?_eq_some_iff.1 h).1
  | par p => intro As v h; trivial
  | num p => intro As v h; trivial
  | lv e ih => intro As v h; exact ih As v h
  | un f e ih => intro As v h; simp only [Ex.ev, Option.map_eq_some_iff] at h; obtain ⟨w, h, _⟩ := h; exact ih As w h
  | trig f e ih => intro As v h; simp only [Ex.ev, Option.map_eq_some_iff] at h; obtain ⟨w, h, _⟩ := h; exact ih As w h
  | quad f e ih => intro As v h; simp only [Ex.ev, Option.map_eq_some_iff] at h; obtain ⟨w, h, _⟩ := h; exact ih As w h
  | bin f a b iha ihb =>
    intro As v h; simp only [Ex.ev, Option.bind_eq_some_iff, Option.map_eq_some_iff] at h
    obtain ⟨w, h1, u, h2, _⟩ := h; exact ⟨iha As w h1, ihb As u h2⟩
  | cond c a b ihc iha ihb =>
    intro As v h; simp only [Ex.ev, Option.bind_eq_some_iff, Option.map_eq_some_iff] at h
    obtain ⟨w, h1, u, h2, z, h3, _⟩ := h; exact ⟨ihc As w h1, iha As u h2, ihb As z h3⟩
  | argE e b ihe ihb =>
    intro As v h; simp only [Ex.ev, Option.bind_eq_some_iff] at h
    obtain ⟨w, h1, h2⟩ := h; exact ⟨ihe As w h1, ihb (w :: As) v h2⟩
  | locE e b ihe ihb =>
    intro As v h; simp only [Ex.ev, Option.bind_eq_some_iff] at h
    obtain ⟨w, h1, h2⟩ := h; exact ⟨ihe As w h1, ihb (w :: As) v h2⟩

theorem Pre.names {V : Nat → Option K} {par : Nat → K} {As : List K} {A : List Nat} {n : Nat} {E : SE K} (h : Pre V As A n E) {e : Ex K} {v : K} (he : e.ev V par As = some v) :
    Names n (e.comp A n) :=
  comp_names e A n h.lt (by rw [h.len]; exact scoped_of_ev (fun k v hv => (h.var k v hv).1) e As v he)

theorem comp_ok {D : Dom K} {x par : Nat → K} {V : Nat → Option K} (e : Ex K) : ∀ {As : List K} {A : List Nat} {n : Nat} {E : SE K} {v : K},
    Pre V As A n E → e.ev V par As = some v → e.dom D V par As → ∃ E', Exec D x par (e.comp A n).code E E' ∧ Post E n (e.comp A n) v E' := by
  induction e with
  | var k =>
    intro As A n E v hp he _
    have := hp.var k v he
    exact ⟨E, .nil, fun _ _ => rfl, this.2, fun k hk => by simp [hp.dead k hk, Ex.comp, Out.all], rfl, rfl⟩
  | arg i =>
    intro As A n E v hp he _
    simp only [Ex.ev] at he
    refine ⟨E, .nil, fun _ _ => rfl, ?_, fun k hk => by simp [hp.dead k hk, Ex.comp, Out.all], rfl, rfl⟩
    obtain ⟨hi, rfl⟩ := List.getElem?_eq_some_iff.1 he
    have hi' : i < A.length := by rw [hp.len]; exact hi
    simp only [Ex.comp, List.getElem?_eq_getElem hi', Option.getD_some]
    exact (hp.arg.get hi' hi).2
  | par p =>
    intro As A n E v hp he _
    simp only [Ex.ev] at he; cases he
    have hd := hp.dead n le_rfl
    refine ⟨_, ex_new hd (ex_setP (by simp; rfl) .nil), fun k hk => ?_, by simp [Ex.comp], fun k hk => ?_, rfl, rfl⟩
    · simp [show k ≠ n by omega]
    · by_cases h : k = n
      · simp [h, Ex.comp, Out.all]
      · simp [h, Ex.comp, Out.all, hp.dead k hk]
  | num p =>
    intro As A n E v hp he _
    simp only [Ex.ev] at he; cases he
    have hd := hp.dead n le_rfl
    refine ⟨_, ex_newD hd .nil, fun k hk => ?_, by simp [Ex.comp], fun k hk => ?_, rfl, rfl⟩
    · simp [show k ≠ n by omega]
    · by_cases h : k = n
      · simp [h, Ex.comp, Out.all]
      · simp [h, Ex.comp, Out.all, hp.dead k hk]
  | lv e ih =>
    intro As A n E v hp he hd
    obtain ⟨E', h1, h2⟩ := ih hp he hd
    refine ⟨E', h1, h2.low, h2.res, fun k hk => ?_, h2.ii, h2.ys⟩
    rw [h2.high k hk]; simp [Ex.comp, Out.all]
  | un f e ih =>
    intro As A n E v hp he hd
    simp only [Ex.ev, Option.map_eq_some_iff] at he
    obtain ⟨w, he, rfl⟩ := he
    obtain ⟨E', h1, h2⟩ := ih hp he hd.1
    exact post_un (hp.names he) h2 h1 (hd.2 w he)
  | trig co e ih =>
    intro As A n E v hp he hd
    simp only [Ex.ev, Option.map_eq_some_iff] at he
    obtain ⟨w, he, rfl⟩ := he
    obtain ⟨E', h1, h2⟩ := ih hp he hd
    exact post_trig (hp.names he) h2 h1
  | quad q e ih =>
    intro As A n E v hp he hd
    simp only [Ex.ev, Option.map_eq_some_iff] at he
    obtain ⟨w, he, rfl⟩ := he
    obtain ⟨E', h1, h2⟩ := ih hp he hd.1
    exact post_quad (hp.names he) h2 h1 (by rw [comp_tmp]; exact hd.2 w he)
  | bin f a b iha ihb =>
    intro As A n E v hp he hd
    simp only [Ex.ev, Option.bind_eq_some_iff, Option.map_eq_some_iff] at he
    obtain ⟨u, hu, w, hw, rfl⟩ := he
    obtain ⟨E1, h1, h2⟩ := iha hp hu hd.1
    have hn1 := hp.names hu
    have hp1 := hp.step hn1 h2
    obtain ⟨E2, h3, h4⟩ := ihb hp1 hw hd.2.1
    exact post_bin hn1 h2 h1 (hp1.names hw) h4 h3 (hd.2.2 u w hu hw)
  | cond c a b ihc iha ihb =>
    intro As A n E v hp he hd
    simp only [Ex.ev, Option.bind_eq_some_iff, Option.map_eq_some_iff] at he
    obtain ⟨u, hu, w, hw, z, hz, rfl⟩ := he
    have hd0 := hp.dead n le_rfl
    have hp0 : Pre V As A (n + 1) (E.set n 0) := hp.next (by omega) (fun k hk => by simp [show k ≠ n by omega]) (fun k hk => by simp [show k ≠ n by omega, hp.dead k (by omega)])
    obtain ⟨E1, c1, p1⟩ := ihc hp0 hu hd.1
    have n1 := hp0.names hu
    have hp1 := hp0.step n1 p1
    obtain ⟨E2, c2, p2⟩ := iha hp1 hw hd.2.1
    have n2 := hp1.names hw
    have hp2 := hp1.step n2 p2
    obtain ⟨E3, c3, p3⟩ := ihb hp2 hz hd.2.2.1
    have n3 := hp2.names hz
    simp only [Ex.comp]
    generalize c.comp A (n + 1) = rc at *
    generalize a.comp A rc.n = ra at *
    generalize b.comp A ra.n = rb at *
    have l1 := n1.le; have l2 := n2.le; have l3 := n3.le
    have t1 := n1.res_lt; have t2 := n2.res_lt
    have vn : E3.vars n = some 0 := by rw [p3.low n (by omega), p2.low n (by omega), p1.low n (by omega)]; simp
    have vc : E3.vars rc.res = some u := by rw [p3.low _ (by omega), p2.low _ (by omega), p1.res]
    have va : E3.vars ra.res = some w := by rw [p3.low _ (by omega), p2.res]
    have nd : (rc.all ++ ra.all ++ rb.all).Nodup := nodup_app (n := n + 1) (nodup_app n1.nd n2.nd n1.bd n2.bd) n3.nd (fun k hk => by
      rcases List.mem_append.1 hk with h | h
      · have := n1.bd k h; omega
      · have := n2.bd k h; omega) n3.bd
    have hlive : ∀ k, n + 1 ≤ k → ((E3.vars k).isSome ↔ k ∈ rc.all ++ ra.all ++ rb.all) := by
      intro k hk
      simp only [List.mem_append]
      by_cases h1 : k < rc.n
      · rw [p3.low k (by omega), p2.low k (by omega), p1.high k hk]
        constructor
        · intro h; exact .inl (.inl h)
        · rintro ((h | h) | h)
          · exact h
          · have := n2.bd k h; omega
          · have := n3.bd k h; omega
      · by_cases h2 : k < ra.n
        · rw [p3.low k (by omega), p2.high k (by omega)]
          constructor
          · intro h; exact .inl (.inr h)
          · rintro ((h | h) | h)
            · have := n1.bd k h; omega
            · exact h
            · have := n3.bd k h; omega
        · rw [p3.high k (by omega)]
          constructor
          · intro h; exact .inr h
          · rintro ((h | h) | h)
            · have := n1.bd k h; omega
            · have := n2.bd k h; omega
            · exact h
    have hbd : ∀ k ∈ rc.all ++ ra.all ++ rb.all, n + 1 ≤ k := by
      intro k hk; simp only [List.mem_append] at hk
      rcases hk with (h | h) | h
      · exact (n1.bd k h).1
      · have := n2.bd k h; omega
      · have := n3.bd k h; omega
    obtain ⟨E4, c4, q4, i4, y4⟩ := ex_dels' (D := D) (x := x) (par := par) (rc.all ++ ra.all ++ rb.all) (E := E3.set n (if u > 0 then w else z)) nd (fun k hk => by
      have := hbd k hk
      simp [show k ≠ n by omega]; exact (hlive k this).2 hk)
    refine ⟨E4, ?_, fun k hk => ?_, ?_, fun k hk => ?_, ?_, ?_⟩
    · refine ex_new hd0 ((((c1.append c2).append c3).append (ex_cond vn vc va p3.res (hd.2.2.2 u hu) .nil)).append c4)
    · rw [q4, if_neg (fun h => by have := hbd k h; omega)]
      simp only [SE.set_vars, if_neg (show k ≠ n by omega)]
      rw [p3.low k (by omega), p2.low k (by omega), p1.low k (by omega)]; simp [show k ≠ n by omega]
    · show E4.vars n = _
      rw [q4, if_neg (fun h => by have := hbd n h; omega)]; simp
    · rw [q4]
      by_cases hkn : k = n
      · subst hkn
        rw [if_neg (fun h => by have := hbd _ h; omega)]; simp [Out.all]
      · rw [mem_all]
        simp only [SE.set_vars, hkn, if_false, List.not_mem_nil, and_false, or_false, iff_false]
        by_cases h : k ∈ rc.all ++ ra.all ++ rb.all
        · rw [if_pos h]; simp
        · rw [if_neg h]; exact (hlive k (by omega)).not.2 h
    · exact i4.trans (p3.ii.trans (p2.ii.trans p1.ii))
    · exact y4.trans (p3.ys.trans (p2.ys.trans p1.ys))
  | argE e b ihe ihb =>
    intro As A n E v hp he hd
    simp only [Ex.ev, Option.bind_eq_some_iff] at he
    obtain ⟨u, hu, hv⟩ := he
    obtain ⟨E1, c1, p1⟩ := ihe hp hu hd.1
    have n1 := hp.names hu
    have hp1 := (hp.step n1 p1).bind n1.res_lt p1.res
    obtain ⟨E2', c2', p2'⟩ := ihb hp1 hv (hd.2 u hu)
    obtain ⟨E2, c2, p2⟩ := post_mat (hp1.names hv) p2' c2'
    have n2 := (hp1.names hv).mat
    have ht := mat_tmp (b.comp ((e.comp A n).res :: A) (e.comp A n).n)
    simp only [Ex.comp]
    clear p2' c2'
    generalize e.comp A n = r1 at *
    generalize (b.comp (r1.res :: A) r1.n).mat = r2 at *
    have l1 := n1.le; have l2 := n2.le
    have hres := n2.bd _ (mem_all.2 (.inr ⟨ht, rfl⟩))
    obtain ⟨E3, c3, q3, i3, y3⟩ := ex_dels' (D := D) (x := x) (par := par) r2.gar (E := E2) n2.nd'.1 (fun k hk => by
      obtain ⟨w, hw⟩ := p2.live n2 (mem_all.2 (.inl hk)); simp [hw])
    refine ⟨E3, (c1.append c2).append c3, fun k hk => ?_, ?_, fun k hk => ?_, i3.trans (p2.ii.trans p1.ii), y3.trans (p2.ys.trans p1.ys)⟩
    · rw [q3, if_neg (fun h => by have := n2.gar k h; omega), p2.low k (by omega), p1.low k hk]
    · show E3.vars r2.res = _
      rw [q3, if_neg (n2.nd'.2 ht), p2.res]
    · rw [q3, mem_all]; simp only [true_and]
      by_cases h1 : k < r1.n
      · rw [if_neg (fun h => by have := n2.gar k h; omega), p2.low k h1, p1.high k hk]
        constructor
        · exact .inl
        · rintro (h | h)
          · exact h
          · omega
      · have : k ∉ r1.all := fun h => by have := n1.bd k h; omega
        split_ifs with h2
        · simp only [Option.isSome_none, Bool.false_eq_true, false_iff, not_or]
          exact ⟨this, fun h => n2.nd'.2 ht (h ▸ h2)⟩
        · rw [p2.high k (by omega), mem_all]; simp [h2, ht, this]
  | locE e b ihe ihb =>
    intro As A n E v hp he hd
    simp only [Ex.ev, Option.bind_eq_some_iff] at he
    obtain ⟨u, hu, hv⟩ := he
    obtain ⟨E1', c1', p1'⟩ := ihe hp hu hd.1
    obtain ⟨E1, c1, p1⟩ := post_mat (hp.names hu) p1' c1'
    have n1 := (hp.names hu).mat
    have ht1 := mat_tmp (e.comp A n)
    clear p1' c1'
    simp only [Ex.comp]
    generalize (e.comp A n).mat = r1 at *
    have l1 := n1.le
    have hr1 := n1.bd _ (mem_all.2 (.inr ⟨ht1, rfl⟩))
    obtain ⟨F1, d1, f1, i1, y1⟩ := ex_dels' (D := D) (x := x) (par := par) r1.gar (E := E1) n1.nd'.1 (fun k hk => by
      obtain ⟨w, hw⟩ := p1.live n1 (mem_all.2 (.inl hk)); simp [hw])
    have hlowF : ∀ k, k < n → F1.vars k = E.vars k := fun k hk => by
      rw [f1, if_neg (fun h => by have := n1.gar k h; omega), p1.low k hk]
    have hresF : F1.vars r1.res = some u := by rw [f1, if_neg (n1.nd'.2 ht1), p1.res]
    have hdeadF : ∀ k, n ≤ k → k ≠ r1.res → F1.vars k = none := by
      intro k hk hne; rw [f1]; split_ifs with h
      · rfl
      · exact p1.gone hk (by rw [mem_all]; simp [h, hne])
    have hp1 : Pre V (u :: As) (r1.res :: A) r1.n F1 := (hp.next l1 hlowF (fun k hk => hdeadF k (by omega) (by omega))).bind hr1.2 hresF
    obtain ⟨E2', c2', p2'⟩ := ihb hp1 hv (hd.2 u hu)
    obtain ⟨E2, c2, p2⟩ := post_mat (hp1.names hv) p2' c2'
    have n2 := (hp1.names hv).mat
    have ht := mat_tmp (b.comp (r1.res :: A) r1.n)
    clear p2' c2'
    generalize (b.comp (r1.res :: A) r1.n).mat = r2 at *
    have l2 := n2.le
    have hres := n2.bd _ (mem_all.2 (.inr ⟨ht, rfl⟩))
    obtain ⟨E3, c3, q3, i3, y3⟩ := ex_dels' (D := D) (x := x) (par := par) r2.gar (E := E2) n2.nd'.1 (fun k hk => by
      obtain ⟨w, hw⟩ := p2.live n2 (mem_all.2 (.inl hk)); simp [hw])
    have hr3 : E3.vars r1.res = some u := by
      rw [q3, if_neg (fun h => by have := n2.gar _ h; omega), p2.low _ hr1.2, hresF]
    refine ⟨E3.del r1.res, (((c1.append d1).append c2).append c3).append (ex_del hr3 .nil), fun k hk => ?_, ?_, fun k hk => ?_,
      i3.trans (p2.ii.trans (i1.trans p1.ii)), y3.trans (p2.ys.trans (y1.trans p1.ys))⟩
    · simp only [SE.del_vars, if_neg (show k ≠ r1.res by omega)]
      rw [q3, if_neg (fun h => by have := n2.gar k h; omega), p2.low k (by omega), hlowF k hk]
    · show (E3.del r1.res).vars r2.res = _
      simp only [SE.del_vars, if_neg (show r2.res ≠ r1.res by omega)]
      rw [q3, if_neg (n2.nd'.2 ht), p2.res]
    · simp only [SE.del_vars, mem_all, List.not_mem_nil, false_or, true_and]
      by_cases h0 : k = r1.res
      · simp [h0]; omega
      · rw [if_neg h0, q3]
        by_cases h1 : k < r1.n
        · rw [if_neg (fun h => by have := n2.gar k h; omega), p2.low k h1, hdeadF k hk h0]
          simp; omega
        · split_ifs with h2
          · simp only [Option.isSome_none, Bool.false_eq_true, false_iff]
            exact fun h => n2.nd'.2 ht (h ▸ h2)
          · rw [p2.high k (by omega), mem_all]; simp [h2, ht]

end Verif.AD
