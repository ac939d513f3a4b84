import Verif.AD.AdvDeriv
import Verif.AD.AdvVec
import Verif.AD.AdvValues
import Verif.Props.AD

/-!
# C50: vectors with active subscripts

A program reads and writes `v[i]` where `i` is an `adouble`; the trace can be swept at points
where `i` selects another element.
-/
set_option linter.all false
namespace Verif.Props.Advector
open Verif.AD Verif.Props.AD Elem Filter Topology

/-- The program `p` was traced; at each active subscript the elements of the vector were in
consecutive locations (C02: so they are after `advector v(n)`). -/
structure TracedV {K : Type} [Scalar K] (cfg : RCfg K) (stock : List (Nat × List K)) (s : Rec K) (p : AProg K)
    (s' : ARec K) (N : Nat) : Prop where
  alloc : ∀ k L, cfg.alloc k L ∉ L
  start : s.Start stock
  recorded : p.record cfg (ARec.start s) = some s'
  contig : p.contig cfg (ARec.start s)
  pos : 0 < N
  size : s'.r.hw ≤ N

section values
variable {K : Type} [Scalar K] {cfg : RCfg K} {stock : List (Nat × List K)} {s : Rec K} {s' : ARec K} {p : AProg K} {N : Nat}

/-- Forward sweeps at any point `c`, whatever elements the subscripts select there: the values of the
program run on plain numbers at `c`; a branch switch if a comparison comes out differently; an error if
a subscript is out of range. -/
theorem C50_values (h : TracedV cfg stock s p s' N) (hidx : ∀ l, idx (ofLoc l : K) = l) (T0 : Nat → K) (c : Cfg K) :
    (∀ E k, p.spec c.x c.par ⟨s.se, []⟩ = some (E, p.path cfg (ARec.start s), k) →
      ∃ z, zosRunA c (s'.tape N) (ZS.start T0) = .ok z ∧ z.y = E.e.ys ∧ z.ii = E.e.ii) ∧
    (∀ E bs k, p.spec c.x c.par ⟨s.se, []⟩ = some (E, bs, k) → bs ≠ p.path cfg (ARec.start s) →
      zosRunA c (s'.tape N) (ZS.start T0) = .error .branchSwitch) ∧
    (p.beyond c.x c.par ⟨s.se, []⟩ → zosRunA c (s'.tape N) (ZS.start T0) = .error .branchSwitch ∨
      zosRunA c (s'.tape N) (ZS.start T0) = .error .outOfBounds) :=
  adv_forward h.alloc hidx p h.start h.recorded h.contig T0 c N

/-- While taping: every live `adouble` holds the value the program has when run on plain numbers at the taping point, every
live reference is at the location of the element it refers to, and all comparisons come out the same way.

Partial: without `fmin(const adouble&, const adouble&)` (`C32_fmin_stores_location`). -/
theorem C50_while_taping_partial (h : TracedV cfg stock s p s' N) (hf : p.noFminLL) {E : ASE K} {bs : List Bool} {k : List Nat}
    (hspec : p.spec cfg.x cfg.par ⟨s.se, []⟩ = some (E, bs, k)) :
    bs = p.path cfg (ARec.start s) ∧
    (∀ a v, E.e.vars a = some v → ∃ l, s'.r.env a = some l ∧ s'.r.V l = v) ∧
    (∀ a l, s'.r.env a = some l → E.refs.lookup a = none → E.e.vars a = some (s'.r.V l)) ∧
    (∀ q t, E.refs.lookup q = some t → ∃ l v, s'.rl q = some l ∧ s'.r.env t = some l ∧ E.e.vars t = some v ∧ s'.r.V l = v) := by
  have h0 : AVal (ARec.start s) ⟨s.se, []⟩ := by
    refine ⟨h.start.ok, ⟨fun a => ?_, ?_⟩, (fun q t hq => by cases hq), (fun q t hq => by cases hq)⟩
    · rw [gse_nil]; rfl
    · rw [gse_nil]; exact h.start.ii
  obtain ⟨h1, h2⟩ := aprog_values h.alloc p hf h0 h.recorded hspec
  have hv : ∀ a l, s'.r.env a = some l → E.refs.lookup a = none → E.e.vars a = some (s'.r.V l) := by
    intro a l ha hl
    have := h2.sim.vars a
    simp only [gse, hl, ha] at this
    exact this
  refine ⟨h1, fun a v ha => (h2.loc ha).2, hv, fun q t hq => ?_⟩
  obtain ⟨r1, r2, l, r3⟩ := h2.refs q t hq
  exact ⟨l, _, by rw [h2.rl q t hq, r3], r3, hv t l r3 r2, rfl⟩
end values

section derivative
variable {cfg : RCfg ℝ} {stock : List (Nat × List ℝ)} {s : Rec ℝ} {s' : ARec ℝ} {p : AProg ℝ} {N : Nat}

/-- At a point near which comparisons and selected elements do not change and where the calls are
differentiable, the program is differentiable, `fos_forward` gives its directional derivatives and
`fos_reverse` after a sweep with keep the weighted gradients. -/
theorem C50_derivative_partial (h : TracedV cfg stock s p s' N) (T0 par : Nat → ℝ) (hT0 : ∀ l, N ≤ l → T0 l = 0) {n : Nat}
    (x0 : Fin n → ℝ) {k : List Nat}
    (hnear : ∀ᶠ x in 𝓝 x0, ∃ E, p.spec (ext x) par ⟨s.se, []⟩ = some (E, p.path cfg (ARec.start s), k))
    (hsm : p.smooth .rev (ext x0) par ⟨s.se, []⟩) (hd : p.disc (ext x0) par ⟨s.se, []⟩ ⟨Set.univ, ∅⟩) :
    ∃ (E0 : ASE ℝ) (D : Nat → (Fin n → ℝ) →L[ℝ] ℝ),
      p.spec (ext x0) par ⟨s.se, []⟩ = some (E0, p.path cfg (ARec.start s), k) ∧
      (∀ j, HasFDerivAt (fun x => p.out (ext x) par s.se j) (D j) x0) ∧
      (∀ (keep : Bool) (v : Fin n → ℝ), ∃ f, fosRunA ⟨ext x0, par, keep⟩ (ext v) (s'.tape N) (FS.start T0) = .ok f ∧
        f.y = E0.e.ys ∧ f.dy.length = E0.e.ys.length ∧ ∀ j, f.dy[j]?.getD 0 = D j v) ∧
      ∀ z, E0.e.ii = n → zosRunA ⟨ext x0, par, true⟩ (s'.tape N) (ZS.start T0) = .ok z → ∀ u,
        ∃ r, revRunA u (s'.tape N) (RS.init n E0.e.ys.length z.stk) = .ok r ∧ r.stk = [] ∧
          ∀ i : Fin n, r.bar i = ∑ j ∈ Finset.range E0.e.ys.length, u j * D j (Pi.single i 1) :=
  adv_derivative h.alloc p h.start h.recorded h.contig T0 par x0 hnear hsm hd h.pos h.size hT0
end derivative

/-! ## An example -/

/-- `v = (x₀, x₁)`, `i = x₂`: `v[i] *= x₀; y = v[i] + v[0]`. -/
noncomputable def pick : AProg ℝ :=
  .stmt (.plain (.new 0)) <| .stmt (.plain (.new 1)) <| .stmt (.plain (.indep 0)) <| .stmt (.plain (.indep 1)) <|
  .stmt (.plain (.new 2)) <| .stmt (.plain (.indep 2)) <|
  .stmt (.ref 3 [0, 1] 2) <| .stmt (.refDo 3 (.accA .mult 0)) <| .stmt (.refDel 3) <|
  .stmt (.sub 4 [0, 1] 2) <| .stmt (.plain (.accA .plus 4 0)) <| .stmt (.plain (.dep 4)) .done

/-- Functions given by a table. -/
def tab {β : Type} (z : β) (l : List (Nat × β)) : Nat → β := fun a => (l.lookup a).getD z

theorem upd_tab {β : Type} (z : β) (l : List (Nat × β)) (a : Nat) (b : β) : upd (tab z l) a b = tab z ((a, b) :: l) := by
  funext c
  simp only [upd_apply, tab, List.lookup_cons]
  by_cases h : c = a
  · subst h; simp
  · simp [h, beq_false_of_ne h]

theorem tab_eval {β : Type} (z : β) (l : List (Nat × β)) (a : Nat) : tab z l a = (l.lookup a).getD z := rfl

theorem demo_se : (demoStart.se : SE ℝ) = ⟨tab none [], 0, []⟩ := rfl

/-- One call, in the meaning: at `x`, with what is asked of the derivatives. -/
structure Good (x par : Nat → ℝ) (p : AProg ℝ) (E : ASE ℝ) (d : Disc) (E' : ASE ℝ) (k : List Nat) : Prop where
  spec : p.spec x par E = some (E', [], k)
  smooth : p.smooth .rev x par E
  disc : p.disc x par E d

theorem Good.stmt {x par : Nat → ℝ} {st : AStmt ℝ} {k : AProg ℝ} {E E1 E2 : ASE ℝ} {d : Disc} {j js : List Nat} (h : st.spec x par E = some (E1, j))
    (h1 : st.smooth .rev E) (h2 : st.disc E d) (h3 : Good x par k E1 (st.discNext E d) E2 js) :
    Good x par (.stmt st k) E d E2 (j ++ js) := by
  refine ⟨by simp [AProg.spec, h, h3.spec], ⟨h1, fun E' j' he => ?_⟩, ⟨h2, fun E' j' he => ?_⟩⟩
  · rw [h] at he; cases he; exact h3.smooth
  · rw [h] at he; cases he; exact h3.disc

theorem Good.done {x par : Nat → ℝ} {E : ASE ℝ} {d : Disc} : Good x par .done E d E [] := ⟨rfl, trivial, trivial⟩

/-- `p` from `E` ends in a state and with a selection satisfying `P`. -/
def Goods (x par : Nat → ℝ) (p : AProg ℝ) (E : ASE ℝ) (d : Disc) (P : ASE ℝ → List Nat → Prop) : Prop :=
  ∃ E' k, Good x par p E d E' k ∧ P E' k

theorem Goods.stmt {x par : Nat → ℝ} {st : AStmt ℝ} {k : AProg ℝ} {E E1 : ASE ℝ} {d : Disc} {j : List Nat}
    {P : ASE ℝ → List Nat → Prop} (h : st.spec x par E = some (E1, j))
    (h1 : st.smooth .rev E) (h2 : st.disc E d) (h3 : Goods x par k E1 (st.discNext E d) fun E' js => P E' (j ++ js)) :
    Goods x par (.stmt st k) E d P := by
  obtain ⟨E', js, g1, g2⟩ := h3
  exact ⟨E', _, g1.stmt h h1 h2, g2⟩

theorem Goods.done {x par : Nat → ℝ} {E : ASE ℝ} {d : Disc} {P : ASE ℝ → List Nat → Prop} (h : P E []) :
    Goods x par .done E d P := ⟨E, [], .done, h⟩

set_option hygiene false in
macro "gstep" : tactic => `(tactic| (
  apply Goods.stmt
  case h =>
    conv_lhs => simp [AStmt.spec, RefCall.stmt, Stmt.spec, Stmt.names, Stmt.relocs, SE.set, upd_tab, tab_eval, List.lookup_cons, hi, Acc.fn]
    try rfl
  case h1 => simp [AStmt.smooth, Stmt.smooth, RefCall.stmt]
  case h2 => simp [AStmt.disc, Stmt.disc, AStmt.discNext, Stmt.discNext, RefCall.stmt, Stmt.uses, tab_eval, List.lookup_cons, hi]))

theorem pick_good (x par : Nat → ℝ) (h : ⌊|x 2|⌋₊ = 1) :
    Goods x par pick ⟨demoStart.se, []⟩ ⟨Set.univ, ∅⟩ fun E k => k = [1, 1] ∧ E.e.ii = 3 ∧ E.e.ys = [x 1 * x 0 + x 0] := by
  have hi : idx (x 2) = 1 := h
  rw [demo_se]
  unfold pick
  iterate 12 gstep
  exact Goods.done (by simp)

theorem pick_good0 (x par : Nat → ℝ) (h : ⌊|x 2|⌋₊ = 0) :
    Goods x par pick ⟨demoStart.se, []⟩ ⟨Set.univ, ∅⟩ fun E k => k = [0, 0] ∧ E.e.ii = 3 ∧ E.e.ys = [x 0 * x 0 + x 0 * x 0] := by
  have hi : idx (x 2) = 0 := h
  rw [demo_se]
  unfold pick
  iterate 12 gstep
  exact Goods.done (by simp)

/-- Recording of a straight-line program. -/
structure Runs (cfg : RCfg ℝ) (p : AProg ℝ) (s s' : ARec ℝ) : Prop where
  ok : p.record cfg s = some s'
  contig : p.contig cfg s
  path : p.path cfg s = []

def Runss (cfg : RCfg ℝ) (p : AProg ℝ) (s : ARec ℝ) (P : ARec ℝ → Prop) : Prop := ∃ s', Runs cfg p s s' ∧ P s'

theorem Runss.stmt {cfg : RCfg ℝ} {st : AStmt ℝ} {k : AProg ℝ} {s s1 : ARec ℝ} {P : ARec ℝ → Prop}
    (h : st.record cfg s = some s1) (h1 : st.contig s) (h2 : Runss cfg k s1 P) : Runss cfg (.stmt st k) s P := by
  obtain ⟨s', g, hp⟩ := h2
  refine ⟨s', ⟨by simp [AProg.record, h, g.ok], ⟨?_, fun s2 he => ?_⟩, by simp [AProg.path, h, g.path]⟩, hp⟩
  · cases st <;> exact h1
  · rw [h] at he; cases he; exact g.contig

theorem Runss.done {cfg : RCfg ℝ} {s : ARec ℝ} {P : ARec ℝ → Prop} (h : P s) : Runss cfg .done s P := ⟨s, ⟨rfl, trivial, rfl⟩, h⟩

theorem demo_rec : ARec.start (demoStart : Rec ℝ) = ⟨⟨tab 0 [], [], [], tab none [], [], 0, 0, 0⟩, [], tab none []⟩ := rfl

theorem idx1 : idx (1 : ℝ) = 1 := by show ⌊|(1:ℝ)|⌋₊ = 1; simp

theorem contiguous2 {env : Nat → Option Nat} {a b l : Nat} (h1 : env a = some l) (h2 : env b = some (l + 1)) : contiguous env [a, b] := by
  refine ⟨l, fun k t h => ?_⟩
  match k, h with
  | 0, h => cases h; exact h1
  | 1, h => cases h; exact h2

set_option hygiene false in
macro "rstep" : tactic => `(tactic| (
  apply Runss.stmt
  case h =>
    conv_lhs => simp [AStmt.record, ARec.plain, RefCall.record, Stmt.record, demoCfg,
      ARec.rec1, Rec.take, Rec.next, Rec.rec1, Rec.put, Rec.keepT, Rec.val, Rec.free, upd_tab, tab_eval, List.lookup_cons, idx1, peek, peekRest, Acc.fn]
    try rfl
  case h1 => first
    | exact trivial
    | exact contiguous2 (l := 1) (by simp [tab_eval, List.lookup_cons]) (by simp [tab_eval, List.lookup_cons])))

theorem pick_runs : Runss demoCfg pick (ARec.start demoStart) fun s => s.r.hw = 5 := by
  rw [demo_rec]
  unfold pick
  iterate 12 rstep
  exact Runss.done (by simp)

/-- The hypotheses of `C50_values`, `C50_while_taping_partial` and `C50_derivative_partial` are met; at `x₂ = 1/2` the trace selects
another element than when it was recorded. -/
example : ∃ s', TracedV demoCfg [] demoStart pick s' 5 ∧ pick.noFminLL ∧
    (∀ x0 : Fin 3 → ℝ, x0 2 = 3 / 2 →
      (∀ᶠ x in 𝓝 x0, ∃ E, pick.spec (ext x) (fun _ => 0) ⟨demoStart.se, []⟩ =
        some (E, pick.path demoCfg (ARec.start demoStart), [1, 1])) ∧
      pick.smooth .rev (ext x0) (fun _ => 0) ⟨demoStart.se, []⟩ ∧
      pick.disc (ext x0) (fun _ => 0) ⟨demoStart.se, []⟩ ⟨Set.univ, ∅⟩) ∧
    ∀ (T0 : Nat → ℝ) (a b : ℝ) (keep : Bool),
      ∃ z, zosRunA ⟨ext ![a, b, 1 / 2], fun _ => 0, keep⟩ (s'.tape 5) (ZS.start T0) = .ok z ∧ z.y = [a * a + a * a] := by
  obtain ⟨s', hr, h5⟩ := pick_runs
  have ht : TracedV demoCfg [] demoStart pick s' 5 := ⟨demo_alloc, demo_start, hr.ok, hr.contig, by norm_num, h5.le⟩
  refine ⟨s', ht, by simp [pick, AProg.noFminLL, Stmt.notFminLL], fun x0 h0 => ?_, fun T0 a b keep => ?_⟩
  · have e2 : ∀ x : Fin 3 → ℝ, ext x 2 = x 2 := fun x => by simp [ext]
    have near : ∀ᶠ x in 𝓝 x0, ⌊|ext x 2|⌋₊ = 1 := by
      have hc : ContinuousAt (fun x : Fin 3 → ℝ => x 2) x0 := (continuous_apply 2).continuousAt
      have h1 : ∀ᶠ x in 𝓝 x0, (1:ℝ) < x 2 := hc.eventually (lt_mem_nhds (by show _ < _; simp only [h0]; norm_num))
      have h2 : ∀ᶠ x in 𝓝 x0, x 2 < 2 := hc.eventually (gt_mem_nhds (by show _ < _; simp only [h0]; norm_num))
      filter_upwards [h1, h2] with x l1 l2
      rw [e2, abs_of_pos (by linarith), Nat.floor_eq_iff (by linarith)]
      constructor <;> push_cast <;> linarith
    refine ⟨?_, ?_, ?_⟩
    · filter_upwards [near] with x hx
      obtain ⟨E, k, g, rfl, _⟩ := pick_good (ext x) (fun _ => 0) hx
      exact ⟨E, by rw [hr.path]; exact g.spec⟩
    all_goals
      obtain ⟨E, k, g, _⟩ := pick_good (ext x0) (fun _ => 0) near.self_of_nhds
      first | exact g.smooth | exact g.disc
  · have e : ext ![a, b, 1 / 2] 2 = (1 / 2 : ℝ) := by simp [ext]
    obtain ⟨E, k, g, rfl, _, hy⟩ := pick_good0 (ext ![a, b, 1 / 2]) (fun _ => 0) (by rw [e]; norm_num)
    obtain ⟨z, z1, z2, _⟩ := (C50_values ht idx_ofLoc_real T0 ⟨ext ![a, b, 1 / 2], fun _ => 0, keep⟩).1 E [0, 0]
      (by rw [hr.path]; exact g.spec)
    refine ⟨z, z1, ?_⟩
    rw [z2, hy]
    simp [ext]

/-! ## Vector modes -/

section vector
variable {K : Type} [Scalar K]

/-- Column `l` of `fov_forward` is `fos_forward` in direction `l` (no logarithm of zero, as in C12). -/
theorem C50_fov_columns (c : Cfg K) (p : Nat) (V : Nat → Nat → K) (ops : List (AOp K)) (T0 : Nat → K)
    (hlog : AlongA logArgNonzero c ops (ZS.start T0)) {l : Nat} (hl : l < p) :
    ExRel (Col l) (fovRunA c p V ops ⟨T0, fun _ _ => 0, 3, 0, [], []⟩) (fosRunA c (fun i => V i l) ops (FS.start T0)) :=
  fov_fos_runA c hl ops ⟨rfl, fun _ => rfl, rfl, rfl, rfl, le_refl _⟩ ⟨rfl, rfl, rfl, rfl, le_refl _⟩ hlog

/-- Row `l` of `fov_reverse` is `fos_reverse` with weights `U l`, on traces without reads `v[i]` from a
`const advector`; missing: those reads, for which it is false (`C50_fov_rows_lost`). -/
theorem C50_fov_rows_partial (p : Nat) (U : Nat → Nat → K) (ops : List (AOp K)) (h : ∀ o ∈ ops, o.isSubscript = false)
    (n m : Nat) (stk : List K) {l : Nat} (hl : l < p) :
    (fovRevRunA p U ops (VRS.init n m stk)).map (VRS.row l) = revRunA (U l) ops (RS.init n m stk) :=
  row_runA hl U ops h _
end vector

/-- `y = v[i]` on `v = (x₀)`, `i = x₁`: with two equal rows of weights `fov_reverse` returns the gradient in row 0
and zero in row 1. -/
theorem C50_fov_rows_lost :
    let ops : List (AOp ℝ) := [.base (.assignInd 1), .base (.assignInd 2), .subscript 2 1 1 3, .base (.assignDep 3)]
    ∃ z r r1, zosRunA ⟨fun i => if i = 0 then 5 else 0, fun _ => 0, true⟩ ops (ZS.start fun _ => 0) = .ok z ∧ z.y = [5] ∧
      fovRevRunA 2 (fun _ _ => 1) ops (VRS.init 2 1 z.stk) = .ok r ∧
      revRunA (fun _ => 1) ops (RS.init 2 1 z.stk) = .ok r1 ∧
      r1.bar 0 = 1 ∧ r.bar 0 0 = 1 ∧ r.bar 1 0 = 0 := by
  have h0 : idx (0 : ℝ) = 0 := by show ⌊|(0:ℝ)|⌋₊ = 0; simp
  simp [zosRunA, AOp.resolve, zosStep, ZS.start, ZS.push, ZS.set, fovRevRunA, revRunA, AOp.resolveRev, fovRevStep, revStep, VRS.init, RS.init,
    fovSubscript, VRS.up, VRS.setA, VRS.addA, VRS.pop, VRS.setB, RS.setA, RS.addA, RS.pop, h0, upd_apply, List.range_succ]

/-! ## Where the code departs -/

/-- A straight-line program ends in a state and with a selection satisfying `P`. -/
def Specs (x par : Nat → ℝ) (p : AProg ℝ) (E : ASE ℝ) (P : ASE ℝ → List Nat → Prop) : Prop :=
  ∃ E' k, p.spec x par E = some (E', [], k) ∧ P E' k

theorem Specs.stmt {x par : Nat → ℝ} {st : AStmt ℝ} {k : AProg ℝ} {E E1 : ASE ℝ} {j : List Nat}
    {P : ASE ℝ → List Nat → Prop} (h : st.spec x par E = some (E1, j)) (h3 : Specs x par k E1 fun E' js => P E' (j ++ js)) :
    Specs x par (.stmt st k) E P := by
  obtain ⟨E', js, g1, g2⟩ := h3
  exact ⟨E', _, by simp [AProg.spec, h, g1], g2⟩

theorem Specs.done {x par : Nat → ℝ} {E : ASE ℝ} {P : ASE ℝ → List Nat → Prop} (h : P E []) : Specs x par .done E P := ⟨E, [], rfl, h⟩

set_option hygiene false in
macro "sstep" : tactic => `(tactic| (
  apply Specs.stmt
  case h =>
    conv_lhs => simp [AStmt.spec, RefCall.stmt, Stmt.spec, Stmt.names, Stmt.relocs, SE.set, SE.del, upd_tab, tab_eval, List.lookup_cons, hi, Acc.fn]
    try rfl))

theorem idx0 : idx (0 : ℝ) = 0 := by show ⌊|(0:ℝ)|⌋₊ = 0; simp

/-- Like `demoCfg`, recording at `x = 0`. -/
noncomputable def zeroCfg : RCfg ℝ := ⟨true, fun _ L => L.foldr max 0 + 1, fun _ => true, fun _ => 0, fun _ => 0⟩

set_option hygiene false in
macro "rstep0" : tactic => `(tactic| (
  apply Runss.stmt
  case h =>
    conv_lhs => simp [AStmt.record, ARec.plain, RefCall.record, Stmt.record, demoCfg, zeroCfg,
      ARec.rec1, Rec.take, Rec.next, Rec.rec1, Rec.put, Rec.keepT, Rec.val, Rec.free, upd_tab, tab_eval, List.lookup_cons, idx0, idx1, peek, peekRest, Acc.fn]
    try rfl
  case h1 => first
    | exact trivial
    | exact ⟨1, fun k t h => match k, h with | 0, h => by cases h; simp [tab_eval, List.lookup_cons]⟩))

def ZRuns (c : Cfg ℝ) (ops : List (AOp ℝ)) (z : ZS ℝ) (P : ZS ℝ → Prop) : Prop := ∃ z', zosRunA c ops z = .ok z' ∧ P z'

theorem ZRuns.cons {c : Cfg ℝ} {o : AOp ℝ} {os : List (AOp ℝ)} {z z1 : ZS ℝ} {b : Base ℝ} {P : ZS ℝ → Prop} (h : o.resolve z.T = .ok b)
    (h1 : zosStep c b z = .ok z1) (h2 : ZRuns c os z1 P) : ZRuns c (o :: os) z P := by
  obtain ⟨z', g, hp⟩ := h2
  exact ⟨z', by simp [zosRunA, h, h1, g], hp⟩

theorem ZRuns.nil {c : Cfg ℝ} {z : ZS ℝ} {P : ZS ℝ → Prop} (h : P z) : ZRuns c [] z P := ⟨z, rfl, h⟩

/-- The reverse sweep over a trace given last operation first. -/
def RRuns (u : Nat → ℝ) (tr : List (AOp ℝ)) (s : RS ℝ) (P : RS ℝ → Prop) : Prop := ∃ s', revRunA u tr.reverse s = .ok s' ∧ P s'

theorem RRuns.cons {u : Nat → ℝ} {o : AOp ℝ} {os : List (AOp ℝ)} {z z1 : RS ℝ} {b : Base ℝ} {P : RS ℝ → Prop} (h : o.resolveRev z.T = .ok b)
    (h1 : revStep u b z = .ok z1) (h2 : RRuns u os z1 P) : RRuns u (o :: os) z P := by
  obtain ⟨z', g, hp⟩ := h2
  refine ⟨z', ?_, hp⟩
  rw [List.reverse_cons, revRunA_append]
  simp [revRunA, h, h1, g]

theorem RRuns.nil {u : Nat → ℝ} {z : RS ℝ} {P : RS ℝ → Prop} (h : P z) : RRuns u [] z P := ⟨z, rfl, h⟩

set_option hygiene false in
macro "zstep" : tactic => `(tactic| (
  apply ZRuns.cons
  case h =>
    conv_lhs => simp [AOp.resolve, RefOp.base, tab_eval, List.lookup_cons, idx0, idx1, idx_ofLoc_real]
    try rfl
  case h1 =>
    conv_lhs => simp [zosStep, ZS.push, ZS.set, upd_tab, tab_eval, List.lookup_cons, List.range_succ]
    try rfl))

set_option hygiene false in
macro "bstep" : tactic => `(tactic| (
  apply RRuns.cons
  case h =>
    conv_lhs => simp [AOp.resolveRev, RefOp.base, tab_eval, List.lookup_cons, idx0, idx1, idx_ofLoc_real]
    try rfl
  case h1 =>
    conv_lhs => simp [revStep, RS.setA, RS.addA, RS.pop, upd_tab, tab_eval, List.lookup_cons, List.range_succ, List.foldlM]
    try rfl))

/-- `v = (x₀)`, `i = x₁`: `v[i] = v[0]; y = v[0]`. -/
noncomputable def selfAssign : AProg ℝ :=
  .stmt (.plain (.new 0)) <| .stmt (.plain (.new 1)) <| .stmt (.plain (.indep 0)) <| .stmt (.plain (.indep 1)) <|
  .stmt (.ref 2 [0] 1) <| .stmt (.refDo 2 (.setA 0)) <| .stmt (.refDel 2) <| .stmt (.plain (.dep 0)) .done

theorem selfAssign_runs : Runss zeroCfg selfAssign (ARec.start demoStart) fun s => s.r.hw = 4 ∧ s.tr =
    [.base (.assignDep 1), .ref (.assignA 1) 3, .subscriptRef 2 1 1 3, .base (.assignInd 2), .base (.assignInd 1),
      .base (.assignD0 2), .base (.assignD0 1)] := by
  rw [demo_rec]
  unfold selfAssign
  iterate 8 rstep0
  exact Runss.done (by simp)

/-- C50 fails: after `v[i] = v[k]` with `i = k` (here `i = k = 0`), which changes nothing, `fos_reverse` returns
the adjoint 0 of `v[k]`: `adubref::operator=` compares the location of its own cell, not that of the element. -/
theorem C50_self_assign :
    ∃ s' z r, TracedV zeroCfg [] demoStart selfAssign s' 4 ∧
      (∀ a, ∃ E, selfAssign.spec (fun i => if i = 0 then a else 0) (fun _ => 0) ⟨demoStart.se, []⟩ = some (E, [], [0]) ∧ E.e.ys = [a]) ∧
      zosRunA ⟨fun i => if i = 0 then 5 else 0, fun _ => 0, true⟩ (s'.tape 4) (ZS.start fun _ => 0) = .ok z ∧ z.y = [5] ∧
      revRunA (fun _ => 1) (s'.tape 4) (RS.init 2 1 z.stk) = .ok r ∧ r.bar 0 = 0 := by
  obtain ⟨s', hr, h4, htr⟩ := selfAssign_runs
  have hsp : ∀ a : ℝ, Specs (fun i => if i = 0 then a else 0) (fun _ => 0) selfAssign ⟨demoStart.se, []⟩ fun E k => k = [0] ∧ E.e.ys = [a] := by
    intro a
    have hi := idx0
    rw [demo_se]
    unfold selfAssign
    iterate 8 sstep
    exact Specs.done (by simp)
  have hsw : ∃ z r, zosRunA ⟨fun i => if i = 0 then 5 else 0, fun _ => 0, true⟩ (s'.tape 4) (ZS.start fun _ => (0:ℝ)) = .ok z ∧ z.y = [5] ∧
      revRunA (fun _ => 1) (s'.tape 4) (RS.init 2 1 z.stk) = .ok r ∧ r.bar 0 = 0 := by
    have hz : ZRuns ⟨fun i => if i = 0 then 5 else 0, fun _ => 0, true⟩ (s'.tape 4) ⟨tab 0 [], [], 3, 0, []⟩ fun z => z.y = [5] ∧
        RRuns (fun _ => 1) (.base (.deathNot 0 3) :: s'.tr) ⟨tab 0 [], tab 0 [], z.stk, 2, 1, tab 0 []⟩ fun r => r.bar 0 = 0 := by
      rw [ARec.tape, htr]
      iterate 8 zstep
      refine ZRuns.nil ⟨by simp, ?_⟩
      simp only []
      iterate 8 bstep
      exact RRuns.nil (by simp [tab_eval, List.lookup_cons])
    obtain ⟨z, z1, z2, r, r1, r2⟩ := hz
    exact ⟨z, r, z1, z2, by rw [ARec.tape, ← List.reverse_cons]; exact r1, r2⟩
  obtain ⟨z, r, hsw⟩ := hsw
  refine ⟨s', z, r, ⟨demo_alloc, demo_start, hr.ok, hr.contig, by norm_num, h4.le⟩, fun a => ?_, hsw⟩
  obtain ⟨E, k, g, rfl, hy⟩ := hsp a
  exact ⟨E, g, hy⟩

/-- `v = (a, b)`, `t`, `i`: `v[0] = std::move(t); y = v[i]`, with `x = (a, b, t, i)`. -/
noncomputable def movedIn : AProg ℝ :=
  .stmt (.plain (.new 0)) <| .stmt (.plain (.new 1)) <| .stmt (.plain (.new 2)) <| .stmt (.plain (.new 3)) <|
  .stmt (.plain (.indep 0)) <| .stmt (.plain (.indep 1)) <| .stmt (.plain (.indep 2)) <| .stmt (.plain (.indep 3)) <|
  .stmt (.plain (.moveA 0 2)) <| .stmt (.sub 4 [0, 1] 3) <| .stmt (.plain (.dep 4)) .done

theorem movedIn_runs : ∃ s', movedIn.record demoCfg (ARec.start demoStart) = some s' ∧ s'.r.hw = 6 ∧ s'.tr =
    [.base (.assignDep 5), .subscript 4 2 3 5, .base (.assignD0 5), .base (.assignInd 4), .base (.assignInd 3), .base (.assignInd 2), .base (.assignInd 1),
      .base (.assignD0 4), .base (.assignD0 3), .base (.assignD0 2), .base (.assignD0 1)] := by
  rw [demo_rec]
  simp [movedIn, AProg.record, AStmt.record, ARec.plain, RefCall.record, Stmt.record, demoCfg,
      ARec.rec1, Rec.take, Rec.next, Rec.rec1, Rec.put, Rec.keepT, Rec.val, Rec.free, upd_tab, tab_eval, List.lookup_cons, idx0, idx1, peek, peekRest, Acc.fn]

/-- C50 fails: assigning an rvalue to an element (`v[0] = std::move(t)`, also `v[0] = a + b`) gives the element another location; then
`v[i]` swept at `i = 1` reads whatever lies behind it, here `i` itself instead of `b = 6`. -/
theorem C50_moved_element :
    ∃ s', movedIn.record demoCfg (ARec.start demoStart) = some s' ∧ s'.r.hw = 6 ∧
      (∃ E, movedIn.spec (ext ![5, 6, 7, 1]) (fun _ => 0) ⟨demoStart.se, []⟩ = some (E, [], [1]) ∧ E.e.ys = [6]) ∧
      ∃ z, zosRunA ⟨ext ![5, 6, 7, 1], fun _ => 0, false⟩ (s'.tape 6) (ZS.start fun _ => 0) = .ok z ∧ z.y = [1] := by
  obtain ⟨s', hr, h6, htr⟩ := movedIn_runs
  have e : ∀ i, ext ![(5:ℝ), 6, 7, 1] i = if i = 0 then 5 else if i = 1 then 6 else if i = 2 then 7 else if i = 3 then 1 else 0 := by
    intro i
    match i with
    | 0 => simp [ext]
    | 1 => simp [ext]
    | 2 => simp [ext]
    | 3 => simp [ext]
    | n + 4 => simp [ext]
  have e' : ext ![(5:ℝ), 6, 7, 1] = fun i => if i = 0 then 5 else if i = 1 then 6 else if i = 2 then 7 else if i = 3 then 1 else 0 := funext e
  refine ⟨s', hr, h6, ?_, ?_⟩
  · have : Specs (ext ![5, 6, 7, 1]) (fun _ => 0) movedIn ⟨demoStart.se, []⟩ fun E k => k = [1] ∧ E.e.ys = [6] := by
      have hi := idx1
      rw [e', demo_se]
      unfold movedIn
      iterate 11 sstep
      exact Specs.done (by simp)
    obtain ⟨E, k, g, rfl, hy⟩ := this
    exact ⟨E, g, hy⟩
  · have : ZRuns ⟨ext ![5, 6, 7, 1], fun _ => 0, false⟩ (s'.tape 6) ⟨tab 0 [], [], 3, 0, []⟩ fun z => z.y = [1] := by
      rw [e', ARec.tape, htr]
      iterate 12 zstep
      exact ZRuns.nil (by simp)
    exact this

/-! ## `lookupindex` -/

/-- `advector::nondecreasing` (advector.cpp:438-444): `last` stays at `-infinity`. -/
noncomputable def nondecreasing (data : List ℝ) : Bool := data.foldl (fun ret a => ret && decide ((⊥ : WithBot ℝ) ≤ (a : WithBot ℝ))) true

/-- The loop of `advector::lookupindex` (advector.cpp:510-514); `i` is the loop counter.  Only the values; each round records a
product, a difference and a `cond_assign_s`. -/
noncomputable def lookupLoop (a b : ℝ) : List ℝ → ℕ → ℝ → ℝ
  | [], _, r => r
  | d :: ds, i, r => lookupLoop a b ds (i + 1) (if a - d * b > 0 then (i : ℝ) + 1 else r)

/-- `advector::lookupindex` (advector.cpp:502-516). -/
noncomputable def lookupindex (data : List ℝ) (a b : ℝ) : Except Unit ℝ :=
  if !nondecreasing data then .error () else if b < 0 then .error () else .ok (lookupLoop a b data 0 0)

theorem nondecreasing_true (data : List ℝ) : nondecreasing data = true := by
  unfold nondecreasing
  induction data with
  | nil => rfl
  | cons a l ih => simpa using ih

theorem lookupLoop_sorted {a b : ℝ} (hb : 0 ≤ b) {data : List ℝ} (h : data.Pairwise (· ≤ ·)) (i : ℕ) (r : ℝ) :
    lookupLoop a b data i r = if ∃ d ∈ data, d * b < a then ((i + data.countP fun d => decide (d * b < a) : ℕ) : ℝ) else r := by
  induction data generalizing i r with
  | nil => simp [lookupLoop]
  | cons d ds ih =>
    rw [List.pairwise_cons] at h
    simp only [lookupLoop]
    rw [ih h.2]
    by_cases hd : d * b < a
    · rw [if_pos (by linarith : a - d * b > 0), if_pos (⟨d, List.mem_cons_self, hd⟩ : ∃ d' ∈ d :: ds, d' * b < a), List.countP_cons_of_pos (by simpa using hd)]
      by_cases hx : ∃ d' ∈ ds, d' * b < a
      · rw [if_pos hx]; push_cast; ring
      · rw [if_neg hx, List.countP_eq_zero.2 (by simpa using fun x hx' => not_lt.1 fun h => hx ⟨x, hx', h⟩)]
        push_cast; ring
    · have hn : ¬ ∃ d' ∈ ds, d' * b < a := fun ⟨x, hx, hlt⟩ => hd (lt_of_le_of_lt (mul_le_mul_of_nonneg_right (h.1 x hx) hb) hlt)
      rw [if_neg hn, if_neg (by linarith : ¬ a - d * b > 0), if_neg]
      rintro ⟨x, hx, hlt⟩
      rcases List.mem_cons.1 hx with rfl | hx
      · exact hd hlt
      · exact hn ⟨x, hx, hlt⟩

/-- On nondecreasing data `lookupindex` is the number of elements with `dᵢ * b < a`; missing: that other data
are refused (`C50_lookup_unsorted`). -/
theorem C50_lookup_partial (data : List ℝ) (a b : ℝ) (hb : 0 ≤ b) (h : data.Pairwise (· ≤ ·)) :
    lookupindex data a b = .ok ((data.countP fun d => decide (d * b < a) : ℕ) : ℝ) := by
  unfold lookupindex
  rw [nondecreasing_true, if_neg (by simp), if_neg (not_lt.2 hb), lookupLoop_sorted hb h]
  split
  · simp
  · rename_i hx
    rw [List.countP_eq_zero.2 (by simpa using fun x hx' => not_lt.1 fun h => hx ⟨x, hx', h⟩)]; simp

example : lookupindex [1, 2, 4] 3 1 = .ok 2 := by
  rw [C50_lookup_partial _ _ _ (by norm_num) (by norm_num)]
  norm_num [List.countP_cons]

/-- The check does nothing: `(3, 1)` is accepted and 2 returned for `a = 2`, though only one element is below 2. -/
theorem C50_lookup_unsorted : lookupindex [3, 1] 2 1 = .ok 2 := by
  unfold lookupindex
  rw [nondecreasing_true]
  norm_num [lookupLoop]

end Verif.Props.Advector
