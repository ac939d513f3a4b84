import Verif.Sparse.Driver
import Verif.AD.ZosFos

/-!
# Bit pattern propagation forwards, tight mode: `int_forward_tight` (`uni5_for.cpp`)

The values are computed as in `zos_forward`, from the constants on the value tape; the bit patterns as in
`int_forward_safe`, except for `fmin` and the conditional assignments.  The conditional assignments
read two values although one is recorded, so the constants an operation gets are modelled as read from a
stream: the recorded values one after the other, then whatever the buffer contains behind them.
-/
set_option linter.all false
namespace Verif.Sparse
open Verif.AD Elem

variable {K : Type} [Scalar K]

/-- The values recorded for an operation (`ADOLC_PUT_VAL`, `writeInts`; adouble.cpp, valuetape.h), in order.  For
`subscript_ref` the recorded value is the number of elements, which is not part of `setRef`. -/
def Base.vals : Base K → List K
  | .assignD _ v | .eqPlusD _ v | .eqMinD _ v | .eqMultD _ v => [v]
  | .plusDA _ _ v | .minDA _ _ v | .multDA _ _ v | .divDA _ _ v | .powOp _ _ v => [v]
  | .genQuad _ _ _ old v => [old, v]
  | .minOp _ _ _ v | .absVal _ _ v | .ceilOp _ _ v | .floorOp _ _ v => [v]
  | .condAssign _ _ _ _ v | .condEqAssign _ _ _ _ v | .condAssignS _ _ _ v | .condEqAssignS _ _ _ v => [v]
  | .setRef _ _ => [0]
  | .takeStock _ vs => vs
  | _ => []

/-- The number of values `int_forward_tight` reads for an operation: those recorded, except that the
conditional assignments read one more (uni5_for.cpp:4142, 4249, 4323, 4384). -/
def Base.reads : Base K → Nat
  | .condAssign _ _ _ _ _ | .condEqAssign _ _ _ _ _ | .condAssignS _ _ _ _ | .condEqAssignS _ _ _ _ => 2
  | o => (Base.vals o).length

/-- The operation with the constants it gets from the stream; of two values read by a conditional
assignment the second one counts. -/
def Base.withVals (o : Base K) (w : Nat → K) : Base K :=
  match o with
  | .assignD r _ => .assignD r (w 0)
  | .eqPlusD r _ => .eqPlusD r (w 0)
  | .eqMinD r _ => .eqMinD r (w 0)
  | .eqMultD r _ => .eqMultD r (w 0)
  | .plusDA a r _ => .plusDA a r (w 0)
  | .minDA a r _ => .minDA a r (w 0)
  | .multDA a r _ => .multDA a r (w 0)
  | .divDA a r _ => .divDA a r (w 0)
  | .powOp a r _ => .powOp a r (w 0)
  | .genQuad a b r _ _ => .genQuad a b r (w 0) (w 1)
  | .minOp a b r _ => .minOp a b r (w 0)
  | .absVal a r _ => .absVal a r (w 0)
  | .ceilOp a r _ => .ceilOp a r (w 0)
  | .floorOp a r _ => .floorOp a r (w 0)
  | .condAssign a a1 a2 r _ => .condAssign a a1 a2 r (w 1)
  | .condEqAssign a a1 a2 r _ => .condEqAssign a a1 a2 r (w 1)
  | .condAssignS a a1 r _ => .condAssignS a a1 r (w 1)
  | .condEqAssignS a a1 r _ => .condEqAssignS a a1 r (w 1)
  | .takeStock r vs => .takeStock r ((List.range vs.length).map w)
  | o => o

/-- Bit patterns in `int_forward_tight`; `T` is `dp_T0` before the operation. -/
def tightBits (p : Nat) (X : Nat → Nat → Word) (T : Nat → K) (o : Base K) (s : BS) : Except BErr BS :=
  match o with
  -- 3791-3817; for equal values word by word the numerically smaller one
  | .minOp a b r _ => .ok (s.row p r fun u =>
      if T a > T b then u b else if T a < T b then u a
      else if u a > u b then u b else u a)
  -- 4144-4147
  | .condAssign a a1 a2 r _ => .ok (s.row p r fun u => if T a > 0 then u a1 else u a2)
  -- 4251-4254
  | .condEqAssign a a1 a2 r _ => .ok (s.row p r fun u => if T a ≥ 0 then u a1 else u a2)
  -- 4325-4327
  | .condAssignS a a1 r _ => .ok (if T a > 0 then s.row p r fun u => u a1 else s)
  -- 4386-4388
  | .condEqAssignS a a1 r _ => .ok (if T a ≥ 0 then s.row p r fun u => u a1 else s)
  -- 4534-4561
  | .setRef _ _ => .ok s
  -- as in safe mode
  | o => safeStep p X o s

/-- Variables of `int_forward_tight`: bit patterns, `dp_T0` etc., and the number of values read. -/
structure TFS (K : Type) where
  b : BS
  z : ZS K
  pos : Nat

/-- uni5_for.cpp:1130, 1174: zero-initialised. -/
def TFS.init : TFS K := ⟨BS.init, ZS.init, 0⟩

/-- Why the sweep ends early. -/
inductive FTErr where
  /-- as `zos_forward` -/
  | stop (e : Stop)
  | refs
  deriving DecidableEq, Repr

/-- One `case` of the switch in `int_forward_tight`; `V` is the value stream. -/
def fwdTightStep (p : Nat) (X : Nat → Nat → Word) (c : Cfg K) (V : Nat → K) (o : Base K) (s : TFS K) :
    Except FTErr (TFS K) :=
  let o' := Base.withVals o fun i => V (s.pos + i)
  match zosStep c o' s.z with
  | .error e => .error (.stop e)
  | .ok z' =>
    match tightBits p X s.z.T o' s.b with
    | .error _ => .error .refs
    | .ok b' => .ok ⟨b', z', s.pos + Base.reads o⟩

/-- The sweep loop of `int_forward_tight` (uni5_for.cpp:1279-5820). -/
def fwdTightRun (p : Nat) (X : Nat → Nat → Word) (c : Cfg K) (V : Nat → K) :
    List (Base K) → TFS K → Except FTErr (TFS K)
  | [], s => .ok s
  | o :: os, s =>
    match fwdTightStep p X c V o s with
    | .error e => .error e
    | .ok s' => fwdTightRun p X c V os s'

/-- The value stream of a trace: the recorded values, then `G` (the buffer behind them). -/
def stream (ops : List (Base K)) (G : Nat → K) (i : Nat) : K := (ops.flatMap Base.vals)[i]?.getD (G i)

/-! ## Values -/

/-- Equal except for the return code. -/
structure EqV (z z0 : ZS K) : Prop where
  T : z.T = z0.T
  stk : z.stk = z0.stk
  ii : z.ii = z0.ii
  y : z.y = z0.y

theorem EqV.push {c : Cfg K} {r : Nat} {s z : ZS K} (h : EqV s z) : EqV (s.push c r) (z.push c r) := by
  obtain ⟨hT, hs, hi, hy⟩ := h
  constructor <;> simp [ZS.push, *]

theorem EqV.set {r : Nat} {v w : K} {s z : ZS K} (h : EqV s z) (hv : v = w) : EqV (s.set r v) (z.set r w) := by
  obtain ⟨hT, hs, hi, hy⟩ := h
  constructor <;> simp [ZS.set, *]

theorem EqV.dec {b b' : Bool} {n n' : Int} {s z : ZS K} (h : EqV s z) : EqV (s.dec b n) (z.dec b' n') := by
  obtain ⟨hT, hs, hi, hy⟩ := h
  constructor <;> simp [ZS.dec, *]

theorem EqV.decL {b : Bool} {n : Int} {s z : ZS K} (h : EqV s z) : EqV (s.dec b n) z := by
  obtain ⟨hT, hs, hi, hy⟩ := h
  constructor <;> simp [ZS.dec, *]

theorem EqV.decR {b : Bool} {n : Int} {s z : ZS K} (h : EqV s z) : EqV s (z.dec b n) := by
  obtain ⟨hT, hs, hi, hy⟩ := h
  constructor <;> simp [ZS.dec, *]

/-- The constants of the operation enter the values it computes (not only the return code). -/
def Base.constant : Base K → Prop
  | .assignD _ _ | .eqPlusD _ _ | .eqMinD _ _ | .eqMultD _ _ => True
  | .plusDA _ _ _ | .minDA _ _ _ | .multDA _ _ _ | .divDA _ _ _ | .powOp _ _ _ => True
  | .genQuad _ _ _ _ _ | .takeStock _ _ => True
  | _ => False

/-- A conditional assignment. -/
def Base.isCond : Base K → Prop
  | .condAssign _ _ _ _ _ | .condEqAssign _ _ _ _ _ | .condAssignS _ _ _ _ | .condEqAssignS _ _ _ _ => True
  | _ => False

theorem eqV_step (c : Cfg K) {o o' : Base K} (ho : o' = o ∨ ¬ Base.constant o ∧ ∃ w, o' = Base.withVals o w)
    {z z0 : ZS K} (h : EqV z z0) : ExRel EqV (zosStep c o' z) (zosStep c o z0) := by
  have hT := h.T
  have key : ∃ w, o' = Base.withVals o w ∨ o' = o := by
    rcases ho with h | ⟨_, w, h⟩
    · exact ⟨fun _ => 0, .inr h⟩
    · exact ⟨w, .inl h⟩
  cases o
  case cmp q a =>
    obtain rfl : o' = .cmp q a := by obtain ⟨w, h | h⟩ := key <;> exact h
    obtain ⟨hT, hs, hi, hy⟩ := h
    simp only [zosStep, hT]
    split
    · cases q <;> simp only [ExRel] <;> constructor <;> simp [*]
    · simp [ExRel]
  case minOp a b r k =>
    obtain ⟨k', rfl⟩ : ∃ k', o' = .minOp a b r k' := by obtain ⟨w, h | h⟩ := key <;> exact ⟨_, h⟩
    have h := h.push (c := c) (r := r)
    have hT := h.T
    simp only [zosStep, ExRel]
    refine EqV.set ?_ ?_
    · simp only [hT]; split_ifs <;> exact h.dec
    · simp only [hT, ZS.dec]; split_ifs <;> simp_all
  case absVal a r k =>
    obtain ⟨k', rfl⟩ : ∃ k', o' = .absVal a r k' := by obtain ⟨w, h | h⟩ := key <;> exact ⟨_, h⟩
    have h := h.push (c := c) (r := r)
    have hT := h.T
    simp only [zosStep, ExRel]
    refine EqV.set ?_ ?_
    · simp only [hT]; split_ifs
      · exact h.dec
      · exact h.dec
      · exact h
    · simp only [hT, ZS.dec]; split_ifs <;> simp_all
  case ceilOp a r k =>
    obtain ⟨k', rfl⟩ : ∃ k', o' = .ceilOp a r k' := by obtain ⟨w, h | h⟩ := key <;> exact ⟨_, h⟩
    have h := h.push (c := c) (r := r)
    simp only [zosStep, ExRel]
    exact (h.set (by rw [h.T])).dec
  case floorOp a r k =>
    obtain ⟨k', rfl⟩ : ∃ k', o' = .floorOp a r k' := by obtain ⟨w, h | h⟩ := key <;> exact ⟨_, h⟩
    have h := h.push (c := c) (r := r)
    simp only [zosStep, ExRel]
    exact (h.set (by rw [h.T])).dec
  case condAssign a a1 a2 r k =>
    obtain ⟨k', rfl⟩ : ∃ k', o' = .condAssign a a1 a2 r k' := by obtain ⟨w, h | h⟩ := key <;> exact ⟨_, h⟩
    have h := h.push (c := c) (r := r)
    have hT := h.T
    simp only [zosStep, hT]
    split_ifs
    · exact h.dec.set (by simp [ZS.dec, hT])
    · exact h.dec.dec.set (by simp [ZS.dec, hT])
  case condEqAssign a a1 a2 r k =>
    obtain ⟨k', rfl⟩ : ∃ k', o' = .condEqAssign a a1 a2 r k' := by obtain ⟨w, h | h⟩ := key <;> exact ⟨_, h⟩
    have h := h.push (c := c) (r := r)
    have hT := h.T
    simp only [zosStep, hT]
    split_ifs
    · exact h.dec.set (by simp [ZS.dec, hT])
    · exact h.dec.set (by simp [ZS.dec, hT])
  case condAssignS a a1 r k =>
    obtain ⟨k', rfl⟩ : ∃ k', o' = .condAssignS a a1 r k' := by obtain ⟨w, h | h⟩ := key <;> exact ⟨_, h⟩
    have h := h.push (c := c) (r := r)
    have hT := h.T
    simp only [zosStep, hT]
    split_ifs
    · exact h.dec.set (by simp [ZS.dec, hT])
    · exact h.dec
  case condEqAssignS a a1 r k =>
    obtain ⟨k', rfl⟩ : ∃ k', o' = .condEqAssignS a a1 r k' := by obtain ⟨w, h | h⟩ := key <;> exact ⟨_, h⟩
    have h := h.push (c := c) (r := r)
    have hT := h.T
    simp only [zosStep, hT]
    split_ifs
    · exact h.dec.set (by simp [ZS.dec, hT])
    · exact h
  all_goals
    obtain rfl : o' = _ := by
      rcases ho with h | ⟨h1, w, h⟩
      · exact h
      · first | exact h | exact (h1 trivial).elim
  case assignInd r =>
    obtain ⟨hT, hs, hi, hy⟩ := h
    simp only [zosStep, ExRel]
    constructor <;> simp [ZS.set, ZS.push, *]
  case assignDep r =>
    obtain ⟨hT, hs, hi, hy⟩ := h
    simp only [zosStep, ExRel]
    constructor <;> simp [*]
  case genQuad =>
    simp only [zosStep, hT]
    split
    · simp [ExRel]
    · exact h.push.set rfl
  case vecCopy a n r =>
    simp only [zosStep, ExRel]
    refine foldl_rel (R := EqV) ?_ _ _ _ h
    intro s z q h
    exact h.push.set (by rw [h.push.T])
  case vecDot a b n r =>
    simp only [zosStep, ExRel]
    refine foldl_rel (R := EqV) ?_ _ _ _ (h.push.set rfl)
    intro s z q h
    exact h.set (by simp [h.T])
  case vecAxpy a a1 a2 n r =>
    simp only [zosStep, ExRel]
    refine foldl_rel (R := EqV) ?_ _ _ _ h
    intro s z q h
    exact h.push.set (by simp [h.push.T])
  case takeStock r vs =>
    simp only [zosStep, ExRel]
    refine (foldl_rel (R := fun (a : Nat × ZS K) (b : Nat × ZS K) => a.1 = b.1 ∧ EqV a.2 b.2)
      ?_ _ (r, z) (r, z0) ⟨rfl, h⟩).2
    rintro ⟨i, s⟩ ⟨j, z⟩ x ⟨rfl, h⟩
    exact ⟨rfl, h.set rfl⟩
  case deathNot a b =>
    simp only [zosStep, ExRel]
    refine foldl_rel (R := EqV) ?_ _ _ _ h
    intro s z q h
    exact h.push
  case sinOp a b r =>
    simp only [zosStep, ExRel]
    have h2 := (h.push (c := c) (r := b)).push (c := c) (r := r)
    have h3 := h2.set (r := b) (v := cos (((z.push c b).push c r).T a)) (w := cos (((z0.push c b).push c r).T a)) (by rw [h2.T])
    exact h3.set (by rw [h3.T])
  case cosOp a b r =>
    simp only [zosStep, ExRel]
    have h2 := (h.push (c := c) (r := b)).push (c := c) (r := r)
    have h3 := h2.set (r := b) (v := sin (((z.push c b).push c r).T a)) (w := sin (((z0.push c b).push c r).T a)) (by rw [h2.T])
    exact h3.set (by rw [h3.T])
  all_goals
    simp only [zosStep, ExRel]
    first
    | exact h.push.set rfl
    | exact h.push.set (by rw [h.push.T])
    | exact h.set (by rw [h.T])

/-! ## Bit patterns -/

/-- Every operation gets its own constants, or constants that do not matter. -/
def Reads (V : Nat → K) : Nat → List (Base K) → Prop
  | _, [] => True
  | pos, o :: os => (Base.withVals o (fun i => V (pos + i)) = o ∨ ¬ Base.constant o) ∧ Reads V (pos + Base.reads o) os

theorem tightBits_vals (p : Nat) (X : Nat → Nat → Word) (T : Nat → K) (o : Base K) (w : Nat → K) (s : BS) :
    tightBits p X T (Base.withVals o w) s = tightBits p X T o s := by
  cases o
  case takeStock r vs =>
    simp only [Base.withVals, tightBits, safeStep]
    congr 2
    have : ∀ (L L' : List K) (q : Nat × BS), L.length = L'.length →
        L.foldl (fun (q : Nat × BS) _ => (q.1 + 1, q.2.row p q.1 fun _ => 0)) q =
        L'.foldl (fun (q : Nat × BS) _ => (q.1 + 1, q.2.row p q.1 fun _ => 0)) q := by
      intro L
      induction L with
      | nil => intro L' q h; cases L' with
        | nil => rfl
        | cons => simp at h
      | cons x L ih => intro L' q h; cases L' with
        | nil => simp at h
        | cons y L' => exact ih L' _ (by simpa using h)
    exact this _ _ _ (by simp)
  all_goals rfl

theorem tightBits_total (p : Nat) (X : Nat → Nat → Word) (T : Nat → K) (o : Base K) (s : BS) :
    ∃ s', tightBits p X T o s = .ok s' ∧ s'.Y.length = s.Y.length + (if isDep o then 1 else 0) := by
  have key : ∀ o : Base K, (∀ r k, o ≠ .setRef r k) → tightBits p X T o s = safeStep p X o s →
      ∃ s', tightBits p X T o s = .ok s' ∧ s'.Y.length = s.Y.length + (if isDep o then 1 else 0) := by
    intro o ho h
    rw [h]
    exact safe_total (p := p) X ho s
  cases o
  case minOp => exact ⟨_, rfl, rfl⟩
  case condAssign => exact ⟨_, rfl, rfl⟩
  case condEqAssign => exact ⟨_, rfl, rfl⟩
  case condAssignS => refine ⟨_, rfl, ?_⟩; simp only [isDep]; split_ifs <;> first | rfl | contradiction
  case condEqAssignS => refine ⟨_, rfl, ?_⟩; simp only [isDep]; split_ifs <;> first | rfl | contradiction
  case setRef => exact ⟨_, rfl, rfl⟩
  all_goals exact key _ (by intro r k h; cases h) rfl

/-- The sweep runs through whenever `zos_forward` does. -/
theorem ftight_total {p : Nat} {X : Nat → Nat → Word} {c : Cfg K} {V : Nat → K} {ops : List (Base K)} {s : TFS K}
    {z0 z1 : ZS K} (hr : Reads V s.pos ops) (h : EqV s.z z0) (hz : zosRun c ops z0 = .ok z1) :
    ∃ s', fwdTightRun p X c V ops s = .ok s' ∧ s'.b.Y.length = s.b.Y.length + ops.countP isDep ∧ EqV s'.z z1 := by
  induction ops generalizing s z0 with
  | nil => cases hz; exact ⟨s, rfl, by simp, h⟩
  | cons o os ih =>
    simp only [zosRun] at hz
    split at hz
    · cases hz
    rename_i z2 h2
    have hs := eqV_step c (o := o) (o' := Base.withVals o fun i => V (s.pos + i))
      (hr.1.elim .inl fun h => .inr ⟨h, _, rfl⟩) h
    rw [h2] at hs
    cases h3 : zosStep c (Base.withVals o fun i => V (s.pos + i)) s.z with
    | error e => rw [h3] at hs; exact hs.elim
    | ok z3 =>
      rw [h3] at hs
      obtain ⟨b', h4, h5⟩ := tightBits_total p X s.z.T (Base.withVals o fun i => V (s.pos + i)) s.b
      obtain ⟨s', h6, h7, h8⟩ := ih (s := ⟨b', z3, s.pos + Base.reads o⟩) hr.2 hs hz
      refine ⟨s', ?_, ?_, h8⟩
      · simp only [fwdTightRun, fwdTightStep, h3, h4, h6]
      · rw [h7, h5, List.countP_cons]
        have : isDep (Base.withVals o fun i => V (s.pos + i)) = isDep o := by cases o <;> rfl
        rw [this]; omega

/-- `fmin` of equal values has no derivative. -/
def minOk (o : Base K) (T : Nat → K) : Prop :=
  match o with
  | .minOp a b _ _ => T a ≠ T b ∨ a = b
  | _ => True

section
variable {p l b : Nat}

theorem tcovers_step {c : Cfg K} {v : Nat → K} {X : Nat → Nat → Word} {o : Base K} {s s' : BS} {f f' : FS K}
    (hl : l < p) (hX : ∀ i, (X i l).getLsbD b = false → v i = 0)
    (hmin : minOk o f.T) (hpow : powOk o f.T) (hns : ∀ r k, o ≠ .setRef r k) (h : Covers l b s f)
    (hs : tightBits p X f.T o s = .ok s') (hf : fosStep c v o f = .ok f') : Covers l b s' f' := by
  have hc : ∀ a, (s.U l a).getLsbD b = false → f.dT a = 0 := h.cov
  have key : Base.safeOk p o → tightBits p X f.T o s = safeStep p X o s → Covers l b s' f' :=
    fun h1 h2 => covers_step hl hX h1 hpow h (h2 ▸ hs) hf
  cases o
  case setRef r k => exact absurd rfl (hns r k)
  case minOp a b' r k =>
    simp only [tightBits, fosStep, Except.ok.injEq] at hs hf
    subst hs hf
    rcases lt_trichotomy (f.T a) (f.T b') with h1 | h1 | h1
    · have h2 : ¬ f.T a > f.T b' := not_lt.mpr h1.le
      simp only [FS.push, FS.dec, FS.set, FS.setD, gt_iff_lt, h1, h2, if_true, if_false]
      exact h.set (r := r) (d := f.dT a) rfl hl rfl rfl rfl fun hb => hc _ hb
    · have hab : a = b' := hmin.resolve_left fun h => h h1
      subst hab
      simp only [FS.push, FS.dec, FS.set, FS.setD, gt_iff_lt, lt_irrefl, if_true, if_false]
      exact h.set (r := r) rfl hl rfl rfl rfl fun hb => by
        simp only [ite_self] at hb; simp [hc _ hb]
    · have h2 : ¬ f.T a < f.T b' := not_lt.mpr h1.le
      simp only [FS.push, FS.dec, FS.set, FS.setD, gt_iff_lt, h1, h2, if_true, if_false]
      exact h.set (r := r) (d := f.dT b') rfl hl rfl rfl rfl fun hb => hc _ hb
  case condAssign a a1 a2 r k =>
    simp only [tightBits, fosStep, Except.ok.injEq] at hs hf
    subst hs
    by_cases h1 : f.T a > 0
    · have h2 : (f.push c r).T a > 0 := h1
      have h3 : ((f.push c r).setD r ((f.push c r).dT a1)).T a > 0 := h1
      simp only [h2, h3, if_true, Except.ok.injEq] at hf
      subst hf
      simp only [h1, if_true]
      exact h.set (r := r) rfl hl rfl rfl rfl fun hb => hc _ hb
    · have h2 : ¬ (f.push c r).T a > 0 := h1
      have h3 : ¬ ((f.push c r).setD r ((f.push c r).dT a2)).T a > 0 := h1
      simp only [h2, h3, if_false, Except.ok.injEq] at hf
      subst hf
      simp only [h1, if_false]
      exact h.set (r := r) rfl hl rfl rfl rfl fun hb => hc _ hb
  case condEqAssign a a1 a2 r k =>
    simp only [tightBits, fosStep, Except.ok.injEq] at hs hf
    subst hs
    by_cases h1 : f.T a ≥ 0
    · have h2 : (f.push c r).T a ≥ 0 := h1
      have h3 : ((f.push c r).setD r ((f.push c r).dT a1)).T a ≥ 0 := h1
      simp only [h2, h3, if_true, Except.ok.injEq] at hf
      subst hf
      simp only [h1, if_true]
      exact h.set (r := r) rfl hl rfl rfl rfl fun hb => hc _ hb
    · have h2 : ¬ (f.push c r).T a ≥ 0 := h1
      have h3 : ¬ ((f.push c r).setD r ((f.push c r).dT a2)).T a ≥ 0 := h1
      simp only [h2, h3, if_false, Except.ok.injEq] at hf
      subst hf
      simp only [h1, if_false]
      exact h.set (r := r) rfl hl rfl rfl rfl fun hb => hc _ hb
  case condAssignS a a1 r k =>
    simp only [tightBits, fosStep, Except.ok.injEq] at hs hf
    subst hs
    by_cases h1 : f.T a > 0
    · have h2 : (f.push c r).T a > 0 := h1
      have h3 : ((f.push c r).setD r ((f.push c r).dT a1)).T a > 0 := h1
      simp only [h2, h3, if_true, Except.ok.injEq] at hf
      subst hf
      simp only [h1, if_true]
      exact h.set (r := r) rfl hl rfl rfl rfl fun hb => hc _ hb
    · have h2 : ¬ (f.push c r).T a > 0 := h1
      simp only [h2, if_false, Except.ok.injEq] at hf
      subst hf
      simp only [h1, if_false]
      exact h.skip rfl rfl rfl
  case condEqAssignS a a1 r k =>
    simp only [tightBits, fosStep, Except.ok.injEq] at hs hf
    subst hs
    by_cases h1 : f.T a ≥ 0
    · have h2 : (f.push c r).T a ≥ 0 := h1
      have h3 : ((f.push c r).setD r ((f.push c r).dT a1)).T a ≥ 0 := h1
      simp only [h2, h3, if_true, Except.ok.injEq] at hf
      subst hf
      simp only [h1, if_true]
      exact h.set (r := r) rfl hl rfl rfl rfl fun hb => hc _ hb
    · have h2 : ¬ (f.push c r).T a ≥ 0 := h1
      simp only [h2, if_false, Except.ok.injEq] at hf
      subst hf
      simp only [h1, if_false]
      exact h.skip rfl rfl rfl
  all_goals exact key trivial rfl

theorem ftight_covers {c : Cfg K} {v : Nat → K} {X : Nat → Nat → Word} {V : Nat → K} (hl : l < p)
    (hX : ∀ i, (X i l).getLsbD b = false → v i = 0) {ops : List (Base K)}
    (hns : ∀ o ∈ ops, ∀ r k, o ≠ .setRef r k) {s s' : TFS K} {f f' : FS K} {z : ZS K} (h : Covers l b s.b f)
    (he : EqV s.z z) (hz : SameZ f z) (hok : Along (fun o T => powOk o T ∧ minOk o T) c ops z) (hr : Reads V s.pos ops)
    (hs : fwdTightRun p X c V ops s = .ok s') (hf : fosRun c v ops f = .ok f') : Covers l b s'.b f' := by
  induction ops generalizing s f z with
  | nil => cases hs; cases hf; exact h
  | cons o os ih =>
    simp only [fwdTightRun, fwdTightStep] at hs
    simp only [fosRun] at hf
    split at hf
    · cases hf
    rename_i f1 h1
    have hzz := fos_zos_step c v o hz
    rw [h1] at hzz
    cases h3 : zosStep c o z with
    | error e => rw [h3] at hzz; exact hzz.elim
    | ok z1 =>
      rw [h3] at hzz
      have hv := eqV_step c (o := o) (o' := Base.withVals o fun i => V (s.pos + i))
        (hr.1.elim .inl fun h => .inr ⟨h, _, rfl⟩) he
      rw [h3] at hv
      cases h4 : zosStep c (Base.withVals o fun i => V (s.pos + i)) s.z with
      | error e => rw [h4] at hv; exact hv.elim
      | ok z4 =>
        rw [h4] at hv hs
        simp only [tightBits_vals] at hs
        cases h5 : tightBits p X s.z.T o s.b with
        | error e => rw [h5] at hs; cases hs
        | ok b' =>
          rw [h5] at hs
          refine ih (s := ⟨b', z4, s.pos + Base.reads o⟩) (fun o ho => hns o (List.mem_cons_of_mem _ ho)) ?_ hv hzz (hok.2 z1 h3) hr.2 hs hf
          rw [he.T, ← hz.T] at h5
          exact tcovers_step hl hX (by have := hok.1.2; rwa [← hz.T] at this) (by have := hok.1.1; rwa [← hz.T] at this)
            (hns o (by simp)) h h5 h1

theorem tnoBit_step {X : Nat → Nat → Word} {T : Nat → K} {o : Base K} {s s' : BS}
    (hX : ∀ i, (X i l).getLsbD b = false) (h : NoBit l b s) (hs : tightBits p X T o s = .ok s') : NoBit l b s' := by
  have hU := h.U
  have key : tightBits p X T o s = safeStep p X o s → NoBit l b s' :=
    fun h2 => noBit_step hX h (h2 ▸ hs)
  cases o
  case minOp => cases hs; refine h.row ?_; split_ifs <;> exact hU _
  case condAssign => cases hs; refine h.row ?_; split_ifs <;> exact hU _
  case condEqAssign => cases hs; refine h.row ?_; split_ifs <;> exact hU _
  case condAssignS => cases hs; split_ifs; exacts [h.row (hU _), h]
  case condEqAssignS => cases hs; split_ifs; exacts [h.row (hU _), h]
  case setRef => cases hs; exact h
  all_goals exact key rfl

theorem ftight_noBit {c : Cfg K} {X : Nat → Nat → Word} {V : Nat → K} {ops : List (Base K)} {s s' : TFS K}
    (hX : ∀ i, (X i l).getLsbD b = false) (h : NoBit l b s.b) (hs : fwdTightRun p X c V ops s = .ok s') :
    NoBit l b s'.b := by
  induction ops generalizing s with
  | nil => cases hs; exact h
  | cons o os ih =>
    simp only [fwdTightRun, fwdTightStep] at hs
    split at hs
    · cases hs
    rename_i s1 h1
    split at h1
    · cases h1
    split at h1
    · cases h1
    cases h1
    rename_i b' h2
    exact ih (s := ⟨b', _, _⟩) (tnoBit_step hX h h2) hs
end

/-! ## When the constants are the right ones -/

/-- Traces for which `int_forward_tight` is sound: no constant that enters the values comes after a conditional
assignment. -/
def fwdTightOk (ops : List (Base K)) : Prop :=
  ∃ pre post, ops = pre ++ post ∧ (∀ o ∈ pre, ¬ Base.isCond o) ∧ ∀ o ∈ post, ¬ Base.constant o

theorem reads_post (V : Nat → K) (pos : Nat) {ops : List (Base K)} (h : ∀ o ∈ ops, ¬ Base.constant o) : Reads V pos ops := by
  induction ops generalizing pos with
  | nil => trivial
  | cons o os ih => exact ⟨.inr (h o (by simp)), ih _ fun o ho => h o (List.mem_cons_of_mem _ ho)⟩

theorem withVals_self {o : Base K} (ho : ¬ Base.isCond o) {w : Nat → K}
    (hw : ∀ i, i < (Base.vals o).length → w i = (Base.vals o)[i]?.getD 0) : Base.withVals o w = o := by
  cases o
  case takeStock r vs =>
    simp only [Base.withVals, Base.vals] at hw ⊢
    congr 1
    apply List.ext_getElem
    · simp
    · intro i h1 h2
      simp only [List.getElem_map, List.getElem_range]
      rw [hw i h2]; simp [h2]
  case condAssign => exact (ho trivial).elim
  case condEqAssign => exact (ho trivial).elim
  case condAssignS => exact (ho trivial).elim
  case condEqAssignS => exact (ho trivial).elim
  case genQuad => simp only [Base.withVals]; rw [hw 0 (by simp [Base.vals]), hw 1 (by simp [Base.vals])]; rfl
  all_goals first
    | rfl
    | (simp only [Base.withVals]; rw [hw 0 (by simp [Base.vals])]; rfl)

theorem reads_pre (V : Nat → K) (pos : Nat) {pre post : List (Base K)} (h : ∀ o ∈ pre, ¬ Base.isCond o)
    (hV : ∀ i, i < (pre.flatMap Base.vals).length → V (pos + i) = (pre.flatMap Base.vals)[i]?.getD 0)
    (hp : ∀ pos, Reads V pos post) : Reads V pos (pre ++ post) := by
  induction pre generalizing pos with
  | nil => exact hp pos
  | cons o os ih =>
    have hno := h o (by simp)
    have hr : Base.reads o = (Base.vals o).length := by
      cases o <;> first | rfl | exact (hno trivial).elim
    simp only [List.flatMap_cons, List.length_append] at hV
    refine ⟨.inl (withVals_self hno fun i hi => ?_), ih _ (fun o ho => h o (List.mem_cons_of_mem _ ho)) fun i hi => ?_⟩
    · rw [hV i (by omega), List.getElem?_append_left hi]
    · rw [hr, Nat.add_assoc, hV _ (by omega), List.getElem?_append_right (by omega)]
      congr 2; omega

theorem reads_stream {ops : List (Base K)} (h : fwdTightOk ops) (G : Nat → K) : Reads (stream ops G) 0 ops := by
  obtain ⟨pre, post, rfl, h1, h2⟩ := h
  refine reads_pre _ 0 h1 (fun i hi => ?_) fun pos => reads_post _ pos h2
  simp only [stream, Nat.zero_add, List.flatMap_append]
  rw [List.getElem?_append_left hi, List.getElem?_eq_getElem hi]
  rfl

end Verif.Sparse
