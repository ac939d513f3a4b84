import Verif.Rev.Exec
/-!
# The checkpointing driver: checkpointing.cpp

The time step is a parameter: `F` is the user's `double` function, and the traced version is described by what recording,
replaying and reversing its trace do.  States `X` stand for the `dim` values together with whatever `saveNonAdoubles`
saves.  Adjoints `U` are one row of weights (`fos_reverse`) or `q` rows (`fov_reverse`: the two functions are
identical but for the calls of the sweeps).
-/
set_option linter.all false
namespace Verif.Rev

/-- A time step and its trace.  `replay t x`: (return code < 0, new state) of a zero-order forward sweep with the trace
`t`; `rev t x u`: the reverse sweep with the trace `t` and the values kept at `x`. -/
structure Step (X U T : Type) where
  F : X → X
  record : X → T
  replay : T → X → Bool × X
  rev : T → X → U → U

/-- `CP::detail::Infos` (include/adolc/checkpointing.h), the fields the driver uses. -/
structure Infos (X : Type) where
  args : Args
  currentCP : Int
  cpStack : List X
  steps : Int
  checkpoints : Int
  retaping : Bool

/-- The trace `cpTapeId`, and the state at which its values were last kept. -/
structure CpTape (X T : Type) where
  trace : Option T
  kept : Option X

/-- What a call of the driver works on: the record, `dp_internal_for`, the trace of the step. -/
structure Work (X T : Type) where
  d : Infos X
  s : X
  t : CpTape X T

variable {X U T : Type}

/-- `Infos::takeSnapshot` (checkpointing.cpp:508-519) and `currentCP = capo`. -/
def Work.takeSnapshot (w : Work X T) : Work X T :=
  { w with d := { w.d with cpStack := w.s :: w.d.cpStack, currentCP := w.d.args.capo } }

/-- The loop over `function_double`: checkpointing.cpp:133-135, 395-397. -/
def Work.forward (M : Step X U T) (w : Work X T) : Work X T :=
  { w with s := M.F^[(w.d.args.capo - w.d.currentCP).toNat] w.s }

/-- `Infos::tapeStep(keep)`: checkpointing.cpp:77-90. -/
def Work.tapeStep (M : Step X U T) (keep : Bool) (w : Work X T) : Work X T :=
  { w with s := M.F w.s, t := ⟨some (M.record w.s), if keep then some w.s else none⟩ }

/-- `Infos::release`: checkpointing.cpp:539-548 (nothing happens on an empty stack). -/
def Infos.release (d : Infos X) : Infos X := { d with cpStack := d.cpStack.tail }

/-- `case revolve_restore`: checkpointing.cpp:417-422, `Infos::restore` 521-537. -/
def Work.restore (w : Work X T) : Option (Work X T) :=
  let d := if w.d.args.capo ≠ w.d.currentCP then w.d.release else w.d
  match d.cpStack with
  | [] => none
  | x :: _ => some { w with d := { d with currentCP := w.d.args.capo }, s := x }

/-- `::fos_reverse(cpTapeId, …, adjoint, adjoint)`: needs a trace and kept values. -/
def Work.reverse (M : Step X U T) (w : Work X T) (u : U) : Option U :=
  match w.t.trace, w.t.kept with
  | some t, some x => some (M.rev t x u)
  | _, _ => none

/-- `case revolve_youturn`: checkpointing.cpp:399-415. -/
def Work.youturn (M : Step X U T) (w : Work X T) (u : U) : Option (Work X T × U) :=
  let again : Work X T := w.tapeStep M true
  let w' : Option (Work X T) :=
    if w.d.retaping then some again
    else match w.t.trace with
      | none => none
      | some t => if (M.replay t w.s).1 then some again
        else some { w with s := (M.replay t w.s).2, t := { w.t with kept := some w.s } }
  w'.bind fun w => (w.reverse M u).map fun u => (w, u)

/-- The `switch` of `revolveForward`: checkpointing.cpp:126-151. -/
def actF (M : Step X U T) (keep : Bool) (a : Act) (w : Work X T) : Option (Work X T) :=
  match a with
  | .takeshot => some w.takeSnapshot
  | .advance => some (w.forward M)
  | .firsturn => some (w.tapeStep M keep)
  | _ => none

/-- The loop of `Infos::revolveForward`: checkpointing.cpp:122-153.  `none`: an error, or not finished within the fuel. -/
def loopF (M : Step X U T) (keep : Bool) : Nat → Nums → Work X T → Option (Nums × Work X T)
  | 0, _, _ => none
  | n + 1, g, w => (revolve g w.d.args w.d.checkpoints).bind fun r =>
    (actF M keep r.1 { w with d := { w.d with args := r.2.2 } }).bind fun w =>
      if r.1 = .takeshot ∨ r.1 = .advance then loopF M keep n r.2.1 w else some (r.2.1, w)

/-- `CP::zos_forward` and `Infos::revolveForward`: checkpointing.cpp:115-153, 219-238; also the forward run of
`Context::checkpointing` with `keepTaylors` (checkpointing.cpp:668-670).  The result is the state at the end. -/
def cpForward (M : Step X U T) (keep : Bool) (fuel : Nat) (g : Nums) (d : Infos X) (t : CpTape X T) (x : X) :
    Option (Nums × Work X T) :=
  loopF M keep fuel g { d := { d with args := { check := -1, capo := 0, fine := d.steps, info := 0 } }, s := x, t := t }

/-- The `switch` of `CP::fos_reverse`: checkpointing.cpp:386-434, without `terminate`. -/
def actR (M : Step X U T) (a : Act) (w : Work X T) (u : U) : Option (Work X T × U) :=
  match a with
  | .takeshot => some (w.takeSnapshot, u)
  | .advance => some (w.forward M, u)
  | .youturn => w.youturn M u
  | .restore => w.restore.map fun w => (w, u)
  | _ => none

/-- The loop of `CP::fos_reverse`: checkpointing.cpp:383-435. -/
def loopR (M : Step X U T) : Nat → Nums → Work X T → U → Option (Nums × Work X T × U)
  | 0, _, _, _ => none
  | n + 1, g, w, u => (revolve g w.d.args w.d.checkpoints).bind fun r =>
    let w := { w with d := { w.d with args := r.2.2 } }
    if r.1 = .terminate then some (r.2.1, w, u)
    else (actR M r.1 w u).bind fun (w, u) => loopR M n r.2.1 w u

/-- `CP::fos_reverse`: checkpointing.cpp:359-444.  `s` is the state of the caller at entry. -/
def cpReverse (M : Step X U T) (fuel : Nat) (g : Nums) (d : Infos X) (t : CpTape X T) (s : X) (u : U) :
    Option (Nums × Infos X × CpTape X T × U) :=
  let w : Work X T := { d := d, s := s, t := t }
  (w.reverse M u).bind fun u => (loopR M fuel g w u).map fun (g, w, u) => (g, w.d.release, w.t, u)

/-! ## Specification -/

/-- State `i` of the loop. -/
def stateAt (M : Step X U T) (x : X) (i : Nat) : X := M.F^[i] x

/-- The adjoint of steps `p … p + l - 1` started at state `x`, the last step first. -/
def adjoints (adj : X → U → U) (F : X → X) : Nat → X → U → U
  | 0, _, u => u
  | l + 1, x, u => adj x (adjoints adj F l (F x) u)

/-- The trace of the step does what the sweeps promise: reversing a fresh trace gives the adjoint of the step at the
recorded state; replaying with a return code ≥ 0 gives the step at the new state, and the reverse sweep the adjoint there. -/
structure Step.Sound (M : Step X U T) (adj : X → U → U) : Prop where
  fresh : ∀ x u, M.rev (M.record x) x u = adj x u
  same : ∀ y x, (M.replay (M.record y) x).1 = false → (M.replay (M.record y) x).2 = M.F x
  again : ∀ y x u, (M.replay (M.record y) x).1 = false → M.rev (M.record y) x u = adj x u

theorem adjoints_add {adj : X → U → U} {F : X → X} (a l : Nat) (x : X) (u : U) :
    adjoints adj F (a + l) x u = adjoints adj F a x (adjoints adj F l (F^[a] x) u) := by
  induction a generalizing x with
  | zero => simp [adjoints]
  | succ a ih => rw [show a + 1 + l = a + l + 1 by omega]; simp only [adjoints, ih, Function.iterate_succ_apply]

/-! ## Runs along a list of actions -/

def runF (M : Step X U T) (keep : Bool) : List (Act × Args) → Work X T → Option (Work X T)
  | [], w => some w
  | e :: es, w => (actF M keep e.1 { w with d := { w.d with args := e.2 } }).bind (runF M keep es)

def runR (M : Step X U T) : List (Act × Args) → Work X T → U → Option (Work X T × U)
  | [], w, u => some (w, u)
  | e :: es, w, u => (actR M e.1 { w with d := { w.d with args := e.2 } } u).bind fun r => runR M es r.1 r.2

theorem runF_append (M : Step X U T) (keep : Bool) (es es' : List (Act × Args)) (w : Work X T) :
    runF M keep (es ++ es') w = (runF M keep es w).bind (runF M keep es') := by
  induction es generalizing w with
  | nil => rfl
  | cons e es ih =>
    simp only [List.cons_append, runF]
    cases actF M keep e.1 { w with d := { w.d with args := e.2 } } with
    | none => rfl
    | some w => exact ih w

theorem runR_append (M : Step X U T) (es es' : List (Act × Args)) (w : Work X T) (u : U) :
    runR M (es ++ es') w u = (runR M es w u).bind fun r => runR M es' r.1 r.2 := by
  induction es generalizing w u with
  | nil => rfl
  | cons e es ih =>
    simp only [List.cons_append, runR]
    cases actR M e.1 { w with d := { w.d with args := e.2 } } u with
    | none => rfl
    | some w => exact ih w.1 w.2

/-- Recorded at some state. -/
def Traced (M : Step X U T) (w : Work X T) : Prop := ∃ y, w.t.trace = some (M.record y)

theorem youturn_eq {M : Step X U T} {adj : X → U → U} (hM : M.Sound adj) (d : Infos X) (s y : X) (k : Option X) (u : U) :
    ∃ s' y' k', (⟨d, s, ⟨some (M.record y), k⟩⟩ : Work X T).youturn M u = some (⟨d, s', ⟨some (M.record y'), k'⟩⟩, adj s u) := by
  simp only [Work.youturn]
  have hre : ∀ t, Work.reverse M (Work.tapeStep M true (⟨d, s, t⟩ : Work X T)) u = some (adj s u) := by
    intro t; simp [Work.reverse, Work.tapeStep, hM.fresh]
  cases hr : d.retaping with
  | true =>
    simp only [if_true, Option.bind_some, hre, Option.map_some]
    exact ⟨_, s, _, rfl⟩
  | false =>
    simp only [Bool.false_eq_true, if_false]
    cases hp : (M.replay (M.record y) s).1 with
    | true =>
      simp only [if_true, Option.bind_some, hre, Option.map_some]
      exact ⟨_, s, _, rfl⟩
    | false =>
      simp only [Bool.false_eq_true, if_false, Option.bind_some, Work.reverse, hM.again y s u hp, Option.map_some]
      exact ⟨_, y, _, rfl⟩

theorem stateAt_add (M : Step X U T) (x0 : X) (p a : Nat) : M.F^[a] (stateAt M x0 p) = stateAt M x0 (p + a) := by
  simp only [stateAt, ← Function.iterate_add_apply, Nat.add_comm a p]

theorem forward_eq (M : Step X U T) (x0 : X) (k f info : Int) (p a : Nat) (st : List X) (S c : Int) (r : Bool) (t : CpTape X T) :
    Work.forward M ⟨⟨⟨k, (p + a : Nat), f, info⟩, p, st, S, c, r⟩, stateAt M x0 p, t⟩
      = ⟨⟨⟨k, (p + a : Nat), f, info⟩, p, st, S, c, r⟩, stateAt M x0 (p + a), t⟩ := by
  simp only [Work.forward]
  rw [show ((((p + a : Nat)) : Int) - (p : Int)).toNat = a by omega, stateAt_add]

theorem plan_runR {M : Step X U T} {adj : X → U → U} (hM : M.Sound adj) {c : Nat} {info : Int} {k p l : Nat} {b : Bool} {n : Nat}
    {evs : List (Act × Args)} (h : Plan c info k p l b n evs) :
    ∀ (x0 : X) (rest : List X) (u : U) (x : Args) (S c' : Int) (r : Bool) (y : X) (kk : Option X), b = false → 1 ≤ l →
      ∃ x' s' y' kk', runR M evs ⟨⟨x, p, stateAt M x0 p :: rest, S, c', r⟩, stateAt M x0 p, ⟨some (M.record y), kk⟩⟩ u
        = some (⟨⟨x', p, stateAt M x0 p :: rest, S, c', r⟩, s', ⟨some (M.record y'), kk'⟩⟩, adjoints adj M.F l (stateAt M x0 p) u) := by
  induction h with
  | one k p b =>
    intro x0 rest u x S c' r y kk hb hl
    subst hb
    obtain ⟨s', y', k', e⟩ := youturn_eq hM ⟨⟨k - 1, p, p, info⟩, p, stateAt M x0 p :: rest, S, c', r⟩ (stateAt M x0 p) y kk u
    refine ⟨⟨k - 1, p, p, info⟩, s', y', k', ?_⟩
    simp only [runR, turnAct, Bool.false_eq_true, if_false, actR, e, Option.bind_some]
    rfl
  | next k p a b wl left ha hleft ih =>
    intro x0 rest u x S c' r y kk hb hl
    subst hb
    obtain ⟨s1, y1, k1, e⟩ := youturn_eq hM ⟨⟨k, (p + a : Nat), (p + a : Nat), info⟩, p, stateAt M x0 p :: rest, S, c', r⟩ (stateAt M x0 (p + a)) y kk u
    obtain ⟨x', s', y', k', i⟩ := ih x0 rest (adj (stateAt M x0 (p + a)) u) ⟨k, p, (p + a : Nat), info⟩ S c' r y1 k1 rfl ha
    refine ⟨x', s', y', k', ?_⟩
    rw [adjoints_add, stateAt_add]
    simp only [adjoints]
    rw [← i]
    simp only [runR, actR, forward_eq, Option.bind_some, turnAct, Bool.false_eq_true, if_false, e, Work.restore, ne_eq, not_true_eq_false,
      Option.map_some]
  | split k p a l b wr right wl left ha hl hkc hright hleft ihr ihl =>
    intro x0 rest u x S c' r y kk hb _
    subst hb
    obtain ⟨x1, s1, y1, k1, i⟩ := ihr x0 (stateAt M x0 p :: rest) u ⟨(k + 1 : Nat), (p + a : Nat), (p + a + l : Nat), info⟩ S c' r y kk rfl (by omega)
    obtain ⟨x2, s2, y2, k2, j⟩ := ihl x0 rest (adjoints adj M.F l (stateAt M x0 (p + a)) u) ⟨k, p, (p + a : Nat), info⟩ S c' r y1 k1 rfl ha
    refine ⟨x2, s2, y2, k2, ?_⟩
    rw [adjoints_add, stateAt_add, ← j]
    simp only [runR, actR, forward_eq, Work.takeSnapshot, Option.bind_some, runR_append, i, Work.restore]
    rw [if_pos (by intro h; simp only [Nat.cast_inj] at h; omega)]
    simp only [Infos.release, List.tail_cons, Option.map_some, Option.bind_some]

/-- The part of a plan with the first turn: its actions before and after the turn. -/
theorem plan_split {M : Step X U T} {adj : X → U → U} (hM : M.Sound adj) {c : Nat} {info : Int} {k p l : Nat} {b : Bool} {n : Nat}
    {evs : List (Act × Args)} (h : Plan c info k p l b n evs) :
    ∀ (x0 : X) (rest : List X) (x : Args) (S c' : Int) (r : Bool) (t : CpTape X T), b = true → 1 ≤ l →
      ∃ fw xa bw x1 cp st, evs = fw ++ (.firsturn, xa) :: bw ∧ (∀ e ∈ fw, e.1 = .takeshot ∨ e.1 = .advance) ∧
        (∀ keep, runF M keep fw ⟨⟨x, p, stateAt M x0 p :: rest, S, c', r⟩, stateAt M x0 p, t⟩
          = some ⟨⟨x1, cp, st, S, c', r⟩, stateAt M x0 (p + l - 1), t⟩) ∧
        ∀ (x2 : Args) (s : X) (y : X) (kk : Option X) (u : U),
          ∃ x' s' y' kk', runR M bw ⟨⟨x2, cp, st, S, c', r⟩, s, ⟨some (M.record y), kk⟩⟩ (adj (stateAt M x0 (p + l - 1)) u)
            = some (⟨⟨x', p, stateAt M x0 p :: rest, S, c', r⟩, s', ⟨some (M.record y'), kk'⟩⟩, adjoints adj M.F l (stateAt M x0 p) u) := by
  induction h with
  | one k p b =>
    intro x0 rest x S c' r t hb hl
    subst hb
    exact ⟨[], _, [], x, p, stateAt M x0 p :: rest, rfl, by simp, fun _ => rfl, fun x2 s y kk u => ⟨x2, s, y, kk, rfl⟩⟩
  | next k p a b wl left ha hleft ih =>
    intro x0 rest x S c' r t hb hl
    subst hb
    refine ⟨[(.advance, ⟨k, (p + a : Nat), (p + a + 1 : Nat), info⟩)], _, _, ⟨k, (p + a : Nat), (p + a + 1 : Nat), info⟩, p, stateAt M x0 p :: rest,
      rfl, by simp, fun keep => ?_, fun x2 s y kk u => ?_⟩
    · simp only [runF, actF, forward_eq, Option.bind_some]; rfl
    · obtain ⟨x', s', y', k', i⟩ := plan_runR hM hleft x0 rest (adj (stateAt M x0 (p + a)) u) ⟨k, p, (p + a : Nat), info⟩ S c' r y kk rfl ha
      refine ⟨x', s', y', k', ?_⟩
      rw [adjoints_add, stateAt_add]
      simp only [adjoints]
      rw [← i]
      simp only [runR, actR, Work.restore, ne_eq, not_true_eq_false, if_false, Option.map_some, Option.bind_some]
      rfl
  | split k p a l b wr right wl left ha hl hkc hright hleft ihr ihl =>
    intro x0 rest x S c' r t hb _
    subst hb
    obtain ⟨fw, xa, bw, x1, cp, st, h1, h2, h3, h4⟩ := ihr x0 (stateAt M x0 p :: rest) ⟨(k + 1 : Nat), (p + a : Nat), (p + a + l : Nat), info⟩ S c' r t rfl (by omega)
    refine ⟨(.advance, ⟨k, (p + a : Nat), (p + a + l : Nat), info⟩) :: (.takeshot, ⟨(k + 1 : Nat), (p + a : Nat), (p + a + l : Nat), info⟩) :: fw, xa,
      bw ++ (.restore, ⟨k, p, (p + a : Nat), info⟩) :: left, x1, cp, st, by rw [h1]; simp, ?_, fun keep => ?_, fun x2 s y kk u => ?_⟩
    · intro e he
      simp only [List.mem_cons] at he
      rcases he with rfl | rfl | he
      · exact .inr rfl
      · exact .inl rfl
      · exact h2 e he
    · rw [← Nat.add_assoc, ← h3 keep]
      simp only [runF, actF, forward_eq, Work.takeSnapshot, Option.bind_some]
    · obtain ⟨x3, s3, y3, k3, i⟩ := h4 x2 s y kk u
      obtain ⟨x4, s4, y4, k4, j⟩ := plan_runR hM hleft x0 rest (adjoints adj M.F l (stateAt M x0 (p + a)) u) ⟨k, p, (p + a : Nat), info⟩ S c' r y3 k3 rfl ha
      refine ⟨x4, s4, y4, k4, ?_⟩
      rw [adjoints_add, stateAt_add, ← j, ← Nat.add_assoc, runR_append, i]
      simp only [runR, actR, Option.bind_some, Work.restore]
      rw [if_pos (by intro h; simp only [Nat.cast_inj] at h; omega)]
      simp only [Infos.release, List.tail_cons, Option.map_some, Option.bind_some]

/-! ## The loops follow the scheduler -/

theorem actF_args {M : Step X U T} {keep : Bool} {a : Act} {w w' : Work X T} (h : actF M keep a w = some w') :
    w'.d.args = w.d.args ∧ w'.d.checkpoints = w.d.checkpoints := by
  cases a <;> simp only [actF, Option.some.injEq, reduceCtorEq] at h <;> subst h <;> exact ⟨rfl, rfl⟩

theorem actR_args {M : Step X U T} {a : Act} {w w' : Work X T} {u u' : U} (h : actR M a w u = some (w', u')) :
    w'.d.args = w.d.args ∧ w'.d.checkpoints = w.d.checkpoints := by
  cases a <;> simp only [actR, Option.some.injEq, Prod.mk.injEq, reduceCtorEq] at h
  · rw [← h.1]; exact ⟨rfl, rfl⟩
  · rw [← h.1]; exact ⟨rfl, rfl⟩
  · simp only [Option.map_eq_some_iff, Prod.mk.injEq] at h
    obtain ⟨w1, h1, rfl, rfl⟩ := h
    simp only [Work.restore] at h1
    split at h1
    · cases h1
    · simp only [Option.some.injEq] at h1
      subst h1
      simp only
      split <;> exact ⟨rfl, rfl⟩
  · simp only [Work.youturn, Option.bind_eq_some_iff, Option.map_eq_some_iff, Prod.mk.injEq] at h
    obtain ⟨w1, h1, u1, h2, rfl, rfl⟩ := h
    split at h1
    · simp only [Option.some.injEq] at h1; subst h1; exact ⟨rfl, rfl⟩
    · split at h1
      · cases h1
      · split at h1 <;> (simp only [Option.some.injEq] at h1; subst h1; exact ⟨rfl, rfl⟩)

theorem loopF_calls {M : Step X U T} {keep : Bool} {c : Int} {g g' : Nums} {x x' : Args} {evs : List (Act × Args)} (h : Calls c g x evs g' x') :
    ∀ (w w' : Work X T) (n : Nat), w.d.args = x → w.d.checkpoints = c → (∀ e ∈ evs, e.1 = .takeshot ∨ e.1 = .advance) →
      runF M keep evs w = some w' → loopF M keep (evs.length + n) g w = loopF M keep n g' w' ∧ w'.d.args = x' ∧ w'.d.checkpoints = c := by
  induction h with
  | nil g x =>
    intro w w' n hx hc _ hr
    simp only [runF, Option.some.injEq] at hr; subst hr
    simp [hx, hc]
  | @cons g x a g1 x1 evs g2 x2 hrev _ ih =>
    intro w w' n hx hc he hr
    obtain ⟨⟨x0, cp0, st0, S0, c0, r0⟩, s0, t0⟩ := w
    simp only at hx hc; subst hx hc
    simp only [runF, Option.bind_eq_some_iff] at hr
    obtain ⟨w1, h1, h2⟩ := hr
    obtain ⟨a1, a2⟩ := actF_args h1
    obtain ⟨i1, i2, i3⟩ := ih w1 w' n a1 a2 (fun e h => he e (by simp [h])) h2
    refine ⟨?_, i2, i3⟩
    rw [List.length_cons, show evs.length + 1 + n = evs.length + n + 1 by omega]
    have := he (a, x1) (by simp)
    simp only at this
    simp only [loopF, hrev, Option.bind_some, h1]
    rw [if_pos this, i1]

theorem loopR_calls {M : Step X U T} {c : Int} {g g' : Nums} {x x' : Args} {evs : List (Act × Args)} (h : Calls c g x evs g' x') :
    ∀ (w w' : Work X T) (u u' : U) (n : Nat), w.d.args = x → w.d.checkpoints = c →
      runR M evs w u = some (w', u') → loopR M (evs.length + n) g w u = loopR M n g' w' u' ∧ w'.d.args = x' ∧ w'.d.checkpoints = c := by
  induction h with
  | nil g x =>
    intro w w' u u' n hx hc hr
    simp only [runR, Option.some.injEq, Prod.mk.injEq] at hr; obtain ⟨rfl, rfl⟩ := hr
    simp [hx, hc]
  | @cons g x a g1 x1 evs g2 x2 hrev _ ih =>
    intro w w' u u' n hx hc hr
    obtain ⟨⟨x0, cp0, st0, S0, c0, r0⟩, s0, t0⟩ := w
    simp only at hx hc; subst hx hc
    simp only [runR, Option.bind_eq_some_iff] at hr
    obtain ⟨⟨w1, u1⟩, h1, h2⟩ := hr
    obtain ⟨a1, a2⟩ := actR_args h1
    obtain ⟨i1, i2, i3⟩ := ih w1 w' u1 u' n a1 a2 h2
    refine ⟨?_, i2, i3⟩
    rw [List.length_cons, show evs.length + 1 + n = evs.length + n + 1 by omega]
    simp only [loopR, hrev, Option.bind_some]
    rw [if_neg (by rintro rfl; simp [actR] at h1), h1]
    simp only [Option.bind_some, i1]

theorem Calls.split {snaps : Int} {es es' : List (Act × Args)} : ∀ {g x g'' x''}, Calls snaps g x (es ++ es') g'' x'' →
    ∃ g' x', Calls snaps g x es g' x' ∧ Calls snaps g' x' es' g'' x'' := by
  induction es with
  | nil => intro g x g'' x'' h; exact ⟨g, x, .nil _ _, h⟩
  | cons e es ih =>
    intro g x g'' x'' h
    cases h with
    | cons h1 h2 =>
      obtain ⟨g', x', a, b⟩ := ih h2
      exact ⟨g', x', .cons h1 a, b⟩

/-- Forward and reverse of a checkpointed loop, for any number of steps and snapshots within the limits, any earlier use of
the record (`d`), of the trace of the step and of the scheduler. -/
theorem cp_correct {M : Step X U T} {adj : X → U → U} (hM : M.Sound adj) {S c : Nat} (hl : Limits S c) (g : Nums) (d : Infos X)
    (hS : d.steps = S) (hc : d.checkpoints = c) (t : CpTape X T) (x : X) :
    ∃ N g' d' y, (∀ keep, ∃ k, cpForward M keep N g d t x = some (g', ⟨d', M.F^[S] x, ⟨some (M.record y), k⟩⟩) ∧ (keep = true → k = some y)) ∧
      ∀ (s : X) (u : U), ∃ N' g'' d'' t'', cpReverse M N' g' d' ⟨some (M.record y), some y⟩ s u = some (g'', d'', t'', adjoints adj M.F S x u) ∧
        d''.steps = d.steps ∧ d''.checkpoints = d.checkpoints ∧ d''.retaping = d.retaping ∧
        d''.cpStack = if S = 1 then d.cpStack.tail else d.cpStack := by
  obtain ⟨args0, cp0, st0, S0, c0, r0⟩ := d
  simp only at hS hc
  subst hS hc
  obtain ⟨evs, g1, hcalls, htop, hterm⟩ := calls_top hl g 0
  generalize cost c S = nn at htop
  cases htop with
  | one =>
    cases hcalls with
    | cons h1 h2 =>
    cases h2
    refine ⟨1, g1, ⟨⟨-1, 0, 0, 0⟩, cp0, st0, 1, c, r0⟩, x, fun keep => ?_, fun s u => ⟨1, g1, ⟨⟨-2, 0, 0, 0⟩, cp0, st0.tail, 1, c, r0⟩, ⟨some (M.record x), some x⟩, ?_, rfl, rfl, rfl, rfl⟩⟩
    · simp only [Nat.cast_one] at h1 ⊢
      simp only [cpForward, loopF, h1, Option.bind_some, actF, Work.tapeStep, reduceCtorEq, or_self, if_false, Function.iterate_one]
      exact ⟨_, rfl, by rintro rfl; rfl⟩
    · simp only [cpReverse, Work.reverse, Option.bind_some, hM.fresh, loopR, hterm, if_true, Option.map_some, Infos.release, adjoints]
  | many S w evs hS hc hp =>
    cases hcalls with
    | @cons _ _ _ g2 _ _ _ _ h1 h2 =>
    obtain ⟨fw, xa, bw, x1, cp, st, rfl, f2, f3, f4⟩ := plan_split (M := M) hM hp x st0 ⟨0, 0, S, 0⟩ S c r0 t rfl (by omega)
    obtain ⟨g3, x3, c1, c2⟩ := h2.split
    cases c2 with
    | @cons _ _ _ g4 _ _ _ _ h4 h5 =>
    have hst : stateAt M x 0 = x := rfl
    rw [hst] at f3 f4
    have hF : ∀ keep, loopF M keep (fw.length + 1 + 1) g { d := { args := { check := -1, capo := 0, fine := S, info := 0 }, currentCP := cp0, cpStack := st0, steps := S, checkpoints := c, retaping := r0 }, s := x, t := t }
        = some (g4, ⟨⟨xa, cp, st, S, c, r0⟩, M.F^[S] x, ⟨some (M.record (stateAt M x (S - 1))), if keep then some (stateAt M x (S - 1)) else none⟩⟩) := by
      intro keep
      have i := loopF_calls (M := M) (keep := keep) c1 ⟨⟨⟨0, 0, S, 0⟩, (0 : Nat), x :: st0, S, c, r0⟩, x, t⟩ _ 1 rfl rfl f2 (f3 keep)
      obtain ⟨i1, i2, i3⟩ := i
      simp only at i2 i3
      subst i2
      rw [loopF]
      simp only [h1, Option.bind_some, actF, Work.takeSnapshot, true_or, if_true]
      rw [show ((0 : Int)) = ((0 : Nat) : Int) from rfl] at i1 ⊢
      rw [i1, loopF]
      simp only [h4, Option.bind_some, actF, Work.tapeStep, reduceCtorEq, or_self, if_false, Nat.zero_add]
      rw [show M.F (stateAt M x (S - 1)) = M.F^[S] x by
        obtain ⟨q, rfl⟩ : ∃ q, S = q + 1 := ⟨S - 1, by omega⟩
        simp [stateAt, Function.iterate_succ_apply']]
    refine ⟨fw.length + 1 + 1, g4, ⟨xa, cp, st, S, c, r0⟩, stateAt M x (S - 1), fun keep => ⟨_, hF keep, by rintro rfl; rfl⟩, fun s u => ?_⟩
    obtain ⟨x', s', y', k', j⟩ := f4 xa s (stateAt M x (S - 1)) (some (stateAt M x (S - 1))) u
    obtain ⟨j1, j2, j3⟩ := loopR_calls (M := M) h5 _ _ _ _ 1 rfl rfl j
    simp only at j2 j3
    subst j2
    refine ⟨bw.length + 1, g1, ⟨⟨-2, 0, 0, 0⟩, (0 : Nat), st0, S, c, r0⟩, ⟨some (M.record y'), k'⟩, ?_, rfl, rfl, rfl, by rw [if_neg (by omega)]⟩
    simp only [Nat.zero_add] at j1
    simp only [cpReverse, Work.reverse, Option.bind_some, hM.fresh]
    rw [j1]
    simp only [loopR, Option.bind_some, hterm, if_true, Option.map_some, Infos.release, List.tail_cons]

/-! ## Tangents of a checkpointed loop -/

/-- A time step and the forward sweep with tangents `V` on its trace: (return code, new state, new tangents). -/
structure TanStep (X V T : Type) where
  F : X → X
  record : X → T
  sweep : T → X → V → Int × X × V

/-- One pass of the loop of `CP::fos_forward`: checkpointing.cpp:257-274 (`fov_forward`: 307-331), `first` for step 0.
Taping a step works on a copy of the state (checkpointing.cpp:62-67). -/
def tanStep {V : Type} (M : TanStep X V T) (retaping first : Bool) (t : T) (x : X) (v : V) (rc : Int) : T × X × V × Int :=
  let t := if first || retaping then M.record x else t
  let r := M.sweep t x v
  let (t, r) := if r.1 < 0 ∧ retaping = false then (M.record x, M.sweep (M.record x) x v) else (t, r)
  (t, r.2.1, r.2.2, min rc r.1)

/-- The loop, `n` passes. -/
def tanLoop {V : Type} (M : TanStep X V T) (retaping : Bool) : Nat → Bool → T → X → V → Int → X × V × Int
  | 0, _, _, x, v, rc => (x, v, rc)
  | n + 1, first, t, x, v, rc => let r := tanStep M retaping first t x v rc; tanLoop M retaping n false r.1 r.2.1 r.2.2.1 r.2.2.2

/-- `CP::fos_forward`, `CP::fov_forward`: checkpointing.cpp:240-340; `t` is the trace `cpTapeId` at entry. -/
def cpTangent {V : Type} (M : TanStep X V T) (retaping : Bool) (S : Nat) (t : T) (x : X) (v : V) : X × V × Int :=
  tanLoop M retaping S true t x v 3

/-- The tangents after `n` steps. -/
def tangents {V : Type} (tan : X → V → V) (F : X → X) : Nat → X → V → V
  | 0, _, v => v
  | n + 1, x, v => tangents tan F n (F x) (tan x v)

/-- The sweep on a fresh trace gives step and tangent, with a return code ≥ 0; on an older trace it does so if the return
code is ≥ 0. -/
structure TanStep.Sound {V : Type} (M : TanStep X V T) (tan : X → V → V) : Prop where
  fresh : ∀ x v, 0 ≤ (M.sweep (M.record x) x v).1
  sound : ∀ y x v, 0 ≤ (M.sweep (M.record y) x v).1 → (M.sweep (M.record y) x v).2 = (M.F x, tan x v)

theorem tanLoop_eq {V : Type} {M : TanStep X V T} {tan : X → V → V} (hM : M.Sound tan) (r : Bool) (n : Nat) :
    ∀ (first : Bool) (t : T) (x : X) (v : V) (rc : Int), (first = true ∨ ∃ y, t = M.record y) → 0 ≤ rc →
      ∃ rc', tanLoop M r n first t x v rc = (M.F^[n] x, tangents tan M.F n x v, rc') ∧ 0 ≤ rc' := by
  induction n with
  | zero => intro first t x v rc _ h; exact ⟨rc, rfl, h⟩
  | succ n ih =>
    intro first t x v rc ht h
    obtain ⟨y, hy⟩ : ∃ y, (if (first || r) = true then M.record x else t) = M.record y := by
      split
      · exact ⟨x, rfl⟩
      · rename_i hf
        simp only [Bool.or_eq_true, not_or, Bool.not_eq_true] at hf
        rcases ht with ht | ⟨y, ht⟩
        · simp [ht] at hf
        · exact ⟨y, ht⟩
    have key : ∃ y', tanStep M r first t x v rc = (M.record y', M.F x, tan x v, (tanStep M r first t x v rc).2.2.2) ∧ 0 ≤ (tanStep M r first t x v rc).2.2.2 := by
      simp only [tanStep, hy]
      split
      · have := hM.fresh x v
        refine ⟨x, ?_, le_min h this⟩
        rw [hM.sound x x v this]
      · rename_i hc
        have h0 : 0 ≤ (M.sweep (M.record y) x v).1 := by
          by_contra hn
          cases r with
          | false => exact hc ⟨by omega, rfl⟩
          | true =>
            simp only [Bool.or_true, if_true] at hy
            rw [← hy] at hn
            exact hn (hM.fresh x v)
        refine ⟨y, ?_, le_min h h0⟩
        rw [hM.sound y x v h0]
    obtain ⟨y', k1, k2⟩ := key
    obtain ⟨rc', e, hrc⟩ := ih false (M.record y') (M.F x) (tan x v) (tanStep M r first t x v rc).2.2.2 (.inr ⟨y', rfl⟩) k2
    refine ⟨rc', ?_, hrc⟩
    simp only [tanLoop]
    rw [k1]
    simp only
    rw [e]
    simp [tangents]

theorem cp_tangent {V : Type} {M : TanStep X V T} {tan : X → V → V} (hM : M.Sound tan) (r : Bool) (S : Nat) (t : T) (x : X) (v : V) :
    ∃ rc, cpTangent M r S t x v = (M.F^[S] x, tangents tan M.F S x v, rc) ∧ 0 ≤ rc :=
  tanLoop_eq hM r S true t x v 3 (.inl rfl) (by omega)

end Verif.Rev
