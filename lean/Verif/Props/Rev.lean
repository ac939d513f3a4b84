import Verif.Rev.Driver
/-!
Property theorems about checkpointing: C22, C23 (the scheduler), C24 (the driver), C36 (two loops).
-/
set_option linter.all false
namespace Verif.Props.Rev
open Verif.Rev

/-- The steps reversed by a list of actions, in order: after a turn, `fine` is the number of the reversed step. -/
def reversed : List (Act × Args) → List Int
  | [] => []
  | (.firsturn, x) :: es => x.fine :: reversed es
  | (.youturn, x) :: es => x.fine :: reversed es
  | _ :: es => reversed es

/-- Steps `b - 1, …, a`. -/
def down (a : Nat) : Nat → List Int
  | 0 => []
  | n + 1 => ((a + n : Nat) : Int) :: down a n

theorem exec_reversed {c S : Nat} {es : List (Act × Args)} : ∀ {m m' : Mach} {w : Nat}, exec c S es m = some (w, m') →
    m'.fine ≤ m.fine ∧ reversed es = down m'.fine (m.fine - m'.fine) := by
  induction es with
  | nil => intro m m' w h; simp only [exec, Option.some.injEq, Prod.mk.injEq] at h; obtain ⟨_, rfl⟩ := h; simp [reversed, down]
  | cons e es ih =>
    intro m m' w h
    obtain ⟨a, x⟩ := e
    simp only [exec] at h
    cases h1 : exec1 c S m (a, x) with
    | none => rw [h1] at h; cases h
    | some r =>
      obtain ⟨w1, m1⟩ := r
      rw [h1] at h
      simp only at h
      cases h2 : exec c S es m1 with
      | none => rw [h2] at h; cases h
      | some r =>
        obtain ⟨w2, m2⟩ := r
        rw [h2] at h
        simp only [Option.some.injEq, Prod.mk.injEq] at h
        obtain ⟨_, rfl⟩ := h
        obtain ⟨i1, i2⟩ := ih h2
        have key : ∀ (hf : m1.fine = m.fine) (hr : reversed ((a, x) :: es) = reversed es),
            m2.fine ≤ m.fine ∧ reversed ((a, x) :: es) = down m2.fine (m.fine - m2.fine) := by
          intro hf hr; rw [hr, ← hf]; exact ⟨i1, i2⟩
        have keyt : ∀ (hf : 1 ≤ m.fine) (hm : m1.fine = m.fine - 1) (hx : x.fine = (m.fine - 1 : Nat)) (hr : reversed ((a, x) :: es) = x.fine :: reversed es),
            m2.fine ≤ m.fine ∧ reversed ((a, x) :: es) = down m2.fine (m.fine - m2.fine) := by
          intro hf hm hx hr
          refine ⟨by omega, ?_⟩
          rw [hr, i2, hx, show m.fine - m2.fine = (m1.fine - m2.fine) + 1 by omega, down, show m2.fine + (m1.fine - m2.fine) = m.fine - 1 by omega]
        cases a <;> simp only [exec1] at h1
        · split at h1
          · cases h1
          · split at h1
            · simp only [Option.some.injEq, Prod.mk.injEq] at h1; obtain ⟨_, rfl⟩ := h1; exact key rfl rfl
            · cases h1
        · split at h1
          · simp only [Option.some.injEq, Prod.mk.injEq] at h1; obtain ⟨_, rfl⟩ := h1; exact key rfl rfl
          · cases h1
        · split at h1
          · simp only [Option.some.injEq, Prod.mk.injEq] at h1; obtain ⟨_, rfl⟩ := h1; exact key rfl rfl
          · cases h1
        · split at h1
          · rename_i hc
            simp only [Option.some.injEq, Prod.mk.injEq] at h1; obtain ⟨_, rfl⟩ := h1; exact keyt hc.2.1 rfl hc.2.2.2 rfl
          · cases h1
        · split at h1
          · rename_i hc
            simp only [Option.some.injEq, Prod.mk.injEq] at h1; obtain ⟨_, rfl⟩ := h1; exact keyt hc.2.1 rfl hc.2.2.2 rfl
          · cases h1
        · split at h1
          · simp only [Option.some.injEq, Prod.mk.injEq] at h1; obtain ⟨_, rfl⟩ := h1; exact key rfl rfl
          · cases h1
        · cases h1

/-- C22.  Within the limits of the library, and whatever the scheduler was used for before (`g`): called again and again with
the arguments as it left them, it answers with actions `evs` and then `terminate`; the actions can be carried out one after
the other (`exec`: each restores only what is stored in a slot below `c`, each reverses the step whose state is
the current one), and they reverse the steps `S-1, …, 0`, each once. -/
theorem C22_schedule {S c : Nat} (h : Limits S c) (g : Nums) (info : Int) :
    ∃ evs g' x', Calls c g ⟨-1, 0, S, info⟩ (evs ++ [(.terminate, x')]) g' x' ∧
      (∃ w m', exec c S evs ⟨some 0, fun _ => none, S⟩ = some (w, m') ∧ m'.fine = 0) ∧ reversed evs = down 0 S := by
  obtain ⟨evs, g', h1, h2, h3⟩ := calls_top h g info
  obtain ⟨m', e1, e2⟩ := top_exec h2
  refine ⟨evs, g', ⟨-2, 0, 0, info⟩, h1.append (.one h3), ⟨_, m', e1, e2⟩, ?_⟩
  have := (exec_reversed e1).2
  rw [e2] at this
  simpa using this

/-- 5 steps with 2 snapshots, and the limits for 100 snapshots and 2 million steps. -/
example : Limits 5 2 := ⟨by norm_num, by norm_num, by norm_num, by rw [show Nat.choose (2 + 1000) 2 = 501501 by decide +kernel]; norm_num, by norm_num⟩
example : Limits 1900000 100 := ⟨by norm_num, by norm_num, by norm_num, by decide +kernel, by norm_num⟩
example : reversed [(.takeshot, ⟨0, 0, 2, 0⟩), (.advance, ⟨0, 1, 2, 0⟩), (.firsturn, ⟨0, 1, 1, 0⟩), (.restore, ⟨0, 0, 1, 0⟩), (.youturn, ⟨-1, 0, 0, 0⟩)] = [1, 0] := by
  decide
example : down 0 4 = [3, 2, 1, 0] := by decide

/-- C23.  The actions take exactly as many forward steps as `numforw` predicts, and no schedule that uses `c` slots in
whatever way and reverses all steps takes fewer. -/
theorem C23_cost {S c : Nat} (h : Limits S c) (g : Nums) (info : Int) :
    ∃ evs g' x' w m', Calls c g ⟨-1, 0, S, info⟩ (evs ++ [(.terminate, x')]) g' x' ∧
      exec c S evs ⟨some 0, fun _ => none, S⟩ = some (w, m') ∧ m'.fine = 0 ∧ numforw S c = some (w : Int) ∧
      ∀ w₂ m₂, Sched c ⟨some 0, fun _ => none, S⟩ w₂ m₂ → m₂.fine = 0 → w ≤ w₂ := by
  obtain ⟨evs, g', h1, h2, h3⟩ := calls_top h g info
  obtain ⟨m', e1, e2⟩ := top_exec h2
  exact ⟨evs, g', ⟨-2, 0, 0, info⟩, _, m', h1.append (.one h3), e1, e2, numforw_eq h, fun w₂ m₂ hs hf => sched_lower c S w₂ m₂ h.steps hs hf⟩

/-- The actions of the scheduler are themselves one of the schedules that `C23_cost` compares with. -/
theorem C23_is_schedule {c S : Nat} {es : List (Act × Args)} {m m' : Mach} {w : Nat} (h : exec c S es m = some (w, m')) : Sched c m w m' :=
  exec_sched h

example : numforw 10 3 = some 15 := by decide

variable {X U T : Type}

/-- C24.  For any step whose trace behaves as the sweeps promise, any number of steps and snapshots within the limits, with
or without forced retaping, and any earlier use of the scheduler (`g`), of the checkpointing record (`d`) and of the
trace of the step (`t`): the forward run returns the `S`-fold iterate, and the reverse run after a forward run with
`keep`, called with any weights `u`, returns the adjoint of the steps in opposite order, each at its own state, and gives
back all snapshots it used (for one step the code also drops one snapshot of an earlier run, if any is left). -/
theorem C24_checkpointing {M : Step X U T} {adj : X → U → U} (hM : M.Sound adj) {S c : Nat} (hl : Limits S c) (g : Nums) (d : Infos X)
    (hS : d.steps = S) (hc : d.checkpoints = c) (t : CpTape X T) (x : X) :
    (∃ N g' w, cpForward M true N g d t x = some (g', w) ∧ w.s = M.F^[S] x ∧
      ∀ (s : X) (u : U), ∃ N' g'' d'' t'', cpReverse M N' g' w.d w.t s u = some (g'', d'', t'', adjoints adj M.F S x u) ∧
        d''.steps = d.steps ∧ d''.checkpoints = d.checkpoints ∧ d''.retaping = d.retaping ∧
        d''.cpStack = if S = 1 then d.cpStack.tail else d.cpStack) ∧
    ∃ N g' w, cpForward M false N g d t x = some (g', w) ∧ w.s = M.F^[S] x := by
  obtain ⟨N, g', d', y, h1, h2⟩ := cp_correct hM hl g d hS hc t x
  obtain ⟨k, hk, hk2⟩ := h1 true
  obtain ⟨k', hk', _⟩ := h1 false
  refine ⟨⟨N, g', _, hk, rfl, fun s u => ?_⟩, N, g', _, hk', rfl⟩
  rw [hk2 rfl]
  exact h2 s u

/-- C24, forward mode: the tangents of the loop are the tangents of the steps one after the other (one direction or several). -/
theorem C24_tangents {V : Type} {M : TanStep X V T} {tan : X → V → V} (hM : M.Sound tan) (r : Bool) (S : Nat) (t : T) (x : X) (v : V) :
    ∃ rc, cpTangent M r S t x v = (M.F^[S] x, tangents tan M.F S x v, rc) ∧ 0 ≤ rc := cp_tangent hM r S t x v

/-- A step with a branch: |x| + 1 on integers, the trace is the branch taken. -/
def absStep : Step Int Int Bool where
  F := fun x => if x ≥ 0 then x + 1 else -x + 1
  record := fun x => decide (x ≥ 0)
  replay := fun t x => (!(t == decide (x ≥ 0)), if t then x + 1 else -x + 1)
  rev := fun t _ u => if t then u else -u

example : absStep.Sound (fun x u => if x ≥ 0 then u else -u) where
  fresh x u := by simp [absStep]
  same y x h := by
    simp only [absStep, Bool.not_eq_false', beq_iff_eq] at h ⊢
    simp [h]
  again y x u h := by
    simp only [absStep, Bool.not_eq_false', beq_iff_eq] at h ⊢
    simp [h]

/-- A step with derivative `x`, on one branch, and the same step with tangents. -/
def incStep : Step Int Int Unit where
  F := fun x => x + 1
  record := fun _ => ()
  replay := fun _ x => (false, x + 1)
  rev := fun _ x u => x * u

theorem incStep_sound : incStep.Sound (fun x u => x * u) := ⟨fun _ _ => rfl, fun _ _ _ => rfl, fun _ _ _ _ => rfl⟩

def incTan : TanStep Int Int Unit where
  F := fun x => x + 1
  record := fun _ => ()
  sweep := fun _ x v => (3, x + 1, x * v)

example : incTan.Sound (fun x v => x * v) := ⟨fun _ _ => by simp [incTan], fun _ _ _ _ => rfl⟩
example : tangents (fun x v => x * v) (fun x : Int => x + 1) 4 2 1 = 120 := by decide
example : adjoints (fun x u => x * u) (fun x : Int => x + 1) 4 2 1 = 120 := by decide

def nums0 : Nums := ⟨0, 0, 0, 0, fun _ => 0, 0, 0⟩
def infos0 (S c : Int) : Infos Int := ⟨⟨0, 0, 0, 0⟩, 0, [], S, c, false⟩

/-- Loop A forward, loop B forward, loop B backward, loop A backward: the adjoints of A and B. -/
def twoLoops (SA cA SB cB : Int) (x u : Int) : Option (Int × Int) :=
  (cpForward incStep true 100 nums0 (infos0 SA cA) ⟨none, none⟩ x).bind fun (g, a) =>
  (cpForward incStep true 100 g (infos0 SB cB) ⟨none, none⟩ x).bind fun (g, b) =>
  (cpReverse incStep 100 g b.d b.t x u).bind fun (g, _, _, ub) =>
  (cpReverse incStep 100 g a.d a.t x u).map fun (_, _, _, ua) => (ua, ub)

/-- C36 (full statement: every interleaving of any loops gives each its own adjoint; false).  Loops are independent if each is
reversed before the next one runs forward: the adjoint of the second loop does not depend on what the first
did.  Missing: any other order, see `C36_two_loops`. -/
theorem C36_sequential_partial {M : Step X U T} {adj : X → U → U} (hM : M.Sound adj) {S c S₂ c₂ : Nat} (hl : Limits S c) (hl₂ : Limits S₂ c₂)
    (g : Nums) (d d₂ : Infos X) (hS : d.steps = S) (hc : d.checkpoints = c) (hS₂ : d₂.steps = S₂) (hc₂ : d₂.checkpoints = c₂)
    (t t₂ : CpTape X T) (x x₂ : X) (u u₂ : U) :
    ∃ n₁ n₂ n₃ n₄ g₁ w₁ g₂ d' t' g₃ w₃ g₄ d'' t'',
      cpForward M true n₁ g d t x = some (g₁, w₁) ∧ cpReverse M n₂ g₁ w₁.d w₁.t x u = some (g₂, d', t', adjoints adj M.F S x u) ∧
      cpForward M true n₃ g₂ d₂ t₂ x₂ = some (g₃, w₃) ∧ cpReverse M n₄ g₃ w₃.d w₃.t x₂ u₂ = some (g₄, d'', t'', adjoints adj M.F S₂ x₂ u₂) := by
  obtain ⟨n₁, g₁, w₁, a1, _, a2⟩ := (C24_checkpointing hM hl g d hS hc t x).1
  obtain ⟨n₂, g₂, d', t', b1, _⟩ := a2 x u
  obtain ⟨n₃, g₃, w₃, c1, _, c2⟩ := (C24_checkpointing hM hl₂ g₂ d₂ hS₂ hc₂ t₂ x₂).1
  obtain ⟨n₄, g₄, d'', t'', e1, _⟩ := c2 x₂ u₂
  exact ⟨n₁, n₂, n₃, n₄, g₁, w₁, g₂, d', t', g₃, w₃, g₄, d'', t'', a1, b1, c1, e1⟩

/-- C36 fails in the code: the scheduler keeps its state in one global variable.  With a one-step loop run between the forward
and the reverse run of a three-step loop, the adjoint of the latter is 72, not 24; and with other sizes the reverse run stops with
an error. -/
theorem C36_two_loops : twoLoops 3 2 1 2 2 1 = some (72, 2) ∧ adjoints (fun x u => x * u) incStep.F 3 (2 : Int) 1 = 24 ∧ twoLoops 3 2 5 2 2 1 = none := by
  decide +kernel

end Verif.Props.Rev
