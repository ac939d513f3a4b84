import Verif.Ext.Run
import Verif.AD.RealInst
/-!
Property C35: calls of external functions.  Reading guide: `Stm` are the statements of a program
(operations, calls of records of the first version with or without integer array, calls of
records of the second version), each call naming the variables it is called with; `record` is
what `call_ext_fct` leaves on the tape and in the records; `Op.step` is what a sweep executes for
an operation on the tape, `Stm.step` the same call on its own variables.  `e1`, `e2` are the
callbacks registered by the user, arbitrary functions.
-/
set_option linter.all false
namespace Verif.Props.Ext
open Verif.AD Verif.Ext

section general
variable {K : Type}

/-- The locations put on the tape for a call are read back by forward and by reverse sweeps,
whatever precedes or follows them; for version 2 they contain all groups of variables. -/
theorem C35_location_tape (c : Call) (rest : List Nat) :
    decF1 (enc1 c ++ rest) = some ((c.i, (locsOf c.xs).length, (locsOf c.ys).length), rest) ∧
    decR1 ((enc1 c).reverse ++ rest) = some ((c.i, (locsOf c.xs).length, (locsOf c.ys).length), rest) ∧
    decFI (encI c ++ rest) = some ((c.iArr, c.i, (locsOf c.xs).length, (locsOf c.ys).length), rest) ∧
    decRI ((encI c).reverse ++ rest) = some ((c.iArr, c.i, (locsOf c.xs).length, (locsOf c.ys).length), rest) ∧
    decF2 (enc2 c ++ rest) = some (c, rest) ∧
    decR2 ((enc2 c).reverse ++ rest) = some (c, rest) :=
  ⟨decF1_enc c rest, decR1_enc c rest, decFI_enc c rest, decRI_enc c rest, decF2_enc c rest, decR2_enc c rest⟩

variable [Scalar K]

/-- C35 (partial).  If all calls of a record of the first version are made with the same
variables, then zos_forward, fos_forward and fos_reverse over the trace do exactly what the
program does with every call on its own variables.  Calls of the second version need no
condition.  Missing: several calls of one record with different variables, which is replayed
on the wrong ones (`C35_two_calls`). -/
theorem C35_replay_partial (e1 e2 : Nat → Edf K) (p : List (Stm K)) (t : Tbl) (hs : ∀ s ∈ p, Single s)
    (h : ∀ s ∈ p, ∀ s' ∈ p, ∀ c c', s.first? = some c → s'.first? = some c' → c.i = c'.i →
      (first c.xs, first c.ys) = (first c'.xs, first c'.ys)) :
    (∀ c z, zosRunX c ((record p t).1.map (Op.step e1 e2 (record p t).2)) z = zosRunX c (p.map (Stm.step e1 e2)) z) ∧
    (∀ c v f, fosRunX c v ((record p t).1.map (Op.step e1 e2 (record p t).2)) f = fosRunX c v (p.map (Stm.step e1 e2)) f) ∧
    (∀ u r, revRunX u ((record p t).1.map (Op.step e1 e2 (record p t).2)) r = revRunX u (p.map (Stm.step e1 e2)) r) := by
  rw [record_steps e1 e2 p t _ hs (record_agree p t h)]
  exact ⟨fun _ _ => rfl, fun _ _ _ => rfl, fun _ _ => rfl⟩

/-- C35 for programs that use records of the second version only: no condition. -/
theorem C35_replay_v2 (e1 e2 : Nat → Edf K) (p : List (Stm K)) (t : Tbl) (hv : ∀ s ∈ p, s.first? = none) :
    (∀ c z, zosRunX c ((record p t).1.map (Op.step e1 e2 (record p t).2)) z = zosRunX c (p.map (Stm.step e1 e2)) z) ∧
    (∀ c v f, fosRunX c v ((record p t).1.map (Op.step e1 e2 (record p t).2)) f = fosRunX c v (p.map (Stm.step e1 e2)) f) ∧
    (∀ u r, revRunX u ((record p t).1.map (Op.step e1 e2 (record p t).2)) r = revRunX u (p.map (Stm.step e1 e2)) r) :=
  C35_replay_partial e1 e2 p t (fun s h c hc => absurd hc (by simp [hv s h]))
    (fun s h s' _ c _ hc _ => absurd hc (by simp [hv s h]))

/-- Adjoints through external functions.  For a mixed trace whose callbacks meet their contract
(`fos_reverse` transposes `fos_forward`), after fos_forward with keep and direction `v`,
fos_reverse with weights `u` returns `x̄` with `x̄·v = u·ẏ`; the values computed by fos_forward are
those of zos_forward. -/
theorem C35_adjoint {N : Nat} (hN : 0 < N) {c : Cfg K} (hk : c.keep = true) (u v : Nat → K) (ops : List (Step K))
    (hwf : WfX N Set.univ ops) (hreg : RegX c v ops FS.init) {sf : FS K}
    (h : fosRunX c v (ops ++ [.base (.deathNot 0 (N - 1))]) FS.init = .ok sf) :
    (∃ z, zosRunX c (ops ++ [.base (.deathNot 0 (N - 1))]) ZS.init = .ok z ∧ z.y = sf.y ∧ z.stk = sf.stk) ∧
    ∃ r, revRunX u (ops ++ [.base (.deathNot 0 (N - 1))]) (RS.init sf.ii sf.dy.length sf.stk) = .ok r ∧
      r.stk = [] ∧ dot sf.ii r.bar v = wsum u sf.dy := by
  refine ⟨?_, full_reverseX hN hk u v h hwf hreg⟩
  have hg : ∀ (Z : Set Nat) (ops : List (Step K)), WfX N Z ops → ∀ o ∈ ops, o.good := by
    intro Z ops
    induction ops generalizing Z with
    | nil => simp
    | cons o os ih =>
      intro hw o' ho'
      rcases List.mem_cons.1 ho' with rfl | hm
      · cases o' with
        | base o => trivial
        | call e X Y b => exact hw.1
      · cases o with
        | base o => exact ih _ hw.2.2.2.2 o' hm
        | call e X Y b => exact ih _ hw.2.2 o' hm
  have := fos_zos_runX c v (ops ++ [.base (.deathNot 0 (N - 1))]) (by
    intro o ho
    rcases List.mem_append.1 ho with ho | ho
    · exact hg _ _ hwf o ho
    · obtain rfl := List.mem_singleton.1 ho; trivial) (s := FS.init) (z := ZS.init) ⟨rfl, rfl, rfl, rfl, le_refl _⟩
  rw [h] at this
  cases hz : zosRunX c (ops ++ [.base (.deathNot 0 (N - 1))]) ZS.init with
  | error e => rw [hz] at this; exact this.elim
  | ok z =>
    rw [hz] at this
    have hs : SameZ sf z := this
    exact ⟨z, rfl, hs.y.symm, hs.stk.symm⟩

end general

/-! ## Examples and the defect -/

section real
open Elem

/-- `y_j = 2 x_0` for every output. -/
noncomputable def dbl : Edf ℝ where
  fn x y := (3, x, List.replicate y.length (2 * x.headD 0))
  fos x dx y dy := (3, (x, dx), (List.replicate y.length (2 * x.headD 0), List.replicate y.length (2 * dx.headD 0)))
  rev u z x y := match z with | [] => [] | a :: z => (a + 2 * u.sum) :: z
  xChanges := true
  yPrior := true

theorem ldot_replicate (u : List ℝ) (c : ℝ) : ldot u (List.replicate u.length c) = u.sum * c := by
  unfold ldot
  induction u with
  | nil => simp
  | cons a u ih =>
    rw [List.length_cons, List.replicate_succ, List.zipWith_cons_cons, List.sum_cons, ih, List.sum_cons]; ring

theorem dbl_good : dbl.Good where
  val _ _ _ _ := ⟨rfl, rfl, rfl⟩
  lenx _ _ := rfl
  leny x y := by simp [dbl]
  lendx x dx y dy h := h
  lendy x dx y dy h := by simp [dbl]
  lenz u z x y := by cases z <;> simp [dbl]
  xsame h := by simp [dbl] at h
  ypri := rfl
  dual x dx y dy u z h1 h2 h3 h4 := by
    simp only [dbl]
    rw [← h3, ldot_replicate]
    cases z with
    | nil =>
      have : dx = [] := List.length_eq_zero_iff.1 (by rw [h1, ← h4]; rfl)
      simp [ldot, this]
    | cons a z =>
      cases dx with
      | nil => rw [← h4] at h1; simp at h1
      | cons b dx => simp [ldot]; ring

/-- Two calls of one record with the same variables, and a call of a second record of version 2
with two groups of outputs. -/
noncomputable def prog : List (Stm ℝ) :=
  [.base (.assignInd 0), .v1 ⟨0, [], [(0, 1)], [(1, 2)]⟩, .v1 ⟨0, [], [(0, 1)], [(1, 2)]⟩,
   .v2 ⟨0, [7], [(1, 2)], [(3, 1), (4, 2)]⟩, .base (.assignDep 4)]

example : (∀ s ∈ prog, Single s) ∧
    ∀ s ∈ prog, ∀ s' ∈ prog, ∀ c c', s.first? = some c → s'.first? = some c' → c.i = c'.i →
      (first c.xs, first c.ys) = (first c'.xs, first c'.ys) := by
  constructor
  · intro s hs c hc
    simp only [prog, List.mem_cons, List.not_mem_nil, or_false] at hs
    rcases hs with rfl | rfl | rfl | rfl | rfl <;> simp [Stm.first?] at hc <;> subst hc <;> exact ⟨_, _, _, _, rfl, rfl⟩
  · intro s hs s' hs' c c' hc hc' _
    simp only [prog, List.mem_cons, List.not_mem_nil, or_false] at hs hs'
    rcases hs with rfl | rfl | rfl | rfl | rfl <;> simp [Stm.first?] at hc <;> subst hc <;>
      rcases hs' with rfl | rfl | rfl | rfl | rfl <;> simp [Stm.first?] at hc' <;> subst hc' <;> rfl

/-- The hypotheses of `C35_adjoint` hold for that program. -/
example (c : Cfg ℝ) (v : Nat → ℝ) : WfX 6 Set.univ (prog.map (Stm.step (fun _ => dbl) fun _ => dbl)) ∧
    RegX c v (prog.map (Stm.step (fun _ => dbl) fun _ => dbl)) FS.init ∧
    ∃ sf, fosRunX c v (prog.map (Stm.step (fun _ => dbl) fun _ => dbl) ++ [.base (.deathNot 0 (6 - 1))]) FS.init = .ok sf := by
  have l1 : locsOf [(0, 1)] = [0] := by decide
  have l2 : locsOf [(1, 2)] = [1, 2] := by decide
  have l3 : locsOf [(3, 1), (4, 2)] = [3, 4, 5] := by decide
  refine ⟨?_, ?_, ?_⟩
  · simp only [prog, List.map_cons, List.map_nil, Stm.step, WfX, l1, l2, l3]
    refine ⟨by simp [Base.bounded], by simp [Base.okT], by simp, by
        intro l hl
        simp [Base.zeroAdj] at hl, dbl_good,
      ⟨by decide, by decide⟩, dbl_good, ⟨by decide, by decide⟩, dbl_good, ⟨by decide, by decide⟩,
      by simp [Base.bounded], by simp [Base.okT], by simp [Base.zeroTan], by simp [liveAdjX], trivial⟩
  · simp only [prog, List.map_cons, List.map_nil, Stm.step, RegX]
    refine ⟨trivial, fun s' _ => ⟨trivial, fun _ _ => trivial⟩⟩
  · simp only [prog, List.map_cons, List.map_nil, Stm.step, List.cons_append, List.nil_append, fosRunX, fosStepX, fosStep]
    exact ⟨_, rfl⟩

/-- The defect: one record called for `x0 ↦ x2` and then for `x1 ↦ x3`.  The program computes
(2, 20) at (1, 10); zos_forward over its trace returns (0, 20), because both calls are replayed on
the variables of the second one. -/
theorem C35_two_calls :
    let p : List (Stm ℝ) := [.base (.assignInd 0), .base (.assignInd 1), .v1 ⟨0, [], [(0, 1)], [(2, 1)]⟩,
      .v1 ⟨0, [], [(1, 1)], [(3, 1)]⟩, .base (.assignDep 2), .base (.assignDep 3)]
    let c : Cfg ℝ := ⟨fun i => if i = 0 then 1 else 10, fun _ => 0, false⟩
    let t : Tbl := fun _ => (0, 0)
    ((zosRunX c (p.map (Stm.step (fun _ => dbl) fun _ => dbl)) ZS.init).toOption.map ZS.y) = some [2, 20] ∧
    ((zosRunX c ((record p t).1.map (Op.step (fun _ => dbl) (fun _ => dbl) (record p t).2)) ZS.init).toOption.map ZS.y)
      = some [0, 20] := by
  have l0 : ∀ n, locsOf [(n, 1)] = [n] := fun n => by simp [locsOf]
  have s0 : ∀ n, span n 1 = [n] := fun n => by simp [span]
  constructor
  · simp [Stm.step, l0, zosRunX, zosStepX, zosStep, callZos, dbl, rd, wr, ZS.init, ZS.push, ZS.set, upd_apply,
      Except.toOption, List.replicate]
    norm_num
  · simp [record, setFirst, first, Op.step, l0, s0, zosRunX, zosStepX, zosStep, callZos, dbl, rd, wr, ZS.init, ZS.push,
      ZS.set, upd_apply, Except.toOption, List.replicate]
    norm_num

end real
end Verif.Props.Ext
