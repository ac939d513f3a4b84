import Verif.Rev.Follow
/-! What the actions of the scheduler do to the states of a loop (specification), and the complete
sequence of calls for a loop. -/
set_option linter.all false
namespace Verif.Rev

/-- The meaning of an action for the caller (revolve.cpp:31-90), on the machine of `Verif.Rev.Sched`:
current state, numbered slots, number of steps not yet reversed.  `x` are the arguments after the call.
`none`: the action cannot be carried out (slot not below `c`, nothing stored, wrong state). -/
def exec1 (c S : Nat) (m : Mach) : Act × Args → Option (Nat × Mach)
  | (.takeshot, x) =>
    if m.pos = some x.capo.toNat ∧ 0 ≤ x.check ∧ x.check < c then some (0, { m with mem := put m.mem x.check.toNat m.pos }) else none
  | (.advance, x) => match m.pos with
    | none => none
    | some p => if p < x.capo.toNat ∧ x.capo.toNat < m.fine then some (x.capo.toNat - p, { m with pos := some x.capo.toNat }) else none
  | (.restore, x) =>
    if 0 ≤ x.check ∧ x.check < c ∧ m.mem x.check.toNat = some x.capo.toNat then some (0, { m with pos := some x.capo.toNat }) else none
  | (.firsturn, x) =>
    if m.fine = S ∧ 1 ≤ m.fine ∧ m.pos = some (m.fine - 1) ∧ x.fine = (m.fine - 1 : Nat) then some (0, { m with pos := none, fine := m.fine - 1 }) else none
  | (.youturn, x) =>
    if m.fine < S ∧ 1 ≤ m.fine ∧ m.pos = some (m.fine - 1) ∧ x.fine = (m.fine - 1 : Nat) then some (0, { m with pos := none, fine := m.fine - 1 }) else none
  | (.terminate, _) => if m.fine = 0 then some (0, m) else none
  | (.error, _) => none

/-- All actions, with the total number of forward steps. -/
def exec (c S : Nat) : List (Act × Args) → Mach → Option (Nat × Mach)
  | [], m => some (0, m)
  | e :: es, m => match exec1 c S m e with
    | none => none
    | some (w, m) => match exec c S es m with
      | none => none
      | some (w', m) => some (w + w', m)

theorem exec_append {c S : Nat} {es es' : List (Act × Args)} {m m' m'' : Mach} {w w' : Nat}
    (h : exec c S es m = some (w, m')) (h' : exec c S es' m' = some (w', m'')) : exec c S (es ++ es') m = some (w + w', m'') := by
  induction es generalizing m w with
  | nil => simp only [exec, Option.some.injEq, Prod.mk.injEq] at h; obtain ⟨rfl, rfl⟩ := h; simpa using h'
  | cons e es ih =>
    simp only [exec] at h
    cases h1 : exec1 c S m e with
    | none => rw [h1] at h; cases h
    | some r =>
      obtain ⟨w1, m1⟩ := r
      rw [h1] at h
      simp only at h
      cases h2 : exec c S es m1 with
      | none => rw [h2] at h; cases h
      | some r =>
        obtain ⟨w2, m2⟩ := r
        rw [h2] at h
        simp only [Option.some.injEq, Prod.mk.injEq] at h
        obtain ⟨rfl, rfl⟩ := h
        simp only [List.cons_append, exec, h1, ih h2]
        simp; omega

/-- An executable action is a schedule. -/
theorem exec1_sched {c S : Nat} {m m' : Mach} {w : Nat} {e : Act × Args} (h : exec1 c S m e = some (w, m')) : Sched c m w m' := by
  obtain ⟨p, M, f⟩ := m
  have one : ∀ {m m' : Mach}, Move c m 0 m' → Sched c m 0 m' := fun h => by simpa using Sched.cons h (.nil _)
  obtain ⟨a, x⟩ := e
  have hadv : ∀ (d p : Nat), Sched c ⟨some p, M, f⟩ d ⟨some (p + d), M, f⟩ := by
    intro d
    induction d with
    | zero => intro p; exact .nil _
    | succ d ih =>
      intro p
      have := Sched.cons (Move.advance (c := c) p M f) (ih (p + 1))
      rwa [show p + 1 + d = p + (d + 1) by omega, Nat.add_comm 1 d] at this
  cases a <;> simp only [exec1] at h
  · cases p with
    | none => cases h
    | some p =>
      simp only at h
      split at h
      · rename_i hc
        simp only [Option.some.injEq, Prod.mk.injEq] at h; obtain ⟨rfl, rfl⟩ := h
        have := hadv (x.capo.toNat - p) p
        rwa [show p + (x.capo.toNat - p) = x.capo.toNat by omega] at this
      · cases h
  · split at h
    · rename_i hc
      simp only [Option.some.injEq, Prod.mk.injEq] at h; obtain ⟨rfl, rfl⟩ := h
      obtain ⟨rfl, h2, h3⟩ := hc
      exact one (.store _ _ _ _ (by omega))
    · cases h
  · split at h
    · rename_i hc
      simp only [Option.some.injEq, Prod.mk.injEq] at h; obtain ⟨rfl, rfl⟩ := h
      exact one (.restore _ _ _ _ _ (by omega) hc.2.2)
    · cases h
  · split at h
    · rename_i hc
      simp only [Option.some.injEq, Prod.mk.injEq] at h; obtain ⟨rfl, rfl⟩ := h
      obtain ⟨h1, h2, rfl, h4⟩ := hc
      obtain ⟨f', rfl⟩ : ∃ f', f = f' + 1 := ⟨f - 1, by omega⟩
      exact one (.turn f' M)
    · cases h
  · split at h
    · rename_i hc
      simp only [Option.some.injEq, Prod.mk.injEq] at h; obtain ⟨rfl, rfl⟩ := h
      obtain ⟨h1, h2, rfl, h4⟩ := hc
      obtain ⟨f', rfl⟩ : ∃ f', f = f' + 1 := ⟨f - 1, by omega⟩
      exact one (.turn f' M)
    · cases h
  · split at h
    · simp only [Option.some.injEq, Prod.mk.injEq] at h; obtain ⟨rfl, rfl⟩ := h
      exact .nil _
    · cases h
  · cases h

theorem exec_sched {c S : Nat} {es : List (Act × Args)} {m m' : Mach} {w : Nat} (h : exec c S es m = some (w, m')) : Sched c m w m' := by
  induction es generalizing m w with
  | nil => simp only [exec, Option.some.injEq, Prod.mk.injEq] at h; obtain ⟨rfl, rfl⟩ := h; exact .nil _
  | cons e es ih =>
    simp only [exec] at h
    cases h1 : exec1 c S m e with
    | none => rw [h1] at h; cases h
    | some r =>
      obtain ⟨w1, m1⟩ := r
      rw [h1] at h
      simp only at h
      cases h2 : exec c S es m1 with
      | none => rw [h2] at h; cases h
      | some r =>
        obtain ⟨w2, m2⟩ := r
        rw [h2] at h
        simp only [Option.some.injEq, Prod.mk.injEq] at h
        obtain ⟨rfl, rfl⟩ := h
        exact (exec1_sched h1).append (ih h2)

theorem exec_turn {c S : Nat} {m : Mach} {p : Nat} {b : Bool} {k info : Int} (hp : m.pos = some p) (hf : m.fine = p + 1)
    (hb : b = true ↔ p + 1 = S) (hS : p + 1 ≤ S) :
    exec1 c S m (turnAct b, ⟨k, p, p, info⟩) = some (0, { m with pos := none, fine := p }) := by
  cases b
  · simp only [turnAct, Bool.false_eq_true, if_false, exec1]
    rw [if_pos ⟨by simp at hb; omega, by omega, by rw [hp, hf]; simp, by rw [hf]; simp⟩, hf]
    simp
  · simp only [turnAct, if_true, exec1]
    rw [if_pos ⟨by simp at hb; omega, by omega, by rw [hp, hf]; simp, by rw [hf]; simp⟩, hf]
    simp

theorem plan_exec {c S : Nat} {info : Int} {k p l : Nat} {b : Bool} {w : Nat} {evs : List (Act × Args)} (h : Plan c info k p l b w evs) :
    ∀ m : Mach, k < c → m.pos = some p → m.mem k = some p → m.fine = p + l → 1 ≤ l → (b = true ↔ p + l = S) → p + l ≤ S →
      ∃ m', exec c S evs m = some (w, m') ∧ m'.fine = p ∧ ∀ i, i ≤ k → m'.mem i = m.mem i := by
  induction h with
  | one k p b =>
    intro m hk hp hm hf hl hb hS
    exact ⟨{ m with pos := none, fine := p }, by simp [exec, exec_turn hp hf hb hS], rfl, fun i _ => rfl⟩
  | next k p a b wl left ha hleft ih =>
    intro m hk hp hm hf hl hb hS
    obtain ⟨m', i1, i2, i3⟩ := ih { m with pos := some p, fine := p + a } hk rfl hm rfl ha (by simp; omega) (by omega)
    refine ⟨m', ?_, i2, fun i hi => by rw [i3 i hi]⟩
    have e1 : exec1 c S m (.advance, ⟨k, (p + a : Nat), (p + a + 1 : Nat), info⟩) = some (a, { m with pos := some (p + a) }) := by
      simp only [exec1, hp, Int.toNat_natCast]
      rw [if_pos ⟨by omega, by omega⟩]; simp
    have e2 := exec_turn (c := c) (S := S) (m := { m with pos := some (p + a) }) (p := p + a) (b := b) (k := k) (info := info) rfl
      (by simp only; omega) (by rw [hb]; omega) (by omega)
    have e3 : exec1 c S { m with pos := none, fine := p + a } (.restore, ⟨k, p, (p + a : Nat), info⟩) = some (0, { m with pos := some p, fine := p + a }) := by
      simp only [exec1, Int.toNat_natCast]
      rw [if_pos ⟨by omega, by omega, hm⟩]
    simp only [exec, e1, e2, e3, i1]
    simp
  | split k p a l b wr right wl left ha hl hkc hright hleft ihr ihl =>
    intro m hk hp hm hf _ hb hS
    have e1 : exec1 c S m (.advance, ⟨k, (p + a : Nat), (p + a + l : Nat), info⟩) = some (a, { m with pos := some (p + a) }) := by
      simp only [exec1, hp, Int.toNat_natCast]
      rw [if_pos ⟨by omega, by omega⟩]; simp
    have e2 : exec1 c S { m with pos := some (p + a) } (.takeshot, ⟨(k + 1 : Nat), (p + a : Nat), (p + a + l : Nat), info⟩)
        = some (0, { m with pos := some (p + a), mem := put m.mem (k + 1) (some (p + a)) }) := by
      simp only [exec1, Int.toNat_natCast]
      rw [if_pos ⟨trivial, by omega, by omega⟩]
    obtain ⟨m1, i1, i2, i3⟩ := ihr { m with pos := some (p + a), mem := put m.mem (k + 1) (some (p + a)) } hkc rfl (by simp [put])
      (by simp only; omega) (by omega) (by rw [hb]; omega) (by omega)
    have hmk : m1.mem k = some p := by
      rw [i3 k (by omega)]; simp only [put]; rw [if_neg (by omega)]; exact hm
    have e3 : exec1 c S m1 (.restore, ⟨k, p, (p + a : Nat), info⟩) = some (0, { m1 with pos := some p }) := by
      simp only [exec1, Int.toNat_natCast]
      rw [if_pos ⟨by omega, by omega, hmk⟩]
    obtain ⟨m2, j1, j2, j3⟩ := ihl { m1 with pos := some p } hk rfl hmk i2 ha (by simp; omega) (by omega)
    refine ⟨m2, ?_, j2, ?_⟩
    · have e4 : exec c S ((.restore, ⟨k, p, (p + a : Nat), info⟩) :: left) m1 = some (wl, m2) := by
        simp only [exec, e3, j1]; simp
      have e5 := exec_append i1 e4
      simp only [exec, e1, e2, e5]
      simp; omega
    · intro i hi
      rw [j3 i hi]
      show m1.mem i = _
      rw [i3 i (by omega)]; simp only [put]; rw [if_neg (by omega)]

/-- The limits of the library: `c` snapshots, `S` steps, no overflow of `int` and of `ADOLC_REPSUP`. -/
structure Limits (S c : Nat) : Prop where
  steps : 1 ≤ S
  snaps : 1 ≤ c
  snapsMax : c ≤ 1000
  repsMax : S ≤ (c + 1000).choose c
  intMax : (S - 1) * (1000 + c) ≤ 2147483647

theorem Limits.thousand {S c : Nat} (h : Limits S c) : 1000 * S ≤ 2147483647 := by
  have h1 := h.intMax
  have h2 := h.snaps
  by_cases hs : S ≤ 2000000
  · omega
  · have : (S - 1) * (1000 + 1) ≤ (S - 1) * (1000 + c) := Nat.mul_le_mul_left _ (by omega)
    omega

theorem numforw_eq {S c : Nat} (h : Limits S c) : numforw S c = some (cost c S : Int) := by
  have hs := h.snaps
  have hm := h.snapsMax
  have h1000 := h.thousand
  obtain ⟨d, rfl⟩ : ∃ d, c = d + 1 := ⟨c - 1, by omega⟩
  have hck : checkup = 1000 := rfl
  have hrs : repsup = 1000 := rfl
  obtain ⟨r, r1, r2, r3, r4⟩ := rangeLoop_spec d S 1000 h.repsMax h.intMax (S + 1) 0 (by omega) (by omega)
  simp only [Nat.cast_zero, beta_zero_right, Nat.cast_one, Nat.zero_le, Nat.max_eq_right] at r1 r2
  simp only [numforw]
  rw [if_neg (by omega), if_neg (by omega), Int.toNat_natCast]
  rw [show (((d + 1 : Nat) : Int)) = (d : Int) + 1 by push_cast; ring]
  simp only [r2, Option.bind_eq_bind, Option.bind_some]
  rw [if_neg (by omega)]
  have hrS : r * S ≤ 2147483647 := Nat.le_trans (Nat.mul_le_mul_right S r1) (by omega)
  rw [ck_nat (r * S) (by push_cast; ring) hrS]
  simp only [Option.bind_some]
  cases r with
  | zero =>
    have : S = 1 := by rw [beta_zero_right] at r3; have := h.steps; omega
    subst this
    simp [ck, cost_one, Int.zero_tdiv]
  | succ ρ =>
    have hlt := r4 ρ (by omega)
    have hp : beta (d + 1) (ρ + 1) * (ρ + 1) ≤ 2147483647 := by
      rw [beta_succ_right]
      refine Nat.le_trans (Nat.mul_le_mul (show _ ≤ S - 1 by omega) (show _ ≤ 1000 + (d + 1) by omega)) h.intMax
    rw [ck_nat (beta (d + 1) (ρ + 1) * (ρ + 1)) (by push_cast; ring) hp]
    simp only [Option.bind_some]
    rw [tdiv_nat (beta (d + 2) ρ) (d + 2) (by omega) (by rw [← beta_trade]) (by push_cast; ring)]
    have := cost_closed d S ρ hlt r3
    exact ck_nat (cost (d + 1) S) (by push_cast at this ⊢; have h' : ((cost (d + 1) S : Int)) + (beta (d + 2) ρ : Int) = ((ρ : Int) + 1) * S := by exact_mod_cast this
                                      linarith) (by omega)

/-- The actions for a whole loop. -/
inductive Top (c : Nat) (info : Int) : Nat → Nat → List (Act × Args) → Prop
  | one : Top c info 1 0 [(.firsturn, ⟨-1, 0, 0, info⟩)]
  | many (S w evs) : 2 ≤ S → 0 < c → Plan c info 0 0 S true w evs → Top c info S w ((.takeshot, ⟨0, 0, S, info⟩) :: evs)

theorem calls_top {S c : Nat} (h : Limits S c) (g : Nums) (info : Int) :
    ∃ evs g', Calls c g ⟨-1, 0, S, info⟩ evs g' ⟨-1, 0, 0, info⟩ ∧ Top c info S (cost c S) evs ∧
      revolve g' ⟨-1, 0, 0, info⟩ c = some (.terminate, g', ⟨-2, 0, 0, info⟩) := by
  have hterm : ∀ g' : Nums, revolve g' ⟨-1, 0, 0, info⟩ c = some (.terminate, g', ⟨-2, 0, 0, info⟩) := by
    intro g'; simp [revolve, revolve0]
  by_cases h1 : S = 1
  · subst h1
    refine ⟨[(.firsturn, ⟨-1, 0, 0, info⟩)], _, .one (g' := { g.setCh 0 (-1) with turn := 1, oldfine := 0 }) ?_, by rw [cost_one]; exact .one, hterm _⟩
    simp [revolve, revolve1, atTop]
  · have hS := h.steps
    have hc := h.snaps
    have hcm := h.snapsMax
    have hck : checkup = 1000 := rfl
    have hrs : repsup = 1000 := rfl
    have h1000 := h.thousand
    let g1 : Nums := { g with turn := 0, ch := fun j => if j = 0 then 0 else g.ch j, advances := 0, oldsnaps := c, oldfine := S }
    have e1 : revolve g ⟨-1, 0, S, info⟩ c = some (.takeshot, g1, ⟨0, 0, S, info⟩) := by
      have e2 : (-1 : Int) + 1 = 0 := by norm_num
      have hS0 : (0 : Int) < S := by omega
      simp only [revolve, atTop, true_and, hS0, if_true]
      rw [if_neg (by omega), if_neg (by omega), if_neg (by omega)]
      simp only [if_true, Option.bind_some, Bool.false_eq_true, if_false, takeshot, e2]
      rw [if_neg (by omega), if_neg (by omega), if_neg (by omega)]
      obtain ⟨x1, x2, x3, x4, x5, x6, x7⟩ := g
      have hf : ∀ v : Int, (fun j => if j = (0 : Int).toNat then (0 : Int) else if j = 0 then v else x5 j) = fun j => if j = 0 then 0 else x5 j := by
        intro v; funext j; simp only [Int.toNat_zero]; split <;> simp_all
      split
      · have := numforw_eq h
        simp only [show (S : Int) - 0 = S by ring, this, Option.map_some]
        rw [if_neg (by omega)]
        simp only [Nums.setCh, hf, g1]
      · simp only [Nums.setCh, hf, g1]
    have hcost : cost c S ≤ 2147483647 := by
      have := numforw_eq h
      obtain ⟨d, rfl⟩ : ∃ d, c = d + 1 := ⟨c - 1, by omega⟩
      obtain ⟨r, r1, r2, r3, r4⟩ := rangeLoop_spec d S 1000 h.repsMax h.intMax (S + 1) 0 (by omega) (by omega)
      simp only [Nat.zero_le, Nat.max_eq_right] at r1
      cases r with
      | zero => rw [beta_zero_right] at r3; omega
      | succ ρ =>
        have := cost_closed d S ρ (r4 ρ (by omega)) r3
        have : (ρ + 1) * S ≤ 1000 * S := Nat.mul_le_mul_right S r1
        omega
    obtain ⟨evs, g', a1, a2, a3, a4, a5, a6⟩ := follow c info (by omega) S 0 0 g1 1000 hS hc rfl (by simp [g1]) (by simp [g1])
      (by rw [Nat.sub_zero]; exact h.repsMax) (by omega) (by rw [Nat.sub_zero]; exact h.intMax) (by simp [g1])
      (by rw [Nat.sub_zero]; simp only [g1]; omega)
    rw [Nat.sub_zero] at a2
    refine ⟨_, g', .cons e1 (by simpa using a1), .many S _ evs (by omega) hc (by simpa [g1] using a2), hterm _⟩

theorem top_exec {c S w : Nat} {info : Int} {evs : List (Act × Args)} (h : Top c info S w evs) :
    ∃ m', exec c S evs ⟨some 0, fun _ => none, S⟩ = some (w, m') ∧ m'.fine = 0 := by
  cases h with
  | one =>
    have := exec_turn (c := c) (S := 1) (m := ⟨some 0, fun _ => none, 1⟩) (p := 0) (b := true) (k := -1) (info := info) rfl rfl (by simp) (by simp)
    simp only [turnAct, if_true, Nat.cast_zero] at this
    exact ⟨⟨none, fun _ => none, 0⟩, by simp only [exec, this], rfl⟩
  | many S w evs hS hc hp =>
    have e1 : exec1 c S ⟨some 0, fun _ => none, S⟩ (.takeshot, ⟨0, 0, S, info⟩) = some (0, ⟨some 0, put (fun _ => none) 0 (some 0), S⟩) := by
      simp only [exec1]
      rw [if_pos ⟨by simp, by simp, by simpa using hc⟩]; simp
    obtain ⟨m', i1, i2, i3⟩ := plan_exec (S := S) hp ⟨some 0, put (fun _ => none) 0 (some 0), S⟩ hc rfl (by simp [put]) (by simp) (by omega) (by simp) (by omega)
    exact ⟨m', by simp only [exec, e1, i1]; simp, i2⟩

end Verif.Rev
