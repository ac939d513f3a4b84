import Verif.Drivers.JacSolv
import Verif.Props.Drivers

/-! # C44: `jac_solv` -/
set_option linter.all false
namespace Verif.Props.JacSolv
open Verif.AD Verif.Props.AD Verif.Drivers Verif.Props.Drivers Verif.Num.LU Elem Filter Topology

/-! ### Specification -/

/-- A call of `jac_solv`: the point, the right-hand side, the mode. -/
structure JCall (n : Nat) where
  x : Fin n → ℝ
  b : Fin n → ℝ
  mode : Nat

/-- The calls one after the other: what the tape keeps at the end, and the results. -/
noncomputable def calls {n : Nat} (t : Tape ℝ) (rrc : Int) : JSState ℝ → List (JCall n) → JSState ℝ × List (Except DErr (Int × (Nat → ℝ)))
  | c, [] => (c, [])
  | c, a :: L =>
    let r := jacSolv t rrc (ext a.x) (ext a.b) a.mode c
    let q := calls t rrc r.1 L
    (q.1, r.2 :: q.2)

/-- The results of successful calls: no `-3`. -/
def Fine : Except DErr (Int × (Nat → ℝ)) → Prop
  | .ok (rc, _) => rc ≠ -3
  | .error _ => False

/-- No call of mode 0 (evaluate only) after a call of mode 1 (factorise) or 2 (solve); other modes do not occur. -/
def Ordered {n : Nat} : List (JCall n) → Prop
  | [] => True
  | a :: L => (a.mode = 0 ∨ ((a.mode = 1 ∨ a.mode = 2) ∧ ∀ q ∈ L, q.mode ≠ 0)) ∧ Ordered L

/-! ### Proofs -/

variable {n : Nat} {ε : Type}

/-- What holds between calls. -/
def Good (jac : (Fin n → ℝ) → Nat → Nat → ℝ) (c : JSState ℝ) : Prop :=
  c.nax = n → 1 ≤ c.modeold → Inv n (jac fun i => c.xold i) n c.S

theorem inv_congr {A A' : Nat → Nat → ℝ} {s : St ℝ} {k : Nat} (h : Inv n A k s) (he : ∀ i j, i < n → j < n → A i j = A' i j) : Inv n A' k s :=
  ⟨h.R, h.C, fun i j hi hj => by rw [← he _ _ (h.R.lt i hi) (h.C.lt j hj)]; exact h.fac i j hi hj, h.piv⟩

theorem newX_false {x : Nat → ℝ} {c : JSState ℝ} (h : ¬ newX n x c = true) : ∀ i < n, x i = c.xold i := by
  intro i hi
  by_contra h'
  apply h
  unfold newX
  rw [List.any_eq_true]
  exact ⟨i, List.mem_range.mpr hi, by simpa using h'⟩

theorem prepare_nax (x : Nat → ℝ) (c : JSState ℝ) : (prepare n x c).nax = n := by
  unfold prepare; dsimp only; split
  · rfl
  · next h => exact (not_not.mp h).symm

theorem prepare_xold (x : Nat → ℝ) (c : JSState ℝ) : (fun i : Fin n => (prepare n x c).xold i) = fun i : Fin n => x i := by
  funext i
  unfold prepare; dsimp only; rw [if_pos i.2]

theorem prepare_mode (x : Nat → ℝ) (c : JSState ℝ) : (prepare n x c).modeold = if n ≠ c.nax then 0 else c.modeold := by
  unfold prepare; dsimp only; split <;> rfl

theorem prepare_S (x : Nat → ℝ) (c : JSState ℝ) (h : n = c.nax) : (prepare n x c).S = c.S := by
  unfold prepare; dsimp only; rw [if_neg (not_not.mpr h)]

/-- The whole effect of a call. -/
theorem core_ok {jac : (Fin n → ℝ) → Nat → Nat → ℝ} {ev : (Nat → ℝ) → Except ε (Int × (Nat → Nat → ℝ))}
    {x b : Nat → ℝ} {rc : Int} {J : Nat → Nat → ℝ} (hev : ev x = .ok (rc, J)) (hJ : ∀ i j, i < n → j < n → J i j = jac (fun i => x i) i j)
    {mode : Nat} {c : JSState ℝ} (hrc : 0 ≤ rc) (hg : Good jac c) (hm : mode = 0 ∧ (c.modeold = 0) ∨ mode = 1 ∨ mode = 2) :
    ∃ code b', (jacSolvCore n ev x b mode c).2 = .ok (code, b') ∧
      ((code = -3 ∧ b' = b) ∨
        (0 ≤ code ∧ Good jac (jacSolvCore n ev x b mode c).1 ∧ (mode = 0 → (jacSolvCore n ev x b mode c).1.modeold = 0) ∧
          (mode ≠ 2 → b' = b) ∧ (mode = 2 → ∀ i < n, ∑ j ∈ Finset.range n, jac (fun i => x i) i j * b' j = b i))) := by
  have hfac : ¬ (factor n J).2 < 0 → Inv n (jac fun i => x i) n (factor n J).1 := fun h => inv_congr (factor_ok (by omega)) hJ
  rcases hm with ⟨rfl, hm⟩ | rfl | rfl
  · refine ⟨min 3 rc, b, by simp only [jacSolvCore, hev], Or.inr ⟨by omega, ?_, ?_, fun _ => rfl, fun h => absurd h (by decide)⟩⟩
    · simp only [jacSolvCore, hev]
      intro _ h
      simp only [prepare_mode] at h
      split at h <;> omega
    · intro _
      simp only [jacSolvCore, hev, prepare_mode, hm, ite_self]
  · by_cases hn : (factor n J).2 < 0
    · exact ⟨-3, b, by simp only [jacSolvCore, hev, if_pos hn], Or.inl ⟨rfl, rfl⟩⟩
    · refine ⟨min 3 rc, b, by simp only [jacSolvCore, hev, if_neg hn], Or.inr ⟨by omega, ?_, fun h => absurd h (by decide), fun _ => rfl, fun h => absurd h (by decide)⟩⟩
      simp only [jacSolvCore, hev, if_neg hn]
      intro _ _
      simp only [prepare_xold]
      exact hfac hn
  · by_cases hnew : (prepare n x c).modeold < 1 ∨ newX n x (if n ≠ c.nax then { prepare n x c with xold := fun _ => 0 } else c) = true
    · by_cases hn : (factor n J).2 < 0
      · exact ⟨-3, b, by simp only [jacSolvCore, hev, if_pos hnew, if_pos hn], Or.inl ⟨rfl, rfl⟩⟩
      · refine ⟨min 3 rc, solve n (factor n J).1 b, by simp only [jacSolvCore, hev, if_pos hnew, if_neg hn],
          Or.inr ⟨by omega, ?_, fun h => absurd h (by decide), fun h => absurd rfl h, fun _ i hi => solve_ok (hfac hn) b hi⟩⟩
        simp only [jacSolvCore, hev, if_pos hnew, if_neg hn]
        intro _ _
        simp only [prepare_xold]
        exact hfac hn
    · have hnax : n = c.nax := by
        by_contra hne
        refine hnew (Or.inl ?_)
        rw [prepare_mode, if_pos hne]; exact Nat.one_pos
      have hx : (fun i : Fin n => c.xold i) = fun i : Fin n => x i := by
        have := newX_false (fun h => hnew (Or.inr h))
        rw [if_neg (not_not.mpr hnax)] at this
        funext i
        exact (this i i.2).symm
      have hI : Inv n (jac fun i => x i) n c.S := by
        rw [← hx]
        refine hg hnax.symm ?_
        have := not_lt.mp (fun h => hnew (Or.inl h))
        rwa [prepare_mode, if_neg (not_not.mpr hnax)] at this
      refine ⟨3, solve n (prepare n x c).S b, by simp only [jacSolvCore, if_neg hnew], Or.inr ⟨by omega, ?_, fun h => absurd h (by decide), fun h => absurd rfl h,
        fun _ i hi => ?_⟩⟩
      · simp only [jacSolvCore, if_neg hnew]
        intro _ _
        simp only [prepare_xold, prepare_S x c hnax]
        exact hI
      · rw [prepare_S x c hnax]
        exact solve_ok hI b hi

variable {cfg : RCfg ℝ} {stock : List (Nat × List ℝ)} {s s' : Rec ℝ} {p : Prog ℝ} {N : Nat}

/-- A point at which the trace is valid and the Jacobian exists: the program takes there the branches it took while recording,
has `n` independents and `n` dependents, and its elementary functions are differentiable where they are evaluated. -/
def At (cfg : RCfg ℝ) (s : Rec ℝ) (p : Prog ℝ) (par : Nat → ℝ) (x : Fin n → ℝ) : Prop :=
  ∃ e0 : SE ℝ, p.spec (ext x) par s.se = some (e0, p.path cfg s) ∧ e0.ii = n ∧ e0.ys.length = n ∧ p.smooth .rev (ext x) par s.se

theorem evJac_ok (h : Traced cfg stock s p s' N) (hd : p.disc ⟨Set.univ, ∅⟩) (par : Nat → ℝ) (hn0 : 0 < n) {x : Fin n → ℝ} (hx : At cfg s p par x) {rrc : Int} (hr : 0 ≤ rrc) :
    ∃ rc J, evJac (tapeOf s' N par n n) rrc (ext x) = .ok (rc, J) ∧ 0 ≤ rc ∧
      ∀ j < n, ∀ i : Fin n, J j i = fderiv ℝ (F p s par n j) x (Pi.single i 1) := by
  obtain ⟨e0, hspec, hn, hm, hsm⟩ := hx
  obtain ⟨z, hz, D, hD, w, hw, _, h2⟩ := C14_fov_reverse_matrix h hd par x hspec hn hsm n hn0 (ident n)
  rw [hm] at hw h2
  refine ⟨min z.rc rrc, w.bar, ?_, le_min (rc_range hz (by simp [ZS.init]) (by simp [ZS.init])).1 hr, fun j hj i => ?_⟩
  · simp only [evJac, Tape.zos, tapeOf, hz, hw, fwd, rev, Bind.bind, Except.bind]
  · rw [h2 j hj i, show F p s par n j = fun x => p.out (ext x) par s.se j from rfl, (hD j).fderiv, Finset.sum_eq_single j]
    · simp [ident, identCell, hj, Nat.sub_add_cancel (show j ≤ n - 1 by omega)]
    · intro k hk hkj
      have hk := Finset.mem_range.1 hk
      have : ¬ n - 1 - j + k = n - 1 := by omega
      simp [ident, identCell, hj, this]
    · intro h; exact absurd (Finset.mem_range.2 hj) h

/-- The Jacobian matrix -/
noncomputable def jacM (p : Prog ℝ) (s : Rec ℝ) (par : Nat → ℝ) (x : Fin n → ℝ) (j i : Nat) : ℝ :=
  if h : i < n then fderiv ℝ (F p s par n j) x (Pi.single ⟨i, h⟩ 1) else 0

theorem ext_fin (x : Fin n → ℝ) : (fun i : Fin n => ext x i) = x := by funext i; simp [ext]

theorem call_ok (h : Traced cfg stock s p s' N) (hd : p.disc ⟨Set.univ, ∅⟩) (par : Nat → ℝ) (hn0 : 0 < n) {rrc : Int} (hr : 0 ≤ rrc) (a : JCall n) (ha : At cfg s p par a.x)
    {c : JSState ℝ} (hg : Good (n := n) (jacM p s par) c) (hm : a.mode = 0 ∧ c.modeold = 0 ∨ a.mode = 1 ∨ a.mode = 2) :
    ∃ code b', (jacSolv (tapeOf s' N par n n) rrc (ext a.x) (ext a.b) a.mode c).2 = .ok (code, b') ∧
      ((code = -3 ∧ b' = ext a.b) ∨
        (0 ≤ code ∧ Good (n := n) (jacM p s par) (jacSolv (tapeOf s' N par n n) rrc (ext a.x) (ext a.b) a.mode c).1 ∧
          (a.mode = 0 → (jacSolv (tapeOf s' N par n n) rrc (ext a.x) (ext a.b) a.mode c).1.modeold = 0) ∧
          (a.mode ≠ 2 → b' = ext a.b) ∧ (a.mode = 2 → ∀ i < n, ∑ j ∈ Finset.range n, jacM p s par a.x i j * b' j = ext a.b i))) := by
  obtain ⟨rc, J, h1, h0, h2⟩ := evJac_ok h hd par hn0 ha hr
  have := core_ok (n := n) (jac := jacM p s par) (b := ext a.b) (mode := a.mode) h1 (fun i j hi hj => by
    rw [ext_fin, h2 i hi ⟨j, hj⟩]; simp [jacM, hj]) h0 hg hm
  rw [ext_fin] at this
  exact this

theorem calls_good (h : Traced cfg stock s p s' N) (hd : p.disc ⟨Set.univ, ∅⟩) (par : Nat → ℝ) (hn0 : 0 < n) {rrc : Int} (hr : 0 ≤ rrc) :
    ∀ (L : List (JCall n)) (c : JSState ℝ), Good (n := n) (jacM p s par) c → (∀ a ∈ L, At cfg s p par a.x) → Ordered L → (c.modeold = 0 ∨ ∀ a ∈ L, a.mode ≠ 0) →
      (∀ r ∈ (calls (tapeOf s' N par n n) rrc c L).2, Fine r) →
      Good (n := n) (jacM p s par) (calls (tapeOf s' N par n n) rrc c L).1 := by
  intro L
  induction L with
  | nil => intro c hg _ _ _ _; exact hg
  | cons a L ih =>
    intro c hg hat hord hmo hfine
    obtain ⟨code, b', h1, h2⟩ := call_ok h hd par hn0 hr a (hat a (List.mem_cons_self ..)) hg (by
      rcases hord.1 with h0 | h0
      · left
        refine ⟨h0, ?_⟩
        rcases hmo with h | h
        · exact h
        · exact absurd h0 (h a (List.mem_cons_self ..))
      · exact Or.inr h0.1)
    have hf := hfine _ (List.mem_cons_self ..)
    rw [h1] at hf
    rcases h2 with h2 | h2
    · exact absurd h2.1 hf
    · refine ih _ h2.2.1 (fun q hq => hat q (List.mem_cons_of_mem _ hq)) hord.2 ?_ fun r hr => hfine r (List.mem_cons_of_mem _ hr)
      rcases hord.1 with h0 | h0
      · exact Or.inl (h2.2.2.1 h0)
      · exact Or.inr h0.2

/-- After any sequence of successful calls of `jac_solv` on a trace in which no mode-0 call follows a factorisation, a call of
mode 2 at any point at which the trace is valid either returns `-3` and leaves `b` alone, or it returns the solution of the
linear system: with `b'` for the new `b`, `F'(x) b' = b`. -/
theorem C44_jac_solv_partial (h : Traced cfg stock s p s' N) (hd : p.disc ⟨Set.univ, ∅⟩) (par : Nat → ℝ) (hn0 : 0 < n) {rrc : Int} (hr : 0 ≤ rrc)
    (L : List (JCall n)) (hL : ∀ a ∈ L, At cfg s p par a.x) (hord : Ordered L)
    (hfine : ∀ r ∈ (calls (tapeOf s' N par n n) rrc JSState.init L).2, Fine r)
    (x b : Fin n → ℝ) (hx : At cfg s p par x) :
    ∃ code b', (jacSolv (tapeOf s' N par n n) rrc (ext x) (ext b) 2 (calls (tapeOf s' N par n n) rrc JSState.init L).1).2 = .ok (code, b') ∧
      ((code = -3 ∧ b' = ext b) ∨ (0 ≤ code ∧ ∀ i : Fin n, fderiv ℝ (fun y k => F p s par n (k : Fin n) y) x (fun j => b' j) i = b i)) := by
  have hg := calls_good h hd par hn0 hr L JSState.init (by intro _ h; exact absurd h (by decide)) hL hord (Or.inl rfl) hfine
  obtain ⟨code, b', h1, h2⟩ := call_ok h hd par hn0 hr ⟨x, b, 2⟩ hx hg (Or.inr (Or.inr rfl))
  refine ⟨code, b', h1, ?_⟩
  rcases h2 with h2 | h2
  · exact Or.inl h2
  · refine Or.inr ⟨h2.1, ?_⟩
    intro i
    have h3 := h2.2.2.2.2 rfl i i.2
    simp only [ext, i.2, dif_pos, Fin.eta] at h3
    rw [← h3]
    obtain ⟨e0, hspec, hn, hm, hsm⟩ := hx
    obtain ⟨z, hz, D, hD, _⟩ := C13_fos_reverse_partial h hd par x hspec hn hsm (fun _ => 0)
    have hdf : ∀ k : Fin n, HasFDerivAt (F p s par n k) (D k) x := fun k => hD k
    rw [(hasFDerivAt_pi.mpr fun k : Fin n => hdf k).fderiv, ContinuousLinearMap.pi_apply, Finset.sum_range]
    have e : (fun j : Fin n => b' j) = ∑ j : Fin n, b' j • (Pi.single j (1:ℝ) : Fin n → ℝ) := by
      funext j; simp [Finset.sum_apply, Pi.single_apply]
    rw [e, map_sum]
    refine Finset.sum_congr rfl fun j _ => ?_
    rw [map_smul, smul_eq_mul, jacM, dif_pos j.2, (hdf i).fderiv, mul_comm]

/-! ### The excluded histories -/

/-- A matrix, the same at every point. -/
def wit : Nat → Nat → ℚ := fun i j => if i = 0 ∧ j = 0 then 4 else if i = 1 ∧ j = 1 then 1 else 2 * i + j

/-- The code and the first two entries of the new `b`. -/
def answer : Except Unit (Int × (Nat → ℚ)) → Option (Int × ℚ × ℚ)
  | .ok (code, b) => some (code, b 0, b 1)
  | .error _ => none

/-- Mode 1 (factorise), mode 0 (evaluate), mode 2 (solve) at the same point: the third call returns 3, but it has
substituted with the matrix itself in place of its factors, and the result is not the solution of `[4 1; 2 1] b' = (1, 0)`, which is `(1/2, -1)`. -/
theorem C44_evaluate_after_factorise :
    let ev : (Nat → ℚ) → Except Unit (Int × (Nat → Nat → ℚ)) := fun _ => .ok (3, wit)
    let x : Nat → ℚ := fun _ => 1
    let b : Nat → ℚ := fun i => if i = 0 then 1 else 0
    let c1 := (jacSolvCore 2 ev x b 1 JSState.init).1
    let c2 := (jacSolvCore 2 ev x b 0 c1).1
    answer (jacSolvCore 2 ev x b 2 c1).2 = some (3, 1/2, -1) ∧ answer (jacSolvCore 2 ev x b 2 c2).2 = some (3, 3/4, -2) := by
  decide +kernel

/-- A call that has returned `-3` because the Jacobian is singular (here the 1×1 matrix `x`, at 0) leaves the tape believing that the point has been
factorised: the same call repeated returns 3. -/
theorem C44_repeat_after_singular :
    let ev : (Nat → ℚ) → Except Unit (Int × (Nat → Nat → ℚ)) := fun x => .ok (3, fun _ _ => x 0)
    let b : Nat → ℚ := fun _ => 1
    let c1 := (jacSolvCore 1 ev (fun _ => 1) b 2 JSState.init).1
    let r2 := jacSolvCore 1 ev (fun _ => 0) b 2 c1
    let r3 := jacSolvCore 1 ev (fun _ => 0) b 2 r2.1
    (answer r2.2).map Prod.fst = some (-3) ∧ (answer r3.2).map Prod.fst = some 3 := by
  decide +kernel

/-- A nonsingular matrix whose entries are small is refused. -/
theorem C44_small_refused :
    (factor 1 (fun _ _ => (1 : ℚ) / 10 ^ 16)).2 = -1 := by decide +kernel

/-! ### The hypotheses can be met -/

/-- `x >>= ; y = x*x; y >>= ` -/
noncomputable def sq : Prog ℝ := .stmt (.new 0) <| .stmt (.indep 0) <| .stmt (.new 1) <| .stmt (.bin .mult true 0 0 1) <| .stmt (.dep 1) .done

theorem sq_spec (x par : Nat → ℝ) : ∃ e, sq.spec x par demoStart.se = some (e, []) ∧ e.ii = 1 ∧ e.ys = [x 0 * x 0] := by
  simp [sq, Prog.spec, Stmt.spec, demoStart, Rec.se, SE.set, SE.del, upd_apply, Bin.fn]

theorem sq_smooth (x par : Nat → ℝ) : sq.smooth .rev x par demoStart.se := by
  simp [sq, Prog.smooth, Stmt.smooth, Stmt.spec, demoStart, Rec.se, SE.set, SE.del, upd_apply, Bin.fn]

/-- A factorising call at 1 is a history, and every point qualifies for the call that follows. -/
example : ∃ s', Traced demoCfg [] demoStart sq s' (s'.hw + 1) ∧ sq.disc ⟨Set.univ, ∅⟩ ∧
    (∀ x : Fin 1 → ℝ, At demoCfg demoStart sq (fun _ => 0) x) ∧
    Ordered [(⟨![1], ![5], 1⟩ : JCall 1)] ∧
    ∀ r ∈ (calls (tapeOf s' (s'.hw + 1) (fun _ => 0) 1 1) 3 JSState.init [(⟨![1], ![5], 1⟩ : JCall 1)]).2, Fine r := by
  obtain ⟨e, h1, h2, h3⟩ := sq_spec demoCfg.x demoCfg.par
  obtain ⟨s', h4, h5⟩ := traced_exists (stock := []) demo_alloc demo_start
    (by simp [sq, Prog.noFminLL, Stmt.notFminLL]) h1
  have hat : ∀ x : Fin 1 → ℝ, At demoCfg demoStart sq (fun _ => 0) x := fun x => by
    obtain ⟨e', g1, g2, g3⟩ := sq_spec (ext x) (fun _ => 0)
    exact ⟨e', by rw [h5]; exact g1, g2, by simp [g3], sq_smooth _ _⟩
  have hdisc : sq.disc ⟨Set.univ, ∅⟩ := by simp [sq, Prog.disc, Stmt.disc, Stmt.discNext, Stmt.uses]
  refine ⟨s', h4, hdisc, hat, by simp [Ordered], ?_⟩
  intro r hr
  simp only [calls, List.mem_singleton] at hr
  subst hr
  obtain ⟨rc, J, g1, g0, g2⟩ := evJac_ok h4 hdisc (fun _ => 0) one_pos (hat ![1]) (rrc := 3) (by norm_num)
  have hF : F sq demoStart (fun _ => 0) 1 0 = fun x => x 0 * x 0 := by
    funext x
    obtain ⟨e', g1, g2, g3⟩ := sq_spec (ext x) (fun _ => 0)
    simp [F, Prog.out, g1, g3, ext]
  have hJ : J 0 0 = 2 := by
    rw [show J 0 0 = _ from g2 0 one_pos 0, hF]
    have hp : HasFDerivAt (fun x : Fin 1 → ℝ => x 0) (ContinuousLinearMap.proj (R := ℝ) (φ := fun _ : Fin 1 => ℝ) 0) ![1] := (ContinuousLinearMap.proj (R := ℝ) (φ := fun _ : Fin 1 => ℝ) 0).hasFDerivAt
    rw [show (fun x : Fin 1 → ℝ => x 0 * x 0) = (fun x => x 0) * fun x => x 0 from rfl, (hp.mul hp).fderiv]
    simp
    norm_num
  have hf : ¬ (factor 1 J).2 < 0 := by
    simp [factor, steps, pivot, hJ, eps]
    norm_num
  simp only [jacSolv, jacSolvCore]
  rw [show (tapeOf s' (s'.hw + 1) (fun _ => 0) 1 1).n = 1 from rfl, g1]
  simp only [if_neg hf]
  show min 3 rc ≠ -3
  omega

end Verif.Props.JacSolv
