import Verif.Sparse.AnfRecover
import Verif.Props.SparseJac
import Verif.Props.AbsNormal
/-!
# C64: the sparse abs-normal form

Reading guide: `sparseANF cp manual tape par mm m n q rep x junk J A` is one call of
`sparse_jac(tag, m, n, q, rep, x, A)` (`manual`: `MemoryHandler::Manual`; `mm`: the trace was recorded with
`enableMinMaxUsingAbs`), where `J` is what the tape keeps from earlier calls and `A` the caller's `SparseANF`.  `Prog.swOut`
and `Prog.swArg` (C47) are the outputs of the traced program and the arguments of its calls of `fabs`, as functions of the
independents `x` and of the results `w` of the calls of `fabs`.
-/
set_option linter.all false
noncomputable section
namespace Verif.Props.SparseANF
open Verif.AD Elem Verif.Sparse Verif.Props.AD Verif.Props.Sparse Verif.Props.Drivers Verif.Drivers Verif.Props.AbsNormal Verif.Props.SparseJac

variable {cfg : RCfg ℝ} {stock : List (Nat × List ℝ)} {s s' : Rec ℝ} {p : Prog ℝ} {N : Nat}

/-- `|z|` at `x0`. -/
def absZ (p : Prog ℝ) (s : Rec ℝ) (par : ℕ → ℝ) {n : ℕ} (q : ℕ) (x0 : Fin n → ℝ) : Fin q → ℝ :=
  fun k => |(p.switches (ext x0) par s.se)[(k : Nat)]?.getD 0|

/-- `y_j` as a function of `(x, |z|)`. -/
def outFn (p : Prog ℝ) (s : Rec ℝ) (par : ℕ → ℝ) (n q : ℕ) (j : ℕ) (b : (Fin n → ℝ) × (Fin q → ℝ)) : ℝ :=
  p.swOut (ext b.1) (ext b.2) par s.se j

/-- `z_k` as a function of `(x, |z|)`. -/
def argFn (p : Prog ℝ) (s : Rec ℝ) (par : ℕ → ℝ) (n q : ℕ) (k : ℕ) (b : (Fin n → ℝ) × (Fin q → ℝ)) : ℝ :=
  p.swArg (ext b.1) (ext b.2) par s.se k

/-- The `i`-th unit vector in the `x`-space. -/
def ex (n q i : ℕ) : (Fin n → ℝ) × (Fin q → ℝ) := (fun l => if (l : ℕ) = i then 1 else 0, 0)

/-- The `k`-th unit vector in the `|z|`-space. -/
def ew (n q k : ℕ) : (Fin n → ℝ) × (Fin q → ℝ) := (0, fun l => if (l : ℕ) = k then 1 else 0)

/-- What a sparse abs-normal form at `x0` must be: the values of the dependents and of the switching variables; the four
blocks contain the partial derivatives of `y` and `z` with respect to `x` and `|z|`, all other ones vanish; `cy = y - J |z|`,
`cz = z - L |z|`. -/
structure IsANF (p : Prog ℝ) (s : Rec ℝ) (par : ℕ → ℝ) (m n q : ℕ) (x0 : Fin n → ℝ) (A : SANF ℝ) : Prop where
  y : ∀ e0 bs, p.spec (ext x0) par s.se = some (e0, bs) → A.y = e0.ys
  z : A.z = p.switches (ext x0) par s.se
  len : A.y.length = m ∧ A.z.length = q ∧ A.cy.length = m ∧ A.cz.length = q
  dy : ∀ j < m, DifferentiableAt ℝ (outFn p s par n q j) (x0, absZ p s par q x0)
  dz : ∀ k < q, DifferentiableAt ℝ (argFn p s par n q k) (x0, absZ p s par q x0)
  Y : IsSparse (fun j i => fderiv ℝ (outFn p s par n q j) (x0, absZ p s par q x0) (ex n q i)) m n A.Y
  J : IsSparse (fun j k => fderiv ℝ (outFn p s par n q j) (x0, absZ p s par q x0) (ew n q k)) m q A.J
  Z : IsSparse (fun k i => fderiv ℝ (argFn p s par n q k) (x0, absZ p s par q x0) (ex n q i)) q n A.Z
  L : IsSparse (fun k l => fderiv ℝ (argFn p s par n q k) (x0, absZ p s par q x0) (ew n q l)) q q A.L
  cy : ∀ j < m, A.cy[j]?.getD 0 = A.y[j]?.getD 0 -
    ∑ k ∈ Finset.range q, fderiv ℝ (outFn p s par n q j) (x0, absZ p s par q x0) (ew n q k) * |A.z[k]?.getD 0|
  cz : ∀ k < q, A.cz[k]?.getD 0 = A.z[k]?.getD 0 -
    ∑ l ∈ Finset.range q, fderiv ℝ (argFn p s par n q k) (x0, absZ p s par q x0) (ew n q l) * |A.z[l]?.getD 0|

/-! ### Proof -/

/-- Row `i` of the extended Jacobian. -/
def rowD (p : Prog ℝ) (s : Rec ℝ) (par : ℕ → ℝ) (m : ℕ) {n : ℕ} (q : ℕ) (x0 : Fin n → ℝ) (i : ℕ) :
    ((Fin n → ℝ) × (Fin q → ℝ)) →L[ℝ] ℝ :=
  if i < m then fderiv ℝ (outFn p s par n q i) (x0, absZ p s par q x0)
  else fderiv ℝ (argFn p s par n q (i - m)) (x0, absZ p s par q x0)

/-- Unit vector number `j` of the extended space. -/
def unit (n q j : ℕ) : (Fin n → ℝ) × (Fin q → ℝ) := (fun l => if (l : ℕ) = j then 1 else 0, fun l => if n + (l : ℕ) = j then 1 else 0)

theorem unit_x {n q j : ℕ} (h : j < n) : unit n q j = ex n q j := by
  unfold unit ex
  congr 1
  funext l
  rw [if_neg (by omega)]; rfl

theorem unit_w {n q k : ℕ} : unit n q (n + k) = ew n q k := by
  unfold unit ew
  congr 1
  · funext l
    rw [if_neg (by omega)]; rfl
  · funext l
    simp

theorem ext_fst_unit {n q j : ℕ} (k : ℕ) (hk : k ≠ j) : ext (unit n q j).1 k = 0 := by
  unfold ext unit
  by_cases h1 : k < n
  · simp only [h1, dif_pos, if_neg hk]
  · simp only [h1, dif_neg, not_false_eq_true]

theorem ext_snd_unit {n q j : ℕ} (k : ℕ) (hk : n + k ≠ j) : ext (unit n q j).2 k = 0 := by
  unfold ext unit
  by_cases h1 : k < q
  · simp only [h1, dif_pos, if_neg hk]
  · simp only [h1, dif_neg, not_false_eq_true]

theorem rowMap_unit {n q j : ℕ} (hj : j < n + q) (A B : ℕ → ℝ) :
    rowMap A B (unit n q j) = if j < n then A j else B (j - n) := by
  rw [rowMap_apply]
  split_ifs with h
  · rw [unit_x h]
    have e1 : (ex n q j).1 = Pi.single ⟨j, h⟩ 1 := by
      funext l
      simp only [ex, Pi.single_apply, Fin.ext_iff]
    rw [e1, dot_single]
    simp only [ex, dot_zero_ext, add_zero]
  · obtain ⟨k, rfl⟩ : ∃ k, j = n + k := ⟨j - n, by omega⟩
    rw [unit_w]
    have e1 : (ew n q k).2 = Pi.single ⟨k, by omega⟩ 1 := by
      funext l
      simp only [ew, Pi.single_apply, Fin.ext_iff]
    rw [e1, dot_single]
    simp [ew, dot_zero_ext]

/-- The tape has `q` switches, `n` independents and `m` dependents. -/
theorem counts (h : Traced cfg stock s p s' N) (par : Nat → ℝ) {n : ℕ} (x0 : Fin n → ℝ) {e0 : SE ℝ}
    (hpath : p.spec (ext x0) par s.se = some (e0, p.path cfg s)) (hsm : p.smoothAN (ext x0) par s.se) :
    (p.switches (ext x0) par s.se).length = numSw (s'.tape N) ∧ e0.ii = numInd (s'.tape N) ∧ e0.ys.length = numDep (s'.tape N) := by
  obtain ⟨z, D, Dz, h1, h2, h3, h4, h5, h6, h7, h8⟩ := recorded_sw_derivative h.alloc p h.start h.recorded (fun _ => 0) par x0 hpath hsm N true _ rfl
    (absZ p s par _ x0) (fun _ => rfl)
  obtain ⟨f0, f1, f2, f3, f4, f5, _⟩ := h8 0
  obtain ⟨c1, c2, c3⟩ := sw_counts f1
  refine ⟨?_, ?_, ?_⟩
  · rw [← f5, c3]; simp
  · rw [← f3, c1]; simp [FS.start]
  · rw [← f4, c2]; simp [FS.start]

/-- The value sweep, and one row of the reverse sweep for arbitrary weights. -/
theorem rows_any (h : Traced cfg stock s p s' N) (hd : p.disc ⟨Set.univ, ∅⟩) (par : Nat → ℝ)
    (x0 : Fin (numInd (s'.tape N)) → ℝ) {e0 : SE ℝ} (hpath : p.spec (ext x0) par s.se = some (e0, p.path cfg s))
    (hsm : p.smoothAN (ext x0) par s.se) :
    ∃ z : PlZ ℝ, zosPlRun ⟨ext x0, par, true⟩ (s'.tape N) ⟨ZS.init, []⟩ = .ok z ∧ z.sw = p.switches (ext x0) par s.se ∧
      z.z.y = e0.ys ∧
      (∀ j, DifferentiableAt ℝ (outFn p s par (numInd (s'.tape N)) (numSw (s'.tape N)) j) (x0, absZ p s par _ x0)) ∧
      (∀ k, DifferentiableAt ℝ (argFn p s par (numInd (s'.tape N)) (numSw (s'.tape N)) k) (x0, absZ p s par _ x0)) ∧
      (∀ u us : ℕ → ℝ, ∃ r, plRevRun u us (s'.tape N) ⟨RS.init (numInd (s'.tape N)) (numDep (s'.tape N)) z.z.stk, numSw (s'.tape N), fun _ => 0⟩ = .ok r ∧
        ∀ a : (Fin (numInd (s'.tape N)) → ℝ) × (Fin (numSw (s'.tape N)) → ℝ), rowMap r.r.bar r.sbar a =
          ∑ j ∈ Finset.range (numDep (s'.tape N)), u j * fderiv ℝ (outFn p s par _ _ j) (x0, absZ p s par _ x0) a +
          ∑ k ∈ Finset.range (numSw (s'.tape N)), us k * fderiv ℝ (argFn p s par _ _ k) (x0, absZ p s par _ x0) a) ∧
      ∀ a : (Fin (numInd (s'.tape N)) → ℝ) × (Fin (numSw (s'.tape N)) → ℝ), ∃ f,
        swRun ⟨ext x0, par, true⟩ (ext a.1) (ext a.2) (s'.tape N) ⟨FS.init, [], []⟩ = .ok f ∧
        f.f.dy.length = numDep (s'.tape N) ∧ f.swT.length = numSw (s'.tape N) ∧
        (∀ j, f.f.dy[j]?.getD 0 = fderiv ℝ (outFn p s par _ _ j) (x0, absZ p s par _ x0) a) ∧
        ∀ k, f.swT[k]?.getD 0 = fderiv ℝ (argFn p s par _ _ k) (x0, absZ p s par _ x0) a := by
  obtain ⟨hq, hn, hm⟩ := counts h par x0 hpath hsm
  obtain ⟨z, D, Dz, h1, h2, h3, h4, h5, h6, h7, h8⟩ := recorded_sw_derivative h.alloc p h.start h.recorded (fun _ => 0) par x0 hpath hsm N true _ hq
    (absZ p s par _ x0) (fun _ => rfl)
  have hD : ∀ j, fderiv ℝ (outFn p s par _ _ j) (x0, absZ p s par _ x0) = D j := fun j => (h5 j).fderiv
  have hDz : ∀ k, fderiv ℝ (argFn p s par _ _ k) (x0, absZ p s par _ x0) = Dz k := fun k => (h6 k).fderiv
  refine ⟨z, h1, h2, h3, fun j => (h5 j).differentiableAt, fun k => (h6 k).differentiableAt, ?_, fun a => ?_⟩
  · obtain ⟨body, hb1, hb2⟩ := recorded_wf h.alloc p h.start hd h.recorded h.pos h.size
    have hA : Along regularAN ⟨ext x0, par, true⟩ (fullTrace stock body N) (ZS.start fun _ => 0) := by
      rw [← hb1]
      exact Along_mono (fun o T h => smoothB_regularAN h) (recorded_smoothB h.alloc p h.start h.recorded (fun _ => 0) ⟨ext x0, par, true⟩ hpath hsm N)
    intro u us
    have one : ∀ a : (Fin (numInd (s'.tape N)) → ℝ) × (Fin (numSw (s'.tape N)) → ℝ), ∃ r, plRevRun u us (s'.tape N) ⟨RS.init (numInd (s'.tape N)) (numDep (s'.tape N)) z.z.stk, numSw (s'.tape N), fun _ => 0⟩ = .ok r ∧
        rowMap r.r.bar r.sbar a =
          ∑ j ∈ Finset.range (numDep (s'.tape N)), u j * fderiv ℝ (outFn p s par _ _ j) (x0, absZ p s par _ x0) a +
          ∑ k ∈ Finset.range (numSw (s'.tape N)), us k * fderiv ℝ (argFn p s par _ _ k) (x0, absZ p s par _ x0) a := by
      intro a
      obtain ⟨f, g1, g2, g3, g4, g5, g6, g7⟩ := h8 a
      have g1' : swRun ⟨ext x0, par, true⟩ (ext a.1) (ext a.2) (fullTrace stock body N) ⟨FS.start fun _ => 0, [], []⟩ = .ok f := by
        rw [← hb1]; exact g1
      obtain ⟨r, r1, r2, r3⟩ := pl_full_reverse hb2 rfl u us (ext a.1) (ext a.2) (fun _ => 0) (fun _ _ => rfl) g1' hA
      rw [← hb1, g3, g4, g5, g2, hn, hm] at r1
      rw [g3, g5, hn] at r3
      refine ⟨r, r1, ?_⟩
      rw [rowMap_apply, r3]
      unfold wsum
      rw [g4, g5, hm]
      congr 1
      · exact Finset.sum_congr rfl fun j _ => by rw [g6, hD]
      · exact Finset.sum_congr rfl fun k _ => by rw [g7, hDz]
    obtain ⟨r, r1, _⟩ := one 0
    refine ⟨r, r1, fun a => ?_⟩
    obtain ⟨r', r2, r3⟩ := one a
    rw [r1] at r2
    cases r2
    exact r3
  · obtain ⟨f, g1, g2, g3, g4, g5, g6, g7⟩ := h8 a
    exact ⟨f, g1, by rw [g4, hm], g5, fun j => by rw [g6, hD], fun k => by rw [g7, hDz]⟩

/-- Column `j` is not in row `i` only where the extended Jacobian vanishes. -/
def CovA (p : Prog ℝ) (s : Rec ℝ) (par : ℕ → ℝ) (m : ℕ) {n : ℕ} (q : ℕ) (x0 : Fin n → ℝ) (JP : List (List ℕ)) : Prop :=
  ∀ i j, i < m + q → j < n + q → j ∉ patRow JP i → rowD p s par m q x0 i (unit n q j) = 0

theorem smoothB_pow {c : Cfg ℝ} {ops : List (Base ℝ)} {z : ZS ℝ} (h : Along smoothB c ops z) : Along powOk c ops z := by
  refine Along_mono (fun o T ho => ?_) h
  unfold powOk
  cases o <;> try trivial
  rename_i a r k
  intro hT
  rcases ho with ho | ho
  · simp [Base.isAbs] at ho
  have := ho.1
  simp only [smooth, hT] at this
  rcases this with h | ⟨h, _⟩ | ⟨_, h⟩
  · exact absurd h (lt_irrefl _)
  · exact absurd h (lt_irrefl _)
  · exact h

/-- The pattern: it exists, and it is right at all points of the recorded path. -/
theorem pattern (h : Traced cfg stock s p s' N) (hd : p.disc ⟨Set.univ, ∅⟩) (hp : allStmts idxStmt p) :
    ∃ JP, jacPatANF (numInd (s'.tape N)) (s'.tape N) = .ok JP ∧
      Pat (numDep (s'.tape N) + numSw (s'.tape N)) (numInd (s'.tape N) + numSw (s'.tape N)) JP ∧
      ∀ (par : ℕ → ℝ) (x0 : Fin (numInd (s'.tape N)) → ℝ) (e0 : SE ℝ),
        p.spec (ext x0) par s.se = some (e0, p.path cfg s) → p.smoothAN (ext x0) par s.se →
        CovA p s par (numDep (s'.tape N)) (numSw (s'.tape N)) x0 JP := by
  have hops := emits_tape h.alloc (P := fun o : Base ℝ => domOk (none : Option (Nat → ℝ)) o ∧ noStop o)
    (by simp [domOk, noStop]) (by simp [domOk, noStop]) (by simp [domOk, noStop]) p
    (allStmts_mono (fun st => emits_idx) p hp) h.start h.recorded N
  obtain ⟨S, hS1, hS2, hS3, hS4⟩ := an_total (n := numInd (s'.tape N)) (B := numInd (s'.tape N) + numSw (s'.tape N))
    (fun o ho => (hops o ho).2) (fun o ho => (hops o ho).1) (s := AIS.init)
    ⟨fun a => by simp [AIS.init, IS.init], by simp [AIS.init, IS.init], by simp [AIS.init]⟩
    (by simp [AIS.init, IS.init]) (by simp [AIS.init])
  simp only [AIS.init, IS.init, List.length_nil, Nat.zero_add] at hS3 hS4
  rw [← numDep_countP] at hS3
  have hrow : ∀ r ∈ S.i.Y ++ S.Z, RowOk (numInd (s'.tape N) + numSw (s'.tape N)) r := by
    intro r hr
    rcases List.mem_append.1 hr with hr | hr
    · exact hS2.Y r hr
    · exact hS2.Z r hr
  refine ⟨S.i.Y ++ S.Z, by rw [jacPatANF, hS1]; rfl, ⟨by rw [List.length_append, hS3, hS4], ?_, ?_, ?_⟩, ?_⟩
  · intro r hr; obtain ⟨L, h1, _⟩ := hrow r hr; exact ⟨L, h1⟩
  · intro r hr; obtain ⟨L, rfl, _, h3⟩ := hrow r hr; exact h3
  · intro r hr; obtain ⟨L, rfl, h2, _⟩ := hrow r hr; exact h2
  · intro par x0 e0 hpath hsm i j hi hj hnot
    obtain ⟨z, z1, z2, z3, z4, z5, z6, z7⟩ := rows_any h hd par x0 hpath hsm
    obtain ⟨f, f1, f2, f3, f4, f5⟩ := z7 (unit _ _ j)
    obtain ⟨body, hb1, hb2⟩ := recorded_wf h.alloc p h.start hd h.recorded h.pos h.size
    have hpow := smoothB_pow (recorded_smoothB h.alloc p h.start h.recorded (fun _ => 0) ⟨ext x0, par, true⟩ hpath hsm N)
    have hcov : CoversA ∅ j S f := by
      have hpow' : Along powOk ⟨ext x0, par, true⟩ (fullTrace stock body N) (ZS.start fun _ => 0) := by rw [← hb1]; exact hpow
      have hops' : ∀ o ∈ fullTrace stock body N, domOk (none : Option (Nat → ℝ)) o ∧ noStop o := by rw [← hb1]; exact hops
      have hS1' : anRun (numInd (s'.tape N)) (fullTrace stock body N) AIS.init = .ok S := by rw [← hb1]; exact hS1
      have f1' : swRun ⟨ext x0, par, true⟩ (ext (unit (numInd (s'.tape N)) (numSw (s'.tape N)) j).1)
          (ext (unit (numInd (s'.tape N)) (numSw (s'.tape N)) j).2) (fullTrace stock body N) ⟨FS.init, [], []⟩ = .ok f := by
        rw [← hb1]; exact f1
      exact coversA_full (fun k => ext_fst_unit k) (fun k => ext_snd_unit k) hb2 (fun o ho => (hops' o ho).1) (s := AIS.init) (f := ⟨FS.init, [], []⟩)
        (z := ZS.init)
        ⟨⟨fun a _ _ => rfl, rfl, rfl, by simp [AIS.init, IS.init]⟩, rfl, rfl, by simp [AIS.init]⟩ (fun _ => rfl)
        ⟨rfl, rfl, rfl, rfl, le_refl _⟩ hpow' hS1' f1'
    have hlen : (S.i.Y ++ S.Z).length = numDep (s'.tape N) + numSw (s'.tape N) := by rw [List.length_append, hS3, hS4]
    unfold rowD
    unfold patRow at hnot
    by_cases him : i < numDep (s'.tape N)
    · rw [if_pos him, ← f4]
      rw [List.getElem?_append_left (by rw [hS3]; exact him), List.getElem?_eq_getElem (by rw [hS3]; exact him), Option.getD_some] at hnot
      rw [hcov.base.out i _ (List.getElem?_eq_getElem (by rw [hS3]; exact him)) hnot, Option.getD_some]
    · rw [if_neg him, ← f5]
      have hk : i - numDep (s'.tape N) < S.Z.length := by rw [hS4]; omega
      rw [List.getElem?_append_right (by rw [hS3]; omega), hS3, List.getElem?_eq_getElem hk, Option.getD_some] at hnot
      rw [hcov.out _ _ (List.getElem?_eq_getElem hk) hnot, Option.getD_some]

/-- The tape's data after the first call. -/
structure ReadyA (m n q : ℕ) (JP : List (List ℕ)) (J : SJ) : Prop where
  pat : Pat (m + q) (n + q) JP
  rows : J.JP = JP.map some
  graph : ∃ col k, J.graph = some (.row, col, k) ∧ RowColouring JP col k ∧ J.rows = k ∧ J.clms = n + q

theorem counts_ok (ops : List (Base ℝ)) : anfCounts ops true (numDep ops) (numInd ops) (numSw ops) := ⟨rfl, rfl, rfl, rfl⟩

/-- The numeric part, on storage that fits. -/
theorem numericA (h : Traced cfg stock s p s' N) (hd : p.disc ⟨Set.univ, ∅⟩) (par : Nat → ℝ)
    (x0 : Fin (numInd (s'.tape N)) → ℝ) {e0 : SE ℝ} (hpath : p.spec (ext x0) par s.se = some (e0, p.path cfg s))
    (hsm : p.smoothAN (ext x0) par s.se) (hm0 : 0 < numDep (s'.tape N)) {JP : List (List ℕ)} {J : SJ}
    (hJ : ReadyA (numDep (s'.tape N)) (numInd (s'.tape N)) (numSw (s'.tape N)) JP J)
    (hcov : CovA p s par (numDep (s'.tape N)) (numSw (s'.tape N)) x0 JP) (w : AJunk ℝ) (hw : 0 ≤ w.rrc) (manual : Bool) (A : SANF ℝ)
    (hA : manual = true → A.dims = countANF JP (numDep (s'.tape N)) (numInd (s'.tape N)) ∧
      A.dims = (A.Y.length, A.J.length, A.Z.length, A.L.length)) :
    ∃ rc A', 0 ≤ rc ∧
      computeANF manual (s'.tape N) par true (numDep (s'.tape N)) (numInd (s'.tape N)) (numSw (s'.tape N)) (ext x0) w J A = .ret rc J A' ∧
      IsANF p s par (numDep (s'.tape N)) (numInd (s'.tape N)) (numSw (s'.tape N)) x0 A' ∧
      A'.dims = countANF JP (numDep (s'.tape N)) (numInd (s'.tape N)) ∧ A'.dims = (A'.Y.length, A'.J.length, A'.Z.length, A'.L.length) := by
  obtain ⟨hq, hn, hm⟩ := counts h par x0 hpath hsm
  obtain ⟨z, z1, z2, z3, z4, z5, z6, z7⟩ := rows_any h hd par x0 hpath hsm
  obtain ⟨col, k, hg, hcol, hr, hc⟩ := hJ.graph
  have hpat := hJ.pat
  have hk : 0 < k := by have := hcol.lt 0 (by rw [hpat.len]; omega); omega
  generalize hU : (fun c j => colourSeed col j c : ℕ → ℕ → ℝ) = U
  generalize hUs : (fun c l => colourSeed col (numDep (s'.tape N) + l) c : ℕ → ℕ → ℝ) = Us
  -- the vector sweep
  have hrun : ∃ r, fovPlRevRun k U Us (s'.tape N) ⟨VRS.init (numInd (s'.tape N)) (numDep (s'.tape N)) z.z.stk, numSw (s'.tape N), fun _ _ => 0⟩ = .ok r := by
    obtain ⟨r, r1, _⟩ := z6 (U 0) (Us 0)
    have := pl_row_run hk U Us (s'.tape N) ⟨VRS.init (numInd (s'.tape N)) (numDep (s'.tape N)) z.z.stk, numSw (s'.tape N), fun _ _ => 0⟩
    have e : VPRS.row 0 (⟨VRS.init (numInd (s'.tape N)) (numDep (s'.tape N)) z.z.stk, numSw (s'.tape N), fun _ _ => 0⟩ : VPRS ℝ) =
      ⟨RS.init (numInd (s'.tape N)) (numDep (s'.tape N)) z.z.stk, numSw (s'.tape N), fun _ => 0⟩ := rfl
    rw [e, r1] at this
    cases hf : fovPlRevRun k U Us (s'.tape N) ⟨VRS.init (numInd (s'.tape N)) (numDep (s'.tape N)) z.z.stk, numSw (s'.tape N), fun _ _ => 0⟩ with
    | error e => rw [hf] at this; cases this
    | ok r => exact ⟨r, rfl⟩
  obtain ⟨r, hrr⟩ := hrun
  have hB : ∀ c, c < k → ∀ j, j < numInd (s'.tape N) + numSw (s'.tape N) →
      (if j < numInd (s'.tape N) then r.r.bar c j else r.sbar c (j - numInd (s'.tape N))) =
        ∑ i ∈ Finset.range (numDep (s'.tape N) + numSw (s'.tape N)), colourSeed col i c * rowD p s par (numDep (s'.tape N)) (numSw (s'.tape N)) x0 i (unit _ _ j) := by
    intro c hck j hj
    obtain ⟨t, t1, t2⟩ := z6 (U c) (Us c)
    have := pl_row_run hck U Us (s'.tape N) ⟨VRS.init (numInd (s'.tape N)) (numDep (s'.tape N)) z.z.stk, numSw (s'.tape N), fun _ _ => 0⟩
    have e : VPRS.row c (⟨VRS.init (numInd (s'.tape N)) (numDep (s'.tape N)) z.z.stk, numSw (s'.tape N), fun _ _ => 0⟩ : VPRS ℝ) =
      ⟨RS.init (numInd (s'.tape N)) (numDep (s'.tape N)) z.z.stk, numSw (s'.tape N), fun _ => 0⟩ := rfl
    rw [e, t1, hrr] at this
    simp only [Except.map, Except.ok.injEq] at this
    have t3 := t2 (unit _ _ j)
    rw [← this, rowMap_unit hj] at t3
    have t4 : (if j < numInd (s'.tape N) then (VPRS.row c r).r.bar j else (VPRS.row c r).sbar (j - numInd (s'.tape N))) =
      (if j < numInd (s'.tape N) then r.r.bar c j else r.sbar c (j - numInd (s'.tape N))) := rfl
    rw [← t4, t3, Finset.sum_range_add]
    congr 1
    · refine Finset.sum_congr rfl fun i hi => ?_
      rw [Finset.mem_range] at hi
      rw [rowD, if_pos hi, ← hU]
    · refine Finset.sum_congr rfl fun i hi => ?_
      rw [rowD, if_neg (by omega), Nat.add_sub_cancel_left, ← hUs]
  -- the entries
  have hent : entries JP (fun i j => if j < numInd (s'.tape N) then r.r.bar (col i) j else r.sbar (col i) (j - numInd (s'.tape N))) =
      entries JP (fun i j => rowD p s par (numDep (s'.tape N)) (numSw (s'.tape N)) x0 i (unit _ _ j)) := by
    refine entries_congr fun i hi j hj => ?_
    have hjn : j < numInd (s'.tape N) + numSw (s'.tape N) := by
      refine hpat.lt JP[i] (List.getElem_mem hi) j ?_
      simpa [patRow, List.getElem?_eq_getElem hi] using hj
    rw [hB (col i) (hcol.lt i hi) j hjn, Finset.sum_eq_single i]
    · simp [colourSeed]
    · intro i' hi' hne
      rw [Finset.mem_range] at hi'
      by_cases hcc : col i' = col i
      · have hnot : j ∉ patRow JP i' := fun hin => hcol.proper i' i (by rw [hpat.len]; exact hi') hi hne j hin hj hcc
        rw [hcov i' j hi' hjn hnot, mul_zero]
      · simp [colourSeed, hcc]
    · intro hnot
      exact absurd (Finset.mem_range.2 (by rw [← hpat.len]; exact hi)) hnot
  have hsp : IsSparse (fun i j => rowD p s par (numDep (s'.tape N)) (numSw (s'.tape N)) x0 i (unit _ _ j)) (numDep (s'.tape N) + numSw (s'.tape N))
      (numInd (s'.tape N) + numSw (s'.tape N)) (entries JP (fun i j => rowD p s par (numDep (s'.tape N)) (numSw (s'.tape N)) x0 i (unit _ _ j))) := by
    refine ⟨entries_sorted hpat.sorted _, fun e he => ?_, fun i j hi hj hE => ?_⟩
    · rw [mem_entries] at he
      refine ⟨hpat.len ▸ he.1, ?_, he.2.2⟩
      refine hpat.lt JP[e.1] (List.getElem_mem he.1) _ ?_
      have := he.2.1
      simpa [patRow, List.getElem?_eq_getElem he.1] using this
    · refine hcov i j hi hj fun hin => hE (rowD p s par (numDep (s'.tape N)) (numSw (s'.tape N)) x0 i (unit _ _ j)) ?_
      rw [mem_entries]; exact ⟨hpat.len ▸ hi, hin, rfl⟩
  obtain ⟨b1, b2, b3, b4⟩ := split_blocks hsp
  have rowy : ∀ j < numDep (s'.tape N), rowD p s par (numDep (s'.tape N)) (numSw (s'.tape N)) x0 j = fderiv ℝ (outFn p s par _ _ j) (x0, absZ p s par _ x0) :=
    fun j hj => by rw [rowD, if_pos hj]
  have rowz : ∀ k, rowD p s par (numDep (s'.tape N)) (numSw (s'.tape N)) x0 (numDep (s'.tape N) + k) = fderiv ℝ (argFn p s par _ _ k) (x0, absZ p s par _ x0) :=
    fun k => by rw [rowD, if_neg (by omega), Nat.add_sub_cancel_left]
  have congrS : ∀ {D D' : ℕ → ℕ → ℝ} {R C : ℕ} {E : List (Entry ℝ)}, (∀ i j, i < R → j < C → D i j = D' i j) → IsSparse D R C E → IsSparse D' R C E := by
    intro D D' R C E hDD hs
    exact ⟨hs.sorted, fun e he => by obtain ⟨v1, v2, v3⟩ := hs.value e he; exact ⟨v1, v2, by rw [v3, hDD _ _ v1 v2]⟩,
      fun i j hi hj hE => by rw [← hDD i j hi hj]; exact hs.zero i j hi hj hE⟩
  have b1' := congrS (D' := fun j i => fderiv ℝ (outFn p s par _ _ j) (x0, absZ p s par _ x0) (ex _ _ i)) (fun i j hi hj => by rw [rowy i hi, unit_x hj]) b1
  have b2' := congrS (D' := fun j k => fderiv ℝ (outFn p s par _ _ j) (x0, absZ p s par _ x0) (ew _ _ k)) (fun i j hi hj => by rw [rowy i hi, unit_w]) b2
  have b3' := congrS (D' := fun k i => fderiv ℝ (argFn p s par _ _ k) (x0, absZ p s par _ x0) (ex _ _ i)) (fun i j hi hj => by rw [rowz i, unit_x hj]) b3
  have b4' := congrS (D' := fun k l => fderiv ℝ (argFn p s par _ _ k) (x0, absZ p s par _ x0) (ew _ _ l)) (fun i j hi hj => by rw [rowz i, unit_w]) b4
  have hrec := recoverA_eq hpat.wf (fun c j => if j < numInd (s'.tape N) then r.r.bar c j else r.sbar c (j - numInd (s'.tape N))) col
    (numDep (s'.tape N)) (numInd (s'.tape N)) { A with y := z.z.y, z := z.sw } manual (fun hmn => hA hmn)
  rw [hent] at hrec
  have hly : z.z.y.length = numDep (s'.tape N) := by rw [z3, hm]
  have hlz : z.sw.length = numSw (s'.tape N) := by rw [z2, hq]
  let A' : SANF ℝ :=
      { dims := countANF JP (numDep (s'.tape N)) (numInd (s'.tape N))
        Y := split .Y 0 0 (numDep (s'.tape N)) (numInd (s'.tape N)) (entries JP (fun i j => rowD p s par (numDep (s'.tape N)) (numSw (s'.tape N)) x0 i (unit _ _ j)))
        J := split .J 0 (numInd (s'.tape N)) (numDep (s'.tape N)) (numInd (s'.tape N)) (entries JP (fun i j => rowD p s par (numDep (s'.tape N)) (numSw (s'.tape N)) x0 i (unit _ _ j)))
        Z := split .Z (numDep (s'.tape N)) 0 (numDep (s'.tape N)) (numInd (s'.tape N)) (entries JP (fun i j => rowD p s par (numDep (s'.tape N)) (numSw (s'.tape N)) x0 i (unit _ _ j)))
        L := split .L (numDep (s'.tape N)) (numInd (s'.tape N)) (numDep (s'.tape N)) (numInd (s'.tape N)) (entries JP (fun i j => rowD p s par (numDep (s'.tape N)) (numSw (s'.tape N)) x0 i (unit _ _ j)))
        y := z.z.y
        z := z.sw
        cy := updateC (split .J 0 (numInd (s'.tape N)) (numDep (s'.tape N)) (numInd (s'.tape N)) (entries JP (fun i j => rowD p s par (numDep (s'.tape N)) (numSw (s'.tape N)) x0 i (unit _ _ j)))) z.sw z.z.y
        cz := updateC (split .L (numDep (s'.tape N)) (numInd (s'.tape N)) (numDep (s'.tape N)) (numInd (s'.tape N)) (entries JP (fun i j => rowD p s par (numDep (s'.tape N)) (numSw (s'.tape N)) x0 i (unit _ _ j)))) z.sw z.sw }
  refine ⟨mindec z.z.rc w.rrc, A', ?_, ?_, ?_, ?_, ?_⟩
  · have h0 := (rc_range (zosPl_zos z1) (by simp [ZS.init]) (by simp [ZS.init])).1
    unfold mindec; split_ifs <;> omega
  · unfold computeANF
    simp only [hg, hJ.rows, allRows_some, hc, hpat.len, hr]
    rw [if_neg (by omega), if_neg (by
      rintro ⟨hmn, hx⟩
      exact hx (hA hmn).2), if_neg (by exact not_not.2 (counts_ok _))]
    rw [z1]
    simp only [hU, hUs, hrr]
    rw [hrec]
  · refine ⟨fun e1 bs he => ?_, z2, ⟨hly, hlz, by rw [(updateC_spec _ _ _).1]; exact hly, by rw [(updateC_spec _ _ _).1]; exact hlz⟩,
      fun j _ => z4 j, fun k _ => z5 k, b1', b2', b3', b4', fun j hj => ?_, fun k hk => ?_⟩
    · rw [hpath] at he; cases he; exact z3
    · exact updateC_sparse b2' _ _ hj hly
    · exact updateC_sparse b4' _ _ hk hlz
  · rfl
  · exact countANF_eq hpat.wf _ _ _

/-! ### The property -/

/-- **C64** (partial: without the calls excluded by `idxStmt`, see `C64_lost_column`).  There are data `J'` and numbers `d` of
entries such that for every first call (`rep = false`, whatever the tape keeps), and for every later call (`rep = true`) on the
data `J'`, at all points of the recorded path, kinks included: with automatic memory the call returns a nonnegative code, the
data `J'` and a sparse abs-normal form, whatever the caller's object was; with manual memory it does the same if the caller's
object has been resized to `d`, and returns -3 and leaves the object alone if `dims()` is not `d`. -/
theorem C64_sparse_abs_normal_partial (h : Traced cfg stock s p s' N) (hd : p.disc ⟨Set.univ, ∅⟩) (hp : allStmts idxStmt p)
    {cp : Colouring} (hcp : cp.Proper) (hn0 : 0 < numInd (s'.tape N)) (hm0 : 0 < numDep (s'.tape N)) :
    ∃ (J' : SJ) (d : ℕ × ℕ × ℕ × ℕ), ∀ (rep : Bool) (J : SJ), (rep = true → J = J') →
      ∀ (par : ℕ → ℝ) (x0 : Fin (numInd (s'.tape N)) → ℝ) (e0 : SE ℝ), p.spec (ext x0) par s.se = some (e0, p.path cfg s) →
      p.smoothAN (ext x0) par s.se → ∀ (w : AJunk ℝ), 0 ≤ w.rrc → ∀ A : SANF ℝ,
      let call := fun manual => sparseANF cp manual (s'.tape N) par true (numDep (s'.tape N)) (numInd (s'.tape N)) (numSw (s'.tape N)) rep (ext x0) w J A
      let good := fun manual => ∃ rc A', 0 ≤ rc ∧ call manual = .ret rc J' A' ∧
        IsANF p s par (numDep (s'.tape N)) (numInd (s'.tape N)) (numSw (s'.tape N)) x0 A' ∧
        A'.dims = d ∧ (A'.Y.length, A'.J.length, A'.Z.length, A'.L.length) = d
      good false ∧ (A.dims = d → (A.Y.length, A.J.length, A.Z.length, A.L.length) = d → good true) ∧
      (A.dims ≠ d → call true = .ret (-3) J' A) := by
  obtain ⟨JP, p1, p2, p3⟩ := pattern h hd hp
  obtain ⟨g1, _⟩ := hcp JP (numInd (s'.tape N) + numSw (s'.tape N))
  let J' : SJ := ⟨JP.map some, some (.row, (cp .row JP (numInd (s'.tape N) + numSw (s'.tape N))).1, (cp .row JP (numInd (s'.tape N) + numSw (s'.tape N))).2),
    nnz JP, (cp .row JP (numInd (s'.tape N) + numSw (s'.tape N))).2, numInd (s'.tape N) + numSw (s'.tape N)⟩
  have hJ : ReadyA (numDep (s'.tape N)) (numInd (s'.tape N)) (numSw (s'.tape N)) JP J' := ⟨p2, rfl, _, _, rfl, g1, rfl, rfl⟩
  have hk : 0 < J'.rows := by
    have := g1.lt 0 (by rw [p2.len]; omega)
    show 0 < (cp .row JP (numInd (s'.tape N) + numSw (s'.tape N))).2
    omega
  refine ⟨J', countANF JP (numDep (s'.tape N)) (numInd (s'.tape N)), ?_⟩
  intro rep J hrep par x0 e0 hpath hsm w hw A call good
  have hcall : ∀ manual, call manual =
      if manual = true ∧ A.dims ≠ countANF JP (numDep (s'.tape N)) (numInd (s'.tape N)) then .ret (-3) J' A
      else computeANF manual (s'.tape N) par true (numDep (s'.tape N)) (numInd (s'.tape N)) (numSw (s'.tape N)) (ext x0) w J' A := by
    intro manual
    have hgo : allRows J'.JP = some JP := allRows_some JP
    cases rep with
    | true =>
      have := hrep rfl
      subst this
      simp only [call, sparseANF, if_true]
      rw [if_neg (by
        simp only [not_or]
        refine ⟨by simp [J'], by omega, ?_⟩
        show ¬ numInd (s'.tape N) + numSw (s'.tape N) = 0
        omega)]
      rw [hgo]
    | false =>
      have hb : buildANF cp (s'.tape N) true (numDep (s'.tape N)) (numInd (s'.tape N)) (numSw (s'.tape N)) J = .ok J' := by
        unfold buildANF
        rw [if_neg (not_not.2 (counts_ok _)), p1]
      simp only [call, sparseANF, Bool.false_eq_true, if_false, hb]
      rw [hgo]
  refine ⟨?_, fun hA1 hA2 => ?_, fun hA => ?_⟩
  · obtain ⟨rc, A', a1, a2, a3, a4, a5⟩ := numericA h hd par x0 hpath hsm hm0 hJ (p3 par x0 e0 hpath hsm) w hw false A (by simp)
    exact ⟨rc, A', a1, by rw [hcall, if_neg (by simp)]; exact a2, a3, a4, by rw [← a5]; exact a4⟩
  · obtain ⟨rc, A', a1, a2, a3, a4, a5⟩ := numericA h hd par x0 hpath hsm hm0 hJ (p3 par x0 e0 hpath hsm) w hw true A
      (fun _ => ⟨hA1, by rw [hA2]; exact hA1⟩)
    exact ⟨rc, A', a1, by rw [hcall, if_neg (by simp [hA1])]; exact a2, a3, a4, by rw [← a5]; exact a4⟩
  · rw [hcall, if_pos ⟨rfl, hA⟩]

/-- A call whose counts do not fit the trace, or on a trace recorded without `enableMinMaxUsingAbs`, never returns an
abs-normal form. -/
theorem C64_counts {K : Type} [Scalar K] (cp : Colouring) (manual : Bool) (ops : List (Base K)) (par : ℕ → K) (mm : Bool) (m n q : ℕ) (rep : Bool) (x : ℕ → K)
    (w : AJunk K) (J : SJ) (A : SANF K) (hc : ¬ anfCounts ops mm m n q) :
    (∃ J', sparseANF cp manual ops par mm m n q rep x w J A = .throws J') ∨
      sparseANF cp manual ops par mm m n q rep x w J A = .undef ∨ sparseANF cp manual ops par mm m n q rep x w J A = .ret (-3) J A := by
  unfold sparseANF
  cases rep with
  | false =>
    left
    simp only [Bool.false_eq_true, if_false, buildANF, if_pos hc]
    exact ⟨_, rfl⟩
  | true =>
    simp only [if_true]
    split_ifs with h1
    · exact .inr (.inr rfl)
    · cases allRows J.JP with
      | none => exact .inr (.inl rfl)
      | some JP =>
        simp only
        split_ifs with h2
        · exact .inr (.inr rfl)
        · unfold computeANF
          split
          · split_ifs
            · exact .inr (.inl rfl)
            · exact .inr (.inl rfl)
            · exact .inl ⟨_, rfl⟩
          · exact .inr (.inl rfl)

/-! ### A concrete program meeting the hypotheses, at a kink -/

/-- All hypotheses hold for `kink` (C47) at every point, in particular at the kinks, and there is a proper colouring. -/
example : ∃ s', Traced demoCfg [] demoStart kink s' (s'.hw + 1) ∧ kink.disc ⟨Set.univ, ∅⟩ ∧ allStmts idxStmt kink ∧
    0 < numInd (s'.tape (s'.hw + 1)) ∧ 0 < numDep (s'.tape (s'.hw + 1)) ∧ 0 < numSw (s'.tape (s'.hw + 1)) ∧
    ∀ x0 : Fin (numInd (s'.tape (s'.hw + 1))) → ℝ, ∃ e0, kink.spec (ext x0) (fun _ => 0) demoStart.se = some (e0, kink.path demoCfg demoStart) ∧
      kink.smoothAN (ext x0) (fun _ => 0) demoStart.se := by
  obtain ⟨e, h1, h2, h3⟩ := kink_spec demoCfg.x demoCfg.par
  obtain ⟨s', h4, h5⟩ := traced_exists (stock := []) demo_alloc demo_start
    (by simp [kink, Prog.noFminLL, Stmt.notFminLL]) h1
  obtain ⟨e', g1, g2, g3⟩ := kink_spec (ext (fun _ => 0 : Fin 2 → ℝ)) (fun _ => 0)
  obtain ⟨c1, c2, c3⟩ := counts h4 (fun _ => 0) (fun _ => 0 : Fin 2 → ℝ) (by rw [h5]; exact g1) (kink_smooth _ _)
  refine ⟨s', h4, by simp [kink, Prog.disc, Stmt.disc, Stmt.discNext, Stmt.uses], by simp [kink, allStmts, idxStmt],
    by rw [← c2, g2]; omega, by rw [← c3, g3]; simp, by rw [← c1, kink_switches]; simp, fun x0 => ?_⟩
  obtain ⟨e', g1, g2, g3⟩ := kink_spec (ext x0) (fun _ => 0)
  exact ⟨e', by rw [h5]; exact g1, kink_smooth _ _⟩

/-! ### Where the code deviates -/

/-- `y = x0 / x1` computed in the object of `x1` (the excluded calls): the row of `y` lists `x0` only, and so does every
result. -/
theorem C64_lost_column {K : Type} [Scalar K] :
    jacPatANF 2 ([.assignInd 0, .assignInd 1, .divAA 0 1 1, .assignDep 1, .deathNot 0 1] : List (Base K)) = .ok [[1, 0]] := rfl

/-- With manual memory the call looks at `dims()`, not at the blocks: an object whose four blocks have been given exactly the
right numbers of entries, but not through `SparseANF::resize`, is refused; here `y = |x|`. -/
theorem C64_manual_looks_at_dims (cp : Colouring) (w : AJunk ℝ) (J : SJ) :
    let ops : List (Base ℝ) := [.assignInd 0, .absVal 0 1 1, .assignDep 1, .deathNot 0 1]
    let A : SANF ℝ := ⟨(0, 0, 0, 0), [], [(0, 0, 0)], [(0, 0, 0)], [], [], [], [], []⟩
    (A.Y.length, A.J.length, A.Z.length, A.L.length) = countANF [[1, 1], [1, 0]] 1 1 ∧
    jacPatANF 1 ops = .ok [[1, 1], [1, 0]] ∧
    ∃ J', sparseANF cp true ops (fun _ => 0) true 1 1 1 false (fun _ => 1) w J A = .ret (-3) J' A := by
  intro ops A
  refine ⟨by decide +kernel, rfl, ?_⟩
  have hc : anfCounts ops true 1 1 1 := ⟨by decide +kernel, by decide +kernel, rfl, by decide +kernel⟩
  have hp : jacPatANF 1 ops = .ok [[1, 1], [1, 0]] := rfl
  refine ⟨⟨[[1, 1], [1, 0]].map some, some (.row, (cp .row [[1, 1], [1, 0]] (1 + 1)).1, (cp .row [[1, 1], [1, 0]] (1 + 1)).2), nnz [[1, 1], [1, 0]],
    (cp .row [[1, 1], [1, 0]] (1 + 1)).2, 1 + 1⟩, ?_⟩
  have hb : buildANF cp ops true 1 1 1 J = .ok ⟨[[1, 1], [1, 0]].map some, some (.row, (cp .row [[1, 1], [1, 0]] (1 + 1)).1, (cp .row [[1, 1], [1, 0]] (1 + 1)).2), nnz [[1, 1], [1, 0]],
    (cp .row [[1, 1], [1, 0]] (1 + 1)).2, 1 + 1⟩ := by
    unfold buildANF
    rw [if_neg (not_not.2 hc), hp]
  simp only [sparseANF, Bool.false_eq_true, if_false, hb, allRows_some, true_and]
  rw [if_pos (by decide +kernel)]

/-- The data of both kinds of call are in one place: a repeated call after a first call of `sparse_jac` for a `SparseMatrix`
(row compression) is undefined behaviour as soon as there is a switch. -/
theorem C64_repeat_after_smooth {cp : Colouring} {m n q : ℕ} {JP : List (List ℕ)} {J : SJ} (hJ : Ready .row m n JP J)
    (hk : 0 < J.rows) (hn : 0 < n) (hq : 0 < q) (ops : List (Base ℝ)) (par x : ℕ → ℝ) (w : AJunk ℝ) (A : SANF ℝ) :
    sparseANF cp false ops par true m n q true x w J A = .undef := by
  obtain ⟨col, k, g1, g2, _⟩ := hJ.graph
  obtain ⟨_, g3, g4⟩ := g2 rfl
  simp only [sparseANF, if_true]
  rw [if_neg (by simp only [not_or]; exact ⟨by simp [g1], by omega, by omega⟩)]
  rw [hJ.rows, allRows_some]
  simp only [Bool.false_eq_true, false_and, if_false]
  unfold computeANF
  simp only [g1, hJ.rows, allRows_some]
  rw [if_pos (by left; omega)]

/-- **C64**: `repeat = 1` without an earlier call is refused with -3; nothing is changed. -/
theorem C64_repeat_first (cp : Colouring) (manual : Bool) (ops : List (Base ℝ)) (par : ℕ → ℝ) (mm : Bool) (m n q : ℕ) (x : ℕ → ℝ)
    (w : AJunk ℝ) (J : SJ) (hJ : J.graph = none) (A : SANF ℝ) :
    sparseANF cp manual ops par mm m n q true x w J A = .ret (-3) J A := by
  simp only [sparseANF, if_true, hJ, true_or]

end Verif.Props.SparseANF
