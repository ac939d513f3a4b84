import Verif.Drivers.Model
import Verif.Props.HORevVec
import Verif.AD.Hess
import Verif.AD.FovZero
import Verif.Props.AD2

/-!
# C28: the easy-to-use drivers

Reading guide: `p.out (ext x) par s.se j` is the `j`-th output of the traced program at the point `x`; `D F x v`
below are Mathlib's Fréchet derivatives of it.  See `Props/AD.lean` for `Traced`.
-/
set_option linter.all false
namespace Verif.Props.Drivers
open Verif.AD Verif.Props.AD Verif.Drivers Elem Filter Topology

variable {cfg : RCfg ℝ} {stock : List (Nat × List ℝ)} {s s' : Rec ℝ} {p : Prog ℝ} {N : Nat}

/-- The `j`-th output of the traced program as a function of the `n` independents. -/
noncomputable def F (p : Prog ℝ) (s : Rec ℝ) (par : Nat → ℝ) (n j : Nat) (x : Fin n → ℝ) : ℝ := p.out (ext x) par s.se j

/-- The finished trace. -/
def tapeOf (s' : Rec ℝ) (N : Nat) (par : Nat → ℝ) (n m : Nat) : Tape ℝ := ⟨s'.tape N, par, n, m⟩

theorem _root_.Verif.AD.Prog.smooth_fwd {x par : Nat → ℝ} {p : Prog ℝ} {e : SE ℝ} (h : p.smooth .rev x par e) : p.smooth .fwd x par e := by
  refine Prog.smooth_mono (fun s e h => ?_) h
  cases s
  case un f a d =>
    intro v hv
    have := h v hv
    cases f <;> simp_all [Un.smooth, Sm.pow0]
    case pow k => tauto
  case bin f lv a b d => cases f <;> exact h
  all_goals exact h

/-- `function` returns the outputs of the program. -/
theorem C28_function (h : Traced cfg stock s p s' N) (par : Nat → ℝ) {n : Nat} (x0 : Fin n → ℝ) {e0 : SE ℝ}
    (hspec : p.spec (ext x0) par s.se = some (e0, p.path cfg s)) (m : Nat) :
    Drivers.function (tapeOf s' N par n m) (ext x0) = .ok e0.ys := by
  obtain ⟨z, h1, h2⟩ := C09_zos_forward h (ext x0) par false hspec
  simp only [Drivers.function, Tape.zos, tapeOf, h1, fwd, Bind.bind, Except.bind, h2]

/-- `gradient` of a scalar-valued trace. -/
theorem C28_gradient_partial (h : Traced cfg stock s p s' N) (hd : p.disc ⟨Set.univ, ∅⟩) (par : Nat → ℝ) {n : Nat}
    (x0 : Fin n → ℝ) {e0 : SE ℝ} (hspec : p.spec (ext x0) par s.se = some (e0, p.path cfg s)) (hn : e0.ii = n)
    (hm : e0.ys.length = 1) (hsm : p.smooth .rev (ext x0) par s.se) :
    DifferentiableAt ℝ (F p s par n 0) x0 ∧
    ∃ g, gradient (tapeOf s' N par n 1) (ext x0) = .ok g ∧ ∀ i : Fin n, g i = fderiv ℝ (F p s par n 0) x0 (Pi.single i 1) := by
  obtain ⟨z, hz, D, hD, r, hr, _, hb⟩ := C13_fos_reverse_partial h hd par x0 hspec hn hsm (fun _ => 1)
  refine ⟨(hD 0).differentiableAt, r.bar, ?_, fun i => ?_⟩
  · rw [hm] at hr
    simp only [gradient, Tape.zos, tapeOf, hz, hr, fwd, rev, Bind.bind, Except.bind]
  · rw [hb i, hm]
    rw [show F p s par n 0 = fun x => p.out (ext x) par s.se 0 from rfl, (hD 0).fderiv]
    simp

/-- `vec_jac` with `repeat = 0`: the row `uᵀ F'(x0)`; the code is the smaller of those of its sweeps. -/
theorem C28_vec_jac_partial (h : Traced cfg stock s p s' N) (hd : p.disc ⟨Set.univ, ∅⟩) (par : Nat → ℝ) {n : Nat}
    (x0 : Fin n → ℝ) {e0 : SE ℝ} (hspec : p.spec (ext x0) par s.se = some (e0, p.path cfg s)) (hn : e0.ii = n)
    (hsm : p.smooth .rev (ext x0) par s.se) (kept : List ℝ) (rrc : Int) (u : Nat → ℝ) :
    ∃ z row, zosRun ⟨ext x0, par, true⟩ (s'.tape N) ZS.init = .ok z ∧
      vecJac (tapeOf s' N par n e0.ys.length) false kept rrc (ext x0) u = .ok (min rrc z.rc, row) ∧
      ∀ i : Fin n, row i = ∑ j ∈ Finset.range e0.ys.length, u j * fderiv ℝ (F p s par n j) x0 (Pi.single i 1) := by
  obtain ⟨z, hz, D, hD, r, hr, _, hb⟩ := C13_fos_reverse_partial h hd par x0 hspec hn hsm u
  refine ⟨z, r.bar, hz, ?_, fun i => ?_⟩
  · simp only [vecJac, Tape.zos, tapeOf, hz, hr, fwd, rev, Bind.bind, Except.bind, Bool.false_eq_true, if_false]
    congr 2
    split_ifs <;> omega
  · rw [hb i]
    exact Finset.sum_congr rfl fun j _ => by rw [show F p s par n j = fun x => p.out (ext x) par s.se j from rfl, (hD j).fderiv]

/-- `vec_jac` with `repeat ≠ 0` after a call at the same point returns the right row, but always with a
negative code: `rc` is initialised with -1 and `MINDEC` only decreases it (drivers.cpp:59, 69).  The manual
(and every caller) reads a negative code as failure. -/
theorem C28_vec_jac_repeat (h : Traced cfg stock s p s' N) (hd : p.disc ⟨Set.univ, ∅⟩) (par : Nat → ℝ) {n : Nat}
    (x0 : Fin n → ℝ) {e0 : SE ℝ} (hspec : p.spec (ext x0) par s.se = some (e0, p.path cfg s)) (hn : e0.ii = n)
    (hsm : p.smooth .rev (ext x0) par s.se) (rrc : Int) (u : Nat → ℝ) :
    ∃ z row, zosRun ⟨ext x0, par, true⟩ (s'.tape N) ZS.init = .ok z ∧
      vecJac (tapeOf s' N par n e0.ys.length) true z.stk rrc (ext x0) u = .ok (min rrc (-1), row) ∧
      ∀ i : Fin n, row i = ∑ j ∈ Finset.range e0.ys.length, u j * fderiv ℝ (F p s par n j) x0 (Pi.single i 1) := by
  obtain ⟨z, hz, D, hD, r, hr, _, hb⟩ := C13_fos_reverse_partial h hd par x0 hspec hn hsm u
  refine ⟨z, r.bar, hz, ?_, fun i => ?_⟩
  · simp only [vecJac, Tape.zos, tapeOf, hr, rev, Bind.bind, Except.bind, if_true]
    congr 2
    split_ifs <;> omega
  · rw [hb i]
    exact Finset.sum_congr rfl fun j _ => by rw [show F p s par n j = fun x => p.out (ext x) par s.se j from rfl, (hD j).fderiv]

/-- `jac_vec`: the column `F'(x0) v`. -/
theorem C28_jac_vec_partial (h : Traced cfg stock s p s' N) (par : Nat → ℝ) {n : Nat}
    (x0 : Fin n → ℝ) {e0 : SE ℝ} (hspec : p.spec (ext x0) par s.se = some (e0, p.path cfg s))
    (hsm : p.smooth .fwd (ext x0) par s.se) (v : Fin n → ℝ) :
    ∃ col, jacVec (tapeOf s' N par n e0.ys.length) (ext x0) (ext v) = .ok col ∧ col.length = e0.ys.length ∧
      ∀ j, col[j]?.getD 0 = fderiv ℝ (F p s par n j) x0 v := by
  obtain ⟨D, hD, hf⟩ := C11_fos_forward_partial h par false x0 hspec hsm
  obtain ⟨f, h1, h2, h3, h4⟩ := hf v
  refine ⟨f.dy, ?_, h3, fun j => ?_⟩
  · simp only [jacVec, tapeOf, h1, fwd, Bind.bind, Except.bind]
  · rw [h4 j, show F p s par n j = fun x => p.out (ext x) par s.se j from rfl, (hD j).fderiv]

theorem ident_col {n l : Nat} (hl : l < n) : (fun i => (ident n i l : ℝ)) = ext (Pi.single (⟨l, hl⟩ : Fin n) 1) := by
  funext i
  simp only [ident, ext, identCell]
  by_cases hi : i < n
  · simp only [hi, dif_pos, if_pos, Pi.single_apply, Fin.mk.injEq]
    congr 1
    exact propext ⟨fun h => by omega, fun h => by omega⟩
  · simp [hi]

/-- The trace never takes a logarithm at zero. -/
theorem along_log (h : Traced cfg stock s p s' N) (par : Nat → ℝ) {x : Nat → ℝ} {e0 : SE ℝ}
    (hspec : p.spec x par s.se = some (e0, p.path cfg s)) (hsm : p.smooth .fwd x par s.se) :
    Along logArgNonzero ⟨x, par, false⟩ (s'.tape N) ZS.init := by
  refine Along_mono (fun o T h => ?_) (recorded_smooth h.alloc p h.start h.recorded (fun _ => 0) ⟨x, par, false⟩ hspec hsm N)
  have h := h.1
  cases o <;> simp only [logArgNonzero]
  exact ne_of_gt h

theorem fov_columns (h : Traced cfg stock s p s' N) (par : Nat → ℝ) {n : Nat}
    (x0 : Fin n → ℝ) {e0 : SE ℝ} (hspec : p.spec (ext x0) par s.se = some (e0, p.path cfg s))
    (hsm : p.smooth .fwd (ext x0) par s.se) (q : Nat) (V : Nat → Nat → ℝ) (hV : ∀ l < q, ∃ v : Fin n → ℝ, (fun i => V i l) = ext v) (hq : 0 < q) :
    ∃ w, fovRun ⟨ext x0, par, false⟩ q V (s'.tape N) VS.init = .ok w ∧ ∀ l < q, ∀ v : Fin n → ℝ, (fun i => V i l) = ext v →
      ∀ j, (w.dy[j]?.getD [])[l]?.getD 0 = fderiv ℝ (F p s par n j) x0 v := by
  have hlog := along_log h par hspec hsm
  obtain ⟨D, hD, hf⟩ := C11_fos_forward_partial h par false x0 hspec hsm
  have key : ∀ l < q, ∀ v : Fin n → ℝ, (fun i => V i l) = ext v → ∃ w, fovRun ⟨ext x0, par, false⟩ q V (s'.tape N) VS.init = .ok w ∧
      ∀ j, (w.dy[j]?.getD [])[l]?.getD 0 = fderiv ℝ (F p s par n j) x0 v := by
    intro l hl v hv
    obtain ⟨f, h1, h2, h3, h4⟩ := hf v
    rcases C12_fov_columns_partial _ q V _ hlog l hl with ⟨e, h5, h6⟩ | ⟨w, f', h5, h6, h7, h8, _⟩
    · rw [hv, h1] at h6; cases h6
    · rw [hv, h1] at h6; cases h6
      refine ⟨w, h5, fun j => ?_⟩
      rw [show F p s par n j = fun x => p.out (ext x) par s.se j from rfl, (hD j).fderiv, ← h4 j, ← h8]
      simp only [List.getElem?_map]
      cases w.dy[j]? <;> simp
  obtain ⟨v0, hv0⟩ := hV 0 hq
  obtain ⟨w, hw, _⟩ := key 0 hq v0 hv0
  refine ⟨w, hw, fun l hl v hv => ?_⟩
  obtain ⟨w', hw', h'⟩ := key l hl v hv
  rw [hw] at hw'
  cases hw'
  exact h'

/-- `jacobian`, both branches: the Jacobian matrix. -/
theorem C28_jacobian_partial (h : Traced cfg stock s p s' N) (hd : p.disc ⟨Set.univ, ∅⟩) (par : Nat → ℝ) {n : Nat} (hn0 : 0 < n)
    (x0 : Fin n → ℝ) {e0 : SE ℝ} (hspec : p.spec (ext x0) par s.se = some (e0, p.path cfg s)) (hn : e0.ii = n)
    (hm0 : 0 < e0.ys.length) (hsm : p.smooth .rev (ext x0) par s.se) :
    ∃ J, jacobian (tapeOf s' N par n e0.ys.length) (ext x0) = .ok J ∧
      ∀ j < e0.ys.length, ∀ i : Fin n, J j i = fderiv ℝ (F p s par n j) x0 (Pi.single i 1) := by
  by_cases hb : n / 2 < e0.ys.length
  · obtain ⟨w, h1, h2⟩ := fov_columns h par x0 hspec (Prog.smooth_fwd hsm) n (ident n) (fun l hl => ⟨_, ident_col hl⟩) hn0
    refine ⟨fun j i => (w.dy[j]?.getD [])[i]?.getD 0, ?_, fun j hj i => h2 i i.2 _ (ident_col i.2) j⟩
    simp only [jacobian, tapeOf, if_pos hb, h1, fwd, Bind.bind, Except.bind]
  · obtain ⟨z, hz, D, hD, w, hw, _, h2⟩ := C14_fov_reverse_matrix h hd par x0 hspec hn hsm e0.ys.length hm0 (ident e0.ys.length)
    refine ⟨w.bar, ?_, fun j hj i => ?_⟩
    · simp only [jacobian, Tape.zos, tapeOf, if_neg hb, hz, hw, fwd, rev, Bind.bind, Except.bind]
    · rw [h2 j hj i, show F p s par n j = fun x => p.out (ext x) par s.se j from rfl, (hD j).fderiv, Finset.sum_eq_single j]
      · simp [ident, identCell, hj, Nat.sub_add_cancel (show j ≤ e0.ys.length - 1 by omega)]
      · intro k hk hkj
        have hk := Finset.mem_range.1 hk
        have : ¬ e0.ys.length - 1 - j + k = e0.ys.length - 1 := by omega
        simp [ident, identCell, hj, this]
      · intro h; exact absurd (Finset.mem_range.2 hj) h

theorem fov_chunk (h : Traced cfg stock s p s' N) (par : Nat → ℝ) {n : Nat}
    (x0 : Fin n → ℝ) {e0 : SE ℝ} (hspec : p.spec (ext x0) par s.se = some (e0, p.path cfg s))
    (hsm : p.smooth .fwd (ext x0) par s.se) (o d : Nat) (hod : o + d ≤ n) :
    ∃ w, fovRun ⟨ext x0, par, false⟩ d (fun i l => ident n i (l + o)) (s'.tape N) VS.init = .ok w ∧
      ∀ i : Fin n, o ≤ i → i < o + d → ∀ j, (w.dy[j]?.getD [])[(i:Nat) - o]?.getD 0 = fderiv ℝ (F p s par n j) x0 (Pi.single i 1) := by
  rcases Nat.eq_zero_or_pos d with rfl | hd
  · have h0 := fov_zero_run ⟨ext x0, par, false⟩ (fun i l => ident n i (l + o)) (s'.tape N) (w := VS.init) (z := ZS.init) ⟨rfl, rfl⟩
    obtain ⟨z, hz, _⟩ := C09_zos_forward h (ext x0) par false hspec
    rw [hz] at h0
    cases h1 : fovRun ⟨ext x0, par, false⟩ 0 (fun i l => ident n i (l + o)) (s'.tape N) VS.init with
    | error e => rw [h1] at h0; exact h0.elim
    | ok w => exact ⟨w, rfl, fun i h1 h2 => by omega⟩
  · obtain ⟨w, h1, h2⟩ := fov_columns h par x0 hspec hsm d (fun i l => ident n i (l + o)) (fun l hl => ⟨_, ident_col (by omega)⟩) hd
    refine ⟨w, h1, fun i hi1 hi2 j => ?_⟩
    refine h2 (i - o) (by omega) _ ?_ j
    have : (i:Nat) - o + o = i := by omega
    simp only [this]
    exact ident_col i.2

theorem large_fold (h : Traced cfg stock s p s' N) (par : Nat → ℝ) {n : Nat}
    (x0 : Fin n → ℝ) {e0 : SE ℝ} (hspec : p.spec (ext x0) par s.se = some (e0, p.path cfg s))
    (hsm : p.smooth .fwd (ext x0) par s.se) (m : Nat) (L : List (Int × Int))
    (hL : ∀ od ∈ L, 0 ≤ od.1 ∧ 0 ≤ od.2 ∧ od.1 + od.2 ≤ n) (J : Nat → Nat → ℝ) :
    ∃ J', L.foldlM (fun J (od : Int × Int) => (do
        let w ← fwd (fovRun ⟨ext x0, par, false⟩ od.2.toNat (fun i l => ident n i (l + od.1.toNat)) (s'.tape N) VS.init)
        .ok fun j i => if j < m ∧ od.1.toNat ≤ i ∧ i < od.1.toNat + od.2.toNat then (w.dy[j]?.getD [])[i - od.1.toNat]?.getD 0 else J j i :
          Except DErr (Nat → Nat → ℝ))) J = .ok J' ∧
      (∀ j < m, ∀ i : Fin n, (∃ od ∈ L, od.1 ≤ i ∧ (i : Int) < od.1 + od.2) ∨ J j i = fderiv ℝ (F p s par n j) x0 (Pi.single i 1) →
        J' j i = fderiv ℝ (F p s par n j) x0 (Pi.single i 1)) := by
  induction L generalizing J with
  | nil => exact ⟨J, rfl, fun j hj i h => by simpa using h⟩
  | cons od L ih =>
    obtain ⟨h1, h2, h3⟩ := hL od (by simp)
    obtain ⟨w, hw, hc⟩ := fov_chunk h par x0 hspec hsm od.1.toNat od.2.toNat (by omega)
    obtain ⟨J', hJ, hJ'⟩ := ih (fun od h => hL od (by simp [h])) (fun j i => if j < m ∧ od.1.toNat ≤ i ∧ i < od.1.toNat + od.2.toNat then
      (w.dy[j]?.getD [])[i - od.1.toNat]?.getD 0 else J j i)
    refine ⟨J', ?_, fun j hj i hi => hJ' j hj i ?_⟩
    · simp only [List.foldlM_cons, hw, fwd, Bind.bind, Except.bind] at hJ ⊢
      exact hJ
    · by_cases hin : od.1.toNat ≤ i ∧ (i:Nat) < od.1.toNat + od.2.toNat
      · right
        rw [if_pos ⟨hj, hin⟩]
        exact hc i hin.1 hin.2 j
      · rw [if_neg (by tauto)]
        rcases hi with ⟨od', ho, hi⟩ | hi
        · rcases List.mem_cons.1 ho with rfl | ho
          · exact absurd (show od'.1.toNat ≤ i ∧ (i:Nat) < od'.1.toNat + od'.2.toNat by omega) hin
          · exact .inl ⟨od', ho, hi⟩
        · exact .inr hi

/-- `runns` after the two clamps of `large_jacobian`, and the number of directions per sweep. -/
def clamp (n : Nat) (runns : Int) : Nat := max 1 (min runns.toNat n)
def perRun (n : Nat) (runns : Int) : Nat := (n + clamp n runns - 1) / clamp n runns

theorem chunks_eq (n : Nat) (runns : Int) : chunks n runns =
    (List.range (clamp n runns - 1)).map (fun i : Nat => ((i : Int) * perRun n runns, (perRun n runns : Int))) ++
      [((n : Int) - (n - (clamp n runns - 1 : Nat) * perRun n runns), (n : Int) - (clamp n runns - 1 : Nat) * perRun n runns)] := by
  have hr : (if (if runns > (n:Int) then (n:Int) else runns) < 1 then 1 else (if runns > (n:Int) then (n:Int) else runns)) = (clamp n runns : Int) := by
    unfold clamp; split_ifs <;> omega
  have hr1 : 0 < clamp n runns := by unfold clamp; omega
  have hd : (if Int.tmod n (clamp n runns) ≠ 0 then Int.tdiv n (clamp n runns) + 1 else Int.tdiv n (clamp n runns)) = (perRun n runns : Int) := by
    unfold perRun
    generalize clamp n runns = r at hr1
    rw [Int.tmod_eq_emod_of_nonneg (Int.natCast_nonneg n), Int.tdiv_eq_ediv_of_nonneg (Int.natCast_nonneg n)]
    have h1 : (n : Int) % (r : Int) = ((n % r : Nat) : Int) := by simp
    have h2 : (n : Int) / (r : Int) = ((n / r : Nat) : Int) := by simp
    rw [h1, h2]
    have hdm := Nat.div_add_mod n r
    have hml := Nat.mod_lt n hr1
    generalize n / r = q at *
    generalize n % r = k at *
    split_ifs with h
    · have : n + r - 1 = r * (q + 1) + (k - 1) := by rw [Nat.mul_add]; omega
      rw [this, Nat.mul_add_div hr1, Nat.div_eq_of_lt (by omega)]; simp
    · have : n + r - 1 = r * q + (r - 1) := by omega
      rw [this, Nat.mul_add_div hr1, Nat.div_eq_of_lt (by omega)]; simp
  unfold chunks
  simp only [hr, hd]
  have : ((clamp n runns : Int) - 1) = ((clamp n runns - 1 : Nat) : Int) := by omega
  rw [this]
  simp

/-- `large_jacobian`, if the chunks fit: `(r - 1) * ⌈n/r⌉ ≤ n` for `r = runns` (clamped to `1..n`).  The
Jacobian, whatever `J` contained before. -/
theorem C28_large_jacobian_partial (h : Traced cfg stock s p s' N) (par : Nat → ℝ) {n : Nat}
    (x0 : Fin n → ℝ) {e0 : SE ℝ} (hspec : p.spec (ext x0) par s.se = some (e0, p.path cfg s))
    (hsm : p.smooth .fwd (ext x0) par s.se) (runns : Int) (J : Nat → Nat → ℝ)
    (hfit : (clamp n runns - 1) * perRun n runns ≤ n) :
    ∃ J', largeJacobian (tapeOf s' N par n e0.ys.length) runns (ext x0) J = .ok J' ∧
      ∀ j < e0.ys.length, ∀ i : Fin n, J' j i = fderiv ℝ (F p s par n j) x0 (Pi.single i 1) := by
  have hin : ∀ od ∈ chunks n runns, 0 ≤ od.1 ∧ 0 ≤ od.2 ∧ od.1 + od.2 ≤ n := by
    rw [chunks_eq]
    intro od hod
    have hf : (((clamp n runns - 1 : Nat) * perRun n runns : Nat) : Int) ≤ n := by exact_mod_cast hfit
    push_cast at hf
    rcases List.mem_append.1 hod with ho | ho
    · obtain ⟨i, hi, rfl⟩ := List.mem_map.1 ho
      have hi := List.mem_range.1 hi
      have h2 : ((i + 1) * perRun n runns) ≤ (clamp n runns - 1) * perRun n runns := Nat.mul_le_mul_right _ hi
      have h3 : (((i + 1) * perRun n runns : Nat) : Int) ≤ n := by exact_mod_cast le_trans h2 hfit
      push_cast at h3
      refine ⟨by positivity, by positivity, by simp only; nlinarith⟩
    · obtain rfl := List.mem_singleton.1 ho
      exact ⟨by simp only [sub_sub_cancel]; positivity, by simp only; linarith, by simp only; omega⟩
  obtain ⟨J', h1, h2⟩ := large_fold h par x0 hspec hsm e0.ys.length (chunks n runns) hin J
  refine ⟨J', h1, fun j hj i => h2 j hj i (.inl ?_)⟩
  rw [chunks_eq]
  by_cases hlt : (i : Nat) < (clamp n runns - 1) * perRun n runns
  · have hp : 0 < perRun n runns := by
      rcases Nat.eq_zero_or_pos (perRun n runns) with h0 | h0
      · rw [h0] at hlt; simp at hlt
      · exact h0
    refine ⟨_, List.mem_append_left _ (List.mem_map.2 ⟨(i : Nat) / perRun n runns, List.mem_range.2 ((Nat.div_lt_iff_lt_mul hp).2 hlt), rfl⟩), ?_, ?_⟩
    · have := Nat.div_mul_le_self (i : Nat) (perRun n runns)
      show ((((i : Nat) / perRun n runns : Nat) : Int) * perRun n runns) ≤ ((i : Nat) : Int)
      exact_mod_cast this
    · have := Nat.div_add_mod (i : Nat) (perRun n runns)
      have h3 := Nat.mod_lt (i : Nat) hp
      have h4 : (i : Nat) < (i : Nat) / perRun n runns * perRun n runns + perRun n runns := by rw [mul_comm]; omega
      show ((i : Nat) : Int) < (((i : Nat) / perRun n runns : Nat) : Int) * perRun n runns + perRun n runns
      exact_mod_cast h4
  · refine ⟨_, List.mem_append_right _ (List.mem_singleton.2 rfl), ?_, ?_⟩
    · have h3 : (clamp n runns - 1) * perRun n runns ≤ i := by omega
      have h4 : (((clamp n runns - 1 : Nat) * perRun n runns : Nat) : Int) ≤ i := by exact_mod_cast h3
      push_cast at h4
      simp only [sub_sub_cancel]; exact h4
    · have := i.2
      simp only; omega

/-- Otherwise one of the sweeps is asked for columns beyond the `n` columns of the identity and of the
caller's array: `I[0][n]` and `J[0][n]` are accessed out of bounds. -/
theorem C28_large_jacobian_overrun (n : Nat) (runns : Int) (hfit : n < (clamp n runns - 1) * perRun n runns) :
    ∃ od ∈ chunks n runns, 0 ≤ od.1 ∧ 0 < od.2 ∧ (n : Int) < od.1 + od.2 := by
  rw [chunks_eq]
  have hc : 2 ≤ clamp n runns := by
    by_contra hc
    have : clamp n runns - 1 = 0 := by omega
    rw [this] at hfit; simp at hfit
  have hp : 0 < perRun n runns := by
    rcases Nat.eq_zero_or_pos (perRun n runns) with h0 | h0
    · rw [h0] at hfit; simp at hfit
    · exact h0
  refine ⟨_, List.mem_append_left _ (List.mem_map.2 ⟨clamp n runns - 2, List.mem_range.2 (by omega), rfl⟩), by positivity, by simpa using hp, ?_⟩
  have : (clamp n runns - 1) * perRun n runns = (clamp n runns - 2) * perRun n runns + perRun n runns := by
    rw [show clamp n runns - 1 = clamp n runns - 2 + 1 by omega, Nat.succ_mul]
  rw [this] at hfit
  show (n : Int) < ((clamp n runns - 2 : Nat) : Int) * perRun n runns + perRun n runns
  exact_mod_cast hfit

/-- `large_jacobian(tag, m, 5, 4, …)` is such a call: its third sweep uses columns 4 and 5, and its last sweep
is asked for -1 directions. -/
example : 5 < (clamp 5 4 - 1) * perRun 5 4 := by decide
example : chunks 5 4 = [(0, 2), (2, 2), (4, 2), (6, -1)] := by decide
/-- 10 columns in 3 runs fit. -/
example : (clamp 10 3 - 1) * perRun 10 3 ≤ 10 := by decide
example : chunks 10 3 = [(0, 4), (4, 4), (8, 2)] := by decide

/-- `lagra_hess_vec`: `∑_j u_j F_j''(x0) v`, where along the line `x0 + t v` near `t = 0` the program's elementary
functions are smooth (same restrictions as C18). -/
theorem C28_lagra_hess_vec_partial (h : Traced cfg stock s p s' N) (hd : p.disc ⟨Set.univ, ∅⟩) (par : Nat → ℝ) {n : Nat}
    (x0 v : Fin n → ℝ) {e0 : SE ℝ} (hspec : p.spec (ext x0) par s.se = some (e0, p.path cfg s)) (hn : e0.ii = n)
    (hsm : ∀ᶠ t in 𝓝 (0:ℝ), p.smooth .hor (ext (x0 + t • v)) par s.se) (u : Nat → ℝ) :
    ∃ w, lagraHessVec (tapeOf s' N par n e0.ys.length) (ext x0) (ext v) u = .ok w ∧
      ∀ i : Fin n, w i = ∑ j ∈ Finset.range e0.ys.length, u j * fderiv ℝ (fderiv ℝ (F p s par n j)) x0 v (Pi.single i 1) := by
  obtain ⟨f, R, h1, h2, h3, h4, h5⟩ := recorded_hess h.alloc p h.start h.recorded hd par x0 v hspec hn hsm h.pos h.size u
  refine ⟨fun i => R.Z i 1, ?_, fun i => h5 i⟩
  simp only [lagraHessVec, tapeOf, h1, h3, fwd, hrev, Bind.bind, Except.bind]

/-- `hess_vec`: the product of the Hessian with `v`. -/
theorem C28_hess_vec_partial (h : Traced cfg stock s p s' N) (hd : p.disc ⟨Set.univ, ∅⟩) (par : Nat → ℝ) {n : Nat}
    (x0 v : Fin n → ℝ) {e0 : SE ℝ} (hspec : p.spec (ext x0) par s.se = some (e0, p.path cfg s)) (hn : e0.ii = n) (hm : e0.ys.length = 1)
    (hsm : ∀ᶠ t in 𝓝 (0:ℝ), p.smooth .hor (ext (x0 + t • v)) par s.se) :
    ∃ w, hessVec (tapeOf s' N par n 1) (ext x0) (ext v) = .ok w ∧
      ∀ i : Fin n, w i = fderiv ℝ (fderiv ℝ (F p s par n 0)) x0 v (Pi.single i 1) := by
  obtain ⟨w, h1, h2⟩ := C28_lagra_hess_vec_partial h hd par x0 v hspec hn hsm (fun _ => 1)
  rw [hm] at h1 h2
  refine ⟨w, h1, fun i => ?_⟩
  rw [h2 i]; simp

theorem upd_ext {n : Nat} (i : Fin n) : upd (fun _ => (0:ℝ)) i 1 = ext (Pi.single i 1) := by
  funext k
  simp only [upd_apply, ext, Pi.single_apply]
  by_cases hk : k < n
  · simp only [hk, dif_pos, Fin.ext_iff]
  · have : k ≠ i := by omega
    simp [hk, this]

/-- `hessian`: the lower triangle of the Hessian; the rest of the array is left as it was. -/
theorem C28_hessian_partial (h : Traced cfg stock s p s' N) (hd : p.disc ⟨Set.univ, ∅⟩) (par : Nat → ℝ) {n : Nat}
    (x0 : Fin n → ℝ) {e0 : SE ℝ} (hspec : p.spec (ext x0) par s.se = some (e0, p.path cfg s)) (hn : e0.ii = n) (hm : e0.ys.length = 1)
    (hsm : ∀ i : Fin n, ∀ᶠ t in 𝓝 (0:ℝ), p.smooth .hor (ext (x0 + t • Pi.single i 1)) par s.se) (H0 : Nat → Nat → ℝ) :
    ∃ H, hessian (tapeOf s' N par n 1) (ext x0) H0 = .ok H ∧
      (∀ i j : Fin n, j ≤ i → H i j = fderiv ℝ (fderiv ℝ (F p s par n 0)) x0 (Pi.single i 1) (Pi.single j 1)) ∧
      ∀ a b, ¬ (a < n ∧ b ≤ a) → H a b = H0 a b := by
  have key : ∀ k ≤ n, ∃ H, (List.range k).foldlM (fun (vh : (Nat → ℝ) × (Nat → Nat → ℝ)) i => (do
      let v := upd vh.1 i 1
      let w ← hessVec (tapeOf s' N par n 1) (ext x0) v
      .ok (upd v i 0, fun a b => if a = i ∧ b ≤ i then w b else vh.2 a b) : Except DErr _)) ((fun _ => 0), H0) = .ok ((fun _ => 0), H) ∧
      (∀ i j : Fin n, (i:Nat) < k → j ≤ i → H i j = fderiv ℝ (fderiv ℝ (F p s par n 0)) x0 (Pi.single i 1) (Pi.single j 1)) ∧
      ∀ a b, ¬ (a < k ∧ b ≤ a) → H a b = H0 a b := by
    intro k
    induction k with
    | zero => exact fun _ => ⟨H0, rfl, fun i j h => by omega, fun a b _ => rfl⟩
    | succ k ih =>
      intro hk
      obtain ⟨H, h1, h2, h3⟩ := ih (by omega)
      obtain ⟨w, hw, hw'⟩ := C28_hess_vec_partial h hd par x0 (Pi.single (⟨k, by omega⟩ : Fin n) 1) hspec hn hm (hsm ⟨k, by omega⟩)
      rw [← upd_ext] at hw
      refine ⟨fun a b => if a = k ∧ b ≤ k then w b else H a b, ?_, fun i j hi hj => ?_, fun a b hab => ?_⟩
      · rw [List.range_succ, List.foldlM_append, h1]
        simp only [List.foldlM_cons, List.foldlM_nil, Bind.bind, Except.bind, hw, pure, Except.pure]
        congr 2
        rw [upd_upd, upd_self]
      · have hji : (j:Nat) ≤ i := hj
        rcases Nat.lt_succ_iff_lt_or_eq.1 hi with hi' | hi'
        · simp only [if_neg (show ¬ ((i:Nat) = k ∧ (j:Nat) ≤ k) by omega)]
          exact h2 i j hi' hj
        · simp only [if_pos (show ((i:Nat) = k ∧ (j:Nat) ≤ k) by omega)]
          have : i = ⟨k, by omega⟩ := Fin.ext hi'
          rw [this]
          exact hw' j
      · simp only [if_neg (show ¬ (a = k ∧ b ≤ k) by omega)]
        exact h3 a b (by omega)
  obtain ⟨H, h1, h2, h3⟩ := key n (le_refl _)
  refine ⟨H, ?_, fun i j hj => h2 i j i.2 hj, h3⟩
  simp only [hessian, Bind.bind, Except.bind] at h1 ⊢
  rw [show (tapeOf s' N par n 1).n = n from rfl, h1]

/-- The common part of `hess_mat` and `hessian2`: `Z[l][j][1]` is the `j`-th component of the Hessian times the `l`-th column of `V`. -/
theorem hessOv_spec (h : Traced cfg stock s p s' N) (hd : p.disc ⟨Set.univ, ∅⟩) (hns : HORevVec.noSums p) (par : Nat → ℝ) {n q : Nat} (hq : 0 < q)
    (x0 : Fin n → ℝ) (V : Fin n → Nat → ℝ) {e0 : SE ℝ} (hspec : p.spec (ext x0) par s.se = some (e0, p.path cfg s)) (hn : e0.ii = n) (hm : e0.ys.length = 1)
    (hsm : ∀ l, l < q → ∀ᶠ t in 𝓝 (0:ℝ), p.smooth .hor (ext (x0 + t • fun i => V i l)) par s.se) :
    ∃ Z, hessOv (tapeOf s' N par n 1) q (ext x0) (fun i l => ext (fun i => V i l) i) = .ok Z ∧
      ∀ l, l < q → ∀ j : Fin n, Z l j 1 = fderiv ℝ (fderiv ℝ (F p s par n 0)) x0 (fun i => V i l) (Pi.single j 1) := by
  obtain ⟨S, R, h1, h2, h3, h4⟩ := HORevVec.C42_hos_ov_reverse_partial h hd hns par (k := 1) (d := 1) (le_refl _) hq x0 (fun i l _ => V i l) (fun _ => 1)
    hspec hn (fun l hl => (hsm l hl).mono fun t ht => by rw [curve_one]; exact ht)
  rw [hm] at h2
  have e : (fun i l => extX (fun (i : Fin n) (_ : Nat) => V i l) i) = fun i l (_ : Nat) => ext (fun i => V i l) i := by
    funext i l j; simp only [extX, ext]; split_ifs <;> rfl
  rw [e] at h1
  refine ⟨R.Z, by simp only [hessOv, tapeOf, h1, h2, hfwd, hrev, Bind.bind, Except.bind], fun l hl j => ?_⟩
  rw [h4 l hl j 1 (le_refl _), hm]
  have hd := recorded_hess_line h.alloc p h.start h.recorded par x0 (fun i => V i l) hspec (by simpa using (hsm l hl).self_of_nhds) j 0
  simp only [Finset.range_one, Finset.sum_singleton, one_mul, iteratedDeriv_one, Nat.factorial_one, Nat.cast_one, div_one]
  exact hd.deriv

/-- `hess_mat`: the product of the Hessian with the `n × q` matrix `V` (programs without `a += b * c`, `a -= b * c` and `fmin`, see
`C42_dead_sum`, `C42_fmin`). -/
theorem C28_hess_mat_partial (h : Traced cfg stock s p s' N) (hd : p.disc ⟨Set.univ, ∅⟩) (hns : HORevVec.noSums p) (par : Nat → ℝ) {n q : Nat} (hq : 0 < q)
    (x0 : Fin n → ℝ) (V : Fin n → Nat → ℝ) {e0 : SE ℝ} (hspec : p.spec (ext x0) par s.se = some (e0, p.path cfg s)) (hn : e0.ii = n) (hm : e0.ys.length = 1)
    (hsm : ∀ l, l < q → ∀ᶠ t in 𝓝 (0:ℝ), p.smooth .hor (ext (x0 + t • fun i => V i l)) par s.se) (W0 : Nat → Nat → ℝ) :
    ∃ W, hessMat (tapeOf s' N par n 1) q (ext x0) (fun i l => ext (fun i => V i l) i) W0 = .ok W ∧
      (∀ (j : Fin n) l, l < q → W j l = fderiv ℝ (fderiv ℝ (F p s par n 0)) x0 (fun i => V i l) (Pi.single j 1)) ∧
      ∀ a b, ¬ (a < n ∧ b < q) → W a b = W0 a b := by
  obtain ⟨Z, h1, h2⟩ := hessOv_spec h hd hns par hq x0 V hspec hn hm hsm
  refine ⟨_, by simp only [hessMat, h1, Bind.bind, Except.bind]; rfl, fun j l hl => ?_, fun a b hab => if_neg hab⟩
  rw [← h2 l hl j]
  exact if_pos ⟨j.2, hl⟩

/-- `hessian2`: the lower triangle of the Hessian (same restriction); the rest of the array is left as it was. -/
theorem C28_hessian2_partial (h : Traced cfg stock s p s' N) (hd : p.disc ⟨Set.univ, ∅⟩) (hns : HORevVec.noSums p) (par : Nat → ℝ) {n : Nat} (hn0 : 0 < n)
    (x0 : Fin n → ℝ) {e0 : SE ℝ} (hspec : p.spec (ext x0) par s.se = some (e0, p.path cfg s)) (hn : e0.ii = n) (hm : e0.ys.length = 1)
    (hsm : ∀ i : Fin n, ∀ᶠ t in 𝓝 (0:ℝ), p.smooth .hor (ext (x0 + t • Pi.single i 1)) par s.se) (H0 : Nat → Nat → ℝ) :
    ∃ H, hessian2 (tapeOf s' N par n 1) (ext x0) H0 = .ok H ∧
      (∀ i j : Fin n, j ≤ i → H i j = fderiv ℝ (fderiv ℝ (F p s par n 0)) x0 (Pi.single i 1) (Pi.single j 1)) ∧
      ∀ a b, ¬ (a < n ∧ b ≤ a) → H a b = H0 a b := by
  have hV : ∀ l (hl : l < n), (fun i : Fin n => if (i : Nat) = l then (1:ℝ) else 0) = Pi.single ⟨l, hl⟩ 1 := by
    intro l hl
    funext i
    simp [Pi.single_apply, Fin.ext_iff]
  obtain ⟨Z, h1, h2⟩ := hessOv_spec h hd hns par hn0 x0 (fun i l => if (i : Nat) = l then 1 else 0) hspec hn hm
    (fun l hl => by rw [hV l hl]; exact hsm ⟨l, hl⟩)
  have e : hessOv (tapeOf s' N par n 1) n (ext x0) (fun i l => ext (fun i : Fin n => if (i : Nat) = l then 1 else 0) i) =
      hessOv (tapeOf s' N par n 1) n (ext x0) (fun i j => if i < n ∧ i = j then 1 else 0) := by
    congr 1
    funext i l
    by_cases hi : i < n <;> simp [ext, hi]
  rw [e] at h1
  refine ⟨_, by simp only [hessian2, show (tapeOf s' N par n 1).n = n from rfl, h1, Bind.bind, Except.bind]; rfl, fun i j hj => ?_, fun a b hab => if_neg hab⟩
  have := h2 i i.2 j
  rw [hV i i.2] at this
  rw [← this]
  exact if_pos ⟨i.2, hj⟩

/-! ### A concrete program meeting the hypotheses -/

/-- The demo program of `Props/AD.lean` at `(1, 2)` satisfies all of them. -/
example : ∃ s', Traced demoCfg [] demoStart demo s' (s'.hw + 1) ∧ demo.disc ⟨Set.univ, ∅⟩ ∧
    ∃ e0, demo.spec (ext ![(1:ℝ), 2]) (fun _ => 0) demoStart.se = some (e0, demo.path demoCfg demoStart) ∧ e0.ii = 2 ∧
      e0.ys.length = 1 ∧ demo.smooth .rev (ext ![(1:ℝ), 2]) (fun _ => 0) demoStart.se ∧
      ∀ i : Fin 2, ∀ᶠ t in 𝓝 (0:ℝ), demo.smooth .hor (ext (![(1:ℝ), 2] + t • Pi.single i 1)) (fun _ => 0) demoStart.se := by
  obtain ⟨e, h1, h2, h3⟩ := demo_spec demoCfg.x demoCfg.par (by
    simp only [demoCfg]; positivity)
  obtain ⟨s', h4, h5⟩ := traced_exists (stock := []) demo_alloc demo_start
    (by simp [demo, Prog.noFminLL, Stmt.notFminLL]) h1
  have hpos : 0 < ext ![(1:ℝ), 2] 0 * ext ![(1:ℝ), 2] 1 + ext ![(1:ℝ), 2] 0 * Real.exp (ext ![(1:ℝ), 2] 0) := by
    simp [ext]; positivity
  obtain ⟨e', g1, g2, g3⟩ := demo_spec (ext ![(1:ℝ), 2]) (fun _ => 0) hpos
  refine ⟨s', h4, demo_disc, e', by rw [h5]; exact g1, g2, by simp [g3], demo_smooth _ _ _ hpos, fun i => ?_⟩
  have hx : ∀ k, ContinuousAt (fun t : ℝ => ext (![(1:ℝ), 2] + t • Pi.single i 1) k) 0 := by
    intro k
    by_cases hk : k < 2
    · simp only [ext, hk, dif_pos, Pi.add_apply, Pi.smul_apply, smul_eq_mul]
      fun_prop
    · simp only [ext, hk, dif_neg, not_false_eq_true]; exact continuousAt_const
  have hc := ((hx 0).mul (hx 1)).add ((hx 0).mul (hx 0).rexp)
  filter_upwards [continuousAt_const.eventually_lt hc (by simpa using hpos)] with t ht
  exact demo_smooth .hor _ _ ht

end Verif.Props.Drivers
