import Verif.Drivers.Fortran
import Verif.Props.Drivers
import Verif.Props.HO
import Verif.Props.HORev
import Verif.Props.HOVec
import Verif.Props.Interfaces

/-!
# C57: the Fortran interface; C58: partitioned arguments

Reading guide.  A Fortran array of dimensions `(m, n)` stores entry `(i, j)` (counted from 0) at offset `j * m + i`, one of dimensions `(m, n, p)` entry
`(i, j, k)` at offset `(k * n + j) * m + i`.  `F p s par n j` is the `j`-th output of the traced program as a function of the `n` independents
(`Props/Drivers.lean`), `curve k x0 X` the curve `x0 + ∑ X[·][l] t^(l+1)` (`Props/HO.lean`).
-/
set_option linter.all false
namespace Verif.Props.Fortran
open Verif.AD Verif.Props.AD Verif.Props.HO Verif.Props.HORev Verif.Drivers Verif.Props.Drivers Elem Filter Topology
open scoped ContDiff

/-! ## Layout -/

/-- Copying out and copying in are inverse to each other, for every size; nothing outside the block is written. -/
theorem C57_layout2 {K : Type} (m n : ℕ) (X Y : ℕ → ℕ → K) (x y : ℕ → K) :
    (∀ i j, i < m → j < n → pack2 m n X x (j * m + i) = X i j ∧ spread2 m n x Y i j = x (j * m + i)) ∧
    (∀ k, m * n ≤ k → pack2 m n X x k = x k) ∧ (∀ i j, ¬ (i < m ∧ j < n) → spread2 m n x Y i j = Y i j) ∧
    (∀ i j, i < m → j < n → spread2 m n (pack2 m n X x) Y i j = X i j) ∧
    ∀ k, k < m * n → pack2 m n (spread2 m n x Y) y k = x k := by
  have h1 : ∀ i j, i < m → j < n → pack2 m n X x (j * m + i) = X i j := by
    intro i j hi hj
    have hlt : j * m + i < m * n := by
      have : (j + 1) * m ≤ n * m := Nat.mul_le_mul_right _ hj
      rw [Nat.mul_comm m n]; rw [Nat.succ_mul] at this; omega
    rw [pack2_eq, if_pos hlt, Nat.mul_comm j m, Nat.mul_add_mod, Nat.mod_eq_of_lt hi, Nat.mul_add_div (by omega), Nat.div_eq_of_lt hi, Nat.add_zero]
  refine ⟨fun i j hi hj => ⟨h1 i j hi hj, by rw [spread2_eq, if_pos ⟨hi, hj⟩]⟩, fun k hk => by rw [pack2_eq, if_neg (by omega)],
    fun i j h => by rw [spread2_eq, if_neg h], fun i j hi hj => by rw [spread2_eq, if_pos ⟨hi, hj⟩, h1 i j hi hj], fun k hk => ?_⟩
  have hm : 0 < m := Nat.pos_of_ne_zero fun h0 => by subst h0; simp at hk
  rw [pack2_eq, if_pos hk, spread2_eq, if_pos ⟨Nat.mod_lt _ hm, Nat.div_lt_of_lt_mul hk⟩, Nat.mul_comm, Nat.div_add_mod]

theorem C57_layout3 {K : Type} (m n p : ℕ) (X Y : ℕ → ℕ → ℕ → K) (x y : ℕ → K) :
    (∀ i j k, i < m → j < n → k < p → pack3 m n p X x ((k * n + j) * m + i) = X i j k ∧ spread3 m n p x Y i j k = x ((k * n + j) * m + i)) ∧
    (∀ q, m * n * p ≤ q → pack3 m n p X x q = x q) ∧ (∀ i j k, ¬ (i < m ∧ j < n ∧ k < p) → spread3 m n p x Y i j k = Y i j k) ∧
    (∀ i j k, i < m → j < n → k < p → spread3 m n p (pack3 m n p X x) Y i j k = X i j k) ∧
    ∀ q, q < m * n * p → pack3 m n p (spread3 m n p x Y) y q = x q := by
  have h1 : ∀ i j k, i < m → j < n → k < p → pack3 m n p X x ((k * n + j) * m + i) = X i j k := by
    intro i j k hi hj hk
    have ha : (k + 1) * n ≤ p * n := Nat.mul_le_mul_right _ hk
    have hb : (k * n + j + 1) * m ≤ (p * n) * m := Nat.mul_le_mul_right _ (by rw [Nat.succ_mul] at ha; omega)
    have hlt : (k * n + j) * m + i < m * n * p := by
      rw [Nat.succ_mul] at hb
      have : m * n * p = p * n * m := by ring
      omega
    have e1 : ((k * n + j) * m + i) % m = i := by rw [Nat.mul_comm, Nat.mul_add_mod, Nat.mod_eq_of_lt hi]
    have e2 : ((k * n + j) * m + i) / m = k * n + j := by
      rw [Nat.mul_comm, Nat.mul_add_div (by omega), Nat.div_eq_of_lt hi, Nat.add_zero]
    rw [pack3_eq, if_pos hlt, e1, e2, ← Nat.div_div_eq_div_mul, e2, Nat.mul_comm k n, Nat.mul_add_mod, Nat.mod_eq_of_lt hj,
      Nat.mul_add_div (by omega), Nat.div_eq_of_lt hj, Nat.add_zero]
  refine ⟨fun i j k hi hj hk => ⟨h1 i j k hi hj hk, by rw [spread3_eq, if_pos ⟨hi, hj, hk⟩]⟩, fun q hq => by rw [pack3_eq, if_neg (by omega)],
    fun i j k h => by rw [spread3_eq, if_neg h], fun i j k hi hj hk => by rw [spread3_eq, if_pos ⟨hi, hj, hk⟩, h1 i j k hi hj hk], fun q hq => ?_⟩
  have hmn : 0 < m * n := Nat.pos_of_ne_zero fun h0 => by rw [h0] at hq; simp at hq
  have hm : 0 < m := Nat.pos_of_mul_pos_right hmn
  have hn : 0 < n := Nat.pos_of_mul_pos_left hmn
  rw [pack3_eq, if_pos hq, spread3_eq, if_pos ⟨Nat.mod_lt _ hm, Nat.mod_lt _ hn, Nat.div_lt_of_lt_mul hq⟩]
  congr 1
  rw [← Nat.div_div_eq_div_mul, Nat.mul_comm (q / m / n) n, Nat.div_add_mod, Nat.mul_comm, Nat.div_add_mod]

/-! ## The easy-to-use drivers -/

variable {cfg : RCfg ℝ} {stock : List (Nat × List ℝ)} {s s' : Rec ℝ} {p : Prog ℝ} {N : Nat}

theorem spread_ext {n : ℕ} (fx : ℕ → ℝ) : spread1 n fx zero1 = ext (fun i : Fin n => fx i) := by
  funext i; rw [spread1_eq]; simp only [ext, zero1]; split_ifs <;> rfl

/-- `function_`: element `j` of the result is the `j`-th output at the point in `fx`; no other element is written. -/
theorem C57_function (h : Traced cfg stock s p s' N) (par : ℕ → ℝ) (n : ℕ) (fx fy : ℕ → ℝ) {e0 : SE ℝ}
    (hspec : p.spec (ext fun i : Fin n => fx i) par s.se = some (e0, p.path cfg s)) :
    ∃ fy', functionF (tapeOf s' N par n e0.ys.length) fx fy = .ok fy' ∧
      ∀ k, fy' k = if k < e0.ys.length then F p s par n k (fun i => fx i) else fy k := by
  have h1 := C28_function h par (fun i : Fin n => fx i) hspec e0.ys.length
  refine ⟨_, by simp only [functionF, tapeOf, spread_ext] at h1 ⊢; rw [h1]; rfl, fun k => ?_⟩
  rw [pack1_eq]
  simp [F, Prog.out, hspec, tapeOf]

/-- `gradient_` (partial: as C28). -/
theorem C57_gradient_partial (h : Traced cfg stock s p s' N) (hd : p.disc ⟨Set.univ, ∅⟩) (par : ℕ → ℝ) {n : ℕ} (fx fg : ℕ → ℝ) {e0 : SE ℝ}
    (hspec : p.spec (ext fun i : Fin n => fx i) par s.se = some (e0, p.path cfg s)) (hn : e0.ii = n) (hm : e0.ys.length = 1)
    (hsm : p.smooth .rev (ext fun i : Fin n => fx i) par s.se) :
    ∃ fg', gradientF (tapeOf s' N par n 1) fx fg = .ok fg' ∧
      (∀ i : Fin n, fg' i = fderiv ℝ (F p s par n 0) (fun i => fx i) (Pi.single i 1)) ∧ ∀ k, n ≤ k → fg' k = fg k := by
  obtain ⟨_, g, h1, h2⟩ := C28_gradient_partial h hd par (fun i : Fin n => fx i) hspec hn hm hsm
  refine ⟨_, by simp only [gradientF, tapeOf, spread_ext] at h1 ⊢; rw [h1]; rfl, fun i => ?_, fun k hk => ?_⟩
  · rw [pack1_eq, if_pos i.2]; exact h2 i
  · rw [pack1_eq, if_neg (by simpa [tapeOf] using hk)]

/-- `vec_jac_` with `repeat = 0` (partial: as C28). -/
theorem C57_vec_jac_partial (h : Traced cfg stock s p s' N) (hd : p.disc ⟨Set.univ, ∅⟩) (par : ℕ → ℝ) {n : ℕ} (fx fu frow : ℕ → ℝ) {e0 : SE ℝ}
    (hspec : p.spec (ext fun i : Fin n => fx i) par s.se = some (e0, p.path cfg s)) (hn : e0.ii = n)
    (hsm : p.smooth .rev (ext fun i : Fin n => fx i) par s.se) (kept : List ℝ) (rrc : Int) :
    ∃ rc frow', vecJacF (tapeOf s' N par n e0.ys.length) false kept rrc fx fu frow = .ok (rc, frow') ∧
      (∀ i : Fin n, frow' i = ∑ j ∈ Finset.range e0.ys.length, fu j * fderiv ℝ (F p s par n j) (fun i => fx i) (Pi.single i 1)) ∧
      ∀ k, n ≤ k → frow' k = frow k := by
  obtain ⟨z, row, _, h1, h2⟩ := C28_vec_jac_partial h hd par (fun i : Fin n => fx i) hspec hn hsm kept rrc (spread1 e0.ys.length fu zero1)
  refine ⟨min rrc z.rc, _, by simp only [vecJacF, tapeOf, spread_ext (n := n)] at h1 ⊢; rw [h1]; rfl, fun i => ?_, fun k hk => ?_⟩
  · rw [pack1_eq, if_pos (show (i : ℕ) < _ from i.2)]
    refine (h2 i).trans (Finset.sum_congr rfl fun j hj => by rw [spread1_eq, if_pos (Finset.mem_range.1 hj)])
  · rw [pack1_eq, if_neg (by simpa [tapeOf] using hk)]

/-- `jacobian_` (partial: as C28): the element at offset `i * m + j`, that is `fjac(j, i)`, is `∂F_j/∂x_i`; nothing behind the matrix is written. -/
theorem C57_jacobian_partial (h : Traced cfg stock s p s' N) (hd : p.disc ⟨Set.univ, ∅⟩) (par : ℕ → ℝ) {n : ℕ} (hn0 : 0 < n) (fx fjac : ℕ → ℝ)
    {e0 : SE ℝ} (hspec : p.spec (ext fun i : Fin n => fx i) par s.se = some (e0, p.path cfg s)) (hn : e0.ii = n) (hm0 : 0 < e0.ys.length)
    (hsm : p.smooth .rev (ext fun i : Fin n => fx i) par s.se) :
    ∃ fjac', jacobianF (tapeOf s' N par n e0.ys.length) fx fjac = .ok fjac' ∧
      (∀ j < e0.ys.length, ∀ i : Fin n, fjac' (i * e0.ys.length + j) = fderiv ℝ (F p s par n j) (fun i => fx i) (Pi.single i 1)) ∧
      ∀ k, e0.ys.length * n ≤ k → fjac' k = fjac k := by
  obtain ⟨J, h1, h2⟩ := C28_jacobian_partial h hd par hn0 (fun i : Fin n => fx i) hspec hn hm0 hsm
  refine ⟨_, by simp only [jacobianF, tapeOf, spread_ext (n := n)] at h1 ⊢; rw [h1]; rfl, fun j hj i => ?_, fun k hk => ?_⟩
  · rw [← h2 j hj i]; exact ((C57_layout2 _ _ J J fjac fjac).1 j i hj i.2).1
  · exact (C57_layout2 _ _ J J fjac fjac).2.1 k hk

/-- `jac_vec_` (partial: as C28). -/
theorem C57_jac_vec_partial (h : Traced cfg stock s p s' N) (par : ℕ → ℝ) {n : ℕ} (fx fv fcol : ℕ → ℝ) {e0 : SE ℝ}
    (hspec : p.spec (ext fun i : Fin n => fx i) par s.se = some (e0, p.path cfg s))
    (hsm : p.smooth .fwd (ext fun i : Fin n => fx i) par s.se) :
    ∃ fcol', jacVecF (tapeOf s' N par n e0.ys.length) fx fv fcol = .ok fcol' ∧
      ∀ k, fcol' k = if k < e0.ys.length then fderiv ℝ (F p s par n k) (fun i => fx i) (fun i => fv i) else fcol k := by
  obtain ⟨col, h1, h2, h3⟩ := C28_jac_vec_partial h par (fun i : Fin n => fx i) hspec hsm (fun i => fv i)
  refine ⟨_, by simp only [jacVecF, tapeOf, spread_ext (n := n)] at h1 ⊢; rw [h1]; rfl, fun k => ?_⟩
  rw [pack1_eq, h3]

/-- `lagra_hess_vec_` (partial: as C28). -/
theorem C57_lagra_hess_vec_partial (h : Traced cfg stock s p s' N) (hd : p.disc ⟨Set.univ, ∅⟩) (par : ℕ → ℝ) {n : ℕ} (fx fv fu fw : ℕ → ℝ) {e0 : SE ℝ}
    (hspec : p.spec (ext fun i : Fin n => fx i) par s.se = some (e0, p.path cfg s)) (hn : e0.ii = n)
    (hsm : ∀ᶠ t in 𝓝 (0:ℝ), p.smooth .hor (ext ((fun i : Fin n => fx i) + t • fun i : Fin n => fv i)) par s.se) :
    ∃ fw', lagraHessVecF (tapeOf s' N par n e0.ys.length) fx fv fu fw = .ok fw' ∧
      (∀ i : Fin n, fw' i = ∑ j ∈ Finset.range e0.ys.length,
        fu j * fderiv ℝ (fderiv ℝ (F p s par n j)) (fun i => fx i) (fun i => fv i) (Pi.single i 1)) ∧ ∀ k, n ≤ k → fw' k = fw k := by
  obtain ⟨w, h1, h2⟩ := C28_lagra_hess_vec_partial h hd par (fun i : Fin n => fx i) (fun i => fv i) hspec hn hsm (spread1 e0.ys.length fu zero1)
  refine ⟨_, by simp only [lagraHessVecF, tapeOf, spread_ext (n := n)] at h1 ⊢; rw [h1]; rfl, fun i => ?_, fun k hk => ?_⟩
  · rw [pack1_eq, if_pos (show (i : ℕ) < _ from i.2), h2 i]
    exact Finset.sum_congr rfl fun j hj => by rw [spread1_eq, if_pos (Finset.mem_range.1 hj)]
  · rw [pack1_eq, if_neg (by simpa [tapeOf] using hk)]

/-- `hess_vec_` (partial: as C28). -/
theorem C57_hess_vec_partial (h : Traced cfg stock s p s' N) (hd : p.disc ⟨Set.univ, ∅⟩) (par : ℕ → ℝ) {n : ℕ} (fx fv fw : ℕ → ℝ) {e0 : SE ℝ}
    (hspec : p.spec (ext fun i : Fin n => fx i) par s.se = some (e0, p.path cfg s)) (hn : e0.ii = n) (hm : e0.ys.length = 1)
    (hsm : ∀ᶠ t in 𝓝 (0:ℝ), p.smooth .hor (ext ((fun i : Fin n => fx i) + t • fun i : Fin n => fv i)) par s.se) :
    ∃ fw', hessVecF (tapeOf s' N par n 1) fx fv fw = .ok fw' ∧
      (∀ i : Fin n, fw' i = fderiv ℝ (fderiv ℝ (F p s par n 0)) (fun i => fx i) (fun i => fv i) (Pi.single i 1)) ∧ ∀ k, n ≤ k → fw' k = fw k := by
  obtain ⟨w, h1, h2⟩ := C28_hess_vec_partial h hd par (fun i : Fin n => fx i) (fun i => fv i) hspec hn hm hsm
  refine ⟨_, by simp only [hessVecF, tapeOf, spread_ext (n := n)] at h1 ⊢; rw [h1]; rfl, fun i => ?_, fun k hk => ?_⟩
  · rw [pack1_eq, if_pos (show (i : ℕ) < _ from i.2)]; exact h2 i
  · rw [pack1_eq, if_neg (by simpa [tapeOf] using hk)]

/-- `hessian_` (partial: as C28).  The lower triangle `fh(i, j)`, `j ≤ i`, is that of the Hessian.  The comment at the declaration (driversf.cpp:153-154)
says that the upper triangle remains unchanged; it does not: it is overwritten with zeros. -/
theorem C57_hessian_partial (h : Traced cfg stock s p s' N) (hd : p.disc ⟨Set.univ, ∅⟩) (par : ℕ → ℝ) {n : ℕ} (fx fh : ℕ → ℝ) {e0 : SE ℝ}
    (hspec : p.spec (ext fun i : Fin n => fx i) par s.se = some (e0, p.path cfg s)) (hn : e0.ii = n) (hm : e0.ys.length = 1)
    (hsm : ∀ i : Fin n, ∀ᶠ t in 𝓝 (0:ℝ), p.smooth .hor (ext ((fun i : Fin n => fx i) + t • Pi.single i 1)) par s.se) :
    ∃ fh', hessianF (tapeOf s' N par n 1) fx fh = .ok fh' ∧
      (∀ i j : Fin n, j ≤ i → fh' (j * n + i) = fderiv ℝ (fderiv ℝ (F p s par n 0)) (fun i => fx i) (Pi.single i 1) (Pi.single j 1)) ∧
      (∀ i j : Fin n, i < j → fh' (j * n + i) = 0) ∧ ∀ k, n * n ≤ k → fh' k = fh k := by
  obtain ⟨H, h1, h2, h3⟩ := C28_hessian_partial h hd par (fun i : Fin n => fx i) hspec hn hm hsm zero2
  refine ⟨_, by simp only [hessianF, tapeOf, spread_ext (n := n)] at h1 ⊢; rw [h1]; rfl, fun i j hij => ?_, fun i j hij => ?_, fun k hk => ?_⟩
  · rw [← h2 i j hij]; exact ((C57_layout2 _ _ H H fh fh).1 i j i.2 j.2).1
  · have := h3 i j (by intro hh; exact absurd hh.2 (not_le.2 hij))
    exact (((C57_layout2 _ _ H H fh fh).1 i j i.2 j.2).1).trans this
  · exact (C57_layout2 _ _ H H fh fh).2.1 k hk

/-! ## The sweeps -/

theorem curve_congr {n d : ℕ} (x0 : Fin n → ℝ) {X X' : Fin n → ℕ → ℝ} (h : ∀ i k, k < d → X i k = X' i k) : curve d x0 X = curve d x0 X' := by
  funext t i
  simp only [curve]
  congr 1
  exact Finset.sum_congr rfl fun k hk => by rw [h i k (Finset.mem_range.1 hk)]

theorem weight_congr {d : ℕ} {L L' : ℕ → ℕ → ℝ} {j : ℕ} (h : ∀ q ≤ d, L j q = L' j q) (t : ℝ) : weight d L t j = weight d L' t j :=
  Finset.sum_congr rfl fun q hq => by rw [h q (by simpa [Nat.lt_succ_iff] using hq)]

/-- The Taylor coefficients a Fortran array `fx(n, d)` stands for, as passed to the sweep. -/
noncomputable def coeffs (n d : ℕ) (fx : ℕ → ℝ) (i : Fin n) (k : ℕ) : ℝ := if k < d then fx (k * n + i) else 0

theorem spread2_ext {n d : ℕ} (fx : ℕ → ℝ) : spread2 n d fx zero2 = extX (coeffs n d fx) := by
  funext i k
  rw [spread2_eq]
  simp only [extX, coeffs, zero2]
  by_cases hi : i < n
  · simp only [hi, true_and, dif_pos]; rfl
  · simp [hi]

theorem coeffs_curve {n d : ℕ} (x0 : Fin n → ℝ) (fx : ℕ → ℝ) : curve d x0 (coeffs n d fx) = curve d x0 (fun i k => fx (k * n + i)) :=
  curve_congr x0 fun i k hk => if_pos hk

/-- `zos_forward_`: the values, and what `fos_reverse_`/`fov_reverse_` need. -/
theorem C57_zos_forward (h : Traced cfg stock s p s' N) (par : ℕ → ℝ) {n : ℕ} (keep : Bool) (fx fy : ℕ → ℝ) {e0 : SE ℝ}
    (hspec : p.spec (ext fun i : Fin n => fx i) par s.se = some (e0, p.path cfg s)) :
    ∃ fy' stk, zosForwardF (tapeOf s' N par n e0.ys.length) keep fx fy = .ok (fy', stk) ∧
      ∀ k, fy' k = if k < e0.ys.length then F p s par n k (fun i => fx i) else fy k := by
  obtain ⟨z, h1, h2⟩ := C09_zos_forward h (ext fun i : Fin n => fx i) par keep hspec
  refine ⟨_, z.stk, by simp only [zosForwardF, Tape.zos, tapeOf, spread_ext, h1, fwd, Bind.bind, Except.bind]; rfl, fun k => ?_⟩
  rw [pack1_eq]
  simp [F, Prog.out, hspec, tapeOf, h2]

/-- `zos_forward_` with `keep`, then `fos_reverse_` (partial: as C13): `fz(i) = ∑_j fu(j) ∂F_j/∂x_i`. -/
theorem C57_fos_reverse_partial (h : Traced cfg stock s p s' N) (hd : p.disc ⟨Set.univ, ∅⟩) (par : ℕ → ℝ) {n : ℕ} (fx fy fu fz : ℕ → ℝ) {e0 : SE ℝ}
    (hspec : p.spec (ext fun i : Fin n => fx i) par s.se = some (e0, p.path cfg s)) (hn : e0.ii = n)
    (hsm : p.smooth .rev (ext fun i : Fin n => fx i) par s.se) :
    ∃ fy' stk fz', zosForwardF (tapeOf s' N par n e0.ys.length) true fx fy = .ok (fy', stk) ∧
      fosReverseF (tapeOf s' N par n e0.ys.length) stk fu fz = .ok fz' ∧
      (∀ i : Fin n, fz' i = ∑ j ∈ Finset.range e0.ys.length, fu j * fderiv ℝ (F p s par n j) (fun i => fx i) (Pi.single i 1)) ∧
      ∀ k, n ≤ k → fz' k = fz k := by
  obtain ⟨z, h1, D, hD, r, h2, _, h3⟩ := C13_fos_reverse_partial h hd par (fun i : Fin n => fx i) hspec hn hsm (spread1 e0.ys.length fu zero1)
  refine ⟨_, z.stk, _, by simp only [zosForwardF, Tape.zos, tapeOf, spread_ext (n := n), h1, fwd, Bind.bind, Except.bind]; rfl,
    by simp only [fosReverseF, tapeOf, h2, rev, Bind.bind, Except.bind]; rfl, fun i => ?_, fun k hk => ?_⟩
  · rw [pack1_eq, if_pos (show (i : ℕ) < _ from i.2), h3 i]
    refine Finset.sum_congr rfl fun j hj => ?_
    rw [spread1_eq, if_pos (Finset.mem_range.1 hj), show F p s par n j = fun x => p.out (ext x) par s.se j from rfl, (hD j).fderiv]
  · rw [pack1_eq, if_neg (by simpa [tapeOf] using hk)]

/-- `zos_forward_` with `keep`, then `fov_reverse_` (partial: as C14): `fz(l, i) = ∑_j fu(l, j) ∂F_j/∂x_i`. -/
theorem C57_fov_reverse_partial (h : Traced cfg stock s p s' N) (hd : p.disc ⟨Set.univ, ∅⟩) (par : ℕ → ℝ) {n q : ℕ} (hq : 0 < q) (fx fy fu fz : ℕ → ℝ) {e0 : SE ℝ}
    (hspec : p.spec (ext fun i : Fin n => fx i) par s.se = some (e0, p.path cfg s)) (hn : e0.ii = n)
    (hsm : p.smooth .rev (ext fun i : Fin n => fx i) par s.se) :
    ∃ fy' stk fz', zosForwardF (tapeOf s' N par n e0.ys.length) true fx fy = .ok (fy', stk) ∧
      fovReverseF (tapeOf s' N par n e0.ys.length) stk q fu fz = .ok fz' ∧
      (∀ l < q, ∀ i : Fin n, fz' (i * q + l) = ∑ j ∈ Finset.range e0.ys.length, fu (j * q + l) * fderiv ℝ (F p s par n j) (fun i => fx i) (Pi.single i 1)) ∧
      ∀ k, q * n ≤ k → fz' k = fz k := by
  obtain ⟨z, h1, D, hD, r, h2, _, h3⟩ := C14_fov_reverse_matrix h hd par (fun i : Fin n => fx i) hspec hn hsm q hq (spread2 q e0.ys.length fu zero2)
  refine ⟨_, z.stk, _, by simp only [zosForwardF, Tape.zos, tapeOf, spread_ext (n := n), h1, fwd, Bind.bind, Except.bind]; rfl,
    by simp only [fovReverseF, tapeOf, h2, rev, Bind.bind, Except.bind]; rfl, fun l hl i => ?_, fun k hk => ?_⟩
  · refine ((C57_layout2 q n r.bar r.bar fz fz).1 l i hl i.2).1.trans ((h3 l hl i).trans ?_)
    refine Finset.sum_congr rfl fun j hj => ?_
    rw [spread2_eq, if_pos ⟨hl, Finset.mem_range.1 hj⟩, show F p s par n j = fun x => p.out (ext x) par s.se j from rfl, (hD j).fderiv]
  · exact (C57_layout2 q n r.bar r.bar fz fz).2.1 k hk

/-- `fov_forward_` (partial: as C12): `fy(j, l)` is the derivative of `F_j` in direction `fx(·, l)`. -/
theorem C57_fov_forward_partial (h : Traced cfg stock s p s' N) (par : ℕ → ℝ) {n q : ℕ} (hq : 0 < q) (fbase fx fvalue fy : ℕ → ℝ) {e0 : SE ℝ}
    (hspec : p.spec (ext fun i : Fin n => fbase i) par s.se = some (e0, p.path cfg s))
    (hsm : p.smooth .fwd (ext fun i : Fin n => fbase i) par s.se) :
    ∃ v y, fovForwardF (tapeOf s' N par n e0.ys.length) q fbase fx fvalue fy = .ok (v, y) ∧
      (∀ k, v k = if k < e0.ys.length then F p s par n k (fun i => fbase i) else fvalue k) ∧
      (∀ j < e0.ys.length, ∀ l < q, y (l * e0.ys.length + j) = fderiv ℝ (F p s par n j) (fun i => fbase i) (fun i => fx (l * n + i))) ∧
      ∀ k, e0.ys.length * q ≤ k → y k = fy k := by
  have hcol : ∀ l < q, (fun i => spread2 n q fx zero2 i l) = ext (fun i : Fin n => fx (l * n + i)) := by
    intro l hl; funext i; rw [spread2_eq]; simp only [ext, zero2, hl, and_true]; split_ifs <;> rfl
  obtain ⟨w, h1, h2⟩ := fov_columns h par (fun i : Fin n => fbase i) hspec hsm q (spread2 n q fx zero2) (fun l hl => ⟨_, hcol l hl⟩) hq
  obtain ⟨D, hD, hf⟩ := C11_fos_forward_partial h par false (fun i : Fin n => fbase i) hspec hsm
  obtain ⟨f, g1, g2, g3, g4⟩ := hf (fun i : Fin n => fx (0 * n + i))
  have hy : w.y = e0.ys := by
    rcases C12_fov_columns_partial _ q (spread2 n q fx zero2) _ (along_log h par hspec hsm) 0 hq with ⟨e, h5, h6⟩ | ⟨w', f', h5, h6, h7, _⟩
    · rw [h1] at h5; cases h5
    · rw [h1] at h5; cases h5
      rw [hcol 0 hq, g1] at h6; cases h6
      rw [h7, g2]
  refine ⟨_, _, by simp only [fovForwardF, tapeOf, spread_ext (n := n), h1, fwd, Bind.bind, Except.bind]; rfl, fun k => ?_, fun j hj l hl => ?_, fun k hk => ?_⟩
  · rw [pack1_eq, hy]; simp [F, Prog.out, hspec, tapeOf]
  · exact ((C57_layout2 e0.ys.length q (fun j l => (w.dy[j]?.getD [])[l]?.getD 0) zero2 fy fy).1 j l hj hl).1.trans (h2 l hl _ (hcol l hl) j)
  · exact (C57_layout2 e0.ys.length q (fun j l => (w.dy[j]?.getD [])[l]?.getD 0) zero2 fy fy).2.1 k hk

/-- `hos_forward_` (partial: as C17): `fy(j, k)` is the Taylor coefficient of order `k + 1` of `F_j` along the curve with coefficients `fx`. -/
theorem C57_hos_forward_partial (h : Traced cfg stock s p s' N) (par : ℕ → ℝ) {n d keep : ℕ} (hkk : keep ≤ d + 1) (fbase fx fvalue fy : ℕ → ℝ) {e0 : SE ℝ}
    (hspec : p.spec (ext fun i : Fin n => fbase i) par s.se = some (e0, p.path cfg s))
    (hsm : ∀ᶠ t in 𝓝 0, p.smooth .ho (ext (curve d (fun i : Fin n => fbase i) (fun i k => fx (k * n + i)) t)) par s.se) :
    ∃ v y stk, hosForwardF (tapeOf s' N par n e0.ys.length) d keep fbase fx fvalue fy = .ok (v, y, stk) ∧
      (∀ k, v k = if k < e0.ys.length then F p s par n k (fun i => fbase i) else fvalue k) ∧
      (∀ j < e0.ys.length, ∀ k < d, y (k * e0.ys.length + j) = iteratedDeriv (k + 1)
        (fun t => F p s par n j (curve d (fun i : Fin n => fbase i) (fun i k => fx (k * n + i)) t)) 0 / (k + 1).factorial) ∧
      ∀ k, e0.ys.length * d ≤ k → y k = fy k := by
  rw [← coeffs_curve] at hsm ⊢
  obtain ⟨H, h1, h2, h3⟩ := C17_hos_forward_partial h par hkk (fun i : Fin n => fbase i) (coeffs n d fx) hspec hsm
  refine ⟨_, _, H.stk, by simp only [hosForwardF, tapeOf, spread_ext (n := n), spread2_ext, h1, hfwd, Bind.bind, Except.bind]; rfl, fun k => ?_, fun j hj k hk => ?_, fun k hk => ?_⟩
  · rw [pack1_eq]
    by_cases hk : k < e0.ys.length
    · rw [if_pos hk, if_pos hk]
      have hk' : k < H.y.length := by omega
      have := (h3 k hk').2 0 (Nat.zero_le _)
      rw [List.getElem?_eq_getElem hk', Option.getD_some, this]
      simp [curve_zero, F]
    · rw [if_neg hk, if_neg hk]
  · refine ((C57_layout2 e0.ys.length d (fun j k => (H.y[j]?.getD fun _ => 0) (k + 1)) zero2 fy fy).1 j k hj hk).1.trans ?_
    have hj' : j < H.y.length := by omega
    rw [List.getElem?_eq_getElem hj', Option.getD_some]
    exact (h3 j hj').2 (k + 1) hk
  · exact (C57_layout2 e0.ys.length d (fun j k => (H.y[j]?.getD fun _ => 0) (k + 1)) zero2 fy fy).2.1 k hk

/-- `hos_forward_` with `keep = d + 1`, then `hos_ti_reverse_` of degree `d` (partial: as C18). -/
theorem C57_hos_ti_reverse_partial (h : Traced cfg stock s p s' N) (hd : p.disc ⟨Set.univ, ∅⟩) (par : ℕ → ℝ) {n k d : ℕ} (hdk : d ≤ k)
    (fbase fx fvalue fy fu fz : ℕ → ℝ) {e0 : SE ℝ}
    (hspec : p.spec (ext fun i : Fin n => fbase i) par s.se = some (e0, p.path cfg s)) (hn : e0.ii = n)
    (hsm : ∀ᶠ t in 𝓝 0, p.smooth .hor (ext (curve k (fun i : Fin n => fbase i) (fun i k => fx (k * n + i)) t)) par s.se) :
    ∃ v y stk fz', hosForwardF (tapeOf s' N par n e0.ys.length) k (d + 1) fbase fx fvalue fy = .ok (v, y, stk) ∧
      hosTiReverseF (tapeOf s' N par n e0.ys.length) stk d fu fz = .ok fz' ∧
      (∀ i : Fin n, ∀ q ≤ d, fz' (q * n + i) = iteratedDeriv q (fun t => ∑ j ∈ Finset.range e0.ys.length,
        (∑ l ∈ Finset.range (d + 1), fu (l * e0.ys.length + j) * t ^ l) *
          fderiv ℝ (F p s par n j) (curve k (fun i : Fin n => fbase i) (fun i k => fx (k * n + i)) t) (Pi.single i 1)) 0 / q.factorial) ∧
      ∀ q, n * (d + 1) ≤ q → fz' q = fz q := by
  rw [← coeffs_curve] at hsm ⊢
  obtain ⟨H, R, h1, h2, _, _, h3⟩ := C18_hos_ti_reverse_partial h hd par hdk (fun i : Fin n => fbase i) (coeffs n k fx)
    (spread2 e0.ys.length (d + 1) fu zero2) hspec hn hsm
  refine ⟨_, _, H.stk, _, by simp only [hosForwardF, tapeOf, spread_ext (n := n), spread2_ext, h1, hfwd, Bind.bind, Except.bind]; rfl,
    by simp only [hosTiReverseF, tapeOf, h2, hrev, Bind.bind, Except.bind]; rfl, fun i q hq => ?_, fun q hq => ?_⟩
  · refine ((C57_layout2 n (d + 1) R.Z R.Z fz fz).1 i q i.2 (by omega)).1.trans ((h3 i q hq).trans ?_)
    congr 2
    funext t
    refine Finset.sum_congr rfl fun j hj => ?_
    congr 1
    refine Finset.sum_congr rfl fun l hl => ?_
    rw [spread2_eq, if_pos ⟨Finset.mem_range.1 hj, Finset.mem_range.1 hl⟩]
  · exact (C57_layout2 n (d + 1) R.Z R.Z fz fz).2.1 q hq

/-- `hos_forward_` with `keep = d + 1`, then `hos_reverse_` of degree `d` (partial: as C18). -/
theorem C57_hos_reverse_partial (h : Traced cfg stock s p s' N) (hd : p.disc ⟨Set.univ, ∅⟩) (par : ℕ → ℝ) {n k d : ℕ} (hdk : d ≤ k)
    (fbase fx fvalue fy fu fz : ℕ → ℝ) {e0 : SE ℝ}
    (hspec : p.spec (ext fun i : Fin n => fbase i) par s.se = some (e0, p.path cfg s)) (hn : e0.ii = n)
    (hsm : ∀ᶠ t in 𝓝 0, p.smooth .hor (ext (curve k (fun i : Fin n => fbase i) (fun i k => fx (k * n + i)) t)) par s.se) :
    ∃ v y stk fz', hosForwardF (tapeOf s' N par n e0.ys.length) k (d + 1) fbase fx fvalue fy = .ok (v, y, stk) ∧
      hosReverseF (tapeOf s' N par n e0.ys.length) stk d fu fz = .ok fz' ∧
      (∀ i : Fin n, ∀ q ≤ d, fz' (q * n + i) = iteratedDeriv q (fun t => ∑ j ∈ Finset.range e0.ys.length,
        fu j * fderiv ℝ (F p s par n j) (curve k (fun i : Fin n => fbase i) (fun i k => fx (k * n + i)) t) (Pi.single i 1)) 0 / q.factorial) ∧
      ∀ q, n * (d + 1) ≤ q → fz' q = fz q := by
  rw [← coeffs_curve] at hsm ⊢
  obtain ⟨H, R, h1, h2, _, h3⟩ := C18_hos_reverse_partial h hd par hdk (fun i : Fin n => fbase i) (coeffs n k fx)
    (spread1 e0.ys.length fu zero1) hspec hn hsm
  refine ⟨_, _, H.stk, _, by simp only [hosForwardF, tapeOf, spread_ext (n := n), spread2_ext, h1, hfwd, Bind.bind, Except.bind]; rfl,
    by simp only [hosReverseF, tapeOf, h2, hrev, Bind.bind, Except.bind]; rfl, fun i q hq => ?_, fun q hq => ?_⟩
  · refine ((C57_layout2 n (d + 1) R.Z R.Z fz fz).1 i q i.2 (by omega)).1.trans ((h3 i q hq).trans ?_)
    congr 2
    funext t
    refine Finset.sum_congr rfl fun j hj => ?_
    rw [spread1_eq, if_pos (Finset.mem_range.1 hj)]; rfl
  · exact (C57_layout2 n (d + 1) R.Z R.Z fz fz).2.1 q hq

/-- `hos_forward_` with `keep = d + 1`, then `hov_reverse_` of degree `d` with `q` weight vectors (partial: as C41). -/
theorem C57_hov_reverse_partial (h : Traced cfg stock s p s' N) (hd : p.disc ⟨Set.univ, ∅⟩) (par : ℕ → ℝ) {n k d q : ℕ} (hdk : d ≤ k)
    (hq : 0 < q) (habs : q ≤ 1 ∨ Verif.Props.HORevVec.noAbs p) (fbase fx fvalue fy fu fz : ℕ → ℝ) {e0 : SE ℝ}
    (hspec : p.spec (ext fun i : Fin n => fbase i) par s.se = some (e0, p.path cfg s)) (hn : e0.ii = n)
    (hsm : ∀ᶠ t in 𝓝 0, p.smooth .hor (ext (curve k (fun i : Fin n => fbase i) (fun i k => fx (k * n + i)) t)) par s.se) :
    ∃ v y stk fz', hosForwardF (tapeOf s' N par n e0.ys.length) k (d + 1) fbase fx fvalue fy = .ok (v, y, stk) ∧
      hovReverseF (tapeOf s' N par n e0.ys.length) stk d q fu fz = .ok fz' ∧
      (∀ l < q, ∀ i : Fin n, ∀ e ≤ d, fz' ((e * n + i) * q + l) = iteratedDeriv e (fun t => ∑ j ∈ Finset.range e0.ys.length,
        fu (j * q + l) * fderiv ℝ (F p s par n j) (curve k (fun i : Fin n => fbase i) (fun i k => fx (k * n + i)) t) (Pi.single i 1)) 0 / e.factorial) ∧
      ∀ k, q * n * (d + 1) ≤ k → fz' k = fz k := by
  rw [← coeffs_curve] at hsm ⊢
  obtain ⟨H, V, h1, h2, _, h3⟩ := Verif.Props.HORevVec.C41_hov_reverse_partial h hd par hdk hq habs (fun i : Fin n => fbase i) (coeffs n k fx)
    (spread2 q e0.ys.length fu zero2) hspec hn hsm
  refine ⟨_, _, H.stk, _, by simp only [hosForwardF, tapeOf, spread_ext (n := n), spread2_ext, h1, hfwd, Bind.bind, Except.bind]; rfl,
    by simp only [hovReverseF, tapeOf, h2, hrev, Bind.bind, Except.bind]; rfl, fun l hl i e he => ?_, fun k hk => ?_⟩
  · refine ((C57_layout3 q n (d + 1) V.Z V.Z fz fz).1 l i e hl i.2 (by omega)).1.trans (((h3 l hl i).1 e he).trans ?_)
    congr 2
    funext t
    refine Finset.sum_congr rfl fun j hj => ?_
    rw [spread2_eq, if_pos ⟨hl, Finset.mem_range.1 hj⟩]; rfl
  · exact (C57_layout3 q n (d + 1) V.Z V.Z fz fz).2.1 k hk

/-- `hos_forward_` with `keep = d + 1`, then `hov_ti_reverse_` (partial: as C41). -/
theorem C57_hov_ti_reverse_partial (h : Traced cfg stock s p s' N) (hd : p.disc ⟨Set.univ, ∅⟩) (par : ℕ → ℝ) {n k d q : ℕ} (hdk : d ≤ k)
    (hq : 0 < q) (habs : q ≤ 1 ∨ Verif.Props.HORevVec.noAbs p) (fbase fx fvalue fy fu fz : ℕ → ℝ) {e0 : SE ℝ}
    (hspec : p.spec (ext fun i : Fin n => fbase i) par s.se = some (e0, p.path cfg s)) (hn : e0.ii = n)
    (hsm : ∀ᶠ t in 𝓝 0, p.smooth .hor (ext (curve k (fun i : Fin n => fbase i) (fun i k => fx (k * n + i)) t)) par s.se) :
    ∃ v y stk fz', hosForwardF (tapeOf s' N par n e0.ys.length) k (d + 1) fbase fx fvalue fy = .ok (v, y, stk) ∧
      hovTiReverseF (tapeOf s' N par n e0.ys.length) stk d q fu fz = .ok fz' ∧
      (∀ l < q, ∀ i : Fin n, ∀ e ≤ d, fz' ((e * n + i) * q + l) = iteratedDeriv e (fun t => ∑ j ∈ Finset.range e0.ys.length,
        (∑ r ∈ Finset.range (d + 1), fu ((r * e0.ys.length + j) * q + l) * t ^ r) *
          fderiv ℝ (F p s par n j) (curve k (fun i : Fin n => fbase i) (fun i k => fx (k * n + i)) t) (Pi.single i 1)) 0 / e.factorial) ∧
      ∀ k, q * n * (d + 1) ≤ k → fz' k = fz k := by
  rw [← coeffs_curve] at hsm ⊢
  obtain ⟨H, V, h1, h2, _, h3⟩ := Verif.Props.HORevVec.C41_hov_ti_reverse_partial h hd par hdk hq habs (fun i : Fin n => fbase i) (coeffs n k fx)
    (spread3 q e0.ys.length (d + 1) fu zero3) hspec hn hsm
  refine ⟨_, _, H.stk, _, by simp only [hosForwardF, tapeOf, spread_ext (n := n), spread2_ext, h1, hfwd, Bind.bind, Except.bind]; rfl,
    by simp only [hovTiReverseF, tapeOf, h2, hrev, Bind.bind, Except.bind]; rfl, fun l hl i e he => ?_, fun k hk => ?_⟩
  · refine ((C57_layout3 q n (d + 1) V.Z V.Z fz fz).1 l i e hl i.2 (by omega)).1.trans (((h3 l hl i).1 e he).trans ?_)
    congr 2
    funext t
    refine Finset.sum_congr rfl fun j hj => ?_
    congr 1
    refine Finset.sum_congr rfl fun r hr => ?_
    rw [spread3_eq, if_pos ⟨hl, Finset.mem_range.1 hj, Finset.mem_range.1 hr⟩]
  · exact (C57_layout3 q n (d + 1) V.Z V.Z fz fz).2.1 k hk

/-- `hov_forward_` (partial: as C40): `fy(j, l, k)` is the Taylor coefficient of order `k + 1` of `F_j` along the `l`-th curve. -/
theorem C57_hov_forward_partial (h : Traced cfg stock s p s' N) (par : ℕ → ℝ) {n d q : ℕ} (hq : 0 < q) (fbase fx fvalue fy : ℕ → ℝ) {e0 : SE ℝ}
    (hspec : p.spec (ext fun i : Fin n => fbase i) par s.se = some (e0, p.path cfg s))
    (hsm : ∀ l < q, ∀ᶠ t in 𝓝 0, p.smooth .ho (ext (curve d (fun i : Fin n => fbase i) (fun i k => fx ((k * q + l) * n + i)) t)) par s.se) :
    ∃ v y, hovForwardF (tapeOf s' N par n e0.ys.length) d q fbase fx fvalue fy = .ok (v, y) ∧
      (∀ k, v k = if k < e0.ys.length then F p s par n k (fun i => fbase i) else fvalue k) ∧
      (∀ j < e0.ys.length, ∀ l < q, ∀ k < d, y ((k * q + l) * e0.ys.length + j) = iteratedDeriv (k + 1)
        (fun t => F p s par n j (curve d (fun i : Fin n => fbase i) (fun i k => fx ((k * q + l) * n + i)) t)) 0 / (k + 1).factorial) ∧
      ∀ k, e0.ys.length * q * d ≤ k → y k = fy k := by
  set X : Fin n → ℕ → ℕ → ℝ := fun i l k => if l < q ∧ k < d then fx ((k * q + l) * n + i) else 0 with hX
  have hcv : ∀ l < q, curve d (fun i : Fin n => fbase i) (fun i => X i l) = curve d (fun i : Fin n => fbase i) (fun i k => fx ((k * q + l) * n + i)) :=
    fun l hl => curve_congr _ fun i k hk => by simp [hX, hl, hk]
  have hsp : spread3 n q d fx zero3 = fun i l => extX (fun i => X i l) i := by
    funext i l k
    rw [spread3_eq]
    by_cases hi : i < n
    · simp only [extX, hi, dif_pos, hX, true_and, zero3]
    · simp [extX, hi, zero3]
  obtain ⟨S, h1, h2, h3⟩ := Verif.Props.HOVec.C40_hov_forward_partial h par (keep := 0) hq (Nat.zero_le _) (fun i : Fin n => fbase i) X hspec
    (fun l hl => by rw [hcv l hl]; exact hsm l hl)
  refine ⟨_, _, by simp only [hovForwardF, tapeOf, spread_ext (n := n), hsp, h1, hfwd, Bind.bind, Except.bind]; rfl, fun k => ?_, fun j hj l hl k hk => ?_, fun k hk => ?_⟩
  · rw [pack1_eq]
    by_cases hk : k < e0.ys.length
    · rw [if_pos hk, if_pos hk, List.getElem?_eq_getElem (by omega), Option.getD_some, (h3 k (by omega)).1]; rfl
    · rw [if_neg hk, if_neg hk]
  · refine ((C57_layout3 e0.ys.length q d (fun j l k => (S.y[j]?.getD (0, zero2)).2 l k) zero3 fy fy).1 j l k hj hl hk).1.trans ?_
    have hj' : j < S.y.length := by omega
    rw [List.getElem?_eq_getElem hj', Option.getD_some]
    have := ((h3 j hj').2 l hl).2 (k + 1) (by omega) hk
    rw [hcv l hl] at this
    exact this
  · exact (C57_layout3 e0.ys.length q d (fun j l k => (S.y[j]?.getD (0, zero2)).2 l k) zero3 fy fy).2.1 k hk

/-! ## C58: partitioned arguments -/

/-- The position of the first variable of block `i`. -/
def off (ndim : ℕ → ℕ) (i : ℕ) : ℕ := ∑ i' ∈ Finset.range i, ndim i'

theorem concat_eq {α : Type} (n : ℕ) (ndim : ℕ → ℕ) (x : ℕ → ℕ → α) (z : α) (y : ℕ → α)
    (hy : ∀ i < n, ∀ j < ndim i, y (off ndim i + j) = x i j) :
    concat n ndim x z = (off ndim n, fun k => if k < off ndim n then y k else z) := by
  have key : ∀ q ≤ n, concat q ndim x z = (off ndim q, fun k => if k < off ndim q then y k else z) := by
    intro q
    induction q with
    | zero => intro _; simp [concat, off]
    | succ q ih =>
      intro hq
      have h1 := ih (by omega)
      unfold concat at h1 ⊢
      rw [List.range_succ, List.foldl_append, h1]
      simp only [List.foldl_cons, List.foldl_nil]
      have h2 := put_row (ndim q) (x q) (off ndim q) (fun k => if k < off ndim q then y k else z)
      simp only [put] at h2
      rw [h2]
      have e : off ndim (q + 1) = off ndim q + ndim q := Finset.sum_range_succ _ _
      refine Prod.ext (by simp only [e]) ?_
      funext k
      simp only [e]
      by_cases h3 : off ndim q ≤ k ∧ k < off ndim q + ndim q
      · rw [if_pos h3, if_pos h3.2, ← hy q hq (k - off ndim q) (by omega)]
        congr 1; omega
      · rw [if_neg h3]
        by_cases h4 : k < off ndim q
        · rw [if_pos h4, if_pos (by omega)]
        · rw [if_neg h4, if_neg (by omega)]
  exact key n le_rfl

theorem sumN_eq (n : ℕ) (ndim : ℕ → ℕ) : sumN n ndim = off ndim n := by
  induction n with
  | zero => rfl
  | succ n ih => unfold sumN at ih ⊢; rw [List.range_succ, List.foldl_append, ih]; simp [off, Finset.sum_range_succ]

/-- `x0` is the point whose variables, block after block, are those of `x`. -/
def Parts {M : ℕ} (n : ℕ) (ndim : ℕ → ℕ) (x : ℕ → ℕ → ℝ) (x0 : Fin M → ℝ) : Prop :=
  off ndim n = M ∧ ∀ i < n, ∀ j < ndim i, ext x0 (off ndim i + j) = x i j

theorem Parts.eq {M n : ℕ} {ndim : ℕ → ℕ} {x : ℕ → ℕ → ℝ} {x0 : Fin M → ℝ} (h : Parts n ndim x x0) : (concat n ndim x 0).2 = ext x0 := by
  rw [concat_eq n ndim x 0 (ext x0) h.2]
  funext k
  simp only [h.1]
  split_ifs with hk
  · rfl
  · simp [ext, hk]

/-- For every partition and all blocks there is exactly one such point. -/
theorem C58_parts_exists (n : ℕ) (ndim : ℕ → ℕ) (x : ℕ → ℕ → ℝ) : ∃! x0 : Fin (off ndim n) → ℝ, Parts n ndim x x0 := by
  have key : ∀ n, ∃ y : ℕ → ℝ, ∀ i < n, ∀ j < ndim i, y (off ndim i + j) = x i j := by
    intro n
    induction n with
    | zero => exact ⟨fun _ => 0, fun i hi => by omega⟩
    | succ n ih =>
      obtain ⟨y, hy⟩ := ih
      refine ⟨fun k => if k < off ndim n then y k else x n (k - off ndim n), fun i hi j hj => ?_⟩
      rcases Nat.lt_or_ge i n with h | h
      · have : off ndim (i + 1) ≤ off ndim n := Finset.sum_le_sum_of_subset (Finset.range_subset_range.2 h)
        have e : off ndim (i + 1) = off ndim i + ndim i := Finset.sum_range_succ _ _
        simp only []
        rw [if_pos (by omega)]; exact hy i h j hj
      · obtain rfl : i = n := by omega
        simp
  have lt : ∀ i < n, ∀ j < ndim i, off ndim i + j < off ndim n := by
    intro i hi j hj
    have : off ndim (i + 1) ≤ off ndim n := Finset.sum_le_sum_of_subset (Finset.range_subset_range.2 hi)
    have e : off ndim (i + 1) = off ndim i + ndim i := Finset.sum_range_succ _ _
    omega
  obtain ⟨y, hy⟩ := key n
  refine ⟨fun k => y k, ⟨rfl, fun i hi j hj => ?_⟩, fun z hz => ?_⟩
  · rw [ext, dif_pos (lt i hi j hj)]; exact hy i hi j hj
  · have h1 := hz.eq
    rw [concat_eq n ndim x 0 y hy] at h1
    funext k
    have := congrFun h1 k
    simp only [k.2, if_true] at this
    rw [this, ext, dif_pos k.2]

theorem guard_ok {α : Type} {t : Tape ℝ} {m q : ℕ} (h1 : m = t.m) (h2 : q = t.n) (a : α) : partxGuard t m q (.ok a) = .ok a := by
  simp [partxGuard, h1, h2]

/-- C58: `zos_forward_partx`. -/
theorem C58_zos_forward_partx (h : Traced cfg stock s p s' N) (par : ℕ → ℝ) {M n : ℕ} (ndim : ℕ → ℕ) (x : ℕ → ℕ → ℝ) (x0 : Fin M → ℝ)
    (hx : Parts n ndim x x0) (y : ℕ → ℝ) {e0 : SE ℝ} (hspec : p.spec (ext x0) par s.se = some (e0, p.path cfg s)) :
    ∃ y', zosPartx (tapeOf s' N par M e0.ys.length) e0.ys.length n ndim x y = .ok y' ∧
      ∀ j, y' j = if j < e0.ys.length then F p s par M j x0 else y j := by
  obtain ⟨z, h1, h2⟩ := C09_zos_forward h (ext x0) par false hspec
  refine ⟨_, by simp only [zosPartx, hx.eq, Tape.zos, tapeOf, h1, fwd, Bind.bind, Except.bind]; exact guard_ok rfl ((sumN_eq _ _).trans hx.1) _, fun j => ?_⟩
  simp [F, Prog.out, hspec, h2]

/-- A wrong number of variables is refused. -/
theorem C58_wrong_count (t : Tape ℝ) (m n : ℕ) (ndim : ℕ → ℕ) (x : ℕ → ℕ → ℝ) (y : ℕ → ℝ) (h : m ≠ t.m ∨ off ndim n ≠ t.n) :
    zosPartx t m n ndim x y = .error none := by
  rw [zosPartx, partxGuard.eq_def, if_pos (by rw [sumN_eq]; exact h)]

theorem fold2_eq (m : ℕ) (a b : ℕ → ℝ) (y : ℕ → ℕ → ℝ) :
    (List.range m).foldl (fun y i => set2 (set2 y i 0 (a i)) i 1 (b i)) y =
      fun j k => if j < m ∧ k ≤ 1 then (if k = 0 then a j else b j) else y j k := by
  induction m with
  | zero => simp
  | succ m ih =>
    rw [List.range_succ, List.foldl_append, ih]
    funext j k
    simp only [List.foldl_cons, List.foldl_nil, set2]
    by_cases h1 : j = m ∧ k = 1
    · obtain ⟨rfl, rfl⟩ := h1; simp
    · rw [if_neg h1]
      by_cases h2 : j = m ∧ k = 0
      · obtain ⟨rfl, rfl⟩ := h2; simp
      · rw [if_neg h2]
        by_cases h3 : j < m ∧ k ≤ 1
        · rw [if_pos h3, if_pos (show j < m + 1 ∧ k ≤ 1 by omega)]
        · rw [if_neg h3, if_neg (show ¬ (j < m + 1 ∧ k ≤ 1) by omega)]

/-- C58 (partial: as C11): `fos_forward_partx`; `x[i][j][0]` is the point, `x[i][j][1]` the direction. -/
theorem C58_fos_forward_partx_partial (h : Traced cfg stock s p s' N) (par : ℕ → ℝ) {M n : ℕ} (ndim : ℕ → ℕ) (x : ℕ → ℕ → ℕ → ℝ) (x0 v : Fin M → ℝ)
    (hx : Parts n ndim (fun i j => x i j 0) x0) (hv : Parts n ndim (fun i j => x i j 1) v) (y : ℕ → ℕ → ℝ) {e0 : SE ℝ}
    (hspec : p.spec (ext x0) par s.se = some (e0, p.path cfg s)) (hsm : p.smooth .fwd (ext x0) par s.se) :
    ∃ y', fosPartx (tapeOf s' N par M e0.ys.length) e0.ys.length n ndim x y = .ok y' ∧
      ∀ j k, y' j k = if j < e0.ys.length ∧ k ≤ 1 then (if k = 0 then F p s par M j x0 else fderiv ℝ (F p s par M j) x0 v) else y j k := by
  obtain ⟨D, hD, hf⟩ := C11_fos_forward_partial h par false x0 hspec hsm
  obtain ⟨f, h1, h2, h3, h4⟩ := hf v
  refine ⟨_, by simp only [fosPartx, hx.eq, hv.eq, tapeOf, h1, fwd, Bind.bind, Except.bind]; exact guard_ok rfl ((sumN_eq _ _).trans hx.1) _, fun j k => ?_⟩
  rw [fold2_eq]
  simp only [h2, h4]
  rw [show F p s par M j = fun x => p.out (ext x) par s.se j from rfl, (hD j).fderiv]
  simp [Prog.out, hspec]

theorem fold_row (d : ℕ) (f : ℕ → ℝ) (a : ℕ → ℝ) : (List.range d).foldl (fun a k => upd a k (f k)) a = fun k => if k < d then f k else a k := by
  induction d with
  | zero => simp
  | succ d ih =>
    rw [List.range_succ, List.foldl_append, ih]
    funext k
    simp only [List.foldl_cons, List.foldl_nil, upd_apply]
    by_cases h : k = d
    · subst h; simp
    · rw [if_neg h]
      by_cases h2 : k < d
      · rw [if_pos h2, if_pos (by omega)]
      · rw [if_neg h2, if_neg (by omega)]

theorem fold_rowset (d i : ℕ) (f : ℕ → ℝ) (y : ℕ → ℕ → ℝ) : (List.range d).foldl (fun y k => set2 y i (k + 1) (f k)) y =
    fun a b => if a = i ∧ 0 < b ∧ b ≤ d then f (b - 1) else y a b := by
  induction d with
  | zero => funext a b; rw [if_neg (by omega)]; rfl
  | succ d ih =>
    rw [List.range_succ, List.foldl_append, ih]
    funext a b
    simp only [List.foldl_cons, List.foldl_nil, set2]
    by_cases h : a = i ∧ b = d + 1
    · obtain ⟨rfl, rfl⟩ := h; simp
    · rw [if_neg h]
      by_cases h2 : a = i ∧ 0 < b ∧ b ≤ d
      · rw [if_pos h2, if_pos (show a = i ∧ 0 < b ∧ b ≤ d + 1 by omega)]
      · rw [if_neg h2, if_neg (show ¬ (a = i ∧ 0 < b ∧ b ≤ d + 1) by omega)]

theorem fold_out (m d : ℕ) (G : ℕ → ℕ → ℝ) (y : ℕ → ℕ → ℝ) :
    (List.range m).foldl (fun y i => (List.range d).foldl (fun y j => set2 y i (j + 1) (G i (j + 1))) (set2 y i 0 (G i 0))) y =
      fun j k => if j < m ∧ k ≤ d then G j k else y j k := by
  induction m with
  | zero => simp
  | succ m ih =>
    rw [List.range_succ, List.foldl_append, ih]
    simp only [List.foldl_cons, List.foldl_nil]
    rw [fold_rowset d m (fun k => G m (k + 1))]
    funext j k
    simp only [set2]
    by_cases h1 : j = m ∧ 0 < k ∧ k ≤ d
    · rw [if_pos h1, if_pos (show j < m + 1 ∧ k ≤ d by omega), h1.1, Nat.sub_add_cancel h1.2.1]
    · rw [if_neg h1]
      by_cases h2 : j = m ∧ k = 0
      · obtain ⟨rfl, rfl⟩ := h2; simp
      · rw [if_neg h2]
        by_cases h3 : j < m ∧ k ≤ d
        · rw [if_pos h3, if_pos (show j < m + 1 ∧ k ≤ d by omega)]
        · rw [if_neg h3, if_neg (show ¬ (j < m + 1 ∧ k ≤ d) by omega)]

/-- C58 (partial: as C17): `hos_forward_partx`; `x[i][j][k]` is the coefficient of order `k`. -/
theorem C58_hos_forward_partx_partial (h : Traced cfg stock s p s' N) (par : ℕ → ℝ) {M n d : ℕ} (ndim : ℕ → ℕ) (x : ℕ → ℕ → ℕ → ℝ) (x0 : Fin M → ℝ)
    (X : Fin M → ℕ → ℝ) (hx : Parts n ndim (fun i j => x i j 0) x0) (hX : ∀ k < d, Parts n ndim (fun i j => x i j (k + 1)) (fun i => X i k))
    (y : ℕ → ℕ → ℝ) {e0 : SE ℝ} (hspec : p.spec (ext x0) par s.se = some (e0, p.path cfg s))
    (hsm : ∀ᶠ t in 𝓝 0, p.smooth .ho (ext (curve d x0 X t)) par s.se) :
    ∃ y', hosPartx (tapeOf s' N par M e0.ys.length) e0.ys.length n ndim d x y = .ok y' ∧
      ∀ j k, y' j k = if j < e0.ys.length ∧ k ≤ d then iteratedDeriv k (fun t => F p s par M j (curve d x0 X t)) 0 / k.factorial else y j k := by
  set X' : Fin M → ℕ → ℝ := fun i k => if k < d then X i k else 0 with hX'
  have hcv : curve d x0 X' = curve d x0 X := curve_congr x0 fun i k hk => by simp [hX', hk]
  rw [← hcv] at hsm ⊢
  obtain ⟨H, h1, h2, h3⟩ := C17_hos_forward_partial h par (keep := 0) (Nat.zero_le _) x0 X' hspec hsm
  have hc : (concat n ndim (fun i j => (List.range d).foldl (fun a k => upd a k (x i j (k + 1))) zero1) zero1).2 = extX X' := by
    have : ∀ i < n, ∀ j < ndim i, extX X' (off ndim i + j) = (List.range d).foldl (fun a k => upd a k (x i j (k + 1))) zero1 := by
      intro i hi j hj
      rw [fold_row d (fun k => x i j (k + 1))]
      funext k
      by_cases hk : k < d
      · rw [if_pos hk]
        refine Eq.trans ?_ ((hX k hk).2 i hi j hj)
        simp only [extX, ext, hX']
        split_ifs <;> first | rfl | simp [hk]
      · rw [if_neg hk]; simp only [extX, hX', zero1]; split_ifs <;> simp [hk]
    rw [concat_eq n ndim _ zero1 (extX X') this]
    funext k
    simp only [hx.1]
    split_ifs with hk
    · rfl
    · simp only [extX, hk, dif_neg, not_false_iff]; rfl
  refine ⟨_, by simp only [hosPartx, hx.eq, hc, tapeOf, h1, hfwd, Bind.bind, Except.bind]; exact guard_ok rfl ((sumN_eq _ _).trans hx.1) _, fun j k => ?_⟩
  rw [fold_out e0.ys.length d (fun i k => (H.y[i]?.getD fun _ => 0) k)]
  by_cases hjk : j < e0.ys.length ∧ k ≤ d
  · rw [if_pos hjk]; simp only [if_pos hjk]
    rw [List.getElem?_eq_getElem (show j < H.y.length by omega), Option.getD_some]
    exact (h3 j (by omega)).2 k hjk.2
  · rw [if_neg hjk]; simp only [if_neg hjk]

/-- C58 (partial: as C12): `fov_forward_partx`. -/
theorem C58_fov_forward_partx_partial (h : Traced cfg stock s p s' N) (par : ℕ → ℝ) {M n q : ℕ} (hq : 0 < q) (ndim : ℕ → ℕ) (x : ℕ → ℕ → ℝ) (X : ℕ → ℕ → ℕ → ℝ)
    (x0 : Fin M → ℝ) (V : ℕ → Fin M → ℝ) (hx : Parts n ndim x x0) (hV : ∀ l < q, Parts n ndim (fun i j => X i j l) (V l))
    (y : ℕ → ℝ) (Y : ℕ → ℕ → ℝ) {e0 : SE ℝ} (hspec : p.spec (ext x0) par s.se = some (e0, p.path cfg s)) (hsm : p.smooth .fwd (ext x0) par s.se) :
    ∃ y' Y', fovPartx (tapeOf s' N par M e0.ys.length) e0.ys.length n ndim q x X y Y = .ok (y', Y') ∧
      (∀ j, y' j = if j < e0.ys.length then F p s par M j x0 else y j) ∧
      ∀ j l, Y' j l = if j < e0.ys.length ∧ l < q then fderiv ℝ (F p s par M j) x0 (V l) else Y j l := by
  set W : ℕ → ℕ → ℝ := fun i l => if l < q then ext (V l) i else 0 with hW
  have hcol : ∀ l < q, (fun i => W i l) = ext (V l) := fun l hl => by funext i; simp [hW, hl]
  have hc : (concat n ndim (fun i j => (List.range q).foldl (fun a k => upd a k (X i j k)) zero1) zero1).2 = W := by
    have : ∀ i < n, ∀ j < ndim i, W (off ndim i + j) = (List.range q).foldl (fun a k => upd a k (X i j k)) zero1 := by
      intro i hi j hj
      rw [fold_row q (fun k => X i j k)]
      funext k
      by_cases hk : k < q
      · rw [if_pos hk]
        refine Eq.trans ?_ ((hV k hk).2 i hi j hj)
        simp [hW, hk]
      · simp [hW, hk, zero1]
    rw [concat_eq n ndim _ zero1 W this]
    funext k
    simp only [hx.1]
    split_ifs with hk
    · rfl
    · funext l; simp [hW, ext, hk, zero1]
  obtain ⟨w, h1, h2⟩ := fov_columns h par x0 hspec hsm q W (fun l hl => ⟨_, hcol l hl⟩) hq
  obtain ⟨D, hD, hf⟩ := C11_fos_forward_partial h par false x0 hspec hsm
  obtain ⟨f, g1, g2, g3, g4⟩ := hf (V 0)
  have hy : w.y = e0.ys := by
    rcases C12_fov_columns_partial _ q W _ (along_log h par hspec hsm) 0 hq with ⟨e, h5, h6⟩ | ⟨w', f', h5, h6, h7, _⟩
    · rw [h1] at h5; cases h5
    · rw [h1] at h5; cases h5
      rw [hcol 0 hq, g1] at h6; cases h6
      rw [h7, g2]
  refine ⟨_, _, by simp only [fovPartx, hx.eq, hc, tapeOf, h1, fwd, Bind.bind, Except.bind]; exact guard_ok rfl ((sumN_eq _ _).trans hx.1) _, fun j => ?_, fun j l => ?_⟩
  · simp [F, Prog.out, hspec, hy]
  · by_cases hjl : j < e0.ys.length ∧ l < q
    · rw [if_pos hjl, if_pos hjl]; exact h2 l hjl.2 _ (hcol l hjl.2) j
    · rw [if_neg hjl, if_neg hjl]

theorem fold_mat (p d : ℕ) (f : ℕ → ℕ → ℝ) : (List.range p).foldl (fun a k => (List.range d).foldl (fun a l => set2 a k l (f k l)) a) zero2 =
    fun k l => if k < p ∧ l < d then f k l else 0 := by
  have inner : ∀ k d (a : ℕ → ℕ → ℝ), (List.range d).foldl (fun a l => set2 a k l (f k l)) a = fun b c => if b = k ∧ c < d then f k c else a b c := by
    intro k d a
    induction d with
    | zero => simp
    | succ d ih =>
      rw [List.range_succ, List.foldl_append, ih]
      funext b c
      simp only [List.foldl_cons, List.foldl_nil, set2]
      by_cases h : b = k ∧ c = d
      · obtain ⟨rfl, rfl⟩ := h; simp
      · rw [if_neg h]
        by_cases h2 : b = k ∧ c < d
        · rw [if_pos h2, if_pos (show b = k ∧ c < d + 1 by omega)]
        · rw [if_neg h2, if_neg (show ¬ (b = k ∧ c < d + 1) by omega)]
  induction p with
  | zero => funext k l; simp [zero2]
  | succ p ih =>
    rw [List.range_succ, List.foldl_append, ih]
    simp only [List.foldl_cons, List.foldl_nil, inner]
    funext k l
    by_cases h : k = p ∧ l < d
    · obtain ⟨rfl, h⟩ := h; simp [h]
    · rw [if_neg h]
      by_cases h2 : k < p ∧ l < d
      · rw [if_pos h2, if_pos (show k < p + 1 ∧ l < d by omega)]
      · rw [if_neg h2, if_neg (show ¬ (k < p + 1 ∧ l < d) by omega)]

/-- C58 (partial: as C40): `hov_forward_partx`. -/
theorem C58_hov_forward_partx_partial (h : Traced cfg stock s p s' N) (par : ℕ → ℝ) {M n d q : ℕ} (hq : 0 < q) (ndim : ℕ → ℕ) (x : ℕ → ℕ → ℝ)
    (Xp : ℕ → ℕ → ℕ → ℕ → ℝ) (x0 : Fin M → ℝ) (X : Fin M → ℕ → ℕ → ℝ) (hx : Parts n ndim x x0)
    (hX : ∀ l < q, ∀ k < d, Parts n ndim (fun i j => Xp i j l k) (fun i => X i l k)) (y : ℕ → ℝ) (Y : ℕ → ℕ → ℕ → ℝ) {e0 : SE ℝ}
    (hspec : p.spec (ext x0) par s.se = some (e0, p.path cfg s))
    (hsm : ∀ l < q, ∀ᶠ t in 𝓝 0, p.smooth .ho (ext (curve d x0 (fun i => X i l) t)) par s.se) :
    ∃ y' Y', hovPartx (tapeOf s' N par M e0.ys.length) e0.ys.length n ndim d q x Xp y Y = .ok (y', Y') ∧
      (∀ j, y' j = if j < e0.ys.length then F p s par M j x0 else y j) ∧
      ∀ j l k, Y' j l k = if j < e0.ys.length ∧ l < q ∧ k < d then
        iteratedDeriv (k + 1) (fun t => F p s par M j (curve d x0 (fun i => X i l) t)) 0 / (k + 1).factorial else Y j l k := by
  set X' : Fin M → ℕ → ℕ → ℝ := fun i l k => if l < q ∧ k < d then X i l k else 0 with hX'
  have hcv : ∀ l < q, curve d x0 (fun i => X' i l) = curve d x0 (fun i => X i l) := fun l hl => curve_congr x0 fun i k hk => by simp [hX', hl, hk]
  have hc : (concat n ndim (fun i j => (List.range q).foldl (fun a k => (List.range d).foldl (fun a l => set2 a k l (Xp i j k l)) a) zero2) zero2).2 =
      fun i l => extX (fun i => X' i l) i := by
    have : ∀ i < n, ∀ j < ndim i, (fun l => extX (fun i => X' i l) (off ndim i + j)) =
        (List.range q).foldl (fun a k => (List.range d).foldl (fun a l => set2 a k l (Xp i j k l)) a) zero2 := by
      intro i hi j hj
      rw [fold_mat q d (fun k l => Xp i j k l)]
      funext l k
      by_cases hk : l < q ∧ k < d
      · rw [if_pos hk]
        refine Eq.trans ?_ ((hX l hk.1 k hk.2).2 i hi j hj)
        simp only [extX, ext, hX']
        split_ifs <;> first | rfl | simp [hk]
      · rw [if_neg hk]; simp only [extX, hX']; split_ifs <;> simp [hk]
    rw [concat_eq n ndim _ zero2 (fun i l => extX (fun i => X' i l) i) this]
    funext k l
    simp only [hx.1]
    split_ifs with hk
    · rfl
    · simp only [extX, hk, dif_neg, not_false_iff]; rfl
  obtain ⟨S, h1, h2, h3⟩ := Verif.Props.HOVec.C40_hov_forward_partial h par (keep := 0) hq (Nat.zero_le _) x0 X' hspec
    (fun l hl => by rw [hcv l hl]; exact hsm l hl)
  refine ⟨_, _, by simp only [hovPartx, hx.eq, hc, tapeOf, h1, hfwd, Bind.bind, Except.bind]; exact guard_ok rfl ((sumN_eq _ _).trans hx.1) _, fun j => ?_, fun j l k => ?_⟩
  · by_cases hj : j < e0.ys.length
    · simp only [if_pos hj]
      rw [List.getElem?_eq_getElem (show j < S.y.length by omega), Option.getD_some, (h3 j (by omega)).1]; rfl
    · simp only [if_neg hj]
  · by_cases hjl : j < e0.ys.length ∧ l < q ∧ k < d
    · simp only [if_pos hjl]
      rw [List.getElem?_eq_getElem (show j < S.y.length by omega), Option.getD_some]
      have := ((h3 j (by omega)).2 l hjl.2.1).2 (k + 1) (by omega) hjl.2.2
      rw [hcv l hjl.2.1] at this
      exact this
    · simp only [if_neg hjl]

/-- The hypotheses can be met: the demo program (two independents, one dependent) at the point `(1, 2)` in a Fortran array, and as two blocks. -/
example : ∃ s' e, Traced demoCfg [] demoStart demo s' (s'.hw + 1) ∧ demo.disc ⟨Set.univ, ∅⟩ ∧
    demo.spec (ext (fun i : Fin 2 => ((fun i => (i : ℝ) + 1 : ℕ → ℝ)) i)) (fun _ => 0) demoStart.se = some (e, demo.path demoCfg demoStart) ∧ e.ii = 2 ∧ e.ys.length = 1 ∧
    demo.smooth .rev (ext (fun i : Fin 2 => ((fun i => (i : ℝ) + 1 : ℕ → ℝ)) i)) (fun _ => 0) demoStart.se ∧
    Parts 2 (fun _ => 1) (fun i _ => (i : ℝ) + 1) (fun i : Fin 2 => (i : ℝ) + 1) := by
  obtain ⟨e, h1, h2, h3⟩ := demo_spec demoCfg.x demoCfg.par (by simp only [demoCfg]; positivity)
  obtain ⟨s', h4, h5⟩ := traced_exists (stock := []) demo_alloc demo_start (by simp [demo, Prog.noFminLL, Stmt.notFminLL]) h1
  have hpos : 0 < ext (fun i : Fin 2 => ((fun i => (i : ℝ) + 1 : ℕ → ℝ)) i) 0 * ext (fun i : Fin 2 => ((fun i => (i : ℝ) + 1 : ℕ → ℝ)) i) 1 +
      ext (fun i : Fin 2 => ((fun i => (i : ℝ) + 1 : ℕ → ℝ)) i) 0 * Real.exp (ext (fun i : Fin 2 => ((fun i => (i : ℝ) + 1 : ℕ → ℝ)) i) 0) := by
    simp only [ext]; norm_num; positivity
  obtain ⟨e', g1, g2, g3⟩ := demo_spec (ext (fun i : Fin 2 => ((fun i => (i : ℝ) + 1 : ℕ → ℝ)) i)) (fun _ => 0) hpos
  refine ⟨s', e', h4, demo_disc, by rw [h5]; exact g1, g2, by simp [g3], demo_smooth _ _ _ hpos, by simp [off], fun i hi j hj => ?_⟩
  obtain rfl : j = 0 := by simpa using hj
  simp only [off, Finset.sum_const, Finset.card_range, smul_eq_mul, mul_one, add_zero, ext, hi, dif_pos]

end Verif.Props.Fortran
