import Verif.Drivers.Model
import Verif.Drivers.Interfaces
import Mathlib.Tactic.Ring

/-!
# The Fortran interface (`ADOL-C/src/fortutils.cpp`, `ADOL-C/src/drivers/driversf.cpp`, `ADOL-C/src/interfacesf.cpp`)

A Fortran array is a function on offsets; the C++ arrays of the drivers are functions on indices.  `static_cast`s of the integer arguments are taken
as exact.  Simplified as in `Drivers/Model.lean`: the counts passed are those of the trace, and a failing sweep makes the call fail (in the code the
result arrays are then still copied out).  Memory from `myalloc1/2/3` is zero (`calloc`, adalloc.cpp:21-28).
-/
set_option linter.all false
namespace Verif.Drivers
open Verif.AD

section fortutils
variable {K : Type}

/-- `*x++ = v` -/
def put (s : ℕ × (ℕ → K)) (v : K) : ℕ × (ℕ → K) := (s.1 + 1, upd s.2 s.1 v)

/-- `spread1(m, x, X)` (fortutils.cpp:25-29) -/
def spread1 (m : ℕ) (x X : ℕ → K) : ℕ → K :=
  ((List.range m).foldl (fun s j => (s.1 + 1, upd s.2 j (x s.1))) (0, X)).2

/-- `pack1(m, X, x)` (fortutils.cpp:32-36) -/
def pack1 (m : ℕ) (X x : ℕ → K) : ℕ → K := ((List.range m).foldl (fun s j => put s (X j)) (0, x)).2

/-- `X[i][j] = v` -/
def set2 (X : ℕ → ℕ → K) (i j : ℕ) (v : K) : ℕ → ℕ → K := fun a b => if a = i ∧ b = j then v else X a b
/-- `X[i][j][k] = v` -/
def set3 (X : ℕ → ℕ → ℕ → K) (i j k : ℕ) (v : K) : ℕ → ℕ → ℕ → K := fun a b c => if a = i ∧ b = j ∧ c = k then v else X a b c

/-- `spread2(m, n, x, X)` (fortutils.cpp:39-44) -/
def spread2 (m n : ℕ) (x : ℕ → K) (X : ℕ → ℕ → K) : ℕ → ℕ → K :=
  ((List.range n).foldl (fun s j => (List.range m).foldl (fun s i => (s.1 + 1, set2 s.2 i j (x s.1))) s) (0, X)).2

/-- `pack2(m, n, X, x)` (fortutils.cpp:47-52) -/
def pack2 (m n : ℕ) (X : ℕ → ℕ → K) (x : ℕ → K) : ℕ → K :=
  ((List.range n).foldl (fun s j => (List.range m).foldl (fun s i => put s (X i j)) s) (0, x)).2

/-- `spread3(m, n, p, x, X)` (fortutils.cpp:55-61) -/
def spread3 (m n p : ℕ) (x : ℕ → K) (X : ℕ → ℕ → ℕ → K) : ℕ → ℕ → ℕ → K :=
  ((List.range p).foldl (fun s k => (List.range n).foldl (fun s j => (List.range m).foldl (fun s i =>
    (s.1 + 1, set3 s.2 i j k (x s.1))) s) s) (0, X)).2

/-- `pack3(m, n, p, X, x)` (fortutils.cpp:64-70) -/
def pack3 (m n p : ℕ) (X : ℕ → ℕ → ℕ → K) (x : ℕ → K) : ℕ → K :=
  ((List.range p).foldl (fun s k => (List.range n).foldl (fun s j => (List.range m).foldl (fun s i => put s (X i j k)) s) s) (0, x)).2

/-! ### What they compute -/

theorem put_row (m : ℕ) (f : ℕ → K) (p : ℕ) (x : ℕ → K) :
    (List.range m).foldl (fun s i => put s (f i)) (p, x) = (p + m, fun k => if p ≤ k ∧ k < p + m then f (k - p) else x k) := by
  induction m with
  | zero => exact Prod.ext (by simp) (funext fun k => (if_neg (by simp)).symm)
  | succ m ih =>
    rw [List.range_succ, List.foldl_append, ih]
    simp only [List.foldl_cons, List.foldl_nil, put]
    refine Prod.ext (by simp; omega) ?_
    funext k
    simp only [upd_apply]
    by_cases h : k = p + m
    · subst h; simp
    · rw [if_neg h]
      by_cases h2 : p ≤ k ∧ k < p + m
      · rw [if_pos h2, if_pos (by omega)]
      · rw [if_neg h2, if_neg (by omega)]

theorem pack1_eq (m : ℕ) (X x : ℕ → K) (k : ℕ) : pack1 m X x k = if k < m then X k else x k := by
  simp [pack1, put_row]

theorem block_row {m n : ℕ} (k : ℕ) : (m * n ≤ k ∧ k < m * n + m) ↔ k < m * (n + 1) ∧ ¬ k < m * n := by
  rw [Nat.mul_succ]; omega

theorem put_rows (m n : ℕ) (X : ℕ → ℕ → K) (p : ℕ) (x : ℕ → K) :
    (List.range n).foldl (fun s j => (List.range m).foldl (fun s i => put s (X i j)) s) (p, x) =
      (p + m * n, fun k => if p ≤ k ∧ k < p + m * n then X ((k - p) % m) ((k - p) / m) else x k) := by
  induction n with
  | zero => exact Prod.ext (by simp) (funext fun k => (if_neg (by simp)).symm)
  | succ n ih =>
    rw [List.range_succ, List.foldl_append, ih]
    simp only [List.foldl_cons, List.foldl_nil, put_row]
    refine Prod.ext (by simp [Nat.mul_succ]; omega) ?_
    funext k
    simp only []
    by_cases h : p + m * n ≤ k ∧ k < p + m * n + m
    · have h' : k < p + m * (n + 1) := by rw [Nat.mul_succ]; omega
      have e : k - p = m * n + (k - (p + m * n)) := by omega
      have hm : k - (p + m * n) < m := by omega
      rw [if_pos h, if_pos ⟨by omega, h'⟩, e, Nat.mul_add_mod, Nat.mod_eq_of_lt hm, Nat.mul_add_div (by omega), Nat.div_eq_of_lt hm, Nat.add_zero]
    · rw [if_neg h]
      by_cases h2 : p ≤ k ∧ k < p + m * n
      · rw [if_pos h2, if_pos ⟨h2.1, by rw [Nat.mul_succ]; omega⟩]
      · rw [if_neg h2, if_neg (by rw [Nat.mul_succ]; omega)]

/-- The result array of `pack2`: column-major order, leading dimension `m`. -/
theorem pack2_eq (m n : ℕ) (X : ℕ → ℕ → K) (x : ℕ → K) (k : ℕ) :
    pack2 m n X x k = if k < m * n then X (k % m) (k / m) else x k := by
  simp [pack2, put_rows]

theorem put_blocks (m n p : ℕ) (X : ℕ → ℕ → ℕ → K) (x : ℕ → K) :
    (List.range p).foldl (fun s k => (List.range n).foldl (fun s j => (List.range m).foldl (fun s i => put s (X i j k)) s) s) (0, x) =
      (m * n * p, fun q => if q < m * n * p then X (q % m) (q / m % n) (q / (m * n)) else x q) := by
  induction p with
  | zero => simp
  | succ p ih =>
    rw [List.range_succ, List.foldl_append, ih]
    simp only [List.foldl_cons, List.foldl_nil]
    rw [put_rows m n (fun i j => X i j p)]
    refine Prod.ext (by simp [Nat.mul_succ]) ?_
    funext q
    simp only []
    by_cases h : m * n * p ≤ q ∧ q < m * n * p + m * n
    · obtain ⟨r, rfl⟩ : ∃ r, q = m * n * p + r := ⟨q - m * n * p, by omega⟩
      have hr : r < m * n := by omega
      have hm : 0 < m := Nat.pos_of_ne_zero fun h0 => by subst h0; simp at hr
      have hn : 0 < n := Nat.pos_of_ne_zero fun h0 => by subst h0; simp at hr
      have hrn : r / m < n := Nat.div_lt_of_lt_mul hr
      rw [if_pos h, if_pos (by rw [Nat.mul_succ]; omega), Nat.add_sub_cancel_left]
      congr 1
      · rw [Nat.mul_assoc, Nat.mul_add_mod]
      · rw [Nat.mul_assoc, Nat.mul_add_div hm, Nat.mul_add_mod, Nat.mod_eq_of_lt hrn]
      · rw [Nat.mul_add_div (Nat.mul_pos hm hn), Nat.div_eq_of_lt hr, Nat.add_zero]
    · rw [if_neg h]
      by_cases h2 : q < m * n * p
      · rw [if_pos h2, if_pos (by rw [Nat.mul_succ]; omega)]
      · rw [if_neg h2, if_neg (by rw [Nat.mul_succ]; omega)]

theorem pack3_eq (m n p : ℕ) (X : ℕ → ℕ → ℕ → K) (x : ℕ → K) (q : ℕ) :
    pack3 m n p X x q = if q < m * n * p then X (q % m) (q / m % n) (q / (m * n)) else x q := by
  rw [pack3, put_blocks]

theorem spread1_eq (m : ℕ) (x X : ℕ → K) (i : ℕ) : spread1 m x X i = if i < m then x i else X i := by
  have : ∀ m, (List.range m).foldl (fun (s : ℕ × (ℕ → K)) j => (s.1 + 1, upd s.2 j (x s.1))) (0, X) =
      (m, fun i => if i < m then x i else X i) := by
    intro m
    induction m with
    | zero => simp
    | succ m ih =>
      rw [List.range_succ, List.foldl_append, ih]
      simp only [List.foldl_cons, List.foldl_nil]
      refine Prod.ext rfl ?_
      funext i
      simp only [upd_apply]
      by_cases h : i = m
      · subst h; simp
      · rw [if_neg h]
        by_cases h2 : i < m
        · rw [if_pos h2, if_pos (by omega)]
        · rw [if_neg h2, if_neg (by omega)]
  rw [spread1, this]

theorem get_row (m j : ℕ) (x : ℕ → K) (p : ℕ) (X : ℕ → ℕ → K) :
    (List.range m).foldl (fun (s : ℕ × (ℕ → ℕ → K)) i => (s.1 + 1, set2 s.2 i j (x s.1))) (p, X) =
      (p + m, fun a b => if a < m ∧ b = j then x (p + a) else X a b) := by
  induction m with
  | zero => simp
  | succ m ih =>
    rw [List.range_succ, List.foldl_append, ih]
    simp only [List.foldl_cons, List.foldl_nil]
    refine Prod.ext (by simp; omega) ?_
    funext a b
    simp only [set2]
    by_cases h : a = m ∧ b = j
    · obtain ⟨rfl, rfl⟩ := h; simp
    · rw [if_neg h]
      by_cases h2 : a < m ∧ b = j
      · rw [if_pos h2, if_pos ⟨by omega, h2.2⟩]
      · rw [if_neg h2, if_neg (by omega)]

theorem spread2_eq (m n : ℕ) (x : ℕ → K) (X : ℕ → ℕ → K) (i j : ℕ) :
    spread2 m n x X i j = if i < m ∧ j < n then x (j * m + i) else X i j := by
  have : ∀ n, (List.range n).foldl (fun (s : ℕ × (ℕ → ℕ → K)) j => (List.range m).foldl (fun s i => (s.1 + 1, set2 s.2 i j (x s.1))) s) (0, X) =
      (n * m, fun a b => if a < m ∧ b < n then x (b * m + a) else X a b) := by
    intro n
    induction n with
    | zero => simp
    | succ n ih =>
      rw [List.range_succ, List.foldl_append, ih]
      simp only [List.foldl_cons, List.foldl_nil, get_row]
      refine Prod.ext (by simp [Nat.succ_mul]) ?_
      funext a b
      simp only []
      by_cases h : a < m ∧ b = n
      · obtain ⟨h, rfl⟩ := h; simp [h]
      · rw [if_neg h]
        by_cases h2 : a < m ∧ b < n
        · rw [if_pos h2, if_pos (by omega)]
        · rw [if_neg h2, if_neg (by omega)]
  rw [spread2, this]

theorem get_row3 (m j k : ℕ) (x : ℕ → K) (p : ℕ) (X : ℕ → ℕ → ℕ → K) :
    (List.range m).foldl (fun (s : ℕ × (ℕ → ℕ → ℕ → K)) i => (s.1 + 1, set3 s.2 i j k (x s.1))) (p, X) =
      (p + m, fun a b c => if a < m ∧ b = j ∧ c = k then x (p + a) else X a b c) := by
  induction m with
  | zero => simp
  | succ m ih =>
    rw [List.range_succ, List.foldl_append, ih]
    simp only [List.foldl_cons, List.foldl_nil]
    refine Prod.ext (by simp; omega) ?_
    funext a b c
    simp only [set3]
    by_cases h : a = m ∧ b = j ∧ c = k
    · obtain ⟨rfl, rfl, rfl⟩ := h; simp
    · rw [if_neg h]
      by_cases h2 : a < m ∧ b = j ∧ c = k
      · rw [if_pos h2, if_pos ⟨by omega, h2.2⟩]
      · rw [if_neg h2, if_neg (by omega)]

theorem get_rows3 (m n k : ℕ) (x : ℕ → K) (p : ℕ) (X : ℕ → ℕ → ℕ → K) :
    (List.range n).foldl (fun (s : ℕ × (ℕ → ℕ → ℕ → K)) j => (List.range m).foldl (fun s i => (s.1 + 1, set3 s.2 i j k (x s.1))) s) (p, X) =
      (p + n * m, fun a b c => if a < m ∧ b < n ∧ c = k then x (p + b * m + a) else X a b c) := by
  induction n with
  | zero => simp
  | succ n ih =>
    rw [List.range_succ, List.foldl_append, ih]
    simp only [List.foldl_cons, List.foldl_nil, get_row3]
    refine Prod.ext (by simp [Nat.succ_mul]; omega) ?_
    funext a b c
    simp only []
    by_cases h : a < m ∧ b = n ∧ c = k
    · obtain ⟨h, rfl, rfl⟩ := h; simp [h]
    · rw [if_neg h]
      by_cases h2 : a < m ∧ b < n ∧ c = k
      · rw [if_pos h2, if_pos (by omega)]
      · rw [if_neg h2, if_neg (by omega)]

theorem spread3_eq (m n p : ℕ) (x : ℕ → K) (X : ℕ → ℕ → ℕ → K) (i j k : ℕ) :
    spread3 m n p x X i j k = if i < m ∧ j < n ∧ k < p then x ((k * n + j) * m + i) else X i j k := by
  have : ∀ p, (List.range p).foldl (fun (s : ℕ × (ℕ → ℕ → ℕ → K)) k => (List.range n).foldl (fun s j => (List.range m).foldl (fun s i =>
      (s.1 + 1, set3 s.2 i j k (x s.1))) s) s) (0, X) =
      (p * (n * m), fun a b c => if a < m ∧ b < n ∧ c < p then x ((c * n + b) * m + a) else X a b c) := by
    intro p
    induction p with
    | zero => simp
    | succ p ih =>
      rw [List.range_succ, List.foldl_append, ih]
      simp only [List.foldl_cons, List.foldl_nil, get_rows3]
      refine Prod.ext (by simp [Nat.succ_mul]) ?_
      funext a b c
      simp only []
      by_cases h : a < m ∧ b < n ∧ c = p
      · obtain ⟨h1, h2, rfl⟩ := h
        simp only [h1, h2, true_and, if_true, Nat.lt_succ_self]
        congr 1; ring
      · rw [if_neg h]
        by_cases h2 : a < m ∧ b < n ∧ c < p
        · rw [if_pos h2, if_pos (by omega)]
        · rw [if_neg h2, if_neg (by omega)]
  rw [spread3, this]

end fortutils

/-! ### The calls -/

variable {K : Type} [Scalar K]

/-- What `myalloc1` returns. -/
def zero1 : ℕ → K := fun _ => 0
/-- What `myalloc2` returns. -/
def zero2 : ℕ → ℕ → K := fun _ _ => 0
/-- What `myalloc3` returns. -/
def zero3 : ℕ → ℕ → ℕ → K := fun _ _ _ => 0

/-- `function_` (driversf.cpp:32-45): `fy` is the caller's result array. -/
def functionF (t : Tape K) (fx fy : ℕ → K) : Except DErr (ℕ → K) := do
  let y ← function t (spread1 t.n fx zero1)
  .ok (pack1 t.m (fun j => y[j]?.getD 0) fy)

/-- `gradient_` (driversf.cpp:50-62) -/
def gradientF (t : Tape K) (fx fg : ℕ → K) : Except DErr (ℕ → K) := do
  let g ← gradient t (spread1 t.n fx zero1)
  .ok (pack1 t.n g fg)

/-- `vec_jac_` (driversf.cpp:67-85) -/
def vecJacF (t : Tape K) (rep : Bool) (kept : List K) (rrc : Int) (fx fu frow : ℕ → K) : Except DErr (Int × (ℕ → K)) := do
  let r ← vecJac t rep kept rrc (spread1 t.n fx zero1) (spread1 t.m fu zero1)
  .ok (r.1, pack1 t.n r.2 frow)

/-- `jacobian_` (driversf.cpp:90-104) -/
def jacobianF (t : Tape K) (fx fjac : ℕ → K) : Except DErr (ℕ → K) := do
  let J ← jacobian t (spread1 t.n fx zero1)
  .ok (pack2 t.m t.n J fjac)

/-- `jac_vec_` (driversf.cpp:109-126) -/
def jacVecF (t : Tape K) (fx fv fcol : ℕ → K) : Except DErr (ℕ → K) := do
  let c ← jacVec t (spread1 t.n fx zero1) (spread1 t.n fv zero1)
  .ok (pack1 t.m (fun j => c[j]?.getD 0) fcol)

/-- `hess_vec_` (driversf.cpp:131-147) -/
def hessVecF (t : Tape K) (fx fv fw : ℕ → K) : Except DErr (ℕ → K) := do
  let w ← hessVec t (spread1 t.n fx zero1) (spread1 t.n fv zero1)
  .ok (pack1 t.n w fw)

/-- `hessian_` (driversf.cpp:152-168) -/
def hessianF (t : Tape K) (fx fh : ℕ → K) : Except DErr (ℕ → K) := do
  let H ← hessian t (spread1 t.n fx zero1) zero2
  .ok (pack2 t.n t.n H fh)

/-- `lagra_hess_vec_` (driversf.cpp:173-194) -/
def lagraHessVecF (t : Tape K) (fx fv fu fw : ℕ → K) : Except DErr (ℕ → K) := do
  let w ← lagraHessVec t (spread1 t.n fx zero1) (spread1 t.n fv zero1) (spread1 t.m fu zero1)
  .ok (pack1 t.n w fw)

/-- `zos_forward_` (interfacesf.cpp:48-62): the result array and the kept values. -/
def zosForwardF (t : Tape K) (keep : Bool) (fx fy : ℕ → K) : Except DErr ((ℕ → K) × List K) := do
  let z ← t.zos keep (spread1 t.n fx zero1)
  .ok (pack1 t.m (fun j => z.y[j]?.getD 0) fy, z.stk)

/-- `hos_forward_` (interfacesf.cpp:24-45): the values, the coefficients and the kept rows. -/
def hosForwardF (t : Tape K) (d keep : ℕ) (fbase fx fvalue fy : ℕ → K) : Except DErr ((ℕ → K) × (ℕ → K) × List (ℕ → K)) := do
  let H ← hfwd (hosRun ⟨spread1 t.n fbase zero1, spread2 t.n d fx zero2, t.par, d, keep⟩ t.ops HS.init)
  .ok (pack1 t.m (fun j => (H.y[j]?.getD fun _ => 0) 0) fvalue, pack2 t.m d (fun j k => (H.y[j]?.getD fun _ => 0) (k + 1)) fy, H.stk)

/-- `fov_forward_` (interfacesf.cpp:89-110) -/
def fovForwardF (t : Tape K) (p : ℕ) (fbase fx fvalue fy : ℕ → K) : Except DErr ((ℕ → K) × (ℕ → K)) := do
  let w ← fwd (fovRun ⟨spread1 t.n fbase zero1, t.par, false⟩ p (spread2 t.n p fx zero2) t.ops VS.init)
  .ok (pack1 t.m (fun j => w.y[j]?.getD 0) fvalue, pack2 t.m p (fun j l => (w.dy[j]?.getD [])[l]?.getD 0) fy)

/-- `hov_forward_` (interfacesf.cpp:65-86) -/
def hovForwardF (t : Tape K) (d p : ℕ) (fbase fx fvalue fy : ℕ → K) : Except DErr ((ℕ → K) × (ℕ → K)) := do
  let S ← hfwd (hovRun ⟨spread1 t.n fbase zero1, spread3 t.n p d fx zero3, t.par, d, p, 0⟩ t.ops HVS.init)
  .ok (pack1 t.m (fun j => (S.y[j]?.getD (0, zero2)).1) fvalue, pack3 t.m p d (fun j l k => (S.y[j]?.getD (0, zero2)).2 l k) fy)

/-- `fos_reverse_` (interfacesf.cpp:148-160) on the kept values `stk`. -/
def fosReverseF (t : Tape K) (stk : List K) (fu fz : ℕ → K) : Except DErr (ℕ → K) := do
  let r ← rev (revRun (spread1 t.m fu zero1) t.ops (RS.init t.n t.m stk))
  .ok (pack1 t.n r.bar fz)

/-- `fov_reverse_` (interfacesf.cpp:203-217) -/
def fovReverseF (t : Tape K) (stk : List K) (q : ℕ) (fu fz : ℕ → K) : Except DErr (ℕ → K) := do
  let r ← rev (fovRevRun q (spread2 q t.m fu zero2) t.ops (VRS.init t.n t.m stk))
  .ok (pack2 q t.n r.bar fz)

/-- `hos_reverse_` (interfacesf.cpp:113-127) on the kept rows `stk`. -/
def hosReverseF (t : Tape K) (stk : List (ℕ → K)) (d : ℕ) (fu fz : ℕ → K) : Except DErr (ℕ → K) := do
  let r ← hrev (hosRevRun (d + 1) (lagr (spread1 t.m fu zero1)) t.ops (HRS.init t.n t.m stk))
  .ok (pack2 t.n (d + 1) r.Z fz)

/-- `hos_ti_reverse_` (interfacesf.cpp:130-145) -/
def hosTiReverseF (t : Tape K) (stk : List (ℕ → K)) (d : ℕ) (fu fz : ℕ → K) : Except DErr (ℕ → K) := do
  let r ← hrev (hosRevRun (d + 1) (spread2 t.m (d + 1) fu zero2) t.ops (HRS.init t.n t.m stk))
  .ok (pack2 t.n (d + 1) r.Z fz)

/-- `hov_reverse_` (interfacesf.cpp:163-180): the nonzero pattern is not asked for (`nop = 0`). -/
def hovReverseF (t : Tape K) (stk : List (ℕ → K)) (d q : ℕ) (fu fz : ℕ → K) : Except DErr (ℕ → K) := do
  let r ← hrev (hvrRun ⟨false, d + 1, q, fun l => lagr (spread2 q t.m fu zero2 l)⟩ t.ops (RVS.init t.n t.m (stk.map fun x _ => x)))
  .ok (pack3 q t.n (d + 1) r.Z fz)

/-- `hov_ti_reverse_` (interfacesf.cpp:183-200) -/
def hovTiReverseF (t : Tape K) (stk : List (ℕ → K)) (d q : ℕ) (fu fz : ℕ → K) : Except DErr (ℕ → K) := do
  let r ← hrev (hvrRun ⟨false, d + 1, q, spread3 q t.m (d + 1) fu zero3⟩ t.ops (RVS.init t.n t.m (stk.map fun x _ => x)))
  .ok (pack3 q t.n (d + 1) r.Z fz)

/-! ## Partitioned arguments (`ADOL-C/src/forward_partx.cpp`) -/

/-- The loop that concatenates the blocks, e.g. forward_partx.cpp:35-40: the number of cells written and the array (zero before). -/
def concat {α : Type} (n : ℕ) (ndim : ℕ → ℕ) (x : ℕ → ℕ → α) (z : α) : ℕ × (ℕ → α) :=
  (List.range n).foldl (fun s i => (List.range (ndim i)).foldl (fun s j => (s.1 + 1, upd s.2 s.1 (x i j))) s) (0, fun _ => z)

/-- `sum_n` (forward_partx.cpp:29-31) -/
def sumN (n : ℕ) (ndim : ℕ → ℕ) : ℕ := (List.range n).foldl (fun s i => s + ndim i) 0

/-- How a call on partitioned arguments ends: the counts are wrong (the sweep throws), or the sweep stops. -/
def partxGuard {α : Type} (t : Tape K) (m sum : ℕ) (r : Except DErr α) : Except (Option DErr) α :=
  if m ≠ t.m ∨ sum ≠ t.n then .error none else match r with
    | .ok a => .ok a
    | .error e => .error (some e)

/-- `zos_forward_partx` (forward_partx.cpp:24-47): the result array; `y0` is what it contains before. -/
def zosPartx (t : Tape K) (m n : ℕ) (ndim : ℕ → ℕ) (x : ℕ → ℕ → K) (y0 : ℕ → K) : Except (Option DErr) (ℕ → K) :=
  partxGuard t m (sumN n ndim) do
    let z ← t.zos false (concat n ndim x 0).2
    .ok fun j => if j < m then z.y[j]?.getD 0 else y0 j

/-- `fos_forward_partx` (forward_partx.cpp:54-94): `y[i][0]`, `y[i][1]`. -/
def fosPartx (t : Tape K) (m n : ℕ) (ndim : ℕ → ℕ) (x : ℕ → ℕ → ℕ → K) (y : ℕ → ℕ → K) : Except (Option DErr) (ℕ → ℕ → K) :=
  partxGuard t m (sumN n ndim) do
    let f ← fwd (fosRun ⟨(concat n ndim (fun i j => x i j 0) 0).2, t.par, false⟩ (concat n ndim (fun i j => x i j 1) 0).2 t.ops FS.init)
    .ok ((List.range m).foldl (fun y i => set2 (set2 y i 0 (f.y[i]?.getD 0)) i 1 (f.dy[i]?.getD 0)) y)

/-- `hos_forward_partx` (forward_partx.cpp:101-146) -/
def hosPartx (t : Tape K) (m n : ℕ) (ndim : ℕ → ℕ) (d : ℕ) (x : ℕ → ℕ → ℕ → K) (y : ℕ → ℕ → K) : Except (Option DErr) (ℕ → ℕ → K) :=
  partxGuard t m (sumN n ndim) do
    let H ← hfwd (hosRun ⟨(concat n ndim (fun i j => x i j 0) 0).2,
      (concat n ndim (fun i j => (List.range d).foldl (fun a k => upd a k (x i j (k + 1))) zero1) zero1).2, t.par, d, 0⟩ t.ops HS.init)
    .ok ((List.range m).foldl (fun y i => (List.range d).foldl (fun y j => set2 y i (j + 1) ((H.y[i]?.getD fun _ => 0) (j + 1)))
      (set2 y i 0 ((H.y[i]?.getD fun _ => 0) 0))) y)

/-- `fov_forward_partx` (forward_partx.cpp:154-184): `y` and `Y`. -/
def fovPartx (t : Tape K) (m n : ℕ) (ndim : ℕ → ℕ) (p : ℕ) (x : ℕ → ℕ → K) (X : ℕ → ℕ → ℕ → K) (y : ℕ → K) (Y : ℕ → ℕ → K) :
    Except (Option DErr) ((ℕ → K) × (ℕ → ℕ → K)) :=
  partxGuard t m (sumN n ndim) do
    let w ← fwd (fovRun ⟨(concat n ndim x 0).2, t.par, false⟩ p
      (concat n ndim (fun i j => (List.range p).foldl (fun a k => upd a k (X i j k)) zero1) zero1).2 t.ops VS.init)
    .ok (fun j => if j < m then w.y[j]?.getD 0 else y j, fun j l => if j < m ∧ l < p then (w.dy[j]?.getD [])[l]?.getD 0 else Y j l)

/-- `hov_forward_partx` (forward_partx.cpp:192-226) -/
def hovPartx (t : Tape K) (m n : ℕ) (ndim : ℕ → ℕ) (d p : ℕ) (x : ℕ → ℕ → K) (X : ℕ → ℕ → ℕ → ℕ → K) (y : ℕ → K) (Y : ℕ → ℕ → ℕ → K) :
    Except (Option DErr) ((ℕ → K) × (ℕ → ℕ → ℕ → K)) :=
  partxGuard t m (sumN n ndim) do
    let S ← hfwd (hovRun ⟨(concat n ndim x 0).2,
      (concat n ndim (fun i j => (List.range p).foldl (fun a k => (List.range d).foldl (fun a l => set2 a k l (X i j k l)) a) zero2) zero2).2,
      t.par, d, p, 0⟩ t.ops HVS.init)
    .ok (fun j => if j < m then (S.y[j]?.getD (0, zero2)).1 else y j,
      fun j l k => if j < m ∧ l < p ∧ k < d then (S.y[j]?.getD (0, zero2)).2 l k else Y j l k)

end Verif.Drivers
