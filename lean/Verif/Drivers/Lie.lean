import Verif.Drivers.Accode
import Verif.Drivers.Interfaces
import Mathlib.Tactic.IntervalCases

/-!
# Lie derivatives (`ADOL-C/src/lie/adolc_lie_c.cpp`, `ADOL-C/src/lie/adolc_lie.cpp`)

Arrays obtained with `myalloc` have arbitrary contents (arguments `…0` of the model).  Not modelled: return codes (the
drivers ignore those of the sweeps); the drivers for `d = 0` except `lie_scalar` (they call `hov_reverse` with degree -1).
-/
set_option linter.all false
namespace Verif.Drivers
open Verif.AD

/-! ## The helper functions -/

section acc
variable {K : Type} [Field K]

/-- Two nested loops over `i < p`, `j < n` in which the body assigns to cell `(i, j, k)` a value computed from its old value and
the array. -/
def pass3 (p n k : Nat) (h : Nat → Nat → K → (Nat → Nat → Nat → K) → K) (B : Nat → Nat → Nat → K) : Nat → Nat → Nat → K :=
  (List.range p).foldl (fun B i => (List.range n).foldl (fun B j => upd3 B i j k (h i j (B i j k) B)) B) B

/-- `B[i][k] = v` -/
def upd2 (B : Nat → Nat → K) (i k : Nat) (v : K) : Nat → Nat → K := fun a c => if a = i ∧ c = k then v else B a c

/-- A loop over `i < n` in which the body assigns to cell `(i, k)`. -/
def pass2 (n k : Nat) (h : Nat → K → K) (B : Nat → Nat → K) : Nat → Nat → K :=
  (List.range n).foldl (fun B i => upd2 B i k (h i (B i k))) B

/-- `x = 0; for (kp = 0; kp < n; kp++) x += f(kp);` -/
def sumLoop (n : Nat) (f : Nat → K) : K := (List.range n).foldl (fun x kp => x + f kp) 0

/-- `accodeout` (adolc_lie_c.cpp:29-51); `l = q + 1`. -/
def accodeout (p n deg : Nat) (B C D0 : Nat → Nat → Nat → K) : Nat → Nat → Nat → K :=
  (List.range (deg + 1)).foldl (fun D k =>
    (List.range k).foldl (fun D q =>
      pass3 p n k (fun jp ip v _ => v + sumLoop n fun kp => C jp kp (k - (q + 1)) * B kp ip q) D)
      (pass3 p n k (fun j i _ _ => C j i k) D)) D0

/-- `accadj` (adolc_lie_c.cpp:101-126) -/
def accadj (n deg : Nat) (A Bs0 : Nat → Nat → Nat → K) : Nat → Nat → Nat → K :=
  (List.range (deg + 1)).foldl (fun D k =>
    (List.range k).foldl (fun D q =>
      pass3 n n k (fun jp ip v D => v - (sumLoop n fun kp => A kp jp (k - (q + 1)) * D kp ip q) / ((k : K) + 1)) D)
      (pass3 n n k (fun j i _ _ => - A i j k / ((k : K) + 1)) D)) Bs0

/-- `INT_MAX` -/
def intMax : Nat := 2147483647

/-- The variable `int Fak` (adolc_lie_c.cpp:66-74, 139-147) after `k` multiplications; `none` is signed overflow. -/
def facInt : Nat → Option Nat
  | 0 => some 1
  | k + 1 => (facInt k).bind fun f => if f * (k + 1) ≤ intMax then some (f * (k + 1)) else none

/-- `acccov` (adolc_lie_c.cpp:62-91) -/
def acccov (n d : Nat) (B : Nat → Nat → Nat → K) (C D0 : Nat → Nat → K) : Option (Nat → Nat → K) :=
  (List.range (d + 1)).foldlM (fun D k => (facInt k).map fun (fak : Nat) =>
    (List.range k).foldl (fun D q => pass2 n k (fun ip v => v + (fak : K) * sumLoop n fun kp => C kp (k - (q + 1)) * B kp ip q) D)
      (pass2 n k (fun i _ => (fak : K) * C i k) D)) D0

/-- `accbrac` (adolc_lie_c.cpp:135-169): everything is repeated for every `j < n`. -/
def accbrac (n d : Nat) (Bs : Nat → Nat → Nat → K) (b D0 : Nat → Nat → K) : Option (Nat → Nat → K) :=
  (List.range (d + 1)).foldlM (fun D k => (facInt k).map fun (fak : Nat) =>
    (List.range n).foldl (fun D _ =>
      (List.range k).foldl (fun D q => pass2 n k (fun jp v => v + (fak : K) * sumLoop n fun kp => Bs kp jp q * b kp (k - (q + 1))) D)
        (pass2 n k (fun i _ => (fak : K) * b i k) D)) D) D0

/-- `Fak` as a `double` after `k` multiplications (adolc_lie_c.cpp:216-222, 329-333). -/
def facK : Nat → K
  | 0 => 1
  | k + 1 => facK k * ((k : K) + 1)
end acc

/-! ## The drivers -/

section drivers
variable {K : Type} [Scalar K]

/-- A driver stops in a sweep, or in an integer overflow, or is called with a degree that is not modelled. -/
inductive LErr where
  | sweep (e : DErr)
  | overflow
  | degree

def sweep {α : Type} : Except DErr α → Except LErr α
  | .ok a => .ok a
  | .error e => .error (.sweep e)

def noOverflow {α : Type} : Option α → Except LErr α
  | some a => .ok a
  | none => .error .overflow

/-- An array of `n` rows. -/
def rowsN (n : Nat) (X : Nat → Nat → K) (i k : Nat) : K := if i < n then X i k else 0

/-- `X` with `X[i][0] = x0[i]` for `i < n`, elsewhere uninitialised. -/
def startX (x0 : Nat → K) (X0 : Nat → Nat → K) (i k : Nat) : K := if k = 0 then x0 i else X0 i k

/-- `hov_reverse(tape, m, n, d, m, I, Z, 0)` with the static identity `I`. -/
def hovI (t : Tape K) (d : Nat) (rows : List (Nat → K)) (c : RevI) : Except LErr (Nat → Nat → Nat → K) :=
  sweep (hrev ((hvrRun ⟨false, d + 1, t.m, fun l => lagr (ident (c.next t.m).depax l)⟩ t.ops (RVS.init t.n t.m (rows.map fun x _ => x))).map fun r => r.Z))

/-- Row `j` of `hos_forward`'s results with the value in front: the loops at adolc_lie_c.cpp:207-212, 409-416, 509-514. -/
def resY (h : HS K) (j k : Nat) : K := (h.y[j]?.getD fun _ => 0) k

/-- `lie_scalarcv` (adolc_lie_c.cpp:181-231) -/
def lieScalar (tF tH : Tape K) (d : Nat) (x0 : Nat → K) (X0 : Nat → Nat → K) : Except LErr (Nat → Nat → K) := do
  let f ← sweep (forodec tF 1 0 d (rowsN tF.n (startX x0 X0)))
  let x := fun i => rowsN tF.n f.1 i 0
  let h ← sweep (hfwd (hosRun ⟨x, rowsN tF.n (shiftL d f.1), tH.par, d, 0⟩ tH.ops HS.init))
  .ok fun j i => facK i * resY h j i

/-- `lie_gradientcv` (adolc_lie_c.cpp:266-351); `c.1`, `c.2` are the static `In`, `Im`. For `d = 1` the coefficients are not
shifted (303-311). -/
def lieGradient (tF tH : Tape K) (d : Nat) (x0 : Nat → K) (X0 : Nat → Nat → K) (B0 D0 : Nat → Nat → Nat → K) (c : RevI × RevI) :
    Except LErr (Nat → Nat → Nat → K) := do
  if d = 0 then .error .degree
  else
    let f ← sweep (forodec tF 1 0 d (rowsN tF.n (startX x0 X0)))
    let A ← hovI tF (d - 1) f.2 c.1
    let B := accDense tF.n 1 (d - 1) (fun _ => A) B0
    let x := fun i => rowsN tF.n f.1 i 0
    let X := if d = 1 then f.1 else shiftL d f.1
    let h ← sweep (hfwd (hosRun ⟨x, rowsN tF.n X, tH.par, d, d + 1⟩ tH.ops HS.init))
    let Pc ← hovI tH d h.stk c.2
    let D := accodeout tH.m tF.n d B Pc D0
    .ok fun l i j => facK j * D l i j

/-- `lie_covector` (adolc_lie_c.cpp:365-436). For `d = 1` the coefficients are not shifted, and instead of the computed
coefficient of order 1 the uninitialised `yp` is used (398-403, 409-416). -/
def lieCovector (tF tW : Tape K) (d : Nat) (x0 : Nat → K) (X0 : Nat → Nat → K) (B0 : Nat → Nat → Nat → K) (R0 : Nat → Nat → K)
    (yp : Nat → K) (c : RevI) : Except LErr (Nat → Nat → K) := do
  if d = 0 then .error .degree
  else
    let f ← sweep (forodec tF 1 0 d (rowsN tF.n (startX x0 X0)))
    let A ← hovI tF (d - 1) f.2 c
    let x := fun i => rowsN tF.n f.1 i 0
    let X := if d = 1 then f.1 else shiftL d f.1
    let h ← sweep (hfwd (hosRun ⟨x, rowsN tF.n X, tW.par, d, d + 1⟩ tW.ops HS.init))
    let Y := fun i k => if d = 1 ∧ k = 1 then yp i else resY h i k
    let B := accDense tF.n 1 (d - 1) (fun _ => A) B0
    noOverflow (acccov tF.n d B Y R0)

/-- `lie_bracket` (adolc_lie_c.cpp:447-528); the shift leaves the last coefficient in place (502-506). -/
def lieBracket (tF tG : Tape K) (d : Nat) (x0 : Nat → K) (X0 : Nat → Nat → K) (B0 : Nat → Nat → Nat → K) (R0 : Nat → Nat → K)
    (c : RevI) : Except LErr (Nat → Nat → K) := do
  let f ← sweep (forodec tF 1 0 (d + 1) (rowsN tF.n (startX x0 X0)))
  let A ← hovI tF d f.2 c
  let h ← sweep (hfwd (hosRun ⟨x0, rowsN tF.n (shiftL d f.1), tG.par, d + 1, d + 2⟩ tG.ops HS.init))
  let Xs := accadj tF.n d A B0
  noOverflow (accbrac tF.n d Xs (resY h) R0)
end drivers

/-! ## The loops in closed form -/

section closed
variable {K : Type} [Field K]
open Finset

theorem sumLoop_eq (n : Nat) (f : Nat → K) : sumLoop n f = ∑ q ∈ range n, f q := by
  unfold sumLoop; rw [foldl_sum, range_sum, zero_add]

theorem pass3_eq {p n k : Nat} {h : Nat → Nat → K → (Nat → Nat → Nat → K) → K} {B0 : Nat → Nat → Nat → K}
    (hh : ∀ i j v B, (∀ a b c, c ≠ k → B a b c = B0 a b c) → h i j v B = h i j v B0) :
    pass3 p n k h B0 = fun a b c => if a < p ∧ b < n ∧ c = k then h a b (B0 a b k) B0 else B0 a b c := by
  have inner : ∀ i m, ∀ B, (∀ a b c, c ≠ k → B a b c = B0 a b c) → (∀ b, B i b k = B0 i b k) →
      (List.range m).foldl (fun B j => upd3 B i j k (h i j (B i j k) B)) B =
        fun a b c => if a = i ∧ b < m ∧ c = k then h a b (B0 a b k) B0 else B a b c := by
    intro i m B hB hBi
    induction m with
    | zero => funext a b c; simp
    | succ m ih =>
      rw [List.range_succ, List.foldl_append, ih]
      simp only [List.foldl_cons, List.foldl_nil]
      funext a b c
      unfold upd3
      beta_reduce
      by_cases h1 : a = i ∧ b = m ∧ c = k
      · obtain ⟨rfl, rfl, rfl⟩ := h1
        rw [if_pos ⟨rfl, rfl, rfl⟩, if_neg (by omega), if_pos (by omega), hBi]
        refine hh _ _ _ _ fun x y z hz => ?_
        beta_reduce
        rw [if_neg (by omega), hB x y z hz]
      · rw [if_neg h1]
        by_cases h2 : a = i ∧ b < m ∧ c = k
        · rw [if_pos h2, if_pos ⟨h2.1, by omega, h2.2.2⟩]
        · rw [if_neg h2, if_neg (by omega)]
  unfold pass3
  induction p with
  | zero => funext a b c; simp
  | succ p ih =>
    rw [List.range_succ, List.foldl_append, ih]
    simp only [List.foldl_cons, List.foldl_nil]
    rw [inner p n _ (fun a b c hc => by beta_reduce; rw [if_neg (by tauto)]) (fun b => by beta_reduce; rw [if_neg (by omega)])]
    funext a b c
    by_cases h1 : a = p ∧ b < n ∧ c = k
    · rw [if_pos h1, if_pos ⟨by omega, h1.2⟩]
    · rw [if_neg h1]
      by_cases h2 : a < p ∧ b < n ∧ c = k
      · rw [if_pos h2, if_pos ⟨by omega, h2.2⟩]
      · rw [if_neg h2, if_neg (by omega)]

theorem pass2_eq (n k : Nat) (h : Nat → K → K) (B0 : Nat → Nat → K) :
    pass2 n k h B0 = fun a c => if a < n ∧ c = k then h a (B0 a k) else B0 a c := by
  unfold pass2
  induction n with
  | zero => funext a c; simp
  | succ n ih =>
    rw [List.range_succ, List.foldl_append, ih]
    simp only [List.foldl_cons, List.foldl_nil]
    funext a c
    unfold upd2
    beta_reduce
    by_cases h1 : a = n ∧ c = k
    · obtain ⟨rfl, rfl⟩ := h1
      rw [if_pos ⟨rfl, rfl⟩, if_neg (by omega), if_pos ⟨by omega, rfl⟩]
    · rw [if_neg h1]
      by_cases h2 : a < n ∧ c = k
      · rw [if_pos h2, if_pos ⟨by omega, h2.2⟩]
      · rw [if_neg h2, if_neg (by omega)]

/-- Level `k` of `accodeout`, `accadj`: an assignment and `m` additions. -/
theorem level3 {p n k : Nat} {g : Nat → Nat → K} {h : Nat → Nat → Nat → (Nat → Nat → Nat → K) → K} {B0 : Nat → Nat → Nat → K} (m : Nat)
    (hh : ∀ q < m, ∀ i j B, (∀ a b c, c ≠ k → B a b c = B0 a b c) → h q i j B = h q i j B0) :
    (List.range m).foldl (fun D q => pass3 p n k (fun i j v D => v + h q i j D) D) (pass3 p n k (fun i j _ _ => g i j) B0) =
      fun a b c => if a < p ∧ b < n ∧ c = k then g a b + ∑ q ∈ range m, h q a b B0 else B0 a b c := by
  induction m with
  | zero =>
    rw [show (List.range 0).foldl (fun D q => pass3 p n k (fun i j v D => v + h q i j D) D) (pass3 p n k (fun i j _ _ => g i j) B0) =
      pass3 p n k (fun i j _ _ => g i j) B0 from rfl, pass3_eq fun _ _ _ _ _ => rfl]
    simp
  | succ m ih =>
    rw [List.range_succ, List.foldl_append, ih fun q hq => hh q (by omega)]
    simp only [List.foldl_cons, List.foldl_nil]
    have hoff : ∀ a b c, c ≠ k → (fun a b c => if a < p ∧ b < n ∧ c = k then g a b + ∑ q ∈ range m, h q a b B0 else B0 a b c) a b c = B0 a b c := by
      intro a b c hc; simp only; rw [if_neg (by tauto)]
    rw [pass3_eq]
    · funext a b c
      by_cases h1 : a < p ∧ b < n ∧ c = k
      · rw [if_pos h1, if_pos (show a < p ∧ b < n ∧ k = k from ⟨h1.1, h1.2.1, rfl⟩), if_pos h1]
        rw [hh m (by omega) a b _ hoff, sum_range_succ, add_assoc]
      · simp only [if_neg h1]
    · intro i j v B hB
      rw [hh m (by omega) i j B (fun a b c hc => (hB a b c hc).trans (hoff a b c hc)), hh m (by omega) i j _ hoff]

theorem level2 (n k : Nat) (g : Nat → K) (h : Nat → Nat → K) (B0 : Nat → Nat → K) (m : Nat) :
    (List.range m).foldl (fun D q => pass2 n k (fun i v => v + h q i) D) (pass2 n k (fun i _ => g i) B0) =
      fun a c => if a < n ∧ c = k then g a + ∑ q ∈ range m, h q a else B0 a c := by
  induction m with
  | zero =>
    rw [show (List.range 0).foldl (fun D q => pass2 n k (fun i v => v + h q i) D) (pass2 n k (fun i _ => g i) B0) =
      pass2 n k (fun i _ => g i) B0 from rfl, pass2_eq]
    simp
  | succ m ih =>
    rw [List.range_succ, List.foldl_append, ih]
    simp only [List.foldl_cons, List.foldl_nil]
    rw [pass2_eq]
    funext a c
    by_cases h1 : a < n ∧ c = k
    · rw [if_pos h1, if_pos (show a < n ∧ k = k from ⟨h1.1, rfl⟩), if_pos h1]
      rw [sum_range_succ, add_assoc]
    · simp only [if_neg h1]

theorem accodeout_eq (p n deg : Nat) (B C D0 : Nat → Nat → Nat → K) :
    ∀ k ≤ deg, ∀ j < p, ∀ i < n, accodeout p n deg B C D0 j i k =
      C j i k + ∑ q ∈ range k, ∑ l ∈ range n, C j l (k - (q + 1)) * B l i q := by
  have key : ∀ m, ∀ k < m, ∀ j < p, ∀ i < n, (List.range m).foldl (fun D k =>
      (List.range k).foldl (fun D q =>
        pass3 p n k (fun jp ip v _ => v + sumLoop n fun kp => C jp kp (k - (q + 1)) * B kp ip q) D)
        (pass3 p n k (fun j i _ _ => C j i k) D)) D0 j i k = C j i k + ∑ q ∈ range k, ∑ l ∈ range n, C j l (k - (q + 1)) * B l i q := by
    intro m
    induction m with
    | zero => intro k hk; omega
    | succ m ih =>
      intro k hk j hj i hi
      rw [List.range_succ, List.foldl_append]
      simp only [List.foldl_cons, List.foldl_nil]
      rw [level3 (h := fun q jp ip _ => sumLoop n fun kp => C jp kp (m - (q + 1)) * B kp ip q) (g := fun j i => C j i m) m
        (fun _ _ _ _ _ _ => rfl)]
      beta_reduce
      by_cases hm : k = m
      · subst hm
        rw [if_pos ⟨hj, hi, rfl⟩]
        simp only [sumLoop_eq]
      · rw [if_neg (by tauto)]
        exact ih k (by omega) j hj i hi
  exact fun k hk => key (deg + 1) k (by omega)

/-- `accadj` solves the recurrence of `accodec` for the negative transposed matrix. -/
theorem accadj_recur (n deg : Nat) (A Bs0 : Nat → Nat → Nat → K) :
    ∀ k ≤ deg, ∀ i < n, ∀ j < n, accadj n deg A Bs0 i j k =
      recur n 1 (fun i j k => - A j i k) (accadj n deg A Bs0) k i j := by
  set F := fun (D : Nat → Nat → Nat → K) k =>
    (List.range k).foldl (fun D q =>
      pass3 n n k (fun jp ip v D => v - (sumLoop n fun kp => A kp jp (k - (q + 1)) * D kp ip q) / ((k : K) + 1)) D)
      (pass3 n n k (fun j i _ _ => - A i j k / ((k : K) + 1)) D) with hF
  have hlev : ∀ D k, F D k = fun a b c => if a < n ∧ b < n ∧ c = k then - A b a k / ((k : K) + 1) +
      ∑ q ∈ range k, - ((∑ l ∈ range n, A l a (k - (q + 1)) * D l b q) / ((k : K) + 1)) else D a b c := by
    intro D k
    simp only [hF, sub_eq_add_neg]
    rw [level3 (h := fun q jp ip D => -((sumLoop n fun kp => A kp jp (k - (q + 1)) * D kp ip q) / ((k : K) + 1)))
      (g := fun j i => - A i j k / ((k : K) + 1)) k (fun q hq i j B hB => by
        simp only [sumLoop_eq]
        rw [sum_congr rfl fun l hl => by rw [hB l j q (by omega)]])]
    simp only [sumLoop_eq]
  have key : ∀ m, (∀ a b c, m ≤ c → (List.range m).foldl F Bs0 a b c = Bs0 a b c) ∧
      ∀ k < m, ∀ m' ≥ m, ∀ a b, (List.range m').foldl F Bs0 a b k = (List.range m).foldl F Bs0 a b k := by
    intro m
    refine ⟨?_, ?_⟩
    · induction m with
      | zero => intro a b c _; rfl
      | succ m ih =>
        intro a b c hc
        rw [List.range_succ, List.foldl_append]
        simp only [List.foldl_cons, List.foldl_nil]
        rw [hlev]
        beta_reduce
        rw [if_neg (by omega)]
        exact ih a b c (by omega)
    · intro k hk m' hm'
      obtain ⟨e, rfl⟩ := Nat.exists_eq_add_of_le hm'
      induction e with
      | zero => intro a b; rfl
      | succ e ih =>
        intro a b
        rw [show m + (e + 1) = (m + e) + 1 by omega, List.range_succ, List.foldl_append]
        simp only [List.foldl_cons, List.foldl_nil]
        rw [hlev]
        beta_reduce
        rw [if_neg (by omega)]
        exact ih (by omega) a b
  intro k hk i hi j hj
  have e1 : accadj n deg A Bs0 = (List.range (deg + 1)).foldl F Bs0 := rfl
  rw [e1, (key (k + 1)).2 k (by omega) (deg + 1) (by omega), List.range_succ, List.foldl_append]
  simp only [List.foldl_cons, List.foldl_nil]
  rw [hlev]
  beta_reduce
  rw [if_pos ⟨hi, hj, rfl⟩]
  unfold recur
  rw [show (1:K) + (k:K) = (k:K) + 1 from add_comm _ _, mul_add, one_div, mul_neg, neg_div, ← sum_range_reflect (fun q => ∑ p ∈ range n, _)]
  rw [show A j i k / ((k:K) + 1) = ((k:K) + 1)⁻¹ * A j i k by rw [div_eq_mul_inv, mul_comm]]
  congr 1
  rw [mul_sum]
  refine sum_congr rfl fun q hq => ?_
  have hq := mem_range.1 hq
  rw [div_eq_mul_inv, mul_comm, ← mul_neg]
  congr 1
  rw [← sum_neg_distrib]
  refine sum_congr rfl fun l hl => ?_
  rw [show k - 1 - (k - 1 - q) = q by omega, show k - 1 - q = k - (q + 1) by omega]
  rw [(key (q + 1)).2 q (by omega) (deg + 1) (by omega), (key (q + 1)).2 q (by omega) k (by omega)]
  ring

theorem facInt_eq : ∀ k, k ≤ 12 → facInt k = some k.factorial := by
  intro k hk
  interval_cases k <;> decide +kernel

theorem facInt_none : ∀ k, 13 ≤ k → facInt k = none := by
  intro k hk
  obtain ⟨e, rfl⟩ := Nat.exists_eq_add_of_le hk
  induction e with
  | zero => decide +kernel
  | succ e ih =>
    rw [show 13 + (e + 1) = (13 + e) + 1 by omega]
    simp only [facInt, ih (by omega), Option.bind_none]

theorem facK_eq (k : Nat) : (facK k : K) = k.factorial := by
  induction k with
  | zero => simp [facK]
  | succ k ih => simp only [facK, ih, Nat.factorial_succ]; push_cast; ring

/-- A loop over the levels in `acccov`, `accbrac`. -/
theorem levels {n : Nat} {v : Nat → Nat → K} {F : (Nat → Nat → K) → Nat → Option (Nat → Nat → K)} (d : Nat)
    (hF : ∀ k ≤ d, ∀ D, F D k = some fun a c => if a < n ∧ c = k then v a k else D a c) (D0 : Nat → Nat → K) :
    ∃ D, (List.range (d + 1)).foldlM F D0 = some D ∧ ∀ k ≤ d, ∀ i < n, D i k = v i k := by
  have key : ∀ m ≤ d + 1, ∃ D, (List.range m).foldlM F D0 = some D ∧ ∀ k < m, ∀ i < n, D i k = v i k := by
    intro m
    induction m with
    | zero => exact fun _ => ⟨D0, rfl, fun k hk => by omega⟩
    | succ m ih =>
      intro hm
      obtain ⟨D, h1, h2⟩ := ih (by omega)
      rw [List.range_succ, List.foldlM_append, h1]
      refine ⟨_, by simp [hF m (by omega) D]; rfl, fun k hk i hi => ?_⟩
      by_cases hkm : k = m
      · rw [if_pos ⟨hi, hkm⟩, hkm]
      · rw [if_neg (by tauto)]; exact h2 k (by omega) i hi
  obtain ⟨D, h1, h2⟩ := key (d + 1) (le_refl _)
  exact ⟨D, h1, fun k hk => h2 k (by omega)⟩

theorem acccov_eq (n d : Nat) (hd : d ≤ 12) (B : Nat → Nat → Nat → K) (C D0 : Nat → Nat → K) :
    ∃ D, acccov n d B C D0 = some D ∧ ∀ k ≤ d, ∀ i < n, D i k =
      (k.factorial : K) * (C i k + ∑ q ∈ range k, ∑ l ∈ range n, C l (k - (q + 1)) * B l i q) := by
  refine levels d (fun k hk D => ?_) D0
  rw [facInt_eq k (by omega), Option.map_some]
  beta_reduce
  rw [level2 (h := fun q ip => (k.factorial : K) * sumLoop n fun kp => C kp (k - (q + 1)) * B kp ip q) (g := fun i => (k.factorial : K) * C i k)]
  simp only [sumLoop_eq, mul_add, mul_sum]

theorem accbrac_eq (n d : Nat) (hn : 0 < n) (hd : d ≤ 12) (Bs : Nat → Nat → Nat → K) (b D0 : Nat → Nat → K) :
    ∃ D, accbrac n d Bs b D0 = some D ∧ ∀ k ≤ d, ∀ i < n, D i k =
      (k.factorial : K) * (b i k + ∑ q ∈ range k, ∑ l ∈ range n, Bs l i q * b l (k - (q + 1))) := by
  refine levels d (fun k hk D => ?_) D0
  rw [facInt_eq k (by omega), Option.map_some, Option.some.injEq]
  have hstep : ∀ D : Nat → Nat → K, (List.range k).foldl (fun D q => pass2 n k (fun jp v => v + (k.factorial : K) * sumLoop n fun kp => Bs kp jp q * b kp (k - (q + 1))) D)
        (pass2 n k (fun i _ => (k.factorial : K) * b i k) D) = fun a c => if a < n ∧ c = k then
          (k.factorial : K) * (b a k + ∑ q ∈ range k, ∑ l ∈ range n, Bs l a q * b l (k - (q + 1))) else D a c := by
    intro D
    rw [level2 (h := fun q jp => (k.factorial : K) * sumLoop n fun kp => Bs kp jp q * b kp (k - (q + 1))) (g := fun i => (k.factorial : K) * b i k)]
    simp only [sumLoop_eq, mul_add, mul_sum]
  simp only [hstep]
  have : ∀ m, 0 < m → (List.range m).foldl (fun (D : Nat → Nat → K) _ => fun a c => if a < n ∧ c = k then
      (k.factorial : K) * (b a k + ∑ q ∈ range k, ∑ l ∈ range n, Bs l a q * b l (k - (q + 1))) else D a c) D =
      fun a c => if a < n ∧ c = k then
      (k.factorial : K) * (b a k + ∑ q ∈ range k, ∑ l ∈ range n, Bs l a q * b l (k - (q + 1))) else D a c := by
    intro m hm
    induction m with
    | zero => omega
    | succ m ih =>
      rw [List.range_succ, List.foldl_append]
      simp only [List.foldl_cons, List.foldl_nil]
      rcases Nat.eq_zero_or_pos m with rfl | h
      · rfl
      · rw [ih h]
        funext a c
        beta_reduce
        split_ifs <;> rfl
  exact this n hn

theorem overflow_levels {F : (Nat → Nat → K) → Nat → Option (Nat → Nat → K)} (hF : ∀ D, F D 13 = none) (d : Nat) (hd : 13 ≤ d) (D0 : Nat → Nat → K) :
    (List.range (d + 1)).foldlM F D0 = none := by
  obtain ⟨e, rfl⟩ := Nat.exists_eq_add_of_le hd
  rw [show 13 + e + 1 = 14 + e by omega, List.range_add, List.foldlM_append, List.range_succ, List.foldlM_append]
  cases (List.range 13).foldlM F D0 with
  | none => rfl
  | some D => simp [hF]

theorem acccov_overflow (n d : Nat) (hd : 13 ≤ d) (B : Nat → Nat → Nat → K) (C D0 : Nat → Nat → K) : acccov n d B C D0 = none :=
  overflow_levels (fun D => by rw [facInt_none 13 (le_refl _)]; rfl) d hd D0

theorem accbrac_overflow (n d : Nat) (hd : 13 ≤ d) (Bs : Nat → Nat → Nat → K) (b D0 : Nat → Nat → K) : accbrac n d Bs b D0 = none :=
  overflow_levels (fun D => by rw [facInt_none 13 (le_refl _)]; rfl) d hd D0
end closed

end Verif.Drivers
