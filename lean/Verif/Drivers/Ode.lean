import Verif.Drivers.Model

/-!
# The ODE drivers (`ADOL-C/src/drivers/odedrivers.cpp`)

`forode` and `accode` (odedrivers.h, drivers/odedriversf) call `forodec` and `accodec` with default arguments.
Not modelled: the caching of the work arrays `y`, `z`, `Z` on the tape (odedrivers.cpp:56-67), return codes.
-/
namespace Verif.Drivers
open Verif.AD

variable {K : Type} [Scalar K]

/-- Shift of the coefficients to the left: odedrivers.cpp:69-76 -/
def shiftL (deg : Nat) (Y : Nat → Nat → K) (i k : Nat) : K := if k < deg then Y i (k + 1) else Y i k

/-- Shift back and put the base point in front: odedrivers.cpp:106-113 (the loop over `k` runs downwards). -/
def shiftR (deg : Nat) (y : Nat → K) (Y : Nat → Nat → K) (i k : Nat) : K :=
  if k = 0 then y i else if k ≤ deg then Y i (k - 1) else Y i k

/-- `k = (deg) * (j == deg - 1)`: odedrivers.cpp:81, 92 -/
def odeKeep (deg j : Nat) : Nat := if j + 1 = deg then deg else 0

/-- One pass of the loop of `forodec` (odedrivers.cpp:91-103): `hos_forward` of degree `j` with the coefficients
found so far, then `Y[i][j] = tau / (1 + j) * Z[i][j - 1]` for `i < n`.  `Z[i]` has no entry for the value; it is
entry 0 of the row of the model. -/
def odePass (t : Tape K) (tau : K) (deg : Nat) (y : Nat → K) (st : (Nat → Nat → K) × List (Nat → K)) (j : Nat) :
    Except DErr ((Nat → Nat → K) × List (Nat → K)) := do
  let h ← hfwd (hosRun ⟨y, st.1, t.par, j, odeKeep deg j⟩ t.ops HS.init)
  .ok (fun i k => if i < t.n ∧ k = j then tau / (1 + (j : K)) * (h.y[i]?.getD fun _ => 0) j else st.1 i k, h.stk)

/-- `forodec` (odedrivers.cpp:33-116).  Returns the coefficients and the rows of values left for a reverse sweep.
A sweep of `zos_forward` leaves rows of one value. -/
def forodec (t : Tape K) (tau : K) (dol deg : Nat) (Y : Nat → Nat → K) : Except DErr ((Nat → Nat → K) × List (Nat → K)) := do
  let y := fun i => Y i 0
  let Y1 := shiftL deg Y
  let st ← if dol = 0 then do
      let z ← t.zos (decide (odeKeep deg 0 ≠ 0)) y
      (.ok (fun i k => if i < t.n ∧ k = 0 then tau / (1 + 0) * z.y[i]?.getD 0 else Y1 i k, z.stk.map fun v _ => v) :
        Except DErr ((Nat → Nat → K) × List (Nat → K)))
    else .ok (Y1, [])
  let dol := if dol = 0 then 1 else dol
  let st ← (List.range' dol (deg - dol)).foldlM (odePass t tau deg y) st
  .ok (shiftR deg y st.1, st.2)

section accode
variable {K : Type} [Field K]

/-- `B[i][j][k] = v` -/
def upd3 (B : Nat → Nat → Nat → K) (i j k : Nat) (v : K) : Nat → Nat → Nat → K :=
  fun a b c => if a = i ∧ b = j ∧ c = k then v else B a b c

/-- `accodec` without pattern, the body of the loops over `k`, `i`, `j` (odedrivers.cpp:218-227).  `rd B` is what
reading the array `A` gives when the output array contains `B`: the input if the arrays are different, `B`
itself if the caller passes the same array twice. -/
def denseCell (n : Nat) (tau : K) (rd : (Nat → Nat → Nat → K) → Nat → Nat → Nat → K) (k i j : Nat) (B : Nat → Nat → Nat → K) :
    Nat → Nat → Nat → K :=
  ((List.range n).foldl (fun (sb : K × (Nat → Nat → Nat → K)) p =>
    let sum := (List.range k).foldl (fun sum q => sum + rd sb.2 i p q * sb.2 p j (k - 1 - q)) sb.1
    (sum, upd3 sb.2 i j k (sum * (tau / (1 + (k : K)))))) (rd B i j k, B)).2

/-- `accodec(n, tau, deg, A, B, NULL)` -/
def accDense (n : Nat) (tau : K) (deg : Nat) (rd : (Nat → Nat → Nat → K) → Nat → Nat → Nat → K) (B : Nat → Nat → Nat → K) :
    Nat → Nat → Nat → K :=
  (List.range (deg + 1)).foldl (fun B k => (List.range n).foldl (fun B i => (List.range n).foldl (fun B j =>
    denseCell n tau rd k i j B) B) B) B

/-- The array and the pattern. -/
structure AC (K : Type) where
  B : Nat → Nat → Nat → K
  nz : Nat → Nat → Int

/-- `nonzero[i][j] = v` -/
def updN (nz : Nat → Nat → Int) (i j : Nat) (v : Int) : Nat → Nat → Int := fun a b => if a = i ∧ b = j then v else nz a b

/-- One step of the loop over `p` with pattern (odedrivers.cpp:190-206): the sum and `isum`. -/
def sparseP (rd : (Nat → Nat → Nat → K) → Nat → Nat → Nat → K) (S : AC K) (k i j : Nat) (si : K × Bool) (p : Nat) : K × Bool :=
  let nzip := S.nz i p
  let nzpj := if S.nz p j > 0 then 0 else S.nz p j
  if nzip > 0 ∧ (k : Int) > - nzpj then
    let sum := si.1 + rd S.B i p 0 * S.B p j (k - 1)
    (if nzip > 1 then
      -- `for (m = k - 1; m > -nzpj; m--) sum += (*(++Aip)) * (*(--Bpj))`
      (List.range ((k : Int) - 1 + nzpj).toNat).foldl (fun sum q => sum + rd S.B i p (q + 1) * S.B p j (k - 2 - q)) sum
     else sum, true)
  else si

/-- The body of the loops over `k`, `i`, `j` with pattern (odedrivers.cpp:184-214). -/
def sparseCell (n : Nat) (tau : K) (rd : (Nat → Nat → Nat → K) → Nat → Nat → Nat → K) (k i j : Nat) (S : AC K) : AC K :=
  if (k : Int) < - S.nz i j then { S with B := upd3 S.B i j k 0 }
  else
    let si := (List.range n).foldl (sparseP rd S k i j) (rd S.B i j k, decide (S.nz i j > 0))
    if si.2 then { S with B := upd3 S.B i j k (si.1 * (tau / (1 + (k : K)))) }
    else ⟨upd3 S.B i j k 0, updN S.nz i j (S.nz i j - 1)⟩

/-- `accodec(n, tau, deg, A, B, nonzero)` -/
def accSparse (n : Nat) (tau : K) (deg : Nat) (rd : (Nat → Nat → Nat → K) → Nat → Nat → Nat → K) (S : AC K) : AC K :=
  (List.range (deg + 1)).foldl (fun S k => (List.range n).foldl (fun S i => (List.range n).foldl (fun S j =>
    sparseCell n tau rd k i j S) S) S) S

end accode

end Verif.Drivers
