import Verif.AD.HigherOrder
import Verif.AD.Reverse

/-!
# `hos_reverse`, `hos_ti_reverse` (`ho_rev.cpp` with `_HOS_`) and the convolutions they call

Every row of `rpp_T` has `k = degre + 1` entries, every row of `rpp_A` has `k + 1`: entry 0 is the
dependence flag (`fl`, 0 = nothing to propagate), the others are the adjoint coefficients.  Rows
of `rpp_T`, of `rpp_A` (without the flag) and the four scratch vectors live in one memory, so that
calls with coinciding rows are covered.  The return code of the sweep is not modelled.
-/
set_option linter.all false
namespace Verif.AD
open Elem

variable {K : Type} [Scalar K]

/-- Rows: `rpp_T[l]`, `rpp_A[l] + 1`, `rp_Ttemp`, `rp_Ttemp2`, `rp_Atemp`, `rp_Atemp2`. -/
inductive Row where
  | T (l : Nat)
  | A (l : Nat)
  | tt
  | tt2
  | at1
  | at2
  deriving DecidableEq

/-- `r[i] = v` -/
def wrR (M : Row → Nat → K) (r : Row) (i : Nat) (v : K) : Row → Nat → K :=
  fun q j => if q = r ∧ j = i then v else M q j

/-- `tmpVal = a[i]*b[0]; for (j = 1; j <= i; j++) tmpVal += a[i-j]*b[j]` (convolut.cpp:29-31) -/
def innerR (M : Row → Nat → K) (a b : Row) (i : Nat) (t : K) : K :=
  (List.range' 1 i).foldl (fun t j => t + M a (i - j) * M b j) t

/-- `conv`, `conv0`: convolut.cpp:25-44 -/
def convR (k : Nat) (a b c : Row) : (Row → Nat → K) → Row → Nat → K :=
  forDown k fun i M => wrR M c i (innerR M a b i (M a i * M b 0))
/-- `inconv`, `inconv1`: convolut.cpp:51-60, 79-88 -/
def inconvR (k : Nat) (a b c : Row) : (Row → Nat → K) → Row → Nat → K :=
  forDown k fun i M => let t := innerR M a b i (M a i * M b 0); wrR M c i (M c i + t)
/-- `deconv`, `deconv1`: convolut.cpp:95-104, 123-132 -/
def deconvR (k : Nat) (a b c : Row) : (Row → Nat → K) → Row → Nat → K :=
  forDown k fun i M => let t := innerR M a b i (M a i * M b 0); wrR M c i (M c i - t)
/-- `inconv0`: convolut.cpp:65-75 -/
def inconv0R (k : Nat) (a b c : Row) : (Row → Nat → K) → Row → Nat → K :=
  forDown k fun i M =>
    let t := M a i * M b 0
    let M := wrR M a i 0
    let t := innerR M a b i t
    wrR M c i (M c i + t)
/-- `deconv0`: convolut.cpp:109-119 -/
def deconv0R (k : Nat) (a b c : Row) : (Row → Nat → K) → Row → Nat → K :=
  forDown k fun i M =>
    let t := M a i * M b 0
    let M := wrR M a i 0
    let t := innerR M a b i t
    wrR M c i (M c i - t)
/-- `for (j = 0; j < i; j++) c[i] -= c[j] * b[i-j];` -/
def divInnerR (b c : Row) (i : Nat) (M : Row → Nat → K) : Row → Nat → K :=
  forUp i (fun j M => wrR M c i (M c i - M c j * M b (i - j))) M
/-- `divide`: convolut.cpp:138-147 -/
def divideR (k : Nat) (a b c : Row) (M : Row → Nat → K) : Row → Nat → K :=
  let rec_ := 1 / M b 0
  forUp k (fun i M =>
    let M := wrR M c i (M a i)
    let M := divInnerR b c i M
    wrR M c i (M c i * rec_)) M
/-- `recipr`: convolut.cpp:150-160 -/
def reciprR (k : Nat) (v : K) (b c : Row) (M : Row → Nat → K) : Row → Nat → K :=
  let rec_ := 1 / M b 0
  let M := wrR M c 0 (v * rec_)
  forUp (k - 1) (fun i M =>
    let M := wrR M c (i + 1) 0
    let M := divInnerR b c (i + 1) M
    wrR M c (i + 1) (M c (i + 1) * rec_)) M
/-- `copyAndZeroset`: convolut.cpp:176-182 -/
def cpzR (k : Nat) (a t : Row) (M : Row → Nat → K) : Row → Nat → K :=
  forUp k (fun i M => let M := wrR M t i (M a i); wrR M a i 0) M

/-! Loops over the coefficients that occur in the cases of the switch. -/

/-- `*Ares++ = v` (578, 603, …) -/
def setRowR (k : Nat) (c : Row) (v : Nat → K) (M : Row → Nat → K) : Row → Nat → K :=
  forUp k (fun i M => wrR M c i (v i)) M
/-- `dst[i] = src[i]` (761, 1120, 1174, 1458) -/
def copyR (k : Nat) (src dst : Row) (M : Row → Nat → K) : Row → Nat → K :=
  forUp k (fun i M => wrR M dst i (M src i)) M
/-- `*Ares++ *= coval` (731, 1478) -/
def mapR (k : Nat) (c : Row) (f : K → K) (M : Row → Nat → K) : Row → Nat → K :=
  forUp k (fun i M => wrR M c i (f (M c i))) M
/-- `*Aarg++ += *Ares++` (681, 714) -/
def accR' (k : Nat) (a r : Row) (f : K → K → K) (M : Row → Nat → K) : Row → Nat → K :=
  forUp k (fun i M => wrR M a i (f (M a i) (M r i))) M
/-- `*Aarg++ += *Ares; *Ares++ = 0` (561, 1902, 1935, …) -/
def moveR (k : Nat) (a r : Row) (M : Row → Nat → K) : Row → Nat → K :=
  forUp k (fun i M => let M := wrR M a i (M a i + M r i); wrR M r i 0) M
/-- `aTmp = *Ares; *Ares++ = 0.0; *Aarg++ += aTmp` (836, 900, 1095, 1230, 1257, 1719, 1799) -/
def spreadR (k : Nat) (a r : Row) (f : K → K → K) (M : Row → Nat → K) : Row → Nat → K :=
  forUp k (fun i M =>
    let aTmp := M r i
    let M := wrR M r i 0
    wrR M a i (f (M a i) aTmp)) M
/-- the same with two arguments (807, 869, 1740) -/
def spread2R (k : Nat) (a b r : Row) (f g : K → K → K) (M : Row → Nat → K) : Row → Nat → K :=
  forUp k (fun i M =>
    let aTmp := M r i
    let M := wrR M r i 0
    let M := wrR M a i (f (M a i) aTmp)
    wrR M b i (g (M b i) aTmp)) M

/-- Variables of the sweep: the rows, the flags, the value stack (rows written by
`hos_forward`), the numbers of independents/dependents not yet met, `results`. -/
structure HRS (K : Type) where
  M : Row → Nat → K
  fl : Nat → K
  stk : List (Nat → K)
  ii : Nat
  di : Nat
  Z : Nat → Nat → K

/-- How the sweep can fail. -/
inductive HRStop where
  /-- `get_taylors` on an empty value stack -/
  | stackEmpty
  /-- `ADOLCError::fail(HO_OP_NOT_IMPLEMENTED)` (1579) -/
  | notImplemented
  /-- write through a pointer that was not assigned (1831) -/
  | undefined
  deriving DecidableEq, Repr

/-- `MAXDEC(fl[l], v)`: `if (a < b) a = b` (common.h) -/
def maxdec (fl : Nat → K) (l : Nat) (v : K) : Nat → K := upd fl l (if fl l < v then v else fl l)

namespace HRS
/-- `GET_TAYL(r, k, p)`: 73-77 (`get_taylors`: one row of `k` numbers) -/
def pop (k r : Nat) (s : HRS K) : Except HRStop (HRS K) :=
  match s.stk with
  | [] => .error .stackEmpty
  | x :: st => .ok { s with M := setRowR k (.T r) x s.M, stk := st }
/-- `FOR_0_LE_l_LT_pk1 *Ares++ = 0.0` including the flag (578, 2828, 2841) -/
def zero (k r : Nat) (s : HRS K) : HRS K :=
  { s with fl := upd s.fl r 0, M := setRowR k (.A r) (fun _ => 0) s.M }
/-- Flags of a unary operation: `aTmp = *Ares; *Ares++ = 0.0; MAXDEC(*Aarg, aTmp); MAXDEC(*Aarg, v)` (e.g. 1286-1289) -/
def flUn (a r : Nat) (v : K) (s : HRS K) : Nat → K :=
  let aTmp := s.fl r
  maxdec (maxdec (upd s.fl r 0) a aTmp) a v
/-- `aTmp = *Ares; *Ares++ = 0.0; MAXDEC(*Aarg, aTmp)` (832-834) -/
def flLin (a r : Nat) (s : HRS K) : Nat → K := maxdec (upd s.fl r 0) a (s.fl r)
/-- `aTmp = *Ares; *Ares++ = 0.0; MAXDEC(*Aarg1, aTmp); MAXDEC(*Aarg2, aTmp)` (801-804) -/
def flLin2 (a b r : Nat) (s : HRS K) : Nat → K := maxdec (maxdec (upd s.fl r 0) a (s.fl r)) b (s.fl r)
/-- `MAXDEC(*Aarg, *Ares); *Ares++ = 0.0` and the loop `*Aarg++ += *Ares; *Ares++ = 0.0` (558-564, 1899-1905) -/
def move (k a r : Nat) (s : HRS K) : HRS K :=
  if s.fl r = 0 then s
  else { s with fl := upd (maxdec s.fl a (s.fl r)) r 0, M := moveR k (.A a) (.A r) s.M }
end HRS

/-- `rpp_A`, `rpp_T` and the scratch vectors are zero-initialised (426-449), `indexi`, `indexd` (418-419). -/
def HRS.init (n m : Nat) (stk : List (Nat → K)) : HRS K :=
  ⟨fun _ _ => 0, fun _ => 0, stk, n, m, fun _ _ => 0⟩

/-- `ADOLC_EPS` (usrparms.h:47): `10E-20` -/
def adolcEps : K := 1 / 10000000000000000000

/-- `pow` at a base with `|x| ≤ ADOLC_EPS`: 1484-1526 -/
def powSmall (k a r : Nat) (v : K) (M : Row → Nat → K) : Row → Nat → K :=
  if v ≤ 0 then
    forUp k (fun i M => wrR (wrR M (.A a) i nan) (.A r) i 0) M
  else if v - floor v ≠ 0 then
    forUp k (fun i M =>
      let M := if v - i > 1 then wrR (wrR M (.A a) i 0) (.A r) i 0 else M
      let M := if v - i < 1 ∧ v - i > 0 then wrR (wrR M (.A a) i inf) (.A r) i 0 else M
      if v - i < 0 then wrR (wrR M (.A a) i nan) (.A r) i 0 else M) M
  else if v = 1 then moveR k (.A a) (.A r) M
  else
    let M := cpzR k (.A r) .at1 M
    let M := inconvR k .at1 (.T a) (.A a) M
    let M := inconvR k .at1 (.T a) (.A a) M
    if v = 3 then
      let M := convR k (.A a) (.T a) .at1 M
      forUp k (fun i M => wrR M (.A a) i (2 * M .at1 i)) M
    else M

/-- Index of the first nonzero coefficient (`jj`, 0 if there is none) and its sign (`x`): 1766-1778. -/
def absSign (k : Nat) (t : Nat → K) : Nat × K :=
  match (List.range k).find? (fun i => t i ≠ 0) with
  | none => (0, 0)
  | some i => (i, if t i < 0 then -1 else 1)

/-- Which argument of `min_op` receives the adjoint: `some (b, tie)`: `b` = the second argument,
`tie` = decided by coefficients of order ≥ 1 (1636-1702). -/
def minPick (k : Nat) (t1 t2 : Nat → K) : Option (Bool × Bool) :=
  if t1 0 > t2 0 then some (true, false)
  else if t1 0 < t2 0 then some (false, false)
  else match (List.range' 1 (k - 1)).find? (fun i => t1 i > t2 i ∨ t1 i < t2 i) with
    | none => none
    | some i => if t1 i > t2 i then some (true, true) else some (false, true)

/-- One `case` of the switch in `hos_ti_reverse`; `L j i` is `lagrange[j][i]`. -/
def hosRevStep (k : Nat) (L : Nat → Nat → K) (o : Base K) (s : HRS K) : Except HRStop (HRS K) :=
  match o with
  -- 519-539
  | .cmp _ _ => .ok s
  -- 545-568
  | .assignA a r => (s.move k a r).pop k r
  -- 571-606
  | .assignD r _ => (s.zero k r).pop k r
  | .assignP _ r => (s.zero k r).pop k r
  | .assignD0 r => (s.zero k r).pop k r
  | .assignD1 r => (s.zero k r).pop k r
  -- 609-627: the adjoint of `res` is not reset
  | .assignInd r => do
    let s := { s with Z := fun j i => if j = s.ii - 1 ∧ i < k then s.M (.A r) i else s.Z j i }
    let s ← s.pop k r
    .ok { s with ii := s.ii - 1 }
  -- 630-649
  | .assignDep r =>
    let l := L (s.di - 1)
    let dc := (List.range k).reverse.find? (fun i => l i ≠ 0)
    .ok { s with
      M := setRowR k (.A r) l s.M
      fl := upd s.fl r (match dc with | none => 0 | some 0 => 1 | some _ => 2)
      di := s.di - 1 }
  -- 656-662, 689-695, 774-779
  | .eqPlusD r _ => s.pop k r
  | .eqMinD r _ => s.pop k r
  | .incrA r => s.pop k r
  | .decrA r => s.pop k r
  -- 665-686
  | .eqPlusA a r =>
    let s := if s.fl r = 0 then s
      else { s with fl := maxdec s.fl a (s.fl r), M := accR' k (.A a) (.A r) (fun x t => x + t) s.M }
    s.pop k r
  -- 698-719
  | .eqMinA a r =>
    let s := if s.fl r = 0 then s
      else { s with fl := maxdec s.fl a (s.fl r), M := accR' k (.A a) (.A r) (fun x t => x - t) s.M }
    s.pop k r
  -- 722-734
  | .eqMultD r c =>
    let s := if s.fl r = 0 then s else { s with M := mapR k (.A r) (fun x => x * c) s.M }
    s.pop k r
  -- 737-771
  | .eqMultA a r => do
    let s ← s.pop k r
    if s.fl r = 0 then .ok s
    else
      let fl := maxdec s.fl r 2
      let fl := maxdec fl a (fl r)
      let M := convR k (.A r) (.T a) .at1 s.M
      let M := if a ≠ r then copyR k .at1 (.A r) (inconvR k (.A r) (.T r) (.A a) M)
        else forUp k (fun i M => wrR M (.A r) i (2 * M .at1 i)) M
      .ok { s with fl := fl, M := M }
  -- 786-816
  | .plusAA a b r =>
    let s := if s.fl r = 0 then s
      else { s with fl := s.flLin2 a b r, M := spread2R k (.A a) (.A b) (.A r) (fun x t => x + t) (fun x t => x + t) s.M }
    s.pop k r
  -- 818-844
  | .plusDA a r _ =>
    let s := if s.fl r = 0 then s
      else { s with fl := s.flLin a r, M := spreadR k (.A a) (.A r) (fun x t => x + t) s.M }
    s.pop k r
  -- 847-878
  | .minAA a b r =>
    let s := if s.fl r = 0 then s
      else { s with fl := s.flLin2 a b r, M := spread2R k (.A a) (.A b) (.A r) (fun x t => x + t) (fun x t => x - t) s.M }
    s.pop k r
  -- 881-907
  | .minDA a r _ =>
    let s := if s.fl r = 0 then s
      else { s with fl := s.flLin a r, M := spreadR k (.A a) (.A r) (fun x t => x - t) s.M }
    s.pop k r
  -- 910-976
  | .multAA a b r => do
    let s ← s.pop k r
    if s.fl r = 0 then .ok s
    else
      let comp := if s.fl r > 2 then s.fl r else 2
      let fl := maxdec (maxdec (upd s.fl r 0) a comp) b comp
      let M := cpzR k (.A r) .at1 s.M
      let M := inconvR k .at1 (.T a) (.A b) M
      let M := inconvR k .at1 (.T b) (.A a) M
      .ok { s with fl := fl, M := M }
  -- 980-1025
  | .eqPlusProd a b r =>
    let s := { s with M := deconvR k (.T a) (.T b) (.T r) s.M }
    if s.fl r = 0 then .ok s
    else
      let comp := if s.fl r > 2 then s.fl r else 2
      let fl := maxdec (maxdec (upd s.fl r comp) a comp) b comp
      let M := inconvR k (.A r) (.T a) (.A b) s.M
      let M := inconvR k (.A r) (.T b) (.A a) M
      .ok { s with fl := fl, M := M }
  -- 1029-1074
  | .eqMinProd a b r =>
    let s := { s with M := inconvR k (.T a) (.T b) (.T r) s.M }
    if s.fl r = 0 then .ok s
    else
      let comp := if s.fl r > 2 then s.fl r else 2
      let fl := maxdec (maxdec (upd s.fl r comp) a comp) b comp
      let M := deconvR k (.A r) (.T a) (.A b) s.M
      let M := deconvR k (.A r) (.T b) (.A a) M
      .ok { s with fl := fl, M := M }
  -- 1077-1103
  | .multDA a r c =>
    let s := if s.fl r = 0 then s
      else { s with fl := s.flLin a r, M := spreadR k (.A a) (.A r) (fun x t => x + c * t) s.M }
    s.pop k r
  -- 1106-1159
  | .divAA a b r => do
    let s ← if b = r then HRS.pop k r { s with M := copyR k (.T r) .tt2 s.M } else .ok s
    let tres : Row := if b = r then .tt2 else .T r
    let s := if s.fl r = 0 then s
      else
        let aTmp := s.fl r
        let fl := maxdec (maxdec (maxdec (maxdec (upd s.fl r 0) a 3) a aTmp) b 3) b aTmp
        let M := reciprR k 1 (.T b) .tt s.M
        let M := convR k .tt tres .at2 M
        let M := cpzR k (.A r) .at1 M
        let M := inconvR k .at1 .tt (.A a) M
        let M := deconvR k .at1 .at2 (.A b) M
        { s with fl := fl, M := M }
    if b ≠ r then s.pop k r else .ok s
  -- 1162-1206
  | .divDA a r _ => do
    let s ← if a = r then HRS.pop k r { s with M := copyR k (.T r) .tt2 s.M } else .ok s
    let tres : Row := if a = r then .tt2 else .T r
    let s := if s.fl r = 0 then s
      else
        let M := reciprR k 1 (.T a) .tt s.M
        let M := convR k .tt tres .at1 M
        { s with fl := s.flUn a r 3, M := deconv0R k (.A r) .at1 (.A a) M }
    if a ≠ r then s.pop k r else .ok s
  -- 1214-1238
  | .posSign a r =>
    let s := if s.fl r = 0 then s
      else { s with fl := s.flLin a r, M := spreadR k (.A a) (.A r) (fun x t => x + t) s.M }
    s.pop k r
  -- 1241-1265
  | .negSign a r =>
    let s := if s.fl r = 0 then s
      else { s with fl := s.flLin a r, M := spreadR k (.A a) (.A r) (fun x t => x - t) s.M }
    s.pop k r
  -- 1272-1301
  | .expOp a r =>
    let s := if s.fl r = 0 then s
      else { s with fl := s.flUn a r 4, M := inconv0R k (.A r) (.T r) (.A a) s.M }
    s.pop k r
  -- 1304-1335
  | .sinOp a b r => do
    let s := if s.fl r = 0 then s
      else { s with fl := s.flUn a r 4, M := inconv0R k (.A r) (.T b) (.A a) s.M }
    let s ← s.pop k r
    s.pop k b
  -- 1338-1369
  | .cosOp a b r => do
    let s := if s.fl r = 0 then s
      else { s with fl := s.flUn a r 4, M := deconv0R k (.A r) (.T b) (.A a) s.M }
    let s ← s.pop k r
    s.pop k b
  -- 1372-1408
  | .quad _ a b r => do
    let s ← s.pop k r
    if s.fl r = 0 then .ok s
    else .ok { s with fl := s.flUn a r 4, M := inconv0R k (.A r) (.T b) (.A a) s.M }
  -- 1411-1443
  | .logOp a r => do
    let s ← s.pop k r
    if s.fl r = 0 then .ok s
    else .ok { s with fl := s.flUn a r 4, M := inconv0R k (.A r) .tt (.A a) (reciprR k 1 (.T a) .tt s.M) }
  -- 1446-1539
  | .powOp a r v => do
    let s ← if a = r then HRS.pop k r { s with M := copyR k (.T r) .tt2 s.M } else .ok s
    let tres : Row := if a = r then .tt2 else .T r
    let s := if s.fl r = 0 then s
      else if s.M (.T a) 0 > adolcEps ∨ s.M (.T a) 0 < -adolcEps then
        let M := divideR k tres (.T a) .tt s.M
        let M := mapR k .tt (fun x => x * v) M
        { s with fl := s.flUn a r 4, M := inconv0R k (.A r) .tt (.A a) M }
      else { s with fl := s.flUn a r 4, M := powSmall k a r v s.M }
    if a ≠ r then s.pop k r else .ok s
  -- 1542-1573
  | .sqrtOp a r =>
    let s := if s.fl r = 0 then s
      else { s with fl := s.flUn a r 4, M := inconv0R k (.A r) .tt (.A a) (reciprR k (1 / 2) (.T r) .tt s.M) }
    s.pop k r
  -- 1576-1583
  | .cbrtOp _ _ => .error .notImplemented
  -- 1586-1616
  | .genQuad a b r _ _ =>
    let s := if s.fl r = 0 then s
      else { s with fl := s.flUn a r 4, M := inconv0R k (.A r) (.T b) (.A a) s.M }
    s.pop k r
  -- 1619-1751
  | .minOp a b r _ => do
    let s ← s.pop k r
    if s.fl r = 0 then .ok s
    else match minPick k (s.M (.T a)) (s.M (.T b)) with
      | some (snd, tie) =>
        let q := if snd then b else a
        let fl := if tie then upd (upd s.fl r 0) q 5 else s.flLin q r
        .ok { s with fl := fl, M := spreadR k (.A q) (.A r) (fun x t => x + t) s.M }
      | none =>
        .ok { s with fl := s.flLin2 a b r, M := spread2R k (.A a) (.A b) (.A r) (fun x t => x + t / 2) (fun x t => x + t / 2) s.M }
  -- 1754-1811
  | .absVal a r _ => do
    let s ← s.pop k r
    if s.fl r = 0 then .ok s
    else
      let (jj, x) := absSign k (s.M (.T a))
      let fl := if s.M (.T a) 0 = 0 then upd (upd s.fl r 0) a 5 else s.flLin a r
      let M := setRowR jj (.A r) (fun _ => 0) s.M
      let M := forUp (k - jj) (fun i M =>
        let aTmp := M (.A r) (jj + i)
        let M := wrR M (.A r) (jj + i) 0
        wrR M (.A a) (jj + i) (M (.A a) (jj + i) + x * aTmp)) M
      .ok { s with fl := fl, M := M }
  -- 1814-1839: `Aarg` is not assigned in this case
  | .ceilOp _ r _ => do
    let s ← s.pop k r
    if s.fl r = 0 then .ok s else .error .undefined
  -- 1842-1868: `*Ares = 0.0` does not advance the pointer
  | .floorOp a r _ => do
    let s ← s.pop k r
    if s.fl r = 0 then .ok s
    else .ok { s with fl := upd (upd (upd s.fl r 0) a 5) r 0, M := setRowR (k - 1) (.A r) (fun _ => 0) s.M }
  -- 1875-1958
  | .condAssign a a1 a2 r _ => do
    let s ← s.pop k r
    if s.M (.T a) 0 > 0 then .ok (if r ≠ a1 then s.move k a1 r else s)
    else if r ≠ a2 then
      if s.fl r = 0 then .ok s
      else
        let fl := if s.M (.T a) 0 = 0 then upd (upd s.fl a1 5) a2 5 else maxdec s.fl a2 (s.fl r)
        .ok { s with fl := upd fl r 0, M := moveR k (.A a2) (.A r) s.M }
    else .ok (if s.fl r ≠ 0 ∧ s.M (.T a) 0 = 0 then { s with fl := upd (upd s.fl a1 5) a2 5 } else s)
  -- 1960-2031
  | .condEqAssign a a1 a2 r _ => do
    let s ← s.pop k r
    if s.M (.T a) 0 ≥ 0 then .ok (if r ≠ a1 then s.move k a1 r else s)
    else .ok (if r ≠ a2 then s.move k a2 r else s)
  -- 2034-2081
  | .condAssignS a a1 r _ => do
    let s ← s.pop k r
    if s.M (.T a) 0 = 0 then .ok (if s.fl r ≠ 0 then { s with fl := upd s.fl a1 5 } else s)
    else if s.M (.T a) 0 > 0 then .ok (if r ≠ a1 then s.move k a1 r else s)
    else .ok s
  -- 2082-2120
  | .condEqAssignS a a1 r _ => do
    let s ← s.pop k r
    if s.M (.T a) 0 ≥ 0 then .ok (if r ≠ a1 then s.move k a1 r else s)
    else .ok s
  -- the reference a location holds is restored like a value (2207)
  | .setRef r _ => s.pop k r
  -- 2438-2466
  | .vecCopy a n r => (List.range n).foldlM (fun s q => (s.move k (a + q) (r + q)).pop k (r + q)) s
  -- 2468-2505
  | .vecDot a b n r =>
    let s := (List.range n).foldl (fun s q =>
      if s.fl r = 0 then s
      else
        let comp := if s.fl r > 2 then s.fl r else 2
        let fl := maxdec (maxdec (upd s.fl r comp) (a + q) comp) (b + q) comp
        let M := inconvR k (.A r) (.T (a + q)) (.A (b + q)) s.M
        let M := inconvR k (.A r) (.T (b + q)) (.A (a + q)) M
        { s with fl := fl, M := M }) s
    s.pop k r
  -- 2507-2548
  | .vecAxpy a a1 a2 n r =>
    (List.range n).foldlM (fun s q =>
      let s := if s.fl (r + q) = 0 then s
        else
          let comp := if s.fl (r + q) > 2 then s.fl (r + q) else 2
          let fl := maxdec (maxdec (upd (maxdec s.fl (a2 + q) (s.fl (r + q))) (r + q) 0) a comp) (a1 + q) comp
          let M := cpzR k (.A (r + q)) .at1 s.M
          let M := inconvR k .at1 (.T (a1 + q)) (.A a) M
          let M := inconvR k .at1 (.T a) (.A (a1 + q)) M
          let M := accR' k (.A (a2 + q)) .at1 (fun x t => x + t) M
          { s with fl := fl, M := M }
      s.pop k (r + q)) s
  -- 2817-2830
  | .takeStock r vs =>
    .ok ((List.range vs.length).foldl (fun s q => s.zero k (r + vs.length - 1 - q)) s)
  -- 2833-2848
  | .deathNot a b =>
    let s := (List.range (b + 1 - a)).foldl (fun s q => s.zero k (a + q)) s
    (List.range (b + 1 - a)).foldlM (fun s q => s.pop k (a + q)) s

/-- The reverse loop (484-2957): last operation first. -/
def hosRevRun (k : Nat) (L : Nat → Nat → K) : List (Base K) → HRS K → Except HRStop (HRS K)
  | [], s => .ok s
  | o :: os, s =>
    match hosRevRun k L os s with
    | .error e => .error e
    | .ok s' => hosRevStep k L o s'

/-- `hos_reverse`: 226-242: `L[i][0] = lagrange[i]`, the others 0. -/
def lagr (u : Nat → K) (j i : Nat) : K := if i = 0 then u j else 0

end Verif.AD
