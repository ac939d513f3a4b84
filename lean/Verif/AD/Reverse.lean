import Verif.AD.Forward

/-!
# `fos_reverse`, `fov_reverse` (`fo_rev.cpp`)

The reverse sweep visits the trace from the last operation to the first.  `rp_T` is
`T`, `rp_A`/`rpp_A` is `A`, `tape.get_taylor()` pops the value stack (an empty stack
is a distinct failure).
-/
namespace Verif.AD
open Elem

variable {K : Type} [Scalar K]

/-- Variables of a reverse sweep: `rp_T`, `rp_A`, the value stack, the number of
independents/dependents not yet met (`indexi + 1`, `indexd + 1`) and `results`. -/
structure RS (K : Type) where
  T : Nat → K
  A : Nat → K
  stk : List K
  ii : Nat
  di : Nat
  bar : Nat → K

/-- How a reverse sweep can fail. -/
inductive RStop where
  /-- `get_taylor` on an empty value stack -/
  | stackEmpty
  deriving DecidableEq, Repr

namespace RS
/-- `rp_T[r] = tape.get_taylor()` -/
def pop (r : Nat) (s : RS K) : Except RStop (RS K) :=
  match s.stk with
  | [] => .error .stackEmpty
  | x :: st => .ok { s with T := upd s.T r x, stk := st }
/-- `rp_A[r] = v` -/
def setA (r : Nat) (v : K) (s : RS K) : RS K := { s with A := upd s.A r v }
/-- `rp_A[r] += v` -/
def addA (r : Nat) (v : K) (s : RS K) : RS K := s.setA r (s.A r + v)
/-- `aTmp = *Ares; *Ares = 0.0; *Aarg += aTmp * p` (e.g. fo_rev.cpp:1249-1251) -/
def un (a r : Nat) (p : K) (s : RS K) : RS K :=
  let aTmp := s.A r
  (s.setA r 0).addA a (aTmp * p)
end RS

/-- `rp_T`, `rp_A` zero-initialised (fo_rev.cpp:430-470, `myalloc1`/`myalloc2`),
`indexi = NUM_INDEPENDENTS - 1`, `indexd = NUM_DEPENDENTS - 1` (fo_rev.cpp:500-520). -/
def RS.init (n m : Nat) (stk : List K) : RS K := ⟨fun _ => 0, fun _ => 0, stk, n, m, fun _ => 0⟩

/-- One `case` of the switch in `fos_reverse` (fo_rev.cpp with `_FOS_`); `u` is
`lagrange`.  The return code of the reverse sweep is not modelled. -/
def revStep (u : Nat → K) (o : Base K) (s : RS K) : Except RStop (RS K) :=
  match o with
  -- 599-612
  | .cmp _ _ => .ok s
  -- 618-639
  | .assignA a r =>
    let s := s.addA a (s.A r)
    let s := s.setA r 0
    s.pop r
  -- 642-661
  | .assignD r _ => (s.setA r 0).pop r
  -- 663-683
  | .assignP _ r => (s.setA r 0).pop r
  -- 685-701
  | .assignD0 r => (s.setA r 0).pop r
  | .assignD1 r => (s.setA r 0).pop r
  -- 704-731 (nestedReverseEval false; the adjoint of `res` is not reset)
  | .assignInd r =>
    let s := { s with bar := upd s.bar (s.ii - 1) (s.A r) }
    match s.pop r with
    | .error e => .error e
    | .ok s => .ok { s with ii := s.ii - 1 }
  -- 734-744
  | .assignDep r =>
    let s := s.setA r (u (s.di - 1))
    .ok { s with di := s.di - 1 }
  -- 751-759
  | .eqPlusD r _ => s.pop r
  -- 762-780
  | .eqPlusA a r => (s.addA a (s.A r)).pop r
  -- 783-791
  | .eqMinD r _ => s.pop r
  -- 794-812
  | .eqMinA a r => (s.addA a (- s.A r)).pop r
  -- 815-831
  | .eqMultD r k => (s.setA r (s.A r * k)).pop r
  -- 834-856
  | .eqMultA a r =>
    match s.pop r with
    | .error e => .error e
    | .ok s =>
      let aTmp := s.A r
      let s := s.setA r (aTmp * s.T a)
      .ok (s.addA a (aTmp * s.T r))
  -- 859-866
  | .incrA r => s.pop r
  | .decrA r => s.pop r
  -- 873-899
  | .plusAA a b r =>
    let aTmp := s.A r
    ((((s.setA r 0).addA a aTmp).addA b aTmp)).pop r
  -- 902-928
  | .plusDA a r _ =>
    let aTmp := s.A r
    ((s.setA r 0).addA a aTmp).pop r
  -- 931-958
  | .minAA a b r =>
    let aTmp := s.A r
    ((((s.setA r 0).addA a aTmp).addA b (- aTmp))).pop r
  -- 961-987
  | .minDA a r _ =>
    let aTmp := s.A r
    ((s.setA r 0).addA a (- aTmp)).pop r
  -- 990-1016
  | .multAA a b r =>
    match s.pop r with
    | .error e => .error e
    | .ok s =>
      let aTmp := s.A r
      let s := s.setA r 0
      let s := s.addA b (aTmp * s.T a)
      .ok (s.addA a (aTmp * s.T b))
  -- 1020-1044: the old value is recomputed, not popped
  | .eqPlusProd a b r =>
    let s := { s with T := upd s.T r (s.T r - s.T a * s.T b) }
    let s := s.addA b (s.A r * s.T a)
    .ok (s.addA a (s.A r * s.T b))
  -- 1048-1072
  | .eqMinProd a b r =>
    let s := { s with T := upd s.T r (s.T r + s.T a * s.T b) }
    let s := s.addA b (- (s.A r * s.T a))
    .ok (s.addA a (- (s.A r * s.T b)))
  -- 1075-1101
  | .multDA a r k =>
    let aTmp := s.A r
    ((s.setA r 0).addA a (k * aTmp)).pop r
  -- 1104-1136
  | .divAA a b r =>
    let r_0 := - s.T r
    match s.pop r with
    | .error e => .error e
    | .ok s =>
      let r0 := 1 / s.T b
      let r_0 := r_0 * r0
      let aTmp := s.A r
      let s := s.setA r 0
      let s := s.addA a (aTmp * r0)
      .ok (s.addA b (aTmp * r_0))
  -- 1139-1175
  | .divDA a r _ =>
    let r0 := - s.T r
    if a = r then
      match s.pop a with
      | .error e => .error e
      | .ok s => .ok (s.un a r (r0 / s.T a))
    else (s.un a r (r0 / s.T a)).pop r
  -- 1182-1204
  | .posSign a r =>
    let aTmp := s.A r
    ((s.setA r 0).addA a aTmp).pop r
  -- 1207-1229
  | .negSign a r =>
    let aTmp := s.A r
    ((s.setA r 0).addA a (- aTmp)).pop r
  -- 1236-1258
  | .expOp a r => (s.un a r (s.T r)).pop r
  -- 1261-1286
  | .sinOp a b r =>
    match (s.un a r (s.T b)).pop r with
    | .error e => .error e
    | .ok s => s.pop b
  -- 1289-1314
  | .cosOp a b r =>
    let aTmp := s.A r
    match ((s.setA r 0).addA a (- (aTmp * s.T b))).pop r with
    | .error e => .error e
    | .ok s => s.pop b
  -- 1317-1347
  | .quad _ a b r =>
    match s.pop r with
    | .error e => .error e
    | .ok s => .ok (s.un a r (s.T b))
  -- 1350-1377
  | .logOp a r =>
    match s.pop r with
    | .error e => .error e
    | .ok s => .ok (s.un a r (1 / s.T a))
  -- 1380-1418
  | .powOp a r k =>
    let r0 := s.T r
    if a = r then
      match s.pop a with
      | .error e => .error e
      | .ok s => .ok (s.un a r (if s.T a = 0 then 0 else r0 * (k / s.T a)))
    else (s.un a r (if s.T a = 0 then 0 else r0 * (k / s.T a))).pop r
  -- 1421-1450
  | .sqrtOp a r => (s.un a r (if s.T r ≠ 0 then 1 / 2 / s.T r else 0)).pop r
  -- 1453-1482
  | .cbrtOp a r => (s.un a r (if s.T r ≠ 0 then 1 / (3 * s.T r * s.T r) else 0)).pop r
  -- 1485-1512
  | .genQuad a b r _ _ => (s.un a r (s.T b)).pop r
  -- 1515-1591
  | .minOp a b r _ =>
    match s.pop r with
    | .error e => .error e
    | .ok s =>
      if s.T a > s.T b then
        let aTmp := s.A r
        .ok ((s.setA r 0).addA b aTmp)
      else if s.T a < s.T b then
        let aTmp := s.A r
        .ok ((s.setA r 0).addA a aTmp)
      else
        let aTmp := s.A r / 2
        .ok (((s.setA r 0).addA b aTmp).addA a aTmp)
  -- 1594-1691
  | .absVal a r _ =>
    match s.pop r with
    | .error e => .error e
    | .ok s =>
      if s.T a < 0 then
        let aTmp := s.A r
        .ok ((s.setA r 0).addA a (- aTmp))
      else if s.T a > 0 then
        let aTmp := s.A r
        .ok ((s.setA r 0).addA a aTmp)
      else .ok (s.setA r 0)
  -- 1694-1720, 1723-1750
  | .ceilOp _ r _ =>
    match s.pop r with
    | .error e => .error e
    | .ok s => .ok (s.setA r 0)
  | .floorOp _ r _ =>
    match s.pop r with
    | .error e => .error e
    | .ok s => .ok (s.setA r 0)
  -- 1757-1819
  | .condAssign a a1 a2 r _ =>
    match s.pop r with
    | .error e => .error e
    | .ok s =>
      if s.T a > 0 then
        if r ≠ a1 then .ok ((s.addA a1 (s.A r)).setA r 0) else .ok s
      else
        if r ≠ a2 then .ok ((s.addA a2 (s.A r)).setA r 0) else .ok s
  -- 1821-1883
  | .condEqAssign a a1 a2 r _ =>
    match s.pop r with
    | .error e => .error e
    | .ok s =>
      if s.T a ≥ 0 then
        if r ≠ a1 then .ok ((s.addA a1 (s.A r)).setA r 0) else .ok s
      else
        if r ≠ a2 then .ok ((s.addA a2 (s.A r)).setA r 0) else .ok s
  -- 1886-1926
  | .condAssignS a a1 r _ =>
    match s.pop r with
    | .error e => .error e
    | .ok s =>
      if s.T a > 0 then
        if r ≠ a1 then .ok ((s.addA a1 (s.A r)).setA r 0) else .ok s
      else .ok s
  -- 1928-1967
  | .condEqAssignS a a1 r _ =>
    match s.pop r with
    | .error e => .error e
    | .ok s =>
      if s.T a ≥ 0 then
        if r ≠ a1 then .ok ((s.addA a1 (s.A r)).setA r 0) else .ok s
      else .ok s
  -- 2040-2075
  | .setRef r _ => s.pop r
  -- 2322-2346: pops in ascending order although the forward sweep pushed ascending
  | .vecCopy a n r =>
    (List.range n).foldlM (fun s q =>
      let s := s.addA (a + q) (s.A (r + q))
      let s := s.setA (r + q) 0
      s.pop (r + q)) s
  -- 2348-2372
  | .vecDot a b n r =>
    let s := (List.range n).foldl (fun s q =>
      let s := s.addA (b + q) (s.A r * s.T (a + q))
      s.addA (a + q) (s.A r * s.T (b + q))) s
    s.pop r
  -- 2374-2403
  | .vecAxpy a a1 a2 n r =>
    (List.range n).foldlM (fun s q =>
      let s := s.addA (a2 + q) (s.A (r + q))
      let s := s.addA (a1 + q) (s.A (r + q) * s.T a)
      let s := s.addA a (s.A (r + q) * s.T (a1 + q))
      s.pop (r + q)) s
  -- 2597-2612
  | .takeStock r vs =>
    .ok ((List.range vs.length).foldl (fun s q => s.setA (r + vs.length - 1 - q) 0) s)
  -- 2615-2628
  | .deathNot a b =>
    let s := (List.range (b + 1 - a)).foldl (fun s q => s.setA (a + q) 0) s
    (List.range (b + 1 - a)).foldlM (fun s q => s.pop (a + q)) s

/-- The reverse loop (fo_rev.cpp:560-2760): last operation first. -/
def revRun (u : Nat → K) : List (Base K) → RS K → Except RStop (RS K)
  | [], s => .ok s
  | o :: os, s =>
    match revRun u os s with
    | .error e => .error e
    | .ok s' => revStep u o s'

end Verif.AD
