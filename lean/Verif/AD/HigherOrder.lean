import Verif.AD.Forward

/-!
# `hos_forward` (`uni5_for.cpp` with `_HOS_`, `_KEEP_`)

Every case is transcribed loop by loop, reading and writing the coefficient rows `dpp_T`
in the order of the C++ code (descending loops for products, ascending loops with the
scratch vector `dp_z` for the recurrences), so that result rows may coincide with argument
rows.
-/
set_option linter.all false
namespace Verif.AD
open Elem

variable {K : Type} [Scalar K]

/-- Arguments of `hos_forward`: base point, `X i j` = `argument[i][j]` (coefficient of order
`j + 1`, uni5_for.cpp:1611), parameters, `gdegree`, `keep`. -/
structure HCfg (K : Type) where
  x : Nat → K
  X : Nat → Nat → K
  par : Nat → K
  k : Nat
  keep : Nat

/-- Variables of the sweep: `dp_T0`, `dpp_T` (`D l i` is the coefficient of order `i + 1`),
`dp_z`, the value stack (one row per `IF_KEEP_WRITE_TAYLOR`: entry 0 is the value, entries
`1 … keep-1` the coefficients), `ret_c`, `indexi` and the rows written to
`valuepoint`/`taylors` (entry 0 the value). -/
structure HS (K : Type) where
  T : Nat → K
  D : Nat → Nat → K
  z : Nat → K
  stk : List (Nat → K)
  rc : Int
  ii : Nat
  y : List (Nat → K)

/-- `D[r][i] = v` -/
def updC (D : Nat → Nat → K) (r i : Nat) (v : K) : Nat → Nat → K :=
  fun l j => if l = r ∧ j = i then v else D l j

namespace HS
/-- Value and coefficients of a location as one row. -/
def row (s : HS K) (l : Nat) : Nat → K
  | 0 => s.T l
  | n + 1 => s.D l n
/-- `IF_KEEP_WRITE_TAYLOR(r, keep, k, p)`: uni5_for.cpp:275-284.  `write_taylor(dpp_T[r], keep-1)`
writes `keep - 1` coefficients; the other entries of the row are not there (here 0).  For
`keep > k + 1` the code reads beyond the row (no check); theorems assume `keep ≤ k + 1`. -/
def push (c : HCfg K) (r : Nat) (s : HS K) : HS K :=
  { s with stk := if 0 < c.keep then (fun n => if n < c.keep then s.row r n else 0) :: s.stk else s.stk }
def set (r : Nat) (v : K) (s : HS K) : HS K := { s with T := upd s.T r v }
def setC (r i : Nat) (v : K) (s : HS K) : HS K := { s with D := updC s.D r i v }
def setZ (i : Nat) (v : K) (s : HS K) : HS K := { s with z := upd s.z i v }
def dec (b : Bool) (n : Int) (s : HS K) : HS K := { s with rc := if b then mindec s.rc n else s.rc }
end HS

/-- `dp_T0`, `dpp_T`, `dp_z` are zero-initialised (uni5_for.cpp:1130, 1229-1232). -/
def HS.init : HS K := ⟨fun _ => 0, fun _ _ => 0, fun _ => 0, [], 3, 0, []⟩
def HS.start (T0 : Nat → K) : HS K := ⟨T0, fun _ _ => 0, fun _ => 0, [], 3, 0, []⟩

/-- `for (int i = 0; i < n; i++)` (`FOR_0_LE_i_LT_k`, `FOR_0_LE_l_LT_pk`: 446, 469) -/
def forUp {S : Type} (n : Nat) (f : Nat → S → S) (s : S) : S := (List.range n).foldl (fun s i => f i s) s
/-- `for (int i = n - 1; i >= 0; i--)` (`FOR_k_GT_i_GE_0`: 447) -/
def forDown {S : Type} (n : Nat) (f : Nat → S → S) (s : S) : S :=
  (List.range n).foldl (fun s q => f (n - 1 - q) s) s

/-- Sign search at the edge of a domain, e.g. 2756-2769: `p` for a positive first nonzero
coefficient, `n` for a negative one, otherwise 0. -/
def edgeVal (k : Nat) (d : Nat → K) (p n : K) : K :=
  match (List.range k).find? (fun i => d i ≠ 0) with
  | none => 0
  | some i => if d i > 0 then p else n

/-- The regular recurrence of a `Quad` operation: 2694-2710 (atan), 2794-2810, 2894-2910,
2955-2971, 3039-3056, 3146-3163, 3205-3221, 3263-3279, 3688-3705 (gen_quad). -/
def quadLoop (k a b r : Nat) (s : HS K) : HS K :=
  forUp k (fun i s =>
    let s := s.setZ i (((i : K) + 1) * s.D a i)
    let s := s.setC r i (s.T b * s.D a i)
    let s := s.setC r i (s.D r i * ((i : K) + 1))
    let s := forUp i (fun j s => s.setC r i (s.D r i + s.D b j * s.z (i - 1 - j))) s
    s.setC r i (s.D r i / ((i : K) + 1))) s

/-- Coefficients of a `Quad` operation including the edges of the domain: asin 2754-2812,
acos 2854-2912 (only the first coefficient is written), acosh 3015-3058, atanh 3100-3165 (the
other coefficients become nan).  The test reads `dp_T0[arg1]` after `dp_T0[res]` was written. -/
def quadHO (q : Quad) (k a b r : Nat) (s : HS K) : HS K :=
  match q with
  | .asin =>
    if s.T a = 1 then s.setC r 0 (edgeVal k (s.D a) nan inf)
    else if s.T a = -1 then s.setC r 0 (edgeVal k (s.D a) inf nan)
    else quadLoop k a b r s
  | .acos =>
    if s.T a = 1 then s.setC r 0 (edgeVal k (s.D a) nan (-inf))
    else if s.T a = -1 then s.setC r 0 (edgeVal k (s.D a) (-inf) nan)
    else quadLoop k a b r s
  | .acosh =>
    if s.T a = 1 then
      forUp (k - 1) (fun i s => s.setC r (i + 1) nan) (s.setC r 0 (edgeVal k (s.D a) inf nan))
    else quadLoop k a b r s
  | .atanh =>
    if s.T a = 1 then
      forUp (k - 1) (fun i s => s.setC r (i + 1) nan) (s.setC r 0 (edgeVal k (s.D a) nan inf))
    else if s.T a = -1 then
      forUp (k - 1) (fun i s => s.setC r (i + 1) nan) (s.setC r 0 (edgeVal k (s.D a) inf nan))
    else quadLoop k a b r s
  | _ => quadLoop k a b r s

/-- `*Tres++ = *Targ++` over a row (e.g. 1453). -/
def copyRow (k a r : Nat) (s : HS K) : HS K := forUp k (fun i s => s.setC r i (s.D a i)) s
/-- `*Tres++ = v` over a row (e.g. 1487). -/
def fillRow (k r : Nat) (v : K) (s : HS K) : HS K := forUp k (fun i s => s.setC r i v) s

/-- `pow` at base zero with exponent `v > 0`, `v ≠ 1` (3404-3414): the pointer `Tres` (second
component) only advances in the branches that write. -/
def powZeroLoop (k r : Nat) (v : K) (s : HS K) : HS K :=
  (forUp k (fun i (p : HS K × Nat) =>
    let p := if v - i > 1 then (p.1.setC r p.2 0, p.2 + 1) else p
    let p := if v - i < 1 ∧ v - i > 0 then (p.1.setC r p.2 inf, p.2 + 1) else p
    if v - i < 0 then (p.1.setC r p.2 nan, p.2 + 1) else p) (s, 0)).1

/-- How `hos_forward` can stop. -/
inductive HStop where
  | fwd (s : Stop)
  /-- `ADOLCError::fail(HO_OP_NOT_IMPLEMENTED)` (3635) -/
  | notImplemented
  deriving DecidableEq, Repr

/-- One `case` of the switch in `hos_forward`. -/
def hosStep (c : HCfg K) (o : Base K) (s : HS K) : Except HStop (HS K) :=
  match o with
  -- 1313-1423
  | .cmp q a =>
    if q.holds (s.T a) then
      match q with
      | .eq => .ok { s with rc := 0 }
      | .le | .ge => .ok { s with rc := if s.T a = 0 then 0 else s.rc }
      | _ => .ok s
    else .error (.fwd .branchSwitch)
  -- 1430-1456
  | .assignA a r => let s := s.push c r; let s := s.set r (s.T a); .ok (copyRow c.k a r s)
  -- 1459-1490
  | .assignD r v => let s := s.push c r; let s := s.set r v; .ok (fillRow c.k r 0 s)
  -- 1493-1524
  | .assignP p r => let s := s.push c r; let s := s.set r (c.par p); .ok (fillRow c.k r 0 s)
  -- 1527-1554
  | .assignD0 r => let s := s.push c r; let s := s.set r 0; .ok (fillRow c.k r 0 s)
  -- 1557-1585
  | .assignD1 r => let s := s.push c r; let s := s.set r 1; .ok (fillRow c.k r 0 s)
  -- 1588-1621
  | .assignInd r =>
    let s := s.push c r
    let s := s.set r (c.x s.ii)
    let s := forUp c.k (fun i s => s.setC r i (c.X s.ii i)) s
    .ok { s with ii := s.ii + 1 }
  -- 1624-1665
  | .assignDep r => .ok { s with y := s.y ++ [s.row r] }
  -- 1672-1685
  | .eqPlusD r v => let s := s.push c r; .ok (s.set r (s.T r + v))
  -- 1688-1721
  | .eqPlusA a r =>
    let s := s.push c r
    let s := s.set r (s.T r + s.T a)
    .ok (forUp c.k (fun i s => s.setC r i (s.D r i + s.D a i)) s)
  -- 1724-1737
  | .eqMinD r v => let s := s.push c r; .ok (s.set r (s.T r - v))
  -- 1740-1773
  | .eqMinA a r =>
    let s := s.push c r
    let s := s.set r (s.T r - s.T a)
    .ok (forUp c.k (fun i s => s.setC r i (s.D r i - s.D a i)) s)
  -- 1776-1800
  | .eqMultD r v =>
    let s := s.push c r
    let s := s.set r (s.T r * v)
    .ok (forUp c.k (fun i s => s.setC r i (s.D r i * v)) s)
  -- 1803-1855
  | .eqMultA a r =>
    let s := s.push c r
    let s := forDown c.k (fun i s =>
      let s := s.setC r i (s.T r * s.D a i + s.D r i * s.T a)
      forUp i (fun j s => s.setC r i (s.D r i + s.D r j * s.D a (i - 1 - j))) s) s
    .ok (s.set r (s.T r * s.T a))
  -- 1858-1866
  | .incrA r => let s := s.push c r; .ok (s.set r (s.T r + 1))
  -- 1869-1877
  | .decrA r => let s := s.push c r; .ok (s.set r (s.T r - 1))
  -- 1884-1918
  | .plusAA a b r =>
    let s := s.push c r
    let s := s.set r (s.T a + s.T b)
    .ok (forUp c.k (fun i s => s.setC r i (s.D a i + s.D b i)) s)
  -- 1921-1951
  | .plusDA a r v => let s := s.push c r; let s := s.set r (s.T a + v); .ok (copyRow c.k a r s)
  -- 1954-1989
  | .minAA a b r =>
    let s := s.push c r
    let s := s.set r (s.T a - s.T b)
    .ok (forUp c.k (fun i s => s.setC r i (s.D a i - s.D b i)) s)
  -- 1992-2026
  | .minDA a r v =>
    let s := s.push c r
    let s := s.set r (v - s.T a)
    .ok (forUp c.k (fun i s => s.setC r i (- s.D a i)) s)
  -- 2029-2084
  | .multAA a b r =>
    let s := s.push c r
    let s := forDown c.k (fun i s =>
      let s := s.setC r i (s.T a * s.D b i + s.D a i * s.T b)
      forUp i (fun j s => s.setC r i (s.D r i + s.D a j * s.D b (i - 1 - j))) s) s
    .ok (s.set r (s.T a * s.T b))
  -- 2088-2150
  | .eqPlusProd a b r =>
    let s := forDown c.k (fun i s =>
      let s := s.setC r i (s.D r i + (s.T a * s.D b i + s.D a i * s.T b))
      forUp i (fun j s => s.setC r i (s.D r i + s.D a j * s.D b (i - 1 - j))) s) s
    .ok (s.set r (s.T r + s.T a * s.T b))
  -- 2154-2217
  | .eqMinProd a b r =>
    let s := forDown c.k (fun i s =>
      let s := s.setC r i (s.D r i - (s.T a * s.D b i + s.D a i * s.T b))
      forUp i (fun j s => s.setC r i (s.D r i - s.D a j * s.D b (i - 1 - j))) s) s
    .ok (s.set r (s.T r - s.T a * s.T b))
  -- 2220-2254
  | .multDA a r v =>
    let s := s.push c r
    let s := s.set r (s.T a * v)
    .ok (forUp c.k (fun i s => s.setC r i (s.D a i * v)) s)
  -- 2257-2320
  | .divAA a b r =>
    let s := s.push c r
    let divs := 1 / s.T b
    let s := s.set r (s.T a / s.T b)
    .ok (forUp c.k (fun i s =>
      let s := s.setZ i (- s.D b i * divs)
      let s := s.setC r i (s.D a i * divs + s.T r * (- s.D b i * divs))
      forUp i (fun j s => s.setC r i (s.D r i + s.D r j * s.z (i - 1 - j))) s) s)
  -- 2323-2384
  | .divDA a r v =>
    let s := s.push c r
    let divs := 1 / s.T a
    let s := s.set r (v / s.T a)
    .ok (forUp c.k (fun i s =>
      let s := s.setZ i (- s.D a i * divs)
      let s := s.setC r i (s.T r * (- s.D a i * divs))
      forUp i (fun j s => s.setC r i (s.D r i + s.D r j * s.z (i - 1 - j))) s) s)
  -- 2391-2416
  | .posSign a r => let s := s.push c r; let s := s.set r (s.T a); .ok (copyRow c.k a r s)
  -- 2419-2448
  | .negSign a r =>
    let s := s.push c r
    let s := s.set r (- s.T a)
    .ok (forUp c.k (fun i s => s.setC r i (- s.D a i)) s)
  -- 2455-2510
  | .expOp a r =>
    let s := s.push c r
    let s := s.set r (exp (s.T a))
    .ok (forUp c.k (fun i s =>
      let s := s.setZ i (((i : K) + 1) * s.D a i)
      let s := s.setC r i (s.T r * s.D a i)
      let s := s.setC r i (s.D r i * ((i : K) + 1))
      let s := forUp i (fun j s => s.setC r i (s.D r i + s.D r j * s.z (i - 1 - j))) s
      s.setC r i (s.D r i / ((i : K) + 1))) s)
  -- 2513-2582
  | .sinOp a b r =>
    let s := (s.push c b).push c r
    let s := s.set b (cos (s.T a))
    let s := s.set r (sin (s.T a))
    .ok (forUp c.k (fun i s =>
      let s := s.setZ i (((i : K) + 1) * s.D a i)
      let s := s.setC b i (- s.T r * s.D a i)
      let s := s.setC r i (s.T b * s.D a i)
      let s := s.setC r i (s.D r i * ((i : K) + 1))
      let s := s.setC b i (s.D b i * ((i : K) + 1))
      let s := forUp i (fun j s =>
        let s := s.setC r i (s.D r i + s.D b j * s.z (i - 1 - j))
        s.setC b i (s.D b i - s.D r j * s.z (i - 1 - j))) s
      let s := s.setC b i (s.D b i / ((i : K) + 1))
      s.setC r i (s.D r i / ((i : K) + 1))) s)
  -- 2585-2655
  | .cosOp a b r =>
    let s := (s.push c b).push c r
    let s := s.set b (sin (s.T a))
    let s := s.set r (cos (s.T a))
    .ok (forUp c.k (fun i s =>
      let s := s.setZ i (((i : K) + 1) * s.D a i)
      let s := s.setC b i (s.T r * s.D a i)
      let s := s.setC r i (- s.T b * s.D a i)
      let s := s.setC r i (s.D r i * ((i : K) + 1))
      let s := s.setC b i (s.D b i * ((i : K) + 1))
      let s := forUp i (fun j s =>
        let s := s.setC r i (s.D r i - s.D b j * s.z (i - 1 - j))
        s.setC b i (s.D b i + s.D r j * s.z (i - 1 - j))) s
      let s := s.setC b i (s.D b i / ((i : K) + 1))
      s.setC r i (s.D r i / ((i : K) + 1))) s)
  -- 2658-3285
  | .quad q a b r =>
    let s := s.push c r
    let s := s.set r (q.fn (s.T a))
    .ok (quadHO q c.k a b r s)
  -- 3288-3351
  | .logOp a r =>
    let s := s.push c r
    let divs := 1 / s.T a
    let divs := if s.T a = 0 ∧ ∃ i ∈ List.range c.k, s.D a i < 0 then nan else divs
    let s := forUp c.k (fun i s =>
      let s := s.setC r i (s.D a i * divs)
      let s := s.setZ i (s.D r i)
      let s := s.setC r i (s.D r i * ((i : K) + 1))
      let s := forUp i (fun j s => s.setC r i (s.D r i - s.z (i - 1 - j) * s.D r j * ((j : K) + 1))) s
      s.setC r i (s.D r i / ((i : K) + 1))) s
    .ok (s.set r (log (s.T a)))
  -- 3354-3491
  | .powOp a r v =>
    let s := s.push c r
    let T0arg := s.T a
    let s := s.set r (pow (s.T a) v)
    if T0arg = 0 then
      if v ≤ 0 then .ok (fillRow c.k r nan s)
      else if v - 1 ≠ 0 then .ok (powZeroLoop c.k r v s)
      else .ok (copyRow c.k a r s)
    else
      let r0 := 1 / T0arg
      .ok (forUp c.k (fun i s =>
        let s := s.setZ i (s.D a i * r0)
        let s := s.setC r i (s.T r * s.D a i * v * r0)
        let s := s.setC r i (s.D r i * ((i : K) + 1))
        let s := (forUp i (fun j (p : HS K × K) =>
          (p.1.setC r i (p.1.D r i + p.1.D r j * p.1.z (i - 1 - j) * p.2), p.2 - (v + 1)))
          (s, v * i - 1)).1
        s.setC r i (s.D r i / ((i : K) + 1))) s)
  -- 3494-3573
  | .sqrtOp a r =>
    let s := s.push c r
    let s := s.set r (sqrt (s.T a))
    let r0 := if s.T a = 0 then edgeVal c.k (s.D a) inf nan else 1 / 2 / s.T r
    .ok (forUp c.k (fun i s =>
      let s := s.setC r i (r0 * s.D a i)
      let x := forUp (i / 2) (fun j x => x + s.D r j * s.D r (i - 1 - j)) 0
      let x := x * 2
      let x := if i % 2 = 1 then x + s.D r (i / 2) * s.D r (i - 1 - i / 2) else x
      s.setC r i (s.D r i - r0 * x)) s)
  -- 3576-3644: fails in the first pass of the loop (`k ≥ 1`)
  | .cbrtOp _ _ => .error .notImplemented
  -- 3647-3711
  | .genQuad a b r old v =>
    if old ≠ s.T a then .error (.fwd .quadChanged)
    else
      let s := s.push c r
      let s := s.set r v
      .ok (quadLoop c.k a b r s)
  -- 3714-3869
  | .minOp a b r v =>
    let s := s.push c r
    let s :=
      if s.T a > s.T b then s.dec (v ≠ 0) 2
      else if s.T a < s.T b then s.dec (v = 0) 2
      else s.dec (a ≠ b) 1
    let t :=
      if s.T a > s.T b then b
      else if s.T a < s.T b then a
      else match (List.range c.k).find? (fun i => s.D a i ≠ s.D b i) with
        | some i => if s.D a i > s.D b i then b else a
        | none => a
    let s := copyRow c.k t r s
    .ok (s.set r (if s.T a > s.T b then s.T b else s.T a))
  -- 3872-3993
  | .absVal a r v =>
    let s := s.push c r
    let s :=
      if s.T a < 0 then s.dec (v ≠ 0) 2
      else if s.T a > 0 then s.dec (v = 0) 2
      else s
    let x : K := if s.T a = 0 then 0 else if s.T a < 0 then -1 else 1
    let s := (forUp c.k (fun i (p : HS K × K) =>
      let b := p.2 = 0 ∧ p.1.D a i ≠ 0
      let x := if b then (if p.1.D a i < 0 then -1 else 1) else p.2
      let s := p.1.dec b 1
      (s.setC r i (x * s.D a i), x)) (s, x)).1
    .ok (s.set r (fabs (s.T a)))
  -- 3996-4031
  | .ceilOp a r v =>
    let s := s.push c r
    let s := s.set r (ceil (s.T a))
    let s := s.dec (v ≠ s.T r) 2
    .ok (fillRow c.k r 0 s)
  -- 4034-4069
  | .floorOp a r v =>
    let s := s.push c r
    let s := s.set r (floor (s.T a))
    let s := s.dec (v ≠ s.T r) 2
    .ok (fillRow c.k r 0 s)
  -- 4076-4185
  | .condAssign a a1 a2 r v =>
    let s := s.push c r
    let s := if s.T a > 0 then copyRow c.k a1 r s else copyRow c.k a2 r s
    if s.T a > 0 then
      let s := s.dec (v ≤ 0) 2
      .ok (s.set r (s.T a1))
    else
      let s := s.dec (v > 0) 2
      let s := s.dec (s.T a = 0) 0
      .ok (s.set r (s.T a2))
  -- 4187-4288
  | .condEqAssign a a1 a2 r v =>
    let s := s.push c r
    let s := if s.T a ≥ 0 then copyRow c.k a1 r s else copyRow c.k a2 r s
    if s.T a ≥ 0 then
      let s := s.dec (v < 0) 2
      .ok (s.set r (s.T a1))
    else
      let s := s.dec (v ≥ 0) 2
      .ok (s.set r (s.T a2))
  -- 4291-4350
  | .condAssignS a a1 r v =>
    let s := s.push c r
    let s := if s.T a > 0 then copyRow c.k a1 r s else s
    if s.T a > 0 then
      let s := s.dec (v ≤ 0) 2
      .ok (s.set r (s.T a1))
    else .ok (s.dec (s.T a = 0) 0)
  -- 4352-4409
  | .condEqAssignS a a1 r v =>
    let s := s.push c r
    let s := if s.T a ≥ 0 then copyRow c.k a1 r s else s
    if s.T a ≥ 0 then
      let s := s.dec (v < 0) 2
      .ok (s.set r (s.T a1))
    else .ok s
  -- 4534-4561
  | .setRef r v => let s := s.push c r; .ok (s.set r v)
  -- 4962-4990
  | .vecCopy a n r =>
    .ok (forUp n (fun q s =>
      let s := s.push c (r + q)
      let s := s.set (r + q) (s.T (a + q))
      copyRow c.k (a + q) (r + q) s) s)
  -- 4992-5078
  | .vecDot a b n r =>
    let s := s.push c r
    let s := s.set r 0
    let s := fillRow c.k r 0 s
    .ok (forUp n (fun q s =>
      let s := forDown c.k (fun i s =>
        let s := s.setC r i (s.D r i + (s.T (a + q) * s.D (b + q) i + s.D (a + q) i * s.T (b + q)))
        forUp i (fun j s => s.setC r i (s.D r i + s.D (a + q) j * s.D (b + q) (i - 1 - j))) s) s
      s.set r (s.T r + s.T (a + q) * s.T (b + q))) s)
  -- 5080-5147
  | .vecAxpy a a1 a2 n r =>
    .ok (forUp n (fun q s =>
      let s := s.push c (r + q)
      let s := forDown c.k (fun i s =>
        let s := s.setC (r + q) i (s.T a * s.D (a1 + q) i + s.D a i * s.T (a1 + q) + s.D (a2 + q) i)
        forUp i (fun j s => s.setC (r + q) i (s.D (r + q) i + s.D a j * s.D (a1 + q) (i - 1 - j))) s) s
      s.set (r + q) (s.T a * s.T (a1 + q) + s.T (a2 + q))) s)
  -- 5468-5493
  | .takeStock r vs =>
    .ok ((vs.foldl (fun (p : Nat × HS K) v => (p.1 + 1, fillRow c.k p.1 0 (p.2.set p.1 v))) (r, s)).2)
  -- 5496-5507
  | .deathNot a b =>
    .ok (forUp (b - a + 1) (fun q s => s.push c (b - q)) s)

/-- The `hos_forward` loop over a trace (1279-5820). -/
def hosRun (c : HCfg K) : List (Base K) → HS K → Except HStop (HS K)
  | [], s => .ok s
  | o :: os, s =>
    match hosStep c o s with
    | .error e => .error e
    | .ok s' => hosRun c os s'

end Verif.AD
