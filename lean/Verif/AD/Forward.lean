import Verif.AD.Tape

/-!
# Forward sweeps: `zos_forward`, `fos_forward`, `fov_forward` (`uni5_for.cpp`)

Every case is transcribed statement by statement in the order of the C++ code, so
that aliasing of argument and result locations has the effect it has there.
`dp_T0` is `T`, `dp_T` is `dT`.  `IF_KEEP_WRITE_TAYLOR(res)` (uni5_for.cpp:256-272,
with `keep = 1`) is `push`.
-/
namespace Verif.AD
open Elem

variable {K : Type} [Scalar K]

/-! ## zos_forward -/

/-- Variables of a zos sweep: `dp_T0`, the value stack, `ret_c`, `indexi`, and the
values written to `valuepoint` so far. -/
structure ZS (K : Type) where
  T : Nat → K
  stk : List K
  rc : Int
  ii : Nat
  y : List K

namespace ZS
/-- `IF_KEEP_WRITE_TAYLOR(r, keep, k, p)`: uni5_for.cpp:256-261. -/
def push (c : Cfg K) (r : Nat) (s : ZS K) : ZS K :=
  { s with stk := if c.keep then s.T r :: s.stk else s.stk }
/-- `dp_T0[r] = v` -/
def set (r : Nat) (v : K) (s : ZS K) : ZS K := { s with T := upd s.T r v }
/-- `MINDEC(ret_c, n)` under a condition. -/
def dec (b : Bool) (n : Int) (s : ZS K) : ZS K := { s with rc := if b then mindec s.rc n else s.rc }
end ZS

/-- Initial state: `dp_T0` is `myalloc1` = `calloc` (uni5_for.cpp:900-1000,
adalloc.cpp), `ret_c = 3` (uni5_for.cpp:830), empty value stack. -/
def ZS.init : ZS K := ⟨fun _ => 0, [], 3, 0, []⟩
/-- The same with other initial contents of `dp_T0` (used to relate the recorder, whose store
is not cleared, to a sweep). -/
def ZS.start (T0 : Nat → K) : ZS K := ⟨T0, [], 3, 0, []⟩

/-- One `case` of the switch in `zos_forward` (uni5_for.cpp with `_ZOS_`,`_KEEP_`). -/
def zosStep (c : Cfg K) (o : Base K) (s : ZS K) : Except Stop (ZS K) :=
  match o with
  -- 1313-1423
  | .cmp q a =>
    if q.holds (s.T a) then
      match q with
      | .eq => .ok { s with rc := 0 }
      | .le | .ge => .ok { s with rc := if s.T a = 0 then 0 else s.rc }
      | _ => .ok s
    else .error .branchSwitch
  -- 1430-1456
  | .assignA a r => let s := s.push c r; .ok (s.set r (s.T a))
  -- 1459-1490
  | .assignD r v => let s := s.push c r; .ok (s.set r v)
  -- 1493-1524
  | .assignP p r => let s := s.push c r; .ok (s.set r (c.par p))
  -- 1527-1554
  | .assignD0 r => let s := s.push c r; .ok (s.set r 0)
  -- 1557-1585
  | .assignD1 r => let s := s.push c r; .ok (s.set r 1)
  -- 1588-1621
  | .assignInd r =>
    let s := s.push c r
    .ok { s.set r (c.x s.ii) with ii := s.ii + 1 }
  -- 1624-1665
  | .assignDep r => .ok { s with y := s.y ++ [s.T r] }
  -- 1672-1685
  | .eqPlusD r v => let s := s.push c r; .ok (s.set r (s.T r + v))
  -- 1688-1721
  | .eqPlusA a r => let s := s.push c r; .ok (s.set r (s.T r + s.T a))
  -- 1724-1737
  | .eqMinD r v => let s := s.push c r; .ok (s.set r (s.T r - v))
  -- 1740-1773
  | .eqMinA a r => let s := s.push c r; .ok (s.set r (s.T r - s.T a))
  -- 1776-1800
  | .eqMultD r v => let s := s.push c r; .ok (s.set r (s.T r * v))
  -- 1803-1855
  | .eqMultA a r => let s := s.push c r; .ok (s.set r (s.T r * s.T a))
  -- 1858-1866
  | .incrA r => let s := s.push c r; .ok (s.set r (s.T r + 1))
  -- 1869-1877
  | .decrA r => let s := s.push c r; .ok (s.set r (s.T r - 1))
  -- 1884-1918
  | .plusAA a b r => let s := s.push c r; .ok (s.set r (s.T a + s.T b))
  -- 1921-1951
  | .plusDA a r v => let s := s.push c r; .ok (s.set r (s.T a + v))
  -- 1954-1989
  | .minAA a b r => let s := s.push c r; .ok (s.set r (s.T a - s.T b))
  -- 1992-2026
  | .minDA a r v => let s := s.push c r; .ok (s.set r (v - s.T a))
  -- 2029-2084
  | .multAA a b r => let s := s.push c r; .ok (s.set r (s.T a * s.T b))
  -- 2088-2150 (no push)
  | .eqPlusProd a b r => .ok (s.set r (s.T r + s.T a * s.T b))
  -- 2154-2217 (no push)
  | .eqMinProd a b r => .ok (s.set r (s.T r - s.T a * s.T b))
  -- 2220-2254
  | .multDA a r v => let s := s.push c r; .ok (s.set r (s.T a * v))
  -- 2257-2320
  | .divAA a b r => let s := s.push c r; .ok (s.set r (s.T a / s.T b))
  -- 2323-2384
  | .divDA a r v => let s := s.push c r; .ok (s.set r (v / s.T a))
  -- 2391-2416
  | .posSign a r => let s := s.push c r; .ok (s.set r (s.T a))
  -- 2419-2448
  | .negSign a r => let s := s.push c r; .ok (s.set r (- s.T a))
  -- 2455-2510
  | .expOp a r => let s := s.push c r; .ok (s.set r (exp (s.T a)))
  -- 2513-2582
  | .sinOp a b r =>
    let s := (s.push c b).push c r
    let s := s.set b (cos (s.T a))
    .ok (s.set r (sin (s.T a)))
  -- 2585-2655
  | .cosOp a b r =>
    let s := (s.push c b).push c r
    let s := s.set b (sin (s.T a))
    .ok (s.set r (cos (s.T a)))
  -- 2658-3285
  | .quad q a _ r => let s := s.push c r; .ok (s.set r (q.fn (s.T a)))
  -- 3288-3351
  | .logOp a r => let s := s.push c r; .ok (s.set r (log (s.T a)))
  -- 3354-3491
  | .powOp a r v => let s := s.push c r; .ok (s.set r (pow (s.T a) v))
  -- 3494-3573
  | .sqrtOp a r => let s := s.push c r; .ok (s.set r (sqrt (s.T a)))
  -- 3576-3644
  | .cbrtOp a r => let s := s.push c r; .ok (s.set r (cbrt (s.T a)))
  -- 3647-3711
  | .genQuad a _ r old v =>
    if old ≠ s.T a then .error .quadChanged
    else let s := s.push c r; .ok (s.set r v)
  -- 3714-3869
  | .minOp a b r v =>
    let s := s.push c r
    let s :=
      if s.T a > s.T b then s.dec (v ≠ 0) 2
      else if s.T a < s.T b then s.dec (v = 0) 2
      else s.dec (a ≠ b) 1
    .ok (s.set r (if s.T a > s.T b then s.T b else s.T a))
  -- 3872-3993
  | .absVal a r v =>
    let s := s.push c r
    let s :=
      if s.T a < 0 then s.dec (v ≠ 0) 2
      else if s.T a > 0 then s.dec (v = 0) 2
      else s
    .ok (s.set r (fabs (s.T a)))
  -- 3996-4031
  | .ceilOp a r v =>
    let s := s.push c r
    let s := s.set r (ceil (s.T a))
    .ok (s.dec (v ≠ s.T r) 2)
  -- 4034-4069
  | .floorOp a r v =>
    let s := s.push c r
    let s := s.set r (floor (s.T a))
    .ok (s.dec (v ≠ s.T r) 2)
  -- 4076-4185
  | .condAssign a a1 a2 r v =>
    let s := s.push c r
    if s.T a > 0 then
      let s := s.dec (v ≤ 0) 2
      .ok (s.set r (s.T a1))
    else
      let s := s.dec (v > 0) 2
      let s := s.dec (s.T a = 0) 0
      .ok (s.set r (s.T a2))
  -- 4187-4288
  | .condEqAssign a a1 a2 r v =>
    let s := s.push c r
    if s.T a ≥ 0 then
      let s := s.dec (v < 0) 2
      .ok (s.set r (s.T a1))
    else
      let s := s.dec (v ≥ 0) 2
      .ok (s.set r (s.T a2))
  -- 4291-4350
  | .condAssignS a a1 r v =>
    let s := s.push c r
    if s.T a > 0 then
      let s := s.dec (v ≤ 0) 2
      .ok (s.set r (s.T a1))
    else .ok (s.dec (s.T a = 0) 0)
  -- 4352-4409
  | .condEqAssignS a a1 r v =>
    let s := s.push c r
    if s.T a ≥ 0 then
      let s := s.dec (v < 0) 2
      .ok (s.set r (s.T a1))
    else .ok s
  -- 4534-4561, the index already resolved
  | .setRef r v => let s := s.push c r; .ok (s.set r v)
  -- 4962-4990
  | .vecCopy a n r =>
    .ok ((List.range n).foldl (fun s q =>
      let s := s.push c (r + q)
      s.set (r + q) (s.T (a + q))) s)
  -- 4992-5078
  | .vecDot a b n r =>
    let s := s.push c r
    let s := s.set r 0
    .ok ((List.range n).foldl (fun s q =>
      s.set r (s.T r + s.T (a + q) * s.T (b + q))) s)
  -- 5080-5147
  | .vecAxpy a a1 a2 n r =>
    .ok ((List.range n).foldl (fun s q =>
      let s := s.push c (r + q)
      s.set (r + q) (s.T a * s.T (a1 + q) + s.T (a2 + q))) s)
  -- 5468-5493
  | .takeStock r vs =>
    .ok ((vs.foldl (fun (p : Nat × ZS K) v => (p.1 + 1, p.2.set p.1 v)) (r, s)).2)
  -- 5496-5507: `do { write T[arg2] } while (arg1 < arg2--)`
  | .deathNot a b =>
    .ok ((List.range (b - a + 1)).foldl (fun s q => s.push c (b - q)) s)

/-- The sweep over a trace: the `while (operation != end_of_tape)` loop
(uni5_for.cpp:1270-5820). -/
def zosRun (c : Cfg K) : List (Base K) → ZS K → Except Stop (ZS K)
  | [], s => .ok s
  | o :: os, s =>
    match zosStep c o s with
    | .error e => .error e
    | .ok s' => zosRun c os s'

/-! ## fos_forward -/

/-- Variables of a fos sweep: as `ZS` plus `dp_T` and the tangents written to
`taylors`.  With `keep = 1` the value stack is `stk`; with `keep = 2` (uni5_for.cpp:263-272) it
holds the pairs `dp_T0[res]`, `dp_T[res]`, which are collected in `rows`. -/
structure FS (K : Type) where
  T : Nat → K
  dT : Nat → K
  stk : List K
  rc : Int
  ii : Nat
  y : List K
  dy : List K
  rows : List (Nat → K)

namespace FS
/-- `IF_KEEP_WRITE_TAYLOR(res, keep, k, p)`: 263-272 -/
def push (c : Cfg K) (r : Nat) (s : FS K) : FS K :=
  { s with stk := if c.keep then s.T r :: s.stk else s.stk, rows := if c.keep then (fun i => if i = 0 then s.T r else s.dT r) :: s.rows else s.rows }
def set (r : Nat) (v : K) (s : FS K) : FS K := { s with T := upd s.T r v }
/-- `*Tres = v` with `Tres = &dp_T[r]` -/
def setD (r : Nat) (v : K) (s : FS K) : FS K := { s with dT := upd s.dT r v }
def dec (b : Bool) (n : Int) (s : FS K) : FS K := { s with rc := if b then mindec s.rc n else s.rc }
/-- Forget the tangents. -/
def toZ (s : FS K) : ZS K := ⟨s.T, s.stk, s.rc, s.ii, s.y⟩
end FS

/-- `dp_T0`, `dp_T` are zero-initialised. -/
def FS.init : FS K := ⟨fun _ => 0, fun _ => 0, [], 3, 0, [], [], []⟩
def FS.start (T0 : Nat → K) : FS K := ⟨T0, fun _ => 0, [], 3, 0, [], [], []⟩

/-- The tangent written for a `Quad` operation: `asin` 2754-2812, `acos` 2854-2912,
`acosh` 3015-3058, `atanh` 3100-3165, others e.g. 2693-2712.  `x` is `dp_T0[arg1]`
*at that moment* (after `dp_T0[res]` was written), `d` is `*Targ1`, `p` is
`dp_T0[arg2]`. -/
def quadTangent (q : Quad) (x d p : K) : K :=
  match q with
  | .asin =>
    if x = 1 then (if d > 0 then nan else if d < 0 then inf else 0)
    else if x = -1 then (if d > 0 then inf else if d < 0 then nan else 0)
    else p * d
  | .acos =>
    if x = 1 then (if d > 0 then nan else if d < 0 then -inf else 0)
    else if x = -1 then (if d > 0 then -inf else if d < 0 then nan else 0)
    else p * d
  | .acosh =>
    if x = 1 then (if d > 0 then inf else if d < 0 then nan else 0)
    else p * d
  | .atanh =>
    if x = 1 then (if d > 0 then nan else if d < 0 then inf else 0)
    else if x = -1 then (if d > 0 then inf else if d < 0 then nan else 0)
    else p * d
  | _ => p * d

/-- Tangent of `pow` at base zero (uni5_for.cpp:3399-3463 with `k = 1`, `i = 0`);
`old` is the previous content of `*Tres` (the code may leave it unchanged).
`coval - floor(coval != 0.0) != 0`: `floor` is applied to the truth value, so for
`coval > 0` the test is `coval - 1 != 0`. -/
def powZeroTangent (v d old : K) : K :=
  if v ≤ 0 then nan
  else if v - (if v ≠ 0 then 1 else 0) ≠ 0 then
    let t := old
    let t := if v > 1 then 0 else t
    let t := if v < 1 ∧ v > 0 then inf else t
    if v < 0 then nan else t
  else if v = 1 then d else 0

/-- `r0` of sqrt/cbrt at argument zero (3532-3544, 3614-3626). -/
def rootZero (d : K) : K := if d > 0 then inf else if d < 0 then nan else 0

/-- One `case` of the switch in `fos_forward` (uni5_for.cpp with `_FOS_`,`_KEEP_`);
`v` is the direction (`argument`). -/
def fosStep (c : Cfg K) (v : Nat → K) (o : Base K) (s : FS K) : Except Stop (FS K) :=
  match o with
  -- 1313-1423
  | .cmp q a =>
    if q.holds (s.T a) then
      match q with
      | .eq => .ok { s with rc := 0 }
      | .le | .ge => .ok { s with rc := if s.T a = 0 then 0 else s.rc }
      | _ => .ok s
    else .error .branchSwitch
  -- 1430-1456
  | .assignA a r => let s := s.push c r; let s := s.set r (s.T a); .ok (s.setD r (s.dT a))
  -- 1459-1490
  | .assignD r k => let s := s.push c r; .ok ((s.set r k).setD r 0)
  -- 1493-1524
  | .assignP p r => let s := s.push c r; .ok ((s.set r (c.par p)).setD r 0)
  -- 1527-1554
  | .assignD0 r => let s := s.push c r; .ok ((s.set r 0).setD r 0)
  -- 1557-1585
  | .assignD1 r => let s := s.push c r; .ok ((s.set r 1).setD r 0)
  -- 1588-1621
  | .assignInd r =>
    let s := s.push c r
    let s := s.set r (c.x s.ii)
    let s := s.setD r (v s.ii)
    .ok { s with ii := s.ii + 1 }
  -- 1624-1665
  | .assignDep r => .ok { s with y := s.y ++ [s.T r], dy := s.dy ++ [s.dT r] }
  -- 1672-1685
  | .eqPlusD r k => let s := s.push c r; .ok (s.set r (s.T r + k))
  -- 1688-1721
  | .eqPlusA a r =>
    let s := s.push c r; let s := s.set r (s.T r + s.T a); .ok (s.setD r (s.dT r + s.dT a))
  -- 1724-1737
  | .eqMinD r k => let s := s.push c r; .ok (s.set r (s.T r - k))
  -- 1740-1773
  | .eqMinA a r =>
    let s := s.push c r; let s := s.set r (s.T r - s.T a); .ok (s.setD r (s.dT r - s.dT a))
  -- 1776-1800
  | .eqMultD r k =>
    let s := s.push c r; let s := s.set r (s.T r * k); .ok (s.setD r (s.dT r * k))
  -- 1803-1855
  | .eqMultA a r =>
    let s := s.push c r
    let s := s.setD r (s.T r * s.dT a + s.dT r * s.T a)
    .ok (s.set r (s.T r * s.T a))
  -- 1858-1866
  | .incrA r => let s := s.push c r; .ok (s.set r (s.T r + 1))
  -- 1869-1877
  | .decrA r => let s := s.push c r; .ok (s.set r (s.T r - 1))
  -- 1884-1918
  | .plusAA a b r =>
    let s := s.push c r; let s := s.set r (s.T a + s.T b); .ok (s.setD r (s.dT a + s.dT b))
  -- 1921-1951
  | .plusDA a r k => let s := s.push c r; let s := s.set r (s.T a + k); .ok (s.setD r (s.dT a))
  -- 1954-1989
  | .minAA a b r =>
    let s := s.push c r; let s := s.set r (s.T a - s.T b); .ok (s.setD r (s.dT a - s.dT b))
  -- 1992-2026
  | .minDA a r k => let s := s.push c r; let s := s.set r (k - s.T a); .ok (s.setD r (- s.dT a))
  -- 2029-2084
  | .multAA a b r =>
    let s := s.push c r
    let s := s.setD r (s.T a * s.dT b + s.dT a * s.T b)
    .ok (s.set r (s.T a * s.T b))
  -- 2088-2150
  | .eqPlusProd a b r =>
    let s := s.setD r (s.dT r + (s.T a * s.dT b + s.dT a * s.T b))
    .ok (s.set r (s.T r + s.T a * s.T b))
  -- 2154-2217
  | .eqMinProd a b r =>
    let s := s.setD r (s.dT r - (s.T a * s.dT b + s.dT a * s.T b))
    .ok (s.set r (s.T r - s.T a * s.T b))
  -- 2220-2254
  | .multDA a r k => let s := s.push c r; let s := s.set r (s.T a * k); .ok (s.setD r (s.dT a * k))
  -- 2257-2320
  | .divAA a b r =>
    let s := s.push c r
    let divs := 1 / s.T b
    let s := s.set r (s.T a / s.T b)
    .ok (s.setD r (s.dT a * divs + s.T r * (- s.dT b * divs)))
  -- 2323-2384
  | .divDA a r k =>
    let s := s.push c r
    let divs := 1 / s.T a
    let s := s.set r (k / s.T a)
    .ok (s.setD r (s.T r * (- s.dT a * divs)))
  -- 2391-2416
  | .posSign a r => let s := s.push c r; let s := s.set r (s.T a); .ok (s.setD r (s.dT a))
  -- 2419-2448
  | .negSign a r => let s := s.push c r; let s := s.set r (- s.T a); .ok (s.setD r (- s.dT a))
  -- 2455-2510
  | .expOp a r => let s := s.push c r; let s := s.set r (exp (s.T a)); .ok (s.setD r (s.T r * s.dT a))
  -- 2513-2582
  | .sinOp a b r =>
    let s := (s.push c b).push c r
    let s := s.set b (cos (s.T a))
    let s := s.set r (sin (s.T a))
    let s := s.setD b (- s.T r * s.dT a)
    .ok (s.setD r (s.T b * s.dT a))
  -- 2585-2655
  | .cosOp a b r =>
    let s := (s.push c b).push c r
    let s := s.set b (sin (s.T a))
    let s := s.set r (cos (s.T a))
    let s := s.setD b (s.T r * s.dT a)
    .ok (s.setD r (- s.T b * s.dT a))
  -- 2658-3285
  | .quad q a b r =>
    let s := s.push c r
    let s := s.set r (q.fn (s.T a))
    .ok (s.setD r (quadTangent q (s.T a) (s.dT a) (s.T b)))
  -- 3288-3351
  | .logOp a r =>
    let s := s.push c r
    let divs := 1 / s.T a
    let divs := if s.T a = 0 ∧ s.dT a < 0 then nan else divs
    let s := s.setD r (s.dT a * divs)
    .ok (s.set r (log (s.T a)))
  -- 3354-3491
  | .powOp a r k =>
    let s := s.push c r
    let T0arg := s.T a
    let s := s.set r (pow (s.T a) k)
    if T0arg = 0 then .ok (s.setD r (powZeroTangent k (s.dT a) (s.dT r)))
    else
      let r0 := 1 / T0arg
      .ok (s.setD r (s.T r * s.dT a * k * r0))
  -- 3494-3573
  | .sqrtOp a r =>
    let s := s.push c r
    let s := s.set r (sqrt (s.T a))
    let r0 := if s.T a = 0 then rootZero (s.dT a) else 1 / 2 / s.T r
    .ok (s.setD r (r0 * s.dT a))
  -- 3576-3644
  | .cbrtOp a r =>
    let s := s.push c r
    let s := s.set r (cbrt (s.T a))
    let r0 := if s.T a = 0 then rootZero (s.dT a) else 1 / (3 * s.T r * s.T r)
    .ok (s.setD r (r0 * s.dT a))
  -- 3647-3711
  | .genQuad a b r old k =>
    if old ≠ s.T a then .error .quadChanged
    else
      let s := s.push c r
      let s := s.set r k
      .ok (s.setD r (s.T b * s.dT a))
  -- 3714-3869
  | .minOp a b r k =>
    let s := s.push c r
    let s :=
      if s.T a > s.T b then s.dec (k ≠ 0) 2
      else if s.T a < s.T b then s.dec (k = 0) 2
      else s.dec (a ≠ b) 1
    let s := s.setD r
      (if s.T a > s.T b then s.dT b
       else if s.T a < s.T b then s.dT a
       else if s.dT a > s.dT b then s.dT b
       else s.dT a)
    .ok (s.set r (if s.T a > s.T b then s.T b else s.T a))
  -- 3872-3993
  | .absVal a r k =>
    let s := s.push c r
    let s :=
      if s.T a < 0 then s.dec (k ≠ 0) 2
      else if s.T a > 0 then s.dec (k = 0) 2
      else s
    let x : K := if s.T a = 0 then 0 else if s.T a < 0 then -1 else 1
    let s := s.dec (x = 0 ∧ s.dT a ≠ 0) 1
    let x : K := if x = 0 ∧ s.dT a ≠ 0 then (if s.dT a < 0 then -1 else 1) else x
    let s := s.setD r (x * s.dT a)
    .ok (s.set r (fabs (s.T a)))
  -- 3996-4031
  | .ceilOp a r k =>
    let s := s.push c r
    let s := s.set r (ceil (s.T a))
    let s := s.dec (k ≠ s.T r) 2
    .ok (s.setD r 0)
  -- 4034-4069
  | .floorOp a r k =>
    let s := s.push c r
    let s := s.set r (floor (s.T a))
    let s := s.dec (k ≠ s.T r) 2
    .ok (s.setD r 0)
  -- 4076-4185
  | .condAssign a a1 a2 r k =>
    let s := s.push c r
    let s := if s.T a > 0 then s.setD r (s.dT a1) else s.setD r (s.dT a2)
    if s.T a > 0 then
      let s := s.dec (k ≤ 0) 2
      .ok (s.set r (s.T a1))
    else
      let s := s.dec (k > 0) 2
      let s := s.dec (s.T a = 0) 0
      .ok (s.set r (s.T a2))
  -- 4187-4288
  | .condEqAssign a a1 a2 r k =>
    let s := s.push c r
    let s := if s.T a ≥ 0 then s.setD r (s.dT a1) else s.setD r (s.dT a2)
    if s.T a ≥ 0 then
      let s := s.dec (k < 0) 2
      .ok (s.set r (s.T a1))
    else
      let s := s.dec (k ≥ 0) 2
      .ok (s.set r (s.T a2))
  -- 4291-4350
  | .condAssignS a a1 r k =>
    let s := s.push c r
    let s := if s.T a > 0 then s.setD r (s.dT a1) else s
    if s.T a > 0 then
      let s := s.dec (k ≤ 0) 2
      .ok (s.set r (s.T a1))
    else .ok (s.dec (s.T a = 0) 0)
  -- 4352-4409
  | .condEqAssignS a a1 r k =>
    let s := s.push c r
    let s := if s.T a ≥ 0 then s.setD r (s.dT a1) else s
    if s.T a ≥ 0 then
      let s := s.dec (k < 0) 2
      .ok (s.set r (s.T a1))
    else .ok s
  -- 4534-4561 (tangent of the reference cell untouched)
  | .setRef r k => let s := s.push c r; .ok (s.set r k)
  -- 4962-4990
  | .vecCopy a n r =>
    .ok ((List.range n).foldl (fun s q =>
      let s := s.push c (r + q)
      let s := s.set (r + q) (s.T (a + q))
      s.setD (r + q) (s.dT (a + q))) s)
  -- 4992-5078
  | .vecDot a b n r =>
    let s := s.push c r
    let s := s.set r 0
    let s := s.setD r 0
    .ok ((List.range n).foldl (fun s q =>
      let s := s.setD r (s.dT r + (s.T (a + q) * s.dT (b + q) + s.dT (a + q) * s.T (b + q)))
      s.set r (s.T r + s.T (a + q) * s.T (b + q))) s)
  -- 5080-5147
  | .vecAxpy a a1 a2 n r =>
    .ok ((List.range n).foldl (fun s q =>
      let s := s.push c (r + q)
      let s := s.setD (r + q) (s.T a * s.dT (a1 + q) + s.dT a * s.T (a1 + q) + s.dT (a2 + q))
      s.set (r + q) (s.T a * s.T (a1 + q) + s.T (a2 + q))) s)
  -- 5468-5493
  | .takeStock r vs =>
    .ok ((vs.foldl (fun (p : Nat × FS K) k => (p.1 + 1, (p.2.set p.1 k).setD p.1 0)) (r, s)).2)
  -- 5496-5507
  | .deathNot a b =>
    .ok ((List.range (b - a + 1)).foldl (fun s q => s.push c (b - q)) s)

/-- The `fos_forward` loop over a trace. -/
def fosRun (c : Cfg K) (v : Nat → K) : List (Base K) → FS K → Except Stop (FS K)
  | [], s => .ok s
  | o :: os, s =>
    match fosStep c v o s with
    | .error e => .error e
    | .ok s' => fosRun c v os s'

end Verif.AD
