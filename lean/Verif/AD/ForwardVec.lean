import Verif.AD.Forward

/-!
# `fov_forward` (`uni5_for.cpp` with `_FOV_`)

`dpp_T[loc]` is an array of `p` directional derivatives.  The loops over the
directions are transcribed as loops (ascending `FOR_0_LE_l_LT_pk`/`FOR_0_LE_l_LT_p`,
descending `FOR_p_GT_l_GE_0`, uni5_for.cpp:421-422, 463-467); the pointers `Tres`,
`Targ` walked by `++`/`--` are written as `dT[loc][l]`.  This mode writes no value
stack (uni5_for.cpp:246-248).
-/
namespace Verif.AD
open Elem

variable {K : Type} [Scalar K]

/-- Variables of a fov sweep. `dT loc l` is `dpp_T[loc][l]`. -/
structure VS (K : Type) where
  T : Nat → K
  dT : Nat → Nat → K
  rc : Int
  ii : Nat
  y : List K
  dy : List (List K)

namespace VS
def set (r : Nat) (v : K) (s : VS K) : VS K := { s with T := upd s.T r v }
/-- `dpp_T[r][l] = v` -/
def setC (r l : Nat) (v : K) (s : VS K) : VS K :=
  { s with dT := fun a c => if a = r ∧ c = l then v else s.dT a c }
def dec (b : Bool) (n : Int) (s : VS K) : VS K := { s with rc := if b then mindec s.rc n else s.rc }
/-- `for (l = 0; l < p; l++)` -/
def up (p : Nat) (f : Nat → VS K → VS K) (s : VS K) : VS K :=
  (List.range p).foldl (fun s l => f l s) s
/-- `for (l = p-1; l >= 0; l--)` -/
def down (p : Nat) (f : Nat → VS K → VS K) (s : VS K) : VS K :=
  (List.range p).reverse.foldl (fun s l => f l s) s
end VS

def VS.init : VS K := ⟨fun _ => 0, fun _ _ => 0, 3, 0, [], []⟩

/-- One `case` of `fov_forward`; `V i l` is `argument[i][l]`. -/
def fovStep (c : Cfg K) (p : Nat) (V : Nat → Nat → K) (o : Base K) (s : VS K) :
    Except Stop (VS K) :=
  match o with
  -- 1313-1423
  | .cmp q a =>
    if q.holds (s.T a) then
      match q with
      | .eq => .ok { s with rc := 0 }
      | .le | .ge => .ok { s with rc := if s.T a = 0 then 0 else s.rc }
      | _ => .ok s
    else .error .branchSwitch
  -- 1438-1453
  | .assignA a r => .ok ((s.set r (s.T a)).up p fun l s => s.setC r l (s.dT a l))
  -- 1470-1487
  | .assignD r k => .ok ((s.set r k).up p fun l s => s.setC r l 0)
  -- 1504-1521
  | .assignP q r => .ok ((s.set r (c.par q)).up p fun l s => s.setC r l 0)
  -- 1534-1551
  | .assignD0 r => .ok ((s.set r 0).up p fun l s => s.setC r l 0)
  -- 1564-1581
  | .assignD1 r => .ok ((s.set r 1).up p fun l s => s.setC r l 0)
  -- 1595-1620
  | .assignInd r =>
    let s := s.set r (c.x s.ii)
    let s := s.up p fun l s => s.setC r l (V s.ii l)
    .ok { s with ii := s.ii + 1 }
  -- 1629-1663
  | .assignDep r =>
    .ok { s with y := s.y ++ [s.T r], dy := s.dy ++ [(List.range p).map (s.dT r)] }
  -- 1683
  | .eqPlusD r k => .ok (s.set r (s.T r + k))
  -- 1696-1717
  | .eqPlusA a r =>
    .ok ((s.set r (s.T r + s.T a)).up p fun l s => s.setC r l (s.dT r l + s.dT a l))
  -- 1735
  | .eqMinD r k => .ok (s.set r (s.T r - k))
  -- 1748-1769
  | .eqMinA a r =>
    .ok ((s.set r (s.T r - s.T a)).up p fun l s => s.setC r l (s.dT r l - s.dT a l))
  -- 1787-1796
  | .eqMultD r k => .ok ((s.set r (s.T r * k)).up p fun l s => s.setC r l (s.dT r l * k))
  -- 1832-1853
  | .eqMultA a r =>
    let s := s.down p fun l s => s.setC r l (s.T r * s.dT a l + s.dT r l * s.T a)
    .ok (s.set r (s.T r * s.T a))
  -- 1864
  | .incrA r => .ok (s.set r (s.T r + 1))
  -- 1875
  | .decrA r => .ok (s.set r (s.T r - 1))
  -- 1893-1914
  | .plusAA a b r =>
    .ok ((s.set r (s.T a + s.T b)).up p fun l s => s.setC r l (s.dT a l + s.dT b l))
  -- 1931-1948
  | .plusDA a r k => .ok ((s.set r (s.T a + k)).up p fun l s => s.setC r l (s.dT a l))
  -- 1963-1985
  | .minAA a b r =>
    .ok ((s.set r (s.T a - s.T b)).up p fun l s => s.setC r l (s.dT a l - s.dT b l))
  -- 2003-2022
  | .minDA a r k => .ok ((s.set r (k - s.T a)).up p fun l s => s.setC r l (- s.dT a l))
  -- 2063-2082
  | .multAA a b r =>
    let s := s.down p fun l s => s.setC r l (s.T a * s.dT b l + s.dT a l * s.T b)
    .ok (s.set r (s.T a * s.T b))
  -- 2130-2148
  | .eqPlusProd a b r =>
    let s := s.down p fun l s => s.setC r l (s.dT r l + (s.T a * s.dT b l + s.dT a l * s.T b))
    .ok (s.set r (s.T r + s.T a * s.T b))
  -- 2196-2215
  | .eqMinProd a b r =>
    let s := s.down p fun l s => s.setC r l (s.dT r l - (s.T a * s.dT b l + s.dT a l * s.T b))
    .ok (s.set r (s.T r - s.T a * s.T b))
  -- 2232-2250
  | .multDA a r k => .ok ((s.set r (s.T a * k)).up p fun l s => s.setC r l (s.dT a l * k))
  -- 2267-2307
  | .divAA a b r =>
    let divs := 1 / s.T b
    let s := s.set r (s.T a / s.T b)
    .ok (s.up p fun l s => s.setC r l (s.dT a l * divs + s.T r * (- s.dT b l * divs)))
  -- 2335-2371
  | .divDA a r k =>
    let divs := 1 / s.T a
    let s := s.set r (k / s.T a)
    .ok (s.up p fun l s => s.setC r l (s.T r * (- s.dT a l * divs)))
  -- 2398-2413
  | .posSign a r => .ok ((s.set r (s.T a)).up p fun l s => s.setC r l (s.dT a l))
  -- 2426-2444
  | .negSign a r => .ok ((s.set r (- s.T a)).up p fun l s => s.setC r l (- s.dT a l))
  -- 2462-2495
  | .expOp a r => .ok ((s.set r (exp (s.T a))).up p fun l s => s.setC r l (s.T r * s.dT a l))
  -- 2523-2563
  | .sinOp a b r =>
    let s := s.set b (cos (s.T a))
    let s := s.set r (sin (s.T a))
    .ok (s.up p fun l s =>
      let s := s.setC b l (- s.T r * s.dT a l)
      s.setC r l (s.T b * s.dT a l))
  -- 2595-2636
  | .cosOp a b r =>
    let s := s.set b (sin (s.T a))
    let s := s.set r (cos (s.T a))
    .ok (s.up p fun l s =>
      let s := s.setC b l (s.T r * s.dT a l)
      s.setC r l (- s.T b * s.dT a l))
  -- 2658-3285
  | .quad q a b r =>
    let s := s.set r (q.fn (s.T a))
    .ok (s.up p fun l s => s.setC r l (quadTangent q (s.T a) (s.dT a l) (s.T b)))
  -- 3317-3348: `divs` is set once before the loop and, once overwritten by nan, keeps
  -- that value for the following directions
  | .logOp a r =>
    let divs := 1 / s.T a
    let ps := (List.range p).foldl (fun (ps : K × VS K) l =>
      let divs := if ps.2.T a = 0 ∧ ps.2.dT a l < 0 then nan else ps.1
      (divs, ps.2.setC r l (ps.2.dT a l * divs))) (divs, s)
    let s := ps.2
    .ok (s.set r (log (s.T a)))
  -- 3369-3487
  | .powOp a r k =>
    let T0arg := s.T a
    let s := s.set r (pow (s.T a) k)
    if T0arg = 0 then
      if k - (if k ≠ 0 then 1 else 0) ≠ 0 ∨ k = 1 ∨ k ≤ 0 then
        .ok (s.up p fun l s => s.setC r l (powZeroTangent k (s.dT a l) (s.dT r l)))
      else
        .ok (s.down p fun l s => s.setC r l (powZeroTangent k (s.dT a l) (s.dT r l)))
    else
      let r0 := 1 / T0arg
      .ok (s.up p fun l s => s.setC r l (s.T r * s.dT a l * k * r0))
  -- 3501-3569
  | .sqrtOp a r =>
    let s := s.set r (sqrt (s.T a))
    .ok (s.up p fun l s =>
      let r0 := if s.T a = 0 then rootZero (s.dT a l) else 1 / 2 / s.T r
      s.setC r l (r0 * s.dT a l))
  -- 3583-3640
  | .cbrtOp a r =>
    let s := s.set r (cbrt (s.T a))
    .ok (s.up p fun l s =>
      let r0 := if s.T a = 0 then rootZero (s.dT a l) else 1 / (3 * s.T r * s.T r)
      s.setC r l (r0 * s.dT a l))
  -- 3653-3707
  | .genQuad a b r old k =>
    if old ≠ s.T a then .error .quadChanged
    else
      let s := s.set r k
      .ok (s.up p fun l s => s.setC r l (s.T b * s.dT a l))
  -- 3729-3867
  | .minOp a b r k =>
    let s :=
      if s.T a > s.T b then s.dec (k ≠ 0) 2
      else if s.T a < s.T b then s.dec (k = 0) 2
      else s.dec (a ≠ b) 1
    let s := s.up p fun l s => s.setC r l
      (if s.T a > s.T b then s.dT b l
       else if s.T a < s.T b then s.dT a l
       else if s.dT a l > s.dT b l then s.dT b l
       else s.dT a l)
    .ok (s.set r (if s.T a > s.T b then s.T b else s.T a))
  -- 3886-3988
  | .absVal a r k =>
    let s :=
      if s.T a < 0 then s.dec (k ≠ 0) 2
      else if s.T a > 0 then s.dec (k = 0) 2
      else s
    let s := s.up p fun l s =>
      let x : K := if s.T a = 0 then 0 else if s.T a < 0 then -1 else 1
      let s := s.dec (x = 0 ∧ s.dT a l ≠ 0) 1
      let x : K := if x = 0 ∧ s.dT a l ≠ 0 then (if s.dT a l < 0 then -1 else 1) else x
      s.setC r l (x * s.dT a l)
    .ok (s.set r (fabs (s.T a)))
  -- 4007-4028
  | .ceilOp a r k =>
    let s := s.set r (ceil (s.T a))
    let s := s.dec (k ≠ s.T r) 2
    .ok (s.up p fun l s => s.setC r l 0)
  -- 4045-4066
  | .floorOp a r k =>
    let s := s.set r (floor (s.T a))
    let s := s.dec (k ≠ s.T r) 2
    .ok (s.up p fun l s => s.setC r l 0)
  -- 4166-4182
  | .condAssign a a1 a2 r k =>
    let s := if s.T a > 0 then s.up p fun l s => s.setC r l (s.dT a1 l)
      else s.up p fun l s => s.setC r l (s.dT a2 l)
    if s.T a > 0 then
      let s := s.dec (k ≤ 0) 2
      .ok (s.set r (s.T a1))
    else
      let s := s.dec (k > 0) 2
      let s := s.dec (s.T a = 0) 0
      .ok (s.set r (s.T a2))
  -- 4271-4285
  | .condEqAssign a a1 a2 r k =>
    let s := if s.T a ≥ 0 then s.up p fun l s => s.setC r l (s.dT a1 l)
      else s.up p fun l s => s.setC r l (s.dT a2 l)
    if s.T a ≥ 0 then
      let s := s.dec (k < 0) 2
      .ok (s.set r (s.T a1))
    else
      let s := s.dec (k ≥ 0) 2
      .ok (s.set r (s.T a2))
  -- 4339-4347
  | .condAssignS a a1 r k =>
    let s := if s.T a > 0 then s.up p fun l s => s.setC r l (s.dT a1 l) else s
    if s.T a > 0 then
      let s := s.dec (k ≤ 0) 2
      .ok (s.set r (s.T a1))
    else .ok (s.dec (s.T a = 0) 0)
  -- 4399-4406
  | .condEqAssignS a a1 r k =>
    let s := if s.T a ≥ 0 then s.up p fun l s => s.setC r l (s.dT a1 l) else s
    if s.T a ≥ 0 then
      let s := s.dec (k < 0) 2
      .ok (s.set r (s.T a1))
    else .ok s
  -- 4555
  | .setRef r k => .ok (s.set r k)
  -- 4967-4988
  | .vecCopy a n r =>
    .ok ((List.range n).foldl (fun s q =>
      let s := s.set (r + q) (s.T (a + q))
      s.up p fun l s => s.setC (r + q) l (s.dT (a + q) l)) s)
  -- 4999-5077
  | .vecDot a b n r =>
    let s := s.set r 0
    let s := s.up p fun l s => s.setC r l 0
    .ok ((List.range n).foldl (fun s q =>
      let s := s.down p fun l s => s.setC r l
        (s.dT r l + (s.T (a + q) * s.dT (b + q) l + s.dT (a + q) l * s.T (b + q)))
      s.set r (s.T r + s.T (a + q) * s.T (b + q))) s)
  -- 5087-5146
  | .vecAxpy a a1 a2 n r =>
    .ok ((List.range n).foldl (fun s q =>
      let s := s.down p fun l s => s.setC (r + q) l
        (s.T a * s.dT (a1 + q) l + s.dT a l * s.T (a1 + q) + s.dT (a2 + q) l)
      s.set (r + q) (s.T a * s.T (a1 + q) + s.T (a2 + q))) s)
  -- 5476-5492
  | .takeStock r vs =>
    .ok ((vs.foldl (fun (ps : Nat × VS K) k =>
      (ps.1 + 1, (ps.2.set ps.1 k).up p fun l s => s.setC ps.1 l 0)) (r, s)).2)
  -- 5496-5507 (no keep in this mode)
  | .deathNot _ _ => .ok s

/-- The `fov_forward` loop over a trace. -/
def fovRun (c : Cfg K) (p : Nat) (V : Nat → Nat → K) : List (Base K) → VS K → Except Stop (VS K)
  | [], s => .ok s
  | o :: os, s =>
    match fovStep c p V o s with
    | .error e => .error e
    | .ok s' => fovRun c p V os s'

end Verif.AD
