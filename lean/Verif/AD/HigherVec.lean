import Verif.AD.HigherOrder

/-!
# `hov_forward` and `hov_wk_forward` (`uni5_for.cpp` with `_HOV_`; with `_HOV_WK_`, `_KEEP_`)

`dpp_T[loc]` is an array of `p * k` coefficients, `k` for each of `p` directions.  The text of the cases is that
of `hos_forward` with `FOR_0_LE_l_LT_p`/`FOR_p_GT_l_GE_0` expanding to a loop over the directions
(uni5_for.cpp:421-422) and `FOR_0_LE_l_LT_pk` to a loop over all coefficients (452-460), here written as a
loop over the directions and one over the coefficients.  `dp_z` (one array of length `k`), `ret_c` and the
variables `divs`, `r0` of a case are shared by the directions.
-/
set_option linter.all false
namespace Verif.AD
open Elem

variable {K : Type} [Scalar K]

/-- Arguments: `X i l j` is `argument[i][l][j]` (uni5_for.cpp:122, 133).  `keep` is 0 for `hov_forward`, which
has no such argument. -/
structure HVCfg (K : Type) where
  x : Nat → K
  X : Nat → Nat → Nat → K
  par : Nat → K
  k : Nat
  p : Nat
  keep : Nat

/-- Variables of the sweep; `D loc l i` is `dpp_T[loc][l * k + i]`.  A row of the value stack is a value and
the coefficients of every direction; `y` has for every dependent its value and `taylors[indexd][l][i]`. -/
structure HVS (K : Type) where
  T : Nat → K
  D : Nat → Nat → Nat → K
  z : Nat → K
  stk : List (K × (Nat → Nat → K))
  rc : Int
  ii : Nat
  y : List (K × (Nat → Nat → K))

namespace HVS
/-- `IF_KEEP_WRITE_TAYLOR`: uni5_for.cpp:234-243 (`write_scaylor`, then `write_taylors` writes `keep - 1`
coefficients of every direction); nothing in `hov_forward` (246-248). -/
def push (c : HVCfg K) (r : Nat) (s : HVS K) : HVS K :=
  { s with stk := if 0 < c.keep then (s.T r, fun l n => if n + 1 < c.keep then s.D r l n else 0) :: s.stk else s.stk }
def set (r : Nat) (v : K) (s : HVS K) : HVS K := { s with T := upd s.T r v }
def dec (b : Bool) (n : Int) (s : HVS K) : HVS K := { s with rc := if b then mindec s.rc n else s.rc }

/-- The variables as seen by the loops over the coefficients of direction `l`. -/
def view (l : Nat) (s : HVS K) : HS K := ⟨s.T, fun a i => s.D a l i, s.z, [], s.rc, s.ii, []⟩
/-- The loops over the coefficients of direction `l` (the pointers `Tres`, `Targ`, … are at offset `l * k`). -/
def onCol (l : Nat) (f : HS K → HS K) (s : HVS K) : HVS K :=
  let h := f (s.view l)
  { s with D := fun a l' i => if l' = l then h.D a i else s.D a l' i, z := h.z, rc := h.rc }
/-- `FOR_0_LE_l_LT_p` -/
def cols (p : Nat) (f : Nat → HS K → HS K) (s : HVS K) : HVS K := forUp p (fun l s => s.onCol l (f l)) s
/-- `FOR_p_GT_l_GE_0` -/
def colsDown (p : Nat) (f : Nat → HS K → HS K) (s : HVS K) : HVS K := forDown p (fun l s => s.onCol l (f l)) s
end HVS

/-- `dp_T0`, `dpp_T`, `dp_z` are zero-initialised (uni5_for.cpp:1130, 1229-1232). -/
def HVS.init : HVS K := ⟨fun _ => 0, fun _ _ _ => 0, fun _ => 0, [], 3, 0, []⟩
def HVS.start (T0 : Nat → K) : HVS K := ⟨T0, fun _ _ _ => 0, fun _ => 0, [], 3, 0, []⟩

/-- `FOR_k_GT_i_GE_0 { *Tres (=, +=) …; for j < i: *Tres += (*Targ1OP++) * (*Targ2OP--); }`: the loops of
`eq_mult_a` (1837-1848), `mult_a_a` (2067-2078), `eq_plus_prod` (2132-2143), `vec_dot` (5058-5070), `vec_axpy`
(5126-5139). -/
def prodBody (k a b r : Nat) (init : Nat → HS K → K) (h : HS K) : HS K :=
  forDown k (fun i s =>
    let s := s.setC r i (init i s)
    forUp i (fun j s => s.setC r i (s.D r i + s.D a j * s.D b (i - 1 - j))) s) h

/-- The same with `-=`: `eq_min_prod` (2198-2209). -/
def prodBodySub (k a b r : Nat) (init : Nat → HS K → K) (h : HS K) : HS K :=
  forDown k (fun i s =>
    let s := s.setC r i (init i s)
    forUp i (fun j s => s.setC r i (s.D r i - s.D a j * s.D b (i - 1 - j))) s) h

/-- 2301-2316, 2365-2380: `num i s` is the part of the numerator. -/
def divBody (k b r : Nat) (divs : K) (init : Nat → HS K → K) (h : HS K) : HS K :=
  forUp k (fun i s =>
    let s := s.setZ i (- s.D b i * divs)
    let s := s.setC r i (init i s)
    forUp i (fun j s => s.setC r i (s.D r i + s.D r j * s.z (i - 1 - j))) s) h

/-- 2489-2505 -/
def expBody (k a r : Nat) (h : HS K) : HS K :=
  forUp k (fun i s =>
    let s := s.setZ i (((i : K) + 1) * s.D a i)
    let s := s.setC r i (s.T r * s.D a i)
    let s := s.setC r i (s.D r i * ((i : K) + 1))
    let s := forUp i (fun j s => s.setC r i (s.D r i + s.D r j * s.z (i - 1 - j))) s
    s.setC r i (s.D r i / ((i : K) + 1))) h

/-- 2555-2578 -/
def sinBody (k a b r : Nat) (h : HS K) : HS K :=
  forUp k (fun i s =>
    let s := s.setZ i (((i : K) + 1) * s.D a i)
    let s := s.setC b i (- s.T r * s.D a i)
    let s := s.setC r i (s.T b * s.D a i)
    let s := s.setC r i (s.D r i * ((i : K) + 1))
    let s := s.setC b i (s.D b i * ((i : K) + 1))
    let s := forUp i (fun j s =>
      let s := s.setC r i (s.D r i + s.D b j * s.z (i - 1 - j))
      s.setC b i (s.D b i - s.D r j * s.z (i - 1 - j))) s
    let s := s.setC b i (s.D b i / ((i : K) + 1))
    s.setC r i (s.D r i / ((i : K) + 1))) h

/-- 2628-2651 -/
def cosBody (k a b r : Nat) (h : HS K) : HS K :=
  forUp k (fun i s =>
    let s := s.setZ i (((i : K) + 1) * s.D a i)
    let s := s.setC b i (s.T r * s.D a i)
    let s := s.setC r i (- s.T b * s.D a i)
    let s := s.setC r i (s.D r i * ((i : K) + 1))
    let s := s.setC b i (s.D b i * ((i : K) + 1))
    let s := forUp i (fun j s =>
      let s := s.setC r i (s.D r i - s.D b j * s.z (i - 1 - j))
      s.setC b i (s.D b i + s.D r j * s.z (i - 1 - j))) s
    let s := s.setC b i (s.D b i / ((i : K) + 1))
    s.setC r i (s.D r i / ((i : K) + 1))) h

/-- 3330-3342 -/
def logBody (k a r : Nat) (divs : K) (h : HS K) : HS K :=
  forUp k (fun i s =>
    let s := s.setC r i (s.D a i * divs)
    let s := s.setZ i (s.D r i)
    let s := s.setC r i (s.D r i * ((i : K) + 1))
    let s := forUp i (fun j s => s.setC r i (s.D r i - s.z (i - 1 - j) * s.D r j * ((j : K) + 1))) s
    s.setC r i (s.D r i / ((i : K) + 1))) h

/-- 3466-3486 -/
def powBody (k a r : Nat) (v r0 : K) (h : HS K) : HS K :=
  forUp k (fun i s =>
    let s := s.setZ i (s.D a i * r0)
    let s := s.setC r i (s.T r * s.D a i * v * r0)
    let s := s.setC r i (s.D r i * ((i : K) + 1))
    let s := (forUp i (fun j (p : HS K × K) =>
      (p.1.setC r i (p.1.D r i + p.1.D r j * p.1.z (i - 1 - j) * p.2), p.2 - (v + 1)))
      (s, v * i - 1)).1
    s.setC r i (s.D r i / ((i : K) + 1))) h

/-- 3528-3568 -/
def sqrtBody (k a r : Nat) (h : HS K) : HS K :=
  let r0 := if h.T a = 0 then edgeVal k (h.D a) inf nan else 1 / 2 / h.T r
  forUp k (fun i s =>
    let s := s.setC r i (r0 * s.D a i)
    let x := forUp (i / 2) (fun j x => x + s.D r j * s.D r (i - 1 - j)) 0
    let x := x * 2
    let x := if i % 2 = 1 then x + s.D r (i / 2) * s.D r (i - 1 - i / 2) else x
    s.setC r i (s.D r i - r0 * x)) h

/-- 3832-3857: chooses the row of the smaller argument for this direction and copies it. -/
def minBody (k a b r : Nat) (h : HS K) : HS K :=
  let t :=
    if h.T a > h.T b then b
    else if h.T a < h.T b then a
    else match (List.range k).find? (fun i => h.D a i ≠ h.D b i) with
      | some i => if h.D a i > h.D b i then b else a
      | none => a
  copyRow k t r h

/-- 3971-3981 -/
def absBody (k a r : Nat) (h : HS K) : HS K :=
  let x : K := if h.T a = 0 then 0 else if h.T a < 0 then -1 else 1
  (forUp k (fun i (p : HS K × K) =>
    let b := p.2 = 0 ∧ p.1.D a i ≠ 0
    let x := if b then (if p.1.D a i < 0 then -1 else 1) else p.2
    let s := p.1.dec b 1
    (s.setC r i (x * s.D a i), x)) (h, x)).1

/-- `dpp_T[r][q] = v` for the flat index `q`. -/
def HVS.setFlat (k r q : Nat) (v : K) (s : HVS K) : HVS K :=
  { s with D := fun a l i => if a = r ∧ l = q / k ∧ i = q % k then v else s.D a l i }

/-- `pow` at base zero, exponent `> 0` and `≠ 1` (3405-3414): one pointer `Tres` for all directions, which only
advances in the branches that write. -/
def powZeroCols (p k r : Nat) (v : K) (s : HVS K) : HVS K :=
  (forUp p (fun _ ps => forUp k (fun i (ps : HVS K × Nat) =>
    let ps := if v - i > 1 then (ps.1.setFlat k r ps.2 0, ps.2 + 1) else ps
    let ps := if v - i < 1 ∧ v - i > 0 then (ps.1.setFlat k r ps.2 inf, ps.2 + 1) else ps
    if v - i < 0 then (ps.1.setFlat k r ps.2 nan, ps.2 + 1) else ps) ps) (s, 0)).1

/-- One `case` of the switch in `hov_forward`/`hov_wk_forward`. -/
def hovStep (c : HVCfg K) (o : Base K) (s : HVS K) : Except HStop (HVS K) :=
  match o with
  -- 1313-1423
  | .cmp q a =>
    if q.holds (s.T a) then
      match q with
      | .eq => .ok { s with rc := 0 }
      | .le | .ge => .ok { s with rc := if s.T a = 0 then 0 else s.rc }
      | _ => .ok s
    else .error (.fwd .branchSwitch)
  -- 1430-1456
  | .assignA a r => let s := s.push c r; let s := s.set r (s.T a); .ok (s.cols c.p fun _ => copyRow c.k a r)
  -- 1459-1490
  | .assignD r v => let s := s.push c r; let s := s.set r v; .ok (s.cols c.p fun _ => fillRow c.k r 0)
  -- 1493-1524
  | .assignP q r => let s := s.push c r; let s := s.set r (c.par q); .ok (s.cols c.p fun _ => fillRow c.k r 0)
  -- 1527-1554
  | .assignD0 r => let s := s.push c r; let s := s.set r 0; .ok (s.cols c.p fun _ => fillRow c.k r 0)
  -- 1557-1585
  | .assignD1 r => let s := s.push c r; let s := s.set r 1; .ok (s.cols c.p fun _ => fillRow c.k r 0)
  -- 1588-1621
  | .assignInd r =>
    let s := s.push c r
    let s := s.set r (c.x s.ii)
    let s := s.cols c.p fun l => forUp c.k fun i s => s.setC r i (c.X s.ii l i)
    .ok { s with ii := s.ii + 1 }
  -- 1624-1665
  | .assignDep r => .ok { s with y := s.y ++ [(s.T r, s.D r)] }
  -- 1672-1685
  | .eqPlusD r v => let s := s.push c r; .ok (s.set r (s.T r + v))
  -- 1688-1721
  | .eqPlusA a r =>
    let s := s.push c r
    let s := s.set r (s.T r + s.T a)
    .ok (s.cols c.p fun _ => forUp c.k fun i s => s.setC r i (s.D r i + s.D a i))
  -- 1724-1737
  | .eqMinD r v => let s := s.push c r; .ok (s.set r (s.T r - v))
  -- 1740-1773
  | .eqMinA a r =>
    let s := s.push c r
    let s := s.set r (s.T r - s.T a)
    .ok (s.cols c.p fun _ => forUp c.k fun i s => s.setC r i (s.D r i - s.D a i))
  -- 1776-1800
  | .eqMultD r v =>
    let s := s.push c r
    let s := s.set r (s.T r * v)
    .ok (s.cols c.p fun _ => forUp c.k fun i s => s.setC r i (s.D r i * v))
  -- 1803-1855
  | .eqMultA a r =>
    let s := s.push c r
    let s := s.colsDown c.p fun _ => prodBody c.k r a r fun i s => s.T r * s.D a i + s.D r i * s.T a
    .ok (s.set r (s.T r * s.T a))
  -- 1858-1866
  | .incrA r => let s := s.push c r; .ok (s.set r (s.T r + 1))
  -- 1869-1877
  | .decrA r => let s := s.push c r; .ok (s.set r (s.T r - 1))
  -- 1884-1918
  | .plusAA a b r =>
    let s := s.push c r
    let s := s.set r (s.T a + s.T b)
    .ok (s.cols c.p fun _ => forUp c.k fun i s => s.setC r i (s.D a i + s.D b i))
  -- 1921-1951
  | .plusDA a r v => let s := s.push c r; let s := s.set r (s.T a + v); .ok (s.cols c.p fun _ => copyRow c.k a r)
  -- 1954-1989
  | .minAA a b r =>
    let s := s.push c r
    let s := s.set r (s.T a - s.T b)
    .ok (s.cols c.p fun _ => forUp c.k fun i s => s.setC r i (s.D a i - s.D b i))
  -- 1992-2026
  | .minDA a r v =>
    let s := s.push c r
    let s := s.set r (v - s.T a)
    .ok (s.cols c.p fun _ => forUp c.k fun i s => s.setC r i (- s.D a i))
  -- 2029-2084
  | .multAA a b r =>
    let s := s.push c r
    let s := s.colsDown c.p fun _ => prodBody c.k a b r fun i s => s.T a * s.D b i + s.D a i * s.T b
    .ok (s.set r (s.T a * s.T b))
  -- 2088-2150
  | .eqPlusProd a b r =>
    let s := s.colsDown c.p fun _ => prodBody c.k a b r fun i s => s.D r i + (s.T a * s.D b i + s.D a i * s.T b)
    .ok (s.set r (s.T r + s.T a * s.T b))
  -- 2154-2217
  | .eqMinProd a b r =>
    let s := s.colsDown c.p fun _ => prodBodySub c.k a b r fun i s => s.D r i - (s.T a * s.D b i + s.D a i * s.T b)
    .ok (s.set r (s.T r - s.T a * s.T b))
  -- 2220-2254
  | .multDA a r v =>
    let s := s.push c r
    let s := s.set r (s.T a * v)
    .ok (s.cols c.p fun _ => forUp c.k fun i s => s.setC r i (s.D a i * v))
  -- 2257-2320
  | .divAA a b r =>
    let s := s.push c r
    let divs := 1 / s.T b
    let s := s.set r (s.T a / s.T b)
    .ok (s.cols c.p fun _ => divBody c.k b r divs fun i s => s.D a i * divs + s.T r * (- s.D b i * divs))
  -- 2323-2384
  | .divDA a r v =>
    let s := s.push c r
    let divs := 1 / s.T a
    let s := s.set r (v / s.T a)
    .ok (s.cols c.p fun _ => divBody c.k a r divs fun i s => s.T r * (- s.D a i * divs))
  -- 2391-2416
  | .posSign a r => let s := s.push c r; let s := s.set r (s.T a); .ok (s.cols c.p fun _ => copyRow c.k a r)
  -- 2419-2448
  | .negSign a r =>
    let s := s.push c r
    let s := s.set r (- s.T a)
    .ok (s.cols c.p fun _ => forUp c.k fun i s => s.setC r i (- s.D a i))
  -- 2455-2510
  | .expOp a r => let s := s.push c r; let s := s.set r (exp (s.T a)); .ok (s.cols c.p fun _ => expBody c.k a r)
  -- 2513-2582
  | .sinOp a b r =>
    let s := (s.push c b).push c r
    let s := s.set b (cos (s.T a))
    let s := s.set r (sin (s.T a))
    .ok (s.cols c.p fun _ => sinBody c.k a b r)
  -- 2585-2655
  | .cosOp a b r =>
    let s := (s.push c b).push c r
    let s := s.set b (sin (s.T a))
    let s := s.set r (cos (s.T a))
    .ok (s.cols c.p fun _ => cosBody c.k a b r)
  -- 2658-3285
  | .quad q a b r => let s := s.push c r; let s := s.set r (q.fn (s.T a)); .ok (s.cols c.p fun _ => quadHO q c.k a b r)
  -- 3288-3351: `divs` is set once before the loop and, once overwritten by nan, keeps that value for the
  -- following directions
  | .logOp a r =>
    let s := s.push c r
    let ps := forUp c.p (fun l (ps : K × HVS K) =>
      let divs := if ps.2.T a = 0 ∧ ∃ i ∈ List.range c.k, ps.2.D a l i < 0 then nan else ps.1
      (divs, ps.2.onCol l (logBody c.k a r divs))) (1 / s.T a, s)
    let s := ps.2
    .ok (s.set r (log (s.T a)))
  -- 3354-3491
  | .powOp a r v =>
    let s := s.push c r
    let T0arg := s.T a
    let s := s.set r (pow (s.T a) v)
    if T0arg = 0 then
      if v ≤ 0 then .ok (s.cols c.p fun _ => fillRow c.k r nan)
      else if v - 1 ≠ 0 then .ok (powZeroCols c.p c.k r v s)
      else .ok (s.cols c.p fun _ => copyRow c.k a r)
    else .ok (s.cols c.p fun _ => powBody c.k a r v (1 / T0arg))
  -- 3494-3573
  | .sqrtOp a r => let s := s.push c r; let s := s.set r (sqrt (s.T a)); .ok (s.cols c.p fun _ => sqrtBody c.k a r)
  -- 3576-3644: fails in the first pass of the loops (`p, k ≥ 1`)
  | .cbrtOp _ _ => .error .notImplemented
  -- 3647-3711
  | .genQuad a b r old v =>
    if old ≠ s.T a then .error (.fwd .quadChanged)
    else
      let s := s.push c r
      let s := s.set r v
      .ok (s.cols c.p fun _ => quadLoop c.k a b r)
  -- 3714-3869
  | .minOp a b r v =>
    let s := s.push c r
    let s :=
      if s.T a > s.T b then s.dec (v ≠ 0) 2
      else if s.T a < s.T b then s.dec (v = 0) 2
      else s.dec (a ≠ b) 1
    let s := s.cols c.p fun _ => minBody c.k a b r
    .ok (s.set r (if s.T a > s.T b then s.T b else s.T a))
  -- 3872-3993
  | .absVal a r v =>
    let s := s.push c r
    let s :=
      if s.T a < 0 then s.dec (v ≠ 0) 2
      else if s.T a > 0 then s.dec (v = 0) 2
      else s
    let s := s.cols c.p fun _ => absBody c.k a r
    .ok (s.set r (fabs (s.T a)))
  -- 3996-4031
  | .ceilOp a r v =>
    let s := s.push c r
    let s := s.set r (ceil (s.T a))
    let s := s.dec (v ≠ s.T r) 2
    .ok (s.cols c.p fun _ => fillRow c.k r 0)
  -- 4034-4069
  | .floorOp a r v =>
    let s := s.push c r
    let s := s.set r (floor (s.T a))
    let s := s.dec (v ≠ s.T r) 2
    .ok (s.cols c.p fun _ => fillRow c.k r 0)
  -- 4076-4185
  | .condAssign a a1 a2 r v =>
    let s := s.push c r
    let s := if s.T a > 0 then s.cols c.p fun _ => copyRow c.k a1 r else s.cols c.p fun _ => copyRow c.k a2 r
    if s.T a > 0 then
      let s := s.dec (v ≤ 0) 2
      .ok (s.set r (s.T a1))
    else
      let s := s.dec (v > 0) 2
      let s := s.dec (s.T a = 0) 0
      .ok (s.set r (s.T a2))
  -- 4187-4288
  | .condEqAssign a a1 a2 r v =>
    let s := s.push c r
    let s := if s.T a ≥ 0 then s.cols c.p fun _ => copyRow c.k a1 r else s.cols c.p fun _ => copyRow c.k a2 r
    if s.T a ≥ 0 then
      let s := s.dec (v < 0) 2
      .ok (s.set r (s.T a1))
    else
      let s := s.dec (v ≥ 0) 2
      .ok (s.set r (s.T a2))
  -- 4291-4350
  | .condAssignS a a1 r v =>
    let s := s.push c r
    let s := if s.T a > 0 then s.cols c.p fun _ => copyRow c.k a1 r else s
    if s.T a > 0 then
      let s := s.dec (v ≤ 0) 2
      .ok (s.set r (s.T a1))
    else .ok (s.dec (s.T a = 0) 0)
  -- 4352-4409
  | .condEqAssignS a a1 r v =>
    let s := s.push c r
    let s := if s.T a ≥ 0 then s.cols c.p fun _ => copyRow c.k a1 r else s
    if s.T a ≥ 0 then
      let s := s.dec (v < 0) 2
      .ok (s.set r (s.T a1))
    else .ok s
  -- 4534-4561
  | .setRef r v => let s := s.push c r; .ok (s.set r v)
  -- 4962-4990
  | .vecCopy a n r =>
    .ok (forUp n (fun q s =>
      let s := s.push c (r + q)
      let s := s.set (r + q) (s.T (a + q))
      s.cols c.p fun _ => copyRow c.k (a + q) (r + q)) s)
  -- 4992-5078
  | .vecDot a b n r =>
    let s := s.push c r
    let s := s.set r 0
    let s := s.cols c.p fun _ => fillRow c.k r 0
    .ok (forUp n (fun q s =>
      let s := s.colsDown c.p fun _ => prodBody c.k (a + q) (b + q) r fun i s =>
        s.D r i + (s.T (a + q) * s.D (b + q) i + s.D (a + q) i * s.T (b + q))
      s.set r (s.T r + s.T (a + q) * s.T (b + q))) s)
  -- 5080-5147
  | .vecAxpy a a1 a2 n r =>
    .ok (forUp n (fun q s =>
      let s := s.push c (r + q)
      let s := s.colsDown c.p fun _ => prodBody c.k a (a1 + q) (r + q) fun i s =>
        s.T a * s.D (a1 + q) i + s.D a i * s.T (a1 + q) + s.D (a2 + q) i
      s.set (r + q) (s.T a * s.T (a1 + q) + s.T (a2 + q))) s)
  -- 5468-5493
  | .takeStock r vs =>
    .ok ((vs.foldl (fun (q : Nat × HVS K) v =>
      (q.1 + 1, (q.2.set q.1 v).cols c.p fun _ => fillRow c.k q.1 0)) (r, s)).2)
  -- 5496-5507
  | .deathNot a b =>
    .ok (forUp (b - a + 1) (fun q s => s.push c (b - q)) s)

/-- The loop over a trace (1279-5820). -/
def hovRun (c : HVCfg K) : List (Base K) → HVS K → Except HStop (HVS K)
  | [], s => .ok s
  | o :: os, s =>
    match hovStep c o s with
    | .error e => .error e
    | .ok s' => hovRun c os s'

end Verif.AD
