import Verif.AD.HoRev

/-!
# `hov_reverse`/`hov_ti_reverse` and `hos_ov_reverse` (`ho_rev.cpp` with `_HOV_`, with `_HOS_OV_`)

`hov_ti_reverse` propagates `p` weight vectors along one Taylor polynomial: row `l` of `rpp_A[loc]` has `k + 1`
entries, there is one row `rpp_T[loc]` of `k` entries.  `hos_ov_reverse` propagates one weight vector along `p`
Taylor polynomials: `rpp_T[loc]` has `p * k` entries.  The text of the cases is that of `hos_ti_reverse` in a loop
over `l`; the pointers into `rpp_A` advance by `k + 1` in every pass (`HOV_INC`), the pointers into `rpp_T` by `k` in
`hos_ov_reverse` only (`HOS_OV_INC`), and only in passes with a nonzero flag.  The scratch vectors are shared by
the passes.  The return code is not modelled.
-/
set_option linter.all false
namespace Verif.AD
open Elem

variable {K : Type} [Scalar K]

/-- Arguments of the sweep.  `ov`: `hos_ov_reverse`; `k = degre + 1`; `p = nrows`; `L l j i` is `lagrange[l][j][i]`
(`lagrange[j][i]` for every `l` in `hos_ov_reverse`, 85). -/
structure RVCfg (K : Type) where
  ov : Bool
  k : Nat
  p : Nat
  L : Nat → Nat → Nat → K

/-- `HOS_OV_INC(T, k)`: by how many polynomials the pointers into `rpp_T` advance (71, 91, 113). -/
def RVCfg.adv (c : RVCfg K) : Nat := if c.ov then 1 else 0
/-- Number of polynomials per location: 437, 444. -/
def RVCfg.pT (c : RVCfg K) : Nat := if c.ov then c.p else 1

/-- Variables: `M (.T r) d i` is `rpp_T[r][d * k + i]`, `M (.A r) l i` is `rpp_A[r][l * (k + 1) + 1 + i]`, `M .tt2 d i` is
`rp_Ttemp2[d * k + i]`, the other scratch rows have plane 0 only; `fl r l` is `rpp_A[r][l * (k + 1)]`; a row of the value stack has
a polynomial for every direction; `Z l j i` is `results[l][j][i]`, `nz l j` is `nonzero[l][j]`. -/
structure RVS (K : Type) where
  M : Row → Nat → Nat → K
  fl : Nat → Nat → K
  stk : List (Nat → Nat → K)
  ii : Nat
  di : Nat
  Z : Nat → Nat → Nat → K
  nz : Nat → Nat → K

/-- What pass `l` of a loop sees of a row when the pointers into `rpp_T` are at polynomial `t`. -/
def plane (l t : Nat) : Row → Nat
  | .T _ => t
  | .A _ => l
  | .tt2 => t
  | _ => 0

/-- Effect of a pass on flags and rows. -/
abbrev RBody (K : Type) := (Nat → K) → (Row → Nat → K) → (Nat → K) × (Row → Nat → K)

namespace RVS
def view (V : RVS K) (l t : Nat) : Row → Nat → K := fun q i => V.M q (plane l t q) i
/-- Pass `l`, polynomial `t`. -/
def onRow (l t : Nat) (b : RBody K) (V : RVS K) : RVS K :=
  let h := b (fun r => V.fl r l) (V.view l t)
  { V with M := fun q d i => if d = plane l t q then h.2 q i else V.M q d i,
           fl := fun r d => if d = l then h.1 r else V.fl r d }
/-- `for (l = 0; l < p; l++) if (0 == *Ares) { HOV_INC … } else { …; HOS_OV_INC … }` -/
def rows (c : RVCfg K) (r : Nat) (b : RBody K) (V : RVS K) : RVS K :=
  (forUp c.p (fun l (vt : RVS K × Nat) =>
    if vt.1.fl r l = 0 then vt else (vt.1.onRow l vt.2 b, vt.2 + c.adv)) (V, 0)).1
/-- `GET_TAYL`: 73-77, 107-111 (`get_taylors`), 94-98 (`get_taylors_p`) -/
def pop (c : RVCfg K) (r : Nat) (V : RVS K) : Except HRStop (RVS K) :=
  match V.stk with
  | [] => .error .stackEmpty
  | x :: st => .ok { V with M := fun q d i => if q = .T r ∧ d < c.pT ∧ i < c.k then x d i else V.M q d i, stk := st }
/-- `FOR_0_LE_l_LT_pk1 *Ares++ = 0.0` (578, 2828, 2841) -/
def zero (c : RVCfg K) (r : Nat) (V : RVS K) : RVS K :=
  { V with M := fun q d i => if q = .A r ∧ d < c.p ∧ i < c.k then 0 else V.M q d i,
           fl := fun r' d => if r' = r ∧ d < c.p then 0 else V.fl r' d }
/-- `FOR_0_LE_l_LT_pk rp_Ttemp2[l] = Tres[l]` (1120, 1174, 1458) -/
def saveT (c : RVCfg K) (r : Nat) (V : RVS K) : RVS K :=
  { V with M := fun q d i => if q = .tt2 ∧ d < c.pT ∧ i < c.k then V.M (.T r) d i else V.M q d i }
/-- Flat access to `rpp_A[r]`. -/
def flat (k : Nat) (V : RVS K) (r f : Nat) : K :=
  if f % (k + 1) = 0 then V.fl r (f / (k + 1)) else V.M (.A r) (f / (k + 1)) (f % (k + 1) - 1)
def setFlat (k : Nat) (r f : Nat) (v : K) (V : RVS K) : RVS K :=
  if f % (k + 1) = 0 then { V with fl := fun r' d => if r' = r ∧ d = f / (k + 1) then v else V.fl r' d }
  else { V with M := fun q d i => if q = .A r ∧ d = f / (k + 1) ∧ i = f % (k + 1) - 1 then v else V.M q d i }
end RVS

/-! Bodies of the loops (flags, rows). -/

/-- flags of `HRS.flUn`, `flLin`, `flLin2` -/
def gUn (a r : Nat) (v : K) (fl : Nat → K) : Nat → K := maxdec (maxdec (upd fl r 0) a (fl r)) a v
def gLin (a r : Nat) (fl : Nat → K) : Nat → K := maxdec (upd fl r 0) a (fl r)
def gLin2 (a b r : Nat) (fl : Nat → K) : Nat → K := maxdec (maxdec (upd fl r 0) a (fl r)) b (fl r)
/-- `MAXDEC(*Aarg, *Ares); *Ares++ = 0.0` -/
def gMove (a r : Nat) (fl : Nat → K) : Nat → K := upd (maxdec fl a (fl r)) r 0
/-- `comp = (*Ares > 2.0) ? *Ares : 2.0; *Ares++ = comp; MAXDEC(*Aarg1, comp); MAXDEC(*Aarg2, comp)` -/
def gProd (a b r : Nat) (fl : Nat → K) : Nat → K :=
  let comp := if fl r > 2 then fl r else 2
  maxdec (maxdec (upd fl r comp) a comp) b comp
def mkB (g : (Nat → K) → Nat → K) (f : (Row → Nat → K) → Row → Nat → K) : RBody K := fun fl M => (g fl, f M)
/-- 558-564, 1899-1905 -/
def moveB (k a r : Nat) : RBody K := mkB (gMove a r) (moveR k (.A a) (.A r))

/-- 998-1024 with `_HOS_OV_`: the recomputation of the result's polynomial is in the loop, before the test of the flag. -/
def RVS.rowsPre (c : RVCfg K) (r : Nat) (pre : (Row → Nat → K) → Row → Nat → K) (b : RBody K) (V : RVS K) : RVS K :=
  (forUp c.p (fun l (vt : RVS K × Nat) =>
    let V := vt.1.onRow l vt.2 (mkB id pre)
    if V.fl r l = 0 then (V, vt.2) else (V.onRow l vt.2 b, vt.2 + c.adv)) (V, 0)).1

/-- 1785-1807 -/
def absB (k a r : Nat) : RBody K := fun fl M =>
  let (jj, x) := absSign k (M (.T a))
  let fl' := if M (.T a) 0 = 0 then upd (upd fl r 0) a 5 else gLin a r fl
  let M := setRowR jj (.A r) (fun _ => 0) M
  let M := forUp (k - jj) (fun i M =>
    let aTmp := M (.A r) (jj + i)
    let M := wrR M (.A r) (jj + i) 0
    wrR M (.A a) (jj + i) (M (.A a) (jj + i) + x * aTmp)) M
  (fl', M)

/-- One `case` of the switch in `hov_ti_reverse`/`hos_ov_reverse`. -/
def hvrStep (c : RVCfg K) (o : Base K) (s : RVS K) : Except HRStop (RVS K) :=
  let k := c.k
  match o with
  -- 519-539
  | .cmp _ _ => .ok s
  -- 545-568
  | .assignA a r => (s.rows c r (moveB k a r)).pop c r
  -- 571-606
  | .assignD r _ => (s.zero c r).pop c r
  | .assignP _ r => (s.zero c r).pop c r
  | .assignD0 r => (s.zero c r).pop c r
  | .assignD1 r => (s.zero c r).pop c r
  -- 609-627: `nonzero` in `hov_ti_reverse` only
  | .assignInd r => do
    let s := { s with Z := fun l j i => if l < c.p ∧ j = s.ii - 1 ∧ i < k then s.M (.A r) l i else s.Z l j i,
                      nz := fun l j => if l < c.p ∧ j = s.ii - 1 ∧ c.ov = false then s.fl r l else s.nz l j }
    let s ← s.pop c r
    .ok { s with ii := s.ii - 1 }
  -- 630-649
  | .assignDep r =>
    let j := s.di - 1
    .ok { s with
      M := fun q d i => if q = .A r ∧ d < c.p ∧ i < k then c.L d j i else s.M q d i
      fl := fun r' d => if r' = r ∧ d < c.p then
          (match (List.range k).reverse.find? (fun i => c.L d j i ≠ 0) with | none => 0 | some 0 => 1 | some _ => 2)
        else s.fl r' d
      di := s.di - 1 }
  -- 656-662, 689-695, 774-779
  | .eqPlusD r _ => s.pop c r
  | .eqMinD r _ => s.pop c r
  | .incrA r => s.pop c r
  | .decrA r => s.pop c r
  -- 665-686
  | .eqPlusA a r =>
    (s.rows c r (mkB (fun fl => maxdec fl a (fl r)) (accR' k (.A a) (.A r) (fun x t => x + t)))).pop c r
  -- 698-719
  | .eqMinA a r =>
    (s.rows c r (mkB (fun fl => maxdec fl a (fl r)) (accR' k (.A a) (.A r) (fun x t => x - t)))).pop c r
  -- 722-734
  | .eqMultD r v => (s.rows c r (mkB id (mapR k (.A r) (fun x => x * v)))).pop c r
  -- 737-771
  | .eqMultA a r => do
    let s ← s.pop c r
    .ok (s.rows c r (mkB (fun fl => let fl := maxdec fl r 2; maxdec fl a (fl r)) fun M =>
      let M := convR k (.A r) (.T a) .at1 M
      if a ≠ r then copyR k .at1 (.A r) (inconvR k (.A r) (.T r) (.A a) M)
      else forUp k (fun i M => wrR M (.A r) i (2 * M .at1 i)) M))
  -- 786-816
  | .plusAA a b r =>
    (s.rows c r (mkB (gLin2 a b r) (spread2R k (.A a) (.A b) (.A r) (fun x t => x + t) (fun x t => x + t)))).pop c r
  -- 818-844
  | .plusDA a r _ => (s.rows c r (mkB (gLin a r) (spreadR k (.A a) (.A r) (fun x t => x + t)))).pop c r
  -- 847-878
  | .minAA a b r =>
    (s.rows c r (mkB (gLin2 a b r) (spread2R k (.A a) (.A b) (.A r) (fun x t => x + t) (fun x t => x - t)))).pop c r
  -- 881-907
  | .minDA a r _ => (s.rows c r (mkB (gLin a r) (spreadR k (.A a) (.A r) (fun x t => x - t)))).pop c r
  -- 910-976
  | .multAA a b r => do
    let s ← s.pop c r
    .ok (s.rows c r (mkB (fun fl =>
        let comp := if fl r > 2 then fl r else 2
        maxdec (maxdec (upd fl r 0) a comp) b comp) fun M =>
      let M := cpzR k (.A r) .at1 M
      let M := inconvR k .at1 (.T a) (.A b) M
      inconvR k .at1 (.T b) (.A a) M))
  -- 980-1025
  | .eqPlusProd a b r =>
    let pre := deconvR k (.T a) (.T b) (.T r)
    let b := mkB (gProd a b r) fun M => inconvR k (.A r) (.T b) (.A a) (inconvR k (.A r) (.T a) (.A b) M)
    if c.ov then .ok (s.rowsPre c r pre b) else .ok ((s.onRow 0 0 (mkB id pre)).rows c r b)
  -- 1029-1074
  | .eqMinProd a b r =>
    let pre := inconvR k (.T a) (.T b) (.T r)
    let b := mkB (gProd a b r) fun M => deconvR k (.A r) (.T b) (.A a) (deconvR k (.A r) (.T a) (.A b) M)
    if c.ov then .ok (s.rowsPre c r pre b) else .ok ((s.onRow 0 0 (mkB id pre)).rows c r b)
  -- 1077-1103
  | .multDA a r v => (s.rows c r (mkB (gLin a r) (spreadR k (.A a) (.A r) (fun x t => x + v * t)))).pop c r
  -- 1106-1159
  | .divAA a b r => do
    let s ← if b = r then (s.saveT c r).pop c r else .ok s
    let tres : Row := if b = r then .tt2 else .T r
    let s := s.rows c r (mkB (fun fl =>
        let aTmp := fl r
        maxdec (maxdec (maxdec (maxdec (upd fl r 0) a 3) a aTmp) b 3) b aTmp) fun M =>
      let M := reciprR k 1 (.T b) .tt M
      let M := convR k .tt tres .at2 M
      let M := cpzR k (.A r) .at1 M
      let M := inconvR k .at1 .tt (.A a) M
      deconvR k .at1 .at2 (.A b) M)
    if b ≠ r then s.pop c r else .ok s
  -- 1162-1206
  | .divDA a r _ => do
    let s ← if a = r then (s.saveT c r).pop c r else .ok s
    let tres : Row := if a = r then .tt2 else .T r
    let s := s.rows c r (mkB (gUn a r 3) fun M =>
      let M := reciprR k 1 (.T a) .tt M
      let M := convR k .tt tres .at1 M
      deconv0R k (.A r) .at1 (.A a) M)
    if a ≠ r then s.pop c r else .ok s
  -- 1214-1238
  | .posSign a r => (s.rows c r (mkB (gLin a r) (spreadR k (.A a) (.A r) (fun x t => x + t)))).pop c r
  -- 1241-1265
  | .negSign a r => (s.rows c r (mkB (gLin a r) (spreadR k (.A a) (.A r) (fun x t => x - t)))).pop c r
  -- 1272-1301
  | .expOp a r => (s.rows c r (mkB (gUn a r 4) (inconv0R k (.A r) (.T r) (.A a)))).pop c r
  -- 1304-1335
  | .sinOp a b r => do
    let s ← (s.rows c r (mkB (gUn a r 4) (inconv0R k (.A r) (.T b) (.A a)))).pop c r
    s.pop c b
  -- 1338-1369
  | .cosOp a b r => do
    let s ← (s.rows c r (mkB (gUn a r 4) (deconv0R k (.A r) (.T b) (.A a)))).pop c r
    s.pop c b
  -- 1372-1408
  | .quad _ a b r => do
    let s ← s.pop c r
    .ok (s.rows c r (mkB (gUn a r 4) (inconv0R k (.A r) (.T b) (.A a))))
  -- 1411-1443
  | .logOp a r => do
    let s ← s.pop c r
    .ok (s.rows c r (mkB (gUn a r 4) fun M => inconv0R k (.A r) .tt (.A a) (reciprR k 1 (.T a) .tt M)))
  -- 1446-1539
  | .powOp a r v => do
    let s ← if a = r then (s.saveT c r).pop c r else .ok s
    let tres : Row := if a = r then .tt2 else .T r
    let s := s.rows c r (mkB (gUn a r 4) fun M =>
      if M (.T a) 0 > adolcEps ∨ M (.T a) 0 < -adolcEps then
        let M := divideR k tres (.T a) .tt M
        let M := mapR k .tt (fun x => x * v) M
        inconv0R k (.A r) .tt (.A a) M
      else powSmall k a r v M)
    if a ≠ r then s.pop c r else .ok s
  -- 1542-1573
  | .sqrtOp a r =>
    (s.rows c r (mkB (gUn a r 4) fun M => inconv0R k (.A r) .tt (.A a) (reciprR k (1 / 2) (.T r) .tt M))).pop c r
  -- 1576-1583
  | .cbrtOp _ _ => .error .notImplemented
  -- 1586-1616
  | .genQuad a b r _ _ => (s.rows c r (mkB (gUn a r 4) (inconv0R k (.A r) (.T b) (.A a)))).pop c r
  -- 1619-1751: decided by the first polynomial; `hos_ov_reverse` fails at a tie (1669-1674)
  | .minOp a b r _ => do
    let s ← s.pop c r
    match minPick k (s.M (.T a) 0) (s.M (.T b) 0) with
    | some (snd, tie) =>
      if c.ov ∧ tie then .error .notImplemented
      else
        let q := if snd then b else a
        .ok (s.rows c r (mkB (fun fl => if tie then upd (upd fl r 0) q 5 else gLin q r fl) (spreadR k (.A q) (.A r) (fun x t => x + t))))
    | none =>
      if c.ov then .error .notImplemented
      else .ok (s.rows c r (mkB (gLin2 a b r) (spread2R k (.A a) (.A b) (.A r) (fun x t => x + t / 2) (fun x t => x + t / 2))))
  -- 1754-1811: `x` and `jj` have one entry in `hov_ti_reverse` (352, 450-451) but are read at `l` (1796-1806)
  | .absVal a r _ => do
    let s ← s.pop c r
    if c.ov then .ok (forUp c.p (fun l s => if s.fl r l = 0 then s else s.onRow l l (absB k a r)) s)
    else if ∃ l ∈ List.range c.p, l ≠ 0 ∧ s.fl r l ≠ 0 then .error .undefined
    else .ok (s.rows c r (absB k a r))
  -- 1814-1839: `Aarg` is not assigned in this case
  | .ceilOp _ r _ => do
    let s ← s.pop c r
    if ∃ l ∈ List.range c.p, s.fl r l ≠ 0 then .error .undefined else .ok s
  -- 1842-1868: the pointer `Ares` advances by `k` only in a pass with a nonzero flag
  | .floorOp a r _ => do
    let s ← s.pop c r
    .ok (forUp c.p (fun _ (x : RVS K × Nat × Nat) =>
      let (s, f, g) := x
      if s.flat k r f = 0 then (s, f + (k + 1), g + (k + 1))
      else
        let s := s.setFlat k r f 0
        let s := s.setFlat k a g 5
        let s := forUp k (fun i s => s.setFlat k r (f + i) 0) s
        (s, f + k, g + (k + 1))) (s, 0, 0)).1
  -- 1875-1958: `*Targ` is the first polynomial's value
  | .condAssign a a1 a2 r _ => do
    let s ← s.pop c r
    if s.M (.T a) 0 0 > 0 then .ok (if r ≠ a1 then s.rows c r (moveB k a1 r) else s)
    else if r ≠ a2 then
      .ok (s.rows c r (mkB (fun fl =>
        upd (if s.M (.T a) 0 0 = 0 then upd (upd fl a1 5) a2 5 else maxdec fl a2 (fl r)) r 0) (moveR k (.A a2) (.A r))))
    else .ok (s.rows c r (mkB (fun fl => if s.M (.T a) 0 0 = 0 then upd (upd fl a1 5) a2 5 else fl) id))
  -- 1960-2031
  | .condEqAssign a a1 a2 r _ => do
    let s ← s.pop c r
    if s.M (.T a) 0 0 ≥ 0 then .ok (if r ≠ a1 then s.rows c r (moveB k a1 r) else s)
    else .ok (if r ≠ a2 then s.rows c r (moveB k a2 r) else s)
  -- 2034-2081
  | .condAssignS a a1 r _ => do
    let s ← s.pop c r
    if s.M (.T a) 0 0 = 0 then .ok (s.rows c r (mkB (fun fl => upd fl a1 5) id))
    else if s.M (.T a) 0 0 > 0 then .ok (if r ≠ a1 then s.rows c r (moveB k a1 r) else s)
    else .ok s
  -- 2082-2120
  | .condEqAssignS a a1 r _ => do
    let s ← s.pop c r
    if s.M (.T a) 0 0 ≥ 0 then .ok (if r ≠ a1 then s.rows c r (moveB k a1 r) else s)
    else .ok s
  -- 2207
  | .setRef r _ => s.pop c r
  -- 2438-2466
  | .vecCopy a n r => (List.range n).foldlM (fun s q => (s.rows c (r + q) (moveB k (a + q) (r + q))).pop c (r + q)) s
  -- 2468-2505
  | .vecDot a b n r =>
    let s := (List.range n).foldl (fun s q =>
      s.rows c r (mkB (gProd (a + q) (b + q) r) fun M =>
        inconvR k (.A r) (.T (b + q)) (.A (a + q)) (inconvR k (.A r) (.T (a + q)) (.A (b + q)) M))) s
    s.pop c r
  -- 2507-2548: there is no loop over `l` in this case
  | .vecAxpy a a1 a2 n r =>
    (List.range n).foldlM (fun s q =>
      let s := if s.fl (r + q) 0 = 0 then s
        else s.onRow 0 0 (mkB (fun fl =>
            let comp := if fl (r + q) > 2 then fl (r + q) else 2
            maxdec (maxdec (upd (maxdec fl (a2 + q) (fl (r + q))) (r + q) 0) a comp) (a1 + q) comp) fun M =>
          let M := cpzR k (.A (r + q)) .at1 M
          let M := inconvR k .at1 (.T (a1 + q)) (.A a) M
          let M := inconvR k .at1 (.T a) (.A (a1 + q)) M
          accR' k (.A (a2 + q)) .at1 (fun x t => x + t) M)
      s.pop c (r + q)) s
  -- 2817-2830
  | .takeStock r vs =>
    .ok ((List.range vs.length).foldl (fun s q => s.zero c (r + vs.length - 1 - q)) s)
  -- 2833-2848
  | .deathNot a b =>
    let s := (List.range (b + 1 - a)).foldl (fun s q => s.zero c (a + q)) s
    (List.range (b + 1 - a)).foldlM (fun s q => s.pop c (a + q)) s

/-- The reverse loop (484-2957). -/
def hvrRun (c : RVCfg K) : List (Base K) → RVS K → Except HRStop (RVS K)
  | [], s => .ok s
  | o :: os, s =>
    match hvrRun c os s with
    | .error e => .error e
    | .ok s' => hvrStep c o s'

/-- 418-451: zero-initialised. -/
def RVS.init (n m : Nat) (stk : List (Nat → Nat → K)) : RVS K :=
  ⟨fun _ _ _ => 0, fun _ _ => 0, stk, n, m, fun _ _ _ => 0, fun _ _ => 0⟩

end Verif.AD
