import Verif.Sparse.Index

/-!
Sparsity pattern of the Hessian: `nonl_ind_forward_safe` and `nonl_ind_forward_tight` (uni5_for.cpp
with `_NONLIND_` and `_NTIGHT_` / `_TIGHT_`).

The nodes `fod[0], fod[1], …` are written once, when they are created, with pointers to older nodes;
`arg_index[l]` is the number of the node of location `l`.  The model gives every location the tree
that hangs below its node; sharing of nodes is not modelled (it matters only for the running time),
the number of nodes used is (`op`, against the number `M` of nodes allocated).
-/
set_option linter.all false
namespace Verif.Sparse
open Verif.AD Elem

/-- What hangs below a node (`IndexElement`, uni5_for.cpp:172-176): a node without children and
`entry = maxopind + 2`, a node without children and the number of an independent, a node with
a left child, a node with two children, or memory that was never written. -/
inductive Tr where
  | undef
  | const
  | ind (i : Nat)
  | un (t : Tr)
  | bin (l r : Tr)
  deriving DecidableEq

/-- No uninitialised memory is read when the tree is traversed. -/
def Tr.ok : Tr → Bool
  | .undef => false
  | .const | .ind _ => true
  | .un t => t.ok
  | .bin l r => l.ok && r.ok

/-- The independents met by `traverse_unary` and by `traverse_crs`, in this order
(uni5_for.cpp:6049-6056, 6100-6106). -/
def Tr.leaves : Tr → List Nat
  | .undef | .const => []
  | .ind i => [i]
  | .un t => t.leaves
  | .bin l r => l.leaves ++ r.leaves

/-- `arg_index` (with the trees), `nonl_dom` (the lists of `right` pointers, newest first), `opind`
and `indexi`. -/
structure NS where
  idx : Nat → Tr
  nonl : Nat → List Tr
  op : Nat
  ii : Nat

/-- uni5_for.cpp:1191-1206; `arg_index` is not initialised. -/
def NS.init : NS := ⟨fun _ => .undef, fun _ => [], 0, 0⟩

/-- How a sweep stops, or where its behaviour is undefined. -/
inductive NErr where
  /-- subscripting and references in safe mode throw (uni5_for.cpp:4528, 4557, 4586, …) -/
  | refs
  /-- `return -2` at `gen_quad` (uni5_for.cpp:3677) -/
  | genQuad
  /-- tight mode: the value sweep stops (a comparison has another outcome) -/
  | stop (e : Stop)
  /-- uninitialised memory is read -/
  | undef
  /-- a node beyond the end of `fod` is written -/
  | overflow
  deriving DecidableEq

/-- Writing `fod[opind]`, and `opind++`. -/
def NS.alloc (M : Nat) (s : NS) : Except NErr NS :=
  if s.op < M then .ok { s with op := s.op + 1 } else .error .overflow

/-- `traverse_unary(t, nonl_dom, node, …)` (uni5_for.cpp:6096-6115). -/
def NS.link (t node : Tr) (s : NS) : Except NErr NS :=
  if t.ok then .ok { s with nonl := t.leaves.foldl (fun nl i => upd nl i (node :: nl i)) s.nonl }
  else .error .undef

/-- `arg_index[r] = …` -/
def NS.point (r : Nat) (t : Tr) (s : NS) : NS := { s with idx := upd s.idx r t }

/-- A node without a link: `+`, `-`, constants, independents. -/
def NS.node (M r : Nat) (t : Tr) (s : NS) : Except NErr NS :=
  match s.alloc M with
  | .error e => .error e
  | .ok s => .ok (s.point r t)

/-- A node, two links (`traverse_unary`) and the node becomes that of `r`. -/
def NS.node2 (M r : Nat) (t : Tr) (t1 n1 t2 n2 : Tr) (s : NS) : Except NErr NS :=
  match s.alloc M with
  | .error e => .error e
  | .ok s =>
    match s.link t1 n1 with
    | .error e => .error e
    | .ok s =>
      match s.link t2 n2 with
      | .error e => .error e
      | .ok s => .ok (s.point r t)

/-- A nonlinear univariate operation: a node with a left child, one link of the node with itself
(uni5_for.cpp:2470-2475 and elsewhere). -/
def NS.nodeU (M a r : Nat) (s : NS) : Except NErr NS :=
  match s.alloc M with
  | .error e => .error e
  | .ok s =>
    match s.link (.un (s.idx a)) (.un (s.idx a)) with
    | .error e => .error e
    | .ok s' => .ok (s'.point r (.un (s.idx a)))

/-- `r += a * b`: two nodes, the first one for the product, two links
(uni5_for.cpp:2101-2115, 2167-2181, 5007-5027). -/
def NS.nodeP (M r : Nat) (t1 n1 t2 n2 t : Tr) (s : NS) : Except NErr NS :=
  match s.alloc M with
  | .error e => .error e
  | .ok s =>
    match s.link t1 n1 with
    | .error e => .error e
    | .ok s =>
      match s.link t2 n2 with
      | .error e => .error e
      | .ok s => s.node M r t

/-- A loop over a vector. -/
def nlLoop (f : Nat → NS → Except NErr NS) : List Nat → NS → Except NErr NS
  | [], s => .ok s
  | q :: qs, s =>
    match f q s with
    | .error e => .error e
    | .ok s => nlLoop f qs s

variable {K : Type} [Scalar K]

/-- What the `case`s do with the nodes, `M` being the number of nodes allocated.  `T = some t` in tight
mode, `t` being the values (`dp_T0`) before the operation; `T = none` in safe mode. -/
def nlStep (M : Nat) (T : Option (Nat → K)) (o : Base K) (s : NS) : Except NErr NS :=
  match o with
  -- 1313-1423
  | .cmp _ _ => .ok s
  -- 1446
  | .assignA a r => .ok (s.point r (s.idx a))
  -- 1478-1481, 1512-1515, 1542-1545, 1572-1575
  | .assignD r _ | .assignP _ r | .assignD0 r | .assignD1 r => s.node M r .const
  -- 1604-1607, 1620
  | .assignInd r =>
    match s.node M r (.ind s.ii) with
    | .error e => .error e
    | .ok s => .ok { s with ii := s.ii + 1 }
  -- 1624-1665
  | .assignDep _ => .ok s
  -- 1672-1685, 1724-1737, 1776-1800, 1858-1877
  | .eqPlusD _ _ | .eqMinD _ _ | .eqMultD _ _ | .incrA _ | .decrA _ => .ok s
  -- 1704-1707, 1756-1759
  | .eqPlusA a r | .eqMinA a r => s.node M r (.bin (s.idx r) (s.idx a))
  -- 1815-1822
  | .eqMultA a r => s.node2 M r (.bin (s.idx r) (s.idx a)) (s.idx r) (s.idx a) (s.idx a) (s.idx r)
  -- 1900-1903, 1971-1974
  | .plusAA a b r | .minAA a b r => s.node M r (.bin (s.idx a) (s.idx b))
  -- 2041-2048
  | .multAA a b r => s.node2 M r (.bin (s.idx a) (s.idx b)) (s.idx a) (s.idx b) (s.idx b) (s.idx a)
  -- 2278-2285
  | .divAA a b r =>
    s.node2 M r (.bin (s.idx a) (s.idx b)) (s.idx a) (s.idx b) (s.idx b) (.bin (s.idx a) (s.idx b))
  -- 2101-2115
  | .eqPlusProd a b r =>
    s.nodeP M r (s.idx a) (s.idx b) (s.idx b) (s.idx a) (.bin (s.idx r) (.bin (s.idx a) (s.idx b)))
  -- 2167-2181
  | .eqMinProd a b r =>
    s.nodeP M r (s.idx a) (.bin (s.idx a) (s.idx b)) (s.idx b) (.bin (s.idx a) (s.idx b))
      (.bin (s.idx r) (.bin (s.idx a) (s.idx b)))
  -- 1941, 2012, 2240, 2406, 2434
  | .plusDA a r _ | .minDA a r _ | .multDA a r _ | .posSign a r | .negSign a r => .ok (s.point r (s.idx a))
  -- 2346-2351, 2470-2475
  | .divDA a r _ | .expOp a r => s.nodeU M a r
  -- 2532-2537, 2604-2609: the companion's node is not touched
  | .sinOp a _ r | .cosOp a _ r => s.nodeU M a r
  -- 2674, 2735, 2835, 2935, 2996, 3081, 3188, 3246
  | .quad _ a _ r => s.nodeU M a r
  -- 3299, 3381, 3509, 3591
  | .logOp a r | .powOp a r _ | .sqrtOp a r | .cbrtOp a r => s.nodeU M a r
  -- 3677
  | .genQuad _ _ _ _ _ => .error .genQuad
  -- 3756-3773 / 3776-3780: in safe mode `arg_index[res] = opind++` twice, the second node is not
  -- written
  | .minOp a b r _ =>
    match T with
    | some t =>
      if t a < t b then s.node M r (.un (s.idx a))
      else if t a > t b then s.node M r (.un (s.idx b))
      else s.node M r (.bin (s.idx a) (s.idx b))
    | none =>
      match s.node M r (.bin (s.idx a) (s.idx b)) with
      | .error e => .error e
      | .ok s => .ok ({ s with op := s.op + 1 }.point r .undef)
  -- 3924, 4022, 4060
  | .absVal a r _ | .ceilOp a r _ | .floorOp a r _ => .ok (s.point r (s.idx a))
  -- 4118, 4126 / 4130: in safe mode `arg_index[res] = opind++`, the node is not written
  | .condAssign a a1 a2 r _ =>
    match T with
    | some t => .ok (s.point r (s.idx (if t a > 0 then a1 else a2)))
    | none => .ok ({ s with op := s.op + 1 }.point r .undef)
  -- 4227, 4233 / 4237
  | .condEqAssign a a1 a2 r _ =>
    match T with
    | some t => .ok (s.point r (s.idx (if t a ≥ 0 then a1 else a2)))
    | none => .ok ({ s with op := s.op + 1 }.point r .undef)
  -- 4313, 4374: in both modes, whatever the condition
  | .condAssignS _ a1 r _ | .condEqAssignS _ a1 r _ => .ok (s.point r (s.idx a1))
  -- 4557; in tight mode the node of `res` is not touched (4549-4555)
  | .setRef _ _ =>
    match T with
    | some _ => .ok s
    | none => .error .refs
  -- 4979
  | .vecCopy a n r => nlLoop (fun q s => .ok (s.point (r + q) (s.idx (a + q)))) (List.range n) s
  -- 5006-5009, 5024-5040
  | .vecDot a b n r =>
    match s.node M r .const with
    | .error e => .error e
    | .ok s => nlLoop (fun q s => s.nodeP M r (s.idx (a + q)) (.bin (s.idx (a + q)) (s.idx (b + q)))
        (s.idx (b + q)) (.bin (s.idx (a + q)) (s.idx (b + q)))
        (.bin (s.idx r) (.bin (s.idx (a + q)) (s.idx (b + q))))) (List.range n) s
  -- 5095-5111
  | .vecAxpy a a1 a2 n r =>
    nlLoop (fun q s => s.nodeP M (r + q) (s.idx a) (.bin (s.idx a) (s.idx (a1 + q)))
        (s.idx (a1 + q)) (.bin (s.idx a) (s.idx (a1 + q)))
        (.bin (.bin (s.idx a) (s.idx (a1 + q))) (s.idx (a2 + q)))) (List.range n) s
  -- 5468-5493
  | .takeStock _ _ => .ok s
  -- 5496-5507
  | .deathNot _ _ => .ok s

/-- `nonl_ind_forward_safe`, the loop over the trace. -/
def nlSafeRun (M : Nat) : List (Base K) → NS → Except NErr NS
  | [], s => .ok s
  | o :: os, s =>
    match nlStep M (none : Option (Nat → K)) o s with
    | .error e => .error e
    | .ok s' => nlSafeRun M os s'

/-- `nonl_ind_forward_tight`, the loop over the trace; the values are those of `indopro_forward_tight`. -/
def nlTightRun (M : Nat) (c : Cfg K) : List (Base K) → ZS K → NS → Except NErr NS
  | [], _, s => .ok s
  | o :: os, z, s =>
    match tightVal c o z with
    | .error e => .error (.stop e)
    | .ok z' =>
      match nlStep M (some z.T) o s with
      | .error e => .error e
      | .ok s' => nlTightRun M c os z' s'

/-- The insertion of an index in `traverse_crs` (uni5_for.cpp:6057-6092). -/
def insertU (e : Nat) : List Nat → List Nat
  | [] => [e]
  | x :: xs => if x < e then x :: insertU e xs else if e < x then e :: x :: xs else x :: xs

/-- `traverse_crs(&nonl_dom[i], &sod[i], n + 1)` and the copy of the list
(uni5_for.cpp:6043-6094, 5869-5881): the trees are visited from the oldest to the newest one. -/
def crsRow (n : Nat) (ts : List Tr) : Except NErr (List Nat) :=
  if ts.all Tr.ok then
    let L := ((ts.reverse.flatMap Tr.leaves).filter (· < n + 1)).foldl (fun L e => insertU e L) []
    .ok (L.length :: L)
  else .error .undef

/-- All rows (uni5_for.cpp:5869-5881). -/
def crsRows (n : Nat) (s : NS) : Except NErr (List (List Nat)) :=
  (List.range n).foldr (fun i acc => match crsRow n (s.nonl i), acc with
    | .ok r, .ok rs => .ok (r :: rs)
    | .error e, _ => .error e
    | _, .error e => .error e) (.ok [])

/-- `NUM_EQ_PROD` of a recorded trace (adouble.cpp:321, 465); the vector operations do not contribute, because
`add_num_eq_prod` adds to another counter (valuetape.h:251). -/
def isEqProd : Base K → Bool
  | .eqPlusProd _ _ _ | .eqMinProd _ _ _ => true
  | _ => false

/-- `maxopind` (uni5_for.cpp:1192-1193).  `NUM_OPERATIONS` counts all operations on the tape, also those
not modelled (start and end of the tape and of the blocks): at least two more than the operations of
the model. -/
def maxopind (ops : List (Base K)) : Nat := ops.length + 2 + ops.countP isEqProd

/-- `hess_pat` in safe mode (sparsedrivers.h:1153-1155) for a trace with `n` independents. -/
def hessPatSafe (n : Nat) (ops : List (Base K)) : Except NErr (List (List Nat)) :=
  match nlSafeRun (maxopind ops) ops NS.init with
  | .error e => .error e
  | .ok s => crsRows n s

/-- `hess_pat` in tight mode (sparsedrivers.h:1150-1152) at the base point `x`. -/
def hessPatTight (x par : Nat → K) (n : Nat) (ops : List (Base K)) : Except NErr (List (List Nat)) :=
  match nlTightRun (maxopind ops) ⟨x, par, false⟩ ops ZS.init NS.init with
  | .error e => .error e
  | .ok s => crsRows n s

end Verif.Sparse
