import Verif.Sparse.Bits
import Verif.AD.Reverse

/-!
# Bit pattern propagation backwards: `int_reverse_safe`, `int_reverse_tight` (`fo_rev.cpp`)

`upp_A[loc][l]` is `A l loc`, `results[l][i]` is `R l i`, `lagrange[l][j]` is `X l j`.  As in
`Bits.lean` a `FOR_0_LE_l_LT_p` loop touches in iteration `l` only word `l` of the rows, hence it is
one simultaneous update of all words `l < p`; the loop body, a function on the words `l` of all
locations, performs the assignments of the C++ statements one after the other (so that equal
locations are aliases, as in the code).
-/
set_option linter.all false
namespace Verif.Sparse
open Verif.AD Elem

/-- Variables of a reverse bit pattern sweep: `upp_A`, `indexi + 1`, `indexd + 1`, `results`. -/
structure RBS where
  A : Nat → Nat → Word
  ii : Nat
  di : Nat
  R : Nat → Nat → Word

/-- `upp_A = myalloc2_ulong(...)` is zero-initialised, `indexi`, `indexd` start at the last
independent and dependent (fo_rev.cpp:462-463, 517); `results` is not initialised (`R0`). -/
def RBS.init (n m : Nat) (R0 : Nat → Nat → Word) : RBS := ⟨fun _ _ => 0, n, m, R0⟩

/-- `FOR_0_LE_l_LT_p { body }`. -/
def RBS.loop (p : Nat) (g : (Nat → Word) → Nat → Word) (s : RBS) : RBS :=
  { s with A := fun l => if l < p then g (s.A l) else s.A l }

/-- `*Ares++ = 0` -/
def bClr (r : Nat) (u : Nat → Word) : Nat → Word := upd u r 0
/-- `*Aarg++ |= *Ares` -/
def bOr (a r : Nat) (u : Nat → Word) : Nat → Word := upd u a (u a ||| u r)
/-- `*Aarg++ |= *Ares; *Ares++ = 0` -/
def bMv (a r : Nat) (u : Nat → Word) : Nat → Word := bClr r (bOr a r u)
/-- `aTmp = *Ares; *Ares++ = 0; *Aarg++ |= aTmp` -/
def bUn (a r : Nat) (u : Nat → Word) : Nat → Word :=
  let aTmp := u r
  let u := upd u r 0
  upd u a (u a ||| aTmp)
/-- `aTmp = *Ares; *Ares++ = 0; *Aarg1++ |= aTmp; *Aarg2++ |= aTmp` -/
def bBin (a b r : Nat) (u : Nat → Word) : Nat → Word :=
  let aTmp := u r
  let u := upd u r 0
  let u := upd u a (u a ||| aTmp)
  upd u b (u b ||| aTmp)

variable {K : Type}

/-- The two-argument conditional assignments in `int_reverse_safe` (fo_rev.cpp:1920-1924,
1961-1965): `if (res != arg1) FOR_0_LE_l_LT_p { *Aarg1 |= *Ares; *Ares++ = 0; }`; `Aarg1` is not advanced, so
every word goes into word 0 of `arg1`. -/
def RBS.condS (p a r : Nat) (s : RBS) : RBS :=
  if r ≠ a then
    (List.range p).foldl (fun s l =>
      let A0 := fun l' => if l' = 0 then upd (s.A 0) a (s.A 0 a ||| s.A l r) else s.A l'
      { s with A := fun l' => if l' = l then upd (A0 l) r 0 else A0 l' }) s
  else s

/-- One `case` of the switch in `int_reverse_safe` (fo_rev.cpp with `_INT_REV_`, `_NTIGHT_`). -/
def revSafeStep (p : Nat) (X : Nat → Nat → Word) (o : Base K) (s : RBS) : Except BErr RBS :=
  match o with
  -- 587-611
  | .cmp _ _ => .ok s
  -- 618-639
  | .assignA a r => .ok (s.loop p (bMv a r))
  -- 642-661
  | .assignD r _ => .ok (s.loop p (bClr r))
  -- 663-683
  | .assignP _ r => .ok (s.loop p (bClr r))
  -- 685-701
  | .assignD0 r => .ok (s.loop p (bClr r))
  | .assignD1 r => .ok (s.loop p (bClr r))
  -- 704-731 (`nestedReverseEval()` false)
  | .assignInd r =>
    .ok { s with R := fun l => if l < p then upd (s.R l) (s.ii - 1) (s.A l r) else s.R l, ii := s.ii - 1 }
  -- 734-744
  | .assignDep r =>
    .ok { s with A := fun l => if l < p then upd (s.A l) r (X l (s.di - 1)) else s.A l, di := s.di - 1 }
  -- 751-759
  | .eqPlusD _ _ => .ok s
  -- 762-780
  | .eqPlusA a r => .ok (s.loop p (bOr a r))
  -- 783-791
  | .eqMinD _ _ => .ok s
  -- 794-812
  | .eqMinA a r => .ok (s.loop p (bOr a r))
  -- 815-831
  | .eqMultD _ _ => .ok s
  -- 834-856
  | .eqMultA a r => .ok (s.loop p (bOr a r))
  -- 859-866
  | .incrA _ => .ok s
  | .decrA _ => .ok s
  -- 873-899
  | .plusAA a b r => .ok (s.loop p (bBin a b r))
  -- 902-928
  | .plusDA a r _ => .ok (s.loop p (bUn a r))
  -- 931-958
  | .minAA a b r => .ok (s.loop p (bBin a b r))
  -- 961-987
  | .minDA a r _ => .ok (s.loop p (bUn a r))
  -- 990-1016
  | .multAA a b r => .ok (s.loop p (bBin b a r))
  -- 1020-1044: `*Aarg2++ |= *Ares; *Aarg1++ |= *Ares++`
  | .eqPlusProd a b r => .ok (s.loop p fun u => bOr a r (bOr b r u))
  -- 1048-1072
  | .eqMinProd a b r => .ok (s.loop p fun u => bOr a r (bOr b r u))
  -- 1075-1101
  | .multDA a r _ => .ok (s.loop p (bUn a r))
  -- 1104-1136
  | .divAA a b r => .ok (s.loop p (bBin a b r))
  -- 1139-1175
  | .divDA a r _ => .ok (s.loop p (bUn a r))
  -- 1182-1204, 1207-1229
  | .posSign a r => .ok (s.loop p (bUn a r))
  | .negSign a r => .ok (s.loop p (bUn a r))
  -- 1236-1258
  | .expOp a r => .ok (s.loop p (bUn a r))
  -- 1261-1286, 1289-1314
  | .sinOp a _ r => .ok (s.loop p (bUn a r))
  | .cosOp a _ r => .ok (s.loop p (bUn a r))
  -- 1317-1347
  | .quad _ a _ r => .ok (s.loop p (bUn a r))
  -- 1350-1377
  | .logOp a r => .ok (s.loop p (bUn a r))
  -- 1380-1418
  | .powOp a r _ => .ok (s.loop p (bUn a r))
  -- 1421-1450
  | .sqrtOp a r => .ok (s.loop p (bUn a r))
  -- 1453-1482
  | .cbrtOp a r => .ok (s.loop p (bUn a r))
  -- 1485-1512
  | .genQuad a _ r _ _ => .ok (s.loop p (bUn a r))
  -- 1584-1589
  | .minOp a b r _ => .ok (s.loop p (bBin a b r))
  -- 1684-1688
  | .absVal a r _ => .ok (s.loop p (bUn a r))
  -- 1694-1720, 1723-1750
  | .ceilOp _ r _ => .ok (s.loop p (bClr r))
  | .floorOp _ r _ => .ok (s.loop p (bClr r))
  -- 1808-1817
  | .condAssign _ a1 a2 r _ =>
    let s := if r ≠ a1 then s.loop p (bOr a1 r) else s
    let s := if r ≠ a2 then s.loop p (bOr a2 r) else s
    .ok (if r ≠ a1 ∧ r ≠ a2 then s.loop p (bClr r) else s)
  -- 1872-1881
  | .condEqAssign _ a1 a2 r _ =>
    let s := if r ≠ a1 then s.loop p (bOr a1 r) else s
    let s := if r ≠ a2 then s.loop p (bOr a2 r) else s
    .ok (if r ≠ a1 ∧ r ≠ a2 then s.loop p (bClr r) else s)
  -- 1920-1924
  | .condAssignS _ a1 r _ => .ok (s.condS p a1 r)
  -- 1961-1965
  | .condEqAssignS _ a1 r _ => .ok (s.condS p a1 r)
  -- 2072-2074
  | .setRef _ _ => .error .refs
  -- 2322-2346
  | .vecCopy a n r => .ok ((List.range n).foldl (fun s q => s.loop p (bMv (a + q) (r + q))) s)
  -- 2348-2372
  | .vecDot a b n r =>
    .ok ((List.range n).foldl (fun s q => s.loop p fun u => bOr (a + q) r (bOr (b + q) r u)) s)
  -- 2374-2403
  | .vecAxpy a a1 a2 n r =>
    .ok ((List.range n).foldl (fun s q => s.loop p fun u =>
      bOr (a1 + q) (r + q) (bOr (a2 + q) (r + q) (bOr a (r + q) u))) s)
  -- 2597-2612
  | .takeStock r vs =>
    .ok ((List.range vs.length).foldl (fun s q => s.loop p (bClr (r + vs.length - 1 - q))) s)
  -- 2615-2628
  | .deathNot a b => .ok ((List.range (b + 1 - a)).foldl (fun s q => s.loop p (bClr (a + q))) s)

/-- The loop of `int_reverse_safe` (fo_rev.cpp:548-2986): last operation first. -/
def revSafeRun (p : Nat) (X : Nat → Nat → Word) : List (Base K) → RBS → Except BErr RBS
  | [], s => .ok s
  | o :: os, s =>
    match revSafeRun p X os s with
    | .error e => .error e
    | .ok s' => revSafeStep p X o s'

/-- Variables of `int_reverse_tight`: the bit patterns, `rp_T` and the value stack. -/
structure TRS (K : Type) where
  b : RBS
  T : Nat → K
  stk : List K

section
variable [Scalar K]

/-- `rp_T[r] = tape.get_taylor()` -/
def TRS.pop (r : Nat) (s : TRS K) : Except RStop (TRS K) :=
  match s.stk with
  | [] => .error .stackEmpty
  | x :: st => .ok { s with T := upd s.T r x, stk := st }
/-- `FOR_0_LE_l_LT_p { body }` -/
def TRS.loop (p : Nat) (g : (Nat → Word) → Nat → Word) (s : TRS K) : TRS K := { s with b := s.b.loop p g }

/-- fo_rev.cpp:462-463, 517-519: `rp_T` is zero-initialised; the value stack is what the forward sweep
with keep has left. -/
def TRS.init (n m : Nat) (R0 : Nat → Nat → Word) (stk : List K) : TRS K := ⟨RBS.init n m R0, fun _ => 0, stk⟩

/-- One `case` of the switch in `int_reverse_tight` (fo_rev.cpp with `_INT_REV_`, `_TIGHT_`). -/
def revTightStep (p : Nat) (X : Nat → Nat → Word) (o : Base K) (s : TRS K) : Except RStop (TRS K) :=
  match o with
  -- 587-611 (only the return code)
  | .cmp _ _ => .ok s
  -- 618-639
  | .assignA a r => (s.loop p (bMv a r)).pop r
  -- 642-701
  | .assignD r _ => (s.loop p (bClr r)).pop r
  | .assignP _ r => (s.loop p (bClr r)).pop r
  | .assignD0 r => (s.loop p (bClr r)).pop r
  | .assignD1 r => (s.loop p (bClr r)).pop r
  -- 704-731
  | .assignInd r =>
    TRS.pop r { s with b := { s.b with
      R := fun l => if l < p then upd (s.b.R l) (s.b.ii - 1) (s.b.A l r) else s.b.R l, ii := s.b.ii - 1 } }
  -- 734-744
  | .assignDep r =>
    .ok { s with b := { s.b with
      A := fun l => if l < p then upd (s.b.A l) r (X l (s.b.di - 1)) else s.b.A l, di := s.b.di - 1 } }
  -- 751-831
  | .eqPlusD r _ => s.pop r
  | .eqPlusA a r => (s.loop p (bOr a r)).pop r
  | .eqMinD r _ => s.pop r
  | .eqMinA a r => (s.loop p (bOr a r)).pop r
  | .eqMultD r _ => s.pop r
  -- 834-856
  | .eqMultA a r => (s.loop p (bOr a r)).pop r
  -- 859-866
  | .incrA r => s.pop r
  | .decrA r => s.pop r
  -- 873-1016
  | .plusAA a b r => (s.loop p (bBin a b r)).pop r
  | .plusDA a r _ => (s.loop p (bUn a r)).pop r
  | .minAA a b r => (s.loop p (bBin a b r)).pop r
  | .minDA a r _ => (s.loop p (bUn a r)).pop r
  | .multAA a b r => (s.loop p (bBin b a r)).pop r
  -- 1020-1072: recomputation
  | .eqPlusProd a b r =>
    .ok { s.loop p (fun u => bOr a r (bOr b r u)) with T := upd s.T r (s.T r - s.T a * s.T b) }
  | .eqMinProd a b r =>
    .ok { s.loop p (fun u => bOr a r (bOr b r u)) with T := upd s.T r (s.T r + s.T a * s.T b) }
  -- 1075-1101
  | .multDA a r _ => (s.loop p (bUn a r)).pop r
  -- 1104-1136: the value is fetched only under `!defined(_INT_REV_)` (1116-1121): no pop here
  | .divAA a b r => .ok (s.loop p (bBin a b r))
  -- 1139-1175: for `arg == res` the value is fetched only under `!defined(_INT_REV_)` (1151-1157)
  | .divDA a r _ => if a ≠ r then (s.loop p (bUn a r)).pop r else .ok (s.loop p (bUn a r))
  -- 1182-1258
  | .posSign a r => (s.loop p (bUn a r)).pop r
  | .negSign a r => (s.loop p (bUn a r)).pop r
  | .expOp a r => (s.loop p (bUn a r)).pop r
  -- 1261-1314
  | .sinOp a b r =>
    match (s.loop p (bUn a r)).pop r with
    | .error e => .error e
    | .ok s => s.pop b
  | .cosOp a b r =>
    match (s.loop p (bUn a r)).pop r with
    | .error e => .error e
    | .ok s => s.pop b
  -- 1317-1377
  | .quad _ a _ r => (s.loop p (bUn a r)).pop r
  | .logOp a r => (s.loop p (bUn a r)).pop r
  -- 1380-1418: as `div_d_a` (1391-1400)
  | .powOp a r _ => if r ≠ a then (s.loop p (bUn a r)).pop r else .ok (s.loop p (bUn a r))
  -- 1421-1512
  | .sqrtOp a r => (s.loop p (bUn a r)).pop r
  | .cbrtOp a r => (s.loop p (bUn a r)).pop r
  | .genQuad a _ r _ _ => (s.loop p (bUn a r)).pop r
  -- 1515-1582
  | .minOp a b r _ =>
    match s.pop r with
    | .error e => .error e
    | .ok s =>
      if s.T a > s.T b then .ok (s.loop p (bUn b r))
      else if s.T a < s.T b then .ok (s.loop p (bUn a r))
      else .ok (s.loop p (bBin b a r))
  -- 1594-1682
  | .absVal a r _ =>
    match s.pop r with
    | .error e => .error e
    | .ok s =>
      if s.T a < 0 then .ok (s.loop p (bUn a r))
      else if s.T a > 0 then .ok (s.loop p (bUn a r))
      else .ok (s.loop p (bClr r))
  -- 1694-1750
  | .ceilOp _ r _ => (s.loop p (bClr r)).pop r
  | .floorOp _ r _ => (s.loop p (bClr r)).pop r
  -- 1757-1806
  | .condAssign a a1 a2 r _ =>
    match s.pop r with
    | .error e => .error e
    | .ok s =>
      if s.T a > 0 then if r ≠ a1 then .ok (s.loop p (bMv a1 r)) else .ok s
      else if r ≠ a2 then .ok (s.loop p (bMv a2 r)) else .ok s
  -- 1821-1870
  | .condEqAssign a a1 a2 r _ =>
    match s.pop r with
    | .error e => .error e
    | .ok s =>
      if s.T a ≥ 0 then if r ≠ a1 then .ok (s.loop p (bMv a1 r)) else .ok s
      else if r ≠ a2 then .ok (s.loop p (bMv a2 r)) else .ok s
  -- 1886-1918
  | .condAssignS a a1 r _ =>
    match s.pop r with
    | .error e => .error e
    | .ok s =>
      if s.T a > 0 then if r ≠ a1 then .ok (s.loop p (bMv a1 r)) else .ok s
      else .ok s
  -- 1928-1959
  | .condEqAssignS a a1 r _ =>
    match s.pop r with
    | .error e => .error e
    | .ok s =>
      if s.T a ≥ 0 then if r ≠ a1 then .ok (s.loop p (bMv a1 r)) else .ok s
      else .ok s
  -- 2040-2075 (the consistency check of the location is not modelled)
  | .setRef r _ => s.pop r
  -- 2322-2346
  | .vecCopy a n r =>
    (List.range n).foldlM (fun s q => (s.loop p (bMv (a + q) (r + q))).pop (r + q)) s
  -- 2348-2372
  | .vecDot a b n r =>
    ((List.range n).foldl (fun s q => s.loop p fun u => bOr (a + q) r (bOr (b + q) r u)) s).pop r
  -- 2374-2403
  | .vecAxpy a a1 a2 n r =>
    (List.range n).foldlM (fun s q => (s.loop p fun u =>
      bOr (a1 + q) (r + q) (bOr (a2 + q) (r + q) (bOr a (r + q) u))).pop (r + q)) s
  -- 2597-2612
  | .takeStock r vs =>
    .ok ((List.range vs.length).foldl (fun s q => s.loop p (bClr (r + vs.length - 1 - q))) s)
  -- 2615-2628
  | .deathNot a b =>
    let s := (List.range (b + 1 - a)).foldl (fun s q => s.loop p (bClr (a + q))) s
    (List.range (b + 1 - a)).foldlM (fun s q => s.pop (a + q)) s

/-- The loop of `int_reverse_tight` (fo_rev.cpp:548-2986). -/
def revTightRun (p : Nat) (X : Nat → Nat → Word) : List (Base K) → TRS K → Except RStop (TRS K)
  | [], s => .ok s
  | o :: os, s =>
    match revTightRun p X os s with
    | .error e => .error e
    | .ok s' => revTightStep p X o s'
end

/-! ## Soundness of the loop bodies -/

/-- Bit `b` is set wherever the adjoint does not vanish. -/
def CovA [Zero K] (b : Nat) (u : Nat → Word) (A : Nat → K) : Prop :=
  ∀ x, (u x).getLsbD b = false → A x = 0

section
variable [Scalar K] {b : Nat} {u : Nat → Word} {A : Nat → K}

theorem CovA.set (h : CovA b u A) {r : Nat} {w : Word} {v : K} (hw : w.getLsbD b = false → v = 0) :
    CovA b (upd u r w) (upd A r v) := by
  intro x
  simp only [upd_apply]
  split_ifs with hx
  · exact hw
  · exact h x

theorem CovA.clr (h : CovA b u A) (r : Nat) : CovA b (bClr r u) (upd A r 0) := h.set fun _ => rfl

theorem CovA.or (h : CovA b u A) {a : Nat} {w : Word} {v : K} (hw : w.getLsbD b = false → v = 0) :
    CovA b (upd u a (u a ||| w)) (upd A a (A a + v)) :=
  h.set fun hb => by
    simp only [BitVec.getLsbD_or, Bool.or_eq_false_iff] at hb
    rw [h a hb.1, hw hb.2, add_zero]

theorem CovA.orR (h : CovA b u A) (a : Nat) {r : Nat} {v : K} (hv : A r = 0 → v = 0) :
    CovA b (bOr a r u) (upd A a (A a + v)) := h.or fun hb => hv (h r hb)

/-- The adjoint of `r` is changed, the word is not. -/
theorem CovA.scale (h : CovA b u A) {r : Nat} {v : K} (hv : A r = 0 → v = 0) : CovA b u (upd A r v) := by
  intro x hx
  rw [upd_apply]
  split_ifs with hr
  · subst hr; exact hv (h _ hx)
  · exact h x hx

theorem CovA.un (h : CovA b u A) (a r : Nat) {v : K} (hv : A r = 0 → v = 0) :
    CovA b (bUn a r u) (upd (upd A r 0) a (upd A r 0 a + v)) :=
  (h.set (r := r) (w := 0) (v := 0) fun _ => rfl).or fun hb => hv (h r hb)

theorem CovA.bin (h : CovA b u A) (a c r : Nat) {v w : K} (hv : A r = 0 → v = 0) (hw : A r = 0 → w = 0) :
    CovA b (bBin a c r u)
      (upd (upd (upd A r 0) a (upd A r 0 a + v)) c (upd (upd A r 0) a (upd A r 0 a + v) c + w)) :=
  ((h.set (r := r) (w := 0) (v := 0) fun _ => rfl).or fun hb => hv (h r hb)).or fun hb => hw (h r hb)
end

/-! ## One operation -/

/-- Operations the soundness of the reverse bit sweep in safe mode does not cover: the two-argument
conditional assignments (see the witness) and the vector operations (which no recorded program
contains). -/
def Base.revOk : Base K → Prop
  | .condAssignS _ _ _ _ | .condEqAssignS _ _ _ _ => False
  | .vecCopy _ _ _ | .vecDot _ _ _ _ | .vecAxpy _ _ _ _ _ => False
  | .setRef _ _ => False
  | _ => True

/-- Coupling of the reverse bit sweep with `fos_reverse`: bit `b` of word `l`. -/
structure RCov [Scalar K] (n l b : Nat) (s : RBS) (r : RS K) : Prop where
  A : CovA b (s.A l) r.A
  ii : s.ii = r.ii
  di : s.di = r.di
  out : ∀ i, r.ii ≤ i → i < n → (s.R l i).getLsbD b = false → r.bar i = 0

section
variable [Scalar K] {n p l b : Nat}

theorem RS.pop_ok {r : Nat} {s s' : RS K} (h : s.pop r = .ok s') :
    s'.A = s.A ∧ s'.ii = s.ii ∧ s'.di = s.di ∧ s'.bar = s.bar := by
  unfold RS.pop at h
  split at h <;> cases h
  exact ⟨rfl, rfl, rfl, rfl⟩

theorem RCov.pop {s : RBS} {r r' : RS K} {a : Nat} (h : RCov n l b s r) (hp : r.pop a = .ok r') : RCov n l b s r' := by
  obtain ⟨h1, h2, h3, h4⟩ := RS.pop_ok hp
  exact ⟨h1 ▸ h.A, h2 ▸ h.ii, h3 ▸ h.di, by rw [h2, h4]; exact h.out⟩

theorem RCov.A' {s : RBS} {r r' : RS K} (h : RCov n l b s r) {g : (Nat → Word) → Nat → Word} (hl : l < p)
    (hA : CovA b (g (s.A l)) r'.A) (h2 : r'.ii = r.ii) (h3 : r'.di = r.di) (h4 : r'.bar = r.bar) :
    RCov n l b (s.loop p g) r' := by
  refine ⟨?_, h2 ▸ h.ii, h3 ▸ h.di, ?_⟩
  · simp only [RBS.loop, hl, if_true]; exact hA
  · rw [h2, h4]; exact h.out

theorem RCov.scale {s : RBS} {r r' : RS K} (h : RCov n l b s r)
    (hA : CovA b (s.A l) r'.A) (h2 : r'.ii = r.ii) (h3 : r'.di = r.di) (h4 : r'.bar = r.bar) :
    RCov n l b s r' := ⟨hA, h2 ▸ h.ii, h3 ▸ h.di, by rw [h2, h4]; exact h.out⟩

theorem RCov.foldl {γ : Type} {g : RBS → γ → RBS} {f : RS K → γ → RS K} (J : List γ)
    (hs : ∀ s r q, RCov n l b s r → RCov n l b (g s q) (f r q)) {s : RBS} {r : RS K}
    (h0 : RCov n l b s r) : RCov n l b (J.foldl g s) (J.foldl f r) := by
  induction J generalizing s r with
  | nil => exact h0
  | cons q J ih => exact ih (hs s r q h0)

theorem RCov.pops (J : List Nat) {s : RBS} {r r' : RS K} {g : Nat → Nat} (h : RCov n l b s r)
    (hp : J.foldlM (fun s q => RS.pop (g q) s) r = .ok r') : RCov n l b s r' := by
  induction J generalizing r with
  | nil => cases hp; exact h
  | cons q J ih =>
    rw [List.foldlM_cons] at hp
    cases h1 : r.pop (g q) with
    | error e => rw [h1] at hp; cases hp
    | ok r1 => rw [h1] at hp; exact ih (h.pop h1) hp

end
end Verif.Sparse
