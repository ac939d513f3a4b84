import Verif.AD.Reverse

/-!
# `fov_reverse` (`fo_rev.cpp` with `_FOV_`)

`rpp_A[loc]` is an array of `p` adjoints, one per weight vector.  Every `FOR_0_LE_l_LT_p`
(fo_rev.cpp:176, ascending) is a loop `up p`; the pointers `Ares`, `Aarg` walked by `++` are
written as `A[loc][l]`.  `LAGRANGE(l, i)` is `lagrange[l][i]`, `RESULTS(l, i)` is `results[l][i]`.
-/
set_option linter.all false
namespace Verif.AD
open Elem

variable {K : Type} [Scalar K]

/-- Variables of a vector reverse sweep.  `A loc l` is `rpp_A[loc][l]`, `bar l i` is
`results[l][i]`. -/
structure VRS (K : Type) where
  T : Nat → K
  A : Nat → Nat → K
  stk : List K
  ii : Nat
  di : Nat
  bar : Nat → Nat → K

namespace VRS
/-- `rp_T[r] = tape.get_taylor()` -/
def pop (r : Nat) (s : VRS K) : Except RStop (VRS K) :=
  match s.stk with
  | [] => .error .stackEmpty
  | x :: st => .ok { s with T := upd s.T r x, stk := st }
/-- `rpp_A[r][l] = v` -/
def setA (r l : Nat) (v : K) (s : VRS K) : VRS K :=
  { s with A := fun a c => if a = r ∧ c = l then v else s.A a c }
/-- `rpp_A[r][l] += v` -/
def addA (r l : Nat) (v : K) (s : VRS K) : VRS K := s.setA r l (s.A r l + v)
/-- `results[l][i] = v` -/
def setB (l i : Nat) (v : K) (s : VRS K) : VRS K :=
  { s with bar := fun a c => if a = l ∧ c = i then v else s.bar a c }
/-- `for (l = 0; l < p; l++)` -/
def up (p : Nat) (f : Nat → VRS K → VRS K) (s : VRS K) : VRS K :=
  (List.range p).foldl (fun s l => f l s) s
/-- `aTmp = *Ares; *Ares++ = 0.0; *Aarg++ += aTmp * k` for every `l` -/
def un (p a r : Nat) (k : K) (s : VRS K) : VRS K :=
  s.up p fun l s =>
    let aTmp := s.A r l
    (s.setA r l 0).addA a l (aTmp * k)
end VRS

/-- `rpp_A = myalloc2(NUM_MAX_LIVES, p)`, `rp_T = myalloc1(NUM_MAX_LIVES)` (fo_rev.cpp:502-503). -/
def VRS.init (n m : Nat) (stk : List K) : VRS K :=
  ⟨fun _ => 0, fun _ _ => 0, stk, n, m, fun _ _ => 0⟩

/-- One `case` of the switch in `fov_reverse`; `U l j` is `lagrange[l][j]`, `p` is `nrows`. -/
def fovRevStep (p : Nat) (U : Nat → Nat → K) (o : Base K) (s : VRS K) : Except RStop (VRS K) :=
  match o with
  -- 587-611
  | .cmp _ _ => .ok s
  -- 618-639
  | .assignA a r =>
    (s.up p fun l s => (s.addA a l (s.A r l)).setA r l 0).pop r
  -- 642-701
  | .assignD r _ => (s.up p fun l s => s.setA r l 0).pop r
  | .assignP _ r => (s.up p fun l s => s.setA r l 0).pop r
  | .assignD0 r => (s.up p fun l s => s.setA r l 0).pop r
  | .assignD1 r => (s.up p fun l s => s.setA r l 0).pop r
  -- 704-731 (`nestedReverseEval` false)
  | .assignInd r =>
    let s := s.up p fun l s => s.setB l (s.ii - 1) (s.A r l)
    match s.pop r with
    | .error e => .error e
    | .ok s => .ok { s with ii := s.ii - 1 }
  -- 734-744
  | .assignDep r =>
    let s := s.up p fun l s => s.setA r l (U l (s.di - 1))
    .ok { s with di := s.di - 1 }
  -- 751-759
  | .eqPlusD r _ => s.pop r
  -- 762-780
  | .eqPlusA a r => (s.up p fun l s => s.addA a l (s.A r l)).pop r
  -- 783-791
  | .eqMinD r _ => s.pop r
  -- 794-812
  | .eqMinA a r => (s.up p fun l s => s.addA a l (- s.A r l)).pop r
  -- 815-831
  | .eqMultD r k => (s.up p fun l s => s.setA r l (s.A r l * k)).pop r
  -- 834-856
  | .eqMultA a r =>
    match s.pop r with
    | .error e => .error e
    | .ok s =>
      .ok (s.up p fun l s =>
        let aTmp := s.A r l
        let s := s.setA r l (aTmp * s.T a)
        s.addA a l (aTmp * s.T r))
  -- 859-866
  | .incrA r => s.pop r
  | .decrA r => s.pop r
  -- 873-899
  | .plusAA a b r =>
    (s.up p fun l s =>
      let aTmp := s.A r l
      ((s.setA r l 0).addA a l aTmp).addA b l aTmp).pop r
  -- 902-928
  | .plusDA a r _ =>
    (s.up p fun l s =>
      let aTmp := s.A r l
      (s.setA r l 0).addA a l aTmp).pop r
  -- 931-958
  | .minAA a b r =>
    (s.up p fun l s =>
      let aTmp := s.A r l
      ((s.setA r l 0).addA a l aTmp).addA b l (- aTmp)).pop r
  -- 961-987
  | .minDA a r _ =>
    (s.up p fun l s =>
      let aTmp := s.A r l
      (s.setA r l 0).addA a l (- aTmp)).pop r
  -- 990-1016
  | .multAA a b r =>
    match s.pop r with
    | .error e => .error e
    | .ok s =>
      .ok (s.up p fun l s =>
        let aTmp := s.A r l
        let s := s.setA r l 0
        let s := s.addA b l (aTmp * s.T a)
        s.addA a l (aTmp * s.T b))
  -- 1020-1044
  | .eqPlusProd a b r =>
    let s := { s with T := upd s.T r (s.T r - s.T a * s.T b) }
    .ok (s.up p fun l s =>
      let s := s.addA b l (s.A r l * s.T a)
      s.addA a l (s.A r l * s.T b))
  -- 1048-1072
  | .eqMinProd a b r =>
    let s := { s with T := upd s.T r (s.T r + s.T a * s.T b) }
    .ok (s.up p fun l s =>
      let s := s.addA b l (- (s.A r l * s.T a))
      s.addA a l (- (s.A r l * s.T b)))
  -- 1075-1101
  | .multDA a r k =>
    (s.up p fun l s =>
      let aTmp := s.A r l
      (s.setA r l 0).addA a l (k * aTmp)).pop r
  -- 1104-1136
  | .divAA a b r =>
    let r_0 := - s.T r
    match s.pop r with
    | .error e => .error e
    | .ok s =>
      let r0 := 1 / s.T b
      let r_0 := r_0 * r0
      .ok (s.up p fun l s =>
        let aTmp := s.A r l
        let s := s.setA r l 0
        let s := s.addA a l (aTmp * r0)
        s.addA b l (aTmp * r_0))
  -- 1139-1175
  | .divDA a r _ =>
    let r0 := - s.T r
    if a = r then
      match s.pop a with
      | .error e => .error e
      | .ok s => .ok (s.un p a r (r0 / s.T a))
    else (s.un p a r (r0 / s.T a)).pop r
  -- 1182-1204
  | .posSign a r =>
    (s.up p fun l s =>
      let aTmp := s.A r l
      (s.setA r l 0).addA a l aTmp).pop r
  -- 1207-1229
  | .negSign a r =>
    (s.up p fun l s =>
      let aTmp := s.A r l
      (s.setA r l 0).addA a l (- aTmp)).pop r
  -- 1236-1258
  | .expOp a r => (s.un p a r (s.T r)).pop r
  -- 1261-1286
  | .sinOp a b r =>
    match (s.un p a r (s.T b)).pop r with
    | .error e => .error e
    | .ok s => s.pop b
  -- 1289-1314
  | .cosOp a b r =>
    match (s.up p fun l s =>
      let aTmp := s.A r l
      (s.setA r l 0).addA a l (- (aTmp * s.T b))).pop r with
    | .error e => .error e
    | .ok s => s.pop b
  -- 1317-1347
  | .quad _ a b r =>
    match s.pop r with
    | .error e => .error e
    | .ok s => .ok (s.un p a r (s.T b))
  -- 1350-1377
  | .logOp a r =>
    match s.pop r with
    | .error e => .error e
    | .ok s => .ok (s.un p a r (1 / s.T a))
  -- 1380-1418
  | .powOp a r k =>
    let r0 := s.T r
    if a = r then
      match s.pop a with
      | .error e => .error e
      | .ok s => .ok (s.un p a r (if s.T a = 0 then 0 else r0 * (k / s.T a)))
    else (s.un p a r (if s.T a = 0 then 0 else r0 * (k / s.T a))).pop r
  -- 1421-1450
  | .sqrtOp a r => (s.un p a r (if s.T r ≠ 0 then 1 / 2 / s.T r else 0)).pop r
  -- 1453-1482
  | .cbrtOp a r => (s.un p a r (if s.T r ≠ 0 then 1 / (3 * s.T r * s.T r) else 0)).pop r
  -- 1485-1512
  | .genQuad a b r _ _ => (s.un p a r (s.T b)).pop r
  -- 1515-1591
  | .minOp a b r _ =>
    match s.pop r with
    | .error e => .error e
    | .ok s =>
      if s.T a > s.T b then
        .ok (s.up p fun l s =>
          let aTmp := s.A r l
          (s.setA r l 0).addA b l aTmp)
      else if s.T a < s.T b then
        .ok (s.up p fun l s =>
          let aTmp := s.A r l
          (s.setA r l 0).addA a l aTmp)
      else
        .ok (s.up p fun l s =>
          let aTmp := s.A r l / 2
          ((s.setA r l 0).addA b l aTmp).addA a l aTmp)
  -- 1594-1691
  | .absVal a r _ =>
    match s.pop r with
    | .error e => .error e
    | .ok s =>
      if s.T a < 0 then
        .ok (s.up p fun l s =>
          let aTmp := s.A r l
          (s.setA r l 0).addA a l (- aTmp))
      else if s.T a > 0 then
        .ok (s.up p fun l s =>
          let aTmp := s.A r l
          (s.setA r l 0).addA a l aTmp)
      else .ok (s.up p fun l s => s.setA r l 0)
  -- 1694-1750
  | .ceilOp _ r _ =>
    match s.pop r with
    | .error e => .error e
    | .ok s => .ok (s.up p fun l s => s.setA r l 0)
  | .floorOp _ r _ =>
    match s.pop r with
    | .error e => .error e
    | .ok s => .ok (s.up p fun l s => s.setA r l 0)
  -- 1757-1819
  | .condAssign a a1 a2 r _ =>
    match s.pop r with
    | .error e => .error e
    | .ok s =>
      if s.T a > 0 then
        if r ≠ a1 then .ok (s.up p fun l s => (s.addA a1 l (s.A r l)).setA r l 0) else .ok s
      else
        if r ≠ a2 then .ok (s.up p fun l s => (s.addA a2 l (s.A r l)).setA r l 0) else .ok s
  -- 1821-1883
  | .condEqAssign a a1 a2 r _ =>
    match s.pop r with
    | .error e => .error e
    | .ok s =>
      if s.T a ≥ 0 then
        if r ≠ a1 then .ok (s.up p fun l s => (s.addA a1 l (s.A r l)).setA r l 0) else .ok s
      else
        if r ≠ a2 then .ok (s.up p fun l s => (s.addA a2 l (s.A r l)).setA r l 0) else .ok s
  -- 1886-1926
  | .condAssignS a a1 r _ =>
    match s.pop r with
    | .error e => .error e
    | .ok s =>
      if s.T a > 0 then
        if r ≠ a1 then .ok (s.up p fun l s => (s.addA a1 l (s.A r l)).setA r l 0) else .ok s
      else .ok s
  -- 1928-1967
  | .condEqAssignS a a1 r _ =>
    match s.pop r with
    | .error e => .error e
    | .ok s =>
      if s.T a ≥ 0 then
        if r ≠ a1 then .ok (s.up p fun l s => (s.addA a1 l (s.A r l)).setA r l 0) else .ok s
      else .ok s
  -- 2040-2075
  | .setRef r _ => s.pop r
  -- 2322-2346
  | .vecCopy a n r =>
    (List.range n).foldlM (fun s q =>
      (s.up p fun l s => (s.addA (a + q) l (s.A (r + q) l)).setA (r + q) l 0).pop (r + q)) s
  -- 2348-2372
  | .vecDot a b n r =>
    let s := (List.range n).foldl (fun s q =>
      s.up p fun l s =>
        let s := s.addA (b + q) l (s.A r l * s.T (a + q))
        s.addA (a + q) l (s.A r l * s.T (b + q))) s
    s.pop r
  -- 2374-2403
  | .vecAxpy a a1 a2 n r =>
    (List.range n).foldlM (fun s q =>
      (s.up p fun l s =>
        let s := s.addA (a2 + q) l (s.A (r + q) l)
        let s := s.addA (a1 + q) l (s.A (r + q) l * s.T a)
        s.addA a l (s.A (r + q) l * s.T (a1 + q))).pop (r + q)) s
  -- 2597-2612
  | .takeStock r vs =>
    .ok ((List.range vs.length).foldl (fun s q =>
      s.up p fun l s => s.setA (r + vs.length - 1 - q) l 0) s)
  -- 2615-2628
  | .deathNot a b =>
    let s := (List.range (b + 1 - a)).foldl (fun s q => s.up p fun l s => s.setA (a + q) l 0) s
    (List.range (b + 1 - a)).foldlM (fun s q => s.pop (a + q)) s

/-- The reverse loop of `fov_reverse` (fo_rev.cpp:549-2760). -/
def fovRevRun (p : Nat) (U : Nat → Nat → K) : List (Base K) → VRS K → Except RStop (VRS K)
  | [], s => .ok s
  | o :: os, s =>
    match fovRevRun p U os s with
    | .error e => .error e
    | .ok s' => fovRevStep p U o s'

/-! ## Row `l` of a vector sweep -/

namespace VRS

/-- What a scalar sweep with weight row `l` would hold. -/
def row (l : Nat) (s : VRS K) : RS K := ⟨s.T, fun a => s.A a l, s.stk, s.ii, s.di, s.bar l⟩

theorem A_row (l a : Nat) (s : VRS K) : s.A a l = (s.row l).A a := rfl
theorem T_row (l : Nat) (s : VRS K) : s.T = (s.row l).T := rfl

theorem row_setA (l r : Nat) (v : K) (s : VRS K) : (s.setA r l v).row l = (s.row l).setA r v := by
  simp only [row, setA, RS.setA]
  congr 1
  funext a
  simp [upd_apply]

theorem row_setA_ne {l k : Nat} (h : l ≠ k) (r : Nat) (v : K) (s : VRS K) :
    (s.setA r k v).row l = s.row l := by
  simp [row, setA, h]

theorem row_addA (l r : Nat) (v : K) (s : VRS K) : (s.addA r l v).row l = (s.row l).addA r v := by
  rw [addA, row_setA]; rfl

theorem row_addA_ne {l k : Nat} (h : l ≠ k) (r : Nat) (v : K) (s : VRS K) :
    (s.addA r k v).row l = s.row l := row_setA_ne h _ _ _

theorem row_setB (l i : Nat) (v : K) (s : VRS K) :
    (s.setB l i v).row l = { s.row l with bar := upd (s.row l).bar i v } := by
  simp only [row, setB]
  congr 1
  funext a
  simp [upd_apply]

theorem row_setB_ne {l k : Nat} (h : l ≠ k) (i : Nat) (v : K) (s : VRS K) :
    (s.setB k i v).row l = s.row l := by
  simp [row, setB, h]

/-- A loop over the rows acts on row `l` as its body for `l`. -/
theorem row_up {p l : Nat} (hl : l < p) (f : Nat → VRS K → VRS K) (g : RS K → RS K)
    (h1 : ∀ s, (f l s).row l = g (s.row l)) (h2 : ∀ k s, l ≠ k → (f k s).row l = s.row l)
    (s : VRS K) : (s.up p f).row l = g (s.row l) := by
  unfold up
  have key : ∀ (L : List Nat), L.Nodup → ∀ s : VRS K,
      ((L.foldl (fun s l => f l s) s).row l) = if l ∈ L then g (s.row l) else s.row l := by
    intro L
    induction L with
    | nil => intro _ s; simp
    | cons k L ih =>
      intro hn s
      rw [List.nodup_cons] at hn
      rw [List.foldl_cons, ih hn.2]
      by_cases hk : l = k
      · subst hk
        simp [hn.1, h1]
      · simp [hk, h2 k s hk]
  rw [key _ List.nodup_range]
  simp [hl]

theorem row_pop (l r : Nat) (s : VRS K) : (s.pop r).map (row l) = (s.row l).pop r := by
  unfold pop RS.pop
  cases h : s.stk <;> simp [row, h, Except.map]

/-- The same followed by a pop. -/
theorem row_upPop {p l : Nat} (hl : l < p) (r : Nat) (f : Nat → VRS K → VRS K) (g : RS K → RS K)
    (h1 : ∀ s, (f l s).row l = g (s.row l)) (h2 : ∀ k s, l ≠ k → (f k s).row l = s.row l)
    (s : VRS K) : ((s.up p f).pop r).map (row l) = (g (s.row l)).pop r := by
  rw [row_pop, row_up hl f g h1 h2]

theorem row_un {p l : Nat} (hl : l < p) (a r : Nat) (k : K) (s : VRS K) :
    (s.un p a r k).row l = (s.row l).un a r k := by
  exact row_up hl _ (fun s => s.un a r k) (fun s => by
      show (addA _ _ _ _).row l = _
      rw [row_addA, row_setA]; rfl)
    (fun k s h => by
      show (addA _ _ _ _).row l = _
      rw [row_addA_ne h, row_setA_ne h]) s

theorem row_unPop {p l : Nat} (hl : l < p) (a r q : Nat) (k : K) (s : VRS K) :
    ((s.un p a r k).pop q).map (row l) = ((s.row l).un a r k).pop q := by
  rw [row_pop, row_un hl]

/-- First a pop, then the rest. -/
theorem row_thenPop {l r : Nat} {s : VRS K} {F : VRS K → Except RStop (VRS K)}
    {G : RS K → Except RStop (RS K)} (h : ∀ s, (F s).map (row l) = G (s.row l)) :
    ((match s.pop r with
      | .error e => .error e
      | .ok s => F s : Except RStop (VRS K)).map (row l)) =
    (match (s.row l).pop r with
      | .error e => .error e
      | .ok s => G s) := by
  rw [← row_pop]
  cases s.pop r with
  | error e => rfl
  | ok s => exact h s

theorem row_foldl {l : Nat} (F : VRS K → Nat → VRS K) (G : RS K → Nat → RS K)
    (h : ∀ s q, (F s q).row l = G (s.row l) q) (L : List Nat) (s : VRS K) :
    (L.foldl F s).row l = L.foldl G (s.row l) := by
  induction L generalizing s with
  | nil => rfl
  | cons q L ih => rw [List.foldl_cons, List.foldl_cons, ih, h]

theorem row_foldlM {l : Nat} (F : VRS K → Nat → Except RStop (VRS K))
    (G : RS K → Nat → Except RStop (RS K))
    (h : ∀ s q, (F s q).map (row l) = G (s.row l) q) (L : List Nat) (s : VRS K) :
    (L.foldlM F s).map (row l) = L.foldlM G (s.row l) := by
  induction L generalizing s with
  | nil => rfl
  | cons q L ih =>
    rw [List.foldlM_cons, List.foldlM_cons, ← h]
    cases F s q with
    | error e => rfl
    | ok s' => exact ih s'

end VRS

local macro "colA" : term => `(fun s => by first | (simp only [VRS.row_setA, VRS.row_addA]; done) | (simp only [VRS.row_setA, VRS.row_addA]; rfl))
local macro "colB" : term => `(fun k s h => by simp only [VRS.row_setA_ne h, VRS.row_addA_ne h])

open VRS in
/-- Row `l` of one step of the vector sweep is the step of the scalar sweep. -/
theorem row_step {p l : Nat} (hl : l < p) (U : Nat → Nat → K) (o : Base K) (s : VRS K) :
    (fovRevStep p U o s).map (row l) = revStep (U l) o (s.row l) := by
  have z1 : ∀ (r : Nat) (s : VRS K), (s.up p fun l s => s.setA r l 0).row l = (s.row l).setA r 0 :=
    fun r s => row_up hl _ (fun s => s.setA r 0) (fun s => row_setA _ _ _ _)
      (fun k s h => row_setA_ne h _ _ _) s
  have mv : ∀ (a r : Nat) (s : VRS K), (s.up p fun l s => (s.addA a l (s.A r l)).setA r l 0).row l =
      ((s.row l).addA a ((s.row l).A r)).setA r 0 :=
    fun a r s => row_up hl _ (fun s => (s.addA a (s.A r)).setA r 0)
      (fun s => by rw [row_setA, row_addA]; rfl)
      (fun k s h => by rw [row_setA_ne h, row_addA_ne h]) s
  cases o
  case cmp => rfl
  case assignA a r => exact (row_pop _ _ _).trans (by rw [mv]; rfl)
  case assignD r k => exact (row_pop _ _ _).trans (by rw [z1]; rfl)
  case assignP q r => exact (row_pop _ _ _).trans (by rw [z1]; rfl)
  case assignD0 r => exact (row_pop _ _ _).trans (by rw [z1]; rfl)
  case assignD1 r => exact (row_pop _ _ _).trans (by rw [z1]; rfl)
  case assignInd r =>
    have h : ∀ s : VRS K, (s.up p fun l s => s.setB l (s.ii - 1) (s.A r l)).row l =
        { s.row l with bar := upd (s.row l).bar ((s.row l).ii - 1) ((s.row l).A r) } :=
      fun s => row_up hl _ (fun w => { w with bar := upd w.bar (w.ii - 1) (w.A r) })
        (fun s => by rw [row_setB]; rfl) (fun k s h => row_setB_ne h _ _ _) s
    unfold fovRevStep revStep
    simp only
    rw [← h]
    exact row_thenPop (G := fun w => .ok { w with ii := w.ii - 1 }) fun s => rfl
  case assignDep r =>
    have h : ∀ s : VRS K, (s.up p fun l s => s.setA r l (U l (s.di - 1))).row l =
        (s.row l).setA r (U l ((s.row l).di - 1)) :=
      fun s => row_up hl _ (fun w => w.setA r (U l (w.di - 1))) colA colB s
    unfold fovRevStep revStep
    simp only [Except.map]
    rw [← h]
    rfl
  case eqPlusD r k => exact row_pop _ _ _
  case eqPlusA a r => exact row_upPop hl r _ (fun w => w.addA a (w.A r)) colA colB s
  case eqMinD r k => exact row_pop _ _ _
  case eqMinA a r => exact row_upPop hl r _ (fun w => w.addA a (- w.A r)) colA colB s
  case eqMultD r k => exact row_upPop hl r _ (fun w => w.setA r (w.A r * k)) colA colB s
  case eqMultA a r =>
    exact row_thenPop fun s => congrArg Except.ok
      (row_up hl _ (fun w => (w.setA r (w.A r * w.T a)).addA a (w.A r * w.T r)) colA colB s)
  case incrA r => exact row_pop _ _ _
  case decrA r => exact row_pop _ _ _
  case plusAA a b r =>
    exact row_upPop hl r _ (fun w => ((w.setA r 0).addA a (w.A r)).addA b (w.A r)) colA colB s
  case plusDA a r k => exact row_upPop hl r _ (fun w => (w.setA r 0).addA a (w.A r)) colA colB s
  case minAA a b r =>
    exact row_upPop hl r _ (fun w => ((w.setA r 0).addA a (w.A r)).addA b (- w.A r)) colA colB s
  case minDA a r k => exact row_upPop hl r _ (fun w => (w.setA r 0).addA a (- w.A r)) colA colB s
  case multAA a b r =>
    exact row_thenPop fun s => congrArg Except.ok
      (row_up hl _ (fun w => ((w.setA r 0).addA b (w.A r * w.T a)).addA a (w.A r * w.T b)) colA colB s)
  case eqPlusProd a b r =>
    refine congrArg Except.ok ?_
    refine (row_up hl _ (fun w => (w.addA b (w.A r * w.T a)).addA a
      ((w.addA b (w.A r * w.T a)).A r * w.T b)) (fun s => ?_) colB _).trans rfl
    simp only [A_row l, T_row l, row_addA]; rfl
  case eqMinProd a b r =>
    refine congrArg Except.ok ?_
    refine (row_up hl _ (fun w => (w.addA b (-(w.A r * w.T a))).addA a
      (-((w.addA b (-(w.A r * w.T a))).A r * w.T b))) (fun s => ?_) colB _).trans rfl
    simp only [A_row l, T_row l, row_addA]; rfl
  case multDA a r k => exact row_upPop hl r _ (fun w => (w.setA r 0).addA a (k * w.A r)) colA colB s
  case divAA a b r =>
    exact row_thenPop (G := fun w =>
        .ok (((w.setA r 0).addA a (w.A r * (1 / w.T b))).addA b (w.A r * (- s.T r * (1 / w.T b)))))
      fun s' => congrArg Except.ok
      (row_up hl _ (fun w => ((w.setA r 0).addA a (w.A r * (1 / s'.T b))).addA b (w.A r * (- s.T r * (1 / s'.T b))))
        colA colB s')
  case divDA a r k =>
    unfold fovRevStep revStep
    simp only
    by_cases h : a = r
    · rw [if_pos h, if_pos h]
      exact row_thenPop fun s => congrArg Except.ok (row_un hl _ _ _ _)
    · rw [if_neg h, if_neg h]
      exact row_unPop hl _ _ _ _ _
  case posSign a r => exact row_upPop hl r _ (fun w => (w.setA r 0).addA a (w.A r)) colA colB s
  case negSign a r => exact row_upPop hl r _ (fun w => (w.setA r 0).addA a (- w.A r)) colA colB s
  case expOp a r => exact row_unPop hl _ _ _ _ _
  case sinOp a b r =>
    unfold fovRevStep revStep
    simp only
    rw [show (s.row l).un a r ((s.row l).T b) = (s.un p a r (s.T b)).row l from (row_un hl _ _ _ _).symm]
    exact row_thenPop fun s => row_pop _ _ _
  case cosOp a b r =>
    unfold fovRevStep revStep
    simp only
    have h : (s.up p fun l s => (s.setA r l 0).addA a l (- (s.A r l * s.T b))).row l =
        (s.row l |>.setA r 0).addA a (-((s.row l).A r * (s.row l).T b)) :=
      row_up hl _ (fun w => (w.setA r 0).addA a (- (w.A r * w.T b))) colA colB s
    rw [← h]
    exact row_thenPop fun s => row_pop _ _ _
  case quad q a b r => exact row_thenPop fun s => congrArg Except.ok (row_un hl _ _ _ _)
  case logOp a r => exact row_thenPop fun s => congrArg Except.ok (row_un hl _ _ _ _)
  case powOp a r k =>
    unfold fovRevStep revStep
    simp only
    by_cases h : a = r
    · rw [if_pos h, if_pos h]
      exact row_thenPop fun s => congrArg Except.ok (row_un hl _ _ _ _)
    · rw [if_neg h, if_neg h]
      exact row_unPop hl _ _ _ _ _
  case sqrtOp a r => exact row_unPop hl _ _ _ _ _
  case cbrtOp a r => exact row_unPop hl _ _ _ _ _
  case genQuad a b r k1 k2 => exact row_unPop hl _ _ _ _ _
  case minOp a b r k =>
    refine row_thenPop fun s => ?_
    show _ = if s.T a > s.T b then _ else if s.T a < s.T b then _ else _
    split
    · exact congrArg Except.ok (row_up hl _ (fun w => (w.setA r 0).addA b (w.A r)) colA colB s)
    split
    · exact congrArg Except.ok (row_up hl _ (fun w => (w.setA r 0).addA a (w.A r)) colA colB s)
    · exact congrArg Except.ok
        (row_up hl _ (fun w => ((w.setA r 0).addA b (w.A r / 2)).addA a (w.A r / 2)) colA colB s)
  case absVal a r k =>
    refine row_thenPop fun s => ?_
    show _ = if s.T a < 0 then _ else if s.T a > 0 then _ else _
    split
    · exact congrArg Except.ok (row_up hl _ (fun w => (w.setA r 0).addA a (- w.A r)) colA colB s)
    split
    · exact congrArg Except.ok (row_up hl _ (fun w => (w.setA r 0).addA a (w.A r)) colA colB s)
    · exact congrArg Except.ok (z1 r s)
  case ceilOp a r k => exact row_thenPop fun s => congrArg Except.ok (z1 r s)
  case floorOp a r k => exact row_thenPop fun s => congrArg Except.ok (z1 r s)
  case condAssign a a1 a2 r k =>
    refine row_thenPop fun s => ?_
    show _ = if s.T a > 0 then _ else _
    split <;> split <;> first | exact congrArg Except.ok (mv _ r s) | rfl
  case condEqAssign a a1 a2 r k =>
    refine row_thenPop fun s => ?_
    show _ = if s.T a ≥ 0 then _ else _
    split <;> split <;> first | exact congrArg Except.ok (mv _ r s) | rfl
  case condAssignS a a1 r k =>
    refine row_thenPop fun s => ?_
    show _ = if s.T a > 0 then _ else _
    split
    · split <;> first | exact congrArg Except.ok (mv _ r s) | rfl
    · rfl
  case condEqAssignS a a1 r k =>
    refine row_thenPop fun s => ?_
    show _ = if s.T a ≥ 0 then _ else _
    split
    · split <;> first | exact congrArg Except.ok (mv _ r s) | rfl
    · rfl
  case setRef r k => exact row_pop _ _ _
  case vecCopy a n r =>
    exact row_foldlM _ _ (fun s q => (row_pop _ _ _).trans (by rw [mv])) _ _
  case vecDot a b n r =>
    refine (row_pop _ _ _).trans ?_
    congr 1
    refine row_foldl _ _ (fun s q => ?_) _ _
    refine (row_up hl _ (fun w => (w.addA (b + q) (w.A r * w.T (a + q))).addA (a + q)
      ((w.addA (b + q) (w.A r * w.T (a + q))).A r * w.T (b + q))) (fun s => ?_) colB _).trans rfl
    simp only [A_row l, T_row l, row_addA]; rfl
  case vecAxpy a a1 a2 n r =>
    refine row_foldlM _ _ (fun s q => ?_) _ _
    refine row_upPop hl (r + q) _ (fun w =>
      let w := w.addA (a2 + q) (w.A (r + q))
      let w := w.addA (a1 + q) (w.A (r + q) * w.T a)
      w.addA a (w.A (r + q) * w.T (a1 + q))) (fun s => ?_) colB _
    simp only [A_row l, T_row l, row_addA]
  case takeStock r vs =>
    exact congrArg Except.ok (row_foldl _ _ (fun s q => z1 _ s) _ _)
  case deathNot a b =>
    unfold fovRevStep revStep
    simp only
    rw [row_foldlM _ (fun s q => s.pop (a + q)) (fun s q => row_pop _ _ _), row_foldl _ (fun s q => s.setA (a + q) 0) (fun s q => z1 _ s)]

/-- Row `l` of the vector sweep is the scalar sweep with weight row `l`: for every trace and
every value stack, including when the stack runs empty. -/
theorem row_run {p l : Nat} (hl : l < p) (U : Nat → Nat → K) (ops : List (Base K)) (s : VRS K) :
    (fovRevRun p U ops s).map (VRS.row l) = revRun (U l) ops (s.row l) := by
  induction ops with
  | nil => rfl
  | cons o os ih =>
    unfold fovRevRun revRun
    rw [← ih]
    cases fovRevRun p U os s with
    | error e => rfl
    | ok s' => exact row_step hl U o s'

end Verif.AD
