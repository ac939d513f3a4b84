import Verif.Traceless.Spec
import Mathlib.Analysis.SpecialFunctions.Gamma.Basic
/-!
# Traceless higher order mode (`adtl_hov::adouble`)

Model of `/repo/ADOL-C/include/adolc/adtl_hov.h`.  An object has a value, `numDir` first derivatives (`adval`) and `degree`
rows of `numDir` Taylor coefficients (`ho_deriv`; row `k` holds the coefficients `k + 1`).  The rows are pointers:
`setOneADValue` stores the caller's pointer, so two objects can share a row; the objects of the program therefore refer to
rows in a heap.  The temporaries of an expression own their rows and are modelled by their contents.

The programs are those of `Verif.TL` (`Un`, `Bin`, `Expr`, `Stmt`, `Prog`).  `none`: the program has been stopped by
`abort()`, `exit(1)` or an exception.

Not modelled: the index patterns (always computed, 304-307; see C51 for `adtl_indo`), the leak of the rows (484-493), `frexp`, and the
out-of-bounds write in `fabs` when `numDir > degree` (1583-1587).
-/
set_option linter.all false
noncomputable section
namespace Verif.TL.Hov
open Verif.AD (rerf rcbrt)

/-- The contents of an object: `val`, `adval`, `ho_deriv[j][i]` (adtl_hov.h:244-246). -/
structure Obj where
  val : ℝ
  adv : ℕ → ℝ
  ho : ℕ → ℕ → ℝ

/-- `numDir`, `degree` (adtl_hov.h:255-256), `makeNaN`, `makeInf` (362-368), what freshly allocated memory contains (`new double[]`, 385,
and `myalloc2`, adalloc.cpp:111-123, do not initialise it): `junk` for a temporary, `mem d` for the object `d`; and the
uninitialised variable `found` of `fabs` (1588). -/
structure Cfg where
  P : ℕ
  D : ℕ
  nan : ℝ
  inf : ℝ
  junk : Obj
  mem : ℕ → Obj
  found : Bool

/-- Two nested loops. -/
def loop2 {σ : Type} (A B : ℕ) (f : ℕ → ℕ → σ → σ) (s : σ) : σ :=
  (List.range A).foldl (fun s a => (List.range B).foldl (fun s b => f a b s) s) s

/-- Write one entry of `ho_deriv`. -/
def put2 (h : ℕ → ℕ → ℝ) (j i : ℕ) (v : ℝ) : ℕ → ℕ → ℝ := fun j' i' => if j' = j ∧ i' = i then v else h j' i'

/-- `FOR_I_EQ_0_LT_NUMDIR adval[_i] = g` (370). -/
def fillAdv (P : ℕ) (g : ℕ → ℝ) (r : ℕ → ℝ) : ℕ → ℝ := (List.range P).foldl (fun r i => put r i (g i)) r

/-- `FOR_J_EQ_0_LT_DEGREE_FOR_I_EQ_0_LT_NUMDIR ho_deriv[_j][_i] = g` (371-373). -/
def fillHo (c : Cfg) (g : ℕ → ℕ → ℝ) (h : ℕ → ℕ → ℝ) : ℕ → ℕ → ℝ := loop2 c.D c.P (fun j i h => put2 h j i (g j i)) h

/-- `for (l < numDir) for (k < degree) ho_deriv[k][l] = g`: `g` reads the coefficients already computed. -/
def recHo (c : Cfg) (g : ℕ → ℕ → (ℕ → ℕ → ℝ) → ℝ) (h : ℕ → ℕ → ℝ) : ℕ → ℕ → ℝ :=
  loop2 c.P c.D (fun l k h => put2 h k l (g k l h)) h

/-- The same loop filling the rows of two temporaries (`tmp`, `tmp2` of `sin`, `cos`, `sinh`, `cosh`): both sums are computed
before the two stores. -/
def recHo2 (c : Cfg) (g₁ g₂ : ℕ → ℕ → (ℕ → ℕ → ℝ) → (ℕ → ℕ → ℝ) → ℝ) (h : (ℕ → ℕ → ℝ) × (ℕ → ℕ → ℝ)) :
    (ℕ → ℕ → ℝ) × (ℕ → ℕ → ℝ) :=
  loop2 c.P c.D (fun l k h => (put2 h.1 k l (g₁ k l h.1 h.2), put2 h.2 k l (g₂ k l h.1 h.2))) h

/-- `sum = init; for (j < k) sum += f(j)`. -/
def sumTo (k : ℕ) (init : ℝ) (f : ℕ → ℝ) : ℝ := (List.range k).foldl (fun s j => s + f j) init

/-- `adouble()` (383-406): only the value is initialised. -/
def ctor0 (mem : Obj) : Obj := ⟨0, mem.adv, mem.ho⟩
/-- `adouble(double)` (408-424). -/
def ctorV (c : Cfg) (mem : Obj) (v : ℝ) : Obj := ⟨v, fillAdv c.P (fun _ => 0) mem.adv, fillHo c (fun _ _ => 0) mem.ho⟩
/-- `adouble(double, const double *)` (426-443): aborts. -/
def ctorA (c : Cfg) (v : ℝ) (adv : ℕ → ℝ) : Option Obj := none
/-- `adouble(double, const double **)` (444-461): aborts. -/
def ctorH (c : Cfg) (v : ℝ) (hov : ℕ → ℕ → ℝ) : Option Obj := none
/-- `adouble(const adouble &)` (463-481). -/
def ctorC (c : Cfg) (mem a : Obj) : Obj :=
  ⟨a.val, fillAdv c.P (fun i => a.adv i) mem.adv, fillHo c (fun j i => a.ho j i) mem.ho⟩

/-- `operator*(const adouble &)` (643-676). -/
def mulA (c : Cfg) (x a : Obj) : Obj :=
  ⟨x.val * a.val,
   fillAdv c.P (fun i => x.adv i * a.val + x.val * a.adv i) c.junk.adv,
   recHo c (fun k l _ => sumTo k (x.val * a.ho k l + x.ho k l * a.val) fun j => x.ho j l * a.ho (k - 1 - j) l) c.junk.ho⟩

/-- `operator*(const double)` (626-641). -/
def mulV (c : Cfg) (a : Obj) (v : ℝ) : Obj :=
  ⟨a.val * v, fillAdv c.P (fun i => a.adv i * v) c.junk.adv, fillHo c (fun j i => v * a.ho j i) c.junk.ho⟩

/-- `operator*(const double, const adouble &)` (678-695). -/
def vMul (c : Cfg) (v : ℝ) (a : Obj) : Obj :=
  ⟨v * a.val, fillAdv c.P (fun i => v * a.adv i) c.junk.adv, fillHo c (fun j i => v * a.ho j i) c.junk.ho⟩

/-- `pow(double, const adouble &)` (1286-1323). -/
def vPow (c : Cfg) (v : ℝ) (a : Obj) : Obj :=
  let val := v ^ a.val
  ⟨val, fillAdv c.P (fun i => val * Real.log v * a.adv i) c.junk.adv,
   recHo c (fun k l h => 1 / ((k + 1 : ℕ) : ℝ) *
     sumTo k (val * ((k + 1 : ℕ) : ℝ) * a.ho k l) (fun j => h (k - 1 - j) l * ((j + 1 : ℕ) : ℝ) * a.ho j l) * Real.log v)
     c.junk.ho⟩

/-- The sums of `sin` and `cos` (1004-1025, 1047-1069) and, with `sg = 1`, of `sinh` and `cosh` (1367-1388, 1412-1432): `v` and `v2` are
`tmp.val` and `tmp2.val`. -/
def trig (c : Cfg) (sg : ℝ) (a : Obj) (v v2 : ℝ) (h : (ℕ → ℕ → ℝ) × (ℕ → ℕ → ℝ)) : (ℕ → ℕ → ℝ) × (ℕ → ℕ → ℝ) :=
  recHo2 c
    (fun k l _ h2 => 1 / ((k + 1 : ℕ) : ℝ) *
      sumTo k (v2 * ((k + 1 : ℕ) : ℝ) * a.ho k l) fun j => ((j + 1 : ℕ) : ℝ) * a.ho j l * h2 (k - 1 - j) l)
    (fun k l h1 _ => 1 / ((k + 1 : ℕ) : ℝ) *
      sumTo k (sg * v * ((k + 1 : ℕ) : ℝ) * a.ho k l) fun j => sg * ((j + 1 : ℕ) : ℝ) * a.ho j l * h1 (k - 1 - j) l)
    h

/-- The first derivatives of `log` and `sqrt` (909-919, 950-960): `q` is the quotient used at a positive argument. -/
def posAdv (c : Cfg) (a : Obj) (q : ℕ → ℝ) : ℕ → ℝ :=
  fillAdv c.P (fun i => if a.val > 0 then q i
    else if a.val = 0 ∧ a.adv i ≠ 0 then (if a.adv i < 0 then -1 else 1) * c.inf else c.nan) c.junk.adv

/-- `leading_sgn[l]` of `fabs` (1583-1613): the sign of the first non-zero coefficient of the *result's* (uninitialised) column. -/
def leadSgn (c : Cfg) (l : ℕ) : ℝ :=
  if l = 0 ∧ c.found = true then 1
  else match (List.range c.D).find? (fun k => decide (c.junk.ho k l ≠ 0)) with
    | some k => if c.junk.ho k l > 0 then 1 else -1
    | none => 1

/-- The unary functions and operators; `none`: the program stops. -/
def Un.run (c : Cfg) (f : Un) (a : Obj) : Option Obj :=
  match f with
  -- 497-512
  | .neg => some ⟨-a.val, fillAdv c.P (fun i => -a.adv i) c.junk.adv, fillHo c (fun j i => -a.ho j i) c.junk.ho⟩
  -- 514
  | .pos => some (ctorC c c.junk a)
  -- 517-522: the constructor aborts
  | .addD v => ctorA c (a.val + v) a.adv
  -- 543-549: throws
  | .dAdd v => none
  -- 565-571: throws
  | .subD v => none
  -- 607-623
  | .dSub v => some ⟨v - a.val, fillAdv c.P (fun i => -a.adv i) c.junk.adv, fillHo c (fun j i => -a.ho j i) c.junk.ho⟩
  | .mulD v => some (mulV c a v)
  | .dMul v => some (vMul c v a)
  -- 698-713
  | .divD v => some ⟨a.val / v, fillAdv c.P (fun i => a.adv i / v) c.junk.adv, fillHo c (fun j i => a.ho j i / v) c.junk.ho⟩
  -- 752-785
  | .dDiv v =>
    let val := v / a.val
    some ⟨val, fillAdv c.P (fun i => (-v * a.adv i) / (a.val * a.val)) c.junk.adv,
      recHo c (fun k l h => 1 / a.val * -(sumTo k (val * a.ho k l) fun j => h j l * a.ho (k - 1 - j) l)) c.junk.ho⟩
  -- 867-898
  | .exp =>
    let val := Real.exp a.val
    some ⟨val, fillAdv c.P (fun i => val * a.adv i) c.junk.adv,
      recHo c (fun k l h => 1 / ((k + 1 : ℕ) : ℝ) *
        sumTo k (val * ((k + 1 : ℕ) : ℝ) * a.ho k l) fun j => h (k - 1 - j) l * ((j + 1 : ℕ) : ℝ) * a.ho j l) c.junk.ho⟩
  -- 900-939
  | .log => some ⟨Real.log a.val, posAdv c a (fun i => a.adv i / a.val),
      recHo c (fun k l h => 1 / ((k + 1 : ℕ) : ℝ) * (1 / a.val) * (((k + 1 : ℕ) : ℝ) * a.ho k l -
        sumTo k 0 fun j => a.ho (k - 1 - j) l * ((j + 1 : ℕ) : ℝ) * h j l)) c.junk.ho⟩
  -- 941-980
  | .sqrt =>
    let val := √a.val
    some ⟨val, posAdv c a (fun i => a.adv i / (val * 2)),
      recHo c (fun k l h => 1 / (2 * val) * (a.ho k l - sumTo k 0 fun j => h j l * h (k - 1 - j) l)) c.junk.ho⟩
  -- 982-986: throws
  | .cbrt => none
  -- 988-1029
  | .sin =>
    let v := Real.sin a.val
    let v2 := Real.cos a.val
    some ⟨v, fillAdv c.P (fun i => v2 * a.adv i) c.junk.adv, (trig c (-1) a v v2 (c.junk.ho, c.junk.ho)).1⟩
  -- 1031-1074: `tmp` is computed, `tmp2` is returned
  | .cos =>
    let v := Real.cos a.val
    let v2 := -Real.sin a.val
    some ⟨v2, c.junk.adv, (trig c (-1) a v v2 (c.junk.ho, c.junk.ho)).2⟩
  -- 1193-1254
  | .powD v =>
    let val := a.val ^ v
    some ⟨val, fillAdv c.P (fun i => v * a.val ^ (v - 1) * a.adv i) c.junk.adv,
      if a.val = 0 then fillHo c (fun k _ => 1 / ((k + 1 : ℕ) : ℝ) * Real.Gamma (v + 1)) c.junk.ho
      else recHo c (fun k l h => 1 / ((k + 1 : ℕ) : ℝ) * (1 / a.val) *
        (v * (sumTo k (val * ((k + 1 : ℕ) : ℝ) * a.ho k l) fun j => h (k - 1 - j) l * ((j + 1 : ℕ) : ℝ) * a.ho j l) -
          sumTo k 0 fun j => a.ho (k - 1 - j) l * ((1 + j : ℕ) : ℝ) * h j l)) c.junk.ho⟩
  | .dPow v => some (vPow c v a)
  -- 1352-1394
  | .sinh =>
    let v := Real.sinh a.val
    let v2 := Real.cosh a.val
    some ⟨v, fillAdv c.P (fun i => a.adv i * v2) c.junk.adv, (trig c 1 a v v2 (c.junk.ho, c.junk.ho)).1⟩
  -- 1396-1438: `tmp = a * tmp2` overwrites the value
  | .cosh =>
    let tmp2 := ctorV c c.junk (Real.sinh a.val)
    let tmp := if c.P = 0 then ctor0 c.junk else mulA c a tmp2
    some ⟨tmp.val, tmp.adv, (trig c 1 a tmp.val tmp2.val (tmp.ho, tmp2.ho)).1⟩
  -- 1549-1628
  | .fabs =>
    let as : ℝ := if a.val < 0 then -1 else if a.val > 0 then 1 else 0
    some ⟨|a.val|,
      fillAdv c.P (fun i => a.adv i * (if as ≠ 0 then as else if a.adv i < 0 then -1 else if a.adv i > 0 then 1 else 0)) c.junk.adv,
      recHo c (fun k l h => h k l * leadSgn c l) c.junk.ho⟩
  -- 1966-1968
  | .ldexpD v => some (mulV c a ((2 : ℝ) ^ v))
  -- 1970-1975
  | .dLdexp v => some (vMul c v (vPow c 2 a))
  -- 1986-2004: `ho_deriv` is not computed
  | .erf => some ⟨rerf a.val,
      fillAdv c.P (fun i => 2 / √(Real.arccos (-1)) * Real.exp (-a.val * a.val) * a.adv i) c.junk.adv, c.junk.ho⟩
  -- 2006-2024: `ho_deriv` is not computed
  | .erfc => some ⟨1 - rerf a.val,
      fillAdv c.P (fun i => -2 / √(Real.arccos (-1)) * Real.exp (-a.val * a.val) * a.adv i) c.junk.adv, c.junk.ho⟩
  -- exit(1): tan 838-865, asin 1076-1101, acos 1103-1128, atan 1130-1158, log10 1325-1350, tanh 1440-1466, asinh 1468-1493,
  -- acosh 1495-1520, atanh 1522-1547, ceil 1630-1646, floor 1648-1664, fmax and fmin with a double 1718-1810, 1863-1955
  | .tan | .asin | .acos | .atan | .log10 | .tanh | .asinh | .acosh | .atanh | .ceil | .floor
  | .fmaxD _ | .dFmax _ | .fminD _ | .dFmin _ => none

/-- The binary functions and operators. -/
def Bin.run (c : Cfg) (f : Bin) (a b : Obj) : Option Obj :=
  match f with
  -- 524-541
  | .add => some ⟨a.val + b.val, fillAdv c.P (fun i => a.adv i + b.adv i) c.junk.adv,
      fillHo c (fun j i => a.ho j i + b.ho j i) c.junk.ho⟩
  -- 587-605
  | .sub => some ⟨a.val - b.val, fillAdv c.P (fun i => a.adv i - b.adv i) c.junk.adv,
      fillHo c (fun j i => a.ho j i - b.ho j i) c.junk.ho⟩
  | .mul => some (mulA c a b)
  -- 715-750
  | .div =>
    let val := a.val / b.val
    some ⟨val, fillAdv c.P (fun i => (a.adv i * b.val - a.val * b.adv i) / (b.val * b.val)) c.junk.adv,
      recHo c (fun k l h => 1 / b.val * (a.ho k l - sumTo k (val * b.ho k l) fun j => h j l * b.ho (k - 1 - j) l)) c.junk.ho⟩
  -- 1957-1964
  | .ldexp => some (mulA c a (vPow c 2 b))
  -- exit(1): atan2 1160-1191, pow 1256-1284, fmax 1666-1716, fmin 1812-1861
  | .atan2 | .pow | .fmax | .fmin => none

/-- Where a row lives: in memory allocated for an object, or in an array of the caller. -/
inductive Addr
  | own (o j : ℕ)
  | ext (q : ℕ)
  deriving DecidableEq

/-- The objects of the program: `val`, `adval`, the row pointers `ho_deriv[j]` (244-246), and the memory they point to. -/
structure St where
  val : ℕ → ℝ
  adv : ℕ → ℕ → ℝ
  row : ℕ → ℕ → Addr
  heap : Addr → ℕ → ℝ

/-- The contents of an object. -/
def St.obj (s : St) (o : ℕ) : Obj := ⟨s.val o, s.adv o, fun j i => s.heap (s.row o j) i⟩
/-- Write `val`. -/
def St.putVal (s : St) (o : ℕ) (v : ℝ) : St := { s with val := fun o' => if o' = o then v else s.val o' }
/-- Write `adval[i]`. -/
def St.putAdv (s : St) (o i : ℕ) (v : ℝ) : St := { s with adv := fun o' => if o' = o then put (s.adv o) i v else s.adv o' }
/-- Write `ho_deriv[j][i]`. -/
def St.putHo (s : St) (o j i : ℕ) (v : ℝ) : St :=
  { s with heap := fun q => if q = s.row o j then put (s.heap q) i v else s.heap q }
/-- A new object `o` with its own rows. -/
def St.bind (s : St) (o : ℕ) (h : Obj) : St where
  val := fun o' => if o' = o then h.val else s.val o'
  adv := fun o' => if o' = o then h.adv else s.adv o'
  row := fun o' => if o' = o then Addr.own o else s.row o'
  heap := fun q => match q with
    | .own o' j => if o' = o then h.ho j else s.heap (.own o' j)
    | .ext r => s.heap (.ext r)

/-- Evaluation of an expression. -/
def Expr.run (c : Cfg) (s : St) : Expr → Option Obj
  | .var a => some (s.obj a)
  | .lit v => some (ctorV c c.junk v)
  | .un f e => (Expr.run c s e).bind (Un.run c f)
  | .bin f e₁ e₂ => (Expr.run c s e₁).bind fun a => (Expr.run c s e₂).bind fun b => Bin.run c f a b

/-- `FOR_I_EQ_0_LT_NUMDIR adval[_i] = g` on an object. -/
def advS (c : Cfg) (d : ℕ) (g : ℕ → St → ℝ) (s : St) : St := (List.range c.P).foldl (fun s i => s.putAdv d i (g i s)) s
/-- `FOR_J_EQ_0_LT_DEGREE_FOR_I_EQ_0_LT_NUMDIR ho_deriv[_j][_i] = g` on an object: the right-hand side sees what has been
written. -/
def hoS (c : Cfg) (d : ℕ) (g : ℕ → ℕ → St → ℝ) (s : St) : St := loop2 c.D c.P (fun j i s => s.putHo d j i (g j i s)) s

/-- `operator=(const adouble &)` (2101-2120). -/
def setA (c : Cfg) (d a : ℕ) (s : St) : St :=
  let s := s.putVal d (s.val a)
  let s := advS c d (fun i s => s.adv a i) s
  hoS c d (fun j i s => s.heap (s.row a j) i) s

/-- `operator=(const double)` (2082-2099). -/
def setD (c : Cfg) (d : ℕ) (v : ℝ) (s : St) : St :=
  let s := s.putVal d v
  let s := advS c d (fun _ _ => 0) s
  hoS c d (fun _ _ _ => 0) s

/-- `operator+=(double)` 2122-2126, `-=` 2146-2150, `*=` 2170-2182, `/=` 2223-2237. -/
def accD (c : Cfg) (f : Acc) (d : ℕ) (v : ℝ) (s : St) : St :=
  match f with
  | .add => s.putVal d (s.val d + v)
  | .sub => s.putVal d (s.val d - v)
  | .mul =>
    let s := s.putVal d (s.val d * v)
    let s := advS c d (fun i s => s.adv d i * v) s
    hoS c d (fun j i s => s.heap (s.row d j) i * v) s
  | .div =>
    let s := s.putVal d (s.val d / v)
    let s := advS c d (fun i s => s.adv d i / v) s
    hoS c d (fun j i s => s.heap (s.row d j) i / v) s

/-- One column of `tmp` in `operator*=` and `operator/=`: `for (k < degree) tmp.ho_deriv[k][l] = g`, then `val = tmp.val` and the
column is copied (2203-2215, 2256-2268). -/
def accCol (c : Cfg) (d : ℕ) (v : ℝ) (g : ℕ → (ℕ → ℝ) → St → ℝ) (l : ℕ) (s : St) : St :=
  let t := (List.range c.D).foldl (fun t k => put t k (g k t s)) (fun k => c.junk.ho k l)
  let s := s.putVal d v
  (List.range c.D).foldl (fun s k => s.putHo d k l (t k)) s

/-- `operator+=(const adouble &)` 2128-2144, `-=` 2152-2168, `*=` 2184-2221, `/=` 2239-2274. -/
def accA (c : Cfg) (f : Acc) (d a : ℕ) (s : St) : St :=
  match f with
  | .add =>
    let s := s.putVal d (s.val d + s.val a)
    let s := advS c d (fun i s => s.adv d i + s.adv a i) s
    hoS c d (fun j i s => s.heap (s.row d j) i + s.heap (s.row a j) i) s
  | .sub =>
    let s := s.putVal d (s.val d - s.val a)
    let s := advS c d (fun i s => s.adv d i - s.adv a i) s
    hoS c d (fun j i s => s.heap (s.row d j) i - s.heap (s.row a j) i) s
  | .mul =>
    let s := advS c d (fun i s => s.adv d i * s.val a + s.val d * s.adv a i) s
    let s := s.putVal d (s.val d * s.val a)
    let v := s.val d * s.val a
    (List.range c.P).foldl (fun s l => accCol c d v (fun k t s =>
      sumTo k (s.val d * s.heap (s.row a k) l + s.heap (s.row d k) l * s.val a)
        fun j => s.heap (s.row d j) l * s.heap (s.row a (k - 1 - j)) l) l s) s
  | .div =>
    let s := advS c d (fun i s => (s.adv d i * s.val a - s.val d * s.adv a i) / (s.val a * s.val a)) s
    let s := s.putVal d (s.val d / s.val a)
    (List.range c.P).foldl (fun s l => accCol c d 0 (fun k t s =>
      1 / s.val a * (s.heap (s.row d k) l - sumTo k (0 * s.heap (s.row a k) l) fun j => t j * s.heap (s.row a (k - 1 - j)) l)) l s) s

/-- Effect of a statement. -/
def Stmt.run (c : Cfg) (st : Stmt) (s : St) : Option St :=
  match st with
  | .decl d => some (s.bind d (ctor0 (c.mem d)))
  | .declD d v => some (s.bind d (ctorV c (c.mem d) v))
  | .declE d e => (Expr.run c s e).map fun h => s.bind d (ctorC c (c.mem d) h)
  | .setD d v => some (Hov.setD c d v s)
  | .setA d a => some (Hov.setA c d a s)
  | .accD f d v => some (Hov.accD c f d v s)
  | .accA f d a => some (Hov.accA c f d a s)
  -- 788-792
  | .incr d => some (s.putVal d (s.val d + 1))
  -- 812-816
  | .decr d => some (s.putVal d (s.val d - 1))
  -- 794-810
  | .postIncr d x =>
    let w := s.val x
    let s := s.putVal x (s.val x + 1)
    some (s.bind d ⟨w, fillAdv c.P (fun i => s.adv x i) (c.mem d).adv, fillHo c (fun j i => s.heap (s.row x j) i) (c.mem d).ho⟩)
  -- 818-835
  | .postDecr d x =>
    let w := s.val x
    let s := s.putVal x (s.val x - 1)
    some (s.bind d ⟨w, fillAdv c.P (fun i => s.adv x i) (c.mem d).adv, fillHo c (fun j i => s.heap (s.row x j) i) (c.mem d).ho⟩)
  -- 2026-2039
  | .cond d q a b => some (if s.val q > 0 then Hov.setA c d a s else Hov.setA c d b s)
  -- 2041-2051
  | .condS d q a => some (if s.val q > 0 then Hov.setA c d a s else s)
  -- 2053-2066
  | .condEq d q a b => some (if s.val q ≥ 0 then Hov.setA c d a s else Hov.setA c d b s)
  -- 2068-2079
  | .condEqS d q a => some (if s.val q ≥ 0 then Hov.setA c d a s else s)

open Classical in
/-- Execution; the comparisons (2287-2447) look at the values. -/
def Prog.run (c : Cfg) : Prog → St → Option St
  | .done, s => some s
  | .stmt st p, s => (Stmt.run c st s).bind (Prog.run c p)
  | .branch f l r t e, s => if f.holds (l.val s.val) (r.val s.val) then Prog.run c t s else Prog.run c e s

/-- `getValue()` (2477-2484). -/
def getValue (s : St) (o : ℕ) : ℝ := s.val o
/-- `setValue(v)` (2486-2493). -/
def setValue (s : St) (o : ℕ) (v : ℝ) : St := s.putVal o v
/-- `getADValue(p)` (2514-2526): `none`, it throws. -/
def getADValue (c : Cfg) (s : St) (o p : ℕ) : Option ℝ := if p ≥ c.P then none else some (s.adv o p)
/-- `setADValue(p, v)` (2528-2540). -/
def setADValue (c : Cfg) (s : St) (o p : ℕ) (v : ℝ) : Option St := if p ≥ c.P then none else some (s.putAdv o p v)
/-- `setADValue(const double *v)` (2504-2512). -/
def setADValues (c : Cfg) (s : St) (o : ℕ) (v : ℕ → ℝ) : St := advS c o (fun i _ => v i) s
/-- `getOneADValue(i)` (2542-2545): the row itself. -/
def getOneADValue (s : St) (o i : ℕ) : Addr := s.row o i
/-- `setOneADValue(i, v)` (2547): the pointer is stored. -/
def setOneADValue (s : St) (o i : ℕ) (q : Addr) : St :=
  { s with row := fun o' j => if o' = o ∧ j = i then q else s.row o' j }

end Verif.TL.Hov
