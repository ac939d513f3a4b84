import Verif.AD.RealInst
/-!
# Traceless forward mode (`adtl::adouble`)

Model of `/repo/ADOL-C/include/adolc/adtl.h`.  An object owns an array `adval` of
`numDir + 1` numbers: entry 0 is the value, entries 1 … numDir are the directional
derivatives.  `double` is interpreted by ℝ, the `<cmath>` functions by the real functions
of the same name; `nan`, `inf` and the content of uninitialised memory are arbitrary
numbers (`Cfg`).

Not modelled: the Boost pool, reference counting and `setNumDir` while objects exist,
`frexp`, the stream operators, and in-place operators nested inside expressions (they are
statements here; an argument that is an expression is first stored in a named temporary).
-/
set_option linter.all false
noncomputable section
namespace Verif.TL
open Verif.AD (rerf rcbrt)

/-- The array `adval` of one object (adtl.h:221). -/
abbrev Row := ℕ → ℝ
/-- The objects of the program. -/
abbrev Store := ℕ → Row

/-- `numDir` (adtl.h:225), `makeNaN()`, `makeInf()` (adtl.h:267-273) and what freshly allocated
memory contains (adtl.h:286, `new double[]` does not initialise): `junk` for a temporary,
`mem d` for the object `d`. -/
structure Cfg where
  p : ℕ
  nan : ℝ
  inf : ℝ
  junk : Row
  mem : Store

/-- Write one entry of an array. -/
def put (r : Row) (i : ℕ) (v : ℝ) : Row := fun j => if j = i then v else r j
/-- Write one entry of an object. -/
def puts (s : Store) (o i : ℕ) (v : ℝ) : Store := fun o' => if o' = o then put (s o) i v else s o'

/-- `for (_i = lo; _i <= numDir; ++_i) adval[_i] = g` on one array
(`FOR_I_EQ_0_LTEQ_NUMDIR`, `FOR_I_EQ_1_LTEQ_NUMDIR`, adtl.h:275-276). -/
def forI (lo p : ℕ) (g : ℕ → Row → ℝ) (r : Row) : Row :=
  (List.range' lo (p + 1 - lo)).foldl (fun r i => put r i (g i r)) r

/-- The same loop on an object of the store: the right-hand side is evaluated in the current
store, so that it sees what earlier iterations wrote (`x *= x`). -/
def forS (lo p o : ℕ) (g : ℕ → Store → ℝ) (s : Store) : Store :=
  (List.range' lo (p + 1 - lo)).foldl (fun s i => puts s o i (g i s)) s

/-- `adouble()` (adtl.h:282-289): only the value is initialised. -/
def ctor0 (mem : Row) : Row := put mem 0 0
/-- `adouble(double v)` (adtl.h:291-300). -/
def ctorV (p : ℕ) (mem : Row) (v : ℝ) : Row := forI 1 p (fun _ _ => 0) (put mem 0 v)
/-- `adouble(double v, const double *adv)` (adtl.h:302-311). -/
def ctorA (p : ℕ) (mem : Row) (v : ℝ) (adv : ℕ → ℝ) : Row :=
  forI 1 p (fun i _ => adv (i - 1)) (put mem 0 v)
/-- `adouble(const adouble &a)` (adtl.h:313-322). -/
def ctorC (p : ℕ) (mem : Row) (a : Row) : Row := forI 0 p (fun i _ => a i) mem

/-- Functions and operators of one `adouble` argument (a `double` operand is part of the name). -/
inductive Un
  | neg | pos
  | addD (v : ℝ) | dAdd (v : ℝ) | subD (v : ℝ) | dSub (v : ℝ)
  | mulD (v : ℝ) | dMul (v : ℝ) | divD (v : ℝ) | dDiv (v : ℝ)
  | tan | exp | log | sqrt | cbrt | sin | cos | asin | acos | atan
  | powD (v : ℝ) | dPow (v : ℝ) | log10 | sinh | cosh | tanh | asinh | acosh | atanh
  | fabs | ceil | floor
  | fmaxD (v : ℝ) | dFmax (v : ℝ) | fminD (v : ℝ) | dFmin (v : ℝ)
  | ldexpD (v : ℝ) | dLdexp (v : ℝ) | erf | erfc

/-- Functions and operators of two `adouble` arguments. -/
inductive Bin
  | add | sub | mul | div | atan2 | pow | fmax | fmin | ldexp

/-- `operator*(const adouble &a)` (adtl.h:391-397). -/
def mulA (c : Cfg) (x a : Row) : Row :=
  let tmp := ctor0 c.junk
  let tmp := put tmp 0 (x 0 * a 0)
  forI 1 c.p (fun i _ => x i * a 0 + x 0 * a i) tmp

/-- `pow(double v, const adouble &a)` (adtl.h:604-611). -/
def dPowA (c : Cfg) (v : ℝ) (a : Row) : Row :=
  let tmp := put (ctor0 c.junk) 0 (v ^ a 0)
  let tmp2 := tmp 0 * Real.log v
  forI 1 c.p (fun i _ => tmp2 * a i) tmp

/-- The unary functions and operators, each returning a new object. -/
def Un.run (c : Cfg) (f : Un) (a : Row) : Row :=
  match f with
  -- 335-340
  | .neg => forI 0 c.p (fun i _ => - a i) (ctor0 c.junk)
  -- 342
  | .pos => ctorC c.p c.junk a
  -- 345-348
  | .addD v => ctorA c.p c.junk (a 0 + v) (fun j => a (j + 1))
  -- 357-360
  | .dAdd v => ctorA c.p c.junk (v + a 0) (fun j => a (j + 1))
  -- 363-366
  | .subD v => ctorA c.p c.junk (a 0 - v) (fun j => a (j + 1))
  -- 375-381
  | .dSub v => forI 1 c.p (fun i _ => - a i) (put (ctor0 c.junk) 0 (v - a 0))
  -- 384-389
  | .mulD v => forI 0 c.p (fun i _ => a i * v) (ctor0 c.junk)
  -- 399-404
  | .dMul v => forI 0 c.p (fun i _ => v * a i) (ctor0 c.junk)
  -- 407-412
  | .divD v => forI 0 c.p (fun i _ => a i / v) (ctor0 c.junk)
  -- 423-429
  | .dDiv v => forI 1 c.p (fun i _ => (-v * a i) / (a 0 * a 0)) (put (ctor0 c.junk) 0 (v / a 0))
  -- 459-468
  | .tan =>
    let tmp := put (ctor0 c.junk) 0 (Real.tan (a 0))
    let tmp2 := Real.cos (a 0)
    let tmp2 := tmp2 * tmp2
    forI 1 c.p (fun i _ => a i / tmp2) tmp
  -- 470-476
  | .exp => forI 1 c.p (fun i r => r 0 * a i) (put (ctor0 c.junk) 0 (Real.exp (a 0)))
  -- 478-490
  | .log => forI 1 c.p
      (fun i _ => if a 0 > 0 then a i / a 0
        else if a 0 = 0 ∧ a i ≠ 0 then (if a i < 0 then -1 else 1) * c.inf else c.nan)
      (put (ctor0 c.junk) 0 (Real.log (a 0)))
  -- 492-504
  | .sqrt => forI 1 c.p
      (fun i r => if a 0 > 0 then a i / (r 0 * 2)
        else if a 0 = 0 ∧ a i ≠ 0 then (if a i < 0 then -1 else 1) * c.inf else c.nan)
      (put (ctor0 c.junk) 0 (Real.sqrt (a 0)))
  -- 506-518
  | .cbrt => forI 1 c.p
      (fun i r => if a 0 ≠ 0 then a i / (r 0 * r 0 * 3)
        else if a 0 = 0 ∧ a i ≠ 0 then (if a i < 0 then -1 else 1) * c.inf else c.nan)
      (put (ctor0 c.junk) 0 (rcbrt (a 0)))
  -- 520-528
  | .sin =>
    let tmp := put (ctor0 c.junk) 0 (Real.sin (a 0))
    let tmp2 := Real.cos (a 0)
    forI 1 c.p (fun i _ => tmp2 * a i) tmp
  -- 530-538
  | .cos =>
    let tmp := put (ctor0 c.junk) 0 (Real.cos (a 0))
    let tmp2 := - Real.sin (a 0)
    forI 1 c.p (fun i _ => tmp2 * a i) tmp
  -- 540-547
  | .asin =>
    let tmp := put (ctor0 c.junk) 0 (Real.arcsin (a 0))
    let tmp2 := Real.sqrt (1 - a 0 * a 0)
    forI 1 c.p (fun i _ => a i / tmp2) tmp
  -- 549-556
  | .acos =>
    let tmp := put (ctor0 c.junk) 0 (Real.arccos (a 0))
    let tmp2 := - Real.sqrt (1 - a 0 * a 0)
    forI 1 c.p (fun i _ => a i / tmp2) tmp
  -- 558-568
  | .atan =>
    let tmp := put (ctor0 c.junk) 0 (Real.arctan (a 0))
    let tmp2 := 1 + a 0 * a 0
    let tmp2 := 1 / tmp2
    if tmp2 ≠ 0 then forI 1 c.p (fun i _ => a i * tmp2) tmp else forI 1 c.p (fun _ _ => 0) tmp
  -- 584-591
  | .powD v =>
    let tmp := put (ctor0 c.junk) 0 (a 0 ^ v)
    let tmp2 := v * a 0 ^ (v - 1)
    forI 1 c.p (fun i _ => tmp2 * a i) tmp
  | .dPow v => dPowA c v a
  -- 613-620
  | .log10 =>
    let tmp := put (ctor0 c.junk) 0 (Real.log (a 0) / Real.log 10)
    let tmp2 := Real.log 10 * a 0
    forI 1 c.p (fun i _ => a i / tmp2) tmp
  -- 622-629
  | .sinh =>
    let tmp := put (ctor0 c.junk) 0 (Real.sinh (a 0))
    let tmp2 := Real.cosh (a 0)
    forI 1 c.p (fun i _ => a i * tmp2) tmp
  -- 631-638
  | .cosh =>
    let tmp := put (ctor0 c.junk) 0 (Real.cosh (a 0))
    let tmp2 := Real.sinh (a 0)
    forI 1 c.p (fun i _ => a i * tmp2) tmp
  -- 640-648
  | .tanh =>
    let tmp := put (ctor0 c.junk) 0 (Real.tanh (a 0))
    let tmp2 := Real.cosh (a 0)
    let tmp2 := tmp2 * tmp2
    forI 1 c.p (fun i _ => a i / tmp2) tmp
  -- 650-657
  | .asinh =>
    let tmp := put (ctor0 c.junk) 0 (Real.arsinh (a 0))
    let tmp2 := Real.sqrt (a 0 * a 0 + 1)
    forI 1 c.p (fun i _ => a i / tmp2) tmp
  -- 659-666
  | .acosh =>
    let tmp := put (ctor0 c.junk) 0 (Real.arcosh (a 0))
    let tmp2 := Real.sqrt (a 0 * a 0 - 1)
    forI 1 c.p (fun i _ => a i / tmp2) tmp
  -- 668-675
  | .atanh =>
    let tmp := put (ctor0 c.junk) 0 (Real.artanh (a 0))
    let tmp2 := 1 - a 0 * a 0
    forI 1 c.p (fun i _ => a i / tmp2) tmp
  -- 677-697
  | .fabs =>
    let tmp := put (ctor0 c.junk) 0 |a 0|
    let as : ℝ := if a 0 < 0 then -1 else if a 0 > 0 then 1 else 0
    if as ≠ 0 then forI 1 c.p (fun i _ => a i * as) tmp
    else forI 1 c.p (fun i _ => a i * (if a i < 0 then -1 else if a i > 0 then 1 else 0)) tmp
  -- 699-705
  | .ceil => forI 1 c.p (fun _ _ => 0) (put (ctor0 c.junk) 0 (⌈a 0⌉ : ℤ))
  -- 707-713
  | .floor => forI 1 c.p (fun _ _ => 0) (put (ctor0 c.junk) 0 (⌊a 0⌋ : ℤ))
  -- 763-785
  | .fmaxD v =>
    let tmp := ctor0 c.junk
    let tmp2 := a 0 - v
    if tmp2 < 0 then forI 1 c.p (fun _ _ => 0) (put tmp 0 v)
    else
      let tmp := put tmp 0 (a 0)
      if tmp2 > 0 then forI 1 c.p (fun i _ => a i) tmp
      else forI 1 c.p (fun i _ => if a i > 0 then a i else 0) tmp
  -- 739-761
  | .dFmax v =>
    let tmp := ctor0 c.junk
    let tmp2 := v - a 0
    if tmp2 < 0 then forI 1 c.p (fun i _ => a i) (put tmp 0 (a 0))
    else
      let tmp := put tmp 0 v
      if tmp2 > 0 then forI 1 c.p (fun _ _ => 0) tmp
      else forI 1 c.p (fun i _ => if a i > 0 then a i else 0) tmp
  -- 835-857
  | .fminD v =>
    let tmp := ctor0 c.junk
    let tmp2 := a 0 - v
    if tmp2 < 0 then forI 1 c.p (fun i _ => a i) (put tmp 0 (a 0))
    else
      let tmp := put tmp 0 v
      if tmp2 > 0 then forI 1 c.p (fun _ _ => 0) tmp
      else forI 1 c.p (fun i _ => if a i < 0 then a i else 0) tmp
  -- 811-833
  | .dFmin v =>
    let tmp := ctor0 c.junk
    let tmp2 := v - a 0
    if tmp2 < 0 then forI 1 c.p (fun _ _ => 0) (put tmp 0 v)
    else
      let tmp := put tmp 0 (a 0)
      if tmp2 > 0 then forI 1 c.p (fun i _ => a i) tmp
      else forI 1 c.p (fun i _ => if a i < 0 then a i else 0) tmp
  -- 864-866
  | .ldexpD v => forI 0 c.p (fun i _ => a i * (2:ℝ) ^ v) (ctor0 c.junk)
  -- 868-871
  | .dLdexp v => let q := dPowA c 2 a; forI 0 c.p (fun i _ => v * q i) (ctor0 c.junk)
  -- 877-885
  | .erf =>
    let tmp := put (ctor0 c.junk) 0 (rerf (a 0))
    let tmp2 := 2 / Real.sqrt (Real.arccos (-1)) * Real.exp (- a 0 * a 0)
    forI 1 c.p (fun i _ => tmp2 * a i) tmp
  -- 887-895
  | .erfc =>
    let tmp := put (ctor0 c.junk) 0 (1 - rerf (a 0))
    let tmp2 := - 2 / Real.sqrt (Real.arccos (-1)) * Real.exp (- a 0 * a 0)
    forI 1 c.p (fun i _ => tmp2 * a i) tmp

/-- The binary functions and operators, each returning a new object. -/
def Bin.run (c : Cfg) (f : Bin) (a b : Row) : Row :=
  match f with
  -- 350-355
  | .add => forI 0 c.p (fun i _ => a i + b i) (ctor0 c.junk)
  -- 368-373
  | .sub => forI 0 c.p (fun i _ => a i - b i) (ctor0 c.junk)
  | .mul => mulA c a b
  -- 414-421
  | .div => forI 1 c.p (fun i _ => (a i * b 0 - a 0 * b i) / (b 0 * b 0))
      (put (ctor0 c.junk) 0 (a 0 / b 0))
  -- 570-582
  | .atan2 =>
    let tmp := put (ctor0 c.junk) 0 (Complex.arg ⟨b 0, a 0⟩)
    let tmp2 := a 0 * a 0
    let tmp3 := b 0 * b 0
    let tmp4 := tmp3 / (tmp2 + tmp3)
    if tmp4 ≠ 0 then forI 1 c.p (fun i _ => (a i * b 0 - a 0 * b i) / tmp3 * tmp4) tmp
    else forI 1 c.p (fun _ _ => 0) tmp
  -- 593-602
  | .pow =>
    let tmp := put (ctor0 c.junk) 0 (a 0 ^ b 0)
    let tmp2 := b 0 * a 0 ^ (b 0 - 1)
    let tmp3 := Real.log (a 0) * tmp 0
    forI 1 c.p (fun i _ => tmp2 * a i + tmp3 * b i) tmp
  -- 715-737
  | .fmax =>
    let tmp := ctor0 c.junk
    let tmp2 := a 0 - b 0
    if tmp2 < 0 then forI 1 c.p (fun i _ => b i) (put tmp 0 (b 0))
    else
      let tmp := put tmp 0 (a 0)
      if tmp2 > 0 then forI 1 c.p (fun i _ => a i) tmp
      else forI 1 c.p (fun i _ => if a i < b i then b i else a i) tmp
  -- 787-809
  | .fmin =>
    let tmp := ctor0 c.junk
    let tmp2 := a 0 - b 0
    if tmp2 < 0 then forI 1 c.p (fun i _ => a i) (put tmp 0 (a 0))
    else
      let tmp := put tmp 0 (b 0)
      if tmp2 > 0 then forI 1 c.p (fun i _ => b i) tmp
      else forI 1 c.p (fun i _ => if a i < b i then a i else b i) tmp
  -- 859-862
  | .ldexp => mulA c a (dPowA c 2 b)

/-- Expressions a user writes with these functions. -/
inductive Expr
  | var (a : ℕ)
  | lit (v : ℝ)
  | un (f : Un) (e : Expr)
  | bin (f : Bin) (e₁ e₂ : Expr)

/-- Evaluation of an expression: every node is a new object, destroyed at the end of the
statement (adtl.h:324-332). -/
def Expr.run (c : Cfg) (s : Store) : Expr → Row
  | .var a => s a
  | .lit v => ctorV c.p c.junk v
  | .un f e => f.run c (e.run c s)
  | .bin f e₁ e₂ => f.run c (e₁.run c s) (e₂.run c s)

/-- The four in-place arithmetic operators. -/
inductive Acc | add | sub | mul | div

/-- `operator+=(double)` … `operator/=(double)` (939-942, 950-953, 961-965, 974-978). -/
def accD (c : Cfg) (f : Acc) (d : ℕ) (v : ℝ) (s : Store) : Store :=
  match f with
  | .add => puts s d 0 (s d 0 + v)
  | .sub => puts s d 0 (s d 0 - v)
  | .mul => forS 0 c.p d (fun i s => s d i * v) s
  | .div => forS 0 c.p d (fun i s => s d i / v) s

/-- `operator+=(const adouble &)` … `operator/=` (944-948, 955-959, 967-972, 980-986).
`a` may be the object `d` itself. -/
def accA (c : Cfg) (f : Acc) (d a : ℕ) (s : Store) : Store :=
  match f with
  | .add => forS 0 c.p d (fun i s => s d i + s a i) s
  | .sub => forS 0 c.p d (fun i s => s d i - s a i) s
  | .mul =>
    let s := forS 1 c.p d (fun i s => s d i * s a 0 + s d 0 * s a i) s
    puts s d 0 (s d 0 * s a 0)
  | .div =>
    let s := forS 1 c.p d (fun i s => (s d i * s a 0 - s d 0 * s a i) / (s a 0 * s a 0)) s
    puts s d 0 (s d 0 / s a 0)

/-- `operator=(const adouble &)` (933-937). -/
def setA (c : Cfg) (d a : ℕ) (s : Store) : Store := forS 0 c.p d (fun i s => s a i) s

/-- Statements. -/
inductive Stmt
  /-- `adouble d;` -/
  | decl (d : ℕ)
  /-- `adouble d(v);` -/
  | declD (d : ℕ) (v : ℝ)
  /-- `adouble d(e);` -/
  | declE (d : ℕ) (e : Expr)
  /-- `d = v;` -/
  | setD (d : ℕ) (v : ℝ)
  /-- `d = a;` -/
  | setA (d a : ℕ)
  /-- `d op= v;` -/
  | accD (f : Acc) (d : ℕ) (v : ℝ)
  /-- `d op= a;` -/
  | accA (f : Acc) (d a : ℕ)
  /-- `++d;` -/
  | incr (d : ℕ)
  /-- `--d;` -/
  | decr (d : ℕ)
  /-- `adouble d(x++);` -/
  | postIncr (d x : ℕ)
  /-- `adouble d(x--);` -/
  | postDecr (d x : ℕ)
  /-- `condassign(d, q, a, b);` -/
  | cond (d q a b : ℕ)
  /-- `condassign(d, q, a);` -/
  | condS (d q a : ℕ)
  /-- `condeqassign(d, q, a, b);` -/
  | condEq (d q a b : ℕ)
  /-- `condeqassign(d, q, a);` -/
  | condEqS (d q a : ℕ)

/-- Bind a newly constructed object to the name `d`. -/
def bindRow (s : Store) (d : ℕ) (r : Row) : Store := fun o => if o = d then r else s o

/-- Effect of a statement on the objects. -/
def Stmt.run (c : Cfg) (st : Stmt) (s : Store) : Store :=
  match st with
  | .decl d => bindRow s d (ctor0 (c.mem d))
  | .declD d v => bindRow s d (ctorV c.p (c.mem d) v)
  | .declE d e => bindRow s d (ctorC c.p (c.mem d) (e.run c s))
  -- 926-931
  | .setD d v => forS 1 c.p d (fun _ _ => 0) (puts s d 0 v)
  | .setA d a => TL.setA c d a s
  | .accD f d v => TL.accD c f d v s
  | .accA f d a => TL.accA c f d a s
  -- 432-435
  | .incr d => puts s d 0 (s d 0 + 1)
  -- 445-448
  | .decr d => puts s d 0 (s d 0 - 1)
  -- 437-443
  | .postIncr d x =>
    let tmp := put (ctor0 (c.mem d)) 0 (s x 0)
    let s := puts s x 0 (s x 0 + 1)
    bindRow s d (forI 1 c.p (fun i _ => s x i) tmp)
  -- 450-456
  | .postDecr d x =>
    let tmp := put (ctor0 (c.mem d)) 0 (s x 0)
    let s := puts s x 0 (s x 0 - 1)
    bindRow s d (forI 1 c.p (fun i _ => s x i) tmp)
  -- 897-903
  | .cond d q a b => if s q 0 > 0 then TL.setA c d a s else TL.setA c d b s
  -- 905-909
  | .condS d q a => if s q 0 > 0 then TL.setA c d a s else s
  -- 911-917
  | .condEq d q a b => if s q 0 ≥ 0 then TL.setA c d a s else TL.setA c d b s
  -- 919-923
  | .condEqS d q a => if s q 0 ≥ 0 then TL.setA c d a s else s

/-- The comparison operators (992-1062). -/
inductive Cmp | ne | eq | le | ge | gt | lt

/-- What the comparison of two `double`s decides. -/
def Cmp.holds (f : Cmp) (x y : ℝ) : Prop :=
  match f with
  | .ne => x ≠ y | .eq => x = y | .le => x ≤ y | .ge => x ≥ y | .gt => x > y | .lt => x < y

/-- An operand of a comparison: an `adouble` or a `double`. -/
inductive Opd | var (a : ℕ) | lit (v : ℝ)

/-- The primal value used by a comparison (992-1062, all overloads compare `adval[0]`). -/
def Opd.prim (s : Store) : Opd → ℝ
  | .var a => s a 0
  | .lit v => v

/-- Programs: statements and branches on comparisons. -/
inductive Prog
  | done
  | stmt (st : Stmt) (p : Prog)
  | branch (f : Cmp) (l r : Opd) (t e : Prog)

open Classical in
/-- Execution. -/
def Prog.run (c : Cfg) : Prog → Store → Store
  | .done, s => s
  | .stmt st p, s => p.run c (st.run c s)
  | .branch f l r t e, s => if f.holds (l.prim s) (r.prim s) then t.run c s else e.run c s

/-- `getValue()` (1071). -/
def getValue (s : Store) (a : ℕ) : ℝ := s a 0
/-- `getADValue(size_t p)` (1082-1089): throws (`none`) when out of bounds. -/
def getADValue (c : Cfg) (s : Store) (a j : ℕ) : Option ℝ := if j ≥ c.p then none else some (s a (j + 1))
/-- `setValue(v)` (1073). -/
def setValue (s : Store) (a : ℕ) (v : ℝ) : Store := puts s a 0 v
/-- `setADValue(const double *v)` (1077-1080). -/
def setADValues (c : Cfg) (s : Store) (a : ℕ) (v : ℕ → ℝ) : Store :=
  forS 1 c.p a (fun i _ => v (i - 1)) s
/-- `setADValue(size_t p, double v)` (1091-1098). -/
def setADValue (c : Cfg) (s : Store) (a j : ℕ) (v : ℝ) : Option Store :=
  if j ≥ c.p then none else some (puts s a (j + 1) v)

end Verif.TL
