import Verif.AD.Record

/-!
# The user's program: C++ expressions and statements on `adouble`

`Ex` are C++ expressions of type `adouble`; `Ex.comp` is the sequence of primitive calls (`Stmt`, `Record.lean`) an expression
executes: which overload (`const adouble &` or `adouble &&`) is taken, in which object the result is, which temporaries
there are and when they are destroyed.  `Cmd` and `Src` are the statements.  `Ex.ev`, `Cmd.sem`, `Src.sem` are
the meaning on plain numbers, written without reference to temporaries.

Simplified: operands are evaluated from left to right (C++ leaves the order open; expressions have no side effects).  The result of
`condassign` inside `pow` and `atan2` is constructed immediately before the arguments, not at the head of the function.
A passive branch (`if (a.value() < 0.0)`) or a passive value (`b.value()`) is a parameter of the expression: it is whatever it was while the
program was recorded.
-/
set_option linter.all false
namespace Verif.AD
open Elem

variable {K : Type} [Scalar K]

/-- Expressions. -/
inductive Ex (K : Type) where
  /-- a variable -/
  | var (v : Nat)
  /-- a reference parameter or local variable of the enclosing inline function (innermost first) -/
  | arg (i : Nat)
  /-- a named rvalue reference: an lvalue although the object is a temporary -/
  | lv (e : Ex K)
  /-- `adouble(p)`, `p` a `pdouble`: pdouble.cpp:25-45 -/
  | par (p : Nat)
  /-- `adouble(c)`: adouble.cpp:49 -/
  | num (c : K)
  | un (f : Un K) (e : Ex K)
  | bin (f : Bin) (e1 e2 : Ex K)
  /-- sin (`false`), cos (`true`) -/
  | trig (cosine : Bool) (e : Ex K)
  | quad (q : Quad) (e : Ex K)
  /-- `adouble r; condassign(r, c, a, b);` with `r` as the value -/
  | cond (c a b : Ex K)
  /-- an inline function with a reference parameter bound to `e` and the return expression `b` -/
  | argE (e b : Ex K)
  /-- `adouble temp = e; return b;` -/
  | locE (e b : Ex K)

/-! ## Execution -/

/-- The calls, the object that holds the result, whether it is an rvalue (a temporary that may be reused), the next unused name, the other
temporaries alive (oldest first). -/
structure Out (K : Type) where
  code : List (Stmt K)
  res : Nat
  tmp : Bool
  n : Nat
  gar : List Nat

/-- All temporaries. -/
def Out.all (r : Out K) : List Nat := r.gar ++ if r.tmp then [r.res] else []

/-- Destruction at the end of a full expression: in the reverse of the order of construction. -/
def dels (L : List Nat) : List (Stmt K) := L.reverse.map Stmt.del

/-- An expression initialising an object: the temporary itself, or a copy (adouble.cpp:82). -/
def Out.mat (r : Out K) : Out K := if r.tmp then r else ⟨r.code ++ [.copy r.n r.res], r.n, true, r.n + 1, r.gar⟩

/-- Unary functions: `const adouble &` constructs the result, `adouble &&` reuses the argument and returns it
(adouble.cpp:1453-1631, 1793-1896, 2057-2161, 2330-2441, 2666-3151, 4346-4650, 4969-5070; adtb_types.h:606-668). -/
def unOut (f : Un K) (r : Out K) : Out K :=
  if r.tmp then ⟨r.code ++ [.un f r.res r.res, .move r.n r.res], r.n, true, r.n + 1, r.gar⟩
  else ⟨r.code ++ [.new r.n, .un f r.res r.n], r.n, true, r.n + 1, r.gar⟩

/-- Binary operators and `fmin`, by value category of the operands.
`+`: adouble.cpp:1633, 1714, adtb_types.h:598-603; `-`: adouble.cpp:1898, 1978, adtb_types.h:618-623 (lvalue minus rvalue is `-(std::move(b)) + a`);
`*`: adouble.cpp:2163, 2247, adtb_types.h:637-642; `/`: adouble.cpp:2443, 2530, 2598, adtb_types.h:658-660; `fmin`: adouble.cpp:4652, 4759, 4864, adtb_types.h. -/
def binOut (f : Bin) (r1 r2 : Out K) : Out K :=
  let n := r2.n
  match r1.tmp, r2.tmp with
  | false, false => ⟨r1.code ++ r2.code ++ [.new n, .bin f true r1.res r2.res n], n, true, n + 1, r1.gar ++ r2.gar⟩
  | true, false => ⟨r1.code ++ r2.code ++ [.bin f false r1.res r2.res r1.res, .move n r1.res], n, true, n + 1, r1.gar ++ r2.gar⟩
  | true, true => ⟨r1.code ++ r2.code ++ [.bin f false r1.res r2.res r1.res, .move n r1.res], n, true, n + 1, r1.gar ++ r2.gar ++ [r2.res]⟩
  | false, true =>
    match f with
    | .plus | .mult => ⟨r1.code ++ r2.code ++ [.bin f false r2.res r1.res r2.res, .move n r2.res], n, true, n + 1, r1.gar ++ r2.gar⟩
    | .minus => ⟨r1.code ++ r2.code ++ [.un .neg r2.res r2.res, .move n r2.res, .bin .plus false n r1.res n, .move (n + 1) n], n + 1, true, n + 2, r1.gar ++ r2.gar⟩
    | .div | .fmin => ⟨r1.code ++ r2.code ++ [.bin f false r1.res r2.res r2.res, .move n r2.res], n, true, n + 1, r1.gar ++ r2.gar⟩

/-- sin and cos with their companion (adouble.cpp:3153-3478). -/
def trigOut (co : Bool) (r : Out K) : Out K :=
  if r.tmp then ⟨r.code ++ [.new r.n, .trig co r.res r.n r.res, .del r.n, .move (r.n + 1) r.res], r.n + 1, true, r.n + 2, r.gar⟩
  else ⟨r.code ++ [.new r.n, .new (r.n + 1), .trig co r.res (r.n + 1) r.n, .del (r.n + 1)], r.n, true, r.n + 2, r.gar⟩

/-- The functions applied one after the other to `a * a` (`-a * a` for erf, erfc) in the expression for the companion `b`:
adouble.cpp:3484, 3540, 3596, 3652, 3705, 3761, 3813, 3868, 3920, 3975, 4027, 4082, 4134-4135, 4190-4191, 4243-4244, 4298-4299. -/
def compChain (q : Quad) : List (Un K) :=
  match q with
  | .asin => [.minD 1, .sqrt, .divD 1]
  | .acos => [.minD 1, .sqrt, .divD (-1)]
  | .atan => [.plusD 1, .divD 1]
  | .asinh => [.plusD 1, .sqrt, .divD 1]
  | .acosh => [.subD 1, .sqrt, .divD 1]
  | .atanh => [.minD 1, .divD 1]
  | .erf => [.exp, .multD (2 / Elem.sqrt (Elem.acos (-1)))]
  | .erfc => [.exp, .multD (-2 / Elem.sqrt (Elem.acos (-1)))]

/-- `a * a`, or `-a * a`, into the temporary `t` (`a` is an lvalue in all these functions). -/
def compStart (q : Quad) (a t : Nat) : List (Stmt K) :=
  match q with
  | .erf | .erfc => [.new t, .un .neg a t, .bin .mult false t a t, .move (t + 1) t]
  | _ => [.new t, .bin .mult true a a t, .move (t + 1) t]

/-- Functions applied to a temporary. -/
def chainCode : List (Un K) → Nat → List (Stmt K)
  | [], _ => []
  | f :: L, t => .un f t t :: .move (t + 1) t :: chainCode L (t + 1)

/-- asin, acos, …, erfc (adouble.cpp:3480-4344).  (The `move` in `compStart` is the initialisation of the next step's name; where there is none in the code it only
renames the object.) -/
def quadOut (q : Quad) (r : Out K) : Out K :=
  if r.tmp then
    let b := r.n + 1 + (compChain (K := K) q).length
    ⟨r.code ++ compStart q r.res r.n ++ chainCode (compChain q) (r.n + 1) ++ [.quad q r.res b r.res, .del b, .move (b + 1) r.res], b + 1, true, b + 2, r.gar⟩
  else
    let b := r.n + 2 + (compChain (K := K) q).length
    ⟨r.code ++ [.new r.n] ++ compStart q r.res (r.n + 1) ++ chainCode (compChain q) (r.n + 2) ++ [.quad q r.res b r.n, .del b], r.n, true, b + 1, r.gar⟩

/-- What an expression executes; `A` are the objects its reference parameters are bound to, names from `n` on are unused. -/
def Ex.comp (A : List Nat) (n : Nat) : Ex K → Out K
  | .var v => ⟨[], v, false, n, []⟩
  | .arg i => ⟨[], A[i]?.getD 0, false, n, []⟩
  | .lv e =>
    let r := e.comp A n
    ⟨r.code, r.res, false, r.n, r.all⟩
  | .par p => ⟨[.new n, .setP n p], n, true, n + 1, []⟩
  | .num c => ⟨[.newD n c], n, true, n + 1, []⟩
  | .un f e => unOut f (e.comp A n)
  | .bin f a b =>
    let r1 := a.comp A n
    binOut f r1 (b.comp A r1.n)
  | .trig co e => trigOut co (e.comp A n)
  | .quad q e => quadOut q (e.comp A n)
  | .cond c a b =>
    let rc := c.comp A (n + 1)
    let ra := a.comp A rc.n
    let rb := b.comp A ra.n
    ⟨.new n :: (rc.code ++ ra.code ++ rb.code ++ [.cond n rc.res ra.res rb.res] ++ dels (rc.all ++ ra.all ++ rb.all)), n, true, rb.n, []⟩
  | .argE e b =>
    let r1 := e.comp A n
    let r2 := (b.comp (r1.res :: A) r1.n).mat
    ⟨r1.code ++ r2.code ++ dels r2.gar, r2.res, true, r2.n, r1.all⟩
  | .locE e b =>
    let r1 := (e.comp A n).mat
    let r2 := (b.comp (r1.res :: A) r1.n).mat
    ⟨r1.code ++ dels r1.gar ++ r2.code ++ dels r2.gar ++ [.del r1.res], r2.res, true, r2.n, []⟩

/-! ## Meaning -/

/-- The value of an expression, given the values of the variables, parameters and reference parameters. -/
def Ex.ev (V : Nat → Option K) (par : Nat → K) : List K → Ex K → Option K
  | _, .var v => V v
  | As, .arg i => As[i]?
  | As, .lv e => e.ev V par As
  | _, .par p => some (par p)
  | _, .num c => some c
  | As, .un f e => (e.ev V par As).map f.fn
  | As, .bin f a b => (a.ev V par As).bind fun v => (b.ev V par As).map fun w => f.fn v w
  | As, .trig co e => (e.ev V par As).map fun v => if co then cos v else sin v
  | As, .quad q e => (e.ev V par As).map q.fn
  | As, .cond c a b => (c.ev V par As).bind fun u => (a.ev V par As).bind fun v => (b.ev V par As).map fun w => if u > 0 then v else w
  | As, .argE e b => (e.ev V par As).bind fun v => b.ev V par (v :: As)
  | As, .locE e b => (e.ev V par As).bind fun v => b.ev V par (v :: As)

/-! ## The inline functions of `adtb_types.h` -/

/-- Is the expression an rvalue (its result a temporary that may be reused)? -/
def Ex.rv : Ex K → Bool
  | .var _ | .arg _ | .lv _ => false
  | _ => true

/-- `log10(a)`: adtb_types.h:774-779 -/
def Ex.log10 (e : Ex K) : Ex K := .un (.overD (Elem.log 10)) (.un .log e)
/-- `tan(a)`: adtb_types.h:793-794 -/
def Ex.tan (e : Ex K) : Ex K := .argE e (.bin .div (.trig false (.arg 0)) (.trig true (.arg 0)))
/-- `sinh(a)`; `neg`: `a.value() < 0.0` while recording.  adtb_types.h:806-823 -/
def Ex.sinh (neg : Bool) (e : Ex K) : Ex K :=
  if neg then .locE (.un .exp e) (.un (.multD (1 / 2)) (.bin .minus (.arg 0) (.un (.divD 1) (.arg 0))))
  else .locE (.un .exp (.un .neg e)) (.un (.multD (1 / 2)) (.bin .minus (.un (.divD 1) (.arg 0)) (.arg 0)))
/-- `cosh(a)`: adtb_types.h:826-833 -/
def Ex.cosh (neg : Bool) (e : Ex K) : Ex K :=
  .locE (.un .exp (if neg then e else .un .neg e)) (.un (.multD (1 / 2)) (.bin .plus (.arg 0) (.un (.divD 1) (.arg 0))))
/-- `tanh(a)`: adtb_types.h:836-853 -/
def Ex.tanh (neg : Bool) (e : Ex K) : Ex K :=
  if neg then .locE (.un .exp (.un (.multD 2) e)) (.bin .div (.un (.subD 1) (.arg 0)) (.un (.plusD 1) (.arg 0)))
  else .locE (.un .exp (.un (.multD (-2)) e)) (.bin .div (.un (.minD 1) (.arg 0)) (.un (.plusD 1) (.arg 0)))
/-- `fmin(c, a)`, `fmin(a, c)`: adtb_types.h:893-904 -/
def Ex.fminDA (c : K) (e : Ex K) : Ex K := .bin .fmin (.num c) e
def Ex.fminAD (e : Ex K) (c : K) : Ex K := .bin .fmin e (.num c)
/-- `fmax(a, b)`; both rvalues: `fmax(std::move(a), b)`.  adtb_types.h:935-947 -/
def Ex.fmax (a b : Ex K) : Ex K :=
  if a.rv ∧ b.rv then .un .neg (.bin .fmin (.un .neg a) (.un .neg (.lv b))) else .un .neg (.bin .fmin (.un .neg a) (.un .neg b))
/-- `fmax(c, a)`, `fmax(a, c)`: adtb_types.h:948-959 -/
def Ex.fmaxDA (c : K) (e : Ex K) : Ex K := .un .neg (.bin .fmin (.num (-c)) (.un .neg e))
def Ex.fmaxAD (e : Ex K) (c : K) : Ex K := .un .neg (.bin .fmin (.un .neg e) (.num (-c)))
/-- `ldexp(a, k)`, `c = ldexp(1.0, k)`: adtb_types.h:1014-1019 -/
def Ex.ldexp (e : Ex K) (c : K) : Ex K := .un (.multD c) (.lv e)
/-- `pow(c, a)` for `c > 0`; `k` is `pow(c, a.value())` while recording.  adtb_types.h:1069-1079 -/
def Ex.powDA (c k : K) (e : Ex K) : Ex K := .argE e (.cond (.num c) (.un .exp (.un (.multD (Elem.log c)) (.arg 0))) (.num k))
/-- `pow(a, b)`; `k` is `pow(a.value(), b.value())` and `bv` is `b.value()` while recording.  adtb_types.h:1080-1092 -/
def Ex.pow (k bv : K) (a b : Ex K) : Ex K :=
  .argE a (.argE b (.locE (.cond (.un .neg (.arg 0)) (.num k) (.un (.pow bv) (.arg 1)))
    (.locE (.cond (.un .fabs (.arg 2)) (.un (.pow bv) (.arg 2)) (.arg 0))
      (.cond (.arg 3) (.un .exp (.bin .mult (.arg 2) (.un .log (.arg 3)))) (.arg 0)))))
/-- `atan2(a, b)`: adtb_types.h:1096-1105 -/
def Ex.atan2 (a b : Ex K) : Ex K :=
  .argE a (.argE b
    (.locE (.cond (.arg 1) (.num 1) (.num (-1)))
      (.locE (.cond (.arg 1) (.quad .atan (.bin .div (.arg 2) (.arg 1)))
          (.bin .plus (.quad .atan (.bin .div (.arg 2) (.arg 1))) (.un (.multD (Elem.asin 1)) (.un (.multD 2) (.arg 0)))))
        (.locE (.cond (.un .fabs (.arg 3)) (.bin .minus (.un (.multD (Elem.asin 1)) (.arg 1)) (.quad .atan (.bin .div (.arg 2) (.arg 3)))) (.num 0))
          (.cond (.bin .minus (.un .fabs (.arg 3)) (.un .fabs (.arg 4))) (.arg 1) (.arg 0))))))

/-! ## Statements -/

/-- Statements. -/
inductive Cmd (K : Type) where
  /-- `adouble v;` -/
  | decl (v : Nat)
  /-- `adouble v = e;` -/
  | declE (v : Nat) (e : Ex K)
  /-- end of the scope of `v` -/
  | kill (v : Nat)
  /-- `v = e;` -/
  | set (v : Nat) (e : Ex K)
  /-- `v = c;` -/
  | setD (v : Nat) (c : K)
  /-- `v = p;` -/
  | setP (v p : Nat)
  /-- `v += e;` `v -= e;` `v *= e;` -/
  | acc (f : Acc) (v : Nat) (e : Ex K)
  /-- `v += c;` … -/
  | accD (f : Acc) (v : Nat) (c : K)
  /-- `v /= e;` -/
  | divE (v : Nat) (e : Ex K)
  /-- `v /= c;` -/
  | divD (v : Nat) (c : K)
  | incr (v : Nat)
  | decr (v : Nat)
  /-- `adouble r = v++;` -/
  | postIncr (r v : Nat)
  /-- `adouble r = v--;` -/
  | postDecr (r v : Nat)
  /-- `v <<= x_i;` -/
  | indep (v : Nat)
  /-- `v >>= y_j;` -/
  | dep (v : Nat)
  /-- `condassign(r, c, a, b)`, `condassign(r, c, a)`, `condeqassign(r, c, a, b)`, `condeqassign(r, c, a)` -/
  | cond (r : Nat) (c a b : Ex K)
  | condS (r : Nat) (c a : Ex K)
  | condEq (r : Nat) (c a b : Ex K)
  | condEqS (r : Nat) (c a : Ex K)

/-- A program; every continuation of a branch is written out. -/
inductive Src (K : Type) where
  | done
  | cmd (c : Cmd K) (k : Src K)
  /-- `if (e ⋈ q)` with a number `q` -/
  | ifD (c : Cmp) (e : Ex K) (q : K) (t f : Src K)
  /-- `if (q ⋈ e)` -/
  | ifD' (c : Cmp) (q : K) (e : Ex K) (t f : Src K)
  /-- `if (a ⋈ b)` -/
  | ifA (c : Cmp) (a b : Ex K) (t f : Src K)

/-- Two expressions, then the statement `s` on their objects, then the destruction of the temporaries. -/
def two (n : Nat) (a b : Ex K) (s : Nat → Nat → Stmt K) : List (Stmt K) :=
  let ra := a.comp [] n
  let rb := b.comp [] ra.n
  ra.code ++ rb.code ++ [s ra.res rb.res] ++ dels (ra.all ++ rb.all)

/-- The same with three expressions. -/
def three (n : Nat) (c a b : Ex K) (s : Nat → Nat → Nat → Stmt K) : List (Stmt K) :=
  let rc := c.comp [] n
  let ra := a.comp [] rc.n
  let rb := b.comp [] ra.n
  rc.code ++ ra.code ++ rb.code ++ [s rc.res ra.res rb.res] ++ dels (rc.all ++ ra.all ++ rb.all)

/-- Multiplication by the value of an expression: `v *= e` (adouble.cpp:542; there is no overload for rvalues). -/
def accMult (n v : Nat) (e : Ex K) : List (Stmt K) :=
  let r := e.comp [] n
  r.code ++ [.accA .mult v r.res] ++ dels r.all

/-- What a statement executes; names from `n` on are unused. -/
def Cmd.comp (n : Nat) : Cmd K → List (Stmt K)
  | .decl v => [.new v]
  | .declE v e =>
    let r := e.comp [] n
    r.code ++ [if r.tmp then .move v r.res else .copy v r.res] ++ dels r.gar
  | .kill v => [.del v]
  | .set v e =>
    let r := e.comp [] n
    r.code ++ [if r.tmp then .moveA v r.res else .setA v r.res] ++ dels r.gar
  | .setD v c => [.setD v c]
  | .setP v p => [.setP v p]
  | .acc f v e =>
    match f with
    | .mult => accMult n v e
    | .plus | .minus =>
      let r := e.comp [] n
      r.code ++ [if r.tmp then .accR (f = .minus) v r.res else .accA f v r.res] ++ dels r.gar
  | .accD f v c => [.accD f v c]
  | .divE v e => accMult n v (.un (.divD 1) e)   -- adtb_types.h:675-682
  | .divD v c => [.accD .mult v (1 / c)]         -- adtb_types.h:671-674
  | .incr v => [.incr v]
  | .decr v => [.decr v]
  | .postIncr r v => [.new r, .setA r v, .incr v]  -- adouble.cpp:600-663
  | .postDecr r v => [.new r, .setA r v, .decr v]  -- adouble.cpp:665-728
  | .indep v => [.indep v]
  | .dep v => [.dep v]
  | .cond r c a b => three n c a b fun c a b => .cond r c a b
  | .condS r c a => two n c a fun c a => .condS r c a
  | .condEq r c a b => three n c a b fun c a b => .condEq r c a b
  | .condEqS r c a => two n c a fun c a => .condEqS r c a

/-- Statements before a program. -/
def Prog.pre : List (Stmt K) → Prog K → Prog K
  | [], k => k
  | s :: L, k => .stmt s (Prog.pre L k)

/-- The comparison after exchange of the sides: `q < a` is `-q + a > 0` (adouble.cpp:1309-1448). -/
def Cmp.flip : Cmp → Cmp
  | .eq => .eq | .neq => .neq | .le => .ge | .ge => .le | .lt => .gt | .gt => .lt

/-- Comparison with a number: with 0 directly, otherwise of `-q + a` with 0 (adouble.cpp:1290-1448); then the temporaries are destroyed, on both branches. -/
def cmpD (n : Nat) (c : Cmp) (e : Ex K) (q : K) (t f : Prog K) : Prog K :=
  let r := e.comp [] n
  if q = 0 then Prog.pre r.code (.branch c r.res (Prog.pre (dels r.all) t) (Prog.pre (dels r.all) f))
  else Prog.pre (r.code ++ [.new r.n, .un (.plusD (-q)) r.res r.n])
    (.branch c r.n (Prog.pre (dels (r.all ++ [r.n])) t) (Prog.pre (dels (r.all ++ [r.n])) f))

/-- What a program executes. -/
def Src.comp (n : Nat) : Src K → Prog K
  | .done => .done
  | .cmd c k => Prog.pre (c.comp n) (k.comp n)
  | .ifD c e q t f => cmpD n c e q (t.comp n) (f.comp n)
  | .ifD' c q e t f => cmpD n c.flip e q (t.comp n) (f.comp n)
  | .ifA c a b t f =>  -- adtb_types.h:728-745
    let ra := a.comp [] n
    let rb := b.comp [] ra.n
    Prog.pre (ra.code ++ rb.code ++ [.new rb.n, .bin .minus true ra.res rb.res rb.n])
      (.branch c rb.n (Prog.pre (dels (ra.all ++ rb.all ++ [rb.n])) (t.comp n)) (Prog.pre (dels (ra.all ++ rb.all ++ [rb.n])) (f.comp n)))

/-- The meaning of a statement: objects are numbers. -/
def Cmd.sem (x par : Nat → K) (s : Cmd K) (e : SE K) : Option (SE K) :=
  let ev (a : Ex K) : Option K := a.ev e.vars par []
  match s with
  | .decl v => if (e.vars v).isNone then some (e.set v 0) else none
  | .declE v a => if (e.vars v).isNone then (ev a).map fun w => e.set v w else none
  | .kill v => if (e.vars v).isSome then some (e.del v) else none
  | .set v a => if (e.vars v).isSome then (ev a).map fun w => e.set v w else none
  | .setD v c => if (e.vars v).isSome then some (e.set v c) else none
  | .setP v p => if (e.vars v).isSome then some (e.set v (par p)) else none
  | .acc f v a => (e.vars v).bind fun u => (ev a).map fun w => e.set v (f.fn u w)
  | .accD f v c => (e.vars v).map fun u => e.set v (f.fn u c)
  | .divE v a => (e.vars v).bind fun u => (ev a).map fun w => e.set v (u / w)
  | .divD v c => (e.vars v).map fun u => e.set v (u / c)
  | .incr v => (e.vars v).map fun u => e.set v (u + 1)
  | .decr v => (e.vars v).map fun u => e.set v (u - 1)
  | .postIncr r v => if (e.vars r).isNone then (e.vars v).map fun u => (e.set r u).set v (u + 1) else none
  | .postDecr r v => if (e.vars r).isNone then (e.vars v).map fun u => (e.set r u).set v (u - 1) else none
  | .indep v => if (e.vars v).isSome then some { e.set v (x e.ii) with ii := e.ii + 1 } else none
  | .dep v => (e.vars v).map fun u => { e with ys := e.ys ++ [u] }
  | .cond r c a b => if (e.vars r).isSome then (ev c).bind fun u => (ev a).bind fun v => (ev b).map fun w => e.set r (if u > 0 then v else w) else none
  | .condS r c a => (e.vars r).bind fun old => (ev c).bind fun u => (ev a).map fun v => e.set r (if u > 0 then v else old)
  | .condEq r c a b => if (e.vars r).isSome then (ev c).bind fun u => (ev a).bind fun v => (ev b).map fun w => e.set r (if u ≥ 0 then v else w) else none
  | .condEqS r c a => (e.vars r).bind fun old => (ev c).bind fun u => (ev a).map fun v => e.set r (if u ≥ 0 then v else old)

/-- The comparisons of C++. -/
def Cmp.rel (c : Cmp) (v w : K) : Prop :=
  match c with
  | .eq => v = w
  | .neq => v ≠ w
  | .le => v ≤ w
  | .gt => v > w
  | .ge => v ≥ w
  | .lt => v < w

instance (c : Cmp) (v w : K) : Decidable (c.rel v w) := by cases c <;> unfold Cmp.rel <;> infer_instance

/-- The meaning of a program: the final values, the outputs, and the outcomes of its comparisons. -/
def Src.sem (x par : Nat → K) : Src K → SE K → Option (SE K × List Bool)
  | .done, e => some (e, [])
  | .cmd c k, e => (c.sem x par e).bind fun e' => k.sem x par e'
  | .ifD c a q t f, e => (a.ev e.vars par []).bind fun v =>
      if c.rel v q then (t.sem x par e).map fun r => (r.1, true :: r.2) else (f.sem x par e).map fun r => (r.1, false :: r.2)
  | .ifD' c q a t f, e => (a.ev e.vars par []).bind fun v =>
      if c.rel q v then (t.sem x par e).map fun r => (r.1, true :: r.2) else (f.sem x par e).map fun r => (r.1, false :: r.2)
  | .ifA c a b t f, e => (a.ev e.vars par []).bind fun v => (b.ev e.vars par []).bind fun w =>
      if c.rel v w then (t.sem x par e).map fun r => (r.1, true :: r.2) else (f.sem x par e).map fun r => (r.1, false :: r.2)

/-- Variables have names below `n`, reference parameters are among the `j` bound ones. -/
def Ex.scoped (n : Nat) : Nat → Ex K → Prop
  | _, .var v => v < n
  | j, .arg i => i < j
  | _, .par _ => True
  | _, .num _ => True
  | j, .lv e | j, .un _ e | j, .trig _ e | j, .quad _ e => e.scoped n j
  | j, .bin _ a b => a.scoped n j ∧ b.scoped n j
  | j, .cond c a b => c.scoped n j ∧ a.scoped n j ∧ b.scoped n j
  | j, .argE e b | j, .locE e b => e.scoped n j ∧ b.scoped n (j + 1)

/-- The variables of the program have names below `n`. -/
def Cmd.fits (n : Nat) : Cmd K → Prop
  | .decl v | .kill v | .setD v _ | .setP v _ | .accD _ v _ | .divD v _ | .incr v | .decr v | .indep v | .dep v => v < n
  | .declE v e | .set v e | .acc _ v e | .divE v e => v < n ∧ e.scoped n 0
  | .postIncr r v | .postDecr r v => r < n ∧ v < n
  | .cond r c a b | .condEq r c a b => r < n ∧ c.scoped n 0 ∧ a.scoped n 0 ∧ b.scoped n 0
  | .condS r c a | .condEqS r c a => r < n ∧ c.scoped n 0 ∧ a.scoped n 0

def Src.fits (n : Nat) : Src K → Prop
  | .done => True
  | .cmd c k => c.fits n ∧ k.fits n
  | .ifD _ a _ t f | .ifD' _ _ a t f => a.scoped n 0 ∧ t.fits n ∧ f.fits n
  | .ifA _ a b t f => a.scoped n 0 ∧ b.scoped n 0 ∧ t.fits n ∧ f.fits n

end Verif.AD
