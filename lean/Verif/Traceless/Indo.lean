import Verif.Traceless.Spec
/-!
# Traceless sparsity detection (`adtl_indo::adouble`)

Model of `/repo/ADOL-C/include/adolc/adtl_indo.h`, `/repo/ADOL-C/src/adouble_tl_indo.cpp` and of the
driver `ADOLC_get_sparse_jacobian` (`/repo/ADOL-C/src/sparse/sparsedrivers.cpp`, 96-175).

An object is a value and a list of indices of independents.  The programs are those of
`Verif.TL` (`Un`, `Bin`, `Expr`, `Stmt`, `Prog`): the user's function is a template
instantiated for both classes.  `double` is interpreted by ℝ.  Not modelled: `unsigned int`
overflow of the indices, the stream operators, `frexp`.
-/
set_option linter.all false
noncomputable section
namespace Verif.TL
open Verif.AD (rerf rcbrt)

/-- `std::list::merge` on two lists (the standard's stable merge: the element of the second
list goes first only when it is smaller). -/
def lmerge : List ℕ → List ℕ → List ℕ
  | [], v => v
  | a :: u, [] => a :: u
  | a :: u, b :: v => if b < a then b :: lmerge (a :: u) v else a :: lmerge u (b :: v)
  termination_by u v => u.length + v.length

/-- `std::list::unique`: of every run of equal neighbours the first is kept. -/
def luniq : List ℕ → List ℕ
  | [] => []
  | [a] => [a]
  | a :: b :: l => if a = b then luniq (a :: l) else a :: luniq (b :: l)
  termination_by l => l.length

/-- An object (adtl_indo.h:215-217). -/
structure IObj where
  val : ℝ
  pat : List ℕ

/-- The objects of the program. -/
abbrev IStore := ℕ → IObj

/-- `add_to_pattern` (adtl_indo.h:839-851). -/
def addTo (pattern v : List ℕ) : List ℕ :=
  if pattern ≠ v then
    if v ≠ [] then luniq (lmerge pattern v) else pattern
  else pattern

/-- Write one object. -/
def IStore.set (s : IStore) (d : ℕ) (r : IObj) : IStore := fun o => if o = d then r else s o

/-- `pow(double v, const adouble &a)` (adtl_indo.h:490-495). -/
def iDPow (v : ℝ) (a : IObj) : IObj := ⟨v ^ a.val, addTo [] a.pat⟩
/-- `operator*(const adouble &a)` (adtl_indo.h:333-339). -/
def iMul (a b : IObj) : IObj := ⟨a.val * b.val, addTo (addTo [] a.pat) b.pat⟩

/-- The unary functions and operators (adtl_indo.h:273-369, 397-690): each builds a new
object. -/
def Un.irun (f : Un) (a : IObj) : IObj :=
  let tmp (v : ℝ) : IObj := ⟨v, addTo [] a.pat⟩
  match f with
  -- 273-278
  | .neg => tmp (-a.val)
  -- 280 (the copy constructor, 256-261)
  | .pos => tmp a.val
  -- 283-287
  | .addD v => tmp (a.val + v)
  -- 297-301
  | .dAdd v => tmp (v + a.val)
  -- 304-308
  | .subD v => tmp (a.val - v)
  -- 318-323
  | .dSub v => tmp (v - a.val)
  -- 326-331
  | .mulD v => tmp (a.val * v)
  -- 341-346
  | .dMul v => tmp (v * a.val)
  -- 349-354
  | .divD v => tmp (a.val / v)
  -- 364-369
  | .dDiv v => tmp (v / a.val)
  -- 397-551, 678-690
  | .tan => tmp (Real.tan a.val)
  | .exp => tmp (Real.exp a.val)
  | .log => tmp (Real.log a.val)
  | .sqrt => tmp √a.val
  | .cbrt => tmp (rcbrt a.val)
  | .sin => tmp (Real.sin a.val)
  | .cos => tmp (Real.cos a.val)
  | .asin => tmp (Real.arcsin a.val)
  | .acos => tmp (Real.arccos a.val)
  | .atan => tmp (Real.arctan a.val)
  | .powD v => tmp (a.val ^ v)
  | .dPow v => iDPow v a
  | .log10 => tmp (Real.logb 10 a.val)
  | .sinh => tmp (Real.sinh a.val)
  | .cosh => tmp (Real.cosh a.val)
  | .tanh => tmp (Real.tanh a.val)
  | .asinh => tmp (Real.arsinh a.val)
  | .acosh => tmp (Real.arcosh a.val)
  | .atanh => tmp (Real.artanh a.val)
  | .fabs => tmp |a.val|
  -- 553-563: ceil and floor leave the pattern of the new object empty
  | .ceil => ⟨(⌈a.val⌉ : ℤ), []⟩
  | .floor => ⟨(⌊a.val⌋ : ℤ), []⟩
  -- 599-609: fmax(const adouble &a, double v)
  | .fmaxD v =>
    let tmp2 := a.val - v
    if tmp2 < 0 then ⟨v, []⟩ else ⟨a.val, addTo [] a.pat⟩
  -- 583-597: fmax(double v, const adouble &a)
  | .dFmax v =>
    let tmp2 := v - a.val
    if tmp2 < 0 then ⟨a.val, addTo [] a.pat⟩
    else if tmp2 > 0 then ⟨v, []⟩ else ⟨v, addTo [] a.pat⟩
  -- 641-655: fmin(const adouble &a, double v)
  | .fminD v =>
    let tmp2 := a.val - v
    if tmp2 < 0 then ⟨a.val, addTo [] a.pat⟩
    else if tmp2 > 0 then ⟨v, []⟩ else ⟨v, addTo [] a.pat⟩
  -- 629-639: fmin(double v, const adouble &a)
  | .dFmin v =>
    let tmp2 := v - a.val
    if tmp2 < 0 then ⟨v, []⟩ else ⟨a.val, addTo [] a.pat⟩
  -- 664-666: ldexp(const adouble &a, const double v)
  | .ldexpD v => tmp (a.val * (2:ℝ) ^ v)
  -- 668-672: ldexp(const double v, const adouble &a)
  | .dLdexp v =>
    let q := iDPow 2 a
    ⟨v * q.val, addTo (addTo [] q.pat) a.pat⟩
  | .erf => tmp (rerf a.val)
  | .erfc => tmp (1 - rerf a.val)

/-- The binary functions and operators (adtl_indo.h:289-295, 310-316, 333-339, 356-362,
467-473, 482-488, 565-581, 611-627, 657-662). -/
def Bin.irun (f : Bin) (a b : IObj) : IObj :=
  let both (v : ℝ) : IObj := ⟨v, addTo (addTo [] a.pat) b.pat⟩
  match f with
  | .add => both (a.val + b.val)
  | .sub => both (a.val - b.val)
  | .mul => iMul a b
  | .div => both (a.val / b.val)
  | .atan2 => both (Complex.arg ⟨b.val, a.val⟩)
  | .pow => both (a.val ^ b.val)
  | .fmax =>
    let tmp2 := a.val - b.val
    if tmp2 < 0 then ⟨b.val, addTo [] b.pat⟩
    else if tmp2 > 0 then ⟨a.val, addTo [] a.pat⟩ else both a.val
  | .fmin =>
    let tmp2 := a.val - b.val
    if tmp2 < 0 then ⟨a.val, addTo [] a.pat⟩
    else if tmp2 > 0 then ⟨b.val, addTo [] b.pat⟩ else both b.val
  | .ldexp =>
    let q := iMul a (iDPow 2 b)
    ⟨q.val, addTo (addTo q.pat a.pat) b.pat⟩

/-- Evaluation of an expression; a literal is converted by `adouble(double)` (245-248). -/
def Expr.irun (s : IStore) : Expr → IObj
  | .var a => s a
  | .lit v => ⟨v, []⟩
  | .un f e => f.irun (e.irun s)
  | .bin f e₁ e₂ => f.irun (e₁.irun s) (e₂.irun s)

/-- `operator=(const adouble &a)` (adtl_indo.h:727-733): the pattern is cleared before `a`'s
pattern is read, and `a` may be the object itself. -/
def iSetA (d a : ℕ) (s : IStore) : IStore :=
  let s := s.set d ⟨(s a).val, (s d).pat⟩
  let s := if (s d).pat ≠ [] then s.set d ⟨(s d).val, []⟩ else s
  s.set d ⟨(s d).val, addTo (s d).pat (s a).pat⟩

/-- `operator+=(double)` … `operator/=(double)` (735-738, 746-749, 757-760, 768-771): the pattern
is untouched. -/
def iAccD (f : Acc) (d : ℕ) (v : ℝ) (s : IStore) : IStore :=
  match f with
  | .add => s.set d ⟨(s d).val + v, (s d).pat⟩
  | .sub => s.set d ⟨(s d).val - v, (s d).pat⟩
  | .mul => s.set d ⟨(s d).val * v, (s d).pat⟩
  | .div => s.set d ⟨(s d).val / v, (s d).pat⟩

/-- `operator+=(const adouble &)` … (740-744, 751-755, 762-766, 773-777): the value first, then the
pattern, read from the store in which the value is already changed. -/
def iAccA (f : Acc) (d a : ℕ) (s : IStore) : IStore :=
  let v := match f with
    | .add => (s d).val + (s a).val
    | .sub => (s d).val - (s a).val
    | .mul => (s d).val * (s a).val
    | .div => (s d).val / (s a).val
  let s := s.set d ⟨v, (s d).pat⟩
  s.set d ⟨(s d).val, addTo (s d).pat (s a).pat⟩

/-- Effect of a statement. -/
def Stmt.irun (st : Stmt) (s : IStore) : IStore :=
  match st with
  -- 240-243
  | .decl d => s.set d ⟨0, []⟩
  -- 245-248
  | .declD d v => s.set d ⟨v, []⟩
  -- 256-261
  | .declE d e => s.set d ⟨(e.irun s).val, addTo [] (e.irun s).pat⟩
  -- 720-725
  | .setD d v => s.set d ⟨v, []⟩
  | .setA d a => iSetA d a s
  | .accD f d v => iAccD f d v s
  | .accA f d a => iAccA f d a s
  -- 372-375
  | .incr d => s.set d ⟨(s d).val + 1, (s d).pat⟩
  -- 384-387
  | .decr d => s.set d ⟨(s d).val - 1, (s d).pat⟩
  -- 377-382
  | .postIncr d x =>
    let v := (s x).val
    let s := s.set x ⟨(s x).val + 1, (s x).pat⟩
    s.set d ⟨v, addTo [] (s x).pat⟩
  -- 389-394
  | .postDecr d x =>
    let v := (s x).val
    let s := s.set x ⟨(s x).val - 1, (s x).pat⟩
    s.set d ⟨v, addTo [] (s x).pat⟩
  -- 692-698
  | .cond d q a b => if (s q).val > 0 then iSetA d a s else iSetA d b s
  -- 700-703
  | .condS d q a => if (s q).val > 0 then iSetA d a s else s
  -- 705-711
  | .condEq d q a b => if (s q).val ≥ 0 then iSetA d a s else iSetA d b s
  -- 713-717
  | .condEqS d q a => if (s q).val ≥ 0 then iSetA d a s else s

/-- The number a comparison looks at (adtl_indo.h:779-817). -/
def Opd.iprim (s : IStore) : Opd → ℝ
  | .var a => (s a).val
  | .lit v => v

open Classical in
/-- Execution of a program. -/
def Prog.irun : Prog → IStore → IStore
  | .done, s => s
  | .stmt st p, s => p.irun (st.irun s)
  | .branch f l r t e, s => if f.holds (l.iprim s) (r.iprim s) then t.irun s else e.irun s

/-- `ADOLC_Init_sparse_pattern(a, n, start_cnt)` (adouble_tl_indo.cpp:39-45): object `i` of the
array (here the objects `0 … n-1`) gets the pattern `{start_cnt + i}`. -/
def initPattern (n cnt : ℕ) (s : IStore) : IStore :=
  (List.range n).foldl (fun s i => s.set i ⟨(s i).val, [i + cnt]⟩) s

/-- `ADOLC_get_sparse_pattern(b, m, pat)` (adouble_tl_indo.cpp:47-67) for the objects
`o, o+1, …, o+m-1`: row `i` is the length of the pattern followed by the pattern. -/
def getPattern (s : IStore) (o m : ℕ) : List (List ℕ) :=
  (List.range m).map fun i =>
    if (s (o + i)).pat.length > 0 then (s (o + i)).pat.length :: (s (o + i)).pat else [0]

end Verif.TL
