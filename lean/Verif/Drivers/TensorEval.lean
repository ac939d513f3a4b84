import Verif.Drivers.Model
import Verif.Num.TensorIt
import Verif.AD.RealInst

/-!
# `tensor_eval` and `tensor_value` (`ADOL-C/src/drivers/taylor.cpp`)

Real arithmetic is exact; `int`, `long` and `size_t` do not overflow (a `size_t` that would become negative is treated
where it occurs).  Simplified: after a sweep that returns a negative code the C++ goes on with what is in the result
arrays; the model stops with `.error`.  The return code is not modelled.
-/
namespace Verif.Drivers
open Verif.AD Verif.Num.TensorCoef Verif.Num

/-- How `tensor_eval` fails: in a sweep, in `coeff`, or in its own array accesses. -/
inductive TErr where
  | sweep (e : DErr)
  | coeff (e : Err)
  | index

/-- The static variables of `tensor_eval`: taylor.cpp:727-728 -/
structure TCache where
  d : Nat
  p : Nat
  tab : List (List Item)

/-- Static variables start as 0 (taylor.cpp:727-728). -/
def TCache.init : TCache := ⟨0, 0, []⟩

/-- taylor.cpp:748-759: a new table only if `d` or `p` has changed.  (Freeing the old one, 749-754, is not modelled.) -/
def TCache.get (c : TCache) (d p : Nat) : Except TErr TCache :=
  if d ≠ c.d ∨ p ≠ c.p then
    match Verif.Num.TensorCoef.coeff p d with
    | .ok t => .ok ⟨d, p, t⟩
    | .error e => .error (.coeff e)
  else .ok c

/-- `sum += S[i][j] * jm[k][j]`: taylor.cpp:323-325, 337-339 (`multma3vec2`, `multma2vec2`) -/
def multma (p : Nat) (S : Nat → Nat → ℝ) (jm : Nat → Nat → Nat) (i k : Nat) : ℝ :=
  (List.range p).foldl (fun sum j => sum + S i j * (jm k j : ℝ)) 0

/-- The sweep of one batch: `fov_forward` for `d = 1` (taylor.cpp:778-780), else `hov_forward` (815-817) with the seed
`X[i][k][0] = sum`, `X[i][k][j] = 0` for `j > 0` (326-328).  Result: `y` and `Y`. -/
noncomputable def tensorSweep (t : Tape ℝ) (d p bd : Nat) (x : Nat → ℝ) (S : Nat → Nat → ℝ) (jm : Nat → Nat → Nat) :
    Except TErr ((Nat → ℝ) × (Nat → Nat → Nat → ℝ)) :=
  if d = 1 then
    match fovRun ⟨x, t.par, false⟩ bd (fun i k => multma p S jm i k) t.ops VS.init with
    | .ok w => .ok (fun j => w.y[j]?.getD 0, fun j k _ => (w.dy[j]?.getD [])[k]?.getD 0)
    | .error e => .error (.sweep (.fwd e))
  else
    match hovRun ⟨x, fun i k j => if j = 0 then multma p S jm i k else 0, t.par, d, bd, 0⟩ t.ops HVS.init with
    | .ok s => .ok (fun j => (s.y[j]?.getD (0, fun _ _ => 0)).1, fun j k b => (s.y[j]?.getD (0, fun _ _ => 0)).2 k b)
    | .error e => .error (.sweep (.hfwd e))

/-- Local variables of the loop of `tensor_eval`, and the caller's array `tensor`. -/
structure TLoop where
  it : Nat → Nat
  jm : Nat → Nat → Nat
  ptr : Nat → List Item
  ctr : Nat
  bd : Nat
  ten : Nat → Nat → ℝ
  y : Nat → ℝ

/-- `do { for (j < m) tensor[j][ptr[k]->a] += Y[j][k][ptr[k]->b - 1] * ptr[k]->c; ptr[k] = ptr[k]->next; } while (ptr[k] != NULL)`
for all `k < bd`: taylor.cpp:781-788 (where `Y[0][j][k]` is used), 818-824 -/
noncomputable def tensorAdd (m bd : Nat) (ptr : Nat → List Item) (Y : Nat → Nat → Nat → ℝ) (ten : Nat → Nat → ℝ) : Nat → Nat → ℝ :=
  (List.range bd).foldl (fun ten k => (ptr k).foldl (fun (ten : Nat → Nat → ℝ) (q : Item) =>
    fun j a => if j < m ∧ a = q.a then ten j a + Y j k (q.b - 1) * (q.c : ℝ) else ten j a) ten) ten

/-- Pass `i` of the loop: taylor.cpp:769-793 and 801-828.  `jmbd` is the number of rows of `jm`; `ptr` has 10 entries.
`bd - 1` is huge if `bd = 0`. -/
noncomputable def tensorPass (t : Tape ℝ) (d p : Nat) (x : Nat → ℝ) (S : Nat → Nat → ℝ) (tab : List (List Item)) (dim jmbd : Nat)
    (s : TLoop) (i : Nat) : Except TErr TLoop :=
  let it := itStep p d s.it
  if s.ctr < jmbd ∧ s.ctr < 10 then
    match tab[i]? with
    | none => .error .index
    | some q =>
      let jm := fun k => if k = s.ctr then convert d it else s.jm k
      let ptr := fun k => if k = s.ctr then q else s.ptr k
      if s.bd = 0 ∨ s.ctr < s.bd - 1 then .ok { s with it := it, jm := jm, ptr := ptr, ctr := s.ctr + 1 }
      else
        match tensorSweep t d p s.bd x S jm with
        | .error e => .error e
        | .ok (y, Y) =>
          .ok { it := it, jm := jm, ptr := ptr, ctr := 0, y := y, ten := tensorAdd t.m s.bd ptr Y s.ten,
                bd := if dim - i ≤ s.bd then dim - i - 1 else s.bd }
  else .error .index

/-- `tensor_eval(tag, m, n, d, p, x, tensor, S)`: taylor.cpp:725-843.  `ten` is what the caller's array contains before, `junk`
the malloc'ed local arrays.  Returns the static variables and the array. -/
noncomputable def tensorEval (t : Tape ℝ) (d p : Nat) (x : Nat → ℝ) (S : Nat → Nat → ℝ) (junk : TLoop) (c : TCache) (ten : Nat → Nat → ℝ) :
    TCache × Except TErr (Nat → Nat → ℝ) :=
  let dimten := (Tensor.binomi (p + d) d).toNat
  let ten : Nat → Nat → ℝ := fun i j => if i < t.m ∧ j < dimten then 0 else ten i j
  let fin := fun (y : Nat → ℝ) (ten : Nat → Nat → ℝ) => fun i j => if i < t.m ∧ j = 0 then y i else ten i j
  if d = 0 then
    match zosRun ⟨x, t.par, false⟩ t.ops ZS.init with
    | .error e => (c, .error (.sweep (.fwd e)))
    | .ok z => (c, .ok (fin (fun j => z.y[j]?.getD 0) ten))
  else
    let dim := (Tensor.binomi (p + d - 1) d).toNat
    let bd := if dim < 10 then dim else 10
    match c.get d p with
    | .error e => (c, .error e)
    | .ok c =>
      match (List.range dim).foldlM (tensorPass t d p x S c.tab dim bd) { junk with it := itInit d, ctr := 0, bd := bd, ten := ten } with
      | .error e => (c, .error e)
      | .ok s => (c, .ok (fin s.y s.ten))

/-- `tensor_value(d, m, y, tensor, multi)`: taylor.cpp:846-872; the selection loop (849-867) is that of `tensor_address`.  (The C++
also overwrites the caller's `multi`.) -/
def tensorValue (ten : Nat → Nat → ℝ) (multi : List Nat) : Nat → ℝ :=
  let im := (List.range multi.length).map fun i : Nat => (Tensor.sorted multi).im (i : Int)
  fun i => ten i (Tensor.tensorAddress im).toNat

end Verif.Drivers
