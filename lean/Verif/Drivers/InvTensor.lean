import Verif.Drivers.InvTaylor
import Verif.Drivers.TensorEval

/-!
# `inverse_tensor_eval` (`ADOL-C/src/drivers/taylor.cpp:626-722`)

Real arithmetic is exact; `int`, `long` and `size_t` do not overflow.  Simplified: after a sweep that returns a negative code
the C++ goes on with what is in the result arrays; the model stops with `.error`.
-/
set_option linter.all false
namespace Verif.Drivers
open Verif.AD Verif.Num.TensorCoef Verif.Num

/-- What `inverse_tensor_eval` leaves behind besides the array: the static variables of `inverse_Taylor_prop`, what the tape keeps
for `jac_solv`. -/
structure IVLoop where
  it : Nat → Nat
  X : Nat → Nat → ℝ
  c : ITStat
  js : JSState ℝ
  rc : Int
  ten : Nat → Nat → ℝ

/-- How the loop is left before its end: with an error, or with `return -3` (679-680, 704-705). -/
inductive IVStop where
  | err (e : TErr)
  | singular (c : ITStat) (js : JSState ℝ) (ten : Nat → Nat → ℝ)

/-- taylor.cpp:645-658: a new table only if `d` or `p` has changed, and then `dim` is overwritten by the number of entries of the old
table (if there is one: 648), and is the length of the memory the new table is written to (653-654).  Returns the static variables and `dim`. -/
def TCache.getInv (c : TCache) (d p : Nat) : Except TErr (TCache × Nat) :=
  let dim := (Tensor.binomi (p + d - 1) d).toNat
  if d ≠ c.d ∨ p ≠ c.p then
    let dim' := if c.p ≠ 0 then (Tensor.binomi (c.p + c.d - 1) c.d).toNat else dim
    match Verif.Num.TensorCoef.coeff p d with
    | .ok t => if t.length ≤ dim' then .ok (⟨d, p, t⟩, dim') else .error .index
    | .error e => .error (.coeff e)
  else .ok (c, dim)

/-- `Y`: taylor.cpp:661-668 (`myalloc2` clears) and `multma2vec1` (346-358) -/
noncomputable def invSeed (d p : Nat) (y : Nat → ℝ) (S : Nat → Nat → ℝ) (jm : Nat → Nat) (i k : Nat) : ℝ :=
  if k = 0 then y i else if k = 1 then multma p S (fun _ => jm) i 0 else 0

/-- Pass `i` of the loop: taylor.cpp:671-686 and 691-713. -/
noncomputable def invTensorPass (t : Tape ℝ) (rrc hrc : Int) (d p : Nat) (y : Nat → ℝ) (S : Nat → Nat → ℝ) (tab : List (List Item)) (s : IVLoop) (i : Nat) :
    Except IVStop IVLoop :=
  let it := itStep p d s.it
  match tab[i]? with
  | none => .error (.err .index)
  | some q =>
    let r := inverseTaylorProp t rrc hrc d (invSeed d p y S (convert d it)) s.X s.c s.js
    match r.2.2 with
    | .error e => .error (.err (.sweep e))
    | .ok (code, X) =>
      if min s.rc code = -3 then .error (.singular r.1 r.2.1 s.ten)
      else .ok { it := it, X := X, c := r.1, js := r.2.1, rc := min s.rc code, ten := tensorAdd t.n 1 (fun _ => q) (fun j _ b => X j (b + 1)) s.ten }

/-- The result: the static variables (of `inverse_tensor_eval`, of `inverse_Taylor_prop`), what the tape keeps, the code and the array. -/
structure IVRes where
  cache : TCache
  c : ITStat
  js : JSState ℝ
  res : Except TErr (Int × (Nat → Nat → ℝ))

/-- `inverse_tensor_eval(tag, n, d, p, x, tensor, S)`: taylor.cpp:626-722.  `ten` is what the caller's array contains before. -/
noncomputable def inverseTensorEval (t : Tape ℝ) (rrc hrc : Int) (d p : Nat) (x : Nat → ℝ) (S : Nat → Nat → ℝ) (ten : Nat → Nat → ℝ)
    (cache : TCache) (c : ITStat) (js : JSState ℝ) : IVRes :=
  let n := t.n
  let dimten := (Tensor.binomi (p + d) d).toNat
  let ten : Nat → Nat → ℝ := fun i j => if i < n ∧ j < dimten then 0 else ten i j
  let fin := fun (ten : Nat → Nat → ℝ) => fun i j => if i < n ∧ j = 0 then x i else ten i j
  match zosRun ⟨x, t.par, false⟩ t.ops ZS.init with
  | .error e => ⟨cache, c, js, .error (.sweep (.fwd e))⟩
  | .ok z =>
    if d = 0 then ⟨cache, c, js, .ok (min 3 z.rc, fin ten)⟩
    else
      match cache.getInv d p with
      | .error e => ⟨cache, c, js, .error e⟩
      | .ok (cache, dim) =>
        match (List.range dim).foldlM (invTensorPass t rrc hrc d p (fun j => z.y[j]?.getD 0) S cache.tab)
          ⟨itInit d, fun i k => if i < n ∧ k = 0 then x i else 0, c, js, min 3 z.rc, ten⟩ with
        | .error (.err e) => ⟨cache, c, js, .error e⟩
        | .error (.singular c js ten) => ⟨cache, c, js, .ok (-3, ten)⟩
        | .ok s => ⟨cache, s.c, s.js, .ok (s.rc, fin s.ten)⟩

end Verif.Drivers
