import Verif.Num.Tensor

/-!
# `coeff` (drivers/taylor.cpp:131-263): the table of interpolation coefficients

`int` arrays of length `p` are functions on `Nat` (entries from `p` on are not used by the code and stay 0); `long double`
arithmetic is exact (ℚ); `int` arithmetic does not overflow.  The uninitialised entry `im[0]` is taken to be 0 (it is
written before it is read).  Loops whose end is not visible from their head get a number of passes they may not exceed.
-/
set_option linter.all false
namespace Verif.Num.TensorCoef
open Tensor

/-- How the code could fail: writing behind the end of `coeff_list` or a loop that does not end (`loop`), an array index
below 0 (`index`), the null pointer `ptr` dereferenced (`null`). -/
inductive Err where
  | loop
  | index
  | null
  deriving DecidableEq, Repr

/-- `f[k] = v` -/
def put (f : Nat → Nat) (k v : Nat) : Nat → Nat := fun i => if i = k then v else f i

/-- `for (i = …; m[i] == 0; i--);` from `i` downwards: taylor.cpp:239-240, 252-253 -/
def findNz (m : Nat → Nat) : Nat → Option Nat
  | 0 => if m 0 = 0 then none else some 0
  | i + 1 => if m (i + 1) = 0 then findNz m i else some (i + 1)

/-- The next multi-index of the same order: taylor.cpp:239-244, 252-257 -/
def next (p : Nat) (m : Nat → Nat) : Except Err (Nat → Nat) :=
  match findNz m (p - 2) with
  | none => .error .index
  | some i =>
    let m := put m i (m i - 1)
    let m := put m (i + 1) (m (p - 1) + 1)
    .ok (if i ≠ p - 2 then put m (p - 1) 0 else m)

/-- `while (1) { body; if ((m[p-1] == o) || (p == 1)) break; m = next m; }` (taylor.cpp:184-245, 176-258) -/
def walk {σ : Type} (p o : Nat) (body : (Nat → Nat) → σ → Except Err σ) :
    Nat → (Nat → Nat) → σ → Except Err ((Nat → Nat) × σ)
  | 0, _, _ => .error .loop
  | fuel + 1, m, s => do
    let s ← body m s
    if m (p - 1) = o ∨ p = 1 then .ok (m, s)
    else do
      let m ← next p m
      walk p o body fuel m s

/-- `dbinomi(a, b)`: taylor.cpp:132-138 -/
def dbinomi (a : ℚ) (b : Nat) : ℚ :=
  (List.range' 1 b).foldl (fun (r : ℚ) (i : Nat) => r * ((a - (i : ℚ) + 1) / (i : ℚ))) 1

/-- `summand`: taylor.cpp:141-155 -/
def summand (p d : Nat) (jm km : Nat → Nat) (oi ok : Nat) (bz : ℚ) : ℚ :=
  let r := (List.range oi).foldl (fun (r : ℚ) _ => r * ((ok : ℚ) / (d : ℚ))) 1
  let r := if (oi + ok) % 2 = 1 then r * (-1) else r
  let r := r * bz
  (List.range p).foldl (fun (r : ℚ) (i : Nat) => r * dbinomi ((d : ℚ) * (km i : ℚ) / (ok : ℚ)) (jm i)) r

/-- `km`, `order_km`, `binomiZ`. -/
structure KS where
  km : Nat → Nat
  ok : Nat
  bz : ℚ

/-- `for (i = p-1; i >= 0; i--) if (km[i] < im[i]) { …; break; } else { … }`: taylor.cpp:192-206; `i + 1` entries are left;
the result tells whether the loop was left by `break` (`i != -1`). -/
def bump (im : Nat → Nat) : Nat → KS → KS × Bool
  | 0, k => (k, false)
  | i + 1, k =>
    if k.km i < im i then
      let v := k.km i + 1
      ({ km := put k.km i v, ok := k.ok + 1, bz := k.bz * ((im i : ℚ) - (v : ℚ) + 1) / (v : ℚ) }, true)
    else bump im i { k with km := put k.km i 0, ok := k.ok - k.km i }

/-- `while (1) { /* create all k where 0<k<=i */ … }`: taylor.cpp:191-210 -/
def kwalk (p d : Nat) (jm im : Nat → Nat) (oi : Nat) : Nat → KS → ℚ → Except Err (KS × ℚ)
  | 0, _, _ => .error .loop
  | fuel + 1, k, sum =>
    let (k, more) := bump im p k
    if more then kwalk p d jm im oi fuel k (sum + summand p d jm k.km oi k.ok k.bz)
    else .ok (k, sum)

/-- A list element of `coeff_list`: address, order, coefficient (taylor.cpp:27-32). -/
structure Item where
  a : Nat
  b : Nat
  c : ℚ

/-- Address of the multi-index `im`: taylor.cpp:220-232 -/
def address (p d : Nat) (im : Nat → Nat) (oi : Nat) : Nat :=
  ((List.range p).foldl (fun (s : Int × Nat) (u : Nat) =>
    if im u ≠ 0 then
      let j := s.2
      let i := u + j
      let n := im u
      (s.1 + Int.tdiv (((j + n : Nat) : Int) * binomi (i + n) (j + n) - binomi i j * (j : Int)) (1 + (i : Int) - (j : Int)), j + n)
    else s) ((0 : Int), d - oi + 1)).1.toNat

/-- Body of the loop over `im`: taylor.cpp:185-235; the state is `km`, `order_km` and the list built so far. -/
def imBody (p d : Nat) (jm : Nat → Nat) (oi : Nat) (im : Nat → Nat) (s : (Nat → Nat) × Nat × List Item) :
    Except Err ((Nat → Nat) × Nat × List Item) := do
  let (k, sum) ← if ∀ i ∈ List.range p, ¬ (jm i > 0 ∧ im i = 0) then kwalk p d jm im oi ((d + 1) ^ p) ⟨s.1, s.2.1, 1⟩ 0
    else .ok (⟨s.1, s.2.1, 1⟩, 0)
  .ok (k.km, k.ok, if sum ≠ 0 then s.2.2 ++ [⟨address p d im oi, oi, sum⟩] else s.2.2)

/-- Body of the loop over `jm`: taylor.cpp:179-248; the state is `im`, `km`, `order_km` and the table. -/
def jmBody (p d : Nat) (jm : Nat → Nat) (s : (Nat → Nat) × (Nat → Nat) × Nat × List (List Item)) :
    Except Err ((Nat → Nat) × (Nat → Nat) × Nat × List (List Item)) := do
  let (im, km, ok, items) ← (List.range' 1 d).foldlM (fun (s : (Nat → Nat) × (Nat → Nat) × Nat × List Item) oi => do
    let im := put (put s.1 (p - 1) 0) 0 oi
    let (im, q) ← walk p oi (imBody p d jm oi) ((p + oi - 1).choose oi) im s.2
    .ok (im, q)) (s.1, s.2.1, s.2.2.1, [])
  if items = [] then .error .null else .ok (im, km, ok, s.2.2.2 ++ [items])

/-- `coeff(p, d, coeff_list)`: taylor.cpp:160-263.  `coeff_list` has `binomi(p+d-1, d)` elements (746, 755). -/
def coeff (p d : Nat) : Except Err (List (List Item)) := do
  let (_, s) ← walk p d (jmBody p d) (binomi (p + d - 1) d).toNat (put (fun _ => 0) 0 d) (fun _ => 0, fun _ => 0, 0, [])
  .ok s.2.2.2

/-- `convert(p, d, im, multi)`: taylor.cpp:266-274 -/
def convert (d : Nat) (im : Nat → Nat) : Nat → Nat :=
  (List.range d).foldl (fun (m : Nat → Nat) i => if im i ≠ 0 then put m (im i - 1) (m (im i - 1) + 1) else m) (fun _ => 0)

/-- The next index tuple: taylor.cpp:772 (`d = 1`) and 804-809 -/
def itStep (p d : Nat) (it : Nat → Nat) : Nat → Nat :=
  let it := put it (d - 1) (it (d - 1) + 1)
  let it := (List.range (d - 1)).reverse.foldl (fun it j => put it j (it j + it (j + 1) / (p + 1))) it
  (List.range' 1 (d - 1)).foldl (fun it j => if it j > p then put it j (it (j - 1)) else it) it

/-- Its initial value: taylor.cpp:768 (`d = 1`) and 798-800; entries from `d` on do not exist. -/
def itInit (d : Nat) : Nat → Nat := fun i => if i + 1 < d then 1 else 0

end Verif.Num.TensorCoef
