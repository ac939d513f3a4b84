import Verif.Drivers.JacSolv

/-!
# `inverse_Taylor_prop` (`ADOL-C/src/drivers/taylor.cpp:497-618`)

Real arithmetic is exact.  Simplified: after a sweep that returns a negative code the C++ goes on with what is in the result
arrays; the model stops with `.error`.  Sums over an index are written as finite sums.
-/
set_option linter.all false
namespace Verif.Drivers
open Verif.AD

/-- The static variables that carry information from one call to the next: taylor.cpp:502, 506.  (`A`, `W`, `Xhelp`, `b` are
cleared in every call, 566-585; `w` and `nonzero` are written before they are read; `I` and `dd` depend on `n` and `d` only.) -/
structure ITStat where
  nax : Nat
  dax : Nat
  cgd : Bool
  xold : Nat → ℝ

/-- Static variables start as 0. -/
def ITStat.init : ITStat := ⟨0, 0, false, fun _ => 0⟩

/-- taylor.cpp:514-552 (new arrays if `n` or `d` has changed: `xold` is cleared and `cgd` set) and 553-556 (has the point changed?) -/
noncomputable def ITStat.enter (n d : Nat) (X : Nat → Nat → ℝ) (c : ITStat) : ITStat :=
  let c := if n ≠ c.nax ∨ d ≠ c.dax then ⟨n, d, true, fun _ => 0⟩ else c
  { c with cgd := c.cgd || (List.range n).any fun i => X i 0 != c.xold i }

/-- `dd[0] = d + 1; while (dd[++i] > 1) dd[i + 1] = (int)ceil(dd[i] * 0.5)`: taylor.cpp:548-551 -/
def halves (m : Nat) : List Nat := if h : m ≤ 1 then [m] else m :: halves ((m + 1) / 2)
termination_by m

/-- Variables of the loops: the caller's `X`, the static `Xhelp` and `A`, what `jac_solv` keeps for the tape, and `rc`. -/
structure ITLoop where
  X : Nat → Nat → ℝ
  Xh : Nat → Nat → ℝ
  A : Nat → Nat → Nat → ℝ
  js : JSState ℝ
  rc : Int

/-- How the loops are left: a sweep fails, or `jac_solv` returns -3 (609-610; `X` is as far as it has been computed). -/
inductive ITStop where
  | sweep (e : DErr)
  | singular (js : JSState ℝ) (X : Nat → Nat → ℝ)

/-- The contribution of one `j` to `bi`: taylor.cpp:591-605 (`a` is `A[i][j]`, `x` is `X[j]`) -/
noncomputable def itTerm (da l : Nat) (a x : Nat → ℝ) : ℝ :=
  if da = l - 1 then a 1 * x (l - 1)
  else ∑ q ∈ Finset.range (l - da), (a (q + 1) * x (l - 1 - q) + a (l - 1 - q) * x (q + 1))

/-- `bi`: taylor.cpp:586-606 (`h.y[i]` is the row with `w[i]` in front of `W[i]`) -/
noncomputable def itBi (n da l : Nat) (h : HS ℝ) (Y : Nat → Nat → ℝ) (A : Nat → Nat → Nat → ℝ) (nz X : Nat → Nat → ℝ) (i : Nat) : ℝ :=
  ((h.y[i]?.getD fun _ => 0) l - Y i l) + ∑ j ∈ Finset.range n, if nz i j > 1 then itTerm da l (A i j) (X j) else 0

/-- One pass of the loop over `l`: taylor.cpp:583-616 -/
noncomputable def itPass (t : Tape ℝ) (rrc : Int) (x : Nat → ℝ) (Y : Nat → Nat → ℝ) (da : Nat) (h : HS ℝ) (nz : Nat → Nat → ℝ) (l : Nat) (s : ITLoop) :
    Except ITStop ITLoop :=
  let r := jacSolv t rrc x (fun i => if i < t.n then - itBi t.n da l h Y s.A nz s.X i else 0) 2 s.js
  match r.2 with
  | .error e => .error (.sweep e)
  | .ok (code, b) =>
    if min s.rc code = -3 then .error (.singular r.1 s.X)
    else .ok {
      X := fun i k => if i < t.n ∧ k = l then s.X i k + b i else s.X i k
      Xh := fun i k => if i < t.n ∧ k = l - 1 then s.Xh i k + b i else s.Xh i k
      A := s.A
      js := r.1
      rc := min s.rc code }

/-- The matrix `I` (taylor.cpp:541-542) -/
def itI (i j : Nat) : ℝ := if i = j then 1 else 0

/-- `hfwd` and `hrev` for the loops. -/
def itSweep {α : Type} : Except DErr α → Except ITStop α
  | .ok a => .ok a
  | .error e => .error (.sweep e)

/-- One pass of `while (--ii > 0)`: taylor.cpp:577-617 with `da = dd[ii]`, `m = dd[ii-1]`; `Di + 1 = m - da`.  `hrc` is the code `hov_reverse` returns. -/
noncomputable def itStage (t : Tape ℝ) (rrc hrc : Int) (x : Nat → ℝ) (Y : Nat → Nat → ℝ) (da m : Nat) (s : ITLoop) : Except ITStop ITLoop := do
  let h ← itSweep (hfwd (hosRun ⟨x, s.Xh, t.par, m - 1, m - da⟩ t.ops HS.init))
  let v ← itSweep (hrev (hvrRun ⟨false, m - da, t.n, fun l => lagr (itI l)⟩ t.ops (RVS.init t.n t.n (h.stk.map fun r _ => r))))
  (List.range' da (m - da)).foldlM (fun s l => itPass t rrc x Y da h v.nz l s)
    { s with A := fun i j e => if e < m - da then v.Z i j e else s.A i j e, rc := min (min s.rc h.rc) hrc }

/-- `while (--ii > 0)`: the list `dd` is traversed from its end. -/
noncomputable def itStages (t : Tape ℝ) (rrc hrc : Int) (x : Nat → ℝ) (Y : Nat → Nat → ℝ) : List Nat → ITLoop → Except ITStop ITLoop
  | m :: a :: L, s => do
    let s ← itStages t rrc hrc x Y (a :: L) s
    itStage t rrc hrc x Y a m s
  | _, s => .ok s

/-- What a call returns: a code and `X`, or a sweep has failed. -/
noncomputable def inverseTaylorProp (t : Tape ℝ) (rrc hrc : Int) (d : Nat) (Y X : Nat → Nat → ℝ) (c : ITStat) (js : JSState ℝ) :
    ITStat × JSState ℝ × Except DErr (Int × (Nat → Nat → ℝ)) :=
  let n := t.n
  let c := c.enter n d X
  let x := fun i => if i < n then X i 0 else 0
  -- 557-564
  let c' : ITStat := if c.cgd then { c with cgd := false, xold := x } else c
  let r := if c.cgd then jacSolv t rrc x (fun _ => 0) 1 js else (js, .ok (3, fun _ => 0))
  match r.2 with
  | .error e => (c', r.1, .error e)
  | .ok (code, _) =>
    if min 3 code = -3 then (c', r.1, .ok (-3, X))
    else
      -- 565-575
      let s : ITLoop := ⟨fun i k => if i < n ∧ 0 < k ∧ k ≤ d then 0 else X i k, fun _ _ => 0, fun _ _ _ => 0, r.1, min 3 code⟩
      match itStages t rrc hrc (fun i => if i < n then c'.xold i else 0) Y (halves (d + 1)) s with
      | .error (.sweep e) => (c', s.js, .error e)
      | .error (.singular js X) => (c', js, .ok (-3, X))
      | .ok s => (c', s.js, .ok (s.rc, s.X))

end Verif.Drivers
