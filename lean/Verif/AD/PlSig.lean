import Verif.AD.AbsNormal

/-!
# `fov_pl_forward`, `fos_pl_sig_forward`, `fov_pl_sig_forward` (`uni5_for.cpp`) and `directional_active_gradient`
(`drivers/psdrivers.cpp`)

All cases of the switches except `abs_val` are those of `fos_forward` and `fov_forward`.  The array `signature()` of the tape is
not modelled.
-/
set_option linter.all false
namespace Verif.AD
open Elem

variable {K : Type} [Scalar K]

/-- The tolerance `1e-12` of `firstsign` (uni5_for.cpp:5911). -/
def tiny : K := 1 / 10 ^ 12

/-- The sign of the first entry that is not zero (uni5_for.cpp:5912-5915). -/
def firstNonzero : List K → ℤ
  | [] => 0
  | d :: ds => if 0 < d then 1 else if d < 0 then -1 else firstNonzero ds

/-- `firstsign` (uni5_for.cpp:5908-5917). -/
def firstsign (u : K) (du : List K) : ℤ :=
  if tiny < u then 1 else if u < -tiny then -1 else firstNonzero du

/-- `fov_pl_forward`: the variables of `fov_forward`, `swargs`, `swtaylors` and `sigsw`. -/
structure VPF (K : Type) where
  f : VS K
  sw : List K
  swT : List (List K)
  sg : List ℤ

/-- uni5_for.cpp:3872-3992 with `_ABS_NORM_` and `_FOV_`: `sigsw`, `swtaylors`, the loop over the directions, the value. -/
def fovPlStep (c : Cfg K) (p : Nat) (V : Nat → Nat → K) (o : Base K) (s : VPF K) : Except Stop (VPF K) :=
  match o with
  | .absVal a r k =>
    let f := s.f
    let f :=
      if f.T a < 0 then f.dec (k ≠ 0) 2
      else if f.T a > 0 then f.dec (k = 0) 2
      else f
    let sw := s.sw ++ [f.T a]
    let sg := s.sg ++ [firstsign (f.T a) ((List.range p).map (f.dT a))]
    let swT := s.swT ++ [(List.range p).map (f.dT a)]
    let f := f.up p fun l f => f.setC r l (fabs (f.T a + f.dT a l) - fabs (f.T a))
    .ok ⟨f.set r (fabs (f.T a)), sw, swT, sg⟩
  | o =>
    match fovStep c p V o s.f with
    | .error e => .error e
    | .ok f' => .ok ⟨f', s.sw, s.swT, s.sg⟩

/-- The loop of `fov_pl_forward`. -/
def fovPlRun (c : Cfg K) (p : Nat) (V : Nat → Nat → K) : List (Base K) → VPF K → Except Stop (VPF K)
  | [], s => .ok s
  | o :: os, s =>
    match fovPlStep c p V o s with
    | .error e => .error e
    | .ok s' => fovPlRun c p V os s'

/-- At the start of `fov_pl_forward`. -/
def VPF.init : VPF K := ⟨VS.init, [], [], []⟩

/-- `ext_firstsign` and `ext_firstsign2` (uni5_for.cpp:5919-5938): the new `*u`, the new `du[0]`; `sb` is `sigbase`, `sd` is
`sigdir`, if it was given. -/
def extSign (sb : ℤ) (sd : Option ℤ) (u d : K) : K × K :=
  match sd with
  | none => if sb = 0 then (0, d) else (u, d)
  | some e =>
    if sb = 0 ∧ 0 < e then (0, max 0 d)
    else if sb = 0 ∧ e < 0 then (0, min 0 d)
    else if sb = 0 ∧ e = 0 then (0, 0)
    else (u, d)

/-- `fos_pl_sig_forward`: the variables of `fos_forward`, and the user's arrays `swargs`, `swtaylors`, `sigsw`. -/
structure SgF (K : Type) where
  f : FS K
  sw : Nat → K
  swT : Nat → K
  sg : Nat → ℤ

/-- uni5_for.cpp:3872-3992 with `_ABS_NORM_SIG_` and `_FOS_`.  `switchnum` stays 0: line 3990 asks for `_ABS_NORN_SIG_`.
`dp_T0[arg]` and `*Targ` may be changed. -/
def fosSigStep (c : Cfg K) (v : Nat → K) (sb : Nat → ℤ) (sd : Option (Nat → ℤ)) (o : Base K) (s : SgF K) :
    Except Stop (SgF K) :=
  match o with
  | .absVal a r k =>
    let f := s.f
    let f :=
      if f.T a < 0 then f.dec (k ≠ 0) 2
      else if f.T a > 0 then f.dec (k = 0) 2
      else f
    let sw := upd s.sw 0 (f.T a)
    let q := extSign (sb 0) (sd.map fun d => d 0) (f.T a) (f.dT a)
    let f := (f.set a q.1).setD a q.2
    let y := firstsign (f.T a) [f.dT a]
    let swT := upd s.swT 0 (f.dT a)
    let f := f.setD r ((y : K) * f.dT a)
    .ok ⟨f.set r (fabs (f.T a)), sw, swT, upd s.sg 0 y⟩
  | o =>
    match fosStep c v o s.f with
    | .error e => .error e
    | .ok f' => .ok ⟨f', s.sw, s.swT, s.sg⟩

/-- The loop of `fos_pl_sig_forward`. -/
def fosSigRun (c : Cfg K) (v : Nat → K) (sb : Nat → ℤ) (sd : Option (Nat → ℤ)) : List (Base K) → SgF K → Except Stop (SgF K)
  | [], s => .ok s
  | o :: os, s =>
    match fosSigStep c v sb sd o s with
    | .error e => .error e
    | .ok s' => fosSigRun c v sb sd os s'

/-- At the start of `fos_pl_sig_forward`; the user's arrays contain `z`, `d`, `g`. -/
def SgF.init (z d : Nat → K) (g : Nat → ℤ) : SgF K := ⟨FS.init, z, d, g⟩

/-! ## The driver -/

/-- How `directional_active_gradient` ends. -/
inductive DAG (K : Type) where
  | ret (g : Nat → K) (sigma : List ℤ)
  /-- `DIRGRAD_NOT_ENOUGH_DIRS` -/
  | fails
  /-- the counts do not fit, or the trace was not written with `enableMinMaxUsingAbs` -/
  | throws
  /-- a sweep stopped; its code is ignored, what happens then is not modelled -/
  | stopped
  /-- an element outside `E` is written -/
  | undef

/-- `max_dk` and `max_entry` (psdrivers.cpp:115-123). -/
def maxDk (n : Nat) (d : Nat → K) : Nat :=
  ((List.range n).foldl (fun (m : Nat × K) i => if m.2 < fabs (d i) then (i, fabs (d i)) else m) (0, -1)).1

/-- The loop psdrivers.cpp:129-152 with `fuel = 6 - k`; `E` is a block of `n` times `n` elements. -/
def dagLoop (ops : List (Base K)) (par : Nat → K) (n s : Nat) (x : Nat → K) (md : Nat) : Nat → Nat → Nat → (Nat → Nat → K) → DAG K
  | 0, _, _, _ => .fails
  | fuel + 1, k, j, E =>
    match fovPlRun ⟨x, par, false⟩ k E ops VPF.init with
    | .error _ => .stopped
    | .ok w =>
      if ((w.sg.map Int.natAbs).sum) = s then
        match zosPlRun ⟨x, par, true⟩ ops ⟨ZS.init, []⟩ with
        | .error _ => .stopped
        | .ok f =>
          match plSigRevRun (fun _ => 1) (fun i => ((w.sg[i]?.getD 0 : ℤ) : K)) ops (RS.init n 1 f.z.stk, s) with
          | .error _ => .stopped
          | .ok r => .ret r.1.bar w.sg
      else
        let j := if j = md then j + 1 else j
        if n ≤ j ∨ n ≤ k then .undef
        else dagLoop ops par n s x md fuel (k + 1) (j + 1) (fun i l => if i = j ∧ l = k then 1 else E i l)

/-- `directional_active_gradient` (psdrivers.cpp:93-163); the trace was written with (`mm`) or without
`enableMinMaxUsingAbs`. -/
def dirActiveGrad (ops : List (Base K)) (par : Nat → K) (mm : Bool) (n : Nat) (x d : Nat → K) : DAG K :=
  if ¬ (n = numInd ops ∧ 1 = numDep ops ∧ mm = true) then .throws
  else dagLoop ops par n (numSw ops) x (maxDk n d) 5 1 0 (fun i l => if l = 0 then d i else 0)

end Verif.AD
