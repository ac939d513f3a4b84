import Verif.AD.Advector
import Verif.AD.FovFos
import Verif.AD.ReverseVec

/-! Vector sweeps over traces with active subscripts. -/
set_option linter.all false
namespace Verif.AD
open Elem

variable {K : Type} [Scalar K]

/-- uni5_for.cpp with `_FOV_` (the `case`s 4490-4960, 5149-5467 copy `p` directions). -/
def fovRunA (c : Cfg K) (p : Nat) (V : Nat → Nat → K) : List (AOp K) → VS K → Except Stop (VS K)
  | [], s => .ok s
  | o :: os, s =>
    match o.resolve s.T with
    | .error e => .error e
    | .ok b => match fovStep c p V b s with
      | .error e => .error e
      | .ok s' => fovRunA c p V os s'

/-- `P` for the operations executed at `c`. -/
def AlongA (P : Base K → (Nat → K) → Prop) (c : Cfg K) : List (AOp K) → ZS K → Prop
  | [], _ => True
  | o :: os, z => ∀ b, o.resolve z.T = .ok b → P b z.T ∧ ∀ z', zosStep c b z = .ok z' → AlongA P c os z'

theorem fov_fos_runA (c : Cfg K) {p l0 : Nat} {V : Nat → Nat → K} (hl : l0 < p) (ops : List (AOp K)) {s : VS K} {f : FS K} {z : ZS K}
    (h : Col l0 s f) (hz : SameZ f z) (hlog : AlongA logArgNonzero c ops z) :
    ExRel (Col l0) (fovRunA c p V ops s) (fosRunA c (fun i => V i l0) ops f) := by
  induction ops generalizing s f z with
  | nil => exact h
  | cons o os ih =>
    simp only [fosRunA, fovRunA, h.T]
    cases hb : o.resolve f.T with
    | error e => rfl
    | ok b =>
      rw [hz.T] at hb
      obtain ⟨hl1, hl2⟩ := hlog b hb
      rw [← hz.T] at hl1
      have hs := fov_fos_step c hl b (V := V) h hl1
      have hz' := fos_zos_step c (fun i => V i l0) b hz
      simp only
      cases h1 : fovStep c p V b s <;> cases h2 : fosStep c (fun i => V i l0) b f <;>
        simp only [h1, h2, ExRel] at hs ⊢
      · exact hs
      · cases h3 : zosStep c b z with
        | error e => simp [h2, h3, ExRel] at hz'
        | ok z' =>
          simp only [h2, h3, ExRel] at hz'
          exact ih hs hz' (hl2 z' h3)

/-- `subscript` in `fov_reverse` (fo_rev.cpp:2022-2035): `Ares` is not advanced, each of the `p` rounds
reads and clears row 0 of the result. -/
def fovSubscript (p a r : Nat) (s : VRS K) : Except RStop (VRS K) :=
  (s.up p fun l s => (s.addA a l (s.A r 0)).setA r 0 0).pop r

/-- fo_rev.cpp with `_FOV_`. -/
def fovRevRunA (p : Nat) (U : Nat → Nat → K) : List (AOp K) → VRS K → Except ARStop (VRS K)
  | [], s => .ok s
  | o :: os, s =>
    match fovRevRunA p U os s with
    | .error e => .error e
    | .ok s' =>
      match o with
      | .subscript i _ v r => match fovSubscript p (v + idx (s'.T i)) r s' with
        | .error e => .error (.sweep e)
        | .ok s'' => .ok s''
      | o => match o.resolveRev s'.T with
        | .error e => .error e
        | .ok b => match fovRevStep p U b s' with
          | .error e => .error (.sweep e)
          | .ok s'' => .ok s''

def AOp.isSubscript : AOp K → Bool
  | .subscript _ _ _ _ => true
  | _ => false

/-- Row `l` is the scalar sweep with weights `U l`, on traces without `subscript`. -/
theorem row_runA {p l : Nat} (hl : l < p) (U : Nat → Nat → K) (ops : List (AOp K)) (hops : ∀ o ∈ ops, o.isSubscript = false) (s : VRS K) :
    (fovRevRunA p U ops s).map (VRS.row l) = revRunA (U l) ops (s.row l) := by
  induction ops with
  | nil => rfl
  | cons o os ih =>
    unfold fovRevRunA revRunA
    rw [← ih fun o ho => hops o (List.mem_cons_of_mem _ ho)]
    have ho := hops o List.mem_cons_self
    cases fovRevRunA p U os s with
    | error e => rfl
    | ok s' =>
      have key : ∀ x : Except ARStop (Base K), (match x with
          | .error e => .error e
          | .ok b => match fovRevStep p U b s' with
            | .error e => .error (.sweep e)
            | .ok s'' => .ok s'' : Except ARStop (VRS K)).map (VRS.row l) = (match x with
          | .error e => .error e
          | .ok b => match revStep (U l) b (s'.row l) with
            | .error e => .error (.sweep e)
            | .ok s'' => .ok s'') := by
        intro x
        cases x with
        | error e => rfl
        | ok b =>
          simp only
          rw [← row_step hl U b s']
          cases fovRevStep p U b s' <;> rfl
      cases o with
      | subscript i n v r => simp [AOp.isSubscript] at ho
      | base b => exact key (AOp.resolveRev s'.T (.base b))
      | subscriptRef i n v r => exact key (AOp.resolveRev s'.T (.subscriptRef i n v r))
      | copyout q r => exact key (AOp.resolveRev s'.T (.copyout q r))
      | ref f q => exact key (AOp.resolveRev s'.T (.ref f q))
end Verif.AD
