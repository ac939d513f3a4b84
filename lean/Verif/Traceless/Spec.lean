import Verif.Traceless.Model
import Mathlib.Analysis.SpecialFunctions.Log.Base
/-!
# Traceless forward mode: specification

The same program on plain numbers (`val`), the points at which each function is
differentiable (`dom`), and the initialisation discipline (`defs`).
-/
set_option linter.all false
noncomputable section
namespace Verif.TL
open Verif.AD (rerf rcbrt)

/-- The function a unary operator computes. -/
def Un.val (f : Un) (x : ℝ) : ℝ :=
  match f with
  | .neg => -x | .pos => x
  | .addD v => x + v | .dAdd v => v + x | .subD v => x - v | .dSub v => v - x
  | .mulD v => x * v | .dMul v => v * x | .divD v => x / v | .dDiv v => v / x
  | .tan => Real.tan x | .exp => Real.exp x | .log => Real.log x | .sqrt => √x
  | .cbrt => rcbrt x | .sin => Real.sin x | .cos => Real.cos x
  | .asin => Real.arcsin x | .acos => Real.arccos x | .atan => Real.arctan x
  | .powD v => x ^ v | .dPow v => v ^ x
  | .log10 => Real.logb 10 x
  | .sinh => Real.sinh x | .cosh => Real.cosh x | .tanh => Real.tanh x
  | .asinh => Real.arsinh x | .acosh => Real.arcosh x | .atanh => Real.artanh x
  | .fabs => |x| | .ceil => (⌈x⌉ : ℤ) | .floor => (⌊x⌋ : ℤ)
  | .fmaxD v => max x v | .dFmax v => max v x | .fminD v => min x v | .dFmin v => min v x
  | .ldexpD v => x * 2 ^ v | .dLdexp v => v * 2 ^ x
  | .erf => rerf x | .erfc => 1 - rerf x

/-- The function a binary operator computes.  `atan2 (a, b)` is the angle of the point
`(b, a)`. -/
def Bin.val (f : Bin) (x y : ℝ) : ℝ :=
  match f with
  | .add => x + y | .sub => x - y | .mul => x * y | .div => x / y
  | .atan2 => Complex.arg ⟨y, x⟩
  | .pow => x ^ y
  | .fmax => max x y | .fmin => min x y
  | .ldexp => x * 2 ^ y

/-- The points at which the function is differentiable and `<cmath>` computes it.  With
`kink` also the points where only one-sided directional derivatives exist (`fabs` at 0,
`fmax`/`fmin` with equal arguments). -/
def Un.dom (kink : Bool) (f : Un) (x : ℝ) : Prop :=
  match f with
  | .divD v => v ≠ 0
  | .dDiv _ => x ≠ 0
  | .tan => Real.cos x ≠ 0
  | .log | .sqrt | .log10 => 0 < x
  | .cbrt => x ≠ 0
  | .asin | .acos | .atanh => -1 < x ∧ x < 1
  | .acosh => 1 < x
  | .powD v => 0 < x ∨ (x ≠ 0 ∧ ∃ k : ℤ, v = k) ∨ ∃ k : ℕ, 1 ≤ k ∧ v = k
  | .dPow v => 0 < v
  | .fabs => x ≠ 0 ∨ kink = true
  | .fmaxD v | .dFmax v | .fminD v | .dFmin v => x ≠ v ∨ kink = true
  | .ceil | .floor => ∀ k : ℤ, x ≠ k
  | _ => True

/-- The same for the binary functions. -/
def Bin.dom (kink : Bool) (f : Bin) (x y : ℝ) : Prop :=
  match f with
  | .div => y ≠ 0
  | .atan2 => y ≠ 0 ∧ (0 < y ∨ x ≠ 0)
  | .pow => 0 < x
  | .fmax | .fmin => x ≠ y ∨ kink = true
  | _ => True

/-- Values of the variables. -/
abbrev Env := ℕ → ℝ

/-- Write one variable. -/
def Env.set (v : Env) (d : ℕ) (x : ℝ) : Env := fun o => if o = d then x else v o

/-- The value of an expression. -/
def Expr.val (v : Env) : Expr → ℝ
  | .var a => v a
  | .lit x => x
  | .un f e => f.val (e.val v)
  | .bin f e₁ e₂ => f.val (e₁.val v) (e₂.val v)

/-- Every function of the expression is applied at a point of its domain. -/
def Expr.dom (kink : Bool) (v : Env) : Expr → Prop
  | .var _ => True
  | .lit _ => True
  | .un f e => e.dom kink v ∧ f.dom kink (e.val v)
  | .bin f e₁ e₂ => e₁.dom kink v ∧ e₂.dom kink v ∧ f.dom kink (e₁.val v) (e₂.val v)

/-- All variables of the expression belong to a set. -/
def Expr.within (D : ℕ → Prop) : Expr → Prop
  | .var a => D a
  | .lit _ => True
  | .un _ e => e.within D
  | .bin _ e₁ e₂ => e₁.within D ∧ e₂.within D

/-- The in-place operators on numbers. -/
def Acc.val (f : Acc) (x y : ℝ) : ℝ :=
  match f with
  | .add => x + y | .sub => x - y | .mul => x * y | .div => x / y

open Classical in
/-- A statement on numbers. -/
def Stmt.val (st : Stmt) (v : Env) : Env :=
  match st with
  | .decl d => v.set d 0
  | .declD d x => v.set d x
  | .declE d e => v.set d (e.val v)
  | .setD d x => v.set d x
  | .setA d a => v.set d (v a)
  | .accD f d x => v.set d (f.val (v d) x)
  | .accA f d a => v.set d (f.val (v d) (v a))
  | .incr d => v.set d (v d + 1)
  | .decr d => v.set d (v d - 1)
  | .postIncr d x => (v.set x (v x + 1)).set d (v x)
  | .postDecr d x => (v.set x (v x - 1)).set d (v x)
  | .cond d q a b => v.set d (if 0 < v q then v a else v b)
  | .condS d q a => v.set d (if 0 < v q then v a else v d)
  | .condEq d q a b => v.set d (if 0 ≤ v q then v a else v b)
  | .condEqS d q a => v.set d (if 0 ≤ v q then v a else v d)

/-- Add to or remove from a set. -/
def mark (D : ℕ → Prop) (d : ℕ) (b : Prop) : ℕ → Prop := fun o => if o = d then b else D o

/-- The variables whose derivatives are initialised after a statement: `adouble d;` does not
initialise them, and a result is as initialised as what it is computed from. -/
def Stmt.defs (st : Stmt) (v : Env) (D : ℕ → Prop) : ℕ → Prop :=
  match st with
  | .decl d => mark D d False
  | .declD d _ => mark D d True
  | .declE d e => mark D d (e.within D)
  | .setD d _ => mark D d True
  | .setA d a => mark D d (D a)
  | .accD _ _ _ => D
  | .accA _ d a => mark D d (D d ∧ D a)
  | .incr _ | .decr _ => D
  | .postIncr d x | .postDecr d x => mark D d (D x)
  | .cond d q a b => mark D d (if 0 < v q then D a else D b)
  | .condS d q a => mark D d (if 0 < v q then D a else D d)
  | .condEq d q a b => mark D d (if 0 ≤ v q then D a else D b)
  | .condEqS d q a => mark D d (if 0 ≤ v q then D a else D d)

/-- The statement is executed at a point where everything it computes is differentiable. -/
def Stmt.ok (kink : Bool) (st : Stmt) (v : Env) (D : ℕ → Prop) : Prop :=
  match st with
  | .declE _ e => e.dom kink v
  | .accD .div _ x => x ≠ 0
  | .accA .div _ a => v a ≠ 0
  | .postIncr d x | .postDecr d x => d ≠ x
  | .cond _ q _ _ | .condS _ q _ | .condEq _ q _ _ | .condEqS _ q _ => v q ≠ 0 ∧ D q
  | _ => True

/-- Value of an operand. -/
def Opd.val (v : Env) : Opd → ℝ
  | .var a => v a
  | .lit x => x
/-- An operand's variable belongs to a set. -/
def Opd.within (D : ℕ → Prop) : Opd → Prop
  | .var a => D a
  | .lit _ => True

open Classical in
/-- A program on numbers. -/
def Prog.val : Prog → Env → Env
  | .done, v => v
  | .stmt st p, v => p.val (st.val v)
  | .branch f l r t e, v => if f.holds (l.val v) (r.val v) then t.val v else e.val v

open Classical in
/-- Which variables have initialised derivatives at the end. -/
def Prog.defs : Prog → Env → (ℕ → Prop) → ℕ → Prop
  | .done, _, D => D
  | .stmt st p, v, D => p.defs (st.val v) (st.defs v D)
  | .branch f l r t e, v, D =>
    if f.holds (l.val v) (r.val v) then t.defs v D else e.defs v D

open Classical in
/-- The execution at this point applies every function where it is differentiable and no
comparison is a tie. -/
def Prog.ok (kink : Bool) : Prog → Env → (ℕ → Prop) → Prop
  | .done, _, _ => True
  | .stmt st p, v, D => st.ok kink v D ∧ p.ok kink (st.val v) (st.defs v D)
  | .branch f l r t e, v, D =>
    l.val v ≠ r.val v ∧ l.within D ∧ r.within D ∧
      if f.holds (l.val v) (r.val v) then t.ok kink v D else e.ok kink v D

end Verif.TL
