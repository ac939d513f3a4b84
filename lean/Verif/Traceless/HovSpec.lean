import Verif.Traceless.Hov
/-!
# Traceless higher order mode: specification

Which functions are implemented, which compute the right thing, and when no two rows share memory.
-/
set_option linter.all false
noncomputable section
namespace Verif.TL.Hov

/-- The unary functions that do not stop the program. -/
def Un.implemented : Un → Prop
  | .addD _ | .dAdd _ | .subD _ | .tan | .cbrt | .asin | .acos | .atan | .log10 | .tanh | .asinh | .acosh | .atanh
  | .ceil | .floor | .fmaxD _ | .dFmax _ | .fminD _ | .dFmin _ => False
  | _ => True

/-- The binary functions that do not stop the program. -/
def Bin.implemented : Bin → Prop
  | .add | .sub | .mul | .div | .ldexp => True
  | .atan2 | .pow | .fmax | .fmin => False

/-- The functions whose results are right: all but `cos`, `cosh`, `fabs`, `erf`, `erfc`, and `pow(x, v)` only for `x ≠ 0`. -/
def Un.sound (f : Un) (x : ℝ) : Prop :=
  match f with
  | .cos | .cosh | .fabs | .erf | .erfc => False
  | .powD _ => x ≠ 0
  | _ => True

/-- All functions of the expression are implemented. -/
def Expr.implemented : Expr → Prop
  | .var _ => True
  | .lit _ => True
  | .un f e => Expr.implemented e ∧ Un.implemented f
  | .bin f e₁ e₂ => Expr.implemented e₁ ∧ Expr.implemented e₂ ∧ Bin.implemented f

/-- All functions of the expression are right. -/
def Expr.sound (v : Env) : Expr → Prop
  | .var _ => True
  | .lit _ => True
  | .un f e => Expr.sound v e ∧ Un.sound f (e.val v)
  | .bin f e₁ e₂ => Expr.sound v e₁ ∧ Expr.sound v e₂

/-- The statement does not stop the program. -/
def Stmt.implemented : Stmt → Prop
  | .declE _ e => Expr.implemented e
  | _ => True

/-- The statement is right: `d *= a` and `d /= a` are not. -/
def Stmt.sound (st : Stmt) (v : Env) : Prop :=
  match st with
  | .declE _ e => Expr.sound v e
  | .accA .mul _ _ | .accA .div _ _ => False
  | _ => True

open Classical in
/-- The statements executed by the program on numbers do not stop it. -/
def Prog.implemented : Prog → Env → Prop
  | .done, _ => True
  | .stmt st p, v => Stmt.implemented st ∧ Prog.implemented p (st.val v)
  | .branch f l r t e, v => if f.holds (l.val v) (r.val v) then Prog.implemented t v else Prog.implemented e v

open Classical in
/-- The statements executed are right. -/
def Prog.sound : Prog → Env → Prop
  | .done, _ => True
  | .stmt st p, v => Stmt.sound st v ∧ Prog.sound p (st.val v)
  | .branch f l r t e, v => if f.holds (l.val v) (r.val v) then Prog.sound t v else Prog.sound e v

/-- No memory is used for two rows: each object's rows are the ones allocated with it or arrays of the caller, and no two
rows are the same. -/
structure NoShare (D : ℕ) (s : St) : Prop where
  kind : ∀ o j, j < D → s.row o j = .own o j ∨ ∃ q, s.row o j = .ext q
  inj : ∀ o j o' j', j < D → j' < D → s.row o j = s.row o' j' → o = o' ∧ j = j'

/-- Entry `l` of `getOneADValue(k)`. -/
def coef (s : St) (o k l : ℕ) : ℝ := s.heap (getOneADValue s o k) l

end Verif.TL.Hov
