import Verif.AD.ApiReal
import Verif.AD.AbsProg
import Verif.Sparse.Program

/-!
# fmin and fmax while `enableMinMaxUsingAbs` is in force

`Ex.absForm` is what the same C++ expression executes when `tape.no_min_max()` is set: each of the three `fmin(a, b)` for two `adouble`s returns
`((a + b - fabs(a - b)) / 2.0)`; fmax, min, max and the overloads with a `double` are inline functions over these (adtb_types.h:893-1011), `Ex.fmax`, `Ex.fminDA`, … in `Api.lean`.
-/
set_option linter.all false
namespace Verif.AD
open Elem

variable {K : Type} [Scalar K]

/-- The expression inside a function with one more reference parameter: parameters from number `k` on are one further out. -/
def Ex.shift (k : Nat) : Ex K → Ex K
  | .var v => .var v
  | .arg i => .arg (if i < k then i else i + 1)
  | .lv e => .lv (e.shift k)
  | .par p => .par p
  | .num c => .num c
  | .un f e => .un f (e.shift k)
  | .bin f a b => .bin f (a.shift k) (b.shift k)
  | .trig co e => .trig co (e.shift k)
  | .quad q e => .quad q (e.shift k)
  | .cond c a b => .cond (c.shift k) (a.shift k) (b.shift k)
  | .argE e b => .argE (e.shift k) (b.shift (k + 1))
  | .locE e b => .locE (e.shift k) (b.shift (k + 1))

/-- The body of `fmin(a, b)` with `no_min_max()`: `((a + b - fabs(a - b)) / 2.0)`, `a` and `b` references (adouble.cpp:4655, 4762, 4867). -/
def Ex.minBody : Ex K := .un (.overD 2) (.bin .minus (.bin .plus (.arg 1) (.arg 0)) (.un .fabs (.bin .minus (.arg 1) (.arg 0))))

/-- What an expression executes with `no_min_max()`: adouble.cpp:4652-4655, 4759-4762, 4864-4867.  Simplified: temporaries bound to `b` are destroyed when `fmin` returns, in the code
at the end of the full expression (this changes only which free locations are used next, and the allocator is arbitrary). -/
def Ex.absForm : Ex K → Ex K
  | .var v => .var v
  | .arg i => .arg i
  | .lv e => .lv e.absForm
  | .par p => .par p
  | .num c => .num c
  | .un f e => .un f e.absForm
  | .bin .fmin a b => .argE a.absForm (.argE (b.absForm.shift 0) Ex.minBody)
  | .bin f a b => .bin f a.absForm b.absForm
  | .trig co e => .trig co e.absForm
  | .quad q e => .quad q e.absForm
  | .cond c a b => .cond c.absForm a.absForm b.absForm
  | .argE e b => .argE e.absForm b.absForm
  | .locE e b => .locE e.absForm b.absForm

/-- Statements (as in `Api.lean`, with every expression in the form above). -/
def Cmd.absForm : Cmd K → Cmd K
  | .declE v e => .declE v e.absForm
  | .set v e => .set v e.absForm
  | .acc f v e => .acc f v e.absForm
  | .divE v e => .divE v e.absForm
  | .cond r c a b => .cond r c.absForm a.absForm b.absForm
  | .condS r c a => .condS r c.absForm a.absForm
  | .condEq r c a b => .condEq r c.absForm a.absForm b.absForm
  | .condEqS r c a => .condEqS r c.absForm a.absForm
  | c => c

/-- Programs. -/
def Src.absForm : Src K → Src K
  | .done => .done
  | .cmd c k => .cmd c.absForm k.absForm
  | .ifD c a q t f => .ifD c a.absForm q t.absForm f.absForm
  | .ifD' c q a t f => .ifD' c q a.absForm t.absForm f.absForm
  | .ifA c a b t f => .ifA c a.absForm b.absForm t.absForm f.absForm

/-- What the program executes, `nmm` being `tape.no_min_max()` (adouble.cpp:4654, 4761, 4866). -/
def Src.compMM (nmm : Bool) (n : Nat) (S : Src K) : Prog K := if nmm then S.absForm.comp n else S.comp n

/-! ## Meaning -/

theorem ev_shift {V : Nat → Option K} {par : Nat → K} (e : Ex K) : ∀ (L : List K) (x : K) (As : List K),
    (e.shift L.length).ev V par (L ++ x :: As) = e.ev V par (L ++ As) := by
  induction e with
  | var v => intros; rfl
  | arg i =>
    intro L x As
    simp only [Ex.shift, Ex.ev]
    split
    · rename_i h; rw [List.getElem?_append_left h, List.getElem?_append_left h]
    · rename_i h
      rw [List.getElem?_append_right (by omega), List.getElem?_append_right (by omega), show i + 1 - L.length = (i - L.length) + 1 by omega, List.getElem?_cons_succ]
  | lv e ih => intro L x As; exact ih L x As
  | par p => intros; rfl
  | num c => intros; rfl
  | un f e ih => intro L x As; simp only [Ex.shift, Ex.ev, ih]
  | bin f a b iha ihb => intro L x As; simp only [Ex.shift, Ex.ev, iha, ihb]
  | trig f e ih => intro L x As; simp only [Ex.shift, Ex.ev, ih]
  | quad f e ih => intro L x As; simp only [Ex.shift, Ex.ev, ih]
  | cond c a b ihc iha ihb => intro L x As; simp only [Ex.shift, Ex.ev, ihc, iha, ihb]
  | argE e b ihe ihb => intro L x As; simp only [Ex.shift, Ex.ev, ihe]; congr 1; funext v; exact ihb (v :: L) x As
  | locE e b ihe ihb => intro L x As; simp only [Ex.shift, Ex.ev, ihe]; congr 1; funext v; exact ihb (v :: L) x As

theorem ev_shift0 {V : Nat → Option K} {par : Nat → K} (e : Ex K) (x : K) (As : List K) : (e.shift 0).ev V par (x :: As) = e.ev V par As :=
  ev_shift e [] x As

theorem rv_shift (e : Ex K) (k : Nat) : (e.shift k).rv = e.rv := by cases e <;> rfl
theorem rv_absForm (e : Ex K) : e.absForm.rv = e.rv := by
  cases e
  case bin f a b => cases f <;> rfl
  all_goals rfl
theorem isConst_absForm (e : Ex K) : e.absForm.isConst = e.isConst := by
  cases e
  case bin f a b => cases f <;> rfl
  all_goals rfl

theorem scoped_shift {n : Nat} (e : Ex K) : ∀ (k j : Nat), e.scoped n j → (e.shift k).scoped n (j + 1) := by
  induction e with
  | var v => intro k j h; exact h
  | arg i => intro k j h; simp only [Ex.shift, Ex.scoped] at *; split <;> omega
  | lv e ih => intro k j h; exact ih k j h
  | par p => intros; trivial
  | num c => intros; trivial
  | un f e ih => intro k j h; exact ih k j h
  | bin f a b iha ihb => intro k j h; exact ⟨iha k j h.1, ihb k j h.2⟩
  | trig f e ih => intro k j h; exact ih k j h
  | quad f e ih => intro k j h; exact ih k j h
  | cond c a b ihc iha ihb => intro k j h; exact ⟨ihc k j h.1, iha k j h.2.1, ihb k j h.2.2⟩
  | argE e b ihe ihb => intro k j h; exact ⟨ihe k j h.1, ihb (k + 1) (j + 1) h.2⟩
  | locE e b ihe ihb => intro k j h; exact ⟨ihe k j h.1, ihb (k + 1) (j + 1) h.2⟩

theorem reads_shift {P : Nat → Prop} (e : Ex K) : ∀ k, (e.shift k).reads P ↔ e.reads P := by
  induction e with
  | var v => intros; rfl
  | arg i => intros; rfl
  | par p => intros; rfl
  | num c => intros; rfl
  | lv e ih => intro k; exact ih k
  | un f e ih => intro k; exact ih k
  | trig f e ih => intro k; exact ih k
  | quad f e ih => intro k; exact ih k
  | bin f a b iha ihb => intro k; simp only [Ex.shift, Ex.reads, iha, ihb]
  | cond c a b ihc iha ihb => intro k; simp only [Ex.shift, Ex.reads, ihc, iha, ihb]
  | argE e b ihe ihb => intro k; simp only [Ex.shift, Ex.reads, ihe, ihb]
  | locE e b ihe ihb => intro k; simp only [Ex.shift, Ex.reads, ihe, ihb]

theorem noFmin_shift (e : Ex K) : ∀ k, (e.shift k).noFminLL ↔ e.noFminLL := by
  induction e with
  | var v => intros; rfl
  | arg i => intros; rfl
  | par p => intros; rfl
  | num c => intros; rfl
  | lv e ih => intro k; exact ih k
  | un f e ih => intro k; exact ih k
  | trig f e ih => intro k; exact ih k
  | quad f e ih => intro k; exact ih k
  | bin f a b iha ihb => intro k; simp only [Ex.shift, Ex.noFminLL, iha, ihb, rv_shift]
  | cond c a b ihc iha ihb => intro k; simp only [Ex.shift, Ex.noFminLL, ihc, iha, ihb]
  | argE e b ihe ihb => intro k; simp only [Ex.shift, Ex.noFminLL, ihe, ihb]
  | locE e b ihe ihb => intro k; simp only [Ex.shift, Ex.noFminLL, ihe, ihb]

theorem scoped_absForm {n : Nat} (e : Ex K) : ∀ j, e.scoped n j → e.absForm.scoped n j := by
  induction e with
  | var v => intro j h; exact h
  | arg i => intro j h; exact h
  | lv e ih => intro j h; exact ih j h
  | par p => intros; trivial
  | num c => intros; trivial
  | un f e ih => intro j h; exact ih j h
  | bin f a b iha ihb =>
    intro j h
    cases f
    case fmin => exact ⟨iha j h.1, scoped_shift _ 0 j (ihb j h.2), by simp [Ex.minBody, Ex.scoped]⟩
    all_goals exact ⟨iha j h.1, ihb j h.2⟩
  | trig f e ih => intro j h; exact ih j h
  | quad f e ih => intro j h; exact ih j h
  | cond c a b ihc iha ihb => intro j h; exact ⟨ihc j h.1, iha j h.2.1, ihb j h.2.2⟩
  | argE e b ihe ihb => intro j h; exact ⟨ihe j h.1, ihb (j + 1) h.2⟩
  | locE e b ihe ihb => intro j h; exact ⟨ihe j h.1, ihb (j + 1) h.2⟩

theorem reads_absForm {P : Nat → Prop} (e : Ex K) : e.absForm.reads P ↔ e.reads P := by
  induction e with
  | var v => rfl
  | arg i => rfl
  | par p => rfl
  | num c => rfl
  | lv e ih => exact ih
  | un f e ih => exact ih
  | trig f e ih => exact ih
  | quad f e ih => exact ih
  | bin f a b iha ihb => cases f <;> simp only [Ex.absForm, Ex.minBody, Ex.reads, reads_shift, iha, ihb, and_true]
  | cond c a b ihc iha ihb => simp only [Ex.absForm, Ex.reads, ihc, iha, ihb]
  | argE e b ihe ihb => simp only [Ex.absForm, Ex.reads, ihe, ihb]
  | locE e b ihe ihb => simp only [Ex.absForm, Ex.reads, ihe, ihb]

/-- There is no fmin left. -/
def Ex.noFmin : Ex K → Prop
  | .var _ | .arg _ | .par _ | .num _ => True
  | .lv e | .un _ e | .trig _ e | .quad _ e => e.noFmin
  | .bin f a b => f ≠ .fmin ∧ a.noFmin ∧ b.noFmin
  | .cond c a b => c.noFmin ∧ a.noFmin ∧ b.noFmin
  | .argE e b | .locE e b => e.noFmin ∧ b.noFmin

theorem noFmin_shift' (e : Ex K) : ∀ k, (e.shift k).noFmin ↔ e.noFmin := by
  induction e with
  | var v => intros; rfl
  | arg i => intros; rfl
  | par p => intros; rfl
  | num c => intros; rfl
  | lv e ih => intro k; exact ih k
  | un f e ih => intro k; exact ih k
  | trig f e ih => intro k; exact ih k
  | quad f e ih => intro k; exact ih k
  | bin f a b iha ihb => intro k; simp only [Ex.shift, Ex.noFmin, iha, ihb]
  | cond c a b ihc iha ihb => intro k; simp only [Ex.shift, Ex.noFmin, ihc, iha, ihb]
  | argE e b ihe ihb => intro k; simp only [Ex.shift, Ex.noFmin, ihe, ihb]
  | locE e b ihe ihb => intro k; simp only [Ex.shift, Ex.noFmin, ihe, ihb]

theorem noFmin_absForm (e : Ex K) : e.absForm.noFmin := by
  induction e with
  | var v => trivial
  | arg i => trivial
  | par p => trivial
  | num c => trivial
  | lv e ih => exact ih
  | un f e ih => exact ih
  | trig f e ih => exact ih
  | quad f e ih => exact ih
  | bin f a b iha ihb => cases f <;> simp [Ex.absForm, Ex.minBody, Ex.noFmin, noFmin_shift', iha, ihb]
  | cond c a b ihc iha ihb => exact ⟨ihc, iha, ihb⟩
  | argE e b ihe ihb => exact ⟨ihe, ihb⟩
  | locE e b ihe ihb => exact ⟨ihe, ihb⟩

theorem noFmin_LL (e : Ex K) (h : e.noFmin) : e.noFminLL := by
  induction e with
  | var v => trivial
  | arg i => trivial
  | par p => trivial
  | num c => trivial
  | lv e ih => exact ih h
  | un f e ih => exact ih h
  | trig f e ih => exact ih h
  | quad f e ih => exact ih h
  | bin f a b iha ihb => exact ⟨iha h.2.1, ihb h.2.2, fun hf => absurd hf h.1⟩
  | cond c a b ihc iha ihb => exact ⟨ihc h.1, iha h.2.1, ihb h.2.2⟩
  | argE e b ihe ihb => exact ⟨ihe h.1, ihb h.2⟩
  | locE e b ihe ihb => exact ⟨ihe h.1, ihb h.2⟩

def Cmd.noFmin : Cmd K → Prop
  | .declE _ e | .set _ e | .acc _ _ e | .divE _ e => e.noFmin
  | .cond _ c a b | .condEq _ c a b => c.noFmin ∧ a.noFmin ∧ b.noFmin
  | .condS _ c a | .condEqS _ c a => c.noFmin ∧ a.noFmin
  | _ => True

def Src.noFmin : Src K → Prop
  | .done => True
  | .cmd c k => c.noFmin ∧ k.noFmin
  | .ifD _ a _ t f | .ifD' _ _ a t f => a.noFmin ∧ t.noFmin ∧ f.noFmin
  | .ifA _ a b t f => a.noFmin ∧ b.noFmin ∧ t.noFmin ∧ f.noFmin

theorem src_noFmin_absForm (S : Src K) : S.absForm.noFmin := by
  have hc : ∀ c : Cmd K, c.absForm.noFmin := by
    intro c; cases c <;> simp [Cmd.absForm, Cmd.noFmin, noFmin_absForm]
  induction S with
  | done => trivial
  | cmd c k ih => exact ⟨hc c, ih⟩
  | ifD c a q t f iht ihf => exact ⟨noFmin_absForm a, iht, ihf⟩
  | ifD' c q a t f iht ihf => exact ⟨noFmin_absForm a, iht, ihf⟩
  | ifA c a b t f iht ihf => exact ⟨noFmin_absForm a, noFmin_absForm b, iht, ihf⟩

theorem src_noFmin_LL (S : Src K) (h : S.noFmin) : S.noFminLL := by
  have hc : ∀ c : Cmd K, c.noFmin → c.noFminLL := by
    intro c h
    cases c <;> first | exact noFmin_LL _ h | exact ⟨noFmin_LL _ h.1, noFmin_LL _ h.2.1, noFmin_LL _ h.2.2⟩ | exact ⟨noFmin_LL _ h.1, noFmin_LL _ h.2⟩ | trivial
  induction S with
  | done => trivial
  | cmd c k ih => exact ⟨hc c h.1, ih h.2⟩
  | ifD c a q t f iht ihf => exact ⟨noFmin_LL _ h.1, iht h.2.1, ihf h.2.2⟩
  | ifD' c q a t f iht ihf => exact ⟨noFmin_LL _ h.1, iht h.2.1, ihf h.2.2⟩
  | ifA c a b t f iht ihf => exact ⟨noFmin_LL _ h.1, noFmin_LL _ h.2.1, iht h.2.2.1, ihf h.2.2.2⟩

theorem src_fits_absForm {n : Nat} (S : Src K) (h : S.fits n) : S.absForm.fits n := by
  have hc : ∀ c : Cmd K, c.fits n → c.absForm.fits n := by
    intro c h
    cases c <;> first
      | exact h
      | exact ⟨h.1, scoped_absForm _ 0 h.2⟩
      | exact ⟨h.1, scoped_absForm _ 0 h.2.1, scoped_absForm _ 0 h.2.2.1, scoped_absForm _ 0 h.2.2.2⟩
      | exact ⟨h.1, scoped_absForm _ 0 h.2.1, scoped_absForm _ 0 h.2.2⟩
  induction S with
  | done => trivial
  | cmd c k ih => exact ⟨hc c h.1, ih h.2⟩
  | ifD c a q t f iht ihf => exact ⟨scoped_absForm _ 0 h.1, iht h.2.1, ihf h.2.2⟩
  | ifD' c q a t f iht ihf => exact ⟨scoped_absForm _ 0 h.1, iht h.2.1, ihf h.2.2⟩
  | ifA c a b t f iht ihf => exact ⟨scoped_absForm _ 0 h.1, scoped_absForm _ 0 h.2.1, iht h.2.2.1, ihf h.2.2.2⟩

theorem cmd_alive_absForm (c : Cmd K) (L : Set Nat) : c.absForm.alive L = c.alive L := by cases c <;> rfl
theorem cmd_wf_absForm (c : Cmd K) (L : Set Nat) (h : c.wf L) : c.absForm.wf L := by
  cases c <;> simp only [Cmd.absForm, Cmd.wf, reads_absForm] at * <;> exact h
theorem cmd_discNext_absForm (c : Cmd K) (m : Disc) : c.absForm.discNext m = c.discNext m := by
  cases c <;> simp only [Cmd.absForm, Cmd.discNext, isConst_absForm]
theorem cmd_disc_absForm (c : Cmd K) (m : Disc) (h : c.disc m) : c.absForm.disc m := by
  cases c <;> simp only [Cmd.absForm, Cmd.disc, reads_absForm] at * <;> exact h

theorem src_wf_absForm (S : Src K) : ∀ {L : Set Nat}, S.wf L → S.absForm.wf L := by
  induction S with
  | done => intros; trivial
  | cmd c k ih => intro L h; exact ⟨cmd_wf_absForm c L h.1, by rw [cmd_alive_absForm]; exact ih h.2⟩
  | ifD c a q t f iht ihf => intro L h; exact ⟨(reads_absForm a).2 h.1, iht h.2.1, ihf h.2.2⟩
  | ifD' c q a t f iht ihf => intro L h; exact ⟨(reads_absForm a).2 h.1, iht h.2.1, ihf h.2.2⟩
  | ifA c a b t f iht ihf => intro L h; exact ⟨(reads_absForm a).2 h.1, (reads_absForm b).2 h.2.1, iht h.2.2.1, ihf h.2.2.2⟩

theorem src_disc_absForm (S : Src K) : ∀ {m : Disc}, S.disc m → S.absForm.disc m := by
  induction S with
  | done => intros; trivial
  | cmd c k ih => intro m h; exact ⟨cmd_disc_absForm c m h.1, by rw [cmd_discNext_absForm]; exact ih h.2⟩
  | ifD c a q t f iht ihf => intro m h; exact ⟨(reads_absForm a).2 h.1, iht h.2.1, ihf h.2.2⟩
  | ifD' c q a t f iht ihf => intro m h; exact ⟨(reads_absForm a).2 h.1, iht h.2.1, ihf h.2.2⟩
  | ifA c a b t f iht ihf => intro m h; exact ⟨(reads_absForm a).2 h.1, (reads_absForm b).2 h.2.1, iht h.2.2.1, ihf h.2.2.2⟩

/-! ## Over the reals the two forms mean the same -/

theorem min_abs (v w : ℝ) : (v + w - |v - w|) / 2 = if w < v then w else v := by
  split
  · rename_i h; rw [abs_of_pos (by linarith)]; ring
  · rename_i h; rw [abs_of_nonpos (by linarith)]; ring

theorem ev_minBody {V : Nat → Option ℝ} {par : Nat → ℝ} {As : List ℝ} (v w : ℝ) : (Ex.minBody : Ex ℝ).ev V par (w :: v :: As) = some (if w < v then w else v) := by
  rw [← min_abs]; simp [Ex.minBody, Ex.ev, Un.fn, Bin.fn, Elem.fabs]

theorem ev_absForm {V : Nat → Option ℝ} {par : Nat → ℝ} (e : Ex ℝ) : ∀ As, e.absForm.ev V par As = e.ev V par As := by
  induction e with
  | var v => intros; rfl
  | arg i => intros; rfl
  | par p => intros; rfl
  | num c => intros; rfl
  | lv e ih => intro As; exact ih As
  | un f e ih => intro As; simp only [Ex.absForm, Ex.ev, ih]
  | trig f e ih => intro As; simp only [Ex.absForm, Ex.ev, ih]
  | quad f e ih => intro As; simp only [Ex.absForm, Ex.ev, ih]
  | bin f a b iha ihb =>
    intro As
    cases f
    case fmin =>
      simp only [Ex.absForm, Ex.ev, iha, ev_shift0, ihb, ev_minBody, Bin.fn]
      cases a.ev V par As <;> simp
      cases b.ev V par As <;> simp
    all_goals simp only [Ex.absForm, Ex.ev, iha, ihb]
  | cond c a b ihc iha ihb => intro As; simp only [Ex.absForm, Ex.ev, ihc, iha, ihb]
  | argE e b ihe ihb => intro As; simp only [Ex.absForm, Ex.ev, ihe, ihb]
  | locE e b ihe ihb => intro As; simp only [Ex.absForm, Ex.ev, ihe, ihb]

theorem cmd_sem_absForm (x par : Nat → ℝ) (c : Cmd ℝ) (e : SE ℝ) : c.absForm.sem x par e = c.sem x par e := by
  cases c <;> simp only [Cmd.absForm, Cmd.sem, ev_absForm]

theorem src_sem_absForm (x par : Nat → ℝ) (S : Src ℝ) : ∀ e, S.absForm.sem x par e = S.sem x par e := by
  induction S with
  | done => intro e; rfl
  | cmd c k ih => intro e; simp only [Src.absForm, Src.sem, cmd_sem_absForm, ih]
  | ifD c a q t f iht ihf => intro e; simp only [Src.absForm, Src.sem, ev_absForm, iht, ihf]
  | ifD' c q a t f iht ihf => intro e; simp only [Src.absForm, Src.sem, ev_absForm, iht, ihf]
  | ifA c a b t f iht ihf => intro e; simp only [Src.absForm, Src.sem, ev_absForm, iht, ihf]

/-! ## Conditions on the arguments -/

/-- The conditions for the form with `fabs`, from those for the program: those of `D'` follow from those of `D`, and those on `fabs(v - w)` from those on `fmin(v, w)`. -/
structure DomLe (D D' : Dom K) : Prop where
  un : ∀ f v, D.un f v → D'.un f v
  bin : ∀ f v w, f ≠ .fmin → D.bin f v w → D'.bin f v w
  quadE : ∀ q v i, D.quadE q v i → D'.quadE q v i
  cond : ∀ v, D.cond v → D'.cond v
  half : ∀ v, D'.un (.overD 2) v
  fmin : ∀ v w, D.bin .fmin v w → D'.un .fabs (v - w)

theorem dom_shift {D : Dom K} {V : Nat → Option K} {par : Nat → K} (e : Ex K) : ∀ (L : List K) (x : K) (As : List K),
    e.dom D V par (L ++ As) → (e.shift L.length).dom D V par (L ++ x :: As) := by
  induction e with
  | var v => intros; trivial
  | arg v => intros; trivial
  | par v => intros; trivial
  | num v => intros; trivial
  | lv e ih => intro L x As h; exact ih L x As h
  | trig f e ih => intro L x As h; exact ih L x As h
  | un f e ih => intro L x As h; exact ⟨ih L x As h.1, by simp only [ev_shift]; exact h.2⟩
  | quad f e ih => intro L x As h; exact ⟨ih L x As h.1, by simp only [ev_shift, rv_shift]; exact h.2⟩
  | bin f a b iha ihb => intro L x As h; exact ⟨iha L x As h.1, ihb L x As h.2.1, by simp only [ev_shift]; exact h.2.2⟩
  | cond c a b ihc iha ihb => intro L x As h; exact ⟨ihc L x As h.1, iha L x As h.2.1, ihb L x As h.2.2.1, by simp only [ev_shift]; exact h.2.2.2⟩
  | argE e b ihe ihb => intro L x As h; exact ⟨ihe L x As h.1, fun v hv => ihb (v :: L) x As (h.2 v (by simpa only [ev_shift] using hv))⟩
  | locE e b ihe ihb => intro L x As h; exact ⟨ihe L x As h.1, fun v hv => ihb (v :: L) x As (h.2 v (by simpa only [ev_shift] using hv))⟩

theorem dom_absForm {D D' : Dom ℝ} (hD : DomLe D D') {V : Nat → Option ℝ} {par : Nat → ℝ} (e : Ex ℝ) : ∀ As, e.dom D V par As → e.absForm.dom D' V par As := by
  induction e with
  | var v => intros; trivial
  | arg v => intros; trivial
  | par v => intros; trivial
  | num v => intros; trivial
  | lv e ih => intro As h; exact ih As h
  | trig f e ih => intro As h; exact ih As h
  | un f e ih => intro As h; exact ⟨ih As h.1, fun v hv => hD.un _ _ (h.2 v (by simpa only [ev_absForm] using hv))⟩
  | quad f e ih => intro As h; exact ⟨ih As h.1, fun v hv => by rw [rv_absForm]; exact hD.quadE _ _ _ (h.2 v (by simpa only [ev_absForm] using hv))⟩
  | bin f a b iha ihb =>
    intro As h
    cases f
    case fmin =>
      refine ⟨iha As h.1, fun v hv => ⟨dom_shift _ [] v As (ihb As h.2.1), fun w hw => ?_⟩⟩
      have hm := h.2.2 v w (by simpa only [ev_absForm] using hv) (by simpa only [ev_shift0, ev_absForm] using hw)
      refine ⟨⟨⟨trivial, trivial, fun _ _ _ _ => D'.plus _ _⟩, ⟨⟨trivial, trivial, fun _ _ _ _ => D'.minus _ _⟩, ?_⟩, fun _ _ _ _ => D'.minus _ _⟩, fun _ _ => hD.half _⟩
      intro u hu
      simp only [Ex.ev, List.getElem?_cons_succ, List.getElem?_cons_zero, Option.bind_some, Option.map_some, Bin.fn, Option.some.injEq] at hu
      subst hu
      exact hD.fmin v w hm
    all_goals exact ⟨iha As h.1, ihb As h.2.1, fun v w hv hw => hD.bin _ _ _ (by simp) (h.2.2 v w (by simpa only [ev_absForm] using hv) (by simpa only [ev_absForm] using hw))⟩
  | cond c a b ihc iha ihb => intro As h; exact ⟨ihc As h.1, iha As h.2.1, ihb As h.2.2.1, fun v hv => hD.cond _ (h.2.2.2 v (by simpa only [ev_absForm] using hv))⟩
  | argE e b ihe ihb => intro As h; exact ⟨ihe As h.1, fun v hv => ihb _ (h.2 v (by simpa only [ev_absForm] using hv))⟩
  | locE e b ihe ihb => intro As h; exact ⟨ihe As h.1, fun v hv => ihb _ (h.2 v (by simpa only [ev_absForm] using hv))⟩

theorem cmd_dom_absForm {D D' : Dom ℝ} (hD : DomLe D D') {par : Nat → ℝ} (c : Cmd ℝ) (e : SE ℝ) (h : c.dom D par e) : c.absForm.dom D' par e := by
  cases c <;> simp only [Cmd.absForm, Cmd.dom] at *
  case divE v a => exact ⟨dom_absForm hD a _ h.1, fun v hv => hD.un _ _ (h.2 v (by simpa only [ev_absForm] using hv))⟩
  case cond => exact ⟨dom_absForm hD _ _ h.1, dom_absForm hD _ _ h.2.1, dom_absForm hD _ _ h.2.2.1, fun u hu => hD.cond _ (h.2.2.2 u (by simpa only [ev_absForm] using hu))⟩
  case condEq => exact ⟨dom_absForm hD _ _ h.1, dom_absForm hD _ _ h.2.1, dom_absForm hD _ _ h.2.2.1, fun u hu => hD.cond _ (h.2.2.2 u (by simpa only [ev_absForm] using hu))⟩
  case condS => exact ⟨dom_absForm hD _ _ h.1, dom_absForm hD _ _ h.2.1, fun u hu => hD.cond _ (h.2.2 u (by simpa only [ev_absForm] using hu))⟩
  case condEqS => exact ⟨dom_absForm hD _ _ h.1, dom_absForm hD _ _ h.2.1, fun u hu => hD.cond _ (h.2.2 u (by simpa only [ev_absForm] using hu))⟩
  all_goals first | exact dom_absForm hD _ _ h | trivial

theorem src_dom_absForm {D D' : Dom ℝ} (hD : DomLe D D') {x par : Nat → ℝ} (S : Src ℝ) : ∀ e, S.dom D x par e → S.absForm.dom D' x par e := by
  induction S with
  | done => intros; trivial
  | cmd c k ih =>
    intro e h
    exact ⟨cmd_dom_absForm hD c e h.1, fun e' he => ih e' (h.2 e' (by simpa only [cmd_sem_absForm] using he))⟩
  | ifD c a q t f iht ihf =>
    intro e h
    refine ⟨dom_absForm hD a _ h.1, fun v hv => ?_⟩
    obtain ⟨h1, h2⟩ := h.2 v (by simpa only [ev_absForm] using hv)
    refine ⟨hD.cond _ h1, ?_⟩
    split at h2
    · rw [if_pos ‹_›]; exact iht e h2
    · rw [if_neg ‹_›]; exact ihf e h2
  | ifD' c q a t f iht ihf =>
    intro e h
    refine ⟨dom_absForm hD a _ h.1, fun v hv => ?_⟩
    obtain ⟨h1, h2⟩ := h.2 v (by simpa only [ev_absForm] using hv)
    refine ⟨hD.cond _ h1, ?_⟩
    split at h2
    · rw [if_pos ‹_›]; exact iht e h2
    · rw [if_neg ‹_›]; exact ihf e h2
  | ifA c a b t f iht ihf =>
    intro e h
    refine ⟨dom_absForm hD a _ h.1, dom_absForm hD b _ h.2.1, fun v w hv hw => ?_⟩
    obtain ⟨h1, h2⟩ := h.2.2 v w (by simpa only [ev_absForm] using hv) (by simpa only [ev_absForm] using hw)
    refine ⟨hD.cond _ h1, ?_⟩
    split at h2
    · rw [if_pos ‹_›]; exact iht e h2
    · rw [if_neg ‹_›]; exact ihf e h2

/-- Differentiability apart from `fabs` (and its arguments' signs); `fmin` with equal values excluded, as in `Dom.real`. -/
noncomputable def Dom.absN' : Dom ℝ :=
  { Dom.real .rev with
    un := fun f v => match f with
      | .fabs => True
      | f => f.smooth .rev v
    neg := fun _ => trivial
    plusD := fun _ _ => trivial
    quad_ok := fun q v i h => by
      obtain ⟨h1, h2⟩ := (Dom.real .rev).quad_ok q v i h
      refine ⟨?_, h2⟩
      generalize (compChain q : List (Un ℝ)) = C at h1 ⊢
      clear h2
      generalize quadStart q v = w at h1 ⊢
      induction C generalizing w with
      | nil => trivial
      | cons f C ih =>
        refine ⟨?_, ih _ h1.2⟩
        cases f <;> first | trivial | exact h1.1 }

/-- Every function but `fabs` and `fmin`, and every comparison, is differentiable at its arguments: the conditions on a program for its abs-normal form (kinks of fabs, fmin, fmax are allowed). -/
noncomputable def Dom.absN : Dom ℝ :=
  { Dom.absN' with
    bin := fun f v w => match f with
      | .div => w ≠ 0
      | _ => True
    plus := fun _ _ => trivial
    minus := fun _ _ => trivial
    mult := fun _ _ => trivial }

theorem real_le (lv : Sm) : DomLe (Dom.real lv) (Dom.real lv) where
  un _ _ h := h
  bin _ _ _ _ h := h
  quadE _ _ _ h := h
  cond _ h := h
  half _ := trivial
  fmin v w h := sub_ne_zero.2 h

theorem absN_le : DomLe Dom.absN Dom.absN' where
  un _ _ h := h
  bin f v w hf h := by cases f <;> first | exact h | exact absurd rfl hf
  quadE _ _ _ h := h
  cond _ h := h
  half _ := trivial
  fmin v w h := trivial

theorem okP_smoothAN {x par : Nat → ℝ} (p : Prog ℝ) : ∀ {e : SE ℝ}, p.okP Dom.absN' x par e → p.smoothAN x par e := by
  have st : ∀ {s : Stmt ℝ} {e : SE ℝ}, s.ok Dom.absN' e → s.smoothAN e := by
    intro s e h
    cases s with
    | un f a d =>
      cases f
      case fabs => trivial
      all_goals exact h
    | bin f l a b d => exact ok_smooth (lv := .rev) (s := .bin f l a b d) h
    | quad q a b d => exact h
    | cond r c a b => exact h
    | condS r c a => exact h
    | condEq r c a b => exact h
    | condEqS r c a => exact h
    | _ => trivial
  induction p with
  | done => intro e _; trivial
  | stmt s k ih => intro e h; exact ⟨st h.1, fun e' he => ih (h.2 e' he)⟩
  | branch c a t f iht ihf =>
    intro e h v hv
    obtain ⟨h1, h2⟩ := h v hv
    refine ⟨h1, ?_⟩
    split_ifs at h2 ⊢ with hh
    · exact iht h2
    · exact ihf h2

/-! ## No `min_op` -/

def Stmt.notFmin : Stmt K → Prop
  | .bin .fmin _ _ _ _ => False
  | _ => True

def NM (L : List (Stmt K)) : Prop := ∀ s ∈ L, s.notFmin

theorem NM.append {L M : List (Stmt K)} (h : NM L) (h' : NM M) : NM (L ++ M) := fun s hs => (List.mem_append.1 hs).elim (h s) (h' s)
theorem NM.cons {s : Stmt K} {L : List (Stmt K)} (h : s.notFmin) (h' : NM L) : NM (s :: L) := fun t ht => by
  rcases List.mem_cons.1 ht with rfl | ht
  · exact h
  · exact h' t ht
theorem NM.nil : NM ([] : List (Stmt K)) := fun _ h => by simp at h
theorem NM.dels (M : List Nat) : NM (dels M : List (Stmt K)) := fun s hs => by
  simp only [Verif.AD.dels, List.mem_map] at hs; obtain ⟨k, _, rfl⟩ := hs; trivial
theorem NM.mat {r : Out K} (h : NM r.code) : NM r.mat.code := by
  unfold Out.mat; split
  · exact h
  · exact h.append (.cons (by trivial) .nil)
theorem NM.chain (C : List (Un K)) : ∀ t, NM (chainCode C t) := by
  induction C with
  | nil => intro t; exact .nil
  | cons f C ih => intro t; exact .cons (by trivial) (.cons (by trivial) (ih _))

theorem comp_notFmin (e : Ex K) : ∀ A n, e.noFmin → NM (e.comp A n).code := by
  induction e with
  | var v => intro A n _; exact .nil
  | arg v => intro A n _; exact .nil
  | lv e ih => intro A n h; exact ih A n h
  | par p => intro A n _; exact .cons (by trivial) (.cons (by trivial) .nil)
  | num p => intro A n _; exact .cons (by trivial) .nil
  | un f e ih =>
    intro A n h; have := ih A n h
    simp only [Ex.comp, unOut]; split <;> exact this.append (.cons (by trivial) (.cons (by trivial) .nil))
  | trig f e ih =>
    intro A n h; have := ih A n h
    simp only [Ex.comp, trigOut]; split <;> exact this.append (.cons (by trivial) (.cons (by trivial) (.cons (by trivial) (.cons (by trivial) .nil))))
  | quad q e ih =>
    intro A n h; have := ih A n h
    have st : ∀ a t, NM (compStart q a t : List (Stmt K)) := by
      intro a t; cases q <;> first | exact .cons (by trivial) (.cons (by trivial) (.cons (by trivial) .nil)) | exact .cons (by trivial) (.cons (by trivial) (.cons (by trivial) (.cons (by trivial) .nil)))
    simp only [Ex.comp, quadOut]; split
    · exact ((this.append (st _ _)).append (.chain _ _)).append (.cons (by trivial) (.cons (by trivial) (.cons (by trivial) .nil)))
    · exact (((this.append (.cons (by trivial) .nil)).append (st _ _)).append (.chain _ _)).append (.cons (by trivial) (.cons (by trivial) .nil))
  | bin f a b iha ihb =>
    intro A n h
    have hh := (iha A n h.2.1).append (ihb A (a.comp A n).n h.2.2)
    have h3 := h.1
    simp only [Ex.comp, binOut]
    generalize a.comp A n = r1 at *
    generalize b.comp A r1.n = r2 at *
    cases e1 : r1.tmp <;> cases e2 : r2.tmp <;> simp only [] <;> cases f <;> first
      | exact absurd rfl h3
      | exact hh.append (.cons (by trivial) (.cons (by trivial) .nil))
      | exact hh.append (.cons (by trivial) (.cons (by trivial) (.cons (by trivial) (.cons (by trivial) .nil))))
  | cond c a b ihc iha ihb =>
    intro A n h
    exact .cons (by trivial) (((((ihc _ _ h.1).append (iha _ _ h.2.1)).append (ihb _ _ h.2.2)).append (.cons (by trivial) .nil)).append (.dels _))
  | argE e b ihe ihb => intro A n h; exact ((ihe _ _ h.1).append (ihb _ _ h.2).mat).append (.dels _)
  | locE e b ihe ihb =>
    intro A n h
    exact (((((ihe _ _ h.1).mat).append (.dels _)).append (ihb _ _ h.2).mat).append (.dels _)).append (.cons (by trivial) .nil)

theorem cmd_notFmin (c : Cmd K) (n : Nat) (h : c.noFmin) : NM (c.comp n) := by
  cases c with
  | declE v e => refine ((comp_notFmin e _ _ h).append (.cons ?_ .nil)).append (.dels _); split <;> trivial
  | set v e => refine ((comp_notFmin e _ _ h).append (.cons ?_ .nil)).append (.dels _); split <;> trivial
  | acc f v e =>
    cases f with
    | mult => exact ((comp_notFmin e _ _ h).append (.cons (by trivial) .nil)).append (.dels _)
    | plus => refine ((comp_notFmin e _ _ h).append (.cons ?_ .nil)).append (.dels _); split <;> trivial
    | minus => refine ((comp_notFmin e _ _ h).append (.cons ?_ .nil)).append (.dels _); split <;> trivial
  | divE v e => exact ((comp_notFmin (.un (.divD 1) e) _ _ h).append (.cons (by trivial) .nil)).append (.dels _)
  | cond r c a b => exact ((((comp_notFmin _ _ _ h.1).append (comp_notFmin _ _ _ h.2.1)).append (comp_notFmin _ _ _ h.2.2)).append (.cons (by trivial) .nil)).append (.dels _)
  | condEq r c a b => exact ((((comp_notFmin _ _ _ h.1).append (comp_notFmin _ _ _ h.2.1)).append (comp_notFmin _ _ _ h.2.2)).append (.cons (by trivial) .nil)).append (.dels _)
  | condS r c a => exact (((comp_notFmin _ _ _ h.1).append (comp_notFmin _ _ _ h.2)).append (.cons (by trivial) .nil)).append (.dels _)
  | condEqS r c a => exact (((comp_notFmin _ _ _ h.1).append (comp_notFmin _ _ _ h.2)).append (.cons (by trivial) .nil)).append (.dels _)
  | postIncr r v => exact .cons (by trivial) (.cons (by trivial) (.cons (by trivial) .nil))
  | postDecr r v => exact .cons (by trivial) (.cons (by trivial) (.cons (by trivial) .nil))
  | _ => exact .cons (by trivial) .nil

theorem pre_notFmin {L : List (Stmt K)} {k : Prog K} (h : NM L) (hk : Sparse.allStmts Stmt.notFmin k) : Sparse.allStmts Stmt.notFmin (Prog.pre L k) := by
  induction L with
  | nil => exact hk
  | cons s L ih => exact ⟨h s (by simp), ih fun t ht => h t (by simp [ht])⟩

theorem src_notFmin (S : Src K) {N : Nat} : S.noFmin → Sparse.allStmts Stmt.notFmin (S.comp N) := by
  have cD : ∀ (c : Cmp) (e : Ex K) (q : K) (t f : Prog K), e.noFmin → Sparse.allStmts Stmt.notFmin t → Sparse.allStmts Stmt.notFmin f →
      Sparse.allStmts Stmt.notFmin (cmpD N c e q t f) := by
    intro c e q t f he ht hf
    unfold cmpD
    simp only []
    split
    · exact pre_notFmin (comp_notFmin e _ _ he) ⟨pre_notFmin (.dels _) ht, pre_notFmin (.dels _) hf⟩
    · exact pre_notFmin ((comp_notFmin e _ _ he).append (.cons (by trivial) (.cons (by trivial) .nil))) ⟨pre_notFmin (.dels _) ht, pre_notFmin (.dels _) hf⟩
  induction S with
  | done => intro _; trivial
  | cmd c k ih => intro h; exact pre_notFmin (cmd_notFmin c N h.1) (ih h.2)
  | ifD c a q t f iht ihf => intro h; exact cD _ _ _ _ _ h.1 (iht h.2.1) (ihf h.2.2)
  | ifD' c q a t f iht ihf => intro h; exact cD _ _ _ _ _ h.1 (iht h.2.1) (ihf h.2.2)
  | ifA c a b t f iht ihf =>
    intro h
    exact pre_notFmin (((comp_notFmin a _ _ h.1).append (comp_notFmin b _ _ h.2.1)).append (.cons (by trivial) (.cons (by trivial) .nil))) ⟨pre_notFmin (.dels _) (iht h.2.2.1), pre_notFmin (.dels _) (ihf h.2.2.2)⟩

/-- Not `min_op`. -/
def Base.notMin : Base K → Prop
  | .minOp _ _ _ _ => False
  | _ => True

theorem emits_notMin {s : Stmt K} (h : s.notFmin) : Sparse.emits Base.notMin s := by
  cases s with
  | bin f l a b d => cases f <;> first | exact absurd h id | simp [Sparse.emits, Bin.op, Base.notMin]
  | un f a d =>
    cases f <;> simp only [Sparse.emits, Un.op, opPlusD, opMinD, opMultD] <;> intros <;> (try split_ifs) <;> simp [Base.notMin]
  | newD v c => intro r; simp only [opAssignD]; split_ifs <;> trivial
  | setD v c => intro r; simp only [opAssignD]; split_ifs <;> trivial
  | accD f v c => intro r; cases f <;> trivial
  | accA f v c => intro a r; cases f <;> trivial
  | accR m v c => intro a b r _; cases m <;> exact ⟨trivial, fun _ => trivial⟩
  | trig co a b c => intro a b r _ _; cases co <;> trivial
  | _ => simp [Sparse.emits, Base.notMin]

theorem allStmts_mono {P Q : Stmt K → Prop} (h : ∀ s, P s → Q s) : ∀ p : Prog K, Sparse.allStmts P p → Sparse.allStmts Q p
  | .done, _ => trivial
  | .stmt s k, hp => ⟨h s hp.1, allStmts_mono h k hp.2⟩
  | .branch c a t f, hp => ⟨allStmts_mono h t hp.1, allStmts_mono h f hp.2⟩

/-! ## The flag -/

/-- `nominmaxFlag` of the tape, `stats[NO_MIN_MAX]`, and `workMode` (valuetape.h:270, 401-421; globaltapevarscl.h:58). -/
structure MM where
  flag : Bool
  stat : Bool
  work : Option Bool   -- none: NO_MODE; some true: WRITE_ACCESS; some false: READ_ACCESS
  deriving DecidableEq

/-- Calls that touch them (of one tape, the current one). -/
inductive MMCall where
  | enable | disable | traceOn | traceOff
  /-- a sweep begins / ends (`openTape`, `end_sweep`): calls in between come from functions called back -/
  | sweep | sweepEnd
  deriving DecidableEq

/-- One call; the `Bool` says whether it is accepted.
enable, disable: valuetape.h:406-421; trace_on: tape_interface.cpp:44-62, valuetape.cpp:58-87; trace_off: tape_interface.cpp:94-106; sweeps: valuetape.cpp:91-110, 620.
Simplified: the statistics a sweep reads back from a tape file are those of the trace (C04, C30). -/
def MM.step (s : MM) : MMCall → MM × Bool
  | .enable => if s.work = some false then (s, false) else ({ s with flag := true }, true)
  | .disable => if s.work = some false then (s, false) else ({ s with flag := false }, true)
  | .traceOn => if s.work = none then ({ s with stat := s.flag, work := some true }, true) else (s, false)
  | .traceOff => if s.work = some true then ({ s with work := none }, true) else (s, false)
  | .sweep => if s.work = none then ({ s with work := some false }, true) else (s, false)
  | .sweepEnd => if s.work = some false then ({ s with work := none }, true) else (s, false)

/-- A history of calls. -/
def MM.run (s : MM) : List MMCall → MM
  | [] => s
  | c :: L => (s.step c).1.run L

/-- A new tape. -/
def MM.init : MM := ⟨false, false, none⟩

theorem MM.run_append (s : MM) (L M : List MMCall) : s.run (L ++ M) = (s.run L).run M := by
  induction L generalizing s with
  | nil => rfl
  | cons c L ih => exact ih _

end Verif.AD
