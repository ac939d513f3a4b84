import Verif.AD.ApiReal
import Verif.Props.AD
import Mathlib.Analysis.SpecialFunctions.Complex.Arg
import Mathlib.Analysis.SpecialFunctions.Trigonometric.DerivHyp
import Mathlib.Analysis.SpecialFunctions.Pow.Real
import Mathlib.Analysis.SpecialFunctions.Log.Base
import Mathlib.Analysis.SpecialFunctions.Trigonometric.Arctan

/-!
Property C45: the program as the user writes it.

Reading guide.  `Src` is a C++ program: declarations, assignments, `+=` …, `<<=`, `>>=`, conditional assignments with arbitrary expressions (`Ex`), and
`if` on comparisons of expressions.  `Src.sem x par S e` is its meaning on plain numbers.  `Src.comp n S` are the calls the compiled program makes: overloads for lvalues
and temporaries, the temporaries themselves (names from `n` on) and their destruction.  `Traced … (S.comp n) …` says that these calls were made between `trace_on` and `trace_off`.
-/
set_option linter.all false
namespace Verif.Props.Api
open Verif.AD Verif.Props.AD Elem

/-- The program is well-formed C++: its variables have names below `n`, are declared before use and not used after the end of their scope
(on every path), and no object with a name from `n` on exists at the start. -/
structure WF {K : Type} [Scalar K] (n : Nat) (S : Src K) (s : Rec K) : Prop where
  unused : ∀ k, n ≤ k → s.env k = none
  fits : S.fits n
  wf : S.wf {v | (s.env v).isSome}

section general
variable {K : Type} [Scalar K] {cfg : RCfg K} {stock : List (Nat × List K)} {s s' : Rec K} {S : Src K} {n N : Nat}

theorem WF.alive (h : WF n S s) : s.se.alive = {v | (s.env v).isSome} := by ext k; simp [SE.alive, Rec.se]
theorem WF.unused' (h : WF n S s) : Unused n s.se := fun k hk => by simp [Rec.se, h.unused k hk]
theorem WF.spec (h : WF n S s) (x par : Nat → K) : (S.comp n).spec x par s.se = S.sem x par s.se :=
  src_spec S h.unused' h.fits (by rw [h.alive]; exact h.wf)
theorem WF.some (h : WF n S s) (x par : Nat → K) : ∃ R, S.sem x par s.se = some R := src_some S h.fits (by rw [h.alive]; exact h.wf)

/-- C45 (partial: without `fmin` of two lvalues, whose recorded value is wrong, see C32).  Every well-formed program can be traced. -/
theorem C45_traceable_partial (hal : ∀ k L, cfg.alloc k L ∉ L) (hs : s.Start stock) (hw : WF n S s) (hf : S.noFminLL) :
    ∃ s', Traced cfg stock s (S.comp n) s' (s'.hw + 1) := by
  obtain ⟨R, h⟩ := hw.some cfg.x cfg.par
  obtain ⟨s', h1, _⟩ := traced_exists hal hs (src_noFmin S hf) (by rw [hw.spec]; exact h)
  exact ⟨s', h1⟩

/-- C45 (partial: without `fmin` of two lvalues).  While tracing, the program computes what it computes on plain numbers, and its temporaries are gone at the end. -/
theorem C45_while_taping_partial (h : Traced cfg stock s (S.comp n) s' N) (hw : WF n S s) (hf : S.noFminLL) :
    ∃ e b, S.sem cfg.x cfg.par s.se = some (e, b) ∧ (∀ v, (s'.env v).map s'.V = e.vars v) ∧ ∀ k, n ≤ k → s'.env k = none := by
  obtain ⟨e, h1, h2⟩ := C32_values_while_taping_partial h (src_noFmin S hf)
  have h1' := h1
  rw [hw.spec] at h1
  refine ⟨e, _, h1, fun v => (h2 v).symm, fun k hk => ?_⟩
  have hu : Unused n e := by
    have key : ∀ (S : Src K) {E : SE K} {R}, Unused n E → S.fits n → S.sem cfg.x cfg.par E = Option.some R → Unused n R.1 := by
      intro S
      induction S with
      | done => intro E R hu _ h; simp only [Src.sem] at h; cases h; exact hu
      | cmd c k ih =>
        intro E R hu hf h
        simp only [Src.sem, Option.bind_eq_some_iff] at h
        obtain ⟨E', g1, g2⟩ := h
        have hd : c.dom Dom.all cfg.par E := (src_dom_all (.cmd c k) (x := cfg.x) E).1
        exact ih (cmd_ok (D := Dom.all) c hu hf.1 hd g1).2 hf.2 g2
      | ifD c a q t f iht ihf =>
        intro E R hu hf h
        simp only [Src.sem, Option.bind_eq_some_iff] at h
        obtain ⟨v, _, h⟩ := h
        split at h <;> simp only [Option.map_eq_some_iff] at h <;> obtain ⟨R', g, rfl⟩ := h
        · show Unused n R'.1
          exact iht hu hf.2.1 g
        · show Unused n R'.1
          exact ihf hu hf.2.2 g
      | ifD' c q a t f iht ihf =>
        intro E R hu hf h
        simp only [Src.sem, Option.bind_eq_some_iff] at h
        obtain ⟨v, _, h⟩ := h
        split at h <;> simp only [Option.map_eq_some_iff] at h <;> obtain ⟨R', g, rfl⟩ := h
        · show Unused n R'.1
          exact iht hu hf.2.1 g
        · show Unused n R'.1
          exact ihf hu hf.2.2 g
      | ifA c a b t f iht ihf =>
        intro E R hu hf h
        simp only [Src.sem, Option.bind_eq_some_iff] at h
        obtain ⟨v, _, w, _, h⟩ := h
        split at h <;> simp only [Option.map_eq_some_iff] at h <;> obtain ⟨R', g, rfl⟩ := h
        · show Unused n R'.1
          exact iht hu hf.2.2.1 g
        · show Unused n R'.1
          exact ihf hu hf.2.2.2 g
    exact key S hw.unused' hw.fits h1
  have := hu k hk
  rw [h2 k] at this
  simpa using this

/-- C45 (partial: without `fmin` of two lvalues).  At any point `x` and parameters `par`: if the comparisons of the program have the outcomes they had when it was recorded,
`zos_forward` returns the values the program itself computes at `x`; if not, it returns -1. -/
theorem C45_zos_forward_partial (h : Traced cfg stock s (S.comp n) s' N) (hw : WF n S s) (hf : S.noFminLL) (x par : Nat → K) (keep : Bool) :
    ∃ e0 b0 e b, S.sem cfg.x cfg.par s.se = some (e0, b0) ∧ S.sem x par s.se = some (e, b) ∧
      (b = b0 → ∃ z, zosRun ⟨x, par, keep⟩ (s'.tape N) ZS.init = .ok z ∧ z.y = e.ys) ∧
      (b ≠ b0 → retCode (zosRun ⟨x, par, keep⟩ (s'.tape N) ZS.init) = -1) := by
  obtain ⟨e0, h1, _⟩ := C32_values_while_taping_partial h (src_noFmin S hf)
  rw [hw.spec] at h1
  obtain ⟨⟨e, b⟩, h2⟩ := hw.some x par
  refine ⟨e0, _, e, b, h1, h2, fun hb => ?_, fun hb => ?_⟩
  · exact C09_zos_forward h x par keep (by rw [hw.spec, h2, hb])
  · rcases C10_branch_switch h x par keep with ⟨⟨e', h3⟩, _⟩ | ⟨_, h3⟩
    · rw [hw.spec, h2] at h3; cases h3; exact absurd rfl hb
    · exact h3
end general

section real
variable {cfg : RCfg ℝ} {stock : List (Nat × List ℝ)} {s s' : Rec ℝ} {S : Src ℝ} {n N : Nat}

/-- Output `j` of the program at `x`. -/
noncomputable def out (S : Src ℝ) (x par : Nat → ℝ) (e : SE ℝ) (j : Nat) : ℝ :=
  match S.sem x par e with
  | .some (e, _) => e.ys[j]?.getD 0
  | none => 0

theorem out_eq (hw : WF n S s) (x par : Nat → ℝ) (j : Nat) : (S.comp n).out x par s.se j = out S x par s.se j := by
  unfold Prog.out out; rw [hw.spec]; cases S.sem x par s.se <;> rfl

/-- C45 (partial: at points where every function and comparison the program evaluates is differentiable, and not where an inverse function of a temporary has a special value, as in C11;
without `fmin` of two lvalues).  On the recorded path `fos_forward` returns the derivative of the program. -/
theorem C45_fos_forward_partial (h : Traced cfg stock s (S.comp n) s' N) (hw : WF n S s) (hf : S.noFminLL) (par : Nat → ℝ) (keep : Bool) {d : Nat} (x0 : Fin d → ℝ)
    {e0 e : SE ℝ} {b : List Bool} (hrec : S.sem cfg.x cfg.par s.se = .some (e0, b)) (hx : S.sem (ext x0) par s.se = .some (e, b))
    (hsm : S.dom (Dom.real .fwd) (ext x0) par s.se) :
    ∃ D : Nat → (Fin d → ℝ) →L[ℝ] ℝ,
      (∀ j, HasFDerivAt (fun x => out S (ext x) par s.se j) (D j) x0) ∧
      ∀ v : Fin d → ℝ, ∃ f, fosRun ⟨ext x0, par, keep⟩ (ext v) (s'.tape N) FS.init = .ok f ∧
        f.y = e.ys ∧ f.dy.length = e.ys.length ∧ ∀ j, f.dy[j]?.getD 0 = D j v := by
  obtain ⟨e', h1, _⟩ := C32_values_while_taping_partial h (src_noFmin S hf)
  rw [hw.spec, hrec] at h1
  have hb : b = (S.comp n).path cfg s := by cases h1; rfl
  obtain ⟨D, d1, d2⟩ := C11_fos_forward_partial h par keep x0 (e0 := e) (by rw [hw.spec, hx, hb])
    (okP_smooth _ (src_ok S hw.unused' hw.fits hsm hx).2)
  exact ⟨D, fun j => by simpa only [out_eq hw] using d1 j, d2⟩

/-- C45 (partial: as for `fos_forward`, and not `pow(x, 1.0)` at 0, as in C13).  After a forward sweep with keep, `fos_reverse` returns the gradient of the program, for a program in which no
variable is read after `>>=` until it is assigned again. -/
theorem C45_fos_reverse_partial (h : Traced cfg stock s (S.comp n) s' N) (hw : WF n S s) (hf : S.noFminLL) (hd : S.disc ⟨Set.univ, ∅⟩) (par : Nat → ℝ) {d : Nat} (x0 : Fin d → ℝ)
    {e0 e : SE ℝ} {b : List Bool} (hrec : S.sem cfg.x cfg.par s.se = .some (e0, b)) (hx : S.sem (ext x0) par s.se = .some (e, b)) (hi : e.ii = d)
    (hsm : S.dom (Dom.real .rev) (ext x0) par s.se) (u : Nat → ℝ) :
    ∃ z, zosRun ⟨ext x0, par, true⟩ (s'.tape N) ZS.init = .ok z ∧
    ∃ D : Nat → (Fin d → ℝ) →L[ℝ] ℝ,
      (∀ j, HasFDerivAt (fun x => out S (ext x) par s.se j) (D j) x0) ∧
      ∃ r, revRun u (s'.tape N) (RS.init d e.ys.length z.stk) = .ok r ∧ r.stk = [] ∧
        ∀ i : Fin d, r.bar i = ∑ j ∈ Finset.range e.ys.length, u j * D j (Pi.single i 1) := by
  obtain ⟨e', h1, _⟩ := C32_values_while_taping_partial h (src_noFmin S hf)
  rw [hw.spec, hrec] at h1
  have hb : b = (S.comp n).path cfg s := by cases h1; rfl
  obtain ⟨z, hz, D, d1, d2⟩ := C13_fos_reverse_partial h (src_disc S hw.fits hd ⟨fun _ _ _ => trivial, fun _ _ h => h, fun _ _ h => h⟩) par x0 (e0 := e) (by rw [hw.spec, hx, hb]) hi
    (okP_smooth _ (src_ok S hw.unused' hw.fits hsm hx).2) u
  exact ⟨z, hz, D, fun j => by simpa only [out_eq hw] using d1 j, d2⟩

/-! ### The functions composed in the header -/

variable {V : Nat → Option ℝ} {par : Nat → ℝ} {As : List ℝ} {a b : Ex ℝ} {v w : ℝ}

theorem C45_log10 (h : a.ev V par As = .some v) : a.log10.ev V par As = .some (Real.logb 10 v) := by
  simp [Ex.log10, Ex.ev, h, Un.fn, Real.logb, Elem.log]
theorem C45_tan (h : a.ev V par As = .some v) : a.tan.ev V par As = .some (Real.tan v) := by
  simp [Ex.tan, Ex.ev, h, Bin.fn, Real.tan_eq_sin_div_cos, Elem.sin, Elem.cos]
/-- sinh, cosh, tanh: on both sides of the test of the recorded value, so also at points where the argument has the other sign. -/
theorem C45_sinh (h : a.ev V par As = .some v) (neg : Bool) : (a.sinh neg).ev V par As = .some (Real.sinh v) := by
  cases neg <;> simp [Ex.sinh, Ex.ev, h, Bin.fn, Un.fn, Real.sinh_eq, Elem.exp, Real.exp_neg] <;> ring
theorem C45_cosh (h : a.ev V par As = .some v) (neg : Bool) : (a.cosh neg).ev V par As = .some (Real.cosh v) := by
  cases neg <;> simp [Ex.cosh, Ex.ev, h, Bin.fn, Un.fn, Real.cosh_eq, Elem.exp, Real.exp_neg] <;> ring
theorem C45_tanh (h : a.ev V par As = .some v) (neg : Bool) : (a.tanh neg).ev V par As = .some (Real.tanh v) := by
  have e2 : ∀ t : ℝ, Real.exp (2 * t) = Real.exp t * Real.exp t := fun t => by rw [← Real.exp_add]; ring_nf
  have e3 := Real.exp_pos v
  cases neg <;> simp only [Ex.tanh, Ex.ev, h, Option.map_some, Option.bind_some, Bin.fn, Un.fn, Real.tanh_eq_sinh_div_cosh, Real.sinh_eq, Real.cosh_eq, Elem.exp, if_true, if_false,
    Bool.false_eq_true, List.length_cons, List.getElem?_cons_zero, Option.some.injEq, Real.exp_neg]
  · rw [show (-2 : ℝ) * v = -(2 * v) by ring, Real.exp_neg, e2]
    field_simp
  · rw [e2]; field_simp; ring
theorem C45_fmin (h : a.ev V par As = .some v) (h' : b.ev V par As = .some w) : (Ex.bin .fmin a b).ev V par As = .some (min v w) := by
  simp only [Ex.ev, h, h', Option.bind_some, Option.map_some, Bin.fn, Option.some.injEq]
  rcases lt_or_ge w v with h | h
  · rw [if_pos h, min_eq_right h.le]
  · rw [if_neg (by linarith), min_eq_left h]
theorem C45_fmin_number (c : ℝ) (h : a.ev V par As = .some v) : (Ex.fminDA c a).ev V par As = .some (min c v) ∧ (Ex.fminAD a c).ev V par As = .some (min v c) :=
  ⟨C45_fmin rfl h, C45_fmin h rfl⟩
theorem neg_min_neg (v w : ℝ) : -min (-v) (-w) = max v w := by rw [min_neg_neg, neg_neg]
theorem C45_fmax (h : a.ev V par As = .some v) (h' : b.ev V par As = .some w) : (Ex.fmax a b).ev V par As = .some (max v w) := by
  have h1 : (Ex.un .neg a).ev V par As = .some (-v) := by simp [Ex.ev, h, Un.fn]
  have h2 : (Ex.un .neg b).ev V par As = .some (-w) := by simp [Ex.ev, h', Un.fn]
  have h3 : (Ex.un .neg (.lv b)).ev V par As = .some (-w) := by simp [Ex.ev, h', Un.fn]
  unfold Ex.fmax
  split
  · rw [Ex.ev, C45_fmin h1 h3]; simp [Un.fn, neg_min_neg]
  · rw [Ex.ev, C45_fmin h1 h2]; simp [Un.fn, neg_min_neg]
theorem C45_fmax_number (c : ℝ) (h : a.ev V par As = .some v) : (Ex.fmaxDA c a).ev V par As = .some (max c v) ∧ (Ex.fmaxAD a c).ev V par As = .some (max v c) := by
  have h1 : (Ex.un .neg a).ev V par As = .some (-v) := by simp [Ex.ev, h, Un.fn]
  have h2 : (Ex.num (-c) : Ex ℝ).ev V par As = .some (-c) := rfl
  constructor
  · unfold Ex.fmaxDA; rw [Ex.ev, C45_fmin h2 h1]; simp [Un.fn, neg_min_neg]
  · unfold Ex.fmaxAD; rw [Ex.ev, C45_fmin h1 h2]; simp [Un.fn, neg_min_neg]
/-- `pow(c, a)` with a positive number `c`, whatever the recorded value `k`. -/
theorem C45_pow_number (c k : ℝ) (hc : 0 < c) (h : a.ev V par As = .some v) : (Ex.powDA c k a).ev V par As = .some (c ^ v) := by
  simp [Ex.powDA, Ex.ev, h, Un.fn, Elem.exp, Elem.log, hc, Real.rpow_def_of_pos hc]
theorem ev_scoped {V : Nat → Option ℝ} {par : Nat → ℝ} {n : Nat} (e : Ex ℝ) : ∀ {j : Nat} {As Bs : List ℝ}, e.scoped n j → (∀ i < j, As[i]? = Bs[i]?) →
    e.ev V par As = e.ev V par Bs := by
  induction e with
  | var v => intros; rfl
  | par v => intros; rfl
  | num v => intros; rfl
  | arg i => intro j As Bs h g; exact g i h
  | lv e ih => intro j As Bs h g; exact ih (j := j) h g
  | un f e ih => intro j As Bs h g; simp only [Ex.ev]; rw [ih (j := j) h g]
  | trig f e ih => intro j As Bs h g; simp only [Ex.ev]; rw [ih (j := j) h g]
  | quad f e ih => intro j As Bs h g; simp only [Ex.ev]; rw [ih (j := j) h g]
  | bin f a b iha ihb => intro j As Bs h g; simp only [Ex.ev]; rw [iha (j := j) h.1 g, ihb (j := j) h.2 g]
  | cond c a b ihc iha ihb => intro j As Bs h g; simp only [Ex.ev]; rw [ihc (j := j) h.1 g, iha (j := j) h.2.1 g, ihb (j := j) h.2.2 g]
  | argE e b ih ihb =>
    intro j As Bs h g; simp only [Ex.ev]; rw [ih (j := j) h.1 g]; congr 1; funext v
    exact ihb (j := j + 1) h.2 (fun i hi => by cases i with | zero => rfl | succ i => simpa using g i (by omega))
  | locE e b ih ihb =>
    intro j As Bs h g; simp only [Ex.ev]; rw [ih (j := j) h.1 g]; congr 1; funext v
    exact ihb (j := j + 1) h.2 (fun i hi => by cases i with | zero => rfl | succ i => simpa using g i (by omega))
/-- `pow(a, b)` where the base is positive, whatever the values `k`, `bv` while recording (`b` an expression of the user: no reference parameters of an enclosing inline function). -/
theorem C45_pow (k bv : ℝ) {n : Nat} (h : a.ev V par [] = .some v) (h' : b.ev V par [] = .some w) (hb : b.scoped n 0) (hv : 0 < v) :
    (Ex.pow k bv a b).ev V par [] = .some (v ^ w) := by
  have hs : b.ev V par [v] = .some w := by rw [← h']; exact ev_scoped b hb (fun i hi => absurd hi (by omega))
  simp [Ex.pow, Ex.ev, h, hs, Un.fn, Bin.fn, Elem.exp, Elem.log, hv, Real.rpow_def_of_pos hv, mul_comm]
/-- What is missing: at a negative base the exponent is the number `bv` it was while recording, whatever `b` is at the point of evaluation. -/
theorem C45_pow_negative_base (k bv : ℝ) {n : Nat} (h : a.ev V par [] = .some v) (h' : b.ev V par [] = .some w) (hb : b.scoped n 0) (hv : v < 0) :
    (Ex.pow k bv a b).ev V par [] = .some (Elem.pow v bv) := by
  have hs : b.ev V par [v] = .some w := by rw [← h']; exact ev_scoped b hb (fun i hi => absurd hi (by omega))
  have h1 : ¬ 0 < v := by linarith
  simp [Ex.pow, Ex.ev, h, hs, Un.fn, Bin.fn, Elem.fabs, hv.ne, h1]
theorem arg_of {r t v w : ℝ} (hr : 0 < r) (h1 : -Real.pi < t) (h2 : t ≤ Real.pi) (hw : r * Real.cos t = w) (hv : r * Real.sin t = v) : Complex.arg ⟨w, v⟩ = t := by
  have := Complex.arg_mul_cos_add_sin_mul_I hr (θ := t) ⟨h1, h2⟩
  rw [← this]; congr 1
  apply Complex.ext
  · simp [← hw, ← Complex.ofReal_cos, ← Complex.ofReal_sin]
  · simp [← hv, ← Complex.ofReal_cos, ← Complex.ofReal_sin]
theorem sqrt_pos' (x : ℝ) : 0 < √(1 + x ^ 2) := Real.sqrt_pos.mpr (by positivity)
/-- The value of `atan2(a, b)`. -/
theorem C45_atan2_value {n : Nat} (h : a.ev V par [] = .some v) (h' : b.ev V par [] = .some w) (hb : b.scoped n 0) :
    (Ex.atan2 a b).ev V par [] = .some (if v = 0 ∧ w < 0 then -Real.pi else Complex.arg ⟨w, v⟩) := by
  have hs : b.ev V par [v] = .some w := by rw [← h']; exact ev_scoped b hb (fun i hi => absurd hi (by omega))
  have hpi := Real.pi_pos
  simp only [Ex.atan2, Ex.ev, h, hs, Option.bind_some, Option.map_some, List.getElem?_cons_zero, List.getElem?_cons_succ, Un.fn, Bin.fn, Quad.fn, Elem.fabs, Elem.atan, Elem.asin,
    Real.arcsin_one, Option.some.injEq, gt_iff_lt]
  have hc : ∀ x, √(1 + x ^ 2) * Real.cos (Real.arctan x) = 1 := fun x => by rw [Real.cos_arctan]; field_simp [(sqrt_pos' x).ne']
  have hn : ∀ x, √(1 + x ^ 2) * Real.sin (Real.arctan x) = x := fun x => by rw [Real.sin_arctan]; field_simp [(sqrt_pos' x).ne']
  have hl := fun x => Real.neg_pi_div_two_lt_arctan x
  have hu := fun x => Real.arctan_lt_pi_div_two x
  by_cases hvw : 0 < |w| - |v|
  · rw [if_pos hvw]
    have hw0 : w ≠ 0 := by rintro rfl; simp at hvw; linarith [abs_nonneg v]
    have hm : w * (v / w) = v := by field_simp
    rcases lt_or_gt_of_ne hw0 with hw | hw
    · rw [if_neg (by linarith)]
      by_cases hv : 0 < v
      · rw [if_pos hv, if_neg (by rintro ⟨rfl, _⟩; linarith)]
        symm
        have h0 : Real.arctan (v / w) < 0 := by rw [← Real.arctan_zero]; exact Real.arctan_strictMono (div_neg_of_pos_of_neg hv hw)
        refine arg_of (r := -w * √(1 + (v / w) ^ 2)) (mul_pos (by linarith) (sqrt_pos' _)) (by linarith [hl (v / w)]) (by linarith) ?_ ?_
        · rw [show Real.arctan (v / w) + Real.pi / 2 * (2 * 1) = Real.arctan (v / w) + Real.pi by ring, Real.cos_add_pi]; linear_combination w * hc (v / w)
        · rw [show Real.arctan (v / w) + Real.pi / 2 * (2 * 1) = Real.arctan (v / w) + Real.pi by ring, Real.sin_add_pi]; linear_combination w * hn (v / w) + hm
      · rw [if_neg hv]
        by_cases hv0 : v = 0
        · subst hv0
          rw [if_pos ⟨rfl, hw⟩]; simp
        · rw [if_neg (by tauto)]
          symm
          have hv' : v < 0 := lt_of_le_of_ne (by linarith) hv0
          have h0 : 0 < Real.arctan (v / w) := by rw [← Real.arctan_zero]; exact Real.arctan_strictMono (div_pos_of_neg_of_neg hv' hw)
          refine arg_of (r := -w * √(1 + (v / w) ^ 2)) (mul_pos (by linarith) (sqrt_pos' _)) (by linarith [hl (v / w)]) (by linarith [hu (v / w)]) ?_ ?_
          · rw [show Real.arctan (v / w) + Real.pi / 2 * (2 * -1) = Real.arctan (v / w) - Real.pi by ring, Real.cos_sub_pi]; linear_combination w * hc (v / w)
          · rw [show Real.arctan (v / w) + Real.pi / 2 * (2 * -1) = Real.arctan (v / w) - Real.pi by ring, Real.sin_sub_pi]; linear_combination w * hn (v / w) + hm
    · rw [if_pos hw, if_neg (by rintro ⟨_, h⟩; linarith)]
      symm
      refine arg_of (r := w * √(1 + (v / w) ^ 2)) (mul_pos hw (sqrt_pos' _)) (by linarith [hl (v / w)]) (by linarith [hu (v / w)]) ?_ ?_
      · linear_combination w * hc (v / w)
      · linear_combination w * hn (v / w) + hm
  · rw [if_neg hvw]
    by_cases hv0 : v = 0
    · subst hv0
      have : w = 0 := by have := abs_nonneg w; simp at hvw; exact hvw
      subst this
      simp
      exact Complex.arg_zero.symm
    · rw [if_pos (abs_pos.mpr hv0), if_neg (show ¬ (v = 0 ∧ w < 0) from fun h => hv0 h.1)]
      symm
      have hm : v * (w / v) = w := by field_simp
      rcases lt_or_gt_of_ne hv0 with hv | hv
      · rw [if_neg (by linarith)]
        have ht : Real.pi / 2 * -1 - Real.arctan (w / v) = -(Real.arctan (w / v) + Real.pi / 2) := by ring
        refine arg_of (r := -v * √(1 + (w / v) ^ 2)) (mul_pos (by linarith) (sqrt_pos' _)) (by linarith [hu (w / v)]) (by linarith [hl (w / v)]) ?_ ?_
        · rw [ht, Real.cos_neg, Real.cos_add_pi_div_two]; linear_combination v * hn (w / v) + hm
        · rw [ht, Real.sin_neg, Real.sin_add_pi_div_two]; linear_combination v * hc (w / v)
      · rw [if_pos hv, mul_one]
        refine arg_of (r := v * √(1 + (w / v) ^ 2)) (mul_pos hv (sqrt_pos' _)) (by linarith [hu (w / v)]) (by linarith [hl (w / v)]) ?_ ?_
        · rw [Real.cos_pi_div_two_sub]; linear_combination v * hn (w / v) + hm
        · rw [Real.sin_pi_div_two_sub]; linear_combination v * hc (w / v)
/-- C45 (partial: not on the negative real axis).  `atan2(a, b)` is the angle of the point `(b, a)`. -/
theorem C45_atan2_partial {n : Nat} (h : a.ev V par [] = .some v) (h' : b.ev V par [] = .some w) (hb : b.scoped n 0) (hne : ¬ (v = 0 ∧ w < 0)) :
    (Ex.atan2 a b).ev V par [] = .some (Complex.arg ⟨w, v⟩) := by rw [C45_atan2_value h h' hb, if_neg hne]
/-- What is missing: `atan2(0, -1)` gives -π; C's is π. -/
theorem C45_atan2_negative_axis : (Ex.atan2 (.num 0) (.num (-1)) : Ex ℝ).ev (fun _ => none) (fun _ => 0) [] = .some (-Real.pi) ∧ Complex.arg ⟨-1, 0⟩ = Real.pi := by
  refine ⟨?_, ?_⟩
  · rw [C45_atan2_value (a := .num 0) (b := .num (-1)) (v := 0) (w := -1) (n := 0) rfl rfl trivial, if_pos ⟨rfl, by norm_num⟩]
  · have : (⟨-1, 0⟩ : ℂ) = -1 := by apply Complex.ext <;> simp
    rw [this, Complex.arg_neg_one]
end real

/-! ### A program that meets the hypotheses -/

/-- `adouble x, z; x <<= …; z <<= …; adouble y = x - z * exp(x); if (y < x) { y += sinh(x); y /= sin(x) + 2; y >>= …; } else y >>= …;` -/
noncomputable def prog : Src ℝ :=
  .cmd (.decl 0) <| .cmd (.decl 1) <| .cmd (.indep 0) <| .cmd (.indep 1) <|
  .cmd (.declE 2 (.bin .minus (.var 0) (.bin .mult (.var 1) (.un .exp (.var 0))))) <|
  .ifA .lt (.var 2) (.var 0)
    (.cmd (.acc .plus 2 (Ex.sinh false (.var 0))) <| .cmd (.divE 2 (.un (.plusD 2) (.trig false (.var 0)))) <| .cmd (.dep 2) <| .cmd (.kill 2) .done)
    (.cmd (.dep 2) .done)

theorem prog_wf : WF 3 prog demoStart :=
  ⟨fun _ _ => rfl, by simp [prog, Src.fits, Cmd.fits, Ex.scoped, Ex.sinh], by simp [prog, Src.wf, Cmd.wf, Cmd.alive, Ex.reads, Ex.sinh, demoStart]⟩
theorem prog_noFmin : prog.noFminLL := by simp [prog, Src.noFminLL, Cmd.noFminLL, Ex.noFminLL, Ex.sinh]
theorem prog_disc : prog.disc ⟨Set.univ, ∅⟩ := by simp [prog, Src.disc, Cmd.disc, Cmd.discNext, Ex.reads, Ex.sinh]
/-- What it computes where `z > 0`. -/
theorem prog_sem (x par : Nat → ℝ) (h : 0 < x 1) : ∃ e, prog.sem x par demoStart.se = some (e, [true]) ∧ e.ii = 2 ∧
    e.ys = [(x 0 - x 1 * Real.exp (x 0) + Real.sinh (x 0)) / (2 + Real.sin (x 0))] := by
  have h1 := mul_pos h (Real.exp_pos (x 0))
  have key := fun (V : Nat → Option ℝ) (hV : V 0 = some (x 0)) => C45_sinh (par := par) (As := []) (a := .var 0) (V := V) (v := x 0) (by simp [Ex.ev, hV]) false
  simp [prog, Src.sem, Cmd.sem, Ex.ev, demoStart, Rec.se, SE.set, SE.del, upd_apply, Bin.fn, Un.fn, Elem.exp, Elem.sin, Cmp.rel, h1, key, Acc.fn]
theorem prog_dom (lv : Sm) (x par : Nat → ℝ) (h : 0 < x 1) : prog.dom (Dom.real lv) x par demoStart.se := by
  have h1 := mul_pos h (Real.exp_pos (x 0))
  have key := fun (V : Nat → Option ℝ) (hV : V 0 = some (x 0)) => C45_sinh (par := par) (As := []) (a := .var 0) (V := V) (v := x 0) (by simp [Ex.ev, hV]) false
  have h2 : 2 + Real.sin (x 0) ≠ 0 := by have := Real.neg_one_le_sin (x 0); linarith
  simp [prog, Src.dom, Cmd.dom, Ex.dom, Cmd.sem, Ex.ev, demoStart, Rec.se, SE.set, SE.del, upd_apply, Bin.fn, Un.fn, Elem.exp, Elem.sin, Cmp.rel, h1, key, Acc.fn, Dom.real, Ex.sinh, Un.smooth, h2, h.ne',
    (Real.exp_pos _).ne']

/-- All hypotheses of the theorems above hold for it, at infinitely many points. -/
example : ∃ s' e0, Traced demoCfg [] demoStart (prog.comp 3) s' (s'.hw + 1) ∧ WF 3 prog demoStart ∧ prog.noFminLL ∧ prog.disc ⟨Set.univ, ∅⟩ ∧
    prog.sem demoCfg.x demoCfg.par demoStart.se = some (e0, [true]) ∧
    ∀ (par : Nat → ℝ) (x0 : Fin 2 → ℝ), 0 < x0 1 → (∃ e, prog.sem (ext x0) par demoStart.se = some (e, [true]) ∧ e.ii = 2) ∧ prog.dom (Dom.real .rev) (ext x0) par demoStart.se := by
  obtain ⟨s', h⟩ := C45_traceable_partial demo_alloc demo_start prog_wf prog_noFmin
  obtain ⟨e0, h0, _⟩ := prog_sem demoCfg.x demoCfg.par (by simp [demoCfg])
  refine ⟨s', e0, h, prog_wf, prog_noFmin, prog_disc, h0, fun par x0 hx => ?_⟩
  have hx' : 0 < ext x0 1 := by simpa [ext] using hx
  obtain ⟨e, h1, h2, _⟩ := prog_sem (ext x0) par hx'
  exact ⟨⟨e, h1, h2⟩, prog_dom _ _ _ hx'⟩

/-- The composed functions at concrete arguments. -/
example : (Ex.pow 7 3 (.num 2) (.var 0) : Ex ℝ).ev (fun _ => some 5) (fun _ => 0) [] = some (2 ^ (5 : ℝ)) :=
  C45_pow 7 3 (n := 1) rfl rfl (by simp [Ex.scoped]) (by norm_num)
example : (Ex.atan2 (.num 1) (.num 0) : Ex ℝ).ev (fun _ => none) (fun _ => 0) [] = some (Complex.arg ⟨0, 1⟩) :=
  C45_atan2_partial (n := 0) rfl rfl trivial (by norm_num)
end Verif.Props.Api
