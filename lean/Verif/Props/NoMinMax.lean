import Verif.AD.Kinks
import Verif.Props.Api
import Verif.Props.AbsNormal

/-!
Property C71: fmin, fmax, min, max on a tape recorded after `enableMinMaxUsingAbs()`.

Reading guide.  `S` is the user's C++ program, `S.sem` its meaning on plain numbers, in which `fmin` is the smaller of the two values (`Bin.fn`).  `S.compMM true n` are the calls the compiled program
makes while `enableMinMaxUsingAbs` is in force (`S.compMM false n = S.comp n` otherwise).  `S.kinks nmm` are the arguments of `fabs` which the evaluation of `S` meets, in order; with `nmm` also
`a - b` for each `fmin(a, b)` (`AD/Kinks.lean`).  `Dom.absN`: no condition on the arguments of fabs, fmin, fmax (kinks are allowed).
-/
set_option linter.all false
namespace Verif.Props.NoMinMax
open Verif.AD Verif.Props.AD Verif.Props.Api Elem

section general
variable {K : Type} [Scalar K] {cfg : RCfg K} {stock : List (Nat × List K)} {s s' : Rec K} {S : Src K} {n N : Nat}

theorem compMM_true : S.compMM true n = S.absForm.comp n := by simp [Src.compMM]

theorem wf_absForm (h : WF n S s) : WF n S.absForm s := ⟨h.unused, src_fits_absForm S h.fits, src_wf_absForm S h.wf⟩

theorem noFminLL (S : Src K) : S.absForm.noFminLL := src_noFmin_LL _ (src_noFmin_absForm S)

/-- C71: every well-formed program can be traced, whatever it does with fmin and fmax (compare `C45_traceable_partial`). -/
theorem C71_traceable (hal : ∀ k L, cfg.alloc k L ∉ L) (hs : s.Start stock) (hw : WF n S s) :
    ∃ s', Traced cfg stock s (S.compMM true n) s' (s'.hw + 1) := by
  rw [compMM_true]; exact C45_traceable_partial hal hs (wf_absForm hw) (noFminLL S)

/-- C71: there is no `min_op` on the trace. -/
theorem C71_no_min_op (h : Traced cfg stock s (S.compMM true n) s' N) : ∀ o ∈ s'.tape N, ∀ a b r k, o ≠ .minOp a b r k := by
  rw [compMM_true] at h
  have := Sparse.emits_tape h.alloc (P := Base.notMin) (fun _ _ => trivial) (fun _ _ => trivial) (fun _ _ => trivial) _
    (allStmts_mono (fun _ => emits_notMin) _ (src_notFmin _ (src_noFmin_absForm S))) h.start h.recorded N
  rintro o ho a b r k rfl
  exact this _ ho
end general

variable {cfg : RCfg ℝ} {stock : List (Nat × List ℝ)} {s s' : Rec ℝ} {S : Src ℝ} {n N : Nat}

/-- C71: in either mode the calls compute what the program means. -/
theorem C71_same_meaning (hw : WF n S s) (nmm : Bool) (x par : Nat → ℝ) : (S.compMM nmm n).spec x par s.se = S.sem x par s.se := by
  cases nmm
  · exact hw.spec x par
  · rw [compMM_true, (wf_absForm hw).spec, src_sem_absForm]

/-- C71: while tracing, the program computes what it computes on plain numbers, and its temporaries are gone at the end. -/
theorem C71_while_taping (h : Traced cfg stock s (S.compMM true n) s' N) (hw : WF n S s) :
    ∃ e b, S.sem cfg.x cfg.par s.se = some (e, b) ∧ (∀ v, (s'.env v).map s'.V = e.vars v) ∧ ∀ k, n ≤ k → s'.env k = none := by
  rw [compMM_true] at h
  have := C45_while_taping_partial h (wf_absForm hw) (noFminLL S)
  simpa only [src_sem_absForm] using this

/-- C71: at any point `x` where the comparisons of the program have the outcomes they had when it was recorded `zos_forward` returns the values of the program;
at any other it returns -1. -/
theorem C71_zos_forward (h : Traced cfg stock s (S.compMM true n) s' N) (hw : WF n S s) (x par : Nat → ℝ) (keep : Bool) :
    ∃ e0 b0 e b, S.sem cfg.x cfg.par s.se = some (e0, b0) ∧ S.sem x par s.se = some (e, b) ∧
      (b = b0 → ∃ z, zosRun ⟨x, par, keep⟩ (s'.tape N) ZS.init = .ok z ∧ z.y = e.ys) ∧
      (b ≠ b0 → retCode (zosRun ⟨x, par, keep⟩ (s'.tape N) ZS.init) = -1) := by
  rw [compMM_true] at h
  have := C45_zos_forward_partial h (wf_absForm hw) (noFminLL S) x par keep
  simpa only [src_sem_absForm] using this

theorem out_absForm (x par : Nat → ℝ) (e : SE ℝ) (j : Nat) : out S.absForm x par e j = out S x par e j := by
  unfold out; rw [src_sem_absForm]

/-- C71 (partial: at points where every function, fmin and comparison of the program is differentiable, as in C45): `fos_forward` returns the derivative of the program. -/
theorem C71_fos_forward_partial (h : Traced cfg stock s (S.compMM true n) s' N) (hw : WF n S s) (par : Nat → ℝ) (keep : Bool) {d : Nat} (x0 : Fin d → ℝ)
    {e0 e : SE ℝ} {b : List Bool} (hrec : S.sem cfg.x cfg.par s.se = .some (e0, b)) (hx : S.sem (ext x0) par s.se = .some (e, b))
    (hsm : S.dom (Dom.real .fwd) (ext x0) par s.se) :
    ∃ D : Nat → (Fin d → ℝ) →L[ℝ] ℝ,
      (∀ j, HasFDerivAt (fun x => out S (ext x) par s.se j) (D j) x0) ∧
      ∀ v : Fin d → ℝ, ∃ f, fosRun ⟨ext x0, par, keep⟩ (ext v) (s'.tape N) FS.init = .ok f ∧
        f.y = e.ys ∧ f.dy.length = e.ys.length ∧ ∀ j, f.dy[j]?.getD 0 = D j v := by
  rw [compMM_true] at h
  have := C45_fos_forward_partial h (wf_absForm hw) (noFminLL S) par keep x0 (e0 := e0) (e := e) (b := b)
    (by rw [src_sem_absForm]; exact hrec) (by rw [src_sem_absForm]; exact hx) (src_dom_absForm (real_le _) S _ hsm)
  simpa only [out_absForm] using this

/-- C71 (partial: as for `fos_forward`): `fos_reverse` returns the gradient of the program. -/
theorem C71_fos_reverse_partial (h : Traced cfg stock s (S.compMM true n) s' N) (hw : WF n S s) (hd : S.disc ⟨Set.univ, ∅⟩) (par : Nat → ℝ) {d : Nat} (x0 : Fin d → ℝ)
    {e0 e : SE ℝ} {b : List Bool} (hrec : S.sem cfg.x cfg.par s.se = .some (e0, b)) (hx : S.sem (ext x0) par s.se = .some (e, b)) (hi : e.ii = d)
    (hsm : S.dom (Dom.real .rev) (ext x0) par s.se) (u : Nat → ℝ) :
    ∃ z, zosRun ⟨ext x0, par, true⟩ (s'.tape N) ZS.init = .ok z ∧
    ∃ D : Nat → (Fin d → ℝ) →L[ℝ] ℝ,
      (∀ j, HasFDerivAt (fun x => out S (ext x) par s.se j) (D j) x0) ∧
      ∃ r, revRun u (s'.tape N) (RS.init d e.ys.length z.stk) = .ok r ∧ r.stk = [] ∧
        ∀ i : Fin d, r.bar i = ∑ j ∈ Finset.range e.ys.length, u j * D j (Pi.single i 1) := by
  rw [compMM_true] at h
  have := C45_fos_reverse_partial h (wf_absForm hw) (noFminLL S) (src_disc_absForm S hd) par x0 (e0 := e0) (e := e) (b := b)
    (by rw [src_sem_absForm]; exact hrec) (by rw [src_sem_absForm]; exact hx) hi (src_dom_absForm (real_le _) S _ hsm) u
  simpa only [out_absForm] using this

/-- C71, C47: the switching variables of the calls a program makes are those of the program. -/
theorem C71_switching_variables {s : Rec ℝ} {S : Src ℝ} {n : Nat} (hw : WF n S s) (nmm : Bool) (x par : Nat → ℝ) {R : SE ℝ × List Bool} (hx : S.sem x par s.se = some R) :
    (S.compMM nmm n).switches x par s.se = S.kinks nmm x par s.se := switches_compMM nmm S hw.unused' hw.fits hx

/-- C71: `abs_normal` of a program with fabs, fmin and fmax, at any point where its other functions are differentiable, kinks included: `y` are the values of the program, `z` the switching variables, and
`Y`, `J`, `Z`, `L` the derivatives of the switching function (C47). -/
theorem C71_abs_normal (h : Traced cfg stock s (S.compMM true n) s' N) (hw : WF n S s) (hd : S.disc ⟨Set.univ, ∅⟩) (par : Nat → ℝ) {d : Nat}
    (x0 : Fin d → ℝ) {e0 e : SE ℝ} {b : List Bool} (hrec : S.sem cfg.x cfg.par s.se = .some (e0, b)) (hx : S.sem (ext x0) par s.se = .some (e, b)) (hi : e.ii = d)
    (hsm : S.dom Dom.absN (ext x0) par s.se) {q : Nat} (hq : (S.kinks true (ext x0) par s.se).length = q)
    (w0 : Fin q → ℝ) (hw0 : ∀ k : Fin q, w0 k = |(S.kinks true (ext x0) par s.se)[(k : Nat)]?.getD 0|) (hpos : 0 < e.ys.length + q) :
    ∃ a, absNormal (s'.tape N) par true e.ys.length d q (ext x0) = .ok a ∧
      a.y = e.ys ∧ a.z = S.kinks true (ext x0) par s.se ∧
      (∀ j < e.ys.length, HasFDerivAt (fun b : (Fin d → ℝ) × (Fin q → ℝ) => (S.compMM true n).swOut (ext b.1) (ext b.2) par s.se j)
        (rowMap (a.Y j) (a.J j)) (x0, w0)) ∧
      (∀ k < q, HasFDerivAt (fun b : (Fin d → ℝ) × (Fin q → ℝ) => (S.compMM true n).swArg (ext b.1) (ext b.2) par s.se k)
        (rowMap (a.Z k) (a.L k)) (x0, w0)) ∧
      ∀ k l, k < q → l < q → k ≤ l → a.L k l = 0 := by
  rw [← C71_switching_variables hw true (ext x0) par hx] at *
  rw [compMM_true] at *
  have hw' := wf_absForm hw
  have hx' : S.absForm.sem (ext x0) par s.se = .some (e, b) := by rw [src_sem_absForm]; exact hx
  obtain ⟨e', h1, _⟩ := C32_values_while_taping_partial h (src_noFmin _ (noFminLL S))
  rw [hw'.spec, src_sem_absForm, hrec] at h1
  have hb : b = (S.absForm.comp n).path cfg s := by cases h1; rfl
  exact AbsNormal.C47_abs_normal_form h (src_disc _ hw'.fits (src_disc_absForm S hd) ⟨fun _ _ _ => trivial, fun _ _ h => h, fun _ _ h => h⟩) par x0 (e0 := e)
    (by rw [hw'.spec, hx', hb]) hi (okP_smoothAN _ (src_ok S.absForm hw'.unused' hw'.fits (src_dom_absForm absN_le S _ hsm) hx').2) hq w0 hw0 hpos

/-- C47 for source programs (no fmin and fmax): the switching variables are the arguments of `fabs` in the order in which the program evaluates them. -/
theorem C47_source_program (h : Traced cfg stock s (S.comp n) s' N) (hw : WF n S s) (hl : S.noFminLL) (hd : S.disc ⟨Set.univ, ∅⟩) (par : Nat → ℝ) {d : Nat}
    (x0 : Fin d → ℝ) {e0 e : SE ℝ} {b : List Bool} (hrec : S.sem cfg.x cfg.par s.se = .some (e0, b)) (hx : S.sem (ext x0) par s.se = .some (e, b)) (hi : e.ii = d)
    (hsm : S.dom Dom.absN' (ext x0) par s.se) {q : Nat} (hq : (S.kinks false (ext x0) par s.se).length = q)
    (w0 : Fin q → ℝ) (hw0 : ∀ k : Fin q, w0 k = |(S.kinks false (ext x0) par s.se)[(k : Nat)]?.getD 0|) (hpos : 0 < e.ys.length + q) :
    ∃ a, absNormal (s'.tape N) par true e.ys.length d q (ext x0) = .ok a ∧
      a.y = e.ys ∧ a.z = S.kinks false (ext x0) par s.se ∧
      (∀ j < e.ys.length, HasFDerivAt (fun b : (Fin d → ℝ) × (Fin q → ℝ) => (S.comp n).swOut (ext b.1) (ext b.2) par s.se j)
        (rowMap (a.Y j) (a.J j)) (x0, w0)) ∧
      (∀ k < q, HasFDerivAt (fun b : (Fin d → ℝ) × (Fin q → ℝ) => (S.comp n).swArg (ext b.1) (ext b.2) par s.se k)
        (rowMap (a.Z k) (a.L k)) (x0, w0)) ∧
      ∀ k l, k < q → l < q → k ≤ l → a.L k l = 0 := by
  have hk : (S.comp n).switches (ext x0) par s.se = S.kinks false (ext x0) par s.se := C71_switching_variables hw false (ext x0) par hx
  rw [← hk] at hq hw0 ⊢
  obtain ⟨e', h1, _⟩ := C32_values_while_taping_partial h (src_noFmin _ hl)
  rw [hw.spec, hrec] at h1
  have hb : b = (S.comp n).path cfg s := by cases h1; rfl
  exact AbsNormal.C47_abs_normal_form h (src_disc _ hw.fits hd ⟨fun _ _ _ => trivial, fun _ _ h => h, fun _ _ h => h⟩) par x0 (e0 := e)
    (by rw [hw.spec, hx, hb]) hi (okP_smoothAN _ (src_ok S hw.unused' hw.fits hsm hx).2) hq w0 hw0 hpos

/-! ### Which traces are affected -/

/-- The last `enableMinMaxUsingAbs` or `disableMinMaxUsingAbs` is an `enable`. -/
def enabledLast (L : List MMCall) : Prop := (L.filter fun c => c = .enable ∨ c = .disable).getLast? = some .enable

/-- C71: the form of fmin in a trace is determined by the last enable or disable before its `trace_on` (calls from functions called back by sweeps apart, see `C71_sweep_rejected`);
nothing called while the trace is written changes it. -/
theorem C71_mode (L M : List MMCall) (hL : ∀ c ∈ L, c ≠ .sweep) (h0 : (MM.init.run L).work = none) (hM : ∀ c ∈ M, c ≠ .traceOff) :
    ((MM.init.run (L ++ .traceOn :: M)).stat = true ↔ enabledLast L) ∧ (MM.init.run (L ++ .traceOn :: M)).work = some true := by
  have key : ∀ (L : List MMCall), (∀ c ∈ L, c ≠ .sweep) → ∀ s : MM, s.work ≠ some false → (s.run L).work ≠ some false ∧
      ((s.run L).flag = true ↔ enabledLast L ∨ ((∀ c ∈ L, c ≠ .enable ∧ c ≠ .disable) ∧ s.flag = true)) := by
    intro L
    induction L using List.reverseRecOn with
    | nil => intro _ s hs; exact ⟨hs, by simp [MM.run, enabledLast]⟩
    | append_singleton L c ih =>
      intro hL s hs
      obtain ⟨h1, h2⟩ := ih (fun c hc => hL c (by simp [hc])) s hs
      have h3 := hL c (by simp)
      rw [MM.run_append]
      simp only [MM.run]
      cases c <;> simp_all [MM.step, enabledLast, List.filter_append, or_imp, forall_and] <;> split_ifs <;> simp_all
  have run2 : ∀ (M : List MMCall), (∀ c ∈ M, c ≠ .traceOff) → ∀ s : MM, s.work = some true → (s.run M).stat = s.stat ∧ (s.run M).work = some true := by
    intro M
    induction M with
    | nil => intro _ s hs; exact ⟨rfl, hs⟩
    | cons c M ih =>
      intro hM s hs
      have h3 := hM c (by simp)
      have h4 : (s.step c).1.stat = s.stat ∧ (s.step c).1.work = some true := by cases c <;> simp_all [MM.step]
      obtain ⟨h5, h6⟩ := ih (fun c hc => hM c (by simp [hc])) _ h4.2
      exact ⟨h5.trans h4.1, h6⟩
  obtain ⟨k1, k2⟩ := key L hL MM.init (by simp [MM.init])
  rw [MM.run_append]
  simp only [MM.run]
  obtain ⟨r1, r2⟩ := run2 M hM ((MM.init.run L).step .traceOn).1 (by simp [MM.step, h0])
  refine ⟨?_, r2⟩
  rw [r1]
  simp only [MM.step, h0, if_true]
  rw [k2]; simp [MM.init]

/-- C71: a call from a function called back by a sweep is rejected and changes nothing. -/
theorem C71_sweep_rejected (s : MM) (h : s.work = some false) : s.step .enable = (s, false) ∧ s.step .disable = (s, false) := by
  simp [MM.step, h]

/-- C71: where the code and its message differ.  A call while a trace is written is not rejected ("change … during tracing …, not changing behaviour now"): it is accepted without a word, leaves this trace as it is and determines
the following one. -/
theorem C71_enable_while_tracing (s : MM) (h : s.work = some true) : (s.step .enable).2 = true ∧ (s.step .enable).1.stat = s.stat ∧
    (s.run [.enable, .traceOff, .traceOn]).stat = true := by
  simp [MM.step, MM.run, h]

/-! ### A program that meets the hypotheses, at ties -/

/-- `adouble a, b; a <<= …; b <<= …; adouble c = fmin(a, b); c += fmax(a * b, fabs(b)); c >>= …;` -/
def tie : Src ℝ :=
  .cmd (.decl 0) <| .cmd (.decl 1) <| .cmd (.indep 0) <| .cmd (.indep 1) <|
  .cmd (.declE 2 (.bin .fmin (.var 0) (.var 1))) <|
  .cmd (.acc .plus 2 (Ex.fmax (.bin .mult (.var 0) (.var 1)) (.un .fabs (.var 1)))) <|
  .cmd (.dep 2) .done

theorem tie_wf : WF 3 tie demoStart :=
  ⟨fun _ _ => rfl, by simp [tie, Src.fits, Cmd.fits, Ex.scoped, Ex.fmax, Ex.rv], by simp [tie, Src.wf, Cmd.wf, Cmd.alive, Ex.reads, Ex.fmax, Ex.rv, demoStart]⟩
theorem tie_disc : tie.disc ⟨Set.univ, ∅⟩ := by simp [tie, Src.disc, Cmd.disc, Cmd.discNext, Ex.reads, Ex.fmax, Ex.rv]

theorem tie_sem (x par : Nat → ℝ) : ∃ e, tie.sem x par demoStart.se = some (e, []) ∧ e.ii = 2 ∧ e.ys = [min (x 0) (x 1) + max (x 0 * x 1) |x 1|] := by
  have h1 : ∀ a b : ℝ, (if b < a then b else a) = min a b := fun a b => by
    split
    · rename_i h; rw [min_eq_right h.le]
    · rename_i h; rw [min_eq_left (not_lt.1 h)]
  have h2 : ∀ a b : ℝ, -(if -b < -a then -b else -a) = max a b := fun a b => by rw [h1, min_neg_neg, neg_neg]
  have h3 : ∀ a b : ℝ, -(if a < b then -b else -a) = max a b := fun a b => by rw [← h2]; simp
  simp [tie, Src.sem, Cmd.sem, Ex.ev, Ex.fmax, Ex.rv, demoStart, Rec.se, SE.set, SE.del, upd_apply, Bin.fn, Un.fn, Acc.fn, Elem.fabs, h1, min_neg_neg]

theorem tie_dom (x par : Nat → ℝ) : tie.dom Dom.absN x par demoStart.se := by
  simp [tie, Src.dom, Cmd.dom, Ex.dom, Ex.fmax, Ex.rv, Dom.absN, Dom.absN', Dom.real, Un.smooth]

theorem tie_kinks (x par : Nat → ℝ) : tie.kinks true x par demoStart.se = [x 0 - x 1, x 1, -(x 0 * x 1) - -|x 1|] ∧ tie.kinks false x par demoStart.se = [x 1] := by
  constructor <;> simp [tie, Src.kinks, Cmd.kinks, Ex.kinks, fabsArg, fminArg, Ex.ev, Ex.fmax, Ex.rv, Cmd.sem, demoStart, Rec.se, SE.set, SE.del, upd_apply, Bin.fn, Un.fn, Acc.fn, Elem.fabs]

/-- All hypotheses of the theorems hold, at every point, also where `x0 = x1`. -/
example : ∃ s' e0, Traced demoCfg [] demoStart (tie.compMM true 3) s' (s'.hw + 1) ∧ WF 3 tie demoStart ∧ tie.disc ⟨Set.univ, ∅⟩ ∧
    tie.sem demoCfg.x demoCfg.par demoStart.se = some (e0, []) ∧
    ∀ (par : Nat → ℝ) (x0 : Fin 2 → ℝ), (∃ e, tie.sem (ext x0) par demoStart.se = some (e, []) ∧ e.ii = 2 ∧ 0 < e.ys.length + 3) ∧
      tie.dom Dom.absN (ext x0) par demoStart.se ∧ (tie.kinks true (ext x0) par demoStart.se).length = 3 := by
  obtain ⟨s', h⟩ := C71_traceable demo_alloc demo_start tie_wf
  obtain ⟨e0, h0, _⟩ := tie_sem demoCfg.x demoCfg.par
  refine ⟨s', e0, h, tie_wf, tie_disc, h0, fun par x0 => ⟨?_, tie_dom _ _, by rw [(tie_kinks _ _).1]; rfl⟩⟩
  obtain ⟨e, h1, h2, _⟩ := tie_sem (ext x0) par
  exact ⟨e, h1, h2, by omega⟩

/-- `adouble a; a <<= …; adouble c = fabs(a); c += fabs(c - 1); c >>= …;` -/
def nest : Src ℝ :=
  .cmd (.decl 0) <| .cmd (.indep 0) <| .cmd (.declE 1 (.un .fabs (.var 0))) <|
  .cmd (.acc .plus 1 (.un .fabs (.bin .minus (.var 1) (.num 1)))) <| .cmd (.dep 1) .done

/-- The hypotheses of `C47_source_program`, at every point. -/
example : ∃ s' e0, Traced demoCfg [] demoStart (nest.comp 2) s' (s'.hw + 1) ∧ WF 2 nest demoStart ∧ nest.noFminLL ∧ nest.disc ⟨Set.univ, ∅⟩ ∧
    nest.sem demoCfg.x demoCfg.par demoStart.se = some (e0, []) ∧
    ∀ (par : Nat → ℝ) (x0 : Fin 1 → ℝ), (∃ e, nest.sem (ext x0) par demoStart.se = some (e, []) ∧ e.ii = 1 ∧ 0 < e.ys.length + 2) ∧
      nest.dom Dom.absN' (ext x0) par demoStart.se ∧ nest.kinks false (ext x0) par demoStart.se = [x0 0, |x0 0| - 1] := by
  have wf : WF 2 nest demoStart :=
    ⟨fun _ _ => rfl, by simp [nest, Src.fits, Cmd.fits, Ex.scoped], by simp [nest, Src.wf, Cmd.wf, Cmd.alive, Ex.reads, demoStart]⟩
  have hl : nest.noFminLL := by simp [nest, Src.noFminLL, Cmd.noFminLL, Ex.noFminLL]
  obtain ⟨s', h⟩ := C45_traceable_partial demo_alloc demo_start wf hl
  have hs : ∀ (x par : Nat → ℝ), ∃ e, nest.sem x par demoStart.se = some (e, []) ∧ e.ii = 1 := by
    intro x par
    simp [nest, Src.sem, Cmd.sem, Ex.ev, demoStart, Rec.se, SE.set, SE.del, upd_apply, Bin.fn, Un.fn, Acc.fn, Elem.fabs]
  obtain ⟨e0, h0, _⟩ := hs demoCfg.x demoCfg.par
  refine ⟨s', e0, h, wf, hl, by simp [nest, Src.disc, Cmd.disc, Cmd.discNext, Ex.reads], h0, fun par x0 => ⟨?_, ?_, ?_⟩⟩
  · obtain ⟨e, h1, h2⟩ := hs (ext x0) par
    exact ⟨e, h1, h2, by omega⟩
  · simp [nest, Src.dom, Cmd.dom, Ex.dom, Dom.absN', Dom.real]
  · simp [nest, Src.kinks, Cmd.kinks, Ex.kinks, fabsArg, fminArg, Ex.ev, Cmd.sem, demoStart, Rec.se, SE.set, SE.del, upd_apply, Bin.fn, Un.fn, Acc.fn, Elem.fabs, ext]

/-- The hypotheses of `C71_mode`: enable, a trace, disable and enable again while the next is written. -/
example : (∀ c ∈ [MMCall.enable, .traceOn, .traceOff], c ≠ .sweep) ∧ (MM.init.run [.enable, .traceOn, .traceOff]).work = none ∧ (∀ c ∈ [MMCall.disable], c ≠ .traceOff) ∧
    enabledLast [.enable, .traceOn, .traceOff] ∧ ¬ enabledLast [.enable, .disable] := by
  refine ⟨by simp, by simp [MM.run, MM.step, MM.init], by simp, by simp [enabledLast], by simp [enabledLast]⟩

end Verif.Props.NoMinMax
