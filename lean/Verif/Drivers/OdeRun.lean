import Verif.Drivers.Ode
import Verif.Props.Drivers

/-! `forodec` solves the recurrence for the Taylor coefficients of the solution. -/
set_option linter.all false
namespace Verif.Drivers
open Verif.AD Verif.Props.AD Verif.Props.Drivers Elem Filter Topology ContDiff

variable {cfg : RCfg ℝ} {stock : List (Nat × List ℝ)} {s s' : Rec ℝ} {p : Prog ℝ} {N : Nat}

theorem ext_smooth {n : Nat} {ξ : ℝ → Fin n → ℝ} (hξ : ContDiffAt ℝ ∞ ξ 0) (i : Nat) : ContDiffAt ℝ ∞ (fun t => ext (ξ t) i) 0 := by
  by_cases hi : i < n
  · simp only [ext, hi, dif_pos]
    exact contDiffAt_pi.1 hξ ⟨i, hi⟩
  · simp only [ext, hi, dif_neg, not_false_eq_true]; exact contDiffAt_const

theorem coord_smooth {n : Nat} {ξ : ℝ → Fin n → ℝ} (hξ : ContDiffAt ℝ ∞ ξ 0) (i : Fin n) : ContDiffAt ℝ ∞ (fun t => ξ t i) 0 :=
  contDiffAt_pi.1 hξ i

/-- One `hos_forward` along a curve. -/
theorem hos_pass (h : Traced cfg stock s p s' N) (par : Nat → ℝ) {n k keep : Nat} (hkk : keep ≤ k + 1)
    {ξ : ℝ → Fin n → ℝ} (hξ : ContDiffAt ℝ ∞ ξ 0) {X : Nat → Nat → ℝ}
    (hX : ∀ i : Fin n, ∀ m < k, X i m = tc (fun t => ξ t i) (m + 1)) (hX0 : ∀ i, n ≤ i → ∀ m < k, X i m = 0) {e0 : SE ℝ}
    (hspec : p.spec (ext (ξ 0)) par s.se = some (e0, p.path cfg s))
    (hsm : ∀ᶠ x in 𝓝 (ξ 0), p.smooth .ho (ext x) par s.se) :
    ∃ H, hosRun ⟨ext (ξ 0), X, par, k, keep⟩ (s'.tape N) HS.init = .ok H ∧
      (∀ i, Jet k (fun t => ext (ξ t) i) (hcons (ext (ξ 0) i) (X i))) ∧
      (∀ j < e0.ys.length, ∀ d ≤ k, (H.y[j]?.getD fun _ => 0) d = tc (fun t => F p s par n j (ξ t)) d) ∧
      (k = 0 → keep = 1 → ∃ z, zosRun ⟨ext (ξ 0), par, true⟩ (s'.tape N) ZS.init = .ok z ∧
        List.Forall₂ (fun a b : Nat → ℝ => ∀ q ≤ 0, a q = b q) (z.stk.map fun v _ => v) H.stk) := by
  have hj : ∀ i, Jet k (fun t => ext (ξ t) i) (hcons (ext (ξ 0) i) (X i)) := by
    intro i
    refine (Jet.of (ext_smooth hξ i)).coefs fun m hm => ?_
    cases m with
    | zero => simp [hcons]
    | succ m =>
      simp only [hcons]
      by_cases hi : i < n
      · have e := hX ⟨i, hi⟩ m (by omega)
        simp only [ext, hi, dif_pos]; exact e
      · rw [hX0 i (by omega) m (by omega)]
        simp only [ext, hi, dif_neg, not_false_eq_true]
        rw [tc_const]; simp
  obtain ⟨S', H, h1, h2, h3, h4, h5⟩ := recorded_jets h.alloc p h.start h.recorded (fun _ => 0) par hkk ξ hξ.continuousAt X hj
    hspec (hξ.continuousAt.eventually hsm) N
  refine ⟨H, h2, hj, fun j hjl d hd => ?_, ?_⟩
  · rw [List.getElem?_eq_getElem (by omega)]
    exact (((h3.yj j (by omega)).congr (h4 j)).coef d hd).symm
  · rintro rfl rfl
    refine ⟨S' 0, h1.self_of_nhds, ?_⟩
    obtain ⟨fs, q1, q2⟩ := h3.stk
    rw [q1, List.map_map]
    clear q1
    generalize H.stk = hl at q2
    induction q2 with
    | nil => exact .nil
    | cons hh _ ih =>
      refine .cons (fun q hq => ?_) ih
      have : q = 0 := by omega
      subst this
      exact hh.zero

/-- The coefficients of `F ∘ ξ` up to degree `k` depend only on those of `ξ`. -/
theorem agree (h : Traced cfg stock s p s' N) (par : Nat → ℝ) {n k : Nat}
    {ξ η : ℝ → Fin n → ℝ} (hξ : ContDiffAt ℝ ∞ ξ 0) (hη : ContDiffAt ℝ ∞ η 0)
    (he : ∀ i : Fin n, ∀ m ≤ k, tc (fun t => ξ t i) m = tc (fun t => η t i) m) {e0 : SE ℝ}
    (hspec : p.spec (ext (ξ 0)) par s.se = some (e0, p.path cfg s))
    (hsm : ∀ᶠ x in 𝓝 (ξ 0), p.smooth .ho (ext x) par s.se) {j : Nat} (hj : j < e0.ys.length) {d : Nat} (hd : d ≤ k) :
    tc (fun t => F p s par n j (ξ t)) d = tc (fun t => F p s par n j (η t)) d := by
  have h0 : η 0 = ξ 0 := by
    funext i
    have := he i 0 (by omega)
    simpa using this.symm
  obtain ⟨H, a1, _, a2, _⟩ := hos_pass h par (k := k) (keep := 0) (by omega) hξ (X := extX fun i m => tc (fun t => ξ t i) (m + 1))
    (fun i m _ => by simp [extX]) (fun i hi m _ => by simp [extX, Nat.not_lt.2 hi]) hspec hsm
  obtain ⟨H', b1, _, b2, _⟩ := hos_pass h par (k := k) (keep := 0) (by omega) hη (X := extX fun i m => tc (fun t => ξ t i) (m + 1))
    (fun i m hm => by simp [extX]; exact he i (m + 1) (by omega)) (fun i hi m _ => by simp [extX, Nat.not_lt.2 hi])
    (by rw [h0]; exact hspec) (by rw [h0]; exact hsm)
  rw [h0, a1] at b1
  cases b1
  rw [← a2 j hj d hd, b2 j hj d hd]

/-- The rows of values `forodec` leaves can be used by a `hos_reverse` of degree `deg - 1`. -/
def RowsOk (s' : Rec ℝ) (N : Nat) (par : Nat → ℝ) {n : Nat} (deg : Nat) (ξ : ℝ → Fin n → ℝ) (rows : List (Nat → ℝ)) : Prop :=
  ∃ X H, (∀ i, Jet (deg - 1) (fun t => ext (ξ t) i) (hcons (ext (ξ 0) i) (X i))) ∧
    hosRun ⟨ext (ξ 0), X, par, deg - 1, deg⟩ (s'.tape N) HS.init = .ok H ∧
    List.Forall₂ (fun a b : Nat → ℝ => ∀ q ≤ deg - 1, a q = b q) rows H.stk

/-- `ξ` solves `ξ' = tau F(ξ)` up to order `deg`. -/
def Formal (p : Prog ℝ) (s : Rec ℝ) (par : Nat → ℝ) {n : Nat} (tau : ℝ) (deg : Nat) (ξ : ℝ → Fin n → ℝ) : Prop :=
  ∀ d < deg, ∀ i : Fin n, ((d : ℝ) + 1) * tc (fun t => ξ t i) (d + 1) = tau * tc (fun t => F p s par n i (ξ t)) d

theorem ode_fold (h : Traced cfg stock s p s' N) (par : Nat → ℝ) {n deg : Nat} {tau : ℝ}
    {ξ : ℝ → Fin n → ℝ} (hξ : ContDiffAt ℝ ∞ ξ 0) (hf : Formal p s par tau deg ξ) {e0 : SE ℝ}
    (hspec : p.spec (ext (ξ 0)) par s.se = some (e0, p.path cfg s)) (hys : e0.ys.length = n)
    (hsm : ∀ᶠ x in 𝓝 (ξ 0), p.smooth .ho (ext x) par s.se) (len : Nat) :
    ∀ (j : Nat) (st : (Nat → Nat → ℝ) × List (Nat → ℝ)), 0 < j → j + len = deg →
    (∀ i : Fin n, ∀ m < j, st.1 i m = tc (fun t => ξ t i) (m + 1)) → (∀ i, n ≤ i → ∀ m, st.1 i m = 0) →
    ∃ st', (List.range' j len).foldlM (odePass (tapeOf s' N par n n) tau deg (ext (ξ 0))) st = .ok st' ∧
      (∀ i : Fin n, ∀ m < deg, st'.1 i m = tc (fun t => ξ t i) (m + 1)) ∧
      ((j = deg → RowsOk s' N par deg ξ st.2) → RowsOk s' N par deg ξ st'.2) := by
  induction len with
  | zero =>
    intro j st hj0 hj h1 h2
    exact ⟨st, rfl, fun i m hm => h1 i m (by omega), fun h => h (by omega)⟩
  | succ len ih =>
    intro j st hj0 hj h1 h2
    obtain ⟨H, a1, a2, a3, _⟩ := hos_pass h par (k := j) (keep := odeKeep deg j) (by unfold odeKeep; split_ifs <;> omega) hξ (X := st.1)
      (fun i m hm => h1 i m hm) (fun i hi m _ => h2 i hi m) hspec hsm
    have hp : odePass (tapeOf s' N par n n) tau deg (ext (ξ 0)) st j = .ok (fun i k => if i < n ∧ k = j then tau / (1 + (j : ℝ)) * (H.y[i]?.getD fun _ => 0) j else st.1 i k, H.stk) := by
      simp only [odePass, tapeOf, a1, hfwd, Bind.bind, Except.bind]
      rfl
    obtain ⟨st', b1, b2, b3⟩ := ih (j + 1)
      ((fun i k => if i < n ∧ k = j then tau / (1 + (j : ℝ)) * (H.y[i]?.getD fun _ => 0) j else st.1 i k, H.stk)) (by omega) (by omega)
      (fun i m hm => by
        show (if _ then _ else _) = _
        by_cases hmj : m = j
        · rw [if_pos ⟨i.2, hmj⟩, a3 i (by omega) j (le_refl _)]
          subst hmj
          have := hf m (by omega) i
          have hp : (0:ℝ) < 1 + (m : ℝ) := by positivity
          field_simp
          linarith
        · rw [if_neg (by tauto)]; exact h1 i m (by omega))
      (fun i hi m => by
        show (if _ then _ else _) = _
        rw [if_neg (by omega)]; exact h2 i hi m)
    refine ⟨st', ?_, b2, fun _ => b3 fun hj' => ?_⟩
    · rw [List.range'_succ, List.foldlM_cons, hp]
      exact b1
    · have e : deg - 1 = j := by omega
      have e2 : odeKeep deg j = deg := by unfold odeKeep; rw [if_pos hj']
      rw [e2] at a1
      refine ⟨st.1, H, by rw [e]; exact a2, by rw [e]; exact a1, ?_⟩
      exact List.forall₂_same.2 fun _ _ _ _ => rfl

theorem forodec_formal (h : Traced cfg stock s p s' N) (par : Nat → ℝ) {n deg dol : Nat} (hdd : dol ≤ deg) {tau : ℝ}
    {ξ : ℝ → Fin n → ℝ} (hξ : ContDiffAt ℝ ∞ ξ 0) (hf : Formal p s par tau deg ξ) {e0 : SE ℝ}
    (hspec : p.spec (ext (ξ 0)) par s.se = some (e0, p.path cfg s)) (hys : e0.ys.length = n)
    (hsm : ∀ᶠ x in 𝓝 (ξ 0), p.smooth .ho (ext x) par s.se) (Y : Fin n → Nat → ℝ)
    (hY : ∀ i, ∀ d ≤ dol, Y i d = tc (fun t => ξ t i) d) :
    ∃ Y' rows, forodec (tapeOf s' N par n n) tau dol deg (extX Y) = .ok (Y', rows) ∧
      (∀ i : Fin n, ∀ d ≤ deg, Y' i d = tc (fun t => ξ t i) d) ∧ (dol < deg → RowsOk s' N par deg ξ rows) := by
  have hy : (fun i => extX Y i 0) = ext (ξ 0) := by
    funext i
    simp only [extX, ext]
    split_ifs with hi
    · rw [hY ⟨i, hi⟩ 0 (by omega)]; simp
    · rfl
  have hback : ∀ (st : (Nat → Nat → ℝ) × List (Nat → ℝ)), (∀ i : Fin n, ∀ m < deg, st.1 i m = tc (fun t => ξ t i) (m + 1)) →
      ∀ i : Fin n, ∀ d ≤ deg, shiftR deg (ext (ξ 0)) st.1 i d = tc (fun t => ξ t i) d := by
    intro st hst i d hd
    unfold shiftR
    split_ifs with h1
    · subst h1; simp [ext]
    · rw [hst i (d - 1) (by omega), show d - 1 + 1 = d by omega]
  by_cases h0 : dol = 0
  · subst h0
    obtain ⟨H, a1, a2, a3, a4⟩ := hos_pass h par (k := 0) (keep := 1) (by omega) hξ (X := fun _ _ => 0)
      (fun i m hm => by omega) (fun i hi m _ => rfl) hspec hsm
    obtain ⟨z, hz, hzy⟩ := C09_zos_forward h (ext (ξ 0)) par (decide (odeKeep deg 0 ≠ 0)) hspec
    have hzv : ∀ i : Fin n, z.y[(i : Nat)]?.getD 0 = F p s par n i (ξ 0) := by
      intro i
      rw [hzy]
      simp only [F, Prog.out, hspec]
    set Y1 : Nat → Nat → ℝ := fun i k => if i < n ∧ k = 0 then tau / (1 + 0) * z.y[i]?.getD 0 else shiftL deg (extX Y) i k with hY1
    by_cases hdeg : deg = 0
    · subst hdeg
      refine ⟨shiftR 0 (ext (ξ 0)) Y1, z.stk.map fun v _ => v, ?_, hback (Y1, []) (fun i m hm => by omega), fun hh => by omega⟩
      simp only [forodec, if_true, hy, Tape.zos, tapeOf, hz, fwd, Bind.bind, Except.bind]
      rfl
    · have hi1 : ∀ i : Fin n, ∀ m < 1, Y1 i m = tc (fun t => ξ t i) (m + 1) := by
        intro i m hm
        have : m = 0 := by omega
        subst this
        simp only [hY1, i.2, true_and, if_true]
        rw [hzv]
        have := hf 0 (by omega) i
        simp only [tc_zero] at this
        push_cast at this
        rw [add_zero, div_one, ← this]; ring
      have hi2 : ∀ i, n ≤ i → ∀ m, Y1 i m = 0 := by
        intro i hi m
        simp only [hY1]
        rw [if_neg (by omega)]
        simp [shiftL, extX, Nat.not_lt.2 hi]
      obtain ⟨st', b1, b2, b3⟩ := ode_fold h par hξ hf hspec hys hsm (deg - 1) 1 (Y1, z.stk.map fun v _ => v) (by omega) (by omega) hi1 hi2
      refine ⟨shiftR deg (ext (ξ 0)) st'.1, st'.2, ?_, hback st' b2, fun hh => b3 fun h1 => ?_⟩
      · refine Eq.trans (b := Except.bind ((List.range' 1 (deg - 1)).foldlM (odePass (tapeOf s' N par n n) tau deg (ext (ξ 0))) (Y1, z.stk.map fun v _ => v))
          fun v => .ok (shiftR deg (ext (ξ 0)) v.1, v.2)) ?_ (by rw [b1]; rfl)
        simp only [forodec, if_true, hy, Tape.zos, tapeOf, hz, fwd, Bind.bind, Except.bind]
        rfl
      · subst h1
        refine ⟨_, H, a2, a1, ?_⟩
        obtain ⟨z', c1, c2⟩ := a4 rfl rfl
        simp only [odeKeep] at hz
        simp at hz
        rw [hz] at c1
        cases c1
        exact c2
  · have hi1 : ∀ i : Fin n, ∀ m < dol, shiftL deg (extX Y) i m = tc (fun t => ξ t i) (m + 1) := by
      intro i m hm
      simp only [shiftL, extX, i.2, dif_pos]
      rw [if_pos (by omega)]
      exact hY i (m + 1) (by omega)
    have hi2 : ∀ i, n ≤ i → ∀ m, shiftL deg (extX Y) i m = 0 := by
      intro i hi m
      simp [shiftL, extX, Nat.not_lt.2 hi]
    obtain ⟨st', b1, b2, b3⟩ := ode_fold h par hξ hf hspec hys hsm (deg - dol) dol (shiftL deg (extX Y), []) (by omega) (by omega) hi1 hi2
    refine ⟨shiftR deg (ext (ξ 0)) st'.1, st'.2, ?_, hback st' b2, fun hh => b3 fun h1 => by omega⟩
    simp only [forodec, h0, if_false, hy, Bind.bind, Except.bind]
    rw [b1]

end Verif.Drivers
