import Verif.Drivers.LieMath
import Verif.Props.Interfaces
import Verif.Props.HORevVec
import Verif.Props.Ode

/-!
# C48: Lie derivatives

`F p s par n i` is the `i`-th output of the traced program as a function of its `n` inputs.  `lieD`, `lieW`, `lieAd`
(Verif/Drivers/LieMath.lean) are the Lie derivatives of functions, covector fields and vector fields.
-/
set_option linter.all false
namespace Verif.Props.Lie
open Verif.AD Verif.Props.AD Verif.Props.Drivers Verif.Drivers Elem Filter Topology ContDiff
open Verif.Props.HORevVec (noAbs hov_rows_path)
open Verif.Props.Interfaces (cached_identity)

variable {cfg : RCfg ℝ} {stock : List (Nat × List ℝ)} {s s' : Rec ℝ} {p : Prog ℝ} {N : Nat}
variable {cfg2 : RCfg ℝ} {stock2 : List (Nat × List ℝ)} {s2 s2' : Rec ℝ} {p2 : Prog ℝ} {N2 : Nat}

theorem F_smooth (h : Traced cfg stock s p s' N) (par : Nat → ℝ) {n : Nat} {x0 : Fin n → ℝ} {e0 : SE ℝ}
    (hspec : p.spec (ext x0) par s.se = some (e0, p.path cfg s)) (hsm : ∀ᶠ x in 𝓝 x0, p.smooth .ho (ext x) par s.se) (j : Nat) :
    SmG (F p s par n j) x0 := by
  have hev := (recorded_contDiff h.alloc p h.start h.recorded par x0 hspec hsm.self_of_nhds j).2
  filter_upwards [hev, hsm] with x hx hs
  obtain ⟨e, he, _⟩ := hx
  exact (recorded_contDiff h.alloc p h.start h.recorded par x he hs j).1

/-- `forodec` inside the drivers. -/
theorem forode_ok (h : Traced cfg stock s p s' N) (par : Nat → ℝ) {n : Nat} {x0 : Fin n → ℝ} {e0 : SE ℝ}
    (hspec : p.spec (ext x0) par s.se = some (e0, p.path cfg s)) (hys : e0.ys.length = n)
    (hsm : ∀ᶠ x in 𝓝 x0, p.smooth .ho (ext x) par s.se) {ξ : ℝ → Fin n → ℝ} (hξ : ContDiffAt ℝ ∞ ξ 0) (h0 : ξ 0 = x0)
    (hode : ∀ᶠ t in 𝓝 0, HasDerivAt ξ (fun i => F p s par n i (ξ t)) t) (d : Nat) (X0 : Nat → Nat → ℝ) :
    ∃ Y rows, forodec (tapeOf s' N par n n) 1 0 d (rowsN n (startX (ext x0) X0)) = .ok (Y, rows) ∧
      (∀ i : Fin n, ∀ k ≤ d, Y i k = tc (fun t => ξ t i) k) ∧ (0 < d → RowsOk s' N par d ξ rows) := by
  subst h0
  have hf : Formal p s par 1 d ξ := by
    intro k hk i
    have e : deriv (fun t => ξ t i) =ᶠ[𝓝 0] fun t => F p s par n i (ξ t) := by
      filter_upwards [hode] with t ht
      exact (hasDerivAt_pi.1 ht i).deriv
    have := tc_congr e k
    rw [tc_deriv] at this
    rw [this, one_mul]
  have e : rowsN n (startX (ext (ξ 0)) X0) = extX fun (i : Fin n) k => if k = 0 then ξ 0 i else X0 i k := by
    funext i k
    simp only [rowsN, startX, extX, ext]
    split_ifs <;> simp_all
  rw [e]
  exact forodec_formal h par (Nat.zero_le d) hξ hf hspec hys hsm _ fun i k hk => by
    have : k = 0 := by omega
    subst this
    simp

/-- `hov_reverse` with the identity, after a sweep along `ξ`. -/
theorem hovI_ok (h : Traced cfg stock s p s' N) (hd : p.disc ⟨Set.univ, ∅⟩) (par : Nat → ℝ) {n m : Nat} {x0 : Fin n → ℝ} {e0 : SE ℝ}
    (hspec : p.spec (ext x0) par s.se = some (e0, p.path cfg s)) (hn : e0.ii = n) (hys : e0.ys.length = m) (hm : 0 < m) (habs : m ≤ 1 ∨ noAbs p)
    (hsm : ∀ᶠ x in 𝓝 x0, p.smooth .hor (ext x) par s.se) {ξ : ℝ → Fin n → ℝ} (hξ : ContDiffAt ℝ ∞ ξ 0) (h0 : ξ 0 = x0)
    {k d : Nat} (hdk : d ≤ k) {X : Nat → Nat → ℝ} (hj : ∀ i, Jet k (fun t => ext (ξ t) i) (hcons (ext (ξ 0) i) (X i))) {H : HS ℝ}
    (hH : hosRun ⟨ext (ξ 0), X, par, k, d + 1⟩ (s'.tape N) HS.init = .ok H) {st : List (Nat → ℝ)}
    (hst : List.Forall₂ (fun a b : Nat → ℝ => ∀ q ≤ d, a q = b q) st H.stk) (c : RevI) :
    ∃ A, hovI (tapeOf s' N par n m) d st c = .ok A ∧ ∀ l < m, ∀ i : Fin n, ∀ e ≤ d,
      A l i e = tc (fun t => fderiv ℝ (F p s par n l) (ξ t) (Pi.single i 1)) e := by
  subst h0
  obtain ⟨H', g1, g2⟩ := hov_rows_path h hd par hdk hm habs ξ hξ.continuousAt X hj (fun l => lagr (ident (c.next m).depax l)) hspec hn
    (hξ.continuousAt.eventually hsm)
  rw [hH] at g1
  cases g1
  obtain ⟨V, v1, _, v2⟩ := g2 st hst
  rw [hys] at v1
  refine ⟨V.Z, ?_, fun l hl i e he => ?_⟩
  · unfold hovI
    simp only [tapeOf]
    rw [v1]
    rfl
  · rw [(v2 l hl i).1 e he]
    unfold tc
    congr 2
    funext t
    have hw : ∀ j, Verif.Props.HORev.weight d (lagr (ident (c.next m).depax l)) t j = ident (c.next m).depax l j := fun j => by
      simp [Verif.Props.HORev.weight, lagr, Finset.sum_ite_eq', ite_mul]
    rw [hys, Finset.sum_eq_single l]
    · rw [hw, cached_identity c hl hl, if_pos rfl, one_mul]; rfl
    · intro b hb hbl; rw [hw, cached_identity c hl (Finset.mem_range.1 hb), if_neg hbl, zero_mul]
    · intro hb; exact absurd (Finset.mem_range.2 hl) hb

/-- C48, `lie_scalar` (partial: restrictions on the elementary functions as C17, in a neighbourhood of the point).  For all traced programs
`F` (`n` inputs, `n` outputs) and `H` (`n` inputs, `m` outputs), every point on the recorded paths and every degree `d`, `result[j][k]` is the
`k`-th Lie derivative of `H_j` along `F`, whatever the work arrays contained. -/
theorem C48_lie_scalar_partial (h : Traced cfg stock s p s' N) (h2 : Traced cfg2 stock2 s2 p2 s2' N2) (par par2 : Nat → ℝ) {n m : Nat}
    (x0 : Fin n → ℝ) {e0 e2 : SE ℝ} (hspec : p.spec (ext x0) par s.se = some (e0, p.path cfg s)) (hys : e0.ys.length = n)
    (hspec2 : p2.spec (ext x0) par2 s2.se = some (e2, p2.path cfg2 s2)) (hys2 : e2.ys.length = m)
    (hsm : ∀ᶠ x in 𝓝 x0, p.smooth .ho (ext x) par s.se) (hsm2 : ∀ᶠ x in 𝓝 x0, p2.smooth .ho (ext x) par2 s2.se) (d : Nat) (X0 : Nat → Nat → ℝ) :
    ∃ R, lieScalar (tapeOf s' N par n n) (tapeOf s2' N2 par2 n m) d (ext x0) X0 = .ok R ∧
      ∀ j < m, ∀ k ≤ d, R j k = lieD (fun i : Fin n => F p s par n i) (F p2 s2 par2 n j) k x0 := by
  have hf : ∀ i : Fin n, SmG (F p s par n i) x0 := fun i => F_smooth h par hspec hsm i
  have hg := fun j : Nat => F_smooth h2 par2 hspec2 hsm2 j
  obtain ⟨ξ, Θ, a1, a2, a3, _⟩ := sol_exists (f := fun i : Fin n => F p s par n i) (M := fun _ _ _ => 0) (fun i => (hf i).self_of_nhds) (fun _ _ => contDiffAt_const)
  obtain ⟨Y, rows, b1, b2, _⟩ := forode_ok h par hspec hys hsm a2 a1 a3 d X0
  have ex : (fun i => rowsN n Y i 0) = ext (ξ 0) := by
    funext i
    simp only [rowsN, ext]
    split_ifs with hi
    · rw [b2 ⟨i, hi⟩ 0 (by omega)]; simp
    · rfl
  obtain ⟨H, c1, c2, c3, _⟩ := hos_pass h2 par2 (k := d) (keep := 0) (by omega) a2 (X := rowsN n (shiftL d Y))
    (fun i q hq => by simp only [rowsN, shiftL, i.2, if_true, hq]; exact b2 i (q + 1) (by omega))
    (fun i hi q hq => by simp only [rowsN]; rw [if_neg (by omega)]) (by rw [a1]; exact hspec2) (by rw [a1]; exact hsm2)
  refine ⟨fun j i => facK i * resY H j i, ?_, fun j hj k hk => ?_⟩
  · simp only [lieScalar]
    simp only [show (tapeOf s' N par n n).n = n from rfl, show (tapeOf s2' N2 par2 n m).par = par2 from rfl, show (tapeOf s2' N2 par2 n m).ops = s2'.tape N2 from rfl]
    rw [b1]
    simp only [sweep, Bind.bind, Except.bind]
    rw [ex, c1]
    rfl
  · beta_reduce
    rw [resY, c3 j (by omega) k hk, lieD_tc hf (hg j) a2 a1 a3 k, facK_eq]
    field_simp

theorem base_point {n d : Nat} {ξ : ℝ → Fin n → ℝ} {Y : Nat → Nat → ℝ} (hY : ∀ i : Fin n, ∀ k ≤ d, Y i k = tc (fun t => ξ t i) k) :
    (fun i => rowsN n Y i 0) = ext (ξ 0) := by
  funext i
  simp only [rowsN, ext]
  split_ifs with hi
  · rw [hY ⟨i, hi⟩ 0 (by omega)]; simp
  · rfl

theorem B_eq {n d : Nat} {M : Fin n → Fin n → (Fin n → ℝ) → ℝ} {ξ : ℝ → Fin n → ℝ} {Θ : ℝ → Fin n → Fin n → ℝ}
    (hM : ∀ i j, ContDiffAt ℝ ∞ (fun t => M i j (ξ t)) 0) (h0 : ∀ i j, Θ 0 i j = if i = j then 1 else 0)
    (hs : ∀ i j, ContDiffAt ℝ ∞ (fun t => Θ t i j) 0)
    (hd : ∀ i j, ∀ᶠ t in 𝓝 0, HasDerivAt (fun t => Θ t i j) (∑ l, M i l (ξ t) * Θ t l j) t)
    {A B : Nat → Nat → Nat → ℝ} (hA : ∀ i j : Fin n, ∀ k ≤ d, A i j k = tc (fun t => M i j (ξ t)) k)
    (hB : ∀ k ≤ d, ∀ i < n, ∀ j < n, B i j k = recur n 1 A B k i j) (i j : Fin n) (k : Nat) (hk : k ≤ d) :
    B i j k = tc (fun t => Θ t i j) (k + 1) := by
  have := recur_unique hB (theta_recur hM h0 hs hd hA) k hk i i.2 j j.2
  rw [this, dif_pos ⟨i.2, j.2⟩]

/-- C48, `lie_gradient` (partial: restrictions as C18 and C41, in a neighbourhood of the point; not for `d = 1`, see
`C48_gradient_order_one`).  `result[j][i][k]` is the derivative with respect to `x_i` of the `k`-th Lie derivative of `H_j` along `F`,
whatever the work arrays contained and whatever earlier calls have left in the cached identities. -/
theorem C48_lie_gradient_partial (h : Traced cfg stock s p s' N) (hdi : p.disc ⟨Set.univ, ∅⟩) (h2 : Traced cfg2 stock2 s2 p2 s2' N2)
    (hdi2 : p2.disc ⟨Set.univ, ∅⟩) (par par2 : Nat → ℝ) {n m : Nat}
    (x0 : Fin n → ℝ) {e0 e2 : SE ℝ} (hspec : p.spec (ext x0) par s.se = some (e0, p.path cfg s)) (hi : e0.ii = n) (hys : e0.ys.length = n)
    (hspec2 : p2.spec (ext x0) par2 s2.se = some (e2, p2.path cfg2 s2)) (hi2 : e2.ii = n) (hys2 : e2.ys.length = m)
    (hn : 0 < n) (hm : 0 < m) (habs : n ≤ 1 ∨ noAbs p) (habs2 : m ≤ 1 ∨ noAbs p2)
    (hsm : ∀ᶠ x in 𝓝 x0, p.smooth .hor (ext x) par s.se) (hsm2 : ∀ᶠ x in 𝓝 x0, p2.smooth .hor (ext x) par2 s2.se) {d : Nat} (hd : 2 ≤ d)
    (X0 : Nat → Nat → ℝ) (B0 D0 : Nat → Nat → Nat → ℝ) (c : RevI × RevI) :
    ∃ R, lieGradient (tapeOf s' N par n n) (tapeOf s2' N2 par2 n m) d (ext x0) X0 B0 D0 c = .ok R ∧
      ∀ j < m, ∀ i : Fin n, ∀ k ≤ d, R j i k = fderiv ℝ (lieD (fun i : Fin n => F p s par n i) (F p2 s2 par2 n j) k) x0 (Pi.single i 1) := by
  have hho : ∀ᶠ x in 𝓝 x0, p.smooth .ho (ext x) par s.se := hsm.mono fun x h => Prog.smooth_ho h
  have hho2 : ∀ᶠ x in 𝓝 x0, p2.smooth .ho (ext x) par2 s2.se := hsm2.mono fun x h => Prog.smooth_ho h
  have hf : ∀ i : Fin n, SmG (F p s par n i) x0 := fun i => F_smooth h par hspec hho i
  have hg := fun j : Nat => F_smooth h2 par2 hspec2 hho2 j
  obtain ⟨ξ, Θ, a1, a2, a3, a4, a5, a6⟩ := sol_exists (f := fun i : Fin n => F p s par n i)
    (M := fun i j x => fderiv ℝ (F p s par n i) x (Pi.single j 1)) (fun i => (hf i).self_of_nhds) (fun i j => ((hf i).part _).self_of_nhds)
  obtain ⟨Y, rows, b1, b2, b3⟩ := forode_ok h par hspec hys hho a2 a1 a3 d X0
  obtain ⟨X, H1, r1, r2, r3⟩ := b3 (by omega)
  obtain ⟨A, g1, g2⟩ := hovI_ok h hdi par hspec hi hys hn habs hsm a2 a1 (d := d - 1) (le_refl _) r1 (by rw [Nat.sub_add_cancel (by omega)]; exact r2) r3 c.1
  have ex := base_point b2
  obtain ⟨H, c1, c2, c3, _⟩ := hos_pass h2 par2 (k := d) (keep := d + 1) (by omega) a2 (X := rowsN n (shiftL d Y))
    (fun i q hq => by simp only [rowsN, shiftL, i.2, if_true, hq]; exact b2 i (q + 1) (by omega))
    (fun i hi q hq => by simp only [rowsN]; rw [if_neg (by omega)]) (by rw [a1]; exact hspec2) (by rw [a1]; exact hho2)
  obtain ⟨P, k1, k2⟩ := hovI_ok h2 hdi2 par2 hspec2 hi2 hys2 hm habs2 hsm2 a2 a1 (d := d) (le_refl _) c2 c1 (st := H.stk)
    (List.forall₂_same.2 fun _ _ _ _ => rfl) c.2
  have hB := B_eq (d := d - 1) (M := fun i j x => fderiv ℝ (F p s par n i) x (Pi.single j 1)) (fun i j => ((hf i).part _).comp_smooth a2 a1) a4 a5 a6
    (A := A) (fun i j k hk => g2 i i.2 j k hk) (accDense_recur n 1 (d - 1) A B0)
  refine ⟨fun l i j => facK j * accodeout m n d (accDense n 1 (d - 1) (fun _ => A) B0) P D0 l i j, ?_, fun j hj i k hk => ?_⟩
  · simp only [lieGradient]
    rw [if_neg (by omega)]
    simp only [show (tapeOf s' N par n n).n = n from rfl, show (tapeOf s2' N2 par2 n m).par = par2 from rfl,
      show (tapeOf s2' N2 par2 n m).ops = s2'.tape N2 from rfl, show (tapeOf s2' N2 par2 n m).m = m from rfl]
    rw [b1]
    simp only [sweep, Bind.bind, Except.bind]
    rw [g1]
    simp only [ex, if_neg (show ¬ d = 1 by omega), c1, hfwd, k1]
  · beta_reduce
    have hw := fun l : Fin n => ((hg j).part (Pi.single l 1))
    rw [accodeout_eq m n d _ P D0 k hk j hj i i.2,
      out_tc (fun l => (hw l).comp_smooth a2 a1) a4 a5 (C := fun l q => P j l q) i (fun l q hq => k2 j hj l q (by omega))
        (fun l q hq => hB l i q (by omega)),
      lieW_tc hf hw a2 a1 a3 a4 a6 i k, facK_eq, (lieW_grad hf (hg j) k i).self_of_nhds]
    field_simp

/-- C48, `lie_covector` (partial: as `lie_gradient`; not for `d = 1`, see `C48_covector_order_one`, and not for `d > 12`, see
`C48_covector_overflow`).  `result[i][k]` is component `i` of the `k`-th Lie derivative of the covector field `W` along `F`. -/
theorem C48_lie_covector_partial (h : Traced cfg stock s p s' N) (hdi : p.disc ⟨Set.univ, ∅⟩) (h2 : Traced cfg2 stock2 s2 p2 s2' N2)
    (par par2 : Nat → ℝ) {n : Nat}
    (x0 : Fin n → ℝ) {e0 e2 : SE ℝ} (hspec : p.spec (ext x0) par s.se = some (e0, p.path cfg s)) (hi : e0.ii = n) (hys : e0.ys.length = n)
    (hspec2 : p2.spec (ext x0) par2 s2.se = some (e2, p2.path cfg2 s2)) (hys2 : e2.ys.length = n)
    (hn : 0 < n) (habs : n ≤ 1 ∨ noAbs p)
    (hsm : ∀ᶠ x in 𝓝 x0, p.smooth .hor (ext x) par s.se) (hsm2 : ∀ᶠ x in 𝓝 x0, p2.smooth .ho (ext x) par2 s2.se) {d : Nat} (hd : 2 ≤ d) (hd12 : d ≤ 12)
    (X0 : Nat → Nat → ℝ) (B0 : Nat → Nat → Nat → ℝ) (R0 : Nat → Nat → ℝ) (yp : Nat → ℝ) (c : RevI) :
    ∃ R, lieCovector (tapeOf s' N par n n) (tapeOf s2' N2 par2 n n) d (ext x0) X0 B0 R0 yp c = .ok R ∧
      ∀ i : Fin n, ∀ k ≤ d, R i k = lieW (fun i : Fin n => F p s par n i) (fun i : Fin n => F p2 s2 par2 n i) k i x0 := by
  have hho : ∀ᶠ x in 𝓝 x0, p.smooth .ho (ext x) par s.se := hsm.mono fun x h => Prog.smooth_ho h
  have hf : ∀ i : Fin n, SmG (F p s par n i) x0 := fun i => F_smooth h par hspec hho i
  have hw := fun j : Fin n => F_smooth h2 par2 hspec2 hsm2 j
  obtain ⟨ξ, Θ, a1, a2, a3, a4, a5, a6⟩ := sol_exists (f := fun i : Fin n => F p s par n i)
    (M := fun i j x => fderiv ℝ (F p s par n i) x (Pi.single j 1)) (fun i => (hf i).self_of_nhds) (fun i j => ((hf i).part _).self_of_nhds)
  obtain ⟨Y, rows, b1, b2, b3⟩ := forode_ok h par hspec hys hho a2 a1 a3 d X0
  obtain ⟨X, H1, r1, r2, r3⟩ := b3 (by omega)
  obtain ⟨A, g1, g2⟩ := hovI_ok h hdi par hspec hi hys hn habs hsm a2 a1 (d := d - 1) (le_refl _) r1 (by rw [Nat.sub_add_cancel (by omega)]; exact r2) r3 c
  have ex := base_point b2
  obtain ⟨H, c1, c2, c3, _⟩ := hos_pass h2 par2 (k := d) (keep := d + 1) (by omega) a2 (X := rowsN n (shiftL d Y))
    (fun i q hq => by simp only [rowsN, shiftL, i.2, if_true, hq]; exact b2 i (q + 1) (by omega))
    (fun i hi q hq => by simp only [rowsN]; rw [if_neg (by omega)]) (by rw [a1]; exact hspec2) (by rw [a1]; exact hsm2)
  have hB := B_eq (d := d - 1) (M := fun i j x => fderiv ℝ (F p s par n i) x (Pi.single j 1)) (fun i j => ((hf i).part _).comp_smooth a2 a1) a4 a5 a6
    (A := A) (fun i j k hk => g2 i i.2 j k hk) (accDense_recur n 1 (d - 1) A B0)
  obtain ⟨R, s1, s2⟩ := acccov_eq n d hd12 (accDense n 1 (d - 1) (fun _ => A) B0) (fun i k => if d = 1 ∧ k = 1 then yp i else resY H i k) R0
  refine ⟨R, ?_, fun i k hk => ?_⟩
  · simp only [lieCovector]
    rw [if_neg (by omega)]
    simp only [show (tapeOf s' N par n n).n = n from rfl, show (tapeOf s2' N2 par2 n n).par = par2 from rfl,
      show (tapeOf s2' N2 par2 n n).ops = s2'.tape N2 from rfl]
    rw [b1]
    simp only [sweep, Bind.bind, Except.bind]
    rw [g1]
    simp only [ex, if_neg (show ¬ d = 1 by omega), c1, hfwd, s1, noOverflow]
  · rw [s2 k hk i i.2,
      out_tc (k := k) (fun l => (hw l).comp_smooth a2 a1) a4 a5 (C := fun i k => if d = 1 ∧ k = 1 then yp i else resY H i k)
        (B := accDense n 1 (d - 1) (fun _ => A) B0) i (fun l q hq => by
        beta_reduce
        rw [if_neg (by omega), resY, c3 l (by omega) q (by omega)])
        (fun l q hq => hB l i q (by omega)),
      lieW_tc hf hw a2 a1 a3 a4 a6 i k]
    field_simp

/-- C48, `lie_bracket` (partial: as `lie_gradient`; not for `d > 12`, see `C48_bracket_overflow`).  `result[i][k]` is component `i` of
the `k`-fold Lie bracket `ad_F^k G`. -/
theorem C48_lie_bracket_partial (h : Traced cfg stock s p s' N) (hdi : p.disc ⟨Set.univ, ∅⟩) (h2 : Traced cfg2 stock2 s2 p2 s2' N2)
    (par par2 : Nat → ℝ) {n : Nat}
    (x0 : Fin n → ℝ) {e0 e2 : SE ℝ} (hspec : p.spec (ext x0) par s.se = some (e0, p.path cfg s)) (hi : e0.ii = n) (hys : e0.ys.length = n)
    (hspec2 : p2.spec (ext x0) par2 s2.se = some (e2, p2.path cfg2 s2)) (hys2 : e2.ys.length = n)
    (hn : 0 < n) (habs : n ≤ 1 ∨ noAbs p)
    (hsm : ∀ᶠ x in 𝓝 x0, p.smooth .hor (ext x) par s.se) (hsm2 : ∀ᶠ x in 𝓝 x0, p2.smooth .ho (ext x) par2 s2.se) {d : Nat} (hd12 : d ≤ 12)
    (X0 : Nat → Nat → ℝ) (B0 : Nat → Nat → Nat → ℝ) (R0 : Nat → Nat → ℝ) (c : RevI) :
    ∃ R, lieBracket (tapeOf s' N par n n) (tapeOf s2' N2 par2 n n) d (ext x0) X0 B0 R0 c = .ok R ∧
      ∀ i : Fin n, ∀ k ≤ d, R i k = lieAd (fun i : Fin n => F p s par n i) (fun i : Fin n => F p2 s2 par2 n i) k i x0 := by
  have hho : ∀ᶠ x in 𝓝 x0, p.smooth .ho (ext x) par s.se := hsm.mono fun x h => Prog.smooth_ho h
  have hf : ∀ i : Fin n, SmG (F p s par n i) x0 := fun i => F_smooth h par hspec hho i
  have hw := fun j : Fin n => F_smooth h2 par2 hspec2 hsm2 j
  obtain ⟨ξ, Θ, a1, a2, a3, a4, a5, a6⟩ := sol_exists (f := fun i : Fin n => F p s par n i)
    (M := fun i j x => - fderiv ℝ (F p s par n j) x (Pi.single i 1)) (fun i => (hf i).self_of_nhds) (fun i j => ((hf j).part _).neg.self_of_nhds)
  obtain ⟨Y, rows, b1, b2, b3⟩ := forode_ok h par hspec hys hho a2 a1 a3 (d + 1) X0
  obtain ⟨X, H1, r1, r2, r3⟩ := b3 (by omega)
  obtain ⟨A, g1, g2⟩ := hovI_ok h hdi par hspec hi hys hn habs hsm a2 a1 (d := d) (le_refl _) r1 r2 r3 c
  set W : Fin n → Nat → ℝ := fun i k => shiftL d Y i k with hW
  have e1 : rowsN n (shiftL d Y) = extX W := by
    funext i k
    simp only [rowsN, extX, hW]
    split_ifs <;> rfl
  have hη0 : curve (d + 1) x0 W 0 = x0 := curve_zero _ _ _
  have hηs : ContDiffAt ℝ ∞ (curve (d + 1) x0 W) 0 := by
    refine contDiffAt_pi.2 fun i => ?_
    unfold curve
    exact contDiffAt_const.add (ContDiffAt.sum fun j _ => contDiffAt_const.mul (contDiffAt_id.pow _))
  have hηt : ∀ i : Fin n, ∀ q < d + 1, W i q = tc (fun t => curve (d + 1) x0 W t i) (q + 1) := by
    intro i q hq
    have := (curve_jet (d + 1) x0 W i).coef (q + 1) (by omega)
    simp only [ext, extX, i.2, dif_pos, hcons] at this
    exact this.symm
  have hag : ∀ i : Fin n, ∀ q ≤ d, tc (fun t => curve (d + 1) x0 W t i) q = tc (fun t => ξ t i) q := by
    intro i q hq
    cases q with
    | zero => simp only [tc_zero]; rw [hη0, a1]
    | succ q => rw [← hηt i q (by omega), hW]; simp only [shiftL]; rw [if_pos (by omega), b2 i (q + 1) (by omega)]
  obtain ⟨H, c1, c2, c3, _⟩ := hos_pass h2 par2 (k := d + 1) (keep := d + 2) (by omega) hηs (X := extX W)
    (fun i q hq => by rw [← hηt i q hq]; simp [extX])
    (fun i hi q hq => by simp only [extX]; rw [dif_neg (by omega)]) (by rw [hη0]; exact hspec2) (by rw [hη0]; exact hsm2)
  rw [hη0] at c1
  have c4 : ∀ j : Fin n, ∀ q ≤ d, resY H j q = tc (fun t => F p2 s2 par2 n j (ξ t)) q := by
    intro j q hq
    rw [resY, c3 j (by omega) q (by omega)]
    exact agree h2 par2 hηs a2 hag (by rw [hη0]; exact hspec2) (by rw [hη0]; exact hsm2) (by omega) hq
  have hB := B_eq (d := d) (M := fun i j x => - fderiv ℝ (F p s par n j) x (Pi.single i 1)) (fun i j => ((hf j).part _).neg.comp_smooth a2 a1) a4 a5 a6
    (A := fun i j k => - A j i k) (fun i j k hk => by rw [g2 j j.2 i k hk, tc_neg]) (accadj_recur n d A B0)
  obtain ⟨R, s1, s2⟩ := accbrac_eq n d hn hd12 (accadj n d A B0) (resY H) R0
  refine ⟨R, ?_, fun i k hk => ?_⟩
  · simp only [lieBracket]
    simp only [show (tapeOf s' N par n n).n = n from rfl, show (tapeOf s2' N2 par2 n n).par = par2 from rfl,
      show (tapeOf s2' N2 par2 n n).ops = s2'.tape N2 from rfl]
    rw [b1]
    simp only [sweep, Bind.bind, Except.bind]
    rw [g1]
    simp only [e1, c1, hfwd, s1, noOverflow]
  · have := out_tc (k := k) (fun l => (hw l).comp_smooth a2 a1) a4 a5 (C := resY H) i (fun l q hq => c4 l q (by omega))
        (fun l q hq => hB l i q (by omega))
    rw [lieAd_tc hf hw a2 a1 a3 a4 a6 i k] at this
    rw [s2 k hk i i.2, show ∑ q ∈ Finset.range k, ∑ l ∈ Finset.range n, accadj n d A B0 l i q * resY H l (k - (q + 1)) =
      ∑ q ∈ Finset.range k, ∑ l ∈ Finset.range n, resY H l (k - (q + 1)) * accadj n d A B0 l i q from
        Finset.sum_congr rfl fun q _ => Finset.sum_congr rfl fun l _ => mul_comm _ _, this]
    field_simp

/-! ### Where the drivers fail -/

/-- For `d = 1`, `lie_gradient` does not shift the coefficients of the solution (adolc_lie_c.cpp:303-311): the second sweep is run in the direction
`x0` instead of `F(x0)`, and `result[j][i][1]` differs from the derivative of the Lie derivative by `∂_i H_j'(x0) (x0 - F(x0))`. -/
theorem C48_gradient_order_one (h : Traced cfg stock s p s' N) (hdi : p.disc ⟨Set.univ, ∅⟩) (h2 : Traced cfg2 stock2 s2 p2 s2' N2)
    (hdi2 : p2.disc ⟨Set.univ, ∅⟩) (par par2 : Nat → ℝ) {n m : Nat}
    (x0 : Fin n → ℝ) {e0 e2 : SE ℝ} (hspec : p.spec (ext x0) par s.se = some (e0, p.path cfg s)) (hi : e0.ii = n) (hys : e0.ys.length = n)
    (hspec2 : p2.spec (ext x0) par2 s2.se = some (e2, p2.path cfg2 s2)) (hi2 : e2.ii = n) (hys2 : e2.ys.length = m)
    (hn : 0 < n) (hm : 0 < m) (habs : n ≤ 1 ∨ noAbs p) (habs2 : m ≤ 1 ∨ noAbs p2)
    (hsm : ∀ᶠ x in 𝓝 x0, p.smooth .hor (ext x) par s.se) (hsm2 : ∀ᶠ x in 𝓝 x0, p2.smooth .hor (ext x) par2 s2.se)
    (X0 : Nat → Nat → ℝ) (B0 D0 : Nat → Nat → Nat → ℝ) (c : RevI × RevI) :
    ∃ R, lieGradient (tapeOf s' N par n n) (tapeOf s2' N2 par2 n m) 1 (ext x0) X0 B0 D0 c = .ok R ∧
      ∀ j < m, ∀ i : Fin n, R j i 0 = fderiv ℝ (F p2 s2 par2 n j) x0 (Pi.single i 1) ∧
        R j i 1 = fderiv ℝ (lieD (fun i : Fin n => F p s par n i) (F p2 s2 par2 n j) 1) x0 (Pi.single i 1) +
          fderiv ℝ (fun x => fderiv ℝ (F p2 s2 par2 n j) x (Pi.single i 1)) x0 (fun l => x0 l - F p s par n l x0) := by
  have hho : ∀ᶠ x in 𝓝 x0, p.smooth .ho (ext x) par s.se := hsm.mono fun x h => Prog.smooth_ho h
  have hho2 : ∀ᶠ x in 𝓝 x0, p2.smooth .ho (ext x) par2 s2.se := hsm2.mono fun x h => Prog.smooth_ho h
  have hf : ∀ i : Fin n, SmG (F p s par n i) x0 := fun i => F_smooth h par hspec hho i
  have hg := fun j : Nat => F_smooth h2 par2 hspec2 hho2 j
  obtain ⟨ξ, Θ, a1, a2, a3, a4, a5, a6⟩ := sol_exists (f := fun i : Fin n => F p s par n i)
    (M := fun i j x => 0) (fun i => (hf i).self_of_nhds) (fun i j => contDiffAt_const)
  obtain ⟨Y, rows, b1, b2, b3⟩ := forode_ok h par hspec hys hho a2 a1 a3 1 X0
  obtain ⟨X, H1, r1, r2, r3⟩ := b3 (by omega)
  obtain ⟨A, g1, g2⟩ := hovI_ok h hdi par hspec hi hys hn habs hsm a2 a1 (d := 0) (le_refl _) r1 r2 r3 c.1
  have ex : (fun i => rowsN n Y i 0) = ext x0 := by rw [base_point b2, a1]
  have hη : ∀ t, curve 1 x0 (fun i _ => x0 i) t = fun i => x0 i + x0 i * t := fun t => by funext i; simp [curve]
  have hηd : HasDerivAt (curve 1 x0 fun i _ => x0 i) x0 0 := by
    refine hasDerivAt_pi.2 fun i => ?_
    simp only [hη]
    simpa using ((hasDerivAt_id (0:ℝ)).const_mul (x0 i)).const_add (x0 i)
  have hη0 : curve 1 x0 (fun i _ => x0 i) 0 = x0 := curve_zero _ _ _
  have hηs : ContDiffAt ℝ ∞ (curve 1 x0 fun i _ => x0 i) 0 := by
    refine contDiffAt_pi.2 fun i => ?_
    simp only [hη]
    exact contDiffAt_const.add (contDiffAt_const.mul contDiffAt_id)
  obtain ⟨H, c1, c2, c3, _⟩ := hos_pass h2 par2 (k := 1) (keep := 2) (by omega) hηs (X := rowsN n Y)
    (fun i q hq => by
      obtain rfl : q = 0 := by omega
      simp only [rowsN, i.2, if_true]
      rw [b2 i 0 (by omega), tc_zero, a1, tc]
      simp only [zero_add, iteratedDeriv_one, Nat.factorial_one, Nat.cast_one, div_one]
      exact ((hasDerivAt_pi.1 hηd i).deriv).symm)
    (fun i hi q hq => by simp only [rowsN]; rw [if_neg (by omega)]) (by rw [hη0]; exact hspec2) (by rw [hη0]; exact hho2)
  obtain ⟨P, k1, k2⟩ := hovI_ok h2 hdi2 par2 hspec2 hi2 hys2 hm habs2 hsm2 hηs hη0 (d := 1) (le_refl _) c2 c1 (st := H.stk)
    (List.forall₂_same.2 fun _ _ _ _ => rfl) c.2
  rw [hη0] at c1
  refine ⟨fun l i j => facK j * accodeout m n 1 (accDense n 1 0 (fun _ => A) B0) P D0 l i j, ?_, fun j hj i => ?_⟩
  · simp only [lieGradient]
    rw [if_neg (by omega)]
    simp only [show (tapeOf s' N par n n).n = n from rfl, show (tapeOf s2' N2 par2 n m).par = par2 from rfl,
      show (tapeOf s2' N2 par2 n m).ops = s2'.tape N2 from rfl, show (tapeOf s2' N2 par2 n m).m = m from rfl]
    rw [b1]
    simp only [sweep, Bind.bind, Except.bind, Nat.sub_self]
    rw [g1]
    simp only [ex, if_pos, c1, hfwd, k1]
  · have hB : ∀ l : Fin n, accDense n 1 0 (fun _ => A) B0 l i 0 = fderiv ℝ (F p s par n l) x0 (Pi.single i 1) := by
      intro l
      rw [accDense_recur n 1 0 A B0 0 (le_refl _) l l.2 i i.2]
      simp only [recur, Finset.range_zero, Finset.sum_empty, Nat.cast_zero, add_zero, div_one, one_mul]
      rw [g2 l l.2 i 0 (le_refl _), tc_zero, a1]
    have hw := (hg j).part (Pi.single i 1)
    constructor
    · beta_reduce
      rw [accodeout_eq m n 1 _ P D0 0 (by omega) j hj i i.2, k2 j hj i 0 (by omega), tc_zero, hη0]
      simp [facK]
    · have e1 := (lieW_grad hf (hg j) 1 i).self_of_nhds
      simp only [lieW] at e1
      have e2 : tc (fun t => fderiv ℝ (F p2 s2 par2 n j) (curve 1 x0 (fun i _ => x0 i) t) (Pi.single i 1)) 1 =
          fderiv ℝ (fun x => fderiv ℝ (F p2 s2 par2 n j) x (Pi.single i 1)) x0 x0 := by
        rw [tc]
        simp only [iteratedDeriv_one, Nat.factorial_one, Nat.cast_one, div_one]
        have := (hw.self_of_nhds).differentiableAt (by simp)
        rw [← hη0] at this
        have := (this.hasFDerivAt.comp_hasDerivAt 0 hηd).deriv
        rw [hη0] at this
        exact this
      beta_reduce
      rw [accodeout_eq m n 1 _ P D0 1 (by omega) j hj i i.2, k2 j hj i 1 (by omega), e2, ← e1]
      simp only [Finset.range_one, Finset.sum_singleton, zero_add, Nat.sub_self, facK, Nat.cast_zero, mul_one, one_mul]
      rw [Finset.sum_range, Finset.sum_congr rfl fun l _ => by rw [hB l, k2 j hj l 0 (by omega), tc_zero, hη0]]
      rw [show (fun l => x0 l - F p s par n l x0) = x0 - fun l : Fin n => F p s par n l x0 from rfl, map_sub]
      ring

/-- For `d = 1`, `lie_covector` uses instead of the derivative of `W` along `F` the uninitialised array `yp` (adolc_lie_c.cpp:398-416). -/
theorem C48_covector_order_one (h : Traced cfg stock s p s' N) (hdi : p.disc ⟨Set.univ, ∅⟩) (h2 : Traced cfg2 stock2 s2 p2 s2' N2)
    (par par2 : Nat → ℝ) {n : Nat}
    (x0 : Fin n → ℝ) {e0 e2 : SE ℝ} (hspec : p.spec (ext x0) par s.se = some (e0, p.path cfg s)) (hi : e0.ii = n) (hys : e0.ys.length = n)
    (hspec2 : p2.spec (ext x0) par2 s2.se = some (e2, p2.path cfg2 s2)) (hys2 : e2.ys.length = n)
    (hn : 0 < n) (habs : n ≤ 1 ∨ noAbs p)
    (hsm : ∀ᶠ x in 𝓝 x0, p.smooth .hor (ext x) par s.se) (hsm2 : ∀ᶠ x in 𝓝 x0, p2.smooth .ho (ext x) par2 s2.se)
    (X0 : Nat → Nat → ℝ) (B0 : Nat → Nat → Nat → ℝ) (R0 : Nat → Nat → ℝ) (yp : Nat → ℝ) (c : RevI) :
    ∃ R, lieCovector (tapeOf s' N par n n) (tapeOf s2' N2 par2 n n) 1 (ext x0) X0 B0 R0 yp c = .ok R ∧
      ∀ i : Fin n, R i 0 = F p2 s2 par2 n i x0 ∧
        R i 1 = yp i + ∑ l : Fin n, F p2 s2 par2 n l x0 * fderiv ℝ (F p s par n l) x0 (Pi.single i 1) := by
  have hho : ∀ᶠ x in 𝓝 x0, p.smooth .ho (ext x) par s.se := hsm.mono fun x h => Prog.smooth_ho h
  have hf : ∀ i : Fin n, SmG (F p s par n i) x0 := fun i => F_smooth h par hspec hho i
  obtain ⟨ξ, Θ, a1, a2, a3, a4, a5, a6⟩ := sol_exists (f := fun i : Fin n => F p s par n i)
    (M := fun i j x => 0) (fun i => (hf i).self_of_nhds) (fun i j => contDiffAt_const)
  obtain ⟨Y, rows, b1, b2, b3⟩ := forode_ok h par hspec hys hho a2 a1 a3 1 X0
  obtain ⟨X, H1, r1, r2, r3⟩ := b3 (by omega)
  obtain ⟨A, g1, g2⟩ := hovI_ok h hdi par hspec hi hys hn habs hsm a2 a1 (d := 0) (le_refl _) r1 r2 r3 c
  have ex : (fun i => rowsN n Y i 0) = ext x0 := by rw [base_point b2, a1]
  have hη : ∀ t, curve 1 x0 (fun i _ => x0 i) t = fun i => x0 i + x0 i * t := fun t => by funext i; simp [curve]
  have hηd : HasDerivAt (curve 1 x0 fun i _ => x0 i) x0 0 := by
    refine hasDerivAt_pi.2 fun i => ?_
    simp only [hη]
    simpa using ((hasDerivAt_id (0:ℝ)).const_mul (x0 i)).const_add (x0 i)
  have hη0 : curve 1 x0 (fun i _ => x0 i) 0 = x0 := curve_zero _ _ _
  have hηs : ContDiffAt ℝ ∞ (curve 1 x0 fun i _ => x0 i) 0 := by
    refine contDiffAt_pi.2 fun i => ?_
    simp only [hη]
    exact contDiffAt_const.add (contDiffAt_const.mul contDiffAt_id)
  obtain ⟨H, c1, c2, c3, _⟩ := hos_pass h2 par2 (k := 1) (keep := 2) (by omega) hηs (X := rowsN n Y)
    (fun i q hq => by
      obtain rfl : q = 0 := by omega
      simp only [rowsN, i.2, if_true]
      rw [b2 i 0 (by omega), tc_zero, a1, tc]
      simp only [zero_add, iteratedDeriv_one, Nat.factorial_one, Nat.cast_one, div_one]
      exact ((hasDerivAt_pi.1 hηd i).deriv).symm)
    (fun i hi q hq => by simp only [rowsN]; rw [if_neg (by omega)]) (by rw [hη0]; exact hspec2) (by rw [hη0]; exact hsm2)
  rw [hη0] at c1
  obtain ⟨R, q1, q2⟩ := acccov_eq n 1 (by omega) (accDense n 1 0 (fun _ => A) B0) (fun i k => if True ∧ k = 1 then yp i else resY H i k) R0
  have hH : ∀ l : Fin n, resY H l 0 = F p2 s2 par2 n l x0 := fun l => by rw [resY, c3 l (by omega) 0 (by omega), tc_zero, hη0]
  refine ⟨R, ?_, fun i => ⟨?_, ?_⟩⟩
  · simp only [lieCovector]
    rw [if_neg (by omega)]
    simp only [show (tapeOf s' N par n n).n = n from rfl, show (tapeOf s2' N2 par2 n n).par = par2 from rfl,
      show (tapeOf s2' N2 par2 n n).ops = s2'.tape N2 from rfl]
    rw [b1]
    simp only [sweep, Bind.bind, Except.bind, Nat.sub_self]
    rw [g1]
    simp only [ex, if_pos, c1, hfwd, q1, noOverflow]
  · rw [q2 0 (by omega) i i.2]
    simp [hH]
  · have hB : ∀ l : Fin n, accDense n 1 0 (fun _ => A) B0 l i 0 = fderiv ℝ (F p s par n l) x0 (Pi.single i 1) := by
      intro l
      rw [accDense_recur n 1 0 A B0 0 (le_refl _) l l.2 i i.2]
      simp only [recur, Finset.range_zero, Finset.sum_empty, Nat.cast_zero, add_zero, div_one, one_mul]
      rw [g2 l l.2 i 0 (le_refl _), tc_zero, a1]
    rw [q2 1 (by omega) i i.2]
    simp only [Finset.range_one, Finset.sum_singleton, zero_add, Nat.sub_self, Nat.factorial_one, Nat.cast_one, one_mul]
    rw [Finset.sum_range, Finset.sum_congr rfl fun l _ => by rw [hB l, if_neg (by omega), hH l]]
    simp

/-- For `d ≥ 13`, `lie_covector` computes `13!` in an `int` (adolc_lie_c.cpp:66-74): unless a sweep fails, the multiplication overflows, on every trace. -/
theorem C48_covector_overflow {K : Type} [Scalar K] (tF tW : Tape K) {d : Nat} (hd : 13 ≤ d) (x0 : Nat → K) (X0 : Nat → Nat → K)
    (B0 : Nat → Nat → Nat → K) (R0 : Nat → Nat → K) (yp : Nat → K) (c : RevI) :
    ∃ e, lieCovector tF tW d x0 X0 B0 R0 yp c = .error e ∧ (e = .overflow ∨ ∃ e', e = .sweep e') := by
  simp only [lieCovector]
  rw [if_neg (by omega)]
  simp only [acccov_overflow _ d hd, noOverflow]
  rcases forodec tF 1 0 d (rowsN tF.n (startX x0 X0)) with e | f
  · exact ⟨_, rfl, .inr ⟨_, rfl⟩⟩
  simp only [sweep, Bind.bind, Except.bind, hovI]
  rcases hrev _ with e | A
  · exact ⟨_, rfl, .inr ⟨_, rfl⟩⟩
  simp only []
  rcases hfwd _ with e | A
  · exact ⟨_, rfl, .inr ⟨_, rfl⟩⟩
  · exact ⟨_, rfl, .inl rfl⟩

/-- The same in `lie_bracket` (adolc_lie_c.cpp:139-147). -/
theorem C48_bracket_overflow {K : Type} [Scalar K] (tF tG : Tape K) {d : Nat} (hd : 13 ≤ d) (x0 : Nat → K) (X0 : Nat → Nat → K)
    (B0 : Nat → Nat → Nat → K) (R0 : Nat → Nat → K) (c : RevI) :
    ∃ e, lieBracket tF tG d x0 X0 B0 R0 c = .error e ∧ (e = .overflow ∨ ∃ e', e = .sweep e') := by
  simp only [lieBracket]
  simp only [accbrac_overflow _ d hd, noOverflow]
  rcases forodec tF 1 0 (d + 1) (rowsN tF.n (startX x0 X0)) with e | f
  · exact ⟨_, rfl, .inr ⟨_, rfl⟩⟩
  simp only [sweep, Bind.bind, Except.bind, hovI]
  rcases hrev _ with e | A
  · exact ⟨_, rfl, .inr ⟨_, rfl⟩⟩
  simp only []
  rcases hfwd _ with e | A
  · exact ⟨_, rfl, .inr ⟨_, rfl⟩⟩
  · exact ⟨_, rfl, .inl rfl⟩

/-! ### Concrete programs meeting the hypotheses -/

open Verif.Props.Ode (sys) in
/-- `x' = x y, y' = exp(x)` along itself, at every point. -/
example : ∃ s', Traced demoCfg [] demoStart sys s' (s'.hw + 1) ∧ sys.disc ⟨Set.univ, ∅⟩ ∧ noAbs sys ∧ ∀ x0 : Fin 2 → ℝ,
    (∃ e0, sys.spec (ext x0) (fun _ => 0) demoStart.se = some (e0, sys.path demoCfg demoStart) ∧ e0.ii = 2 ∧ e0.ys.length = 2) ∧
    ∀ b, ∀ᶠ x in 𝓝 x0, sys.smooth b (ext x) (fun _ => 0) demoStart.se := by
  have hspec : ∀ x par : Nat → ℝ, ∃ e, sys.spec x par demoStart.se = some (e, []) ∧ e.ii = 2 ∧ e.ys.length = 2 := by
    intro x par
    simp [sys, Prog.spec, Stmt.spec, demoStart, Rec.se, SE.set, SE.del, upd_apply, Bin.fn, Un.fn, Elem.exp, Cmp.holds]
  obtain ⟨e, h1, h2, h3⟩ := hspec demoCfg.x demoCfg.par
  obtain ⟨s', h4, h5⟩ := traced_exists (stock := []) demo_alloc demo_start
    (by simp [sys, Prog.noFminLL, Stmt.notFminLL]) h1
  refine ⟨s', h4, by simp [sys, Prog.disc, Stmt.disc, Stmt.discNext, Stmt.uses], ?_, fun x0 => ⟨?_, fun b => Eventually.of_forall fun x => ?_⟩⟩
  · simp [noAbs, sys, Verif.Sparse.allStmts, Verif.Sparse.emits, Bin.op, Un.op]
  · rw [h5]; exact hspec _ _
  · simp [sys, Prog.smooth, Stmt.smooth, Stmt.spec, demoStart, Rec.se, SE.set, SE.del, upd_apply, Bin.fn,
      Un.fn, Un.smooth, Elem.exp, Cmp.holds]

end Verif.Props.Lie
