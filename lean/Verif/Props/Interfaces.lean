import Verif.Drivers.Interfaces
import Verif.Props.HORevVec
import Verif.Props.Drivers

/-!
Property C46: the overloaded calls `forward` and `reverse`.

Reading guide.  `forward t m n d keep X Y` is the call on the trace `t`; its first component is the caller's array `X` afterwards.
`path d X` is the curve `t ↦ ∑_{k ≤ d} X[i][k] t^k`.  `Traced`, `Prog.out`: see `Props/AD.lean`.
-/
set_option linter.all false
namespace Verif.Props.Interfaces
open Verif.AD Verif.Props.AD Verif.Props.HO Verif.Props.HORev Verif.Drivers Verif.Props.Drivers Elem Topology Filter
open scoped ContDiff

/-- The curve with the coefficients `X[i][0 … d]`. -/
noncomputable def path {n : Nat} (d : Nat) (X : Nat → Nat → ℝ) (t : ℝ) : Fin n → ℝ := fun i => ∑ k ∈ Finset.range (d + 1), X i k * t ^ k

theorem path_curve {n : Nat} (d : Nat) (X : Nat → Nat → ℝ) : (path d X : ℝ → Fin n → ℝ) = curve d (fun i => X i 0) (fun i k => X i (k + 1)) := by
  funext t i
  simp only [path, curve]
  rw [Finset.sum_range_succ']
  simp [add_comm]

theorem path_zero {n : Nat} (d : Nat) (X : Nat → Nat → ℝ) : (path d X 0 : Fin n → ℝ) = fun i : Fin n => X i 0 := by rw [path_curve, curve_zero]

variable {cfg : RCfg ℝ} {stock : List (Nat × List ℝ)} {s s' : Rec ℝ} {p : Prog ℝ} {N : Nat}

/-- What the sweep inside the call returns. -/
theorem sweep_ok (h : Traced cfg stock s p s' N) (par : Nat → ℝ) {n d keep : Nat} (hk : keep ≤ d + 1) (X : Nat → Nat → ℝ) {e0 : SE ℝ}
    (hspec : p.spec (ext (fun i : Fin n => X i 0)) par s.se = some (e0, p.path cfg s))
    (hsm : ∀ᶠ t in 𝓝 0, p.smooth .ho (ext (path d X t : Fin n → ℝ)) par s.se) :
    ∃ w, callSweep (tapeOf s' N par n e0.ys.length) e0.ys.length n d keep (prepIn n d X).1 (prepIn n d X).2.1 (prepIn n d X).2.2 = .ok w ∧
      ∀ j < e0.ys.length, w.y j = p.out (ext (fun i : Fin n => X i 0)) par s.se j ∧
        ∀ k < d, w.Y j k = iteratedDeriv (k + 1) (fun t => p.out (ext (path d X t : Fin n → ℝ)) par s.se j) 0 / (k + 1).factorial := by
  have e1 : (prepIn n d X).1 = ext (fun i : Fin n => X i 0) := by
    rw [prepIn_eq]; funext i; simp only [ext]; split_ifs <;> rfl
  have hout : ∀ j, p.out (ext (fun i : Fin n => X i 0)) par s.se j = e0.ys[j]?.getD 0 := fun j => by simp [Prog.out, hspec]
  by_cases h0 : d = 0
  · subst h0
    obtain ⟨z, hz, hy⟩ := C09_zos_forward h (ext (fun i : Fin n => X i 0)) par (decide (0 < keep)) hspec
    refine ⟨_, by rw [callSweep, if_neg (by simp [tapeOf]), if_pos rfl, if_neg (by omega), e1]; simp only [tapeOf, hz]; rfl, fun j hj => ⟨?_, fun k hk => absurd hk (by omega)⟩⟩
    simp only [hout, hy]
  by_cases h1 : d = 1
  · subst h1
    have e2 : (prepIn n 1 X).2.1 = ext (fun i : Fin n => X i 1) := by
      rw [prepIn_eq]; funext i; simp only [ext, and_true]; split_ifs <;> rfl
    have hp0 : (path 1 X 0 : Fin n → ℝ) = fun i : Fin n => X i 0 := path_zero 1 X
    have hsm0 := hsm.self_of_nhds
    rw [hp0] at hsm0
    obtain ⟨D, d1, d2⟩ := C11_fos_forward_partial h par (decide (0 < keep)) (fun i : Fin n => X i 0) hspec (Prog.smooth_fwd (Prog.smooth_rev hsm0))
    obtain ⟨f, g1, g2, g3, g4⟩ := d2 (fun i => X i 1)
    refine ⟨_, by rw [callSweep, if_neg (by simp [tapeOf]), if_neg (by omega), if_pos rfl, if_neg (by omega), e1, e2]; simp only [tapeOf, g1]; rfl, fun j hj => ⟨?_, fun k hk => ?_⟩⟩
    · simp only [hout, g2]
    · obtain rfl : k = 0 := by omega
      simp only [g4, zero_add, iteratedDeriv_one, Nat.factorial_one, Nat.cast_one, div_one]
      have hl : HasDerivAt (path 1 X : ℝ → Fin n → ℝ) (fun i => X i 1) 0 := by
        refine hasDerivAt_pi.2 fun i => ?_
        have : (fun t => path (n := n) 1 X t i) = fun t => X i 0 + t * X i 1 := by funext t; simp [path, Finset.sum_range_succ, mul_comm]
        rw [this]
        simpa using ((hasDerivAt_id (0:ℝ)).mul_const (X i 1)).const_add (X i 0)
      have hD := d1 j
      rw [← hp0] at hD
      exact (hD.comp_hasDerivAt 0 hl).deriv.symm
  · rw [path_curve] at hsm
    obtain ⟨H, g1, g2, g3⟩ := C17_hos_forward_partial h par (k := d) hk (fun i : Fin n => X i 0) (fun i k => X i (k + 1)) hspec hsm
    have e2 : hosRun ⟨ext (fun i : Fin n => X i 0), fun i => if i < n then (prepIn n d X).2.2 i else fun _ => 0, par, d, keep⟩ (s'.tape N) HS.init =
        hosRun ⟨ext (fun i : Fin n => X i 0), fun i => if i < n then (fun k => if k < d then X i (k + 1) else X i k) else fun _ => 0, par, d, keep⟩ (s'.tape N) HS.init := by
      congr 2; funext i; by_cases hi : i < n
      · simp only [hi, if_true, prepIn_eq]; funext k; simp [hi, h1]
      · simp [hi]
    obtain ⟨H', g1', g2', g3'⟩ := C17_hos_forward_partial h par (k := d) hk (fun i : Fin n => X i 0) (fun i k => if k < d then X i (k + 1) else X i k) hspec (by
      refine hsm.mono fun t ht => ?_
      have : curve d (fun i : Fin n => X i 0) (fun i k => if k < d then X i (k + 1) else X i k) t = curve d (fun i => X i 0) (fun i k => X i (k + 1)) t := by
        funext i; simp only [curve]; congr 1
        exact Finset.sum_congr rfl fun k hk => by rw [if_pos (Finset.mem_range.1 hk)]
      rw [this]; exact ht)
    have e3 : extX (fun (i : Fin n) k => if k < d then X i (k + 1) else X i k) = fun i => if i < n then (fun k => if k < d then X i (k + 1) else X i k) else fun _ => 0 := by
      funext i; simp only [extX]; split_ifs <;> rfl
    rw [e3, ← e2] at g1'
    have hcv : curve d (fun i : Fin n => X i 0) (fun i k => if k < d then X i (k + 1) else X i k) = path d X := by
      rw [path_curve]; funext t i; simp only [curve]; congr 1
      exact Finset.sum_congr rfl fun k hk => by rw [if_pos (Finset.mem_range.1 hk)]
    refine ⟨_, by rw [callSweep, if_neg (by simp [tapeOf]), if_neg h0, if_neg h1, e1]; simp only [tapeOf, g1']; rfl, fun j hj => ?_⟩
    have hj' : j < H'.y.length := by omega
    have hg := (g3' j hj').2
    rw [hcv] at hg
    simp only [List.getElem?_eq_getElem hj', Option.getD_some]
    refine ⟨?_, fun k hk => hg (k + 1) (by omega)⟩
    have := hg 0 (by omega)
    simpa [path_zero] using this

/-- C46 (partial: as C17, no `cbrt` and no `pow` at base 0).  `forward(tag, m, n, d, keep, X, Y)` for every degree `d ≥ 0`: `Y[j][k]` becomes the `k`-th Taylor coefficient of
`F_j` along the curve with coefficients `X`, nothing else is written, and `X` is left as it was. -/
theorem C46_forward_partial (h : Traced cfg stock s p s' N) (par : Nat → ℝ) {n d keep : Nat} (hk : keep ≤ d + 1) (X Y : Nat → Nat → ℝ) {e0 : SE ℝ}
    (hspec : p.spec (ext (fun i : Fin n => X i 0)) par s.se = some (e0, p.path cfg s))
    (hsm : ∀ᶠ t in 𝓝 0, p.smooth .ho (ext (path d X t : Fin n → ℝ)) par s.se) :
    ∃ Y' kept, forward (tapeOf s' N par n e0.ys.length) e0.ys.length n d keep X Y = (X, .ok (Y', kept)) ∧
      ∀ j k, Y' j k = if j < e0.ys.length ∧ k ≤ d then iteratedDeriv k (fun t => p.out (ext (path d X t : Fin n → ℝ)) par s.se j) 0 / k.factorial else Y j k := by
  obtain ⟨w, h1, h2⟩ := sweep_ok h par hk X hspec hsm
  refine ⟨prepOut e0.ys.length d w (written e0.ys.length d w Y), w.kept, ?_, fun j k => ?_⟩
  · simp only [forward, h1, restore_prep]
  · rw [prepOut_eq]; beta_reduce
    by_cases hj : j < e0.ys.length ∧ k ≤ d
    · rw [if_pos hj, if_pos hj]
      obtain ⟨hj, hk⟩ := hj
      cases k with
      | zero => simp [(h2 j hj).1, path_zero]
      | succ k =>
        rw [if_neg (by omega), ← (h2 j hj).2 k (by omega)]
        by_cases hd : d = 1
        · rw [if_pos hd]; congr 1; omega
        · rw [if_neg hd]; simp only [written, Nat.add_sub_cancel]; rw [if_pos ⟨by omega, hj, by omega⟩]
    · rw [if_neg hj, if_neg hj]
      simp only [written]
      rw [if_neg]; rintro ⟨_, h3, h4⟩; exact hj ⟨h3, by omega⟩

/-- C46 (partial: as above) for one dependent and a one-dimensional `Y`. -/
theorem C46_forward_scalar_partial (h : Traced cfg stock s p s' N) (par : Nat → ℝ) {n d keep : Nat} (hk : keep ≤ d + 1) (X Y : Nat → Nat → ℝ) {e0 : SE ℝ}
    (hspec : p.spec (ext (fun i : Fin n => X i 0)) par s.se = some (e0, p.path cfg s)) (hm : e0.ys.length = 1)
    (hsm : ∀ᶠ t in 𝓝 0, p.smooth .ho (ext (path d X t : Fin n → ℝ)) par s.se) :
    ∃ Y' kept, forward1 (tapeOf s' N par n 1) 1 n d keep X Y = (X, .ok (Y', kept)) ∧
      ∀ k, Y' 0 k = if k ≤ d then iteratedDeriv k (fun t => p.out (ext (path d X t : Fin n → ℝ)) par s.se 0) 0 / k.factorial else Y 0 k := by
  obtain ⟨w, h1, h2⟩ := sweep_ok h par hk X hspec hsm
  rw [hm] at h1 h2
  refine ⟨_, w.kept, by rw [forward1, if_pos rfl]; simp only [h1, restore_prep]; rfl, fun k => ?_⟩
  simp only [put2, shiftUp_eq]
  have h0 := h2 0 (by omega)
  cases k with
  | zero => simp [h0.1, path_zero]
  | succ k =>
    simp only [Nat.succ_ne_zero, and_false, if_false, true_and, Nat.add_sub_cancel]
    by_cases hk : k + 1 ≤ d
    · rw [if_pos ⟨by omega, hk⟩, if_pos hk, ← h0.2 k (by omega)]
      by_cases hd : d = 1
      · obtain rfl : k = 0 := by omega
        simp [hd, put2]
      · simp only [if_neg hd, written]; rw [if_pos ⟨by omega, by omega, by omega⟩]
    · rw [if_neg (by omega), if_neg hk]
      by_cases hd : d = 1
      · simp [hd, put2]
      · simp only [if_neg hd, written]; rw [if_neg (by omega)]

/-- `forward` with a branch switch (or a changed quadrature) returns the negative code and leaves `X` as it was, on every trace. -/
theorem C46_negative_code (t : Tape ℝ) (m n d keep : Nat) (X Y X' : Nat → Nat → ℝ) (rc : Int) (h : forward t m n d keep X Y = (X', .error (.ret rc))) : X' = X := by
  simp only [forward] at h
  split at h
  · cases h
  · injection h with h1 h2; rw [← h1]; exact restore_prep n d X
  · injection h with h1 h2; cases h2

/-- What is missing: a call with wrong counts throws, and for degree 2 or more it has shifted the caller's `X`: the values `X[i][0]` are lost. -/
theorem C46_thrown_loses_X (t : Tape ℝ) (m n d keep : Nat) (X Y : Nat → Nat → ℝ) (hm : m ≠ t.m ∨ n ≠ t.n) (hd : 2 ≤ d) :
    forward t m n d keep X Y = (fun i k => if i < n ∧ k < d then X i (k + 1) else X i k, .error .thrown) := by
  simp only [forward, callSweep, if_pos hm, prepIn_eq]
  congr 1; funext i k
  have : d ≠ 1 := by omega
  simp [this]

/-- C46 (partial: as C18).  `forward` with `keep = d + 1`, then `reverse(tag, m, n, d, u, Z)`, `d ≥ 0`: `Z[i][q]` is the `q`-th Taylor coefficient of `∑_j u_j ∂F_j/∂x_i` along the curve. -/
theorem C46_reverse_partial (h : Traced cfg stock s p s' N) (hdi : p.disc ⟨Set.univ, ∅⟩) (par : Nat → ℝ) {n d : Nat} (X Y : Nat → Nat → ℝ) (u : Nat → ℝ) {e0 : SE ℝ}
    (hspec : p.spec (ext (fun i : Fin n => X i 0)) par s.se = some (e0, p.path cfg s)) (hn : e0.ii = n)
    (hsm : ∀ᶠ t in 𝓝 0, p.smooth .hor (ext (path d X t : Fin n → ℝ)) par s.se) :
    ∃ Y' kept Z, forward (tapeOf s' N par n e0.ys.length) e0.ys.length n d (d + 1) X Y = (X, .ok (Y', kept)) ∧
      reverse (tapeOf s' N par n e0.ys.length) d u kept = .ok Z ∧
      ∀ i : Fin n, ∀ q ≤ d, Z i q = iteratedDeriv q (fun t => ∑ j ∈ Finset.range e0.ys.length,
        u j * fderiv ℝ (fun x => p.out (ext x) par s.se j) (path d X t) (Pi.single i 1)) 0 / q.factorial := by
  have e1 : (prepIn n d X).1 = ext (fun i : Fin n => X i 0) := by
    rw [prepIn_eq]; funext i; simp only [ext]; split_ifs <;> rfl
  have key : ∃ w Z, callSweep (tapeOf s' N par n e0.ys.length) e0.ys.length n d (d + 1) (prepIn n d X).1 (prepIn n d X).2.1 (prepIn n d X).2.2 = .ok w ∧
      reverse (tapeOf s' N par n e0.ys.length) d u w.kept = .ok Z ∧
      ∀ i : Fin n, ∀ q ≤ d, Z i q = iteratedDeriv q (fun t => ∑ j ∈ Finset.range e0.ys.length,
        u j * fderiv ℝ (fun x => p.out (ext x) par s.se j) (path d X t) (Pi.single i 1)) 0 / q.factorial := by
    by_cases h0 : d = 0
    · subst h0
      have hL : ∀ j, Jet 0 (fun _ : ℝ => u j) (lagr u j) := fun j => (Jet.const (u j)).coefs fun q hq => by
        interval_cases q; simp [lagr, hcons]
      obtain ⟨H, g1, g2⟩ := recorded_hrev_rows h.alloc p h.start h.recorded hdi par (k := 0) (d := 0) (le_refl _) (path 0 X) (by rw [path_curve]; exact curve_cont _ _ _)
        (extX fun (i : Fin n) k => X i (k + 1)) (by rw [path_curve, curve_zero]; exact curve_jet 0 _ _) (by rw [path_zero]; exact hspec) hn hsm h.pos h.size (u := fun _ => u) hL
      obtain ⟨S', H', k1, k2, k3, _⟩ := recorded_jets h.alloc p h.start h.recorded (fun _ => 0) par (k := 0) (keep := 1) (by omega) (path 0 X) (by rw [path_curve]; exact curve_cont _ _ _)
        (extX fun (i : Fin n) k => X i (k + 1)) (by rw [path_curve, curve_zero]; exact curve_jet 0 _ _) (by rw [path_zero]; exact hspec) (hsm.mono fun t ht => Prog.smooth_ho ht) N
      have k2' : hosRun ⟨ext (path 0 X 0 : Fin n → ℝ), extX fun (i : Fin n) k => X i (k + 1), par, 0, 0 + 1⟩ (s'.tape N) HS.init = .ok H' := k2
      rw [g1] at k2'
      cases k2'
      have hz := k1.self_of_nhds
      rw [path_zero] at hz
      obtain ⟨fs, f1, f2⟩ := k3.stk
      obtain ⟨R, r1, r2, r3, r4⟩ := g2 ((S' 0).stk.map fun v _ => v) (by
        rw [f1]
        simp only [List.map_map]
        have : ∀ (L : List (ℝ → ℝ)) (M : List (Nat → ℝ)), List.Forall₂ (Jet (1 - 1)) L M →
            List.Forall₂ (fun a b : Nat → ℝ => ∀ q ≤ 0, a q = b q) (L.map ((fun v (_ : Nat) => v) ∘ fun f => f 0)) M := by
          intro L M hLM
          induction hLM with
          | nil => exact .nil
          | cons a _ ih => 
            refine .cons (fun q hq => ?_) ih
            have := a.coef 0 (le_refl _)
            have hq0 : q = 0 := by omega
            subst hq0
            simp only [Function.comp]; rw [← this]; simp [tc]
        exact this _ _ f2)
      refine ⟨⟨fun j => (S' 0).y[j]?.getD 0, fun _ _ => 0, (S' 0).stk.map fun v _ => v⟩, R.Z, ?_, ?_, fun i q hq => ((r4 i).coef q hq).symm⟩
      · rw [callSweep, if_neg (by simp [tapeOf]), if_pos rfl, if_neg (by omega), e1]
        simp only [tapeOf, zero_add, show decide (0 < 1) = true from rfl]
        simp only [Nat.lt_one_iff, decide_true] at hz
        rw [show (zosRun ⟨ext fun i : Fin n => X i 0, par, true⟩ (s'.tape N) ZS.init) = .ok (S' 0) from hz]
      · simp only [reverse, tapeOf]
        rw [r1]; rfl
    by_cases h1 : d = 1
    · subst h1
      have e2 : (prepIn n 1 X).2.1 = ext (fun i : Fin n => X i 1) := by
        rw [prepIn_eq]; funext i; simp only [ext, and_true]; split_ifs <;> rfl
      have hline : ∀ t, (path 1 X t : Fin n → ℝ) = (fun i : Fin n => X i 0) + t • fun i : Fin n => X i 1 := fun t => by
        funext i; simp [path, Finset.sum_range_succ, mul_comm]
      have hcv : (path 1 X : ℝ → Fin n → ℝ) = curve 1 (fun i => X i 0) (fun i _ => X i 1) := by funext t; rw [hline, curve_one]
      obtain ⟨f, R, g1, g2, g3, g4, g5⟩ := recorded_hess_jet h.alloc p h.start h.recorded hdi par (fun i : Fin n => X i 0) (fun i => X i 1) hspec hn
        (hsm.mono fun t ht => by rw [← hline]; exact ht) h.pos h.size u
      rw [← hcv] at g5
      refine ⟨⟨fun j => f.y[j]?.getD 0, fun j _ => f.dy[j]?.getD 0, f.rows⟩, R.Z, ?_, ?_, fun i q hq => ((g5 i).coef q hq).symm⟩
      · rw [callSweep, if_neg (by simp [tapeOf]), if_neg (by omega), if_pos rfl, if_neg (by omega), e1, e2]
        simp only [tapeOf, show decide (0 < 1 + 1) = true from rfl, g1]
      · simp only [reverse, tapeOf]; rw [g3]; rfl
    · have hcv : curve d (fun i : Fin n => X i 0) (fun i k => if k < d then X i (k + 1) else X i k) = path d X := by
        rw [path_curve]; funext t i; simp only [curve]; congr 1
        exact Finset.sum_congr rfl fun k hk => by rw [if_pos (Finset.mem_range.1 hk)]
      obtain ⟨H, R, g1, g2, g3, g4⟩ := C18_hos_reverse_partial h hdi par (k := d) (d := d) (le_refl _) (fun i : Fin n => X i 0) (fun i k => if k < d then X i (k + 1) else X i k) u hspec hn
        (by rw [hcv]; exact hsm)
      rw [hcv] at g4
      have e2 : extX (fun (i : Fin n) k => if k < d then X i (k + 1) else X i k) = fun i => if i < n then (prepIn n d X).2.2 i else fun _ => 0 := by
        funext i; simp only [extX, prepIn_eq]; by_cases hi : i < n
        · simp only [hi, dif_pos, if_true]; funext k; simp [h1]
        · simp [hi]
      rw [e2] at g1
      refine ⟨⟨fun j => (H.y[j]?.getD fun _ => 0) 0, fun j k => (H.y[j]?.getD fun _ => 0) (k + 1), H.stk⟩, R.Z, ?_, ?_, g4⟩
      · rw [callSweep, if_neg (by simp [tapeOf]), if_neg h0, if_neg h1, e1]
        simp only [tapeOf, g1]
      · simp only [reverse, tapeOf]; rw [g2]; rfl
  obtain ⟨w, Z, h1, h2, h3⟩ := key
  exact ⟨prepOut e0.ys.length d w (written e0.ys.length d w Y), w.kept, Z, by simp only [forward, h1, restore_prep], h2, h3⟩

/-- The rows of the cached identity, whatever earlier calls have made of it: `I[l][j]` for `l, j < m`. -/
theorem cached_identity (c : RevI) {m l j : Nat} (hl : l < m) (hj : j < m) : (ident (c.next m).depax l j : ℝ) = if j = l then 1 else 0 := by
  have hm : m ≤ (c.next m).depax := by simp only [RevI.next]; split_ifs with h <;> first | exact le_refl _ | exact not_lt.1 h
  simp only [ident, identCell, if_pos (show l < (c.next m).depax by omega)]
  by_cases h : j = l
  · rw [if_pos h, if_pos (by omega)]
  · rw [if_neg h, if_neg (by omega)]

/-- The coefficients the sweep called by `forward` is given, beyond the value. -/
def cof (d : Nat) (X : Nat → Nat → ℝ) (i k : Nat) : ℝ := if d = 1 then X i 1 else if k < d then X i (k + 1) else X i k

theorem cof_curve {n : Nat} (d : Nat) (X : Nat → Nat → ℝ) : curve d (fun i : Fin n => X i 0) (fun i k => cof d X i k) = path d X := by
  rw [path_curve]; funext t i; simp only [curve]; congr 1
  refine Finset.sum_congr rfl fun k hk => ?_
  have := Finset.mem_range.1 hk
  unfold cof
  by_cases h1 : d = 1
  · rw [if_pos h1, show k = 0 by omega]
  · rw [if_neg h1, if_pos this]

/-- `forward` with `keep = d + 1` leaves rows that agree with those of `hos_forward` up to order `d`. -/
theorem kept_rows (h : Traced cfg stock s p s' N) (par : Nat → ℝ) {n d : Nat} (X Y : Nat → Nat → ℝ) {e0 : SE ℝ}
    (hspec : p.spec (ext (fun i : Fin n => X i 0)) par s.se = some (e0, p.path cfg s))
    (hsm : ∀ᶠ t in 𝓝 0, p.smooth .hor (ext (path d X t : Fin n → ℝ)) par s.se) {H : HS ℝ}
    (hH : hosRun ⟨ext (fun i : Fin n => X i 0), extX fun (i : Fin n) k => cof d X i k, par, d, d + 1⟩ (s'.tape N) HS.init = .ok H) :
    ∃ Y' kept, forward (tapeOf s' N par n e0.ys.length) e0.ys.length n d (d + 1) X Y = (X, .ok (Y', kept)) ∧
      List.Forall₂ (fun a b : Nat → ℝ => ∀ q ≤ d, a q = b q) kept H.stk := by
  have e1 : (prepIn n d X).1 = ext (fun i : Fin n => X i 0) := by
    rw [prepIn_eq]; funext i; simp only [ext]; split_ifs <;> rfl
  have key : ∃ w, callSweep (tapeOf s' N par n e0.ys.length) e0.ys.length n d (d + 1) (prepIn n d X).1 (prepIn n d X).2.1 (prepIn n d X).2.2 = .ok w ∧
      List.Forall₂ (fun a b : Nat → ℝ => ∀ q ≤ d, a q = b q) w.kept H.stk := by
    by_cases h0 : d = 0
    · subst h0
      obtain ⟨S', H', k1, k2, k3, _⟩ := recorded_jets h.alloc p h.start h.recorded (fun _ => 0) par (k := 0) (keep := 1) (by omega) (path 0 X) (by rw [path_curve]; exact curve_cont _ _ _)
        (extX fun (i : Fin n) k => cof 0 X i k) (by rw [← cof_curve, curve_zero]; exact curve_jet 0 _ _) (by rw [path_zero]; exact hspec) (hsm.mono fun t ht => Prog.smooth_ho ht) N
      rw [path_zero] at k2
      have k2' : hosRun ⟨ext (fun i : Fin n => X i 0), extX fun (i : Fin n) k => cof 0 X i k, par, 0, 0 + 1⟩ (s'.tape N) HS.init = .ok H' := k2
      rw [hH] at k2'
      cases k2'
      have hz := k1.self_of_nhds
      rw [path_zero] at hz
      obtain ⟨fs, f1, f2⟩ := k3.stk
      refine ⟨⟨fun j => (S' 0).y[j]?.getD 0, fun _ _ => 0, (S' 0).stk.map fun v _ => v⟩, ?_, ?_⟩
      · rw [callSweep, if_neg (by simp [tapeOf]), if_pos rfl, if_neg (by omega), e1]
        simp only [tapeOf, zero_add, show decide (0 < 1) = true from rfl]
        simp only [Nat.lt_one_iff, decide_true] at hz
        rw [show (zosRun ⟨ext fun i : Fin n => X i 0, par, true⟩ (s'.tape N) ZS.init) = .ok (S' 0) from hz]
      · show List.Forall₂ _ ((S' 0).stk.map fun v _ => v) H.stk
        rw [f1]
        simp only [List.map_map]
        have : ∀ (L : List (ℝ → ℝ)) (M : List (Nat → ℝ)), List.Forall₂ (Jet (1 - 1)) L M →
            List.Forall₂ (fun a b : Nat → ℝ => ∀ q ≤ 0, a q = b q) (L.map ((fun v (_ : Nat) => v) ∘ fun f => f 0)) M := by
          intro L M hLM
          induction hLM with
          | nil => exact .nil
          | cons a _ ih =>
            refine .cons (fun q hq => ?_) ih
            have := a.coef 0 (le_refl _)
            have hq0 : q = 0 := by omega
            subst hq0
            simp only [Function.comp]; rw [← this]; simp [tc]
        exact this _ _ f2
    by_cases h1 : d = 1
    · subst h1
      have e2 : (prepIn n 1 X).2.1 = ext (fun i : Fin n => X i 1) := by
        rw [prepIn_eq]; funext i; simp only [ext, and_true]; split_ifs <;> rfl
      have hline : ∀ t, (path 1 X t : Fin n → ℝ) = (fun i : Fin n => X i 0) + t • fun i : Fin n => X i 1 := fun t => by
        funext i; simp [path, Finset.sum_range_succ, mul_comm]
      obtain ⟨f, g1, g2, g3⟩ := recorded_fos_rows h.alloc p h.start h.recorded par (fun i : Fin n => X i 0) (fun i => X i 1) hspec
        (hsm.mono fun t ht => by rw [← hline]; exact ht) N (H := H) (by simpa [cof] using hH)
      refine ⟨⟨fun j => f.y[j]?.getD 0, fun j _ => f.dy[j]?.getD 0, f.rows⟩, ?_, g3⟩
      rw [callSweep, if_neg (by simp [tapeOf]), if_neg (by omega), if_pos rfl, if_neg (by omega), e1, e2]
      simp only [tapeOf, show decide (0 < 1 + 1) = true from rfl, g1]
    · have e2 : (extX fun (i : Fin n) k => cof d X i k) = fun i => if i < n then (prepIn n d X).2.2 i else fun _ => 0 := by
        funext i; simp only [extX, prepIn_eq]; by_cases hi : i < n
        · simp only [hi, dif_pos, if_true]; funext k; simp [h1, cof]
        · simp [hi]
      rw [e2] at hH
      refine ⟨⟨fun j => (H.y[j]?.getD fun _ => 0) 0, fun j k => (H.y[j]?.getD fun _ => 0) (k + 1), H.stk⟩, ?_, List.forall₂_same.2 fun _ _ _ _ => rfl⟩
      rw [callSweep, if_neg (by simp [tapeOf]), if_neg h0, if_neg h1, e1]
      simp only [tapeOf, hH]
  obtain ⟨w, h1, h2⟩ := key
  exact ⟨prepOut e0.ys.length d w (written e0.ys.length d w Y), w.kept, by simp only [forward, h1, restore_prep], h2⟩

/-- C46 (partial: as C41).  `forward` with `keep = d + 1`, `d ≥ 0`, then `reverse(tag, m, n, d, q, U, Z, nz)` with `q` weight vectors: row `l` of `Z` has the Taylor
coefficients of `∑_j U[l][j] ∂F_j/∂x_i` along the curve, only rows without non-zero coefficient are flagged 0, and only constant ones 1. -/
theorem C46_reverse_matrix_partial (h : Traced cfg stock s p s' N) (hdi : p.disc ⟨Set.univ, ∅⟩) (par : Nat → ℝ) {n d q : Nat} (hq : 0 < q) (U : Nat → Nat → ℝ) (X Y : Nat → Nat → ℝ) {e0 : SE ℝ}
    (habs : q ≤ 1 ∨ Verif.Props.HORevVec.noAbs p)
    (hspec : p.spec (ext (fun i : Fin n => X i 0)) par s.se = some (e0, p.path cfg s)) (hn : e0.ii = n)
    (hsm : ∀ᶠ t in 𝓝 0, p.smooth .hor (ext (path d X t : Fin n → ℝ)) par s.se) :
    ∃ Y' kept Z nz, forward (tapeOf s' N par n e0.ys.length) e0.ys.length n d (d + 1) X Y = (X, .ok (Y', kept)) ∧
      reverseU (tapeOf s' N par n e0.ys.length) d q U kept = .ok (Z, nz) ∧
      ∀ l, l < q → ∀ i : Fin n, (∀ e ≤ d, Z l i e = iteratedDeriv e (fun t => ∑ j ∈ Finset.range e0.ys.length,
        U l j * fderiv ℝ (fun x => p.out (ext x) par s.se j) (path d X t) (Pi.single i 1)) 0 / e.factorial) ∧ (nz l i = 0 → ∀ e ≤ d, Z l i e = 0) ∧
        (nz l i < 2 → ∀ e ≤ d, 0 < e → Z l i e = 0) := by
  obtain ⟨H, g1, g2⟩ := Verif.Props.HORevVec.hov_rows_any h hdi par (k := d) (d := d) (le_refl _) hq habs (fun i : Fin n => X i 0)
    (fun i k => cof d X i k) (fun l => lagr (U l)) hspec hn (by rw [cof_curve]; exact hsm)
  obtain ⟨Y', kept, k1, k2⟩ := kept_rows h par X Y hspec hsm g1
  obtain ⟨V, v1, v2, v3⟩ := g2 kept k2
  rw [cof_curve] at v3
  refine ⟨Y', kept, V.Z, V.nz, k1, ?_, fun l hl i => ⟨fun e he => ?_, (v3 l hl i).2⟩⟩
  · simp only [reverseU, tapeOf]
    rw [v1]; rfl
  · rw [(v3 l hl i).1 e he]
    congr 3
    funext t
    refine Finset.sum_congr rfl fun j _ => ?_
    congr 1
    simp [weight, lagr, Finset.sum_ite_eq', ite_mul]

/-- C46 (partial: as C41).  `forward` with `keep = d + 1`, `d ≥ 0`, then `reverse(tag, m, n, d, Z, nz)` without weights, after any earlier calls of it with other
numbers of dependents (`c`): row `l` of `Z` has the Taylor coefficients of the gradient of `F_l` along the curve. -/
theorem C46_reverse_identity_partial (h : Traced cfg stock s p s' N) (hdi : p.disc ⟨Set.univ, ∅⟩) (par : Nat → ℝ) {n d : Nat} (X Y : Nat → Nat → ℝ) {e0 : SE ℝ}
    (habs : e0.ys.length ≤ 1 ∨ Verif.Props.HORevVec.noAbs p) (hm : 0 < e0.ys.length)
    (hspec : p.spec (ext (fun i : Fin n => X i 0)) par s.se = some (e0, p.path cfg s)) (hn : e0.ii = n)
    (hsm : ∀ᶠ t in 𝓝 0, p.smooth .hor (ext (path d X t : Fin n → ℝ)) par s.se) (c : RevI) :
    ∃ Y' kept Z nz, forward (tapeOf s' N par n e0.ys.length) e0.ys.length n d (d + 1) X Y = (X, .ok (Y', kept)) ∧
      (reverseI (tapeOf s' N par n e0.ys.length) d kept c).2 = .ok (Z, nz) ∧
      ∀ l, l < e0.ys.length → ∀ i : Fin n, (∀ q ≤ d, Z l i q = iteratedDeriv q (fun t =>
        fderiv ℝ (fun x => p.out (ext x) par s.se l) (path d X t) (Pi.single i 1)) 0 / q.factorial) ∧ (nz l i = 0 → ∀ q ≤ d, Z l i q = 0) ∧ (nz l i < 2 → ∀ q ≤ d, 0 < q → Z l i q = 0) := by
  obtain ⟨Y', kept, Z, nz, g1, g2, g3⟩ := C46_reverse_matrix_partial h hdi par hm (fun l => ident (c.next e0.ys.length).depax l) X Y habs hspec hn hsm
  refine ⟨Y', kept, Z, nz, g1, g2, fun l hl i => ⟨fun q hq => ?_, (g3 l hl i).2⟩⟩
  rw [(g3 l hl i).1 q hq]
  congr 2
  funext t
  rw [Finset.sum_congr rfl fun j hj => by rw [cached_identity c hl (Finset.mem_range.1 hj)]]
  simp [Finset.sum_ite_eq', hl]

/-- C46 (partial: as C41).  One dependent: `forward` with `keep = d + 1`, `d ≥ 0`, then `reverse(tag, 1, n, d, q, U, Z, nz)` with a vector `U` of `q` weights:
row `l` of `Z` has the Taylor coefficients of `U[l]` times the gradient of `F` along the curve. -/
theorem C46_reverse_vector_partial (h : Traced cfg stock s p s' N) (hdi : p.disc ⟨Set.univ, ∅⟩) (par : Nat → ℝ) {n d q : Nat} (hq : 0 < q) (U : Nat → ℝ) (X Y : Nat → Nat → ℝ) {e0 : SE ℝ}
    (habs : q ≤ 1 ∨ Verif.Props.HORevVec.noAbs p) (hm : e0.ys.length = 1)
    (hspec : p.spec (ext (fun i : Fin n => X i 0)) par s.se = some (e0, p.path cfg s)) (hn : e0.ii = n)
    (hsm : ∀ᶠ t in 𝓝 0, p.smooth .hor (ext (path d X t : Fin n → ℝ)) par s.se) :
    ∃ Y' kept Z nz, forward (tapeOf s' N par n e0.ys.length) e0.ys.length n d (d + 1) X Y = (X, .ok (Y', kept)) ∧
      reverseU1 (tapeOf s' N par n e0.ys.length) 1 d q U kept = some (.ok (Z, nz)) ∧
      ∀ l, l < q → ∀ i : Fin n, (∀ q ≤ d, Z l i q = iteratedDeriv q (fun t =>
        U l * fderiv ℝ (fun x => p.out (ext x) par s.se 0) (path d X t) (Pi.single i 1)) 0 / q.factorial) ∧ (nz l i = 0 → ∀ q ≤ d, Z l i q = 0) ∧ (nz l i < 2 → ∀ q ≤ d, 0 < q → Z l i q = 0) := by
  obtain ⟨Y', kept, Z, nz, g1, g2, g3⟩ := C46_reverse_matrix_partial h hdi par hq (fun l j => U (l + j)) X Y habs hspec hn hsm
  refine ⟨Y', kept, Z, nz, g1, ?_, fun l hl i => ⟨fun q hq => ?_, (g3 l hl i).2⟩⟩
  · simp only [reverseU1, ne_eq, not_true_eq_false, if_false]
    exact congrArg some g2
  · rw [(g3 l hl i).1 q hq, hm]
    simp

/-- The hypotheses hold for the demo program, degree 3, a curve that is not a line. -/
example : ∃ s' e, Traced demoCfg [] demoStart demo s' (s'.hw + 1) ∧ demo.disc ⟨Set.univ, ∅⟩ ∧ Verif.Props.HORevVec.noAbs demo ∧
    demo.spec (ext (fun i : Fin 2 => ((fun i k => (i : ℝ) + k + 1 : Nat → Nat → ℝ)) i 0)) (fun _ => 0) demoStart.se = some (e, demo.path demoCfg demoStart) ∧ e.ii = 2 ∧ e.ys.length = 1 ∧
    ∀ᶠ t in 𝓝 0, demo.smooth .hor (ext (path 3 (fun i k => (i : ℝ) + k + 1) t : Fin 2 → ℝ)) (fun _ => 0) demoStart.se := by
  obtain ⟨e, h1, h2, h3⟩ := demo_spec demoCfg.x demoCfg.par (by simp only [demoCfg]; positivity)
  obtain ⟨s', h4, h5⟩ := traced_exists (stock := []) demo_alloc demo_start (by simp [demo, Prog.noFminLL, Stmt.notFminLL]) h1
  have hpos : ∀ x : Fin 2 → ℝ, 0 < x 0 → 0 < x 1 → 0 < ext x 0 * ext x 1 + ext x 0 * Real.exp (ext x 0) := fun x h h' => by
    have e0 : ext x 0 = x 0 := rfl
    have e1 : ext x 1 = x 1 := rfl
    rw [e0, e1]; positivity
  obtain ⟨e', g1, g2, g3⟩ := demo_spec (ext (fun i : Fin 2 => ((fun i k => (i : ℝ) + k + 1 : Nat → Nat → ℝ)) i 0)) (fun _ => 0) (hpos _ (by simp) (by simp))
  refine ⟨s', e', h4, demo_disc, by simp [Verif.Props.HORevVec.noAbs, demo, Verif.Sparse.allStmts, Verif.Sparse.emits, Bin.op, Un.op, Acc.opA], by rw [h5]; exact g1, g2, by simp [g3], ?_⟩
  have hc : ContinuousAt (path 3 (fun i k => (i : ℝ) + k + 1) : ℝ → Fin 2 → ℝ) 0 := by rw [path_curve]; exact curve_cont _ _ _
  have h0 : ∀ i : Fin 2, ∀ᶠ t in 𝓝 (0:ℝ), 0 < (path 3 (fun i k => (i : ℝ) + k + 1) t : Fin 2 → ℝ) i := fun i => by
    refine ((continuousAt_pi.1 hc) i).eventually (lt_mem_nhds ?_)
    beta_reduce; rw [path_zero]; positivity
  filter_upwards [h0 0, h0 1] with t t0 t1
  exact demo_smooth .hor _ _ (hpos _ t0 t1)
end Verif.Props.Interfaces
