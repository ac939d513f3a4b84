import Verif.Drivers.InvTaylor
import Verif.Drivers.InvMath
import Verif.Drivers.OdeRun
import Verif.AD.HovRc
import Verif.Props.JacSolv
import Verif.Props.HORevVec
import Verif.Props.Interfaces
import Verif.Props.Lie

/-! # C55: `inverse_Taylor_prop` -/
set_option linter.all false
namespace Verif.Props.InvTaylor
open Verif.AD Verif.Props.AD Verif.Drivers Verif.Props.Drivers Verif.Props.JacSolv Elem Filter Topology ContDiff
open Verif.Props.HORevVec (noAbs hov_rows_path)
open Verif.Props.Interfaces (path path_curve path_zero)
open Verif.Props.Lie (F_smooth)

/-! ### Specification -/

/-- What can happen before a call: a call of `jac_solv` on the trace; a call of `inverse_Taylor_prop` on the trace; calls for other traces, which leave
something in the static variables. -/
inductive ICall (n : Nat) where
  | solve (a : JCall n)
  | inv (d : Nat) (Y X : Nat → Nat → ℝ)
  | other (c : ITStat)

/-- The effect on the static variables and on what the tape keeps for `jac_solv`, and the return code. -/
noncomputable def ICall.run {n : Nat} (t : Tape ℝ) (rrc hrc : Int) (st : ITStat × JSState ℝ) : ICall n → (ITStat × JSState ℝ) × Except DErr Int
  | .solve a => let r := jacSolv t rrc (ext a.x) (ext a.b) a.mode st.2; ((st.1, r.1), r.2.map Prod.fst)
  | .inv d Y X => let r := inverseTaylorProp t rrc hrc d Y X st.1 st.2; ((r.1, r.2.1), r.2.2.map Prod.fst)
  | .other c => ((c, st.2), .ok 0)

noncomputable def icalls {n : Nat} (t : Tape ℝ) (rrc hrc : Int) : ITStat × JSState ℝ → List (ICall n) → (ITStat × JSState ℝ) × List (Except DErr Int)
  | st, [] => (st, [])
  | st, a :: L => let r := a.run t rrc hrc st; let q := icalls t rrc hrc r.1 L; (q.1, r.2 :: q.2)

/-- The trace is valid at the point, has `n` independents and dependents, and the elementary functions are smooth near the point. -/
def Near (cfg : RCfg ℝ) (s : Rec ℝ) (p : Prog ℝ) (par : Nat → ℝ) {n : Nat} (x0 : Fin n → ℝ) : Prop :=
  (∃ e0 : SE ℝ, p.spec (ext x0) par s.se = some (e0, p.path cfg s) ∧ e0.ii = n ∧ e0.ys.length = n) ∧ ∀ᶠ x in 𝓝 x0, p.smooth .hor (ext x) par s.se

/-- Each call is made at such a point; `jac_solv` is called with mode 1 or 2. -/
def ICall.Valid (cfg : RCfg ℝ) (s : Rec ℝ) (p : Prog ℝ) (par : Nat → ℝ) {n : Nat} : ICall n → Prop
  | .solve a => At cfg s p par a.x ∧ (a.mode = 1 ∨ a.mode = 2)
  | .inv _ _ X => Near cfg s p par fun i : Fin n => X i 0
  | .other _ => True

/-- The Taylor polynomial `X` solves the problem: the `l`-th Taylor coefficient of `t ↦ F(X(t))` is `Y[.][l]`, for `l = 1..d`. -/
def Solves (p : Prog ℝ) (s : Rec ℝ) (par : Nat → ℝ) (n d : Nat) (X Y : Nat → Nat → ℝ) : Prop :=
  ∀ i < n, ∀ l ≤ d, 0 < l → iteratedDeriv l (fun t => F p s par n i (path d X t)) 0 / l.factorial = Y i l

/-- The factorisation of the Jacobian fails: a pivot is smaller than `1e-15` (see C44). -/
def Rejected (t : Tape ℝ) (rrc : Int) (x : Nat → ℝ) : Prop := ∀ rc J, evJac t rrc x = .ok (rc, J) → (Verif.Num.LU.factor t.n J).2 < 0

/-! ### Proofs -/

theorem rejected_of {t : Tape ℝ} {rrc : Int} {x b b' : Nat → ℝ} {mode : Nat} {c : JSState ℝ} (h0 : ∀ rc J, evJac t rrc x = .ok (rc, J) → 0 ≤ rc)
    (h : (jacSolv t rrc x b mode c).2 = .ok (-3, b')) : Rejected t rrc x := by
  intro rc J hJ
  by_contra hf
  have := h0 rc J hJ
  unfold jacSolv jacSolvCore at h
  simp only [hJ, if_neg hf] at h
  split at h
  · injection h with h; injection h with h; omega
  · injection h with h; injection h with h; omega
  · split_ifs at h <;> (injection h with h; injection h with h; omega)
  · injection h with h; injection h with h; omega

variable {n : Nat} {cfg : RCfg ℝ} {stock : List (Nat × List ℝ)} {s s' : Rec ℝ} {p : Prog ℝ} {N : Nat}

theorem path_smooth (d : Nat) (X : Nat → Nat → ℝ) : ContDiffAt ℝ ∞ (path d X : ℝ → Fin n → ℝ) 0 := by
  refine contDiffAt_pi.2 fun i => ?_
  exact ContDiffAt.sum fun k _ => contDiffAt_const.mul (contDiffAt_id.pow k)

theorem path_tc (d : Nat) (X : Nat → Nat → ℝ) (i : Fin n) {k : Nat} (hk : k ≤ d) : tc (fun t => (path d X t : Fin n → ℝ) i) k = X i k := by
  have h := curve_jet d (fun i : Fin n => X i 0) (fun i k => X i (k + 1)) i
  rw [← path_curve] at h
  have := h.coef k hk
  simp only [ext, i.2, dif_pos, Fin.eta, extX] at this
  rw [this]
  cases k <;> rfl

theorem ext_if (f : Nat → ℝ) : (fun i => if i < n then f i else 0) = ext (fun i : Fin n => f i) := by
  funext i; simp [ext]

theorem foldlM_range' {α ε : Type} {f : α → Nat → Except ε α} {E : ε → Prop} {Q : Nat → α → Prop} {m : Nat}
    (hf : ∀ l s, l < m → Q l s → (∃ s', f s l = .ok s' ∧ Q (l + 1) s') ∨ ∃ e, f s l = .error e ∧ E e) :
    ∀ (c a : Nat) (s : α), a + c = m → Q a s → (∃ s', (List.range' a c).foldlM f s = .ok s' ∧ Q m s') ∨ ∃ e, (List.range' a c).foldlM f s = .error e ∧ E e := by
  intro c
  induction c with
  | zero => intro a s h hq; exact .inl ⟨s, rfl, by rw [← h]; exact hq⟩
  | succ c ih =>
    intro a s h hq
    rw [List.range'_succ, List.foldlM_cons]
    rcases hf a s (by omega) hq with ⟨s1, e1, h1⟩ | ⟨e, e1, h1⟩
    · rw [e1]
      exact ih (a + 1) s1 (by omega) h1
    · rw [e1]
      exact .inr ⟨e, rfl, h1⟩

/-- What holds between the passes of the outer loop, when the coefficients below `a` are known. -/
structure Known (p : Prog ℝ) (s : Rec ℝ) (par : Nat → ℝ) (x0 : Fin n → ℝ) (d : Nat) (X0 Y : Nat → Nat → ℝ) (a : Nat) (S : ITLoop) : Prop where
  base : ∀ i : Fin n, S.X i 0 = x0 i
  outside : ∀ i k, ¬ (i < n ∧ 0 < k ∧ k ≤ d) → S.X i k = X0 i k
  high : ∀ i < n, ∀ k, a ≤ k → k ≤ d → S.X i k = 0
  help : ∀ i < n, ∀ k < d, S.Xh i k = S.X i (k + 1)
  help0 : ∀ i, n ≤ i → ∀ k, S.Xh i k = 0
  A0 : ∀ i j e, a ≤ e → S.A i j e = 0
  good : Good (n := n) (jacM p s par) S.js
  rc : 0 ≤ S.rc
  tc : ∀ i < n, ∀ l < a, 0 < l → Verif.AD.tc (fun t => F p s par n i (path d S.X t)) l = Y i l

theorem itTerm_eq {da l : Nat} {a x : Nat → ℝ} (h1 : 1 ≤ da) (hl : da ≤ l) (h0 : ∀ e, da ≤ e → a e = 0) :
    itTerm da l a x = ∑ q ∈ Finset.range (l - da), a (q + 1) * x (l - 1 - q) := by
  unfold itTerm
  split_ifs with h
  · have hlt : da < l ∨ l = da := by omega
    rcases hlt with hlt | hlt
    · rw [show l - da = 1 by omega]; simp
    · subst hlt; omega
  · refine Finset.sum_congr rfl fun q hq => ?_
    have := Finset.mem_range.1 hq
    rw [h0 (l - 1 - q) (by omega)]
    ring

section
variable (h : Traced cfg stock s p s' N) (hdi : p.disc ⟨Set.univ, ∅⟩) (par : Nat → ℝ) (hn0 : 0 < n) {rrc hrc : Int} (hr : 0 ≤ rrc) (hr2 : 0 ≤ hrc)
  {x0 : Fin n → ℝ} {e0 : SE ℝ} (hspec : p.spec (ext x0) par s.se = some (e0, p.path cfg s)) (hn : e0.ii = n) (hys : e0.ys.length = n)
  (hsm : ∀ᶠ x in 𝓝 x0, p.smooth .hor (ext x) par s.se) (habs : n ≤ 1 ∨ noAbs p)
include h hdi hn0 hr hspec hn hys hsm

/-- The state inside the loop over `l`. -/
structure Inner (p : Prog ℝ) (s : Rec ℝ) (par : Nat → ℝ) (n d a : Nat) (Y : Nat → Nat → ℝ) (S0 : ITLoop) (H : HS ℝ) (A : Nat → Nat → Nat → ℝ) (l : Nat) (S : ITLoop) : Prop where
  same : ∀ i k, ¬ (i < n ∧ a ≤ k ∧ k < l) → S.X i k = S0.X i k
  help : ∀ i < n, ∀ k < d, S.Xh i k = S.X i (k + 1)
  help0 : ∀ i, n ≤ i → ∀ k, S.Xh i k = 0
  mat : S.A = A
  good : Good (n := n) (jacM p s par) S.js
  rc : 0 ≤ S.rc
  eq : ∀ i < n, ∀ r, a ≤ r → r < l →
    ((H.y[i]?.getD fun _ => 0) r - Y i r) + ∑ j ∈ Finset.range n, ∑ k ∈ Finset.range (r - a + 1), A i j k * S.X j (r - k) = 0

theorem pass_ok {d a m : Nat} (ha : 1 ≤ a) (hm : m ≤ d + 1) {Y : Nat → Nat → ℝ} {S0 : ITLoop} {H : HS ℝ} {A : Nat → Nat → Nat → ℝ} {nz : Nat → Nat → ℝ}
    (hX0 : ∀ i < n, ∀ k, a ≤ k → k ≤ d → S0.X i k = 0) (hA0 : ∀ i j e, a ≤ e → A i j e = 0)
    (hAJ : ∀ i < n, ∀ j < n, A i j 0 = jacM p s par x0 i j)
    (hnz : ∀ i < n, ∀ j < n, nz i j < 2 → ∀ e, 0 < e → e < m - a → A i j e = 0) {l : Nat} (hl : l < m) (hal : a ≤ l) {S : ITLoop}
    (hS : Inner p s par n d a Y S0 H A l S) :
    (∃ S', itPass (tapeOf s' N par n n) rrc (ext x0) Y a H nz l S = .ok S' ∧ Inner p s par n d a Y S0 H A (l + 1) S') ∨
      ∃ e, itPass (tapeOf s' N par n n) rrc (ext x0) Y a H nz l S = .error e ∧ (∃ js, e = .singular js S.X) ∧ Rejected (tapeOf s' N par n n) rrc (ext x0) := by
  have hat : At cfg s p par x0 := ⟨e0, hspec, hn, hys, Prog.smooth_rev (Prog.smooth_ho hsm.self_of_nhds)⟩
  have h0 : ∀ rc J, evJac (tapeOf s' N par n n) rrc (ext x0) = .ok (rc, J) → 0 ≤ rc := by
    intro rc J hJ
    obtain ⟨rc', J', q1, q2, _⟩ := evJac_ok h hdi par hn0 hat hr
    rw [hJ] at q1; cases q1; exact q2
  set b : Fin n → ℝ := fun i => - itBi n a l H Y S.A nz S.X i with hb
  obtain ⟨code, b', c1, c2⟩ := call_ok h hdi par hn0 hr ⟨x0, b, 2⟩ hat hS.good (.inr (.inr rfl))
  have e : (fun i => if i < (tapeOf s' N par n n).n then - itBi (tapeOf s' N par n n).n a l H Y S.A nz S.X i else 0) = ext b :=
    ext_if (n := n) fun i => - itBi n a l H Y S.A nz S.X i
  unfold itPass
  dsimp only
  rw [e]
  dsimp only at c1 c2
  rw [c1]
  dsimp only
  rcases c2 with ⟨c2, c3⟩ | ⟨c2, c3, _, _, c4⟩
  · subst c2
    have := hS.rc
    rw [if_pos (by omega)]
    exact .inr ⟨_, rfl, ⟨_, rfl⟩, rejected_of h0 c1⟩
  · have := hS.rc
    rw [if_neg (by omega)]
    refine .inl ⟨_, rfl, ?_⟩
    have c4 := c4 rfl
    have tn : (tapeOf s' N par n n).n = n := rfl
    simp only [tn]
    constructor
    · intro i k hik
      dsimp only
      rw [if_neg (fun hh => hik ⟨hh.1, by omega, by omega⟩)]
      exact hS.same i k fun hh => hik ⟨hh.1, hh.2.1, by omega⟩
    · intro i hi k hk
      dsimp only
      rw [hS.help i hi k hk]
      by_cases hkl : k = l - 1
      · rw [if_pos ⟨hi, hkl⟩, if_pos ⟨hi, by omega⟩]
      · rw [if_neg (fun hh => hkl hh.2), if_neg (fun hh => hkl (by omega))]
    · intro i hi k
      dsimp only
      rw [if_neg (fun hh => by omega)]
      exact hS.help0 i hi k
    · exact hS.mat
    · exact c3
    · exact le_min hS.rc c2
    · intro i hi r hr1 hr2
      dsimp only
      by_cases hrl : r < l
      · refine Eq.trans (congrArg _ ?_) (hS.eq i hi r hr1 hrl)
        refine Finset.sum_congr rfl fun j hj => Finset.sum_congr rfl fun k hk => ?_
        rw [if_neg (fun hh => by omega)]
      · have hrl : r = l := by omega
        subst hrl
        have hbi := c4 i hi
        simp only [ext, hi, dif_pos, hb] at hbi
        have hXr : ∀ j < n, S.X j r = 0 := fun j hj => by rw [hS.same j r (fun hh => by omega)]; exact hX0 j hj r hal (by omega)
        have hsum : ∀ j ∈ Finset.range n, ∑ k ∈ Finset.range (r - a + 1), A i j k * (if j < n ∧ r - k = r then S.X j (r - k) + b' j else S.X j (r - k)) =
            (if nz i j > 1 then itTerm a r (S.A i j) (S.X j) else 0) + jacM p s par x0 i j * b' j := by
          intro j hj
          have hj := Finset.mem_range.1 hj
          rw [Finset.sum_range_succ', ← hAJ i hi j hj]
          congr 1
          · rw [hS.mat]
            have e1 : ∑ k ∈ Finset.range (r - a), A i j (k + 1) * (if j < n ∧ r - (k + 1) = r then S.X j (r - (k + 1)) + b' j else S.X j (r - (k + 1))) =
                ∑ q ∈ Finset.range (r - a), A i j (q + 1) * S.X j (r - 1 - q) := by
              refine Finset.sum_congr rfl fun k hk => ?_
              have := Finset.mem_range.1 hk
              rw [if_neg (fun hh => by omega), show r - (k + 1) = r - 1 - k by omega]
            rw [e1]
            split_ifs with hz
            · exact (itTerm_eq ha hal (hA0 i j)).symm
            · refine Finset.sum_eq_zero fun q hq => ?_
              have := Finset.mem_range.1 hq
              rw [hnz i hi j hj (by linarith [not_lt.1 hz]) (q + 1) (by omega) (by omega), zero_mul]
          · rw [Nat.sub_zero, if_pos ⟨hj, rfl⟩, hXr j hj, zero_add]
        rw [Finset.sum_congr rfl hsum, Finset.sum_add_distrib, hbi]
        unfold itBi
        ring

include hr2 habs in
theorem stage_ok {d a m : Nat} (ha : 1 ≤ a) (ham : a < m) (h2 : m ≤ 2 * a) (hm : m ≤ d + 1) {X0 Y : Nat → Nat → ℝ} {S : ITLoop}
    (hS : Known p s par x0 d X0 Y a S) :
    (∃ S', itStage (tapeOf s' N par n n) rrc hrc (ext x0) Y a m S = .ok S' ∧ Known p s par x0 d X0 Y m S') ∨
      ∃ e, itStage (tapeOf s' N par n n) rrc hrc (ext x0) Y a m S = .error e ∧ ∃ js X, e = .singular js X ∧ (∀ i k, ¬ (i < n ∧ 0 < k ∧ k ≤ d) → X i k = X0 i k) ∧ Rejected (tapeOf s' N par n n) rrc (ext x0) := by
  set ξ : ℝ → Fin n → ℝ := path d S.X with hξd
  have hξ : ContDiffAt ℝ ∞ ξ 0 := path_smooth d S.X
  have hξ0 : ξ 0 = x0 := by rw [hξd, path_zero]; funext i; exact hS.base i
  have hho : ∀ᶠ x in 𝓝 x0, p.smooth .ho (ext x) par s.se := hsm.mono fun x h => Prog.smooth_ho h
  have hF : ∀ i, SmG (F p s par n i) x0 := fun i => F_smooth h par hspec hho i
  -- the forward sweep
  obtain ⟨H, a1, a2, a3, _⟩ := hos_pass h par (n := n) (k := m - 1) (keep := m - a) (by omega) hξ (X := S.Xh)
    (fun i q hq => by rw [hS.help i i.2 q (by omega), path_tc d S.X i (by omega)])
    (fun i hi q hq => hS.help0 i hi q) (by rw [hξ0]; exact hspec) (by rw [hξ0]; exact hho)
  have hrcH : 0 ≤ H.rc := by
    obtain ⟨V, v1, v2⟩ := HOVec.traced_hov h par (n := n) (k := m - 1) (q := 1) (keep := m - a) one_pos (by omega) x0 (fun i _ q => S.Xh i q) hspec
      (fun l _ => by
        have hc := curve_cont (m - 1) x0 (fun i q => S.Xh i q)
        exact hc.eventually (by rw [curve_zero]; exact hho))
    obtain ⟨H', w1, w2⟩ := v2 0 one_pos
    have e : (extX fun i : Fin n => (fun i _ q => S.Xh i q : Fin n → Nat → Nat → ℝ) i 0) = S.Xh := by
      funext i q
      simp only [extX]
      split_ifs with hi
      · rfl
      · rw [hS.help0 i (by omega) q]
    rw [e] at w1
    rw [hξ0] at a1
    rw [a1] at w1
    cases w1
    exact le_trans (hov_nn _ v1 (by show (0:ℤ) ≤ 3; omega)) w2.rc
  -- the reverse sweep
  obtain ⟨H', b1, b2⟩ := hov_rows_path h hdi par (n := n) (k := m - 1) (d := m - a - 1) (q := n) (by omega) hn0 habs ξ hξ.continuousAt S.Xh a2
    (fun l => lagr (itI l)) (by rw [hξ0]; exact hspec) hn (hξ.continuousAt.eventually (by rw [hξ0]; exact hsm))
  rw [show m - a - 1 + 1 = m - a by omega, a1] at b1
  cases b1
  obtain ⟨V, v1, _, v3⟩ := b2 H.stk (List.forall₂_same.2 fun _ _ _ _ => rfl)
  rw [show m - a - 1 + 1 = m - a by omega, hys] at v1
  have hZ : ∀ i < n, ∀ j : Fin n, ∀ e < m - a, V.Z i j e = tc (fun t => fderiv ℝ (F p s par n i) (ξ t) (Pi.single j 1)) e := by
    intro i hi j e he
    rw [(v3 i hi j).1 e (by omega)]
    unfold tc
    congr 2
    funext t
    have hw : ∀ q, Verif.Props.HORev.weight (m - a - 1) (lagr (itI i)) t q = itI i q := fun q => by
      simp [Verif.Props.HORev.weight, lagr, Finset.sum_ite_eq', ite_mul]
    rw [hys, Finset.sum_eq_single i]
    · rw [hw, itI, if_pos rfl, one_mul]; rfl
    · intro q hq hqi; rw [hw, itI, if_neg (Ne.symm hqi), zero_mul]
    · intro hq; exact absurd (Finset.mem_range.2 hi) hq
  -- the loop over l
  set A : Nat → Nat → Nat → ℝ := fun i j e => if e < m - a then V.Z i j e else S.A i j e with hA
  have hA0 : ∀ i j e, a ≤ e → A i j e = 0 := fun i j e he => by
    simp only [hA]; rw [if_neg (by omega)]; exact hS.A0 i j e he
  have hAe : ∀ i < n, ∀ j : Fin n, ∀ e < m - a, A i j e = tc (fun t => fderiv ℝ (F p s par n i) (ξ t) (Pi.single j 1)) e := fun i hi j e he => by
    simp only [hA]; rw [if_pos he]; exact hZ i hi j e he
  set S1 : ITLoop := { S with A := A, rc := min (min S.rc H.rc) hrc } with hS1
  have key := foldlM_range' (m := m) (f := fun S l => itPass (tapeOf s' N par n n) rrc (ext x0) Y a H V.nz l S) (E := fun e => ∃ js X, e = .singular js X ∧ (∀ i k, ¬ (i < n ∧ 0 < k ∧ k ≤ d) → X i k = X0 i k) ∧ Rejected (tapeOf s' N par n n) rrc (ext x0))
    (Q := fun l S' => a ≤ l ∧ Inner p s par n d a Y S H A l S')
    (fun l S' hl hQ => by
      rcases pass_ok (rrc := rrc) h hdi par hn0 hr hspec hn hys hsm ha hm (Y := Y) (S0 := S) (H := H) (A := A) (nz := V.nz) hS.high hA0
        (fun i hi j hj => by
          rw [hAe i hi ⟨j, hj⟩ 0 (by omega), tc_zero, hξ0, jacM, dif_pos hj])
        (fun i hi j hj hz e he1 he2 => by
          simp only [hA]; rw [if_pos he2]; exact (v3 i hi ⟨j, hj⟩).2.2 hz e (by omega) he1)
        hl hQ.1 hQ.2 with ⟨S'', q1, q2⟩ | ⟨e, q1, ⟨js, q2⟩, q3⟩
      · exact .inl ⟨S'', q1, by omega, q2⟩
      · refine .inr ⟨e, q1, js, _, q2, fun i k hik => ?_, q3⟩
        rw [hQ.2.same i k fun hh => hik ⟨hh.1, by omega, by omega⟩]
        exact hS.outside i k hik)
    (m - a) a S1 (by omega) ⟨le_refl _, ⟨fun i k _ => rfl, hS.help, hS.help0, rfl, hS.good, le_min (le_min hS.rc hrcH) hr2, fun i hi r h1 h2 => by omega⟩⟩
  have e : itStage (tapeOf s' N par n n) rrc hrc (ext x0) Y a m S = (List.range' a (m - a)).foldlM (fun S l => itPass (tapeOf s' N par n n) rrc (ext x0) Y a H V.nz l S) S1 := by
    unfold itStage
    simp only [show (tapeOf s' N par n n).par = par from rfl, show (tapeOf s' N par n n).ops = s'.tape N from rfl, show (tapeOf s' N par n n).n = n from rfl]
    rw [← hξ0, a1]
    simp only [itSweep, hfwd, Bind.bind, Except.bind]
    rw [v1]
    simp only [hrev]
    rw [hξ0]
  rw [e]
  rcases key with ⟨S', k1, _, k2⟩ | ⟨e, k1, k2⟩
  swap
  · exact .inr ⟨e, k1, k2⟩
  refine .inl ⟨S', k1, ?_⟩
  have hlow : ∀ i k, k < a → S'.X i k = S.X i k := fun i k hk => k2.same i k fun hh => by omega
  refine ⟨fun i => by rw [hlow i 0 (by omega)]; exact hS.base i, fun i k hk => ?_, fun i hi k h1 h3 => ?_, k2.help, k2.help0, fun i j e he => ?_, k2.good, k2.rc, ?_⟩
  · rw [k2.same i k fun hh => hk ⟨hh.1, by omega, by omega⟩]; exact hS.outside i k hk
  · rw [k2.same i k fun hh => by omega]; exact hS.high i hi k (by omega) h3
  · rw [k2.mat]; exact hA0 i j e (by omega)
  · intro i hi l hl hl0
    have hη : ContDiffAt ℝ ∞ (path d S'.X : ℝ → Fin n → ℝ) 0 := path_smooth d S'.X
    have hη0 : (path d S'.X 0 : Fin n → ℝ) = x0 := by
      rw [path_zero]; funext i; rw [hlow i 0 (by omega)]; exact hS.base i
    have hper := tc_perturb (hF i) hξ hη hξ0 hη0 (a := a) (fun j k hk => by
      rw [path_tc d S'.X j (by omega), hξd, path_tc d S.X j (by omega), hlow j k hk]) (l := l) (by omega)
    rw [hper]
    have hδ : ∀ j : Fin n, ∀ k ≤ d, tc (fun t => (path d S'.X t : Fin n → ℝ) j - ξ t j) k = S'.X j k - S.X j k := fun j k hk => by
      rw [tc_sub (smooth_pi hη j) (smooth_pi hξ j), path_tc d S'.X j hk, hξd, path_tc d S.X j hk]
    have hmul : ∀ j : Fin n, tc (fun t => fderiv ℝ (F p s par n i) (ξ t) (Pi.single j 1) * ((path d S'.X t : Fin n → ℝ) j - ξ t j)) l =
        ∑ k ∈ Finset.range (l + 1), tc (fun t => fderiv ℝ (F p s par n i) (ξ t) (Pi.single j 1)) k * (S'.X j (l - k) - S.X j (l - k)) := by
      intro j
      rw [tc_mul (((hF i).part _).comp_smooth hξ hξ0) ((smooth_pi hη j).sub (smooth_pi hξ j))]
      refine Finset.sum_congr rfl fun k hk => ?_
      rw [hδ j (l - k) (by omega)]
    by_cases hla : l < a
    · have hz : ∀ j : Fin n, tc (fun t => fderiv ℝ (F p s par n i) (ξ t) (Pi.single j 1) * ((path d S'.X t : Fin n → ℝ) j - ξ t j)) l = 0 := by
        intro j
        rw [hmul j]
        refine Finset.sum_eq_zero fun k hk => ?_
        rw [hlow j (l - k) (by omega), sub_self, mul_zero]
      rw [Finset.sum_congr rfl fun j _ => hz j, Finset.sum_const_zero, add_zero]
      exact hS.tc i hi l hla hl0
    · have hmul' : ∀ j : Fin n, tc (fun t => fderiv ℝ (F p s par n i) (ξ t) (Pi.single j 1) * ((path d S'.X t : Fin n → ℝ) j - ξ t j)) l =
          ∑ k ∈ Finset.range (l - a + 1), A i j k * S'.X j (l - k) := by
        intro j
        rw [hmul j, show l + 1 = (l - a + 1) + a by omega, Finset.sum_range_add]
        have hz : ∑ x ∈ Finset.range a, tc (fun t => fderiv ℝ (F p s par n i) (ξ t) (Pi.single j 1)) (l - a + 1 + x) *
            (S'.X j (l - (l - a + 1 + x)) - S.X j (l - (l - a + 1 + x))) = 0 := by
          refine Finset.sum_eq_zero fun k hk => ?_
          have := Finset.mem_range.1 hk
          rw [hlow j (l - (l - a + 1 + k)) (by omega), sub_self, mul_zero]
        rw [hz, add_zero]
        refine Finset.sum_congr rfl fun k hk => ?_
        have := Finset.mem_range.1 hk
        rw [hAe i hi j k (by omega), hS.high j j.2 (l - k) (by omega) (by omega), sub_zero]
      have hval : tc (fun t => F p s par n i (ξ t)) l = (H.y[i]?.getD fun _ => 0) l := (a3 i (by rw [hys]; exact hi) l (by omega)).symm
      have hq := k2.eq i hi l (by omega) hl
      rw [Finset.sum_congr rfl fun j _ => hmul' j, hval]
      rw [Finset.sum_range] at hq
      linarith


include hr2 habs in
theorem stages_ok {d : Nat} {X0 Y : Nat → Nat → ℝ} {S : ITLoop} (hS : Known p s par x0 d X0 Y 1 S) : ∀ m, 1 ≤ m → m ≤ d + 1 →
    (∃ S', itStages (tapeOf s' N par n n) rrc hrc (ext x0) Y (halves m) S = .ok S' ∧ Known p s par x0 d X0 Y m S') ∨
      ∃ e, itStages (tapeOf s' N par n n) rrc hrc (ext x0) Y (halves m) S = .error e ∧ ∃ js X, e = .singular js X ∧ (∀ i k, ¬ (i < n ∧ 0 < k ∧ k ≤ d) → X i k = X0 i k) ∧ Rejected (tapeOf s' N par n n) rrc (ext x0) := by
  intro m
  induction m using Nat.strong_induction_on with
  | _ m ih =>
    intro h1 hm
    by_cases hm1 : m ≤ 1
    · obtain rfl : m = 1 := by omega
      rw [show halves 1 = [1] by simp [halves]]
      exact .inl ⟨S, rfl, hS⟩
    · have e1 : halves m = m :: halves ((m + 1) / 2) := by rw [halves.eq_def, dif_neg hm1]
      obtain ⟨L, e2⟩ : ∃ L, halves ((m + 1) / 2) = (m + 1) / 2 :: L := by
        rw [halves.eq_def]; split_ifs <;> exact ⟨_, rfl⟩
      have i1 := ih ((m + 1) / 2) (by omega) (by omega) (by omega)
      rw [e2] at i1
      rw [e1, e2, itStages]
      rcases i1 with ⟨S1, j1, j2⟩ | ⟨e, j1, j2⟩
      · rw [j1]
        exact stage_ok h hdi par hn0 hr hr2 hspec hn hys hsm habs (by omega) (by omega) (by omega) hm j2
      · rw [j1]
        exact .inr ⟨e, rfl, j2⟩

include hr2 habs in
/-- The whole effect of a call. -/
theorem inv_ok {d : Nat} {X Y : Nat → Nat → ℝ} (hX : ∀ i : Fin n, X i 0 = x0 i) (c : ITStat) {js : JSState ℝ} (hg : Good (n := n) (jacM p s par) js) :
    ∃ code X', (inverseTaylorProp (tapeOf s' N par n n) rrc hrc d Y X c js).2.2 = .ok (code, X') ∧ (∀ i k, ¬ (i < n ∧ 0 < k ∧ k ≤ d) → X' i k = X i k) ∧
      ((code = -3 ∧ Rejected (tapeOf s' N par n n) rrc (ext x0)) ∨ (0 ≤ code ∧ Good (n := n) (jacM p s par) (inverseTaylorProp (tapeOf s' N par n n) rrc hrc d Y X c js).2.1 ∧
        ∀ i < n, ∀ l ≤ d, 0 < l → tc (fun t => F p s par n i (path d X' t)) l = Y i l)) := by
  have hat : At cfg s p par x0 := ⟨e0, hspec, hn, hys, Prog.smooth_rev (Prog.smooth_ho hsm.self_of_nhds)⟩
  have h0 : ∀ rc J, evJac (tapeOf s' N par n n) rrc (ext x0) = .ok (rc, J) → 0 ≤ rc := by
    intro rc J hJ
    obtain ⟨rc', J', q1, q2, _⟩ := evJac_ok h hdi par hn0 hat hr
    rw [hJ] at q1; cases q1; exact q2
  have tn : (tapeOf s' N par n n).n = n := rfl
  have hx : (fun i => if i < n then X i 0 else 0) = ext x0 := by
    rw [ext_if (n := n) (fun i => X i 0)]; congr 1; funext i; exact hX i
  set c1 : ITStat := c.enter n d X with hc1
  have hx2 : (fun i => if i < n then (if c1.cgd then { c1 with cgd := false, xold := ext x0 } else c1).xold i else 0) = ext x0 := by
    by_cases hc : c1.cgd = true
    · rw [if_pos hc]
      funext i
      simp only [ext]
      split_ifs <;> rfl
    · rw [if_neg hc, ← hx]
      funext i
      split_ifs with hi
      · by_contra hne
        apply hc
        rw [hc1, ITStat.enter]
        dsimp only
        rw [Bool.or_eq_true]
        right
        rw [List.any_eq_true]
        refine ⟨i, List.mem_range.2 hi, ?_⟩
        rw [bne_iff_ne]
        intro he
        apply hne
        rw [he]
        rfl
      · rfl
  -- the factorisation
  have hfac : ∃ code b, (if c1.cgd then jacSolv (tapeOf s' N par n n) rrc (ext x0) (fun _ => 0) 1 js else (js, .ok (3, fun _ => 0))).2 = .ok (code, b) ∧
      ((code = -3 ∧ Rejected (tapeOf s' N par n n) rrc (ext x0)) ∨ (0 ≤ code ∧ Good (n := n) (jacM p s par) (if c1.cgd then jacSolv (tapeOf s' N par n n) rrc (ext x0) (fun _ => 0) 1 js else (js, .ok (3, fun _ => 0))).1)) := by
    by_cases hc : c1.cgd = true
    · rw [if_pos hc]
      obtain ⟨code, b', q1, q2⟩ := call_ok h hdi par hn0 hr ⟨x0, fun _ => 0, 1⟩ hat hg (.inr (.inl rfl))
      have e : ext (fun _ : Fin n => (0:ℝ)) = fun _ => 0 := by funext i; simp [ext]
      dsimp only at q1 q2
      rw [e] at q1 q2
      refine ⟨code, b', q1, ?_⟩
      rcases q2 with q2 | q2
      · exact .inl ⟨q2.1, rejected_of h0 (by rw [q1, q2.1])⟩
      · exact .inr ⟨q2.1, q2.2.1⟩
    · rw [if_neg hc]
      exact ⟨3, _, rfl, .inr ⟨by norm_num, hg⟩⟩
  obtain ⟨code, b, f1, f2⟩ := hfac
  unfold inverseTaylorProp
  simp only [tn]
  rw [hx, ← hc1, hx2]
  simp only [f1]
  by_cases hc3 : code = -3
  · subst hc3
    rw [if_pos (by norm_num)]
    refine ⟨-3, X, rfl, fun _ _ _ => rfl, .inl ⟨rfl, ?_⟩⟩
    rcases f2 with f2 | ⟨f2, f3⟩
    · exact f2.2
    · omega
  · rcases f2 with f2 | ⟨f2, f3⟩
    · exact absurd f2.1 hc3
    · rw [if_neg (by omega)]
      have hK : Known p s par x0 d X Y 1 (⟨fun i k => if i < n ∧ 0 < k ∧ k ≤ d then 0 else X i k, fun _ _ => 0, fun _ _ _ => 0,
          (if c1.cgd then jacSolv (tapeOf s' N par n n) rrc (ext x0) (fun _ => 0) 1 js else (js, .ok (3, fun _ => 0))).1, min 3 code⟩ : ITLoop) := by
        constructor
        · intro i; dsimp only; rw [if_neg (fun hh => by omega)]; exact hX i
        · intro i k hik; dsimp only; rw [if_neg hik]
        · intro i hi k hk1 hk2; dsimp only; rw [if_pos ⟨hi, by omega, hk2⟩]
        · intro i hi k hk; dsimp only; rw [if_pos ⟨hi, by omega, by omega⟩]
        · intro i hi k; rfl
        · intro i j e he; rfl
        · exact f3
        · exact le_min (by norm_num) f2
        · intro i hi l hl hl0; omega
      have st := stages_ok (rrc := rrc) (hrc := hrc) h hdi par hn0 hr hr2 hspec hn hys hsm habs hK (d + 1) (by omega) (le_refl _)
      rcases st with ⟨S', k1, k2⟩ | ⟨e, k1, js', X', rfl, k2, k3⟩
      · rw [k1]
        exact ⟨S'.rc, S'.X, rfl, k2.outside, .inr ⟨k2.rc, k2.good, fun i hi l hl hl0 => k2.tc i hi l (by omega) hl0⟩⟩
      · rw [k1]
        exact ⟨-3, X', rfl, k2, .inl ⟨rfl, k3⟩⟩
end

/-- Two solutions with the same point, where the Jacobian is one to one, are the same. -/
theorem solves_unique (h : Traced cfg stock s p s' N) (par : Nat → ℝ) {x0 : Fin n → ℝ} (hx : Near cfg s p par x0) {d : Nat} {X X' Y : Nat → Nat → ℝ}
    (hX : ∀ i : Fin n, X i 0 = x0 i) (hX' : ∀ i : Fin n, X' i 0 = x0 i) (hinj : Function.Injective (fderiv ℝ (fun y (k : Fin n) => F p s par n k y) x0))
    (h1 : Solves p s par n d X Y) (h2 : Solves p s par n d X' Y) : ∀ i : Fin n, ∀ k ≤ d, X' i k = X i k := by
  obtain ⟨⟨e0, hspec, hn, hys⟩, hsm⟩ := hx
  have hho : ∀ᶠ x in 𝓝 x0, p.smooth .ho (ext x) par s.se := hsm.mono fun x h => Prog.smooth_ho h
  have hF : ∀ i, SmG (F p s par n i) x0 := fun i => F_smooth h par hspec hho i
  have key : ∀ k ≤ d, ∀ i : Fin n, X' i k = X i k := by
    intro k
    induction k using Nat.strong_induction_on with
    | _ k ih =>
      intro hk
      by_cases hk0 : k = 0
      · subst hk0; intro i; rw [hX, hX']
      · have hξ : ContDiffAt ℝ ∞ (path d X : ℝ → Fin n → ℝ) 0 := path_smooth d X
        have hη : ContDiffAt ℝ ∞ (path d X' : ℝ → Fin n → ℝ) 0 := path_smooth d X'
        have hξ0 : (path d X 0 : Fin n → ℝ) = x0 := by rw [path_zero]; funext i; exact hX i
        have hη0 : (path d X' 0 : Fin n → ℝ) = x0 := by rw [path_zero]; funext i; exact hX' i
        have hz : ∀ i : Fin n, ∑ j : Fin n, fderiv ℝ (F p s par n i) x0 (Pi.single j 1) * (X' j k - X j k) = 0 := by
          intro i
          have hper := tc_perturb (hF i) hξ hη hξ0 hη0 (a := k) (fun j q hq => by
            rw [path_tc d X' j (by omega), path_tc d X j (by omega), ih q hq (by omega)]) (l := k) (by omega)
          have a1 : tc (fun t => F p s par n i (path d X' t)) k = Y i k := h2 i i.2 k hk (by omega)
          have a2 : tc (fun t => F p s par n i (path d X t)) k = Y i k := h1 i i.2 k hk (by omega)
          rw [a1, a2] at hper
          have hz : ∑ j : Fin n, tc (fun t => fderiv ℝ (F p s par n i) (path d X t) (Pi.single j 1) * ((path d X' t : Fin n → ℝ) j - (path d X t : Fin n → ℝ) j)) k = 0 := by linarith
          rw [← hz]
          refine Finset.sum_congr rfl fun j _ => ?_
          rw [tc_mul (((hF i).part _).comp_smooth hξ hξ0) ((smooth_pi hη j).sub (smooth_pi hξ j)), Finset.sum_range_succ', Finset.sum_eq_zero, zero_add, tc_zero, hξ0, Nat.sub_zero,
            tc_sub (smooth_pi hη j) (smooth_pi hξ j), path_tc d X' j hk, path_tc d X j hk]
          intro q hq
          have := Finset.mem_range.1 hq
          rw [tc_sub (smooth_pi hη j) (smooth_pi hξ j), path_tc d X' j (by omega), path_tc d X j (by omega), ih _ (by omega) (by omega), sub_self, mul_zero]
        have hd : ∀ i : Fin n, DifferentiableAt ℝ (F p s par n i) x0 := fun i => (hF i).self_of_nhds.differentiableAt (by simp)
        have hv : fderiv ℝ (fun y (k : Fin n) => F p s par n k y) x0 (fun j => X' j k - X j k) = 0 := by
          funext i
          rw [(hasFDerivAt_pi.mpr fun k : Fin n => (hd k).hasFDerivAt).fderiv, ContinuousLinearMap.pi_apply]
          have e : (fun j : Fin n => X' j k - X j k) = ∑ j : Fin n, (X' j k - X j k) • (Pi.single j (1:ℝ) : Fin n → ℝ) := by
            funext j; simp [Finset.sum_apply, Pi.single_apply]
          rw [e, map_sum, Pi.zero_apply, ← hz i]
          refine Finset.sum_congr rfl fun j _ => ?_
          rw [map_smul, smul_eq_mul, mul_comm]
        have := hinj (hv.trans (map_zero _).symm)
        intro i
        have := congrFun this i
        simp only [Pi.zero_apply] at this
        linarith
  exact fun i k hk => key k hk i

theorem icalls_good (h : Traced cfg stock s p s' N) (hdi : p.disc ⟨Set.univ, ∅⟩) (par : Nat → ℝ) (hn0 : 0 < n) (habs : n ≤ 1 ∨ noAbs p) {rrc hrc : Int} (hr : 0 ≤ rrc) (hr2 : 0 ≤ hrc) :
    ∀ (L : List (ICall n)) (st : ITStat × JSState ℝ), Good (n := n) (jacM p s par) st.2 → (∀ a ∈ L, a.Valid cfg s p par) →
      (∀ r ∈ (icalls (tapeOf s' N par n n) rrc hrc st L).2, r ≠ .ok (-3)) → Good (n := n) (jacM p s par) (icalls (tapeOf s' N par n n) rrc hrc st L).1.2 := by
  intro L
  induction L with
  | nil => intro st hg _ _; exact hg
  | cons a L ih =>
    intro st hg hv hf
    have hv' : ∀ q ∈ L, q.Valid cfg s p par := fun q hq => hv q (List.mem_cons_of_mem _ hq)
    have hva := hv a (List.mem_cons_self ..)
    have hfa := hf _ (List.mem_cons_self ..)
    have hf' : ∀ r ∈ (icalls (tapeOf s' N par n n) rrc hrc (a.run (tapeOf s' N par n n) rrc hrc st).1 L).2, r ≠ .ok (-3) := fun r hr => hf r (List.mem_cons_of_mem _ hr)
    show Good (jacM p s par) (icalls (tapeOf s' N par n n) rrc hrc (a.run (tapeOf s' N par n n) rrc hrc st).1 L).1.2
    refine ih _ ?_ hv' hf'
    cases a with
    | solve a =>
      obtain ⟨code, b', q1, q2⟩ := call_ok h hdi par hn0 hr a hva.1 hg (.inr hva.2)
      simp only [ICall.run] at hfa ⊢
      rcases q2 with q2 | q2
      · rw [q1, q2.1] at hfa; exact absurd rfl hfa
      · exact q2.2.1
    | inv d Y X =>
      obtain ⟨⟨e0, hspec, hn, hys⟩, hsm⟩ := (hva : Near cfg s p par fun i : Fin n => X i 0)
      obtain ⟨code, X', q1, _, q2⟩ := inv_ok (rrc := rrc) (hrc := hrc) h hdi par hn0 hr hr2 hspec hn hys hsm habs (d := d) (Y := Y) (fun i => rfl) st.1 hg
      simp only [ICall.run] at hfa ⊢
      rcases q2 with q2 | q2
      · rw [q1, q2.1] at hfa; exact absurd rfl hfa
      · exact q2.2.1
    | other c => exact hg

/-- After any sequence of calls of `jac_solv` (modes 1 and 2) and `inverse_Taylor_prop` on the trace, and whatever has been done with other traces, none of which returned `-3`:
a call at any point at which the trace is valid and smooth returns; it changes nothing in `X` but the coefficients `1..d` of the `n` rows; and unless it returns `-3`, which it only does if the factorisation of the Jacobian at the point fails, the Taylor
polynomial it has written is mapped by `F` to the prescribed one, `Y`, and is the only one with this point if the Jacobian there is one to one.
`n ≤ 1 ∨ noAbs p`: see C41 (`fabs` in the reverse sweep with several rows). -/
theorem C55_inverse_taylor_partial (h : Traced cfg stock s p s' N) (hdi : p.disc ⟨Set.univ, ∅⟩) (par : Nat → ℝ) (hn0 : 0 < n) (habs : n ≤ 1 ∨ noAbs p) {rrc hrc : Int}
    (hr : 0 ≤ rrc) (hr2 : 0 ≤ hrc) (c : ITStat) (L : List (ICall n)) (hL : ∀ a ∈ L, a.Valid cfg s p par)
    (hfine : ∀ r ∈ (icalls (tapeOf s' N par n n) rrc hrc (c, JSState.init) L).2, r ≠ .ok (-3)) (d : Nat) (Y X : Nat → Nat → ℝ) (hx : Near cfg s p par fun i : Fin n => X i 0) :
    let st := (icalls (tapeOf s' N par n n) rrc hrc (c, JSState.init) L).1
    ∃ code X', (inverseTaylorProp (tapeOf s' N par n n) rrc hrc d Y X st.1 st.2).2.2 = .ok (code, X') ∧
      (∀ i k, ¬ (i < n ∧ 0 < k ∧ k ≤ d) → X' i k = X i k) ∧
      ((code = -3 ∧ Rejected (tapeOf s' N par n n) rrc (ext fun i : Fin n => X i 0)) ∨ (0 ≤ code ∧ Solves p s par n d X' Y ∧
        (Function.Injective (fderiv ℝ (fun y (k : Fin n) => F p s par n k y) fun i => X i 0) →
          ∀ Z : Nat → Nat → ℝ, (∀ i : Fin n, Z i 0 = X i 0) → Solves p s par n d Z Y → ∀ i : Fin n, ∀ k ≤ d, Z i k = X' i k))) := by
  intro st
  have hg := icalls_good (rrc := rrc) (hrc := hrc) h hdi par hn0 habs hr hr2 L (c, JSState.init) (by intro _ h; simp [JSState.init] at h) hL hfine
  have hx' := hx
  obtain ⟨⟨e0, hspec, hn, hys⟩, hsm⟩ := hx'
  obtain ⟨code, X', q1, q2, q3⟩ := inv_ok (rrc := rrc) (hrc := hrc) h hdi par hn0 hr hr2 hspec hn hys hsm habs (d := d) (Y := Y) (fun i => rfl) st.1 hg
  refine ⟨code, X', q1, q2, q3.imp id fun q3 => ⟨q3.1, q3.2.2, fun hinj Z hZ hs => ?_⟩⟩
  exact solves_unique h par hx (fun i => q2 i 0 fun hh => by omega) hZ hinj q3.2.2 hs

/-! ### The hypotheses can be met -/

theorem sq_hor (x par : Nat → ℝ) : sq.smooth .hor x par demoStart.se := by
  simp [JacSolv.sq, Prog.smooth, Stmt.smooth, Stmt.spec, demoStart, Rec.se, SE.set, SE.del, upd_apply, Bin.fn]

theorem sq_F (par : Nat → ℝ) : F sq demoStart par 1 0 = fun x => x 0 * x 0 := by
  funext x
  obtain ⟨e', g1, g2, g3⟩ := sq_spec (ext x) par
  simp [F, Prog.out, g1, g3, ext]

/-- `y = x * x` at `x = 1`: a history that contains a successful call of `inverse_Taylor_prop` and one for another trace; every point qualifies for the next call;
at 1 the Jacobian is one to one and accepted, so the call at 1 does not return `-3`. -/
theorem sq_meets (d : Nat) (Y : Nat → Nat → ℝ) (c : ITStat) : ∃ s', Traced demoCfg [] demoStart sq s' (s'.hw + 1) ∧ sq.disc ⟨Set.univ, ∅⟩ ∧
    (∀ x : Fin 1 → ℝ, Near demoCfg demoStart sq (fun _ => 0) x) ∧ ¬ Rejected (tapeOf s' (s'.hw + 1) (fun _ => 0) 1 1) 3 (ext ![1]) ∧
    Function.Injective (fderiv ℝ (fun y (k : Fin 1) => F sq demoStart (fun _ => 0) 1 k y) ![1]) ∧
    (∀ a ∈ [(ICall.inv d Y fun _ _ => 1 : ICall 1), .other c], a.Valid demoCfg demoStart sq (fun _ => 0)) ∧
    ∀ r ∈ (icalls (tapeOf s' (s'.hw + 1) (fun _ => 0) 1 1) 3 3 (ITStat.init, JSState.init) [(ICall.inv d Y fun _ _ => 1 : ICall 1), .other c]).2, r ≠ .ok (-3) := by
  obtain ⟨e, h1, h2, h3⟩ := sq_spec demoCfg.x demoCfg.par
  obtain ⟨s', h4, h5⟩ := traced_exists (stock := []) demo_alloc demo_start
    (by simp [JacSolv.sq, Prog.noFminLL, Stmt.notFminLL]) h1
  have hnear : ∀ x : Fin 1 → ℝ, Near demoCfg demoStart sq (fun _ => 0) x := fun x => by
    obtain ⟨e', g1, g2, g3⟩ := sq_spec (ext x) (fun _ => 0)
    exact ⟨⟨e', by rw [h5]; exact g1, g2, by simp [g3]⟩, .of_forall fun x => sq_hor _ _⟩
  have hdisc : sq.disc ⟨Set.univ, ∅⟩ := by simp [JacSolv.sq, Prog.disc, Stmt.disc, Stmt.discNext, Stmt.uses]
  have hp : HasFDerivAt (fun x : Fin 1 → ℝ => x 0) (ContinuousLinearMap.proj (R := ℝ) (φ := fun _ : Fin 1 => ℝ) 0) ![1] := (ContinuousLinearMap.proj (R := ℝ) (φ := fun _ : Fin 1 => ℝ) 0).hasFDerivAt
  have hrej : ¬ Rejected (tapeOf s' (s'.hw + 1) (fun _ => 0) 1 1) 3 (ext ![1]) := by
    obtain ⟨⟨e0, q1, q2, q3⟩, q4⟩ := hnear ![1]
    obtain ⟨rc, J, g1, g0, g2⟩ := evJac_ok h4 hdisc (fun _ => 0) one_pos ⟨e0, q1, q2, q3, Prog.smooth_rev (Prog.smooth_ho q4.self_of_nhds)⟩ (rrc := 3) (by norm_num)
    have hJ : J 0 0 = 2 := by
      rw [show J 0 0 = _ from g2 0 one_pos 0, sq_F, show (fun x : Fin 1 → ℝ => x 0 * x 0) = (fun x => x 0) * fun x => x 0 from rfl, (hp.mul hp).fderiv]
      simp
      norm_num
    intro hr
    have := hr rc J g1
    rw [show (tapeOf s' (s'.hw + 1) (fun _ => 0) 1 1).n = 1 from rfl] at this
    simp [Verif.Num.LU.factor, Verif.Num.LU.steps, Verif.Num.LU.pivot, hJ, Verif.Num.LU.eps] at this
    norm_num at this
  refine ⟨s', h4, hdisc, hnear, hrej, ?_, ?_, ?_⟩
  · have e : (fun y (k : Fin 1) => F sq demoStart (fun _ => 0) 1 k y) = fun y (k : Fin 1) => y 0 * y 0 := by
      funext y k
      obtain rfl : k = 0 := Subsingleton.elim _ _
      exact congrFun (sq_F fun _ => 0) y
    rw [e, show (fun (y : Fin 1 → ℝ) (k : Fin 1) => y 0 * y 0) = fun y k => ((fun x : Fin 1 → ℝ => x 0) * (fun x : Fin 1 → ℝ => x 0)) y from rfl, (hasFDerivAt_pi.mpr fun k : Fin 1 => (hp.mul hp)).fderiv]
    intro u v huv
    have := congrFun huv 0
    simp at this
    funext k
    obtain rfl : k = 0 := Subsingleton.elim _ _
    linarith
  · intro a ha
    simp only [List.mem_cons, List.not_mem_nil, or_false] at ha
    rcases ha with rfl | rfl
    · exact hnear _
    · trivial
  · have h1 : (fun i : Fin 1 => (fun _ _ => 1 : Nat → Nat → ℝ) i 0) = ![1] := by funext i; simp
    obtain ⟨⟨e0, q1, q2, q3⟩, q4⟩ := hnear fun i : Fin 1 => (fun _ _ => 1 : Nat → Nat → ℝ) i 0
    obtain ⟨code, X', g1, _, g2⟩ := inv_ok (rrc := 3) (hrc := 3) h4 hdisc (fun _ => 0) one_pos (by norm_num) (by norm_num) q1 q2 q3 q4 (.inl (le_refl _)) (d := d) (Y := Y) (X := fun _ _ => 1)
      (fun i => rfl) ITStat.init (js := JSState.init) (by intro _ h; simp [JSState.init] at h)
    intro r hr
    simp only [icalls, ICall.run, List.mem_cons, List.not_mem_nil, or_false] at hr
    rcases hr with rfl | rfl
    · rw [g1]
      rcases g2 with g2 | g2
      · rw [h1] at g2; exact absurd g2.2 hrej
      · intro he
        injection he with he
        have : code = -3 := he
        omega
    · intro he
      injection he with he
      omega

end Verif.Props.InvTaylor
