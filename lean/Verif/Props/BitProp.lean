import Verif.Sparse.BitProp
import Verif.Props.SparseFwdTight
import Verif.Props.SparseRev
/-!
Property C70: bit pattern propagation with the user's seeds.  Reading guide: `X i l` is word `l` of the seed of the independent
`i`, `Y[j] l` word `l` of the pattern of the dependent `j`; `U l j`, `Z l i` correspondingly in the reverse direction.  A direction `v` is *carried by*
bit `b` of word `l` when that bit is set in the seed of every independent in which `v` does not vanish.
-/
set_option linter.all false
namespace Verif.Props.BitProp
open Verif.AD Verif.Sparse Verif.Props.AD Verif.Props.Sparse

/-- Bit `b` of the word `w`. -/
def bit (w : Word) (b : Nat) : Prop := w.getLsbD b = true

theorem not_bit {w : Word} {b : Nat} : ¬ bit w b ↔ w.getLsbD b = false := by unfold bit; simp

/-- Statements for which propagation of `p` words in safe mode is right: not the two-argument conditional assignments
(`C20_condassign_s_drops`), and `fmin` only with one word (`C20_fmin_drops`). -/
def bitStmt {K : Type} (p : Nat) : Stmt K → Prop
  | .condS _ _ _ | .condEqS _ _ _ => False
  | .bin .fmin _ _ _ _ => p ≤ 1
  | _ => True

section real
variable {cfg : RCfg ℝ} {stock : List (Nat × List ℝ)} {s s' : Rec ℝ} {p : Prog ℝ} {N : Nat}

theorem ops_safe (h : Traced cfg stock s p s' N) {q : Nat} (hp : allStmts (bitStmt q) p) :
    ∀ o ∈ s'.tape N, Base.safeOk q o ∧ ∀ r k, o ≠ .setRef r k := by
  have hall : allStmts (emits (fun o : Base ℝ => Base.safeOk q o ∧ ∀ r k, o ≠ .setRef r k)) p := by
    clear h
    induction p with
    | done => trivial
    | stmt st k ih =>
      refine ⟨emits_patStmt (n := 64 * q) (by omega) ?_, ih hp.2⟩
      have := hp.1
      cases st <;> try exact this
      rename_i f a b c d
      cases f <;> try exact this
      simp only [patStmt, bitStmt] at this ⊢
      omega
    | branch c a t f iht ihf => exact ⟨iht hp.1, ihf hp.2⟩
  exact emits_tape h.alloc (P := fun o : Base ℝ => Base.safeOk q o ∧ ∀ r k, o ≠ .setRef r k)
    (by simp [Base.safeOk]) (by simp [Base.safeOk]) (by simp [Base.safeOk]) p hall h.start h.recorded N

theorem along_ok (h : Traced cfg stock s p s' N) (par : Nat → ℝ) (x : Nat → ℝ) {e0 : SE ℝ}
    (hspec : p.spec x par s.se = some (e0, p.path cfg s)) (hsm : p.smooth .fwd x par s.se) :
    Along (fun o T => powOk o T ∧ minOk o T) ⟨x, par, false⟩ (s'.tape N) ZS.init := by
  have hsmooth := recorded_smooth h.alloc p h.start h.recorded (fun _ => 0) ⟨x, par, false⟩ hspec hsm N
  refine Along_mono (fun o T ho => ⟨?_, ?_⟩) hsmooth
  · unfold powOk
    cases o <;> try trivial
    rename_i a r k
    intro hT
    have := ho.1
    simp only [smooth, hT] at this
    rcases this with h | ⟨h, _⟩ | ⟨_, h⟩
    · exact absurd h (lt_irrefl _)
    · exact absurd h (lt_irrefl _)
    · exact h
  · unfold minOk
    cases o <;> try trivial
    exact ho.1

/-- C70, `forward<Safe>` (partial: without the calls excluded by `bitStmt`).  With `q` words of any seeds `X` the sweep returns 3 and
one pattern per dependent; a bit that no seed contains is in no pattern; and whatever the point `x0` (on the recorded
path, where the elementary functions are differentiable) and the parameters: a bit that carries a direction along which a dependent
changes to first order is set in the pattern of that dependent. -/
theorem C70_forward_safe_partial (h : Traced cfg stock s p s' N) {q : Nat} (hp : allStmts (bitStmt q) p) (X : Nat → Nat → Word) :
    ∃ Y, bitForwardSafe q X (s'.tape N) = .ok (3, Y) ∧ Y.length = (s'.tape N).countP isDep ∧
      (∀ l b, (∀ i, ¬ bit (X i l) b) → ∀ y ∈ Y, ¬ bit (y l) b) ∧
      ∀ (n : Nat) (par : Nat → ℝ) (x0 : Fin n → ℝ) (e0 : SE ℝ),
        p.spec (ext x0) par s.se = some (e0, p.path cfg s) → p.smooth .fwd (ext x0) par s.se →
        Y.length = e0.ys.length ∧
        ∀ l < q, ∀ b, ∀ v : Fin n → ℝ, (∀ i : Fin n, v i ≠ 0 → bit (X i l) b) →
          ∀ j y, Y[j]? = some y → ∀ D : (Fin n → ℝ) →L[ℝ] ℝ, HasFDerivAt (fun x => p.out (ext x) par s.se j) D x0 →
            D v ≠ 0 → bit (y l) b := by
  have hops := ops_safe h hp
  obtain ⟨S, h1, h2⟩ := safe_run_total (p := q) X (fun o ho => (hops o ho).2) BS.init
  refine ⟨S.Y, by simp only [bitForwardSafe, h1], by simpa [BS.init] using h2, fun l b hX y hy => ?_, ?_⟩
  · rw [not_bit]
    exact (noBit_run (fun i => not_bit.1 (hX i)) (⟨by simp [BS.init], by simp [BS.init]⟩ : NoBit l b BS.init) h1).Y y hy
  · intro n par x0 e0 hspec hsm
    obtain ⟨_, hcnt⟩ := counts_of_spec h _ par hspec
    refine ⟨by rw [h2, hcnt]; simp [BS.init], fun l hl b v hv j y hy D hD hne => ?_⟩
    obtain ⟨D0, hD0, hf⟩ := C11_fos_forward_partial h par false x0 hspec hsm
    obtain ⟨f, f1, _, f2, f3⟩ := hf v
    have hcov := covers_run (z := ZS.init) hl (X := X) (b := b) (v := ext v) (fun i hb => by
        by_contra hh
        unfold ext at hh
        split_ifs at hh with hlt
        · have := hv ⟨i, hlt⟩ hh
          rw [bit, hb] at this; cases this
        · exact hh rfl) (fun o ho => (hops o ho).1)
      ⟨fun a _ => rfl, rfl, rfl, by simp [BS.init]⟩ ⟨rfl, rfl, rfl, rfl, le_refl _⟩
      (Along_mono (fun o T h => h.1) (along_ok h par _ hspec hsm)) h1 f1
    by_contra hb
    have := hcov.out j y hy (not_bit.1 hb)
    apply hne
    rw [hD.unique (hD0 j), ← f3 j, this]; rfl

/-- C70, `forward<Tight>` (partial: traces with `fwdTightOk`, which `C20_forward_tight_condassign` shows to be necessary).  At a base
point on the recorded path where the elementary functions are differentiable the sweep returns the function values and one pattern per dependent; a bit that no seed contains is in
no pattern; and a bit that carries a direction along which a dependent changes to first order is set in the pattern of that
dependent. -/
theorem C70_forward_tight_partial (h : Traced cfg stock s p s' N) {q : Nat} (hp : fwdTightOk (s'.tape N)) (X : Nat → Nat → Word)
    (G : Nat → ℝ) (n : Nat) (par : Nat → ℝ) (x0 : Fin n → ℝ) (e0 : SE ℝ)
    (hspec : p.spec (ext x0) par s.se = some (e0, p.path cfg s)) (hsm : p.smooth .fwd (ext x0) par s.se) :
    ∃ rc Y, bitForwardTight q X (some (ext x0)) par G (s'.tape N) = .ok (rc, e0.ys, Y) ∧ Y.length = e0.ys.length ∧
      (∀ l b, (∀ i, ¬ bit (X i l) b) → ∀ y ∈ Y, ¬ bit (y l) b) ∧
      ∀ l < q, ∀ b, ∀ v : Fin n → ℝ, (∀ i : Fin n, v i ≠ 0 → bit (X i l) b) →
        ∀ j y, Y[j]? = some y → ∀ D : (Fin n → ℝ) →L[ℝ] ℝ, HasFDerivAt (fun x => p.out (ext x) par s.se j) D x0 →
          D v ≠ 0 → bit (y l) b := by
  have hns := emits_tape h.alloc (P := fun o : Base ℝ => ∀ r k, o ≠ .setRef r k) (by simp) (by simp) (by simp) p
    (allStmts_all emits_noRef p) h.start h.recorded N
  obtain ⟨_, hcnt⟩ := counts_of_spec h _ par hspec
  obtain ⟨z, hz, hzy⟩ := C09_zos_forward h (ext x0) par false hspec
  have hreads := reads_stream hp G
  obtain ⟨t, ht, hlen, hev⟩ := ftight_total (p := q) (X := X) (s := TFS.init) hreads
    (⟨rfl, rfl, rfl, rfl⟩ : EqV (TFS.init : TFS ℝ).z ZS.init) hz
  refine ⟨t.z.rc, t.b.Y, by simp only [bitForwardTight, ht, hev.y, hzy], by rw [hlen, hcnt]; simp [TFS.init, BS.init],
    fun l b hX y hy => ?_, fun l hl b v hv j y hy D hD hne => ?_⟩
  · rw [not_bit]
    exact (ftight_noBit (fun i => not_bit.1 (hX i)) (⟨by simp [TFS.init, BS.init], by simp [TFS.init, BS.init]⟩ : NoBit l b (TFS.init : TFS ℝ).b) ht).Y y hy
  · obtain ⟨D0, hD0, hf⟩ := C11_fos_forward_partial h par false x0 hspec hsm
    obtain ⟨f, f1, _, f2, f3⟩ := hf v
    have hcov := ftight_covers (z := ZS.init) hl (X := X) (b := b) (v := ext v) (fun i hb => by
        by_contra hh
        unfold ext at hh
        split_ifs at hh with hlt
        · have := hv ⟨i, hlt⟩ hh
          rw [bit, hb] at this; cases this
        · exact hh rfl) hns
      (s := TFS.init) ⟨fun a _ => rfl, rfl, rfl, by simp [TFS.init, BS.init]⟩ ⟨rfl, rfl, rfl, rfl⟩
      ⟨rfl, rfl, rfl, rfl, le_refl _⟩ (along_ok h par _ hspec hsm) hreads ht f1
    by_contra hb
    have := hcov.out j y hy (not_bit.1 hb)
    apply hne
    rw [hD.unique (hD0 j), ← f3 j, this]; rfl

/-- C70: `forward<Tight>` without a base point throws, whatever the trace. -/
theorem C70_no_base_point (q : Nat) (X : Nat → Nat → Word) (par G : Nat → ℝ) (ops : List (Base ℝ)) :
    bitForwardTight q X none par G ops = .error .noBasePoint := rfl

theorem ops_rev (h : Traced cfg stock s p s' N) (hp : allStmts revStmt p) :
    ∀ o ∈ s'.tape N, Base.revOk o ∧ ∀ r k, o ≠ .setRef r k := by
  refine emits_tape h.alloc (P := fun o : Base ℝ => Base.revOk o ∧ ∀ r k, o ≠ .setRef r k)
    (by simp [Base.revOk]) (by simp [Base.revOk]) (by simp [Base.revOk]) p ?_ h.start h.recorded N
  clear h
  induction p with
  | done => trivial
  | stmt st k ih => exact ⟨emits_revStmt hp.1, ih hp.2⟩
  | branch q a t f iht ihf => exact ⟨iht hp.1, ihf hp.2⟩

/-- C70, `reverse<Safe>` (partial: without the calls excluded by `revStmt`).  With `q` words of any seeds `U` the sweep returns 3,
whatever `Z` contained before; a bit that no seed contains is in no pattern of an independent; and whatever
the point and the parameters: if bit `b` of word `l` is in the seed of every dependent with a nonzero weight, and the weighted sum of the
dependents changes to first order with the independent `i`, then that bit is set in `Z[l][i]`. -/
theorem C70_reverse_safe_partial (h : Traced cfg stock s p s' N) (hd : p.disc ⟨Set.univ, ∅⟩) (hp : allStmts revStmt p) {q : Nat}
    (U R0 : Nat → Nat → Word) :
    ∃ Z, bitReverseSafe q ((s'.tape N).countP isDep) (numInd (s'.tape N)) U R0 (s'.tape N) = .ok (3, Z) ∧
      (∀ l < q, ∀ b, (∀ j, ¬ bit (U l j) b) → ∀ i < numInd (s'.tape N), ¬ bit (Z l i) b) ∧
      ∀ (par : Nat → ℝ) (x0 : Fin (numInd (s'.tape N)) → ℝ) (e0 : SE ℝ),
        p.spec (ext x0) par s.se = some (e0, p.path cfg s) → p.smooth .rev (ext x0) par s.se →
        ∀ l < q, ∀ b, ∀ w : Nat → ℝ, (∀ j, w j ≠ 0 → bit (U l j) b) →
          ∀ D : (Fin (numInd (s'.tape N)) → ℝ) →L[ℝ] ℝ,
            HasFDerivAt (fun x => ∑ j ∈ Finset.range e0.ys.length, w j * p.out (ext x) par s.se j) D x0 →
            ∀ i : Fin (numInd (s'.tape N)), D (Pi.single i 1) ≠ 0 → bit (Z l i) b := by
  have hops := ops_rev h hp
  set ops := s'.tape N
  set m := ops.countP isDep with hm
  set n := numInd ops with hn
  obtain ⟨S, hS⟩ := revSafe_total q U (fun o ho => (hops o ho).2) (RBS.init n m R0)
  refine ⟨S.R, by simp only [bitReverseSafe, hS], fun l hl b hU i hi => ?_, ?_⟩
  · rw [not_bit]
    have := rnoBit_run (n := n) (k := n) hl (fun j => not_bit.1 (hU j)) (fun o ho => (hops o ho).1)
      (s := RBS.init n m R0) ⟨fun a => by simp [RBS.init], rfl, fun i h1 h2 => by omega⟩ hS
    exact this.out i (by omega) hi
  · intro par x0 e0 hspec hsm l hl b w hw D hD i hne
    obtain ⟨c1, c2⟩ := counts_of_spec h _ par hspec
    obtain ⟨z, hz, D0, hD0, r, hr, _, hbar⟩ := C13_fos_reverse_partial h hd par x0 hspec c1 hsm w
    have hcov := rcov_run (n := n) (b := b) hl (X := U) (u := w)
      (fun j hj => by by_contra hh; have := hw j hh; rw [bit, hj] at this; cases this) (fun o ho => (hops o ho).1)
      (s := RBS.init n m R0) (r := RS.init n e0.ys.length z.stk)
      ⟨fun x _ => rfl, rfl, by simp only [RBS.init, RS.init]; exact c2.symm, fun i h1 h2 => absurd h2 (by simp only [RS.init] at h1; omega)⟩ hS hr
    by_contra hb
    have h0 := hcov.out i (by rw [revRun_ii hr]; simp [RS.init, hn, ops]) i.2 (not_bit.1 hb)
    apply hne
    have hsum : HasFDerivAt (fun x => ∑ j ∈ Finset.range e0.ys.length, w j * p.out (ext x) par s.se j)
        (∑ j ∈ Finset.range e0.ys.length, w j • D0 j) x0 := by
      have := HasFDerivAt.fun_sum (u := Finset.range e0.ys.length) (fun j _ => (hD0 j).const_mul (w j))
      exact this
    rw [hD.unique hsum]
    rw [hbar i] at h0
    simpa using h0

/-- C70, `reverse<Tight>` (partial: traces with `tightOk`, which `C20_reverse_tight_division` shows to be necessary).  After
`zos_forward` with keep at a base point on the recorded path where the elementary functions are differentiable the sweep runs through, whatever `Z`
contained before; a bit that no seed contains is in no pattern; and a bit that is in the seed of every dependent with a
nonzero weight is set in the pattern of every independent with which the weighted sum of the dependents changes to first order. -/
theorem C70_reverse_tight_partial (h : Traced cfg stock s p s' N) (hd : p.disc ⟨Set.univ, ∅⟩)
    (hp : tightOk (s'.tape N)) {q : Nat} (U R0 : Nat → Nat → Word) (par : Nat → ℝ) (n : Nat) (x0 : Fin n → ℝ) (e0 : SE ℝ)
    (hspec : p.spec (ext x0) par s.se = some (e0, p.path cfg s)) (hii : e0.ii = n)
    (hsm : p.smooth .rev (ext x0) par s.se) (hq : 0 < q) :
    ∃ z, zosRun ⟨ext x0, par, true⟩ (s'.tape N) ZS.init = .ok z ∧
      ∃ Z, bitReverseTight q e0.ys.length n U R0 z.stk (s'.tape N) = .ok Z ∧
        (∀ l < q, ∀ b, (∀ j, ¬ bit (U l j) b) → ∀ i < n, ¬ bit (Z l i) b) ∧
        ∀ l < q, ∀ b, ∀ w : Nat → ℝ, (∀ j, w j ≠ 0 → bit (U l j) b) →
          ∀ D : (Fin n → ℝ) →L[ℝ] ℝ,
            HasFDerivAt (fun x => ∑ j ∈ Finset.range e0.ys.length, w j * p.out (ext x) par s.se j) D x0 →
            ∀ i : Fin n, D (Pi.single i 1) ≠ 0 → bit (Z l i) b := by
  obtain ⟨c1, c2⟩ := counts_of_spec h _ par hspec
  obtain ⟨z, hz, _⟩ := C09_zos_forward h (ext x0) par true hspec
  have key : ∀ l < q, ∀ b, ∀ w : Nat → ℝ, (∀ j, w j ≠ 0 → bit (U l j) b) →
      ∃ t, revTightRun q U (s'.tape N) (TRS.init n e0.ys.length R0 z.stk) = .ok t ∧
        ∀ D : (Fin n → ℝ) →L[ℝ] ℝ,
            HasFDerivAt (fun x => ∑ j ∈ Finset.range e0.ys.length, w j * p.out (ext x) par s.se j) D x0 →
            ∀ i : Fin n, D (Pi.single i 1) ≠ 0 → bit (t.b.R l i) b := by
    intro l hl b w hw
    obtain ⟨z', hz', D0, hD0, r, hr, _, hbar⟩ := C13_fos_reverse_partial h hd par x0 hspec hii hsm w
    rw [hz] at hz'; cases hz'
    obtain ⟨t, ht, hcov⟩ := tight_run (n := n) (b := b) hl (X := U) (u := w)
      (fun j hj => by by_contra hh; have := hw j hh; rw [bit, hj] at this; cases this) hp (s := TRS.init n e0.ys.length R0 z.stk)
      (r := RS.init n e0.ys.length z.stk)
      ⟨fun x _ => rfl, rfl, rfl, fun i h1 h2 => absurd h2 (by simp only [RS.init] at h1; omega)⟩ ⟨rfl, rfl⟩ hr
    refine ⟨t, ht, fun D hD i hne => ?_⟩
    by_contra hb
    have h0 := hcov.out i (by rw [revRun_ii hr]; simp [RS.init, ← c1, hii]) i.2 (not_bit.1 hb)
    apply hne
    have hsum : HasFDerivAt (fun x => ∑ j ∈ Finset.range e0.ys.length, w j * p.out (ext x) par s.se j)
        (∑ j ∈ Finset.range e0.ys.length, w j • D0 j) x0 := by
      have := HasFDerivAt.fun_sum (u := Finset.range e0.ys.length) (fun j _ => (hD0 j).const_mul (w j))
      exact this
    rw [hD.unique hsum]
    rw [hbar i] at h0
    simpa using h0
  obtain ⟨t, ht, _⟩ := key 0 hq 0 (fun _ => 0) (fun j hj => absurd rfl hj)
  refine ⟨z, hz, t.b.R, by simp only [bitReverseTight, ht], fun l hl b hU i hi => ?_, fun l hl b w hw D hD i hne => ?_⟩
  · rw [not_bit]
    have := trnoBit_run (n := n) (k := n) hl (fun j => not_bit.1 (hU j))
      (s := TRS.init n e0.ys.length R0 z.stk) ⟨fun a => by simp [TRS.init, RBS.init], rfl, fun i h1 h2 => by omega⟩ ht
    exact this.out i (by omega) hi
  · obtain ⟨t', ht', hc⟩ := key l hl b w hw
    rw [ht] at ht'; cases ht'
    exact hc D hD i hne

end real

/-! ## The hypotheses are met -/

example : allStmts (bitStmt 3) demo ∧ allStmts revStmt demo ∧ allStmts noCondStmt demo ∧ allStmts fetchStmt demo := by
  simp [demo, allStmts, bitStmt, revStmt, noCondStmt, fetchStmt]
/-- Bit 5 of word 1 carries the first unit direction when it is in the seed of the first independent. -/
example : ∀ i : Fin 2, (Pi.single 0 1 : Fin 2 → ℝ) i ≠ 0 →
    bit ((fun i l => if i = 0 ∧ l = 1 then (32 : Word) else 0 : Nat → Nat → Word) i 1) 5 := by
  intro i hi
  have : i = 0 := by by_contra h; exact hi (Pi.single_eq_of_ne h _)
  subst this
  unfold bit
  decide
/-- The demo program has a trace, and the sweep runs through on it with three words of any seeds. -/
example : ∃ s', Traced demoCfg [] demoStart demo s' (s'.hw + 1) ∧ ∀ X, ∃ Y, bitForwardSafe 3 X (s'.tape (s'.hw + 1)) = .ok (3, Y) := by
  obtain ⟨e, he, _⟩ := demo_spec demoCfg.x demoCfg.par (by simp [demoCfg]; positivity)
  obtain ⟨s', h1, _⟩ := traced_exists (stock := []) demo_alloc demo_start (by simp [demo, Prog.noFminLL, Stmt.notFminLL]) he
  refine ⟨s', h1, fun X => ?_⟩
  obtain ⟨Y, hY, _⟩ := C70_forward_safe_partial h1 (q := 3) (by simp [demo, allStmts, bitStmt]) X
  exact ⟨Y, hY⟩

end Verif.Props.BitProp
