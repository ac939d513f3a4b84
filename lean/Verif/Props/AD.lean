import Verif.AD.RecordDeriv
import Verif.AD.RecordTotal
import Verif.AD.Restore
import Verif.AD.FovFos

/-!
Property theorems C09–C16, C19, C32, C33: tracing and first-order derivatives.

Reading guide.  `Prog` is a program on `adouble` objects; `Prog.spec x par p e` is its meaning
on plain numbers: final values of the objects, the outputs `ys` (the `>>=` calls) and the
outcomes of the comparisons it evaluates.  `Traced` says that the program was run between
`trace_on` and `trace_off`.  `tape` is what is on the trace then.  `zosRun`, `fosRun`, `fovRun`,
`revRun` are the sweeps; `.error .branchSwitch` is return code -1.
-/
set_option linter.all false
namespace Verif.Props.AD
open Verif.AD Elem

/-- The program `p` was executed between `trace_on` and `trace_off`: the store manager hands
out free locations (C01, C04), `s` is the state after `trace_on`, `s'` the state at `trace_off`
and `N` the size of the store then. -/
structure Traced {K : Type} [Scalar K] (cfg : RCfg K) (stock : List (Nat × List K)) (s : Rec K)
    (p : Prog K) (s' : Rec K) (N : Nat) : Prop where
  alloc : ∀ k L, cfg.alloc k L ∉ L
  start : s.Start stock
  recorded : p.record cfg s = some s'
  pos : 0 < N
  size : s'.hw ≤ N

section general
variable {K : Type} [Scalar K] {cfg : RCfg K} {stock : List (Nat × List K)} {s s' : Rec K} {p : Prog K}
  {N : Nat}

/-- Every program that is defined on plain numbers at the recording point (and does not call the
defective `fmin`) can be traced; the comparison outcomes on the trace are the program's. -/
theorem traced_exists (hal : ∀ k L, cfg.alloc k L ∉ L) (hs : s.Start stock) (hf : p.noFminLL)
    {e : SE K} {bs : List Bool} (h : p.spec cfg.x cfg.par s.se = some (e, bs)) :
    ∃ s', Traced cfg stock s p s' (s'.hw + 1) ∧ p.path cfg s = bs := by
  have hv : VSim s s.se := ⟨fun a => rfl, by rw [hs.ii]; rfl⟩
  obtain ⟨s', h1⟩ := record_total hal p hf hs.ok hv h
  obtain ⟨e', g1, _⟩ := Prog.values hal p hf hs.ok hv h1
  rw [h] at g1
  cases g1
  exact ⟨s', ⟨hal, hs, h1, by omega, by omega⟩, rfl⟩

/-- C09.  `zos_forward` at any point `x` (and parameters) at which the comparisons have the
outcomes they had when recording returns the outputs of the program at `x`. -/
theorem C09_zos_forward (h : Traced cfg stock s p s' N) (x par : Nat → K) (keep : Bool) {e : SE K}
    (hspec : p.spec x par s.se = some (e, p.path cfg s)) :
    ∃ z, zosRun ⟨x, par, keep⟩ (s'.tape N) ZS.init = .ok z ∧ z.y = e.ys := by
  rcases recorded_forward h.alloc p h.start h.recorded (fun _ => 0) ⟨x, par, keep⟩ N with
    ⟨e', z, h1, h2, h3, h4⟩ | ⟨h1, h2⟩
  · rw [hspec] at h1; cases h1; exact ⟨z, h2, h3⟩
  · exact absurd rfl (h2 e _ hspec)

/-- The integer a forward sweep returns. -/
def retCode (r : Except Stop (ZS K)) : Int :=
  match r with
  | .error e => e.code
  | .ok z => z.rc

/-- C10.  The return code of `zos_forward` is -1 exactly when some comparison of the program has
an outcome at `x` other than the recorded one; otherwise it is between 0 and 3. -/
theorem C10_branch_switch (h : Traced cfg stock s p s' N) (x par : Nat → K) (keep : Bool) :
    ((∃ e, p.spec x par s.se = some (e, p.path cfg s)) ∧
      0 ≤ retCode (zosRun ⟨x, par, keep⟩ (s'.tape N) ZS.init) ∧
      retCode (zosRun ⟨x, par, keep⟩ (s'.tape N) ZS.init) ≤ 3) ∨
    ((¬ ∃ e, p.spec x par s.se = some (e, p.path cfg s)) ∧
      retCode (zosRun ⟨x, par, keep⟩ (s'.tape N) ZS.init) = -1) := by
  rcases recorded_forward h.alloc p h.start h.recorded (fun _ => 0) ⟨x, par, keep⟩ N with
    ⟨e', z, h1, h2, h3, h4⟩ | ⟨h1, h2⟩
  · refine .inl ⟨⟨e', h1⟩, ?_⟩
    have h2' : zosRun ⟨x, par, keep⟩ (s'.tape N) ZS.init = .ok z := h2
    rw [h2']
    have := rc_run h2' (by simp [ZS.init]) (by simp [ZS.init])
    simp only [retCode, this]
    have key : ∀ (L : List Int) (r : Int), 0 ≤ r → r ≤ 3 → (∀ d ∈ L, 0 ≤ d) →
        0 ≤ L.foldl min r ∧ L.foldl min r ≤ 3 := by
      intro L
      induction L with
      | nil => intro r h0 h3 _; exact ⟨h0, h3⟩
      | cons d L ih =>
        intro r h0 h3 hL
        have := hL d (by simp)
        exact ih (min r d) (by omega) (by omega) fun d hd => hL d (by simp [hd])
    refine key _ _ (by simp [ZS.init]) (by simp [ZS.init]) ?_
    intro d hd
    have : ∀ (ops : List (Base K)) (z : ZS K), ∀ d ∈ degrees ⟨x, par, keep⟩ ops z, 0 ≤ d := by
      intro ops
      induction ops with
      | nil => intro z d hd; simp [degrees] at hd
      | cons o os ih =>
        intro z d hd
        simp only [degrees, List.mem_cons] at hd
        rcases hd with rfl | hd
        · exact (degree_le o z.T).2
        · split at hd
          · exact ih _ d hd
          · simp at hd
    exact this _ _ d hd
  · refine .inr ⟨fun ⟨e, he⟩ => h2 e _ he rfl, ?_⟩
    have h1' : zosRun ⟨x, par, keep⟩ (s'.tape N) ZS.init = .error .branchSwitch := h1
    rw [h1']; rfl

/-- C10.  A nonnegative return code is the minimum of 3 and the degrees of the executed
operations (`Base.degree`), for every trace. -/
theorem C10_return_code (c : Cfg K) (ops : List (Base K)) {z : ZS K}
    (h : zosRun c ops ZS.init = .ok z) :
    z.rc = (degrees c ops ZS.init).foldl min 3 := rc_run h (by simp [ZS.init]) (by simp [ZS.init])

/-- C10.  `fos_forward` stops on the same traces with the same code as `zos_forward`; otherwise
its code is not larger and the function values are the same. -/
theorem C10_fos (c : Cfg K) (v : Nat → K) (ops : List (Base K)) :
    (∃ e, fosRun c v ops FS.init = .error e ∧ zosRun c ops ZS.init = .error e) ∨
    (∃ f z, fosRun c v ops FS.init = .ok f ∧ zosRun c ops ZS.init = .ok z ∧ f.rc ≤ z.rc ∧ f.y = z.y) := by
  have := fos_zos_run c v ops (s := FS.init) (z := ZS.init) ⟨rfl, rfl, rfl, rfl, le_refl _⟩
  cases h1 : fosRun c v ops FS.init <;> cases h2 : zosRun c ops ZS.init <;> rw [h1, h2] at this
  · exact .inl ⟨_, rfl, by rw [show _ = _ from this]⟩
  · exact this.elim
  · exact this.elim
  · exact .inr ⟨_, _, rfl, rfl, this.rc, this.y⟩

/-- C12 (partial: traces on which no logarithm is taken at zero; see `C12_log_column`).  Column
`l` of `fov_forward` is `fos_forward` with column `l` of the seed matrix, values included; the
two stop on the same traces with the same code. -/
theorem C12_fov_columns_partial (c : Cfg K) (q : Nat) (V : Nat → Nat → K) (ops : List (Base K))
    (hlog : Along logArgNonzero c ops ZS.init) (l : Nat) (hl : l < q) :
    (∃ e, fovRun c q V ops VS.init = .error e ∧ fosRun c (fun i => V i l) ops FS.init = .error e) ∨
    (∃ w f, fovRun c q V ops VS.init = .ok w ∧ fosRun c (fun i => V i l) ops FS.init = .ok f ∧
      w.y = f.y ∧ w.dy.map (fun row => row[l]?.getD 0) = f.dy ∧ w.rc ≤ f.rc) := by
  have := fov_fos_run c (V := V) hl ops (s := VS.init) (f := FS.init) (z := ZS.init)
    ⟨rfl, fun _ => rfl, rfl, rfl, rfl, le_refl _⟩ ⟨rfl, rfl, rfl, rfl, le_refl _⟩ hlog
  cases h1 : fovRun c q V ops VS.init <;> cases h2 : fosRun c (fun i => V i l) ops FS.init <;>
    rw [h1, h2] at this
  · exact .inl ⟨_, rfl, by rw [show _ = _ from this]⟩
  · exact this.elim
  · exact this.elim
  · exact .inr ⟨_, _, rfl, rfl, this.y, this.dy, this.rc⟩

/-- C15.  For every traced program that follows the usage rules (`Prog.disc`: nothing is computed
from a variable after it was declared dependent, independents are declared on constants), all
weights `u` and directions `v`, at every point where the elementary operations executed have
the derivative the sweeps use (`regular`): `ū · v = u · ẏ`, and the reverse sweep consumes the
value stack exactly. -/
theorem C15_duality (h : Traced cfg stock s p s' N) (hd : p.disc ⟨Set.univ, ∅⟩) (x par u v : Nat → K)
    {f : FS K} (hf : fosRun ⟨x, par, true⟩ v (s'.tape N) FS.init = .ok f)
    (hreg : Along regular ⟨x, par, true⟩ (s'.tape N) ZS.init) :
    ∃ r, revRun u (s'.tape N) (RS.init f.ii f.dy.length f.stk) = .ok r ∧ r.stk = [] ∧
      ∑ i ∈ Finset.range f.ii, r.bar i * v i = ∑ j ∈ Finset.range f.dy.length, u j * f.dy[j]?.getD 0 := by
  obtain ⟨body, hb1, hb2⟩ := recorded_wf h.alloc p h.start hd h.recorded h.pos h.size
  rw [hb1] at hf hreg ⊢
  have hcnt := fos_ii_le hf
  simp only [FS.init, Nat.zero_add, List.length_nil] at hcnt
  obtain ⟨r, r1, r2, r3⟩ := full_reverse hb2 rfl u v hf hreg
  rw [← hcnt.1, ← hcnt.2.1] at r1
  rw [← hcnt.1] at r3
  exact ⟨r, r1, r2, r3⟩

/-- C16 (partial: programs without `adolc_vec_copy` / `adolc_vec_axpy`, see `C16_vec_copy_order`).
For every traced program, at every point, whatever is overwritten: split the recorded
operations after `pre`.  When the reverse sweep has undone the operations after `pre`, it has
exactly the values the forward sweep had after `pre` (`z1`). -/
theorem C16_values_restored_partial (h : Traced cfg stock s p s' N) (x par u : Nat → K) (n m : Nat)
    {z : ZS K} (hz : zosRun ⟨x, par, true⟩ (s'.tape N) ZS.init = .ok z) :
    ∃ body, s'.tape N = (stock.map fun q => Base.takeStock q.1 q.2) ++ body ++ [.deathNot 0 (N - 1)] ∧
      ∀ pre post, body = pre ++ post → ∃ z1 r,
        zosRun ⟨x, par, true⟩ ((stock.map fun q => Base.takeStock q.1 q.2) ++ pre) ZS.init = .ok z1 ∧
        revRun u (post ++ [.deathNot 0 (N - 1)]) (RS.init n m z.stk) = .ok r ∧
        r.T = z1.T ∧ r.stk = z1.stk := by
  obtain ⟨body, hb1, hb2⟩ := static_body h.alloc p h.start h.recorded
  refine ⟨body, by unfold Rec.tape; rw [hb1], fun pre post hpp => ?_⟩
  have htape : s'.tape N = ((stock.map fun q => Base.takeStock q.1 q.2) ++ pre) ++
      (post ++ [.deathNot 0 (N - 1)]) := by
    unfold Rec.tape; rw [hb1, hpp]; simp
  rw [htape, zosRun_append] at hz
  split at hz
  · cases hz
  · rename_i z1 h1
    have hw : s.hw ≤ s'.hw := recorded_wf.hw_mono p h.recorded
    have hbnd : ∀ o ∈ ((stock.map fun q => Base.takeStock q.1 q.2) ++ pre : List (Base K)), o.bounded N := by
      intro o ho
      rcases List.mem_append.1 ho with ho | ho
      · obtain ⟨q, hq, rfl⟩ := List.mem_map.1 ho
        have := stock_bounded h.start q hq
        have := h.size
        simp only [Base.bounded]; omega
      · exact bounded_mono h.size (hb2 o (by rw [hpp]; simp [ho])).2
    obtain ⟨r, r1, r2, r3⟩ := restore_suffix h.pos (c := ⟨x, par, true⟩) rfl (u := u) (n := n) (m := m) hz
      (fun o ho => ⟨(hb2 o (by rw [hpp]; simp [ho])).1, bounded_mono h.size (hb2 o (by rw [hpp]; simp [ho])).2⟩)
      (fun l hl => by rw [zosRun_beyond hbnd h1 l hl]; rfl)
    exact ⟨z1, r, h1, r1, r2, r3⟩
where
  stock_bounded {s : Rec K} {stock : List (Nat × List K)} (hs : s.Start stock) :
      ∀ q ∈ stock, q.1 + q.2.length ≤ s.hw := by
    rcases hs.stock with ⟨bs, rfl, hbs⟩ | ⟨rfl, hn⟩
    · have hlen : bs.flatten.length = s.hw := by rw [hbs]; simp
      have key : ∀ (bs : List (List K)) (k : Nat), ∀ p ∈ stockBlocks k bs,
          p.1 + p.2.length ≤ k + bs.flatten.length := by
        intro bs
        induction bs with
        | nil => intro k p hp; simp [stockBlocks] at hp
        | cons vs bs ih =>
          intro k p hp
          simp only [stockBlocks, List.mem_cons] at hp
          simp only [List.flatten_cons, List.length_append]
          rcases hp with rfl | hp
          · simp
          · have := ih _ p hp; omega
      intro p hp
      have := key bs 0 p hp
      omega
    · intro p hp; simp at hp

/-- C19.  Whatever temporaries the recorder eliminates (`fuse`, `fuse'` are arbitrary choices of
where the rewrite `t = a*b; y += t` ⇒ `y += a*b` fires) and however it reuses locations
(`alloc`, `alloc'`), the recorded traces compute the same outputs at every point at which both
do not stop, and stop at the same points. -/
theorem C19_temporaries {cfg' : RCfg K} {s1 : Rec K} {N' : Nat}
    (h : Traced cfg stock s p s' N) (h' : Traced cfg' stock s p s1 N')
    (hp : p.path cfg s = p.path cfg' s) (x par : Nat → K) (keep : Bool) :
    (∃ z z', zosRun ⟨x, par, keep⟩ (s'.tape N) ZS.init = .ok z ∧
      zosRun ⟨x, par, keep⟩ (s1.tape N') ZS.init = .ok z' ∧ z.y = z'.y) ∨
    (zosRun ⟨x, par, keep⟩ (s'.tape N) ZS.init = .error .branchSwitch ∧
      zosRun ⟨x, par, keep⟩ (s1.tape N') ZS.init = .error .branchSwitch) := by
  rcases recorded_forward h.alloc p h.start h.recorded (fun _ => 0) ⟨x, par, keep⟩ N with
    ⟨e, z, h1, h2, h3, h4⟩ | ⟨h1, h2⟩ <;>
  rcases recorded_forward h'.alloc p h'.start h'.recorded (fun _ => 0) ⟨x, par, keep⟩ N' with
    ⟨e', z', h1', h2', h3', h4'⟩ | ⟨h1', h2'⟩
  · rw [hp, h1'] at h1
    cases h1
    exact .inl ⟨z, z', h2, h2', by rw [h3, h3']⟩
  · exact absurd hp (h2' e _ h1)
  · exact absurd hp.symm (h2 e' _ h1')
  · exact .inr ⟨h1, h1'⟩

/-- C32 (partial: programs without `fmin(const adouble&, const adouble&)`, see
`C32_fmin_stores_location`).  While taping, every live adouble has the value the same program
on plain numbers computes, and the comparisons have the same outcomes. -/
theorem C32_values_while_taping_partial (h : Traced cfg stock s p s' N) (hf : p.noFminLL) :
    ∃ e, p.spec cfg.x cfg.par s.se = some (e, p.path cfg s) ∧
      ∀ a, e.vars a = (s'.env a).map s'.V := by
  obtain ⟨e, g1, g2⟩ := Prog.values h.alloc p hf h.start.ok (e := s.se)
    ⟨fun a => rfl, by rw [h.start.ii]; rfl⟩ h.recorded
  exact ⟨e, g1, g2.vars⟩

end general

section real
variable {cfg : RCfg ℝ} {stock : List (Nat × List ℝ)} {s s' : Rec ℝ} {p : Prog ℝ} {N : Nat}

/-- C11 (partial: not where `asin`, `acos`, `acosh`, `atanh` of a temporary has result ±1, see
`C11_asin_in_place`).  At every point `x0` on the recorded path at which the program's elementary functions
are differentiable, its outputs are differentiable functions of the independents and
`fos_forward` returns their values and the directional derivatives, for every direction. -/
theorem C11_fos_forward_partial (h : Traced cfg stock s p s' N) (par : Nat → ℝ) (keep : Bool) {n : Nat}
    (x0 : Fin n → ℝ) {e0 : SE ℝ} (hspec : p.spec (ext x0) par s.se = some (e0, p.path cfg s))
    (hsm : p.smooth .fwd (ext x0) par s.se) :
    ∃ D : Nat → (Fin n → ℝ) →L[ℝ] ℝ,
      (∀ j, HasFDerivAt (fun x => p.out (ext x) par s.se j) (D j) x0) ∧
      ∀ v : Fin n → ℝ, ∃ f, fosRun ⟨ext x0, par, keep⟩ (ext v) (s'.tape N) FS.init = .ok f ∧
        f.y = e0.ys ∧ f.dy.length = e0.ys.length ∧ ∀ j, f.dy[j]?.getD 0 = D j v :=
  recorded_derivative h.alloc p h.start h.recorded (fun _ => 0) par keep x0 hspec hsm N

/-- C13 (partial: not at `x = 0` in `pow(x, 1.0)`, see `C13_pow_one_at_zero`).  After a forward
sweep with keep at such a point, `fos_reverse` with weight `u` returns `uᵀ F'(x0)` and leaves
the value stack empty, for every program that follows the usage rules. -/
theorem C13_fos_reverse_partial (h : Traced cfg stock s p s' N) (hd : p.disc ⟨Set.univ, ∅⟩)
    (par : Nat → ℝ) {n : Nat} (x0 : Fin n → ℝ) {e0 : SE ℝ}
    (hspec : p.spec (ext x0) par s.se = some (e0, p.path cfg s)) (hn : e0.ii = n)
    (hsm : p.smooth .rev (ext x0) par s.se) (u : Nat → ℝ) :
    ∃ z, zosRun ⟨ext x0, par, true⟩ (s'.tape N) ZS.init = .ok z ∧
    ∃ D : Nat → (Fin n → ℝ) →L[ℝ] ℝ,
      (∀ j, HasFDerivAt (fun x => p.out (ext x) par s.se j) (D j) x0) ∧
      ∃ r, revRun u (s'.tape N) (RS.init n e0.ys.length z.stk) = .ok r ∧ r.stk = [] ∧
        ∀ i : Fin n, r.bar i = ∑ j ∈ Finset.range e0.ys.length, u j * D j (Pi.single i 1) := by
  obtain ⟨z, hz, _⟩ := C09_zos_forward h (ext x0) par true hspec
  exact ⟨z, hz, recorded_gradient h.alloc p h.start h.recorded hd (fun _ => 0) par x0 hspec hn hsm h.pos
    h.size (fun _ _ => rfl) hz u⟩

/-- C33 (partial: programs without `fmin` of two lvalues and without the vector operations
`adolc_vec_copy`, `adolc_vec_axpy`; cells outside the store are represented as 0).  After `trace_on(tag, 1)` … `trace_off()` the value stack the recorder has written lets
`fos_reverse` return `uᵀ F'(x)` at the recording point without any forward sweep. -/
theorem C33_reverse_after_taping_partial (h : Traced cfg stock s p s' N) (hk : cfg.keep = true)
    (hf : p.noFminLL) (hd : p.disc ⟨Set.univ, ∅⟩) {n : Nat} (x0 : Fin n → ℝ) (hx : cfg.x = ext x0)
    {e0 : SE ℝ} (hspec : p.spec (ext x0) cfg.par s.se = some (e0, p.path cfg s)) (hn : e0.ii = n)
    (hsm : p.smooth .rev (ext x0) cfg.par s.se) (hV : ∀ l, N ≤ l → s.V l = 0) (u : Nat → ℝ) :
    ∃ D : Nat → (Fin n → ℝ) →L[ℝ] ℝ,
      (∀ j, HasFDerivAt (fun x => p.out (ext x) cfg.par s.se j) (D j) x0) ∧
      ∃ r, revRun u (s'.tape N) (RS.init n e0.ys.length (s'.endStk N)) = .ok r ∧ r.stk = [] ∧
        ∀ i : Fin n, r.bar i = ∑ j ∈ Finset.range e0.ys.length, u j * D j (Pi.single i 1) := by
  obtain ⟨z, hz, hst⟩ := recorded_stack h.alloc hk p hf h.start h.recorded h.pos
  rw [hx] at hz
  rw [← hst]
  exact recorded_gradient h.alloc p h.start h.recorded hd s.V cfg.par x0 hspec hn hsm h.pos h.size hV hz u

/-! ### A concrete program meeting the hypotheses -/

/-- `adouble a, b; a <<= x0; b <<= x1; adouble c = a*b; adouble t = exp(a); t2 = a*t; c += move(t2);
if (c > 0) c >>= y0; else { c = -c; c >>= y0; }` with an overwritten variable. -/
noncomputable def demo : Prog ℝ :=
  .stmt (.new 0) <| .stmt (.indep 0) <| .stmt (.new 1) <| .stmt (.indep 1) <|
  .stmt (.new 2) <| .stmt (.bin .mult true 0 1 2) <| .stmt (.new 3) <| .stmt (.un .exp 0 3) <|
  .stmt (.new 4) <| .stmt (.bin .mult true 0 3 4) <| .stmt (.accR false 2 4) <|
  .stmt (.setA 0 3) <|
  .branch .gt 2 (.stmt (.dep 2) .done) (.stmt (.un .neg 2 2) <| .stmt (.dep 2) .done)

noncomputable def demoCfg : RCfg ℝ := ⟨true, fun _ L => L.foldr max 0 + 1, fun _ => true, fun _ => 1, fun _ => 0⟩
noncomputable def demoStart : Rec ℝ := ⟨fun _ => 0, [], [], fun _ => none, [], 0, 0, 0⟩

theorem demo_alloc : ∀ k L, demoCfg.alloc k L ∉ L := by
  intro k L h
  have : ∀ (L : List Nat), ∀ l ∈ L, l ≤ L.foldr max 0 := by
    intro L
    induction L with
    | nil => simp
    | cons a L ih =>
      intro l hl
      rcases List.mem_cons.1 hl with rfl | h
      · simp
      · simp [ih l h]
  have := this L _ h
  simp [demoCfg] at this

theorem demo_start : demoStart.Start [] :=
  ⟨by simp [demoStart], by simp [demoStart], by simp [demoStart], rfl, .inr ⟨rfl, fun _ => rfl⟩, rfl, rfl⟩

/-- The demo program at a point `(a, b)` with `a*b + a*exp a > 0`. -/
theorem demo_spec (x par : Nat → ℝ) (h : 0 < x 0 * x 1 + x 0 * Real.exp (x 0)) :
    ∃ e, demo.spec x par demoStart.se = some (e, [true]) ∧ e.ii = 2 ∧
      e.ys = [x 0 * x 1 + x 0 * Real.exp (x 0)] := by
  simp [demo, Prog.spec, Stmt.spec, demoStart, Rec.se, SE.set, SE.del, upd_apply, Bin.fn, Un.fn, Elem.exp, Cmp.holds]
  rw [if_pos h]
  simp

theorem demo_smooth (b : Sm) (x par : Nat → ℝ) (h : 0 < x 0 * x 1 + x 0 * Real.exp (x 0)) :
    demo.smooth b x par demoStart.se := by
  simp [demo, Prog.smooth, Stmt.smooth, Stmt.spec, demoStart, Rec.se, SE.set, SE.del, upd_apply, Bin.fn,
    Un.fn, Un.smooth, Elem.exp, Cmp.holds]
  exact h.ne'

theorem demo_disc : demo.disc ⟨Set.univ, ∅⟩ := by
  simp [demo, Prog.disc, Stmt.disc, Stmt.discNext, Stmt.uses]

example : demo.noFminLL := by simp [demo, Prog.noFminLL, Stmt.notFminLL]

/-- All hypotheses of C09–C16, C19, C32, C33 hold for the demo program, at infinitely many points. -/
example : ∃ s', Traced demoCfg [] demoStart demo s' (s'.hw + 1) ∧
    (∀ x0 : Fin 2 → ℝ, 0 < x0 0 → 0 < x0 1 →
      (∃ e, demo.spec (ext x0) (fun _ => 0) demoStart.se = some (e, demo.path demoCfg demoStart) ∧ e.ii = 2) ∧
      demo.smooth .rev (ext x0) (fun _ => 0) demoStart.se) := by
  obtain ⟨e, h1, h2, h3⟩ := demo_spec demoCfg.x demoCfg.par (by
    simp only [demoCfg]; positivity)
  obtain ⟨s', h4, h5⟩ := traced_exists (stock := []) demo_alloc demo_start
    (by simp [demo, Prog.noFminLL, Stmt.notFminLL]) h1
  refine ⟨s', h4, fun x0 p0 p1 => ?_⟩
  have hpos : 0 < ext x0 0 * ext x0 1 + ext x0 0 * Real.exp (ext x0 0) := by
    have e0 : ext x0 0 = x0 0 := by simp [ext]
    have e1 : ext x0 1 = x0 1 := by simp [ext]
    rw [e0, e1]; positivity
  obtain ⟨e', g1, g2, _⟩ := demo_spec (ext x0) (fun _ => 0) hpos
  exact ⟨⟨e', by rw [h5]; exact g1, g2⟩, demo_smooth .rev _ _ hpos⟩

/-! ### Where the code deviates (the reason for the `_partial` statements) -/

/-- C12 fails at `log(0)`: with two directions `-1` and `1` the second column of `fov_forward` is
`nan`, while `fos_forward` in direction `1` gives `1/0` (uni5_for.cpp:3317-3343: `divs` is set to
`nan` by the first column and stays so). -/
theorem C12_log_column {K : Type} [Scalar K] (hn : (nan : K) ≠ 1 / 0) :
    ∃ w f, fovRun (⟨fun _ => 0, fun _ => 0, false⟩ : Cfg K) 2 (fun _ l => if l = 0 then -1 else 1)
        [.assignInd 0, .logOp 0 1, .assignDep 1] VS.init = .ok w ∧
      fosRun (⟨fun _ => 0, fun _ => 0, false⟩ : Cfg K) (fun _ => 1) [.assignInd 0, .logOp 0 1, .assignDep 1]
        FS.init = .ok f ∧
      w.dy.map (fun row => row[1]?.getD 0) ≠ f.dy := by
  simp [fovRun, fovStep, fosRun, fosStep, VS.init, FS.init, VS.up, VS.down, VS.set, VS.setC, FS.set, FS.setD,
    FS.push, List.range_succ, upd_apply] at hn ⊢
  exact hn

/-- C11 fails for `asin(std::move(x))` (result in the place of the argument) when the *result* is 1:
at `x = sin 1`, where the derivative is `1 / cos 1`, `fos_forward` returns `nan` (here 0). -/
theorem C11_asin_in_place :
    ∃ f, fosRun (⟨fun _ => Real.sin 1, fun _ => 0, false⟩ : Cfg ℝ) (fun _ => 1)
        [.assignInd 0, .assignD 1 (1 / Real.cos 1), .quad .asin 0 1 0, .assignDep 0] FS.init = .ok f ∧
      f.y = [1] ∧ f.dy = [nan] ∧
      HasDerivAt Real.arcsin (1 / Real.cos 1) (Real.sin 1) ∧ (1 / Real.cos 1) ≠ (nan : ℝ) := by
  have hc : 0 < Real.cos 1 := Real.cos_one_pos
  have ha : Real.arcsin (Real.sin 1) = 1 :=
    Real.arcsin_sin (by linarith [Real.pi_pos]) (by linarith [Real.one_le_pi_div_two])
  refine ⟨_, rfl, ?_, ?_, ?_, ?_⟩
  · simp [FS.init, FS.set, FS.setD, FS.push, Quad.fn, Elem.asin, upd_apply, ha]
  · simp [FS.init, FS.set, FS.setD, FS.push, Quad.fn, Elem.asin, upd_apply, quadTangent, ha]
  · have h := Real.hasDerivAt_arcsin (x := Real.sin 1)
      (by intro h; have := Real.sin_sq_add_cos_sq 1; rw [h] at this; nlinarith)
      (by intro h; have := Real.sin_sq_add_cos_sq 1; rw [h] at this; nlinarith)
    refine h.congr_deriv ?_
    rw [← Real.cos_sq', Real.sqrt_sq hc.le]
  · show _ ≠ (0 : ℝ)
    positivity

/-- C13/C15 fail for `pow(x, 1.0)` at `x = 0`: the derivative is 1 (and `fos_forward` returns 1),
`fos_reverse` returns 0 (fo_rev.cpp:1396). -/
theorem C13_pow_one_at_zero :
    ∃ f r, fosRun (⟨fun _ => 0, fun _ => 0, true⟩ : Cfg ℝ) (fun _ => 1)
        [.assignInd 0, .powOp 0 1 1, .assignDep 1, .deathNot 0 1] FS.init = .ok f ∧
      revRun (fun _ => 1) [.assignInd 0, .powOp 0 1 1, .assignDep 1, .deathNot 0 1] (RS.init 1 1 f.stk) = .ok r ∧
      f.dy = [1] ∧ r.bar 0 = 0 := by
  simp [fosRun, fosStep, FS.init, FS.set, FS.setD, FS.push, powZeroTangent, Elem.pow, revRun, revStep, RS.init,
    RS.pop, RS.setA, RS.addA, RS.un, List.range_succ, upd_apply, bind, Except.bind, pure, Except.pure]

/-- C13 fails if a variable declared dependent is used afterwards: for `y0 = x; y1 = 2 x` recorded as
`x >>= y0; z = 2*x; z >>= y1` the reverse sweep returns `u0` instead of `u0 + 2 u1`
(fo_rev.cpp:742 assigns instead of adding).  This is the reason for `Prog.disc`. -/
theorem C13_dependent_used_later (u : Nat → ℝ) :
    ∃ f r, fosRun (⟨fun _ => 3, fun _ => 0, true⟩ : Cfg ℝ) (fun _ => 1)
        [.assignInd 0, .assignDep 0, .multDA 0 1 2, .assignDep 1, .deathNot 0 1] FS.init = .ok f ∧
      revRun u [.assignInd 0, .assignDep 0, .multDA 0 1 2, .assignDep 1, .deathNot 0 1] (RS.init 1 2 f.stk)
        = .ok r ∧ f.dy = [1, 2] ∧ r.bar 0 = u 0 := by
  simp [fosRun, fosStep, FS.init, FS.set, FS.setD, FS.push, revRun, revStep, RS.init,
    RS.pop, RS.setA, RS.addA, RS.un, List.range_succ, upd_apply, bind, Except.bind, pure, Except.pure]

/-- C16 fails for `adolc_vec_copy` of two elements: after undoing the copy onto locations 2, 3 the
reverse sweep has the old values of these two locations exchanged (fo_rev.cpp:2322-2346). -/
theorem C16_vec_copy_order (a b : ℝ) :
    ∃ z r, zosStep (⟨fun _ => 0, fun _ => 0, true⟩ : Cfg ℝ) (.vecCopy 0 2 2)
        ⟨fun l => if l = 2 then a else if l = 3 then b else 7, [], 3, 0, []⟩ = .ok z ∧
      revStep (fun _ => 0) (.vecCopy 0 2 2) ⟨z.T, fun _ => 0, z.stk, 0, 0, fun _ => 0⟩ = .ok r ∧
      r.T 2 = b ∧ r.T 3 = a := by
  simp [zosStep, ZS.push, ZS.set, revStep, RS.pop, RS.setA, RS.addA, List.range_succ, upd_apply, bind,
    Except.bind, pure, Except.pure]

/-- C32 fails for `fmin(const adouble&, const adouble&)`: with `a = 5`, `b = 7` the result holds the
*location* of `a` (here 2) while taping, although the function value is 5 (adouble.cpp:4707). -/
theorem C32_fmin_stores_location :
    ∃ s', Prog.record (⟨false, fun k _ => k + 2, fun _ => false, fun _ => 0, fun _ => 0⟩ : RCfg ℝ)
        (.stmt (.newD 0 5) <| .stmt (.newD 1 7) <| .stmt (.new 2) <| .stmt (.bin .fmin true 0 1 2) .done)
        demoStart = some s' ∧
      (s'.env 2).map s'.V = some 2 ∧
      ∃ e, Prog.spec (fun _ => 0) (fun _ => 0)
        (.stmt (.newD 0 5) <| .stmt (.newD 1 7) <| .stmt (.new 2) <| .stmt (.bin .fmin true 0 1 2) .done)
        demoStart.se = some (e, []) ∧ e.vars 2 = some (5 : ℝ) := by
  simp [Prog.record, Stmt.record, demoStart, Rec.take, Rec.next, Rec.rec1, Rec.put, Rec.keepT, Rec.val, Bin.recVal,
    upd_apply, Prog.spec, Stmt.spec, Rec.se, SE.set, Bin.fn, Elem.ofLoc]
  norm_num
end real

end Verif.Props.AD
