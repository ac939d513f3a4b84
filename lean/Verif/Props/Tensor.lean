import Verif.Drivers.TensorRun
import Verif.Props.Drivers
import Verif.Props.Num

/-! # C43: `tensor_eval` -/
set_option linter.all false
namespace Verif.Props.Tensor
open Verif.AD Verif.Props.AD Verif.Drivers Verif.Props.Drivers Verif.Num.TensorCoef Verif.Num Verif.Num.Simplex Elem Filter Topology ContDiff

/-! ### Specification -/

/-- The directions in which a multi-index of `tensor_address` differentiates: entry `v ≥ 1` means direction `v - 1`, entry 0
means nothing. -/
def dirs (p : Nat) (multi : List Nat) : List (Fin p) :=
  multi.filterMap fun v => if h : 1 ≤ v ∧ v ≤ p then some ⟨v - 1, by omega⟩ else none

/-- The mixed partial derivative of `g` at `z` with respect to the listed coordinates. -/
noncomputable def partialD {p : Nat} (L : List (Fin p)) (g : (Fin p → ℝ) → ℝ) (z : Fin p → ℝ) : ℝ :=
  iteratedFDeriv ℝ L.length g z fun l => Pi.single (L.get l) 1

/-- The static variables of `tensor_eval` after some history of calls. -/
inductive Called : TCache → Prop
  | init : Called TCache.init
  | call {c : TCache} (h : Called c) (t : Tape ℝ) (d p : Nat) (hp : 1 ≤ p) (x : Nat → ℝ) (S : Nat → Nat → ℝ) (junk : TLoop) (ten : Nat → Nat → ℝ) :
      Called (tensorEval t d p x S junk c ten).1

/-! ### Proofs -/

theorem Called.ok {c : TCache} (h : Called c) : c.Ok := by
  induction h with
  | init => exact Or.inl rfl
  | call _ t d p hp x S junk ten ih => exact tensorEval_cache hp ih junk ten

theorem partialD_nil {p : Nat} (g : (Fin p → ℝ) → ℝ) (z : Fin p → ℝ) : partialD [] g z = g z := iteratedFDeriv_zero_apply _

theorem cnt_get {p : Nat} (L : List (Fin p)) (v : Fin p) : Mixed.cnt L.get v = L.count v := by
  unfold Mixed.cnt
  rw [Fintype.card_subtype, Finset.card_def, Finset.filter_val]
  have h := Multiset.count_map L.get Finset.univ.val v
  have e : (Finset.univ : Finset (Fin L.length)).val.map L.get = (L : Multiset (Fin p)) := by
    rw [Fin.univ_val_map, List.ofFn_get]
  rw [e, Multiset.coe_count] at h
  rw [h]
  congr 1
  exact Multiset.filter_congr fun l _ => eq_comm

theorem count_dirs {p : Nat} (multi : List Nat) (v : Fin p) : (dirs p multi).count v = multi.count ((v : Nat) + 1) := by
  induction multi with
  | nil => rfl
  | cons w L ih =>
    unfold dirs at ih ⊢
    rw [List.filterMap_cons, List.count_cons]
    by_cases h : 1 ≤ w ∧ w ≤ p
    · rw [dif_pos h]
      simp only [List.count_cons, ih]
      congr 1
      have : ((⟨w - 1, by omega⟩ : Fin p) = v) ↔ w = (v : Nat) + 1 := by
        rw [Fin.ext_iff]; show w - 1 = v ↔ _; omega
      simp only [beq_iff_eq, this]
    · rw [dif_neg h]
      simp only
      rw [ih, if_neg (by simp only [beq_iff_eq]; have := v.2; omega), add_zero]

section
variable {cfg : RCfg ℝ} {stock : List (Nat × List ℝ)} {s s' : Rec ℝ} {q : Prog ℝ} {N : Nat}

/-- The direction `S j` -/
noncomputable def dir {n p : Nat} (S : Fin n → Fin p → ℝ) (z : Fin p → ℝ) : Fin n → ℝ := fun i => ∑ r, S i r * z r

theorem multma_eq {n p : Nat} (S : Fin n → Fin p → ℝ) (jm : Nat → Nat → Nat) (i k : Nat) :
    multma p (fun i r => if h : i < n ∧ r < p then S ⟨i, h.1⟩ ⟨r, h.2⟩ else 0) jm i k = ext (dir S fun r => (jm k r : ℝ)) i := by
  have h : ∀ m (f : Nat → ℝ), (List.range m).foldl (fun sum j => sum + f j) 0 = ∑ j ∈ Finset.range m, f j := by
    intro m f
    induction m with
    | zero => rfl
    | succ m ih => rw [List.range_succ, List.foldl_append, ih, Finset.sum_range_succ]; rfl
  unfold multma
  rw [h, Finset.sum_range]
  by_cases hi : i < n
  · simp [ext, hi, dir]
  · simp [ext, hi]

theorem curve_line {n : Nat} {k : Nat} (hk : 1 ≤ k) (x0 v : Fin n → ℝ) (t : ℝ) :
    curve k x0 (fun i j => if j = 0 then v i else 0) t = x0 + t • v := by
  funext i
  obtain ⟨k, rfl⟩ : ∃ m, k = m + 1 := ⟨k - 1, by omega⟩
  simp only [curve, Pi.add_apply, Pi.smul_apply, smul_eq_mul]
  rw [Finset.sum_range_succ']
  simp [mul_comm]

/-- What the sweeps of `tensor_eval` compute. -/
theorem sweeps (h : Traced cfg stock s q s' N) (par : Nat → ℝ) {n m d p : Nat} (hd : 1 ≤ d) (x0 : Fin n → ℝ) (S : Fin n → Fin p → ℝ)
    {e0 : SE ℝ} (hspec : q.spec (ext x0) par s.se = some (e0, q.path cfg s)) (hm : e0.ys.length = m)
    (hsm : ∀ᶠ x in 𝓝 x0, q.smooth .ho (ext x) par s.se) (bd : Nat) (jm : Nat → Nat → Nat) (hbd : 0 < bd) :
    ∃ y Y, tensorSweep (tapeOf s' N par n m) d p bd (ext x0) (fun i r => if h : i < n ∧ r < p then S ⟨i, h.1⟩ ⟨r, h.2⟩ else 0) jm = .ok (y, Y) ∧
      (∀ j, j < m → y j = F q s par n j x0) ∧
      ∀ j, j < m → ∀ k, k < bd → ∀ b, 1 ≤ b → b ≤ d →
        Y j k (b - 1) = iteratedDeriv b (fun t : ℝ => F q s par n j (x0 + t • dir S fun r => (jm k r : ℝ))) 0 / b.factorial := by
  have hcd : ∀ j, ContDiffAt ℝ ∞ (F q s par n j) x0 := fun j =>
    (recorded_contDiff h.alloc q h.start h.recorded par x0 hspec hsm.self_of_nhds j).1
  have hout : ∀ j, q.out (ext x0) par s.se j = e0.ys[j]?.getD 0 := fun j => by simp [Prog.out, hspec]
  unfold tensorSweep
  simp only [multma_eq]
  by_cases h1 : d = 1
  · subst h1
    rw [if_pos rfl]
    have hfwd := Prog.smooth_fwd (Prog.smooth_rev hsm.self_of_nhds)
    obtain ⟨w, hw, hcol⟩ := fov_columns h par x0 hspec hfwd bd (fun i k => ext (dir S fun r => (jm k r : ℝ)) i)
      (fun l _ => ⟨_, rfl⟩) hbd
    have hwy : w.y = e0.ys := by
      obtain ⟨D, hD, hf⟩ := C11_fos_forward_partial h par false x0 hspec hfwd
      obtain ⟨f, f1, f2, _⟩ := hf (dir S fun r => (jm 0 r : ℝ))
      rcases C12_fov_columns_partial ⟨ext x0, par, false⟩ bd (fun i k => ext (dir S fun r => (jm k r : ℝ)) i) (s'.tape N) (along_log h par hspec hfwd) 0 hbd with
        ⟨e, _, g2⟩ | ⟨w', f', g1, g2, g3, _⟩
      · rw [f1] at g2; cases g2
      · rw [f1] at g2; cases g2
        rw [hw] at g1; cases g1
        rw [g3, f2]
    have hw' : fovRun ⟨ext x0, (tapeOf s' N par n m).par, false⟩ bd (fun i k => ext (dir S fun r => (jm k r : ℝ)) i) (tapeOf s' N par n m).ops VS.init = .ok w := hw
    rw [hw']
    refine ⟨_, _, rfl, fun j hj => ?_, fun j hj k hk b hb1 hb2 => ?_⟩
    · show w.y[j]?.getD 0 = q.out (ext x0) par s.se j
      rw [hwy, hout]
    · obtain rfl : b = 1 := by omega
      rw [hcol k hk _ rfl j]
      simp only [iteratedDeriv_one, Nat.factorial_one, Nat.cast_one, div_one]
      have hdiff : DifferentiableAt ℝ (F q s par n j) (x0 + (0:ℝ) • dir S fun r => (jm k r : ℝ)) := by
        rw [zero_smul, add_zero]; exact (hcd j).differentiableAt (by simp)
      have hl : HasDerivAt (fun t : ℝ => x0 + t • dir S fun r => (jm k r : ℝ)) (dir S fun r => (jm k r : ℝ)) 0 := by
        have := ((hasDerivAt_id (0:ℝ)).smul_const (dir S fun r => (jm k r : ℝ))).const_add x0
        simpa using this
      have := hdiff.hasFDerivAt.comp_hasDerivAt 0 hl
      have hd' := this.deriv
      rw [zero_smul, add_zero] at hd'
      exact hd'.symm
  · rw [if_neg h1]
    set X : Fin n → Nat → Nat → ℝ := fun i k j => if j = 0 then dir S (fun r => (jm k r : ℝ)) i else 0 with hX
    have hcl : ∀ l t, curve d x0 (fun i => X i l) t = x0 + t • dir S fun r => (jm l r : ℝ) := fun l t => curve_line hd _ _ _
    have hsm' : ∀ l, l < bd → ∀ᶠ t in 𝓝 (0:ℝ), q.smooth .ho (ext (curve d x0 (fun i => X i l) t)) par s.se := by
      intro l _
      have hc : ContinuousAt (fun t : ℝ => x0 + t • dir S fun r => (jm l r : ℝ)) 0 := by fun_prop
      have : ∀ᶠ x in 𝓝 ((fun t : ℝ => x0 + t • dir S fun r => (jm l r : ℝ)) 0), q.smooth .ho (ext x) par s.se := by
        simpa using hsm
      filter_upwards [hc.eventually this] with t ht
      rw [hcl]; exact ht
    obtain ⟨S', hS, hlen, hy⟩ := HOVec.C40_hov_forward_partial h par (k := d) (keep := 0) hbd (by omega) x0 X hspec hsm'
    have hS' : hovRun ⟨ext x0, fun i k j => if j = 0 then ext (dir S fun r => (jm k r : ℝ)) i else 0, (tapeOf s' N par n m).par, d, bd, 0⟩
        (tapeOf s' N par n m).ops HVS.init = .ok S' := by
      have e : (fun i k j => if j = 0 then ext (dir S fun r => (jm k r : ℝ)) i else 0) = fun i l => extX (fun i => X i l) i := by
        funext i k j
        by_cases hi : i < n
        · simp only [ext, extX, hi, dif_pos, hX]
        · simp [ext, extX, hi]
      rw [e]; exact hS
    rw [hS']
    refine ⟨_, _, rfl, fun j hj => ?_, fun j hj k hk b hb1 hb2 => ?_⟩
    · have hj' : j < S'.y.length := by omega
      simp only [List.getElem?_eq_getElem hj', Option.getD_some]
      exact (hy j hj').1
    · have hj' : j < S'.y.length := by omega
      simp only [List.getElem?_eq_getElem hj', Option.getD_some]
      rw [((hy j hj').2 k hk).2 b hb1 hb2]
      simp only [hcl]
      rfl

theorem address_zero {p d : Nat} : address p d (fun _ => 0) 0 = 0 := by
  rw [address_rank]
  have : ∀ u, desc (fun _ => 0) (d - 0) u = List.replicate d 0 := by
    intro u
    induction u with
    | zero => rfl
    | succ u ih => simp only [TensorCoef.desc, List.replicate_zero, List.nil_append]; exact ih
  rw [this]
  have h0 : ∀ d, Tensor.rank (List.replicate d 0) = 0 := by
    intro d
    induction d with
    | zero => rfl
    | succ d ih => rw [List.replicate_succ, Tensor.rank, ih]; simp
  exact h0 d

/-- C43 (partial: restrictions of C17/C40 on the traced program).  After any history of earlier calls, `tensor_eval` of degree `d` with
the seed matrix `S` (`n × p`) leaves in `tensor[j][tensor_address(d, multi)]`, for every multi-index whose nonzero entries are in
non-increasing order, the mixed partial derivative of `z ↦ F_j(x0 + S z)` at `z = 0` with respect to the coordinates in `multi`;
for the zero multi-index this is `F_j(x0)`; nothing behind the first `binomi(p + d, d)` entries of a row, and no other row, is written. -/
theorem C43_tensor_eval_partial (h : Traced cfg stock s q s' N) (par : Nat → ℝ) {n m d p : Nat} (hp : 1 ≤ p) (x0 : Fin n → ℝ) (S : Fin n → Fin p → ℝ)
    {e0 : SE ℝ} (hspec : q.spec (ext x0) par s.se = some (e0, q.path cfg s)) (hm : e0.ys.length = m)
    (hsm : ∀ᶠ x in 𝓝 x0, q.smooth .ho (ext x) par s.se)
    {c : TCache} (hc : Called c) (junk : TLoop) (ten : Nat → Nat → ℝ) :
    ∃ ten', (tensorEval (tapeOf s' N par n m) d p (ext x0) (fun i r => if h : i < n ∧ r < p then S ⟨i, h.1⟩ ⟨r, h.2⟩ else 0) junk c ten).2 = .ok ten' ∧
      (∀ j, j < m → ∀ multi : List Nat, multi.length = d → Tensor.NzDesc multi → (∀ v ∈ multi, v ≤ p) →
        ten' j (Tensor.tensorAddress multi).toNat =
          partialD (dirs p multi) (fun z => F q s par n j (fun i => x0 i + ∑ r, S i r * z r)) 0) ∧
      ∀ j a, ¬ (j < m ∧ a < (p + d).choose d) → ten' j a = ten j a := by
  rcases Nat.eq_zero_or_pos d with rfl | hd
  · obtain ⟨z, hz, hzy⟩ := C09_zos_forward h (ext x0) par false hspec
    have hz' : zosRun ⟨ext x0, (tapeOf s' N par n m).par, false⟩ (tapeOf s' N par n m).ops ZS.init = .ok z := hz
    refine ⟨fun i j => if i < m ∧ j = 0 then z.y[i]?.getD 0 else ten i j, ?_, ?_, ?_⟩
    · unfold tensorEval
      simp only [if_true, hz']
      congr 1
      funext i j
      rw [Tensor.binomi_eq]
      simp only [tapeOf, Nat.choose_zero_right, Nat.cast_one, Int.toNat_one, Nat.lt_one_iff]
      split <;> rfl
    · intro j hj multi hl _ _
      obtain rfl := List.eq_nil_of_length_eq_zero hl
      have : Tensor.tensorAddress [] = 0 := by simp [Tensor.tensorAddress]
      rw [this]
      rw [show dirs p [] = [] from rfl, partialD_nil]
      simp only [hj, Int.toNat_zero, and_self, if_true]
      rw [hzy]
      simp [F, Prog.out, hspec]
    · intro j a hn
      show (if j < m ∧ a = 0 then z.y[j]?.getD 0 else ten j a) = _
      rw [if_neg]
      rintro ⟨h1, rfl⟩
      exact hn ⟨h1, by simp⟩
  · -- the table
    set g : Nat → (Fin p → ℝ) → ℝ := fun j z => F q s par n j (fun i => x0 i + ∑ r, S i r * z r) with hg
    have hcd : ∀ j, ContDiffAt ℝ ∞ (F q s par n j) x0 := fun j =>
      (recorded_contDiff h.alloc q h.start h.recorded par x0 hspec hsm.self_of_nhds j).1
    have hgc : ∀ j, ContDiffAt ℝ ∞ (g j) 0 := by
      intro j
      have hA : ContDiffAt ℝ ∞ (fun z : Fin p → ℝ => fun i => x0 i + ∑ r, S i r * z r) 0 := by fun_prop
      have := ContDiffAt.comp (g := F q s par n j) (f := fun z : Fin p → ℝ => fun i => x0 i + ∑ r, S i r * z r) 0 (by
        have : (fun i => x0 i + ∑ r, S i r * (0 : Fin p → ℝ) r) = x0 := by funext i; simp
        rw [this]; exact hcd j) hA
      exact this
    have hgl : ∀ j (jm : Nat → Nat) (t : ℝ), F q s par n j (x0 + t • dir S fun r => (jm r : ℝ)) = g j (0 + t • fun l : Fin p => (res p jm l : ℝ)) := by
      intro j jm t
      simp only [hg]
      congr 1
      funext i
      simp only [Pi.add_apply, Pi.smul_apply, smul_eq_mul, dir, Pi.zero_apply, zero_add, res, Finset.mul_sum]
      congr 1
      exact Finset.sum_congr rfl fun r _ => by ring
    obtain ⟨ten', h1, h2, h3, h4⟩ := tensorEval_ok (t := tapeOf s' N par n m) hp hd
      (val := fun j jm b => iteratedDeriv b (fun t : ℝ => g j (0 + t • fun l : Fin p => (res p jm l : ℝ))) 0 / b.factorial)
      (yv := fun j => F q s par n j x0)
      (fun bd jm hbd => by
        obtain ⟨y, Y, k1, k2, k3⟩ := sweeps h par hd x0 S hspec hm hsm bd jm hbd
        refine ⟨y, Y, k1, k2, fun j hj k hk b hb1 hb2 => ?_⟩
        rw [k3 j hj k hk b hb1 hb2]
        simp only [hgl])
      hc.ok junk ten
    refine ⟨ten', h1, fun j hj multi hl hn hv => ?_, h4⟩
    set ψ := (dirs p multi).get with hψ
    set im : Nat → Nat := fun u => if u < p then multi.count (u + 1) else 0 with him
    have hres : res p im = Mixed.cnt ψ := by
      funext l
      rw [cnt_get, count_dirs]
      simp [res, him]
    have hcomp : Comp p (dirs p multi).length im := by
      refine ⟨?_, fun i hi => by simp only [him]; rw [if_neg (by omega)]⟩
      have := Mixed.cnt_sum ψ
      rw [← hres] at this
      rw [Finset.sum_range]
      exact this
    have hle : (dirs p multi).length ≤ d := by rw [← hl]; exact List.length_filterMap_le _ _
    have haddr : (Tensor.tensorAddress multi).toNat = address p d im (dirs p multi).length := by
      rw [address_multi hcomp hle hn hl hv (fun v hv => by simp only [him]; rw [if_pos hv])]
      simp
    rw [haddr]
    rcases Nat.eq_zero_or_pos (dirs p multi).length with he | he
    · have hz : im = fun _ => 0 := by
        funext u
        by_cases hu : u < p
        · have := congrFun hres ⟨u, hu⟩
          rw [cnt_get, List.eq_nil_of_length_eq_zero he] at this
          exact this
        · simp only [him]; rw [if_neg hu]
      have hd0 := List.eq_nil_of_length_eq_zero he
      rw [hz, hd0, List.length_nil, address_zero, h2 j hj]
      rw [partialD_nil]
      simp
    · have hne : address p d im (dirs p multi).length ≠ 0 := by
        intro h0
        rw [← address_zero (p := p) (d := d)] at h0
        have hz : Comp p 0 (fun _ => 0) := ⟨by simp, fun _ _ => rfl⟩
        have := order_eq hcomp hz (address_inj hcomp hz hle (Nat.zero_le _) h0)
        omega
      rw [h3 j hj _ hne (address_lt hcomp hle)]
      have := Mixed.mixed (p := p) (d := d) hd he hle ((hgc j).of_le (by exact_mod_cast le_top)) ψ
      rw [partialD, ← this, ← seq_sum hp]
      refine Finset.sum_congr rfl fun t _ => ?_
      unfold gain
      have hi := items_sum (d := d) (jm := seqM p d t) hp hcomp he hle
        (fun b => iteratedDeriv b (fun t' : ℝ => g j (0 + t' • fun l : Fin p => (res p (seqM p d t) l : ℝ))) 0 / b.factorial)
      rw [hres] at hi
      exact hi.trans (mul_comm _ _)

end

/-- The hypotheses hold for the demo program, a seed matrix with two columns and the static variables after an earlier call of a
different degree. -/
example : ∃ s' e0 c, Traced demoCfg [] demoStart demo s' (s'.hw + 1) ∧
    demo.spec (ext (fun _ : Fin 2 => 1)) (fun _ => 0) demoStart.se = some (e0, demo.path demoCfg demoStart) ∧
    (∀ᶠ x in 𝓝 (fun _ : Fin 2 => (1:ℝ)), demo.smooth .ho (ext x) (fun _ => 0) demoStart.se) ∧ Called c ∧ c.d = 3 := by
  obtain ⟨e, h1, h2, h3⟩ := demo_spec demoCfg.x demoCfg.par (by
    simp only [demoCfg]; positivity)
  obtain ⟨s', h4, h5⟩ := traced_exists (stock := []) demo_alloc demo_start
    (by simp [demo, Prog.noFminLL, Stmt.notFminLL]) h1
  obtain ⟨e', g1, g2⟩ := demo_spec (ext (fun _ : Fin 2 => 1)) (fun _ => 0) (by simp [ext]; positivity)
  refine ⟨s', e', _, h4, by rw [h5]; exact g1, ?_,
    Called.call Called.init ⟨[], fun _ => 0, 0, 0⟩ 3 2 (by omega) (fun _ => 0) (fun _ _ => 0) ⟨fun _ => 0, fun _ _ => 0, fun _ => [], 0, 0, fun _ _ => 0, fun _ => 0⟩ (fun _ _ => 0), ?_⟩
  · have hx : ∀ i, ContinuousAt (fun x : Fin 2 → ℝ => ext x i) (fun _ => 1) := by
      intro i
      by_cases hi : i < 2
      · simp only [ext, hi, dif_pos]; exact continuousAt_apply _ _
      · simp only [ext, hi, dif_neg, not_false_eq_true]; exact continuousAt_const
    have hc : ContinuousAt (fun x : Fin 2 → ℝ => ext x 0 * ext x 1 + ext x 0 * Real.exp (ext x 0)) (fun _ => 1) :=
      ((hx 0).mul (hx 1)).add ((hx 0).mul (Real.continuous_exp.continuousAt.comp (hx 0)))
    filter_upwards [continuousAt_const.eventually_lt hc (by simp [ext]; positivity)] with x hx
    exact demo_smooth .ho _ _ hx
  · obtain ⟨c', hg, _⟩ := TCache.get_ok (c := TCache.init) (Or.inl rfl) (p := 2) (d := 3) (by omega) (by omega)
    unfold tensorEval
    simp only [hg]
    rw [if_neg (by omega)]
    have hcd : c'.d = 3 := by
      unfold TCache.get at hg
      rw [if_pos (Or.inl (by decide)), coeff_eq (by omega) (by omega)] at hg
      cases hg; rfl
    split <;> exact hcd

/-- A multi-index with a repeated direction and a zero in the middle: the derivative `∂³/∂z₁∂z₀²` is found. -/
example : dirs 2 [2, 0, 1, 1] = [1, 0, 0] ∧ Tensor.NzDesc [2, 0, 1, 1] := by
  refine ⟨by decide, by simp [Tensor.NzDesc]⟩

/-- `tensor_value` builds the sorted multi-index in ascending order and hands it to `tensor_address`, whose selection loop needs it
in descending order: for `multi = (2, 1)` the value of `(2, 0)` is returned. -/
theorem C43_tensor_value_order (ten : Nat → Nat → ℝ) :
    tensorValue ten [2, 1] = (fun j => ten j (Tensor.tensorAddress [2, 0]).toNat) ∧ Tensor.tensorAddress [2, 1] ≠ Tensor.tensorAddress [2, 0] := by
  constructor
  · funext j
    simp [tensorValue, Tensor.tensorAddress, Tensor.sorted, Tensor.body, Tensor.maxOf, Tensor.binomi_eq, List.range, List.range.loop]
  · simp [Tensor.tensorAddress, Tensor.sorted, Tensor.body, Tensor.maxOf, Tensor.binomi_eq, List.range, List.range.loop]

end Verif.Props.Tensor
