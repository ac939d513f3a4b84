import Verif.Drivers.InvTensor
import Verif.Drivers.TensorRun
import Verif.Props.InvTaylor
import Verif.Props.Tensor
import Mathlib.Analysis.Calculus.InverseFunctionTheorem.ContDiff

/-! # C56: `inverse_tensor_eval` -/
set_option linter.all false
namespace Verif.Props.InvTensor
open Verif.AD Verif.Props.AD Verif.Drivers Verif.Props.Drivers Verif.Props.JacSolv Verif.Props.InvTaylor Verif.Num.TensorCoef Verif.Num Verif.Num.Simplex Elem Filter Topology ContDiff
open Verif.Props.HORevVec (noAbs)
open Verif.Props.Interfaces (path path_curve path_zero)
open Verif.Props.Lie (F_smooth)
open Verif.Props.Tensor (dirs partialD partialD_nil cnt_get count_dirs address_zero dir multma_eq)

/-! ### Specification -/

/-- The static variables of `inverse_tensor_eval` after calls of degree `d` with `p` directions. -/
inductive Called (d p : Nat) : TCache → Prop
  | init : Called d p TCache.init
  | call {cache : TCache} (h : Called d p cache) (t : Tape ℝ) (rrc hrc : Int) (x : Nat → ℝ) (S ten : Nat → Nat → ℝ) (c : ITStat) (js : JSState ℝ) :
      Called d p (inverseTensorEval t rrc hrc d p x S ten cache c js).cache

/-- `G` solves `F(G(z)) = F(x0) + S z` near `z = 0`, smoothly, from `G(0) = x0`. -/
structure Inverse (pr : Prog ℝ) (s : Rec ℝ) (par : Nat → ℝ) {n p : Nat} (x0 : Fin n → ℝ) (S : Fin n → Fin p → ℝ) (G : (Fin p → ℝ) → Fin n → ℝ) : Prop where
  smooth : ContDiffAt ℝ ∞ G 0
  start : G 0 = x0
  solves : ∀ᶠ z in 𝓝 0, ∀ i : Fin n, F pr s par n i (G z) = F pr s par n i x0 + ∑ r, S i r * z r

/-- The matrix as the caller's array. -/
def mat {n p : Nat} (S : Fin n → Fin p → ℝ) (i r : Nat) : ℝ := if h : i < n ∧ r < p then S ⟨i, h.1⟩ ⟨r, h.2⟩ else 0

/-! ### Proofs -/

variable {n : Nat} {cfg : RCfg ℝ} {stock : List (Nat × List ℝ)} {s s' : Rec ℝ} {q : Prog ℝ} {N : Nat}

theorem icalls_append (t : Tape ℝ) (rrc hrc : Int) (L L' : List (ICall n)) (st : ITStat × JSState ℝ) :
    icalls t rrc hrc st (L ++ L') = ((icalls t rrc hrc (icalls t rrc hrc st L).1 L').1, (icalls t rrc hrc st L).2 ++ (icalls t rrc hrc (icalls t rrc hrc st L).1 L').2) := by
  induction L generalizing st with
  | nil => rfl
  | cons a L ih => simp only [List.cons_append, icalls, ih]

/-- From the entries to the derivatives. -/
theorem entries {p d : Nat} (hp : 1 ≤ p) (hd : 1 ≤ d) {g : (Fin p → ℝ) → ℝ} (hg : ContDiffAt ℝ ∞ g 0) {ten : Nat → ℝ} (h0 : ten 0 = g 0)
    (h3 : ∀ a, a ≠ 0 → a < (p + d).choose d → ten a = ∑ i ∈ Finset.range (num p d),
      gain (fun b => iteratedDeriv b (fun t : ℝ => g (0 + t • fun l : Fin p => (res p (seqM p d i) l : ℝ))) 0 / b.factorial) (itemsOf p d (seqM p d i)) a)
    (multi : List Nat) (hl : multi.length = d) (hn : Tensor.NzDesc multi) (hv : ∀ v ∈ multi, v ≤ p) :
    ten (Tensor.tensorAddress multi).toNat = partialD (dirs p multi) g 0 := by
  set ψ := (dirs p multi).get with hψ
  set im : Nat → Nat := fun u => if u < p then multi.count (u + 1) else 0 with him
  have hres : res p im = Mixed.cnt ψ := by
    funext l
    rw [cnt_get, count_dirs]
    simp [res, him]
  have hcomp : Comp p (dirs p multi).length im := by
    refine ⟨?_, fun i hi => by simp only [him]; rw [if_neg (by omega)]⟩
    have := Mixed.cnt_sum ψ
    rw [← hres] at this
    rw [Finset.sum_range]
    exact this
  have hle : (dirs p multi).length ≤ d := by rw [← hl]; exact List.length_filterMap_le _ _
  have haddr : (Tensor.tensorAddress multi).toNat = address p d im (dirs p multi).length := by
    rw [address_multi hcomp hle hn hl hv (fun v hv => by simp only [him]; rw [if_pos hv])]
    simp
  rw [haddr]
  rcases Nat.eq_zero_or_pos (dirs p multi).length with he | he
  · have hz : im = fun _ => 0 := by
      funext u
      by_cases hu : u < p
      · have := congrFun hres ⟨u, hu⟩
        rw [cnt_get, List.eq_nil_of_length_eq_zero he] at this
        exact this
      · simp only [him]; rw [if_neg hu]
    have hd0 := List.eq_nil_of_length_eq_zero he
    rw [hz, hd0, List.length_nil, address_zero, h0, partialD_nil]
  · have hne : address p d im (dirs p multi).length ≠ 0 := by
      intro h0
      rw [← address_zero (p := p) (d := d)] at h0
      have hz : Comp p 0 (fun _ => 0) := ⟨by simp, fun _ _ => rfl⟩
      have := order_eq hcomp hz (address_inj hcomp hz hle (Nat.zero_le _) h0)
      omega
    rw [h3 _ hne (address_lt hcomp hle)]
    have := Mixed.mixed (p := p) (d := d) hd he hle (hg.of_le (by exact_mod_cast le_top)) ψ
    rw [partialD, ← this, ← seq_sum hp]
    refine Finset.sum_congr rfl fun t _ => ?_
    unfold gain
    have hi := items_sum (d := d) (jm := seqM p d t) hp hcomp he hle
      (fun b => iteratedDeriv b (fun t' : ℝ => g (0 + t' • fun l : Fin p => (res p (seqM p d t) l : ℝ))) 0 / b.factorial)
    rw [hres] at hi
    exact hi.trans (mul_comm _ _)

theorem tc_line (v : ℝ) (l : Nat) : tc (fun t : ℝ => v * t) l = if l = 1 then v else 0 := by
  have hid : ContDiffAt ℝ ∞ (fun t : ℝ => t) 0 := contDiffAt_id
  rw [tc_cmul v hid]
  have : tc (fun t : ℝ => t) l = if l = 1 then 1 else 0 := by
    have h := tc_pow 1 l
    simpa using h
  rw [this]
  split_ifs <;> simp

/-- The coefficients of `G` along a line solve the problem of `inverse_Taylor_prop`. -/
theorem inverse_solves (h : Traced cfg stock s q s' N) (par : Nat → ℝ) {p d : Nat} {x0 : Fin n → ℝ} (hx : Near cfg s q par x0) {S : Fin n → Fin p → ℝ} {G : (Fin p → ℝ) → Fin n → ℝ}
    (hG : Inverse q s par x0 S G) (y : Nat → ℝ) (jm : Nat → Nat) :
    Solves q s par n d (fun i k => if hi : i < n then tc (fun t : ℝ => G (0 + t • fun l : Fin p => (res p jm l : ℝ)) ⟨i, hi⟩) k else 0) (invSeed d p y (mat S) jm) := by
  obtain ⟨⟨e0, hspec, hn, hys⟩, hsm⟩ := hx
  have hho : ∀ᶠ x in 𝓝 x0, q.smooth .ho (ext x) par s.se := hsm.mono fun x h => Prog.smooth_ho h
  intro i hi l hl hl0
  set u : Fin p → ℝ := fun l => (res p jm l : ℝ) with hu
  set Z : Nat → Nat → ℝ := fun i k => if hi : i < n then tc (fun t : ℝ => G (0 + t • u) ⟨i, hi⟩) k else 0 with hZ
  have hF : SmG (F q s par n i) x0 := F_smooth h par hspec hho i
  have hray : ContDiffAt ℝ ∞ (fun t : ℝ => (0 : Fin p → ℝ) + t • u) 0 := by fun_prop
  have hη : ContDiffAt ℝ ∞ (fun t : ℝ => G (0 + t • u)) 0 :=
    ContDiffAt.comp (g := G) (f := fun t : ℝ => (0 : Fin p → ℝ) + t • u) 0 (by simpa using hG.smooth) hray
  have hη0 : G (0 + (0:ℝ) • u) = x0 := by rw [zero_smul, add_zero]; exact hG.start
  have hξ : ContDiffAt ℝ ∞ (path d Z : ℝ → Fin n → ℝ) 0 := path_smooth d Z
  have hZ0 : ∀ j : Fin n, Z j 0 = x0 j := fun j => by
    simp only [hZ, j.2, dif_pos, tc_zero, Fin.eta]; rw [hη0]
  have hξ0 : (path d Z 0 : Fin n → ℝ) = x0 := by rw [path_zero]; funext j; exact hZ0 j
  have hZe : ∀ j : Fin n, ∀ k, Z j k = tc (fun t : ℝ => G (0 + t • u) j) k := fun j k => by simp only [hZ, j.2, dif_pos, Fin.eta]
  have hag : ∀ j : Fin n, ∀ k < d + 1, tc (fun t : ℝ => G (0 + t • u) j) k = tc (fun t => (path d Z t : Fin n → ℝ) j) k := fun j k hk => by
    rw [path_tc d Z j (by omega), hZe]
  have hper := tc_perturb hF hξ hη hξ0 hη0 (a := d + 1) hag (l := l) (by omega)
  have hz : ∑ j : Fin n, tc (fun t => fderiv ℝ (F q s par n i) (path d Z t) (Pi.single j 1) * (G (0 + t • u) j - (path d Z t : Fin n → ℝ) j)) l = 0 := by
    refine Finset.sum_eq_zero fun j _ => ?_
    rw [tc_mul ((hF.part _).comp_smooth hξ hξ0) ((smooth_pi hη j).sub (smooth_pi hξ j))]
    refine Finset.sum_eq_zero fun k hk => ?_
    have := Finset.mem_range.1 hk
    rw [tc_sub (smooth_pi hη j) (smooth_pi hξ j), hag j (l - k) (by omega), sub_self, mul_zero]
  rw [hz, add_zero] at hper
  show tc (fun t => F q s par n i (path d Z t)) l = _
  rw [← hper]
  have hev : (fun t : ℝ => F q s par n i (G (0 + t • u))) =ᶠ[𝓝 0] fun t => F q s par n i x0 + (∑ r, S ⟨i, hi⟩ r * u r) * t := by
    have hc : ContinuousAt (fun t : ℝ => (0 : Fin p → ℝ) + t • u) 0 := hray.continuousAt
    have hs := hc.eventually (p := fun z => ∀ i : Fin n, F q s par n i (G z) = F q s par n i x0 + ∑ r, S i r * z r) (by simpa using hG.solves)
    filter_upwards [hs] with t ht
    have := ht ⟨i, hi⟩
    simp only at this
    rw [this, Finset.sum_mul]
    congr 1
    refine Finset.sum_congr rfl fun r _ => ?_
    simp only [zero_add, Pi.smul_apply, smul_eq_mul]
    ring
  have hid : ContDiffAt ℝ ∞ (fun t : ℝ => (∑ r, S ⟨i, hi⟩ r * u r) * t) 0 := contDiffAt_const.mul contDiffAt_id
  rw [tc_congr hev, tc_add contDiffAt_const hid, tc_const, if_neg (by omega), zero_add, tc_line]
  unfold invSeed
  rw [if_neg (show ¬ l = 0 by omega), show multma p (mat S) (fun _ => jm) i 0 = ext (dir S fun r => (jm r : ℝ)) i from multma_eq S (fun _ => jm) i 0]
  simp only [ext, hi, dif_pos, dir]
  rfl


theorem Called.cases {d p : Nat} (hp : 1 ≤ p) {c : TCache} (h : Called d p c) : c = TCache.init ∨ (1 ≤ d ∧ c = ⟨d, p, tableOf p d⟩) := by
  induction h with
  | init => exact .inl rfl
  | @call cache _ t rrc hrc x S ten c js ih =>
    unfold inverseTensorEval
    dsimp only
    split
    · exact ih
    · split_ifs with hd
      · exact ih
      · have hd : 1 ≤ d := by omega
        have hg : ∀ r, cache.getInv d p = .ok r → r.1 = ⟨d, p, tableOf p d⟩ := by
          intro r hr
          unfold TCache.getInv at hr
          rw [coeff_eq hp hd] at hr
          dsimp only at hr
          rcases ih with rfl | ⟨_, rfl⟩
          · split_ifs at hr with a b
            · cases hr; rfl
            · cases hr; rfl
            · simp only [TCache.init] at a; omega
          · rw [if_neg (by simp)] at hr
            cases hr; rfl
        split
        · exact ih
        · next r hr =>
          split <;> exact .inr ⟨hd, hg _ hr⟩

theorem getInv_ok {d p : Nat} (hp : 1 ≤ p) (hd : 1 ≤ d) {c : TCache} (h : Called d p c) : ∃ c', c.getInv d p = .ok (c', num p d) ∧ c'.tab = tableOf p d := by
  have hdim : (Tensor.binomi (p + d - 1) d).toNat = num p d := by rw [Tensor.binomi_eq]; simp [num]
  unfold TCache.getInv
  simp only [hdim, coeff_eq hp hd]
  rcases h.cases hp with rfl | ⟨_, rfl⟩
  · rw [if_pos (by simp only [TCache.init]; omega), if_neg (show ¬ TCache.init.p ≠ 0 by simp [TCache.init]), if_pos (by simp)]
    exact ⟨_, rfl, rfl⟩
  · rw [if_neg (by simp)]
    exact ⟨_, rfl, rfl⟩

/-- The state before pass `i`. -/
structure VInv (q : Prog ℝ) (cfg : RCfg ℝ) (s : Rec ℝ) (par : Nat → ℝ) (t : Tape ℝ) (rrc hrc : Int) (n d p : Nat) (x0 : Fin n → ℝ) (val : Nat → (Nat → Nat) → Nat → ℝ)
    (ten0 : Nat → Nat → ℝ) (st : ITStat × JSState ℝ) (i : Nat) (S : IVLoop) : Prop where
  it : S.it = if i = 0 then itInit d else itq p d (i - 1)
  X : ∀ j : Fin n, S.X j 0 = x0 j
  good : Good (n := n) (jacM q s par) S.js
  rc : 0 ≤ S.rc
  ten : ∀ j a, S.ten j a = ten0 j a + if j < n then ∑ t ∈ Finset.range i, gain (val j (seqM p d t)) (itemsOf p d (seqM p d t)) a else 0
  hist : ∃ L : List (ICall n), (∀ a ∈ L, a.Valid cfg s q par) ∧ (∀ r ∈ (icalls t rrc hrc st L).2, r ≠ .ok (-3)) ∧ (S.c, S.js) = (icalls t rrc hrc st L).1

/-- Taylor coefficients of `G` along a line. -/
noncomputable def along {p : Nat} (G : (Fin p → ℝ) → Fin n → ℝ) (j : Nat) (jm : Nat → Nat) (b : Nat) : ℝ :=
  if hj : j < n then iteratedDeriv b (fun t : ℝ => G (0 + t • fun l : Fin p => (res p jm l : ℝ)) ⟨j, hj⟩) 0 / b.factorial else 0

theorem outside_ten {n d p i : Nat} (hp : 1 ≤ p) (val : Nat → (Nat → Nat) → Nat → ℝ) (ten : Nat → Nat → ℝ) (j a : Nat) (hn : ¬ (j < n ∧ a < (p + d).choose d)) :
    (if j < n ∧ a < (p + d).choose d then 0 else ten j a) + (if j < n then ∑ t ∈ Finset.range i, gain (val j (seqM p d t)) (itemsOf p d (seqM p d t)) a else 0) = ten j a := by
  rw [if_neg hn]
  by_cases hj : j < n
  · rw [if_pos hj, Finset.sum_eq_zero, add_zero]
    intro i _
    refine gain_zero fun q hq hqa => hn ⟨hj, ?_⟩
    rw [← hqa]
    exact (item_lt hp hq).1
  · rw [if_neg hj, add_zero]

theorem loop_ok (h : Traced cfg stock s q s' N) (hdi : q.disc ⟨Set.univ, ∅⟩) (par : Nat → ℝ) (hn0 : 0 < n) (habs : n ≤ 1 ∨ noAbs q) {rrc hrc : Int} (hr : 0 ≤ rrc) (hr2 : 0 ≤ hrc)
    {d p : Nat} (hp : 1 ≤ p) (hd : 1 ≤ d) {x0 : Fin n → ℝ} (hx : Near cfg s q par x0) (hinj : Function.Injective (fderiv ℝ (fun y (k : Fin n) => F q s par n k y) x0))
    {S : Fin n → Fin p → ℝ} {G : (Fin p → ℝ) → Fin n → ℝ} (hG : Inverse q s par x0 S G) (y : Nat → ℝ) (ten0 : Nat → Nat → ℝ) (st : ITStat × JSState ℝ) {S0 : IVLoop}
    (hS : VInv q cfg s par (tapeOf s' N par n n) rrc hrc n d p x0
      (along G) ten0 st 0 S0) :
    (∃ S', (List.range' 0 (num p d)).foldlM (invTensorPass (tapeOf s' N par n n) rrc hrc d p y (mat S) (tableOf p d)) S0 = .ok S' ∧
      VInv q cfg s par (tapeOf s' N par n n) rrc hrc n d p x0
        (along G) ten0 st (num p d) S') ∨
    ∃ e, (List.range' 0 (num p d)).foldlM (invTensorPass (tapeOf s' N par n n) rrc hrc d p y (mat S) (tableOf p d)) S0 = .error e ∧
      Rejected (tapeOf s' N par n n) rrc (ext x0) ∧ ∃ c js ten i, e = .singular c js ten ∧
        ∀ j a, ten j a = ten0 j a + if j < n then ∑ t ∈ Finset.range i, gain
          (along G j (seqM p d t))
          (itemsOf p d (seqM p d t)) a else 0 := by
  refine foldlM_range' (m := num p d) (Q := fun i S' => VInv q cfg s par (tapeOf s' N par n n) rrc hrc n d p x0 _ ten0 st i S') (fun i S' hi hQ => ?_) (num p d) 0 S0 (by omega) hS
  obtain ⟨hit, hX, hgood, hrc', hten, L, hL1, hL2, hL3⟩ := hQ
  have hits : itStep p d S'.it = itq p d i := by
    rw [hit]
    cases i with
    | zero => rfl
    | succ i => simp [itq]
  have hconv : convert d (itStep p d S'.it) = seqM p d i := by
    rw [hits, convert_eq]; exact (itq_eq hp hd i hi).2
  have htab : (tableOf p d)[i]? = some (itemsOf p d (seqM p d i)) := by
    unfold tableOf
    rw [List.getElem?_map, List.getElem?_range hi]; rfl
  obtain ⟨⟨e0, hspec, hn, hys⟩, hsm⟩ := hx
  have hx : Near cfg s q par x0 := ⟨⟨e0, hspec, hn, hys⟩, hsm⟩
  obtain ⟨code, X', q1, q2, q3⟩ := inv_ok (rrc := rrc) (hrc := hrc) h hdi par hn0 hr hr2 hspec hn hys hsm habs (d := d) (Y := invSeed d p y (mat S) (seqM p d i)) hX S'.c hgood
  unfold invTensorPass
  simp only [htab, hconv]
  rw [q1]
  dsimp only
  rcases q3 with ⟨rfl, q3⟩ | ⟨q3, q4, q5⟩
  · rw [if_pos (by omega)]
    exact .inr ⟨_, rfl, q3, _, _, _, i, rfl, hten⟩
  · rw [if_neg (by omega)]
    refine .inl ⟨_, rfl, ?_⟩
    have hX' : ∀ j : Fin n, X' j 0 = x0 j := fun j => by rw [q2 j 0 fun hh => by omega]; exact hX j
    have huni := solves_unique h par hx (fun j => by
      simp only [j.2, dif_pos, tc_zero, Fin.eta]; rw [zero_smul, add_zero]; exact congrFun hG.start j) hX' hinj (inverse_solves (d := d) h par hx hG y (seqM p d i)) q5
    refine ⟨by simp [hits], hX', q4, le_min hrc' q3, fun j a => ?_, L ++ [.inv d (invSeed d p y (mat S) (seqM p d i)) S'.X], ?_, ?_, ?_⟩
    · dsimp only
      rw [tensorAdd_eq, hten]
      show _ + (if j < n then _ else 0) = _
      by_cases hj : j < n
      · simp only [hj, if_true]
        rw [Finset.sum_range_one, Finset.sum_range_succ, add_assoc]
        congr 2
        refine gain_congr (fun it hit => ?_) a
        obtain ⟨_, i1, i2⟩ := item_lt hp hit
        rw [show it.b - 1 + 1 = it.b by omega]
        rw [along, dif_pos hj]
        have := huni ⟨j, hj⟩ it.b i2
        simp only [hj, dif_pos] at this
        exact this
      · simp only [hj, if_false, add_zero]
    · intro a ha
      rcases List.mem_append.1 ha with ha | ha
      · exact hL1 a ha
      · obtain rfl := List.mem_singleton.1 ha
        show Near cfg s q par fun j : Fin n => S'.X j 0
        rw [show (fun j : Fin n => S'.X j 0) = x0 from funext hX]; exact hx
    · rw [icalls_append, ← hL3]
      intro r hr
      rcases List.mem_append.1 hr with hr | hr
      · exact hL2 r hr
      · simp only [icalls, ICall.run, q1, List.mem_singleton] at hr
        subst hr
        intro he
        injection he with he
        have : code = -3 := he
        omega
    · rw [icalls_append, ← hL3]
      simp only [icalls, ICall.run]

/-- After any sequence of calls of `jac_solv` (modes 1 and 2) and `inverse_Taylor_prop` on the trace, whatever has been done with other traces, none of which returned `-3`, and any
calls of `inverse_tensor_eval` with the same `d` and `p`: at a point at which the trace is valid and smooth and the Jacobian is one to one, `inverse_tensor_eval` either returns `-3` because the
factorisation of the Jacobian fails, or it leaves in `tensor[j][tensor_address(d, multi)]`, for every multi-index whose nonzero entries are in non-increasing order, the mixed partial
derivative at 0 of the `j`-th component of `G`, where `F(G(z)) = F(x) + S z`; nothing behind the first `binomi(p + d, d)` entries of a row, and no other row, is written; what it leaves
in the static variables is what a sequence of such calls leaves. -/
theorem C56_inverse_tensor_partial (h : Traced cfg stock s q s' N) (hdi : q.disc ⟨Set.univ, ∅⟩) (par : Nat → ℝ) (hn0 : 0 < n) (habs : n ≤ 1 ∨ noAbs q) {rrc hrc : Int}
    (hr : 0 ≤ rrc) (hr2 : 0 ≤ hrc) {d p : Nat} (hp : 1 ≤ p) (c : ITStat) (L : List (ICall n)) (hL : ∀ a ∈ L, a.Valid cfg s q par)
    (hfine : ∀ r ∈ (icalls (tapeOf s' N par n n) rrc hrc (c, JSState.init) L).2, r ≠ .ok (-3)) {cache : TCache} (hcache : Called d p cache)
    (x0 : Fin n → ℝ) (hx : Near cfg s q par x0) (hinj : Function.Injective (fderiv ℝ (fun y (k : Fin n) => F q s par n k y) x0))
    (S : Fin n → Fin p → ℝ) {G : (Fin p → ℝ) → Fin n → ℝ} (hG : Inverse q s par x0 S G) (ten : Nat → Nat → ℝ) :
    let st := (icalls (tapeOf s' N par n n) rrc hrc (c, JSState.init) L).1
    let r := inverseTensorEval (tapeOf s' N par n n) rrc hrc d p (ext x0) (mat S) ten cache st.1 st.2
    ∃ code ten', r.res = .ok (code, ten') ∧ (∀ j a, ¬ (j < n ∧ a < (p + d).choose d) → ten' j a = ten j a) ∧
      ((code = -3 ∧ Rejected (tapeOf s' N par n n) rrc (ext x0)) ∨
       (0 ≤ code ∧ (∀ j : Fin n, ∀ multi : List Nat, multi.length = d → Tensor.NzDesc multi → (∀ v ∈ multi, v ≤ p) →
          ten' j (Tensor.tensorAddress multi).toNat = partialD (dirs p multi) (fun z => G z j) 0) ∧
        ∃ L', (∀ a ∈ L ++ L', a.Valid cfg s q par) ∧ (∀ o ∈ (icalls (tapeOf s' N par n n) rrc hrc (c, JSState.init) (L ++ L')).2, o ≠ .ok (-3)) ∧
          (r.c, r.js) = (icalls (tapeOf s' N par n n) rrc hrc (c, JSState.init) (L ++ L')).1)) := by
  intro st r
  have hg := icalls_good (rrc := rrc) (hrc := hrc) h hdi par hn0 habs hr hr2 L (c, JSState.init) (by intro _ h; simp [JSState.init] at h) hL hfine
  have hx' := hx
  obtain ⟨⟨e0, hspec, hn, hys⟩, hsm⟩ := hx'
  obtain ⟨z, hz, hzy⟩ := C09_zos_forward h (ext x0) par false hspec
  have hz' : zosRun ⟨ext x0, (tapeOf s' N par n n).par, false⟩ (tapeOf s' N par n n).ops ZS.init = .ok z := hz
  have hzrc := (rc_range hz (by simp [ZS.init]) (by simp [ZS.init])).1
  have hdt : (Tensor.binomi (p + d) d).toNat = (p + d).choose d := by rw [Tensor.binomi_eq]; simp
  have tn : (tapeOf s' N par n n).n = n := rfl
  have hGc : ∀ j : Fin n, ContDiffAt ℝ ∞ (fun z => G z j) 0 := fun j => contDiffAt_pi.1 hG.smooth j
  rcases Nat.eq_zero_or_pos d with hd | hd
  · have e : r = ⟨cache, st.1, st.2, .ok (min 3 z.rc, fun i j => if i < n ∧ j = 0 then ext x0 i else if i < n ∧ j < (p + d).choose d then 0 else ten i j)⟩ := by
      show inverseTensorEval _ _ _ _ _ _ _ _ _ _ _ = _
      unfold inverseTensorEval
      simp only [hz', hdt, tn, if_pos hd]
    rw [e]
    refine ⟨_, _, rfl, fun j a hja => ?_, .inr ⟨by omega, fun j multi hl _ _ => ?_, [], by simpa using hL, by simpa using hfine, by simp [st]⟩⟩
    · rw [if_neg, if_neg hja]
      rintro ⟨h1, rfl⟩
      exact hja ⟨h1, Nat.choose_pos (by omega)⟩
    · subst hd
      obtain rfl := List.eq_nil_of_length_eq_zero hl
      have : Tensor.tensorAddress [] = 0 := by simp [Tensor.tensorAddress]
      rw [this]
      rw [show dirs p [] = [] from rfl, partialD_nil]
      simp only [j.2, Int.toNat_zero, and_self, if_true, ext, dif_pos, Fin.eta]
      exact (congrFun hG.start j).symm
  · obtain ⟨c', g1, g2⟩ := getInv_ok hp hd hcache
    have key := loop_ok (rrc := rrc) (hrc := hrc) h hdi par hn0 habs hr hr2 hp hd hx hinj hG (fun j => z.y[j]?.getD 0) (fun i j => if i < n ∧ j < (p + d).choose d then 0 else ten i j) st
      (S0 := ⟨itInit d, fun i k => if i < n ∧ k = 0 then ext x0 i else 0, st.1, st.2, min 3 z.rc, fun i j => if i < n ∧ j < (p + d).choose d then 0 else ten i j⟩)
      ⟨rfl, fun j => by simp [ext], hg, by show 0 ≤ min 3 z.rc; omega, fun j a => by simp, [], by simp, by simp [icalls], rfl⟩
    have e : r = match (List.range' 0 (num p d)).foldlM (invTensorPass (tapeOf s' N par n n) rrc hrc d p (fun j => z.y[j]?.getD 0) (mat S) (tableOf p d))
          ⟨itInit d, fun i k => if i < n ∧ k = 0 then ext x0 i else 0, st.1, st.2, min 3 z.rc, fun i j => if i < n ∧ j < (p + d).choose d then 0 else ten i j⟩ with
        | .error (.err e) => ⟨c', st.1, st.2, .error e⟩
        | .error (.singular c js ten) => ⟨c', c, js, .ok (-3, ten)⟩
        | .ok s => ⟨c', s.c, s.js, .ok (s.rc, fun i j => if i < n ∧ j = 0 then ext x0 i else s.ten i j)⟩ := by
      show inverseTensorEval _ _ _ _ _ _ _ _ _ _ _ = _
      unfold inverseTensorEval
      simp only [hz', hdt, tn, if_neg (show ¬ d = 0 by omega), g1, g2, List.range_eq_range']
      rfl
    rw [e]
    rcases key with ⟨S', k1, k2⟩ | ⟨e', k1, k2, c2, js2, ten2, i2, rfl, k3⟩
    · rw [k1]
      refine ⟨_, _, rfl, fun j a hja => ?_, .inr ⟨k2.rc, fun j multi hl hnz hv => ?_, ?_⟩⟩
      · rw [if_neg, k2.ten]
        · exact outside_ten hp _ ten j a hja
        · rintro ⟨h1, rfl⟩
          exact hja ⟨h1, Nat.choose_pos (by omega)⟩
      · refine entries (ten := fun a => if (j : Nat) < n ∧ a = 0 then ext x0 j else S'.ten j a) hp hd (hGc j) ?_ (fun a ha hlt => ?_) multi hl hnz hv
        · simp only [j.2, and_self, if_true, ext, dif_pos, Fin.eta]
          exact (congrFun hG.start j).symm
        · rw [if_neg (fun hh => ha hh.2), k2.ten, if_pos ⟨j.2, hlt⟩, if_pos j.2, zero_add]
          refine Finset.sum_congr rfl fun t _ => ?_
          congr 1
          funext b
          rw [along, dif_pos j.2]
      · obtain ⟨L', l1, l2, l3⟩ := k2.hist
        refine ⟨L', fun a ha => (List.mem_append.1 ha).elim (hL a) (l1 a), ?_, ?_⟩
        · rw [icalls_append]
          exact fun o ho => (List.mem_append.1 ho).elim (hfine o) (l2 o)
        · rw [icalls_append]; exact l3
    · rw [k1]
      refine ⟨-3, ten2, rfl, fun j a hja => ?_, .inl ⟨rfl, k2⟩⟩
      rw [k3]
      exact outside_ten hp _ ten j a hja

/-- The function `G` exists where the Jacobian is one to one. -/
theorem C56_inverse_exists (h : Traced cfg stock s q s' N) (par : Nat → ℝ) {x0 : Fin n → ℝ} (hx : Near cfg s q par x0)
    (hinj : Function.Injective (fderiv ℝ (fun y (k : Fin n) => F q s par n k y) x0)) {p : Nat} (S : Fin n → Fin p → ℝ) : ∃ G, Inverse q s par x0 S G := by
  obtain ⟨⟨e0, hspec, hn, hys⟩, hsm⟩ := hx
  have hho : ∀ᶠ x in 𝓝 x0, q.smooth .ho (ext x) par s.se := hsm.mono fun x h => Prog.smooth_ho h
  have hF : ∀ i, SmG (F q s par n i) x0 := fun i => F_smooth h par hspec hho i
  set f : (Fin n → ℝ) → Fin n → ℝ := fun y (k : Fin n) => F q s par n k y with hf
  have hfc : ContDiffAt ℝ ∞ f x0 := contDiffAt_pi.2 fun i => (hF i).self_of_nhds
  set e : (Fin n → ℝ) ≃L[ℝ] (Fin n → ℝ) := (LinearEquiv.ofInjectiveEndo (fderiv ℝ f x0 : (Fin n → ℝ) →ₗ[ℝ] (Fin n → ℝ)) hinj).toContinuousLinearEquiv with he
  have hfd : HasFDerivAt f (e : (Fin n → ℝ) →L[ℝ] (Fin n → ℝ)) x0 := by
    have : (e : (Fin n → ℝ) →L[ℝ] (Fin n → ℝ)) = fderiv ℝ f x0 := by
      ext1 v; rfl
    rw [this]
    exact (hfc.differentiableAt (by simp)).hasFDerivAt
  have hne : (∞ : WithTop ℕ∞) ≠ 0 := by simp
  have hA : ContDiffAt ℝ ∞ (fun z : Fin p → ℝ => fun i => f x0 i + ∑ r, S i r * z r) 0 := by fun_prop
  have hA0 : (fun i => f x0 i + ∑ r, S i r * (0 : Fin p → ℝ) r) = f x0 := by funext i; simp
  refine ⟨fun z => hfc.localInverse hfd hne fun i => f x0 i + ∑ r, S i r * z r, ?_, ?_, ?_⟩
  · refine ContDiffAt.comp (g := hfc.localInverse hfd hne) (f := fun z : Fin p → ℝ => fun i => f x0 i + ∑ r, S i r * z r) 0 ?_ hA
    rw [hA0]
    exact hfc.to_localInverse hfd hne
  · show hfc.localInverse hfd hne (fun i => f x0 i + ∑ r, S i r * (0 : Fin p → ℝ) r) = x0
    rw [hA0]
    exact hfc.localInverse_apply_image hfd hne
  · have hri := (hfc.hasStrictFDerivAt' hfd hne).eventually_right_inverse
    have := hA.continuousAt.eventually (p := fun y => f (hfc.localInverse hfd hne y) = y) (by rw [← hA0] at hri; exact hri)
    filter_upwards [this] with z hz i
    exact congrFun hz i

/-- A call with more directions than the call before it writes the new table behind the end of its memory. -/
theorem C56_changed_degree {t : Tape ℝ} {rrc hrc : Int} {d p d' p' : Nat} (hp : 1 ≤ p) (hd : 1 ≤ d) (hp' : 1 ≤ p') (hd' : 1 ≤ d') (hlt : num p d < num p' d')
    {x : Nat → ℝ} {z : ZS ℝ} (hz : zosRun ⟨x, t.par, false⟩ t.ops ZS.init = .ok z) (S ten : Nat → Nat → ℝ) (c : ITStat) (js : JSState ℝ) :
    (inverseTensorEval t rrc hrc d' p' x S ten ⟨d, p, tableOf p d⟩ c js).res = .error .index := by
  have hdim : (Tensor.binomi (p + d - 1) d).toNat = num p d := by rw [Tensor.binomi_eq]; simp [num]
  have hne : d' ≠ d ∨ p' ≠ p := by
    by_contra hh
    push Not at hh
    obtain ⟨rfl, rfl⟩ := hh
    omega
  unfold inverseTensorEval
  simp only [hz, if_neg (show ¬ d' = 0 by omega), TCache.getInv, if_pos hne, if_pos (show p ≠ 0 by omega), hdim, coeff_eq hp' hd', List.length_map, List.length_range]
  rw [if_neg (by omega)]

/-! ### The hypotheses can be met -/

/-- `y = x * x` at 1 with `S = (3)`: the point qualifies, `G` exists (and is `sqrt (1 + 3 z)`), after an earlier call on any trace; the call does not return `-3`. -/
example (t : Tape ℝ) (d : Nat) : ∃ s', Traced demoCfg [] demoStart JacSolv.sq s' (s'.hw + 1) ∧ JacSolv.sq.disc ⟨Set.univ, ∅⟩ ∧
    Near demoCfg demoStart JacSolv.sq (fun _ => 0) ![1] ∧ ¬ Rejected (tapeOf s' (s'.hw + 1) (fun _ => 0) 1 1) 3 (ext ![1]) ∧
    Function.Injective (fderiv ℝ (fun y (k : Fin 1) => F JacSolv.sq demoStart (fun _ => 0) 1 k y) ![1]) ∧
    Inverse JacSolv.sq demoStart (fun _ => 0) ![1] (fun _ _ => (3 : ℝ)) (fun (z : Fin 1 → ℝ) (_ : Fin 1) => Real.sqrt (1 + 3 * z 0)) ∧
    Called d 1 (inverseTensorEval t 3 3 d 1 (fun _ => 2) (fun _ _ => 1) (fun _ _ => 0) TCache.init ITStat.init JSState.init).cache := by
  obtain ⟨s', h1, h2, h3, h4, h5, _⟩ := sq_meets 1 (fun _ _ => 0) ITStat.init
  refine ⟨s', h1, h2, h3 _, h4, h5, ?_, .call .init _ _ _ _ _ _ _ _⟩
  have hlin : ContDiffAt ℝ ∞ (fun z : Fin 1 → ℝ => 1 + 3 * z 0) 0 := by fun_prop
  refine ⟨contDiffAt_pi.2 fun _ => hlin.sqrt (by simp), by funext i; simp, ?_⟩
  have hpos : ∀ᶠ z : Fin 1 → ℝ in 𝓝 0, 0 < 1 + 3 * z 0 := hlin.continuousAt.eventually (p := fun y => 0 < y) (by simpa using lt_mem_nhds (show (0:ℝ) < 1 by norm_num))
  filter_upwards [hpos] with z hz i
  obtain rfl : i = 0 := Subsingleton.elim _ _
  have e : ∀ x, F JacSolv.sq demoStart (fun _ => 0) 1 ((0 : Fin 1) : Nat) x = x 0 * x 0 := fun x => congrFun (sq_F fun _ => 0) x
  rw [e, e, Real.mul_self_sqrt hz.le]
  simp

end Verif.Props.InvTensor
