import Verif.Sparse.Driver
import Verif.Sparse.Program
import Verif.Props.AD
/-!
Property C20: sparsity patterns of the Jacobian.  Reading guide: `jacPatFwdSafe m n tape` is
`jac_pat<BitPattern, Safe, Forward>` for a trace with `m` dependents and `n` independents; row `j`
of the result is `none` (null pointer: no entries) or `some (count :: columns)`.
-/
set_option linter.all false
namespace Verif.Props.Sparse
open Verif.AD Verif.Sparse Verif.Props.AD

/-- Statements for which the bit pattern sweep in safe mode is right: not the two-argument
conditional assignments (`C20_condassign_s_drops`), and `fmin` only with at most 64
independents (`C20_fmin_drops`). -/
def patStmt {K : Type} (n : Nat) : Stmt K → Prop
  | .condS _ _ _ | .condEqS _ _ _ => False
  | .bin .fmin _ _ _ _ => n ≤ 64
  | _ => True

section
variable {K : Type} [Scalar K]

theorem emits_patStmt {n p : Nat} (hp : n ≤ 64 → p ≤ 1) {st : Stmt K} (h : patStmt n st) :
    emits (fun o => Base.safeOk p o ∧ ∀ r k, o ≠ .setRef r k) st := by
  cases st <;> simp only [emits, patStmt] at h ⊢
  case bin f lv a b d =>
    intro v w la lb ld _ _
    cases f <;> simp [Bin.op, Base.safeOk]
    exact hp (by simpa using h)
  case accD f d c => cases f <;> simp [Acc.opD, Base.safeOk]
  case accA f d a => cases f <;> simp [Acc.opA, Base.safeOk]
  case accR m d a => cases m <;> simp [Acc.opA, Base.safeOk]
  case un f a d =>
    intro v a r hda
    cases f <;> simp only [Un.op, opPlusD, opMinD, opMultD] <;> (try split_ifs) <;> simp [Base.safeOk]
  case trig co a b d => cases co <;> simp [Base.safeOk]
  case newD d c => intro r; simp only [opAssignD]; split_ifs <;> simp [Base.safeOk]
  case setD d c => intro r; simp only [opAssignD]; split_ifs <;> simp [Base.safeOk]
  all_goals first | trivial | simp [Base.safeOk]
end

theorem numDep_countP {K : Type} (ops : List (Base K)) : numDep ops = ops.countP isDep := by
  induction ops with
  | nil => rfl
  | cons o os ih =>
    rw [List.countP_cons, ← ih]
    simp only [numDep, List.map_cons, List.sum_cons]
    rw [Nat.add_comm]
    congr 1
    cases o <;> rfl

section real
variable {cfg : RCfg ℝ} {stock : List (Nat × List ℝ)} {s s' : Rec ℝ} {p : Prog ℝ} {N : Nat}

/-- C20 (bit pattern, safe mode, forward direction; partial: up to 1920 independents, without the
calls excluded by `patStmt`).  `jac_pat` succeeds; every row is a null pointer or its count
followed by strictly increasing column numbers below `n`; and whatever the point `x0` (on the
recorded path, where the elementary functions are differentiable) and the parameters, every entry of the
Jacobian that does not vanish there is listed. -/
theorem C20_bits_forward_safe_partial (h : Traced cfg stock s p s' N) {n : Nat} (hn : n ≤ 1920)
    (hp : allStmts (patStmt n) p) :
    ∃ cols : Nat → List Nat,
      jacPatFwdSafe ((s'.tape N).countP isDep) n (s'.tape N) =
        .ok ((List.range ((s'.tape N).countP isDep)).map fun j =>
          if cols j = [] then none else some ((cols j).length :: cols j)) ∧
      (∀ j, (cols j).Pairwise (· < ·) ∧ ∀ i ∈ cols j, i < n) ∧
      ∀ (par : Nat → ℝ) (x0 : Fin n → ℝ) (e0 : SE ℝ),
        p.spec (ext x0) par s.se = some (e0, p.path cfg s) → p.smooth .fwd (ext x0) par s.se →
        e0.ys.length = (s'.tape N).countP isDep ∧
        ∀ j < e0.ys.length, ∀ D : (Fin n → ℝ) →L[ℝ] ℝ,
          HasFDerivAt (fun x => p.out (ext x) par s.se j) D x0 →
          ∀ i : Fin n, D (Pi.single i 1) ≠ 0 → (i : Nat) ∈ cols j := by
  have hwp : n ≤ 64 → wordsPerBatch n ≤ 1 := by
    intro h; unfold wordsPerBatch wordsFull; split_ifs <;> omega
  have hb : batches n = 1 := by
    unfold batches; rw [if_pos]; unfold wordsFull; split_ifs <;> omega
  have hall : allStmts (emits (fun o : Base ℝ => Base.safeOk (wordsPerBatch n) o ∧ ∀ r k, o ≠ .setRef r k)) p := by
    clear h
    induction p with
    | done => trivial
    | stmt st k ih => exact ⟨emits_patStmt hwp hp.1, ih hp.2⟩
    | branch q a t f iht ihf => exact ⟨iht hp.1, ihf hp.2⟩
  have hops := emits_tape h.alloc (P := fun o : Base ℝ => Base.safeOk (wordsPerBatch n) o ∧ ∀ r k, o ≠ .setRef r k)
    (by simp [Base.safeOk]) (by simp [Base.safeOk]) (by simp [Base.safeOk]) p hall h.start h.recorded N
  have hrun : ∀ k, ∃ S, safeRun (wordsPerBatch n) (createSeed n k) (s'.tape N) BS.init = .ok S ∧
      S.Y.length = (s'.tape N).countP isDep := by
    intro k
    obtain ⟨S, h1, h2⟩ := safe_run_total (p := wordsPerBatch n) (createSeed n k) (fun o ho => (hops o ho).2) BS.init
    exact ⟨S, h1, by simpa [BS.init] using h2⟩
  choose S hS1 hS2 using hrun
  refine ⟨fun j => rowCols n S j (batches n), ?_, fun j => ⟨rowCols_sorted _ _, fun i hi =>
    rowCols_lt (fun k _ => hS1 k) hi⟩, ?_⟩
  · rw [jacPat_crs (fun k _ => hS1 k) (fun k _ => hS2 k)]
    · rfl
    · intro j _
      by_cases h0 : stripCols n S j 0 = []
      · refine .inr fun k hk => ?_
        rw [hb] at hk
        obtain rfl : k = 0 := by omega
        exact h0
      · exact .inl h0
  · intro par x0 e0 hspec hsm
    obtain ⟨D0, hD, hf⟩ := C11_fos_forward_partial h par false x0 hspec hsm
    have hsmooth := recorded_smooth h.alloc p h.start h.recorded (fun _ => 0) ⟨ext x0, par, false⟩ hspec hsm N
    have hpow : Along powOk ⟨ext x0, par, false⟩ (s'.tape N) ZS.init := by
      refine Along_mono (fun o T ho => ?_) hsmooth
      unfold powOk
      cases o <;> try trivial
      rename_i a r k
      intro hT
      have := ho.1
      simp only [smooth, hT] at this
      rcases this with h | ⟨h, _⟩ | ⟨_, h⟩
      · exact absurd h (lt_irrefl _)
      · exact absurd h (lt_irrefl _)
      · exact h
    have hcov : ∀ i : Fin n, ∃ f, fosRun ⟨ext x0, par, false⟩ (ext (Pi.single i 1)) (s'.tape N) FS.init = .ok f ∧
        f.dy.length = e0.ys.length ∧ (∀ j, f.dy[j]?.getD 0 = D0 j (Pi.single i 1)) ∧
        Covers (i % bitsPerStrip n / 64) (63 - i % bitsPerStrip n % 64) (S (i / bitsPerStrip n)) f := by
      intro i
      obtain ⟨f, f1, _, f2, f3⟩ := hf (Pi.single i 1)
      refine ⟨f, f1, f2, f3, ?_⟩
      have hpos : 0 < bitsPerStrip n := bitsPerStrip_pos (Nat.lt_of_le_of_lt (Nat.zero_le _) i.2)
      have hmod := Nat.mod_lt (i : Nat) hpos
      have hsub : (i : Nat) - i / bitsPerStrip n * bitsPerStrip n = i % bitsPerStrip n := by
        have := Nat.div_add_mod (i : Nat) (bitsPerStrip n)
        rw [Nat.mul_comm] at this
        omega
      refine covers_run (z := ZS.init) (by unfold bitsPerStrip at hmod ⊢; omega) ?_ (fun o ho => (hops o ho).1)
        ⟨fun a _ => rfl, rfl, rfl, by simp [BS.init]⟩ ⟨rfl, rfl, rfl, rfl, le_refl _⟩ hpow (hS1 _) f1
      intro i' hbit
      by_contra hne
      have hii : i' = i := by
        unfold ext at hne
        split_ifs at hne with hlt
        · by_contra hh
          apply hne
          rw [Pi.single_eq_of_ne]
          intro h; apply hh; rw [← h]
        · exact absurd rfl hne
      rw [← Bool.not_eq_true, createSeed_bit, hii] at hbit
      apply hbit
      have := Nat.div_add_mod (i : Nat) (bitsPerStrip n)
      rw [Nat.mul_comm] at this
      refine ⟨?_, ?_, ?_, ?_, ?_⟩ <;> first | exact i.2 | omega | (rw [Nat.succ_mul]; omega)
    refine ⟨?_, fun j hj D hDj i hne => ?_⟩
    · by_cases hn0 : n = 0
      · subst hn0
        obtain ⟨f, f1, _, f2, f3⟩ := hf 0
        have := (fos_ii_le f1).2.1
        rw [← f2, this, numDep_countP]
        simp [FS.init]
      · obtain ⟨f, f1, f2, f3, f4⟩ := hcov ⟨0, by omega⟩
        rw [← f2, ← f4.len, hS2]
    · obtain ⟨f, f1, f2, f3, f4⟩ := hcov i
      rw [hDj.unique (hD j), ← f3] at hne
      rw [mem_rowCols i.2]
      by_contra hbit
      rw [Bool.not_eq_true] at hbit
      have hlt : j < (S (i / bitsPerStrip n)).Y.length := by rw [f4.len, f2]; exact hj
      rw [List.getElem?_eq_getElem hlt, Option.getD_some] at hbit
      have := f4.out j _ (List.getElem?_eq_getElem hlt) hbit
      rw [this] at hne
      exact hne rfl

/-- The hypotheses are met by the demo program. -/
example : allStmts (patStmt 2) demo := by simp [demo, allStmts, patStmt]

end real

/-! ### Where the code deviates -/

section
variable {K : Type} [Scalar K]

/-- `adouble x[n]; x[i] <<= xp[i]` with objects at locations `0 … n-1`. -/
def inds (k n : Nat) : List (Base K) := (List.range' k n).map .assignInd

theorem safe_inds (p : Nat) (X : Nat → Nat → Word) (k n : Nat) (s : BS) (hs : s.ii = k) :
    safeRun p X (inds (K := K) k n) s =
      .ok ⟨fun l a => if l < p ∧ k ≤ a ∧ a < k + n then X a l else s.U l a, k + n, s.Y⟩ := by
  induction n generalizing k s with
  | zero =>
    simp only [inds, List.range'_zero, List.map_nil, safeRun]
    rw [show (fun l a => if l < p ∧ k ≤ a ∧ a < k + 0 then X a l else s.U l a) = s.U by
      funext l a; rw [if_neg (by omega)]]
    rw [← hs]; rfl
  | succ n ih =>
    have := ih (k + 1) ⟨fun l => if l < p then upd (s.U l) k (X s.ii l) else s.U l, s.ii + 1, s.Y⟩ (by simp [hs])
    simp only [inds, List.range'_succ, List.map_cons, safeRun, safeStep] at this ⊢
    refine this.trans ?_
    congr 2
    · funext l a
      by_cases hl : l < p
      · by_cases ha : a = k
        · subst ha; simp [hl, hs]
        · simp only [hl, true_and, if_true, upd_apply, ha, if_false]
          by_cases h1 : k + 1 ≤ a ∧ a < k + 1 + n
          · rw [if_pos h1, if_pos (by omega)]
          · rw [if_neg h1, if_neg (by omega)]
      · simp [hl]
    · omega

theorem fos_inds (x par v : Nat → K) (k n : Nat) (f : FS K) (hf : f.ii = k) :
    fosRun ⟨x, par, false⟩ v (inds k n) f = .ok ⟨fun a => if k ≤ a ∧ a < k + n then x a else f.T a,
      fun a => if k ≤ a ∧ a < k + n then v a else f.dT a, f.stk, f.rc, k + n, f.y, f.dy, f.rows⟩ := by
  induction n generalizing k f with
  | zero =>
    have : ∀ a, ¬ (k ≤ a ∧ a < k + 0) := by intro a; omega
    simp only [inds, List.range'_zero, List.map_nil, fosRun, this, if_false]
    rw [← hf]; rfl
  | succ n ih =>
    have := ih (k + 1) ⟨upd f.T k (x f.ii), upd f.dT k (v f.ii), f.stk, f.rc, f.ii + 1, f.y, f.dy, f.rows⟩ (by simp [hf])
    simp only [inds, List.range'_succ, List.map_cons, fosRun, fosStep, FS.push, FS.set, FS.setD] at this ⊢
    simp only [Bool.false_eq_true, if_false]
    refine this.trans ?_
    have key : ∀ (g : Nat → K) (w : Nat → K), (fun a => if k + 1 ≤ a ∧ a < k + 1 + n then w a else upd g k (w f.ii) a) =
        fun a => if k ≤ a ∧ a < k + (n + 1) then w a else g a := by
      intro g w
      funext a
      by_cases ha : a = k
      · subst ha; simp [hf]
      · by_cases h1 : k + 1 ≤ a ∧ a < k + 1 + n
        · rw [if_pos h1, if_pos (by omega)]
        · rw [if_neg h1, if_neg (by omega), upd_apply, if_neg ha]
    rw [key, key]
    congr 2
    omega

/-- C20 fails for `fmin` with more than 64 independents: for `y = fmin(x0, x64)`, where
`x64 < x0`, the derivative with respect to `x64` is 1, but the pattern is `{0}`
(uni5_for.cpp:3822: there is no loop over the words). -/
theorem C20_fmin_drops :
    jacPatFwdSafe 1 65 (inds (K := ℝ) 0 65 ++ [.minOp 0 64 65 1, .assignDep 65]) = .ok [some [1, 0]] ∧
    ∀ x par : Nat → ℝ, x 64 < x 0 → ∃ f, fosRun ⟨x, par, false⟩ (fun i => if i = 64 then 1 else 0)
      (inds 0 65 ++ [.minOp 0 64 65 1, .assignDep 65]) FS.init = .ok f ∧ f.dy = [1] := by
  constructor
  · decide +kernel
  · intro x par h
    rw [fosRun_append, fos_inds _ _ _ 0 65 FS.init rfl]
    simp [fosRun, fosStep, FS.init, FS.set, FS.push, FS.setD, upd_apply, FS.dec, h]

/-- C20 fails for `condassign(y, c, x1)`: for `y = x0; condassign(y, x1, x1)` with `x1 < 0` the
derivative with respect to `x0` is 1, but the pattern is `{1}` (uni5_for.cpp:4327). -/
theorem C20_condassign_s_drops :
    jacPatFwdSafe 1 2 ([.assignInd 0, .assignInd 1, .assignA 0 2, .condAssignS 1 1 2 0, .assignDep 2] :
      List (Base ℝ)) = .ok [some [1, 1]] ∧
    ∀ x par : Nat → ℝ, x 1 < 0 → ∃ f, fosRun ⟨x, par, false⟩ (fun i => if i = 0 then 1 else 0)
      [.assignInd 0, .assignInd 1, .assignA 0 2, .condAssignS 1 1 2 0, .assignDep 2] FS.init = .ok f ∧
      f.dy = [1] := by
  constructor
  · decide +kernel
  · intro x par h
    simp [fosRun, fosStep, FS.init, FS.set, FS.push, FS.setD, upd_apply, not_lt.2 h.le, FS.dec]

/-- C20 fails with more than 1920 independents: `jac_pat` dereferences a null pointer as soon as a dependent
depends on a later independent and on none of the first 1920 (sparsedrivers.cpp:53), for every
number of independents. -/
theorem C20_null_row {n i : Nat} (hi : 1920 ≤ i) (hn : i < n) :
    jacPatFwdSafe 1 n (inds (K := K) 0 n ++ [.assignDep i]) = .error .nullDeref := by
  have hwf : 30 < wordsFull n := by unfold wordsFull; split_ifs <;> omega
  have hp : wordsPerBatch n = 30 := by unfold wordsPerBatch; rw [if_neg (by omega)]
  have hbps : bitsPerStrip n = 1920 := by unfold bitsPerStrip; rw [hp]
  have hrun : ∀ k, ∃ S : BS, safeRun (wordsPerBatch n) (createSeed n k) (inds (K := K) 0 n ++ [.assignDep i]) BS.init = .ok S ∧
      S.Y = [fun l => if l < 30 then createSeed n k i l else 0] := by
    intro k
    rw [safeRun_append, safe_inds _ _ 0 n BS.init rfl]
    refine ⟨_, rfl, ?_⟩
    simp [BS.init, hp, hn]
  choose S hS1 hS2 using hrun
  have hmem : ∀ k i', i' ∈ stripCols n S 0 k ↔ k = i / 1920 ∧ i' = i := by
    intro k i'
    rw [mem_stripCols, hS2, hbps]
    simp only [List.getElem?_cons_zero, Option.getD_some]
    constructor
    · rintro ⟨h1, h2, h3⟩
      rw [if_pos (by omega), createSeed_bit, hbps] at h3
      omega
    · rintro ⟨rfl, rfl⟩
      refine ⟨by omega, by omega, ?_⟩
      rw [if_pos (by omega), createSeed_bit, hbps]
      omega
  have hk : i / 1920 < batches n := by have := strip_lt hn; rwa [hbps] at this
  have step : ∀ k r, stripFwd n (inds (K := K) 0 n ++ [.assignDep i]) [r] k =
      (match extractFwd (bitsPerStrip n) k (scan (bitsPerStrip n) fun l => if l < 30 then createSeed n k i l else 0) r with
        | .error e => .error e
        | .ok r' => .ok [r']) := by
    intro k r
    simp only [stripFwd, hS1, hS2, extractRows]
    cases extractFwd (bitsPerStrip n) k (scan (bitsPerStrip n) fun l => if l < 30 then createSeed n k i l else 0) r <;> rfl
  have hcols : ∀ k, ((List.range (bitsPerStrip n)).filter (scan (bitsPerStrip n) fun l => if l < 30 then createSeed n k i l else 0)).map
      (k * bitsPerStrip n + ·) = stripCols n S 0 k := by
    intro k
    simp [stripCols, hS2]
  have before : ∀ t ≤ i / 1920, (List.range t).foldl (fun r k => match r with
      | .error e => .error e
      | .ok rows => stripFwd n (inds (K := K) 0 n ++ [.assignDep i]) rows k) (.ok [none]) = Except.ok [none] := by
    intro t
    induction t with
    | zero => intro _; rfl
    | succ t ih =>
      intro ht
      rw [List.range_succ, List.foldl_append, ih (by omega)]
      have hnil : stripCols n S 0 t = [] := by
        rw [List.eq_nil_iff_forall_not_mem]
        intro a ha
        have := (hmem t a).1 ha
        omega
      simp only [List.foldl_cons, List.foldl_nil, step, extractFwd, hcols, hnil, List.length_nil, lt_irrefl, if_false]
  have after : ∀ t, i / 1920 < t → (List.range t).foldl (fun r k => match r with
      | .error e => .error e
      | .ok rows => stripFwd n (inds (K := K) 0 n ++ [.assignDep i]) rows k) (.ok [none]) = Except.error .nullDeref := by
    intro t
    induction t with
    | zero => intro h; omega
    | succ t ih =>
      intro ht
      rw [List.range_succ, List.foldl_append]
      by_cases h : i / 1920 < t
      · rw [ih h]; rfl
      · rw [before t (by omega)]
        have hpos : 0 < (stripCols n S 0 t).length :=
          List.length_pos_of_mem ((hmem t i).2 ⟨by omega, rfl⟩)
        simp only [List.foldl_cons, List.foldl_nil, step, extractFwd, hcols, hpos, if_true]
        rw [if_neg (by omega)]
  exact after _ hk
end
end Verif.Props.Sparse
