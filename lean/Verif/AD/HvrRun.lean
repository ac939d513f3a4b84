import Verif.AD.HvrCase
import Verif.AD.HoRevRun

/-! `hov_ti_reverse` and `hos_ov_reverse` over a trace on which `hos_ti_reverse` succeeds; the pattern `nonzero`. -/
set_option linter.all false
namespace Verif.AD
open Elem

/-- The restriction on the operations: `abs` in `hov_ti_reverse` (see `Base.rowOk`); in `hos_ov_reverse` a sum to which a product is added
must be live, and `fmin` must have two different arguments. -/
def Base.planOk {K : Type} (c : RVCfg K) (live : Nat → Prop) : Base K → Prop
  | .absVal _ _ _ => c.ov = true ∨ c.p ≤ 1
  | .eqPlusProd _ _ r => c.ov = false ∨ live r
  | .eqMinProd _ _ r => c.ov = false ∨ live r
  | .minOp a b _ _ => c.ov = false ∨ a ≠ b
  | _ => True

section
variable {K : Type} [Scalar K] {c : RVCfg K} {l : Nat}

theorem minOp_T {k : Nat} {L : Nat → Nat → K} {a b r : Nat} {w : K} {h h' h2 : HRS K} (hp : h.pop k r = .ok h')
    (hs : hosRevStep k L (.minOp a b r w) h = .ok h2) (q : Nat) : h2.M (.T q) 0 = h'.M (.T q) 0 := by
  simp only [hosRevStep, hp, ok_bind'] at hs
  have key : ∀ f : Row → Nat → K, FrT h'.M f → f (.T q) 0 = h'.M (.T q) 0 := fun f hf => congrFun (hf (.T q) trivial) 0
  split at hs
  · cases hs; rfl
  · split at hs
    · cases hs
      exact key _ ((FrT.refl _).spread id id _)
    · cases hs
      exact key (spread2R k (.A a) (.A b) (.A r) (fun x t => x + t / 2) (fun x t => x + t / 2) h'.M) ((FrT.refl _).spread2 id id id _ _)

/-! The results are changed by `assign_ind` only. -/

def RVS.same (V V' : RVS K) : Prop := V'.Z = V.Z ∧ V'.nz = V.nz

theorem RVS.same.refl (V : RVS K) : V.same V := ⟨rfl, rfl⟩
theorem RVS.same.trans {V V' V'' : RVS K} (h : V.same V') (h' : V'.same V'') : V.same V'' := ⟨h'.1.trans h.1, h'.2.trans h.2⟩

theorem same_onRow (l t : Nat) (b : RBody K) (V : RVS K) : V.same (V.onRow l t b) := ⟨rfl, rfl⟩
theorem same_zero (r : Nat) (V : RVS K) : V.same (V.zero c r) := ⟨rfl, rfl⟩
theorem same_saveT (r : Nat) (V : RVS K) : V.same (V.saveT c r) := ⟨rfl, rfl⟩
theorem same_setFlat (k r f : Nat) (v : K) (V : RVS K) : V.same (V.setFlat k r f v) := by
  unfold RVS.setFlat; split_ifs <;> exact ⟨rfl, rfl⟩
theorem same_forUp {n : Nat} {f : Nat → RVS K → RVS K} (hf : ∀ i (V : RVS K), V.same (f i V)) (V : RVS K) : V.same (forUp n f V) :=
  forUp_inv (fun _ V' => V.same V') (.refl V) fun i s _ hs => hs.trans (hf i s)
theorem same_rows (r : Nat) (b : RBody K) (V : RVS K) : V.same (V.rows c r b) := by
  unfold RVS.rows
  exact forUp_inv (fun _ (x : RVS K × Nat) => V.same x.1) (.refl V) fun i s _ hs => by
    split_ifs
    · exact hs
    · exact hs.trans (same_onRow _ _ _ _)
theorem same_rowsPre (r : Nat) (pre : (Row → Nat → K) → Row → Nat → K) (b : RBody K) (V : RVS K) : V.same (V.rowsPre c r pre b) := by
  unfold RVS.rowsPre
  exact forUp_inv (fun _ (x : RVS K × Nat) => V.same x.1) (.refl V) fun i s _ hs => by
    dsimp only
    split_ifs
    · exact hs.trans (same_onRow _ _ _ _)
    · exact (hs.trans (same_onRow _ _ _ _)).trans (same_onRow _ _ _ _)

/-- A computation that leaves the results alone. -/
def keepsZ (V : RVS K) (x : Except HRStop (RVS K)) : Prop := ∀ V', x = .ok V' → V.same V'

theorem keepsZ.ok {V V' : RVS K} (h : V.same V') : keepsZ V (.ok V') := fun _ e => by cases e; exact h
theorem keepsZ.error {V : RVS K} {e : HRStop} : keepsZ V (.error e) := fun _ e => by cases e
theorem keepsZ.pop (r : Nat) {V V' : RVS K} (h : V.same V') : keepsZ V (V'.pop c r) := by
  intro V'' e
  unfold RVS.pop at e
  split at e
  · cases e
  · cases e; exact ⟨h.1, h.2⟩
theorem keepsZ.bind {V : RVS K} {x : Except HRStop (RVS K)} {f : RVS K → Except HRStop (RVS K)} (h : keepsZ V x)
    (hf : ∀ V', V.same V' → keepsZ V (f V')) : keepsZ V (x >>= f) := by
  cases x with
  | error e => exact .error
  | ok V1 => exact hf V1 (h V1 rfl)
theorem keepsZ.ite {V : RVS K} {P : Prop} [Decidable P] {x y : Except HRStop (RVS K)} (h1 : keepsZ V x) (h2 : keepsZ V y) : keepsZ V (if P then x else y) := by
  split_ifs
  · exact h1
  · exact h2
theorem same.ite {V : RVS K} {P : Prop} [Decidable P] {x y : RVS K} (h1 : V.same x) (h2 : V.same y) : V.same (if P then x else y) := by
  split_ifs
  · exact h1
  · exact h2
theorem keepsZ.foldl {V V' : RVS K} {f : RVS K → Nat → RVS K} (J : List Nat) (h : V.same V') (hf : ∀ (V' : RVS K) q, V'.same (f V' q)) : V.same (J.foldl f V') := by
  induction J generalizing V' with
  | nil => exact h
  | cons q J ih => exact ih (h.trans (hf _ _))
theorem keepsZ.foldlM {V V' : RVS K} {f : RVS K → Nat → Except HRStop (RVS K)} (J : List Nat) (h : V.same V')
    (hf : ∀ (V' : RVS K) q, V.same V' → keepsZ V (f V' q)) : keepsZ V (J.foldlM f V') := by
  induction J generalizing V' with
  | nil => exact .ok h
  | cons q J ih => rw [List.foldlM_cons]; exact (hf _ _ h).bind fun V1 h1 => ih h1

theorem hvrStep_keepsZ (o : Base K) (ho : ∀ r, o ≠ .assignInd r) (V : RVS K) : keepsZ V (hvrStep c o V) := by
  have R := RVS.same.refl V
  have rw' : ∀ {V' : RVS K} (r : Nat) (b : RBody K), V.same V' → V.same (V'.rows c r b) := fun r b h => h.trans (same_rows r b _)
  cases o
  all_goals simp only [hvrStep]
  case assignInd r => exact absurd rfl (ho r)
  all_goals first
    | exact .ok R
    | exact .error
    | exact .pop _ R
    | exact .pop _ (rw' _ _ R)
    | exact .pop _ (same_zero _ _)
    | exact (keepsZ.pop _ R).bind fun V1 h1 => .ok (rw' _ _ h1)
    | exact (keepsZ.pop _ (rw' _ _ R)).bind fun V1 h1 => .pop _ h1
    | exact .ite (.ok (same_rowsPre _ _ _ _)) (.ok (rw' _ _ (same_onRow _ _ _ _)))
    | exact keepsZ.bind (.ite (.pop _ (same_saveT _ _)) (.ok R)) fun V1 h1 => .ite (.pop _ (rw' _ _ h1)) (.ok (rw' _ _ h1))
    | skip
  case minOp a b r w =>
    refine (keepsZ.pop _ R).bind fun V1 h1 => ?_
    split
    · exact .ite .error (.ok (rw' _ _ h1))
    · exact .ite .error (.ok (rw' _ _ h1))
  case absVal a r w =>
    refine (keepsZ.pop _ R).bind fun V1 h1 => ?_
    refine .ite (.ok (h1.trans (same_forUp (fun i V => by split_ifs; exacts [.refl V, same_onRow _ _ _ _]) _))) (.ite .error (.ok (rw' _ _ h1)))
  case ceilOp a r w =>
    exact (keepsZ.pop _ R).bind fun V1 h1 => .ite .error (.ok h1)
  case floorOp a r w =>
    refine (keepsZ.pop _ R).bind fun V1 h1 => .ok (h1.trans ?_)
    exact forUp_inv (fun _ (x : RVS K × Nat × Nat) => V1.same x.1) (.refl V1) fun i s _ hs => by
      obtain ⟨s, f, g⟩ := s
      dsimp only
      split_ifs
      · exact hs
      · exact ((hs.trans (same_setFlat _ _ _ _ _)).trans (same_setFlat _ _ _ _ _)).trans (same_forUp (fun i V => same_setFlat _ _ _ _ _) _)
  case condAssign a a1 a2 r w =>
    refine (keepsZ.pop _ R).bind fun V1 h1 => ?_
    exact .ite (.ok (same.ite (rw' _ _ h1) h1)) (.ite (.ok (rw' _ _ h1)) (.ok (rw' _ _ h1)))
  case condEqAssign a a1 a2 r w =>
    refine (keepsZ.pop _ R).bind fun V1 h1 => ?_
    exact .ite (.ok (same.ite (rw' _ _ h1) h1)) (.ok (same.ite (rw' _ _ h1) h1))
  case condAssignS a a1 r w =>
    refine (keepsZ.pop _ R).bind fun V1 h1 => ?_
    exact .ite (.ok (rw' _ _ h1)) (.ite (.ok (same.ite (rw' _ _ h1) h1)) (.ok h1))
  case condEqAssignS a a1 r w =>
    refine (keepsZ.pop _ R).bind fun V1 h1 => ?_
    exact .ite (.ok (same.ite (rw' _ _ h1) h1)) (.ok h1)
  case vecCopy a n r => exact keepsZ.foldlM _ R fun V' q h => .pop _ (rw' _ _ h)
  case vecDot a b n r => exact .pop _ (keepsZ.foldl _ R fun V' q => same_rows _ _ _)
  case vecAxpy a a1 a2 n r =>
    exact keepsZ.foldlM _ R fun V' q h => .pop _ (same.ite h (h.trans (same_onRow _ _ _ _)))
  case takeStock r vs => exact .ok (keepsZ.foldl _ R fun V' q => same_zero _ _)
  case deathNot a b => exact keepsZ.foldlM _ (keepsZ.foldl _ R fun V' q => same_zero _ _) fun V' q h => .pop _ h
  all_goals
    split_ifs
    all_goals first
      | exact (keepsZ.pop _ (same_saveT _ _)).bind fun V1 h1 => .ok (rw' _ _ h1)
      | exact (keepsZ.pop _ (same_saveT _ _)).bind fun V1 h1 => .pop _ (rw' _ _ h1)
      | exact (keepsZ.ok R).bind fun V1 h1 => .pop _ (rw' _ _ h1)
      | exact (keepsZ.ok R).bind fun V1 h1 => .ok (rw' _ _ h1)

end

section
variable {c : RVCfg ℝ} {l d : Nat}

theorem hvr_along (hk : c.k = d + 1) (hL : c.ov = true → ∀ l j i, c.L l j i = c.L 0 j i) (hl : l < c.p) {V : RVS ℝ} {h : HRS ℝ} (hJ : RJ c l V h)
    (ops : List (Base ℝ)) (hp : ∀ pre o os, ops = pre ++ o :: os → o.planOk c fun r => ∀ h1, hosRevRun c.k (c.L l) os h = .ok h1 → h1.fl r ≠ 0) (hok : HrevOK d (c.L l) h ops) : AlongRV c ops V := by
  induction ops with
  | nil => trivial
  | cons o os ih =>
    have i1 := ih (fun pre o' os' he => hp (o :: pre) o' os' (by simp [he])) (fun pre o' os' he => hok (o :: pre) o' os' (by simp [he]))
    refine ⟨i1, fun V1 hV1 => ?_⟩
    obtain ⟨H1, H2, e1, e2, e3, e4, e5⟩ := hok [] o os rfl
    have hr := hvr_run (by omega) hL hl hJ os i1
    rw [hV1, hk, e1] at hr
    have hJ1 : RJ c l V1 H1 := hr
    have hpo := hp [] o os rfl
    have lv : ∀ r, (∀ h1, hosRevRun c.k (c.L l) os h = .ok h1 → h1.fl r ≠ 0) → c.ov = true → V1.fl r 0 ≠ 0 := by
      intro r hr ho
      have := hr H1 (by rw [hk, e1])
      rw [← hJ1.fl, hJ1.ofl ho r l hl] at this
      exact this
    cases o
    all_goals first | trivial | exact hpo | exact Or.inl hpo | exact absurd trivial e4 | skip
    case eqPlusProd a b r =>
      cases ho : c.ov with
      | false => exact Or.inl ho
      | true => exact Or.inr (lv _ (hpo.resolve_left (by simp [ho])) ho)
    case eqMinProd a b r =>
      cases ho : c.ov with
      | false => exact Or.inl ho
      | true => exact Or.inr (lv _ (hpo.resolve_left (by simp [ho])) ho)
    case minOp a b r w =>
      rcases hpo with h0 | hab
      · exact Or.inl h0
      · refine Or.inr fun V' hV' => ?_
        have hq := hJ1.pop hl r
        rw [hV'] at hq
        cases hpp : H1.pop c.k r with
        | error e => rw [hpp] at hq; exact hq.elim
        | ok h' =>
          rw [hpp] at hq
          have hq : RJ c l V' h' := hq
          rw [hq.val (by omega) hl, hq.val (by omega) hl, ← minOp_T hpp (hk ▸ e2), ← minOp_T hpp (hk ▸ e2)]
          exact (e5 a b r w rfl).resolve_left hab

/-- `nonzero[l][j]` is zero only if the derivatives in row `l` with respect to the `j`-th independent are. -/
theorem hvr_nz (hk : c.k = d + 1) (hov : c.ov = false) (hl : l < c.p) {V : RVS ℝ} {h : HRS ℝ} (hJ : RJ c l V h)
    (h0 : ∀ j, V.nz l j = 0 → ∀ i, i < c.k → V.Z l j i = 0)
    (ops : List (Base ℝ)) (ha : AlongRV c ops V) (hok : HrevOK d (c.L l) h ops) {V' : RVS ℝ} (hV : hvrRun c ops V = .ok V') :
    ∀ j, V'.nz l j = 0 → ∀ i, i < c.k → V'.Z l j i = 0 := by
  induction ops generalizing V' with
  | nil => cases hV; exact h0
  | cons o os ih =>
    simp only [hvrRun] at hV
    split at hV
    · cases hV
    · rename_i V1 hV1
      have i1 := ih ha.1 (fun pre o' os' he => hok (o :: pre) o' os' (by simp [he])) hV1
      obtain ⟨H1, H2, e1, e2, e3, e4, e5⟩ := hok [] o os rfl
      have hr := hvr_run (by omega) (by simp [hov]) hl hJ os ha.1
      rw [hV1, hk, e1] at hr
      have hJ1 : RJ c l V1 H1 := hr
      by_cases hi : ∃ r, o = .assignInd r
      · obtain ⟨r, rfl⟩ := hi
        simp only [hvrStep] at hV
        unfold RVS.pop at hV
        cases hst : V1.stk with
        | nil => simp only [hst] at hV; cases hV
        | cons x st =>
          simp only [hst] at hV
          cases hV
          intro j hj i hi
          simp only [hl, hov, hi, true_and, and_true] at hj ⊢
          by_cases hji : j = V1.ii - 1
          · rw [if_pos hji] at hj ⊢
            rw [hJ1.A r i hi]
            exact (e3 r).2 (by rw [← hJ1.fl]; exact hj) i (by omega)
          · rw [if_neg hji] at hj ⊢
            exact i1 j hj i hi
      · have := hvrStep_keepsZ (c := c) o (fun r hr => hi ⟨r, hr⟩) V1 V' hV
        rw [this.1, this.2]
        exact i1

end
end Verif.AD
