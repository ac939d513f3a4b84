import Verif.AD.RecordFull

/-!
Recording succeeds for every program that is defined on plain numbers, and the return code.
-/
set_option linter.all false
namespace Verif.AD
open Elem

variable {K : Type} [Scalar K]

theorem record_total_step {cfg : RCfg K} {st : Stmt K} {s : Rec K} {e e' : SE K} (hv : VSim s e)
    (h : st.spec cfg.x cfg.par e = some e') : ∃ s', st.record cfg s = some s' := by
  cases st
  all_goals simp only [Stmt.spec, hv.vars] at h
  all_goals simp only [Stmt.record]
  case accR m a t =>
    cases ha : s.env a <;> cases ht : s.env t <;> simp [ha, ht] at h ⊢
    exact h.1
  case new d =>
    cases hd : s.env d <;> simp [hd] at h ⊢ <;> first | exact h.1 | exact ⟨h.1.1, h.1.2⟩ | simp_all
  case newD d c =>
    cases hd : s.env d <;> simp [hd] at h ⊢ <;> first | exact h.1 | exact ⟨h.1.1, h.1.2⟩ | simp_all
  case copy d a =>
    cases hd : s.env d <;> cases ha : s.env a <;> simp [hd, ha] at h ⊢ <;> first | exact h.1 | exact ⟨h.1.1, h.1.2⟩ | simp_all
  case move d a =>
    cases hd : s.env d <;> cases ha : s.env a <;> simp [hd, ha] at h ⊢ <;> first | exact h.1 | exact ⟨h.1.1, h.1.2⟩ | simp_all
  case moveA a b =>
    cases ha : s.env a <;> cases hb : s.env b <;> simp [ha, hb] at h ⊢ <;> first | exact h.1 | exact ⟨h.1.1, h.1.2⟩ | simp_all
  case del a =>
    cases ha : s.env a <;> simp [ha] at h ⊢ <;> first | exact h.1 | exact ⟨h.1.1, h.1.2⟩ | simp_all
  case setD a c =>
    cases ha : s.env a <;> simp [ha] at h ⊢ <;> first | exact h.1 | exact ⟨h.1.1, h.1.2⟩ | simp_all
  case setA a b =>
    cases ha : s.env a <;> cases hb : s.env b <;> simp [ha, hb] at h ⊢ <;> first | exact h.1 | exact ⟨h.1.1, h.1.2⟩ | simp_all
  case setP a p =>
    cases ha : s.env a <;> simp [ha] at h ⊢ <;> first | exact h.1 | exact ⟨h.1.1, h.1.2⟩ | simp_all
  case accD f a c =>
    cases ha : s.env a <;> simp [ha] at h ⊢ <;> first | exact h.1 | exact ⟨h.1.1, h.1.2⟩ | simp_all
  case accA f a b =>
    cases ha : s.env a <;> cases hb : s.env b <;> simp [ha, hb] at h ⊢ <;> first | exact h.1 | exact ⟨h.1.1, h.1.2⟩ | simp_all
  case incr a =>
    cases ha : s.env a <;> simp [ha] at h ⊢ <;> first | exact h.1 | exact ⟨h.1.1, h.1.2⟩ | simp_all
  case decr a =>
    cases ha : s.env a <;> simp [ha] at h ⊢ <;> first | exact h.1 | exact ⟨h.1.1, h.1.2⟩ | simp_all
  case indep a =>
    cases ha : s.env a <;> simp [ha] at h ⊢ <;> first | exact h.1 | exact ⟨h.1.1, h.1.2⟩ | simp_all
  case dep a =>
    cases ha : s.env a <;> simp [ha] at h ⊢ <;> first | exact h.1 | exact ⟨h.1.1, h.1.2⟩ | simp_all
  case un f a d =>
    cases ha : s.env a <;> cases hd : s.env d <;> simp [ha, hd] at h ⊢ <;> first | exact h.1 | exact ⟨h.1.1, h.1.2⟩ | simp_all
  case bin f lv a b d =>
    cases ha : s.env a <;> cases hb : s.env b <;> cases hd : s.env d <;> simp [ha, hb, hd] at h ⊢ <;> first | exact h.1 | exact ⟨h.1.1, h.1.2⟩ | simp_all
  case trig co a b d =>
    cases ha : s.env a <;> cases hb : s.env b <;> cases hd : s.env d <;> simp [ha, hb, hd] at h ⊢ <;> first | exact h.1 | exact ⟨h.1.1, h.1.2⟩ | simp_all
  case quad q a b d =>
    cases ha : s.env a <;> cases hb : s.env b <;> cases hd : s.env d <;> simp [ha, hb, hd] at h ⊢ <;> first | exact h.1 | exact ⟨h.1.1, h.1.2⟩ | simp_all
  case cond r c a b =>
    cases hr : s.env r <;> cases hc : s.env c <;> cases ha : s.env a <;> cases hb : s.env b <;> simp [hr, hc, ha, hb] at h ⊢ <;> first | exact h.1 | exact ⟨h.1.1, h.1.2⟩ | simp_all
  case condS r c a =>
    cases hr : s.env r <;> cases hc : s.env c <;> cases ha : s.env a <;> simp [hr, hc, ha] at h ⊢ <;> first | exact h.1 | exact ⟨h.1.1, h.1.2⟩ | simp_all
  case condEq r c a b =>
    cases hr : s.env r <;> cases hc : s.env c <;> cases ha : s.env a <;> cases hb : s.env b <;> simp [hr, hc, ha, hb] at h ⊢ <;> first | exact h.1 | exact ⟨h.1.1, h.1.2⟩ | simp_all
  case condEqS r c a =>
    cases hr : s.env r <;> cases hc : s.env c <;> cases ha : s.env a <;> simp [hr, hc, ha] at h ⊢ <;> first | exact h.1 | exact ⟨h.1.1, h.1.2⟩ | simp_all

theorem record_total {cfg : RCfg K} (hal : ∀ k L, cfg.alloc k L ∉ L) (p : Prog K) (hf : p.noFminLL)
    {s : Rec K} (ok : s.Ok) {e e' : SE K} {bs : List Bool} (hv : VSim s e)
    (h : p.spec cfg.x cfg.par e = some (e', bs)) : ∃ s', p.record cfg s = some s' := by
  induction p generalizing s e e' bs with
  | done => exact ⟨s, rfl⟩
  | stmt st k ih =>
    simp only [Prog.spec, Option.bind_eq_some_iff] at h
    obtain ⟨e1, h1, h2⟩ := h
    obtain ⟨s1, g1⟩ := record_total_step hv h1
    obtain ⟨e1', k1, k2⟩ := vsim_step hal hf.1 ok hv g1
    rw [h1] at k1; cases k1
    obtain ⟨s', g2⟩ := ih hf.2 (record_ok hal ok g1) k2 h2
    exact ⟨s', by simp [Prog.record, g1, g2]⟩
  | branch q a t f iht ihf =>
    simp only [Prog.spec, Option.bind_eq_some_iff] at h
    obtain ⟨v, h1, h2⟩ := h
    rw [hv.vars] at h1
    simp only [Option.map_eq_some_iff] at h1
    obtain ⟨la, ha, rfl⟩ := h1
    have ok1 : (s.put (.cmp (q.recorded (q.holds (s.V la))) la)).Ok := ⟨ok.inj, ok.live, ok.hw⟩
    have hv1 : VSim (s.put (.cmp (q.recorded (q.holds (s.V la))) la)) e := ⟨hv.vars, hv.ii⟩
    simp only [Prog.record, ha, Option.bind_some]
    split at h2 <;> simp only [Option.map_eq_some_iff] at h2 <;> obtain ⟨⟨e2, b2⟩, h3, h4⟩ := h2
    · rename_i hh
      rw [if_pos hh]
      exact iht hf.1 ok1 hv1 h3
    · rename_i hh
      rw [if_neg hh]
      exact ihf hf.2 ok1 hv1 h3

/-! ### The return code of a forward sweep -/

/-- The documented meaning of the return code for one operation with values `T` (ADOL-C manual,
section "Forward mode"; uni5_for.cpp:1318, 1340, …): 3 = locally analytic,
2 = locally analytic but another branch of min / fabs / ceil / floor / condassign than when
recorded, 1 = tie in min, 0 = a comparison or condition is exactly at its threshold. -/
def Base.degree (o : Base K) (T : Nat → K) : Int :=
  match o with
  | .cmp .eq _ => 0
  | .cmp .le a | .cmp .ge a => if T a = 0 then 0 else 3
  | .minOp a b _ k =>
    if T a = T b then (if a = b then 3 else 1)
    else if (T b < T a ↔ k = 0) then 3 else 2
  | .absVal a _ k => if T a = 0 ∨ (T a < 0 ↔ k = 0) then 3 else 2
  | .ceilOp a _ k => if k = ceil (T a) then 3 else 2
  | .floorOp a _ k => if k = floor (T a) then 3 else 2
  | .condAssign a _ _ _ k => if T a = 0 then 0 else if (0 < T a ↔ 0 < k) then 3 else 2
  | .condEqAssign a _ _ _ k => if (0 ≤ T a ↔ 0 ≤ k) then 3 else 2
  | .condAssignS a _ _ k => if T a = 0 then 0 else if 0 < T a ∧ k ≤ 0 then 2 else 3
  | .condEqAssignS a _ _ k => if 0 ≤ T a ∧ k < 0 then 2 else 3
  | _ => 3

/-- The degrees of the operations a sweep executes. -/
def degrees (c : Cfg K) : List (Base K) → ZS K → List Int
  | [], _ => []
  | o :: os, s => o.degree s.T :: match zosStep c o s with | .ok s' => degrees c os s' | .error _ => []

theorem degree_le (o : Base K) (T : Nat → K) : o.degree T ≤ 3 ∧ 0 ≤ o.degree T := by
  cases o <;> simp only [Base.degree] <;> (try split) <;> (try split) <;> (try split) <;>
    constructor <;> simp

theorem rc_step {c : Cfg K} {o : Base K} {z z' : ZS K} (h : zosStep c o z = .ok z') (h0 : 0 ≤ z.rc)
    (h3 : z.rc ≤ 3) : z'.rc = min z.rc (o.degree z.T) := by
  have e3 : min z.rc 3 = z.rc := by omega
  have fold : ∀ {γ : Type} (L : List γ) (f : ZS K → γ → ZS K) (z : ZS K), (∀ s q, (f s q).rc = s.rc) →
      (L.foldl f z).rc = z.rc := by
    intro γ L f
    induction L with
    | nil => intro z _; rfl
    | cons q L ih => intro z hf; rw [List.foldl_cons, ih _ hf, hf]
  have fold2 : ∀ (L : List K) (p : Nat × ZS K),
      (L.foldl (fun (p : Nat × ZS K) v => (p.1 + 1, p.2.set p.1 v)) p).2.rc = p.2.rc := by
    intro L
    induction L with
    | nil => intro p; rfl
    | cons q L ih => intro p; rw [List.foldl_cons, ih]; rfl
  cases o
  case vecCopy => cases h; simp only [Base.degree, e3]; exact fold _ _ _ fun _ _ => rfl
  case vecDot => cases h; simp only [Base.degree, e3]; exact fold _ _ _ fun _ _ => rfl
  case vecAxpy => cases h; simp only [Base.degree, e3]; exact fold _ _ _ fun _ _ => rfl
  case deathNot => cases h; simp only [Base.degree, e3]; exact fold _ _ _ fun _ _ => rfl
  case takeStock => cases h; simp only [Base.degree, e3]; exact fold2 _ _
  case cmp q a =>
    simp only [zosStep] at h
    split at h
    · cases q <;> simp only [Except.ok.injEq] at h <;> subst h <;> simp only [Base.degree, e3]
      · omega
      all_goals (split <;> omega)
    · cases h
  case genQuad =>
    simp only [zosStep] at h
    split at h
    · cases h
    · cases h; simp only [Base.degree, e3]; rfl
  case minOp a b r k =>
    simp only [zosStep, Except.ok.injEq] at h
    subst h
    simp only [ZS.push, ZS.set, ZS.dec, Base.degree, mindec]
    rcases lt_trichotomy (z.T a) (z.T b) with h1 | h1 | h1
    · simp only [h1, h1.ne, not_lt.2 h1.le, gt_iff_lt, if_false, if_true, false_iff]
      by_cases hk : k = 0 <;> simp [hk] <;> (first | omega | (split <;> omega))
    · simp only [h1, lt_irrefl, gt_iff_lt, if_false, if_true]
      by_cases hk : a = b <;> simp [hk] <;> (first | omega | (split <;> omega))
    · simp only [h1, h1.ne', not_lt.2 h1.le, gt_iff_lt, if_false, if_true, true_iff]
      by_cases hk : k = 0 <;> simp [hk] <;> (first | omega | (split <;> omega))
  case absVal a r k =>
    simp only [zosStep, Except.ok.injEq] at h
    subst h
    simp only [ZS.push, ZS.set, ZS.dec, Base.degree, mindec]
    rcases lt_trichotomy (z.T a) 0 with h1 | h1 | h1
    · simp only [h1, h1.ne, not_lt.2 h1.le, gt_iff_lt, if_false, if_true, false_or, true_iff]
      by_cases hk : k = 0 <;> simp [hk] <;> (first | omega | (split <;> omega))
    · simp only [h1, lt_irrefl, gt_iff_lt, if_false, if_true, true_or]
      omega
    · simp only [h1, h1.ne', not_lt.2 h1.le, gt_iff_lt, if_false, if_true, false_or, false_iff]
      by_cases hk : k = 0 <;> simp [hk] <;> (first | omega | (split <;> omega))
  case ceilOp a r k =>
    simp only [zosStep, Except.ok.injEq] at h
    subst h
    simp only [ZS.push, ZS.set, ZS.dec, Base.degree, mindec, upd_same]
    by_cases hk : k = ceil (z.T a) <;> simp [hk] <;> (first | omega | (split <;> omega))
  case floorOp a r k =>
    simp only [zosStep, Except.ok.injEq] at h
    subst h
    simp only [ZS.push, ZS.set, ZS.dec, Base.degree, mindec, upd_same]
    by_cases hk : k = floor (z.T a) <;> simp [hk] <;> (first | omega | (split <;> omega))
  case condAssign a a1 a2 r k =>
    simp only [zosStep] at h
    rcases lt_trichotomy (z.T a) 0 with h1 | h1 | h1
    · simp only [ZS.push, gt_iff_lt, if_neg (not_lt.2 h1.le), Except.ok.injEq] at h
      subst h
      simp only [ZS.set, ZS.dec, Base.degree, mindec, h1.ne, if_false, decide_false, not_lt.2 h1.le, false_iff]
      by_cases hk : 0 < k <;> simp [hk] <;> (first | omega | (split <;> omega))
    · simp only [ZS.push, gt_iff_lt, h1, lt_irrefl, if_false, Except.ok.injEq] at h
      subst h
      simp only [ZS.set, ZS.dec, Base.degree, mindec, h1, if_true, decide_true]
      by_cases hk : 0 < k <;> simp [hk] <;> (repeat' split) <;> omega
    · simp only [ZS.push, gt_iff_lt, if_pos h1, Except.ok.injEq] at h
      subst h
      simp only [ZS.set, ZS.dec, Base.degree, mindec, h1.ne', if_false, h1, true_iff]
      by_cases hk : 0 < k
      · simp [hk, not_le.2 hk]; omega
      · simp [hk, not_lt.1 hk]; split <;> omega
  case condEqAssign a a1 a2 r k =>
    simp only [zosStep] at h
    rcases lt_or_ge (z.T a) 0 with h1 | h1
    · simp only [ZS.push, ge_iff_le, if_neg (not_le.2 h1), Except.ok.injEq] at h
      subst h
      simp only [ZS.set, ZS.dec, Base.degree, mindec, not_le.2 h1, false_iff]
      by_cases hk : 0 ≤ k
      · simp [hk, not_lt.2 hk]; split <;> omega
      · simp [hk, not_le.1 hk]; omega
    · simp only [ZS.push, ge_iff_le, if_pos h1, Except.ok.injEq] at h
      subst h
      simp only [ZS.set, ZS.dec, Base.degree, mindec, h1, true_iff]
      by_cases hk : 0 ≤ k
      · simp [hk, not_lt.2 hk]; omega
      · simp [hk, not_le.1 hk]; split <;> omega
  case condAssignS a a1 r k =>
    simp only [zosStep] at h
    rcases lt_trichotomy (z.T a) 0 with h1 | h1 | h1
    · simp only [ZS.push, gt_iff_lt, if_neg (not_lt.2 h1.le), Except.ok.injEq] at h
      subst h
      simp [ZS.set, ZS.dec, Base.degree, mindec, h1.ne, not_lt.2 h1.le]; omega
    · simp only [ZS.push, gt_iff_lt, h1, lt_irrefl, if_false, Except.ok.injEq] at h
      subst h
      simp [ZS.set, ZS.dec, Base.degree, mindec, h1]; split <;> omega
    · simp only [ZS.push, gt_iff_lt, if_pos h1, Except.ok.injEq] at h
      subst h
      simp only [ZS.set, ZS.dec, Base.degree, mindec, h1.ne', if_false, h1, true_and]
      by_cases hk : k ≤ 0
      · simp [hk]; split <;> omega
      · simp [hk]; omega
  case condEqAssignS a a1 r k =>
    simp only [zosStep] at h
    rcases lt_or_ge (z.T a) 0 with h1 | h1
    · simp only [ZS.push, ge_iff_le, if_neg (not_le.2 h1), Except.ok.injEq] at h
      subst h
      simp [Base.degree, not_le.2 h1]; omega
    · simp only [ZS.push, ge_iff_le, if_pos h1, Except.ok.injEq] at h
      subst h
      simp only [ZS.set, ZS.dec, Base.degree, mindec, h1, true_and]
      by_cases hk : k < 0
      · simp [hk]; split <;> omega
      · simp [hk]; omega
  all_goals (cases h; simp only [Base.degree, e3]; try rfl)

theorem rc_run {c : Cfg K} {ops : List (Base K)} {z z' : ZS K} (h : zosRun c ops z = .ok z')
    (h0 : 0 ≤ z.rc) (h3 : z.rc ≤ 3) : z'.rc = (degrees c ops z).foldl min z.rc := by
  induction ops generalizing z with
  | nil => cases h; rfl
  | cons o os ih =>
    simp only [zosRun] at h
    split at h
    · cases h
    · rename_i z1 h1
      have hr := rc_step h1 h0 h3
      have hd := degree_le o z.T
      rw [ih h (by rw [hr]; omega) (by rw [hr]; omega)]
      simp only [degrees, h1, List.foldl_cons, hr]

end Verif.AD
