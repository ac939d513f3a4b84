import Verif.AD.RevStatic
import Verif.AD.FovFos

/-! The whole reverse sweep. -/
set_option linter.all false
namespace Verif.AD
open Elem Finset

variable {K : Type} [Scalar K]

/-- Number of independents / dependents an operation declares. -/
def Base.nInd (o : Base K) : Nat := match o with | .assignInd _ => 1 | _ => 0
def Base.nDep (o : Base K) : Nat := match o with | .assignDep _ => 1 | _ => 0

/-- `NUM_INDEPENDENTS`, `NUM_DEPENDENTS` of a trace: the recorder increments them at each
`<<=` / `>>=` (adouble.cpp:780, 825, 838, 877). -/
def numInd (ops : List (Base K)) : Nat := (ops.map Base.nInd).sum
def numDep (ops : List (Base K)) : Nat := (ops.map Base.nDep).sum

/-- Nothing but `T` inside `W` and the tangents changes. -/
structure Fr (W : Nat → Prop) (s s' : FS K) : Prop where
  ii : s'.ii = s.ii
  dy : s'.dy = s.dy
  y : s'.y = s.y
  T : ∀ l, ¬ W l → s'.T l = s.T l
  dT : ∀ l, ¬ W l → s'.dT l = s.dT l

namespace Fr
variable {W : Nat → Prop} {s s' s'' : FS K}
theorem refl : Fr W s s := ⟨rfl, rfl, rfl, fun _ _ => rfl, fun _ _ => rfl⟩
theorem push {c : Cfg K} {r : Nat} (h : Fr W s s') : Fr W s (s'.push c r) :=
  ⟨h.ii, h.dy, h.y, h.T, h.dT⟩
theorem setD {r : Nat} {x : K} (hr : W r) (h : Fr W s s') : Fr W s (s'.setD r x) :=
  ⟨h.ii, h.dy, h.y, h.T, fun l hl => (upd_ne _ _ (by rintro rfl; exact hl hr)).trans (h.dT l hl)⟩
theorem dec {b : Bool} {n : Int} (h : Fr W s s') : Fr W s (s'.dec b n) :=
  ⟨h.ii, h.dy, h.y, h.T, h.dT⟩
theorem set {r : Nat} {x : K} (hr : W r) (h : Fr W s s') : Fr W s (s'.set r x) :=
  ⟨h.ii, h.dy, h.y, fun l hl => (upd_ne _ _ (by rintro rfl; exact hl hr)).trans (h.T l hl), h.dT⟩
theorem ite {b : Prop} [Decidable b] (h : Fr W s s') (h' : Fr W s s'') :
    Fr W s (if b then s' else s'') := by split <;> assumption
theorem foldl {γ : Type} {f : FS K → γ → FS K} {J : List γ}
    (hf : ∀ s', ∀ q ∈ J, Fr W s s' → Fr W s (f s' q)) (h : Fr W s s') : Fr W s (J.foldl f s') := by
  induction J generalizing s' with
  | nil => exact h
  | cons x J ih => exact ih (fun s' q hq => hf s' q (by simp [hq])) (hf s' x (by simp) h)
theorem foldlSnd {γ : Type} {f : Nat × FS K → γ → Nat × FS K} {W : Nat → Prop} (r : Nat) :
    ∀ {J : List γ} {p : Nat × FS K}, r ≤ p.1 → (∀ l, r ≤ l → l < p.1 + J.length → W l) →
    (∀ p x, (f p x).1 = p.1 + 1) → (∀ p x, W p.1 → Fr W s p.2 → Fr W s (f p x).2) →
    Fr W s p.2 → Fr W s (J.foldl f p).2
  | [], _, _, _, _, _, h => h
  | x :: J, p, hr, hW, h1, hf, h => by
    refine foldlSnd r (p := f p x) (J := J) (by rw [h1]; omega) ?_ h1 hf
      (hf p x (hW p.1 hr (by simp)) h)
    intro l h2 h3
    rw [h1] at h3
    exact hW l h2 (by simp; omega)
end Fr

/-- Locations an operation writes. -/
def Base.writes (o : Base K) (l : Nat) : Prop :=
  match o with
  | .cmp _ _ | .assignDep _ | .deathNot _ _ => False
  | .assignA _ r | .assignD r _ | .assignP _ r | .assignD0 r | .assignD1 r | .assignInd r
  | .eqPlusD r _ | .eqMinD r _ | .eqMultD r _ | .incrA r | .decrA r | .setRef r _
  | .eqPlusA _ r | .eqMinA _ r | .eqMultA _ r | .plusAA _ _ r
  | .plusDA _ r _ | .minAA _ _ r | .minDA _ r _ | .multAA _ _ r | .eqPlusProd _ _ r
  | .eqMinProd _ _ r | .multDA _ r _ | .divAA _ _ r | .divDA _ r _ | .posSign _ r | .negSign _ r
  | .expOp _ r | .quad _ _ _ r | .logOp _ r | .powOp _ r _ | .sqrtOp _ r | .cbrtOp _ r
  | .genQuad _ _ r _ _ | .minOp _ _ r _ | .absVal _ r _ | .condAssign _ _ _ r _
  | .condEqAssign _ _ _ r _ | .condAssignS _ _ r _ | .condEqAssignS _ _ r _
  | .ceilOp _ r _ | .floorOp _ r _ | .vecDot _ _ _ r => l = r
  | .sinOp _ b r | .cosOp _ b r => l = b ∨ l = r
  | .vecCopy _ n r | .vecAxpy _ _ _ n r => r ≤ l ∧ l < r + n
  | .takeStock r vs => r ≤ l ∧ l < r + vs.length

theorem writes_bounded {N : Nat} {o : Base K} (hb : o.bounded N) {l : Nat} (h : o.writes l) :
    l < N := by
  cases o <;> simp only [Base.writes, Base.bounded] at h hb <;> omega

theorem fos_frame {c : Cfg K} {v : Nat → K} {o : Base K} {s s' : FS K}
    (h : fosStep c v o s = .ok s') (hi : o.nInd = 0) (hd : o.nDep = 0) : Fr o.writes s s' := by
  cases o
  case cmp q a =>
    simp only [fosStep] at h
    split at h
    · cases q <;> simp only [Except.ok.injEq] at h <;> subst h <;> exact ⟨rfl, rfl, rfl, fun _ _ => rfl, fun _ _ => rfl⟩
    · cases h
  case assignInd r => simp [Base.nInd] at hi
  case assignDep r => simp [Base.nDep] at hd
  case vecCopy a n r =>
    simp only [fosStep, Except.ok.injEq] at h
    subst h
    refine Fr.foldl (fun s' q hq h => ?_) Fr.refl
    rw [List.mem_range] at hq
    have : Base.writes (Base.vecCopy (K := K) a n r) (r + q) := ⟨by omega, by omega⟩
    exact Fr.setD this (Fr.set this h.push)
  case vecDot a b n r =>
    simp only [fosStep, Except.ok.injEq] at h
    subst h
    exact Fr.foldl (fun s' q hq h => (Fr.set rfl (Fr.setD rfl h))) (Fr.setD rfl (Fr.set rfl (Fr.push Fr.refl)))
  case vecAxpy a a1 a2 n r =>
    simp only [fosStep, Except.ok.injEq] at h
    subst h
    refine Fr.foldl (fun s' q hq h => ?_) Fr.refl
    rw [List.mem_range] at hq
    have : Base.writes (Base.vecAxpy (K := K) a a1 a2 n r) (r + q) := ⟨by omega, by omega⟩
    exact Fr.set this (Fr.setD this h.push)
  case takeStock r vs =>
    simp only [fosStep, Except.ok.injEq] at h
    subst h
    exact Fr.foldlSnd r (le_refl _) (fun l h1 h2 => ⟨h1, h2⟩) (fun _ _ => rfl)
      (fun p x hp h => Fr.setD hp (Fr.set hp h)) Fr.refl
  case deathNot a b =>
    simp only [fosStep, Except.ok.injEq] at h
    subst h
    exact Fr.foldl (fun s' q hq h => h.push) Fr.refl
  case genQuad a b r old k =>
    simp only [fosStep] at h
    split at h
    · cases h
    · cases h; exact Fr.setD rfl (Fr.set rfl (Fr.push Fr.refl))
  case powOp a r k =>
    simp only [fosStep] at h
    split at h <;> cases h <;> exact Fr.setD rfl (Fr.set rfl (Fr.push Fr.refl))
  case sinOp a b r =>
    simp only [fosStep, Except.ok.injEq] at h
    subst h
    exact Fr.setD (Or.inr rfl) (Fr.setD (Or.inl rfl) (Fr.set (Or.inr rfl) (Fr.set (Or.inl rfl) (Fr.push (Fr.push Fr.refl)))))
  case cosOp a b r =>
    simp only [fosStep, Except.ok.injEq] at h
    subst h
    exact Fr.setD (Or.inr rfl) (Fr.setD (Or.inl rfl) (Fr.set (Or.inr rfl) (Fr.set (Or.inl rfl) (Fr.push (Fr.push Fr.refl)))))
  case minOp a b r k =>
    simp only [fosStep, Except.ok.injEq] at h
    subst h
    exact Fr.set rfl (Fr.setD rfl (Fr.ite Fr.refl.push.dec (Fr.ite Fr.refl.push.dec Fr.refl.push.dec)))
  case absVal a r k =>
    simp only [fosStep, Except.ok.injEq] at h
    subst h
    exact Fr.set rfl (Fr.setD rfl (Fr.dec (Fr.ite Fr.refl.push.dec (Fr.ite Fr.refl.push.dec Fr.refl.push))))
  case condAssign a a1 a2 r k =>
    simp only [fosStep] at h
    split_ifs at h <;> cases h <;> first
      | exact Fr.set rfl (Fr.dec (Fr.setD rfl (Fr.push Fr.refl)))
      | exact Fr.set rfl (Fr.dec (Fr.dec (Fr.setD rfl (Fr.push Fr.refl))))
  case condEqAssign a a1 a2 r k =>
    simp only [fosStep] at h
    split_ifs at h <;> cases h <;> first
      | exact Fr.set rfl (Fr.dec (Fr.setD rfl (Fr.push Fr.refl)))
      | exact Fr.set rfl (Fr.dec (Fr.dec (Fr.setD rfl (Fr.push Fr.refl))))
  case condAssignS a a1 r k =>
    simp only [fosStep] at h
    split_ifs at h <;> cases h <;> first
      | exact Fr.set rfl (Fr.dec (Fr.setD rfl (Fr.push Fr.refl)))
      | exact Fr.dec (Fr.setD rfl (Fr.push Fr.refl))
      | exact Fr.set rfl (Fr.dec (Fr.push Fr.refl))
      | exact Fr.dec (Fr.push Fr.refl)
      | exact Fr.setD rfl (Fr.push Fr.refl)
      | exact Fr.push Fr.refl
  case condEqAssignS a a1 r k =>
    simp only [fosStep] at h
    split_ifs at h <;> cases h <;> first
      | exact Fr.set rfl (Fr.dec (Fr.setD rfl (Fr.push Fr.refl)))
      | exact Fr.dec (Fr.setD rfl (Fr.push Fr.refl))
      | exact Fr.set rfl (Fr.dec (Fr.push Fr.refl))
      | exact Fr.dec (Fr.push Fr.refl)
      | exact Fr.setD rfl (Fr.push Fr.refl)
      | exact Fr.push Fr.refl
  all_goals
    simp only [fosStep, Except.ok.injEq] at h
    subst h
    first
      | exact Fr.setD rfl (Fr.set rfl (Fr.push Fr.refl))
      | exact Fr.set rfl (Fr.setD rfl (Fr.push Fr.refl))
      | exact Fr.set rfl (Fr.setD rfl Fr.refl)
      | exact Fr.set rfl (Fr.push Fr.refl)
      | exact Fr.setD rfl (Fr.dec (Fr.set rfl (Fr.push Fr.refl)))

theorem fos_misc {c : Cfg K} {v : Nat → K} {o : Base K} {s s' : FS K}
    (h : fosStep c v o s = .ok s') :
    s'.ii = s.ii + o.nInd ∧ s'.dy.length = s.dy.length + o.nDep ∧
      s'.y.length = s.y.length + o.nDep ∧ ∀ l, ¬ o.writes l → s'.T l = s.T l := by
  by_cases hi : o.nInd = 0
  · by_cases hd : o.nDep = 0
    · have hf := fos_frame h hi hd
      exact ⟨by rw [hf.ii, hi]; rfl, by rw [hf.dy, hd]; rfl, by rw [hf.y, hd]; rfl, hf.T⟩
    · cases o <;> simp [Base.nDep] at hd
      simp only [fosStep, Except.ok.injEq] at h
      subst h
      simp [Base.nInd, Base.nDep]
  · cases o <;> simp [Base.nInd] at hi
    simp only [fosStep, FS.push, FS.set, FS.setD, Except.ok.injEq] at h
    subst h
    exact ⟨rfl, rfl, rfl, fun l hl => upd_ne _ _ hl⟩

theorem fos_ii_le {c : Cfg K} {v : Nat → K} {ops : List (Base K)} {s sf : FS K}
    (h : fosRun c v ops s = .ok sf) : sf.ii = s.ii + numInd ops ∧
      sf.dy.length = s.dy.length + numDep ops ∧ sf.y.length = s.y.length + numDep ops := by
  induction ops generalizing s with
  | nil => cases h; simp [numInd, numDep]
  | cons o os ih =>
    simp only [fosRun] at h
    split at h
    · cases h
    · rename_i s' h1
      obtain ⟨h2, h3, h4⟩ := ih h
      obtain ⟨h5, h6, h7, _⟩ := fos_misc h1
      simp only [numInd, numDep, List.map_cons, List.sum_cons] at h2 h3 h4 ⊢
      omega

/-- The reverse sweep over a stretch of trace undoes the forward sweep over it. -/
theorem undo_run {N n : Nat} {c : Cfg K} (hk : c.keep = true) {u v : Nat → K}
    {ops : List (Base K)} {s sf : FS K} {z : ZS K} (h : fosRun c v ops s = .ok sf)
    (hsz : SameZ s z) {Z : Set Nat} (hwf : WfFrom N Z ops) (hreg : Along regular c ops z)
    (hz : ∀ l ∈ Z, s.dT l = 0) {A bar : Nat → K} (hA : ∀ l, A l = 0) (hn : sf.ii ≤ n)
    (hbar : ∀ i < sf.ii, bar i = 0) :
    ∃ r, revRun u ops ⟨sf.T, A, sf.stk, sf.ii, sf.dy.length, bar⟩ = .ok r ∧
      Undo N n u v s sf A bar r ∧ ∀ l, l ∉ liveAdj ops → r.A l = 0 := by
  induction ops generalizing s z Z with
  | nil => cases h; exact ⟨_, rfl, ⟨rfl, rfl, rfl, rfl, fun _ _ => rfl, rfl⟩, fun l _ => hA l⟩
  | cons o os ih =>
    simp only [fosRun] at h
    split at h
    · cases h
    · rename_i s' h1
      obtain ⟨hb, hT, hzt, hza, hwf⟩ := hwf
      obtain ⟨hr1, hr2⟩ := hreg
      have hstep := fos_zos_step c v o hsz
      rw [h1] at hstep
      cases h3 : zosStep c o z with
      | error e => rw [h3] at hstep; exact hstep.elim
      | ok z' =>
        rw [h3] at hstep
        have hsz' : SameZ s' z' := hstep
        obtain ⟨r, e1, e2, e3⟩ := ih h hsz' hwf (hr2 z' h3) (tan_step h1 hT hz)
        have hle : s'.ii ≤ sf.ii := by rw [(fos_ii_le h).1]; omega
        rw [← hsz.T] at hr1
        obtain ⟨r', f1, f2⟩ := undo_step (N := N) (n := n) hk (u := u) h1 hb hT hr1
          (fun l hl => hz l (hzt hl)) (A := r.A) (bar := r.bar)
          (fun l hl => e3 l (hza l hl)) (by omega)
          (fun i hi => by rw [e2.bar i hi]; exact hbar i (by omega))
        refine ⟨r', ?_, ⟨f2.T, f2.stk, f2.ii, f2.di, ?_, ?_⟩, ?_⟩
        · simp only [revRun, e1]
          rw [← f1, ← e2.T, ← e2.stk, ← e2.ii, ← e2.di]
        · intro i hi
          have : s.ii ≤ s'.ii := by rw [(fos_misc h1).1]; omega
          rw [f2.bar i hi, e2.bar i (by omega)]
        · rw [f2.pair, e2.pair]
        · exact adj_step f1 e3

/-- A complete trace as `trace_on`/`trace_off` leave it: the stock of live locations
(`take_stock`, valuetape.cpp), the recorded body, and `death_not 0 (N-1)`
(`keep_stock`, tape_interface.cpp), `N` the number of locations of the trace. -/
def fullTrace (stock : List (Nat × List K)) (body : List (Base K)) (N : Nat) : List (Base K) :=
  stock.map (fun p => .takeStock p.1 p.2) ++ body ++ [.deathNot 0 (N - 1)]

theorem fosRun_append {c : Cfg K} {v : Nat → K} {a b : List (Base K)} {s : FS K} :
    fosRun c v (a ++ b) s = match fosRun c v a s with
      | .error e => .error e
      | .ok s' => fosRun c v b s' := by
  induction a generalizing s with
  | nil => rfl
  | cons o os ih =>
    simp only [List.cons_append, fosRun]
    cases fosStep c v o s with
    | error e => rfl
    | ok s' => exact ih

theorem zosRun_append {c : Cfg K} {a b : List (Base K)} {s : ZS K} :
    zosRun c (a ++ b) s = match zosRun c a s with
      | .error e => .error e
      | .ok s' => zosRun c b s' := by
  induction a generalizing s with
  | nil => rfl
  | cons o os ih =>
    simp only [List.cons_append, zosRun]
    cases zosStep c o s with
    | error e => rfl
    | ok s' => exact ih

theorem revRun_append {u : Nat → K} {a b : List (Base K)} {s : RS K} :
    revRun u (a ++ b) s = match revRun u b s with
      | .error e => .error e
      | .ok s' => revRun u a s' := by
  induction a generalizing s with
  | nil => cases h : revRun u b s <;> simp [revRun, h]
  | cons o os ih =>
    simp only [List.cons_append, revRun, ih]
    cases revRun u b s <;> rfl

theorem Along_append {P : Base K → (Nat → K) → Prop} {c : Cfg K} {a b : List (Base K)} {z z' : ZS K}
    (h : Along P c (a ++ b) z) (h1 : zosRun c a z = .ok z') : Along P c b z' := by
  induction a generalizing z with
  | nil => cases h1; exact h
  | cons o os ih =>
    simp only [zosRun] at h1
    split at h1
    · cases h1
    · rename_i z1 h2
      exact ih (h.2 z1 h2) h1

theorem Along_left {P : Base K → (Nat → K) → Prop} {c : Cfg K} {a b : List (Base K)} {z : ZS K}
    (h : Along P c (a ++ b) z) : Along P c a z := by
  induction a generalizing z with
  | nil => trivial
  | cons o os ih => exact ⟨h.1, fun z' hz => ih (h.2 z' hz)⟩

theorem WfFrom_split {N : Nat} {c : Cfg K} {v : Nat → K} {a b : List (Base K)} {Z : Set Nat}
    {s s' : FS K} (hwf : WfFrom N Z (a ++ b)) (hz : ∀ l ∈ Z, s.dT l = 0)
    (h : fosRun c v a s = .ok s') : ∃ Z', WfFrom N Z' b ∧ ∀ l ∈ Z', s'.dT l = 0 := by
  induction a generalizing s Z with
  | nil => cases h; exact ⟨Z, hwf, hz⟩
  | cons o os ih =>
    simp only [fosRun] at h
    split at h
    · cases h
    · rename_i s1 h1
      obtain ⟨hb, hT, hzt, hza, hwf⟩ := hwf
      exact ih hwf (tan_step h1 hT hz) h

theorem WfFrom_bounded {N : Nat} {ops : List (Base K)} {Z : Set Nat} (hwf : WfFrom N Z ops) :
    ∀ o ∈ ops, o.bounded N := by
  induction ops generalizing Z with
  | nil => simp
  | cons o os ih =>
    obtain ⟨hb, _, _, _, hwf⟩ := hwf
    intro o' ho'
    rcases List.mem_cons.1 ho' with rfl | h
    · exact hb
    · exact ih hwf o' h

theorem fosRun_beyond {N : Nat} {c : Cfg K} {v : Nat → K} {ops : List (Base K)} {s s' : FS K}
    (hb : ∀ o ∈ ops, o.bounded N) (h : fosRun c v ops s = .ok s') :
    ∀ l, N ≤ l → s'.T l = s.T l := by
  induction ops generalizing s with
  | nil => cases h; intro _ _; rfl
  | cons o os ih =>
    simp only [fosRun] at h
    split at h
    · cases h
    · rename_i s1 h1
      intro l hl
      rw [ih (fun o ho => hb o (by simp [ho])) h l hl]
      refine (fos_misc h1).2.2.2 l fun hw => ?_
      have := writes_bounded (hb o (by simp)) hw
      omega

/-- The end of the reverse sweep's work on a suffix of a trace that ends with
`death_not 0 (N-1)`, started as `fos_reverse` starts. -/
theorem undo_suffix {N : Nat} (hN : 0 < N) {c : Cfg K} (hk : c.keep = true) {u v : Nat → K}
    {ops : List (Base K)} {s sf : FS K} {z : ZS K}
    (h : fosRun c v (ops ++ [.deathNot 0 (N - 1)]) s = .ok sf)
    (hsz : SameZ s z) {Z : Set Nat} (hwf : WfFrom N Z ops)
    (hreg : Along regular c ops z) (hz : ∀ l ∈ Z, s.dT l = 0) (hT : ∀ l, N ≤ l → s.T l = 0) :
    ∃ r, revRun u (ops ++ [.deathNot 0 (N - 1)]) (RS.init sf.ii sf.dy.length sf.stk) = .ok r ∧
      Undo N sf.ii u v s sf (fun _ => 0) (fun _ => 0) r ∧ ∀ l, l ∉ liveAdj ops → r.A l = 0 := by
  rw [fosRun_append] at h
  split at h
  · cases h
  · rename_i s1 h1
    simp only [fosRun] at h
    split at h
    · cases h
    · rename_i s2 h2
      cases h
      obtain ⟨r, e1, e2⟩ := undo_deathNot (N := N) (n := sf.ii) hk (u := u) (Nat.zero_le _) h2
        (A := fun _ => 0) (bar := fun _ => 0) (T0 := fun _ => 0) (fun _ _ _ => rfl) (by
          intro l hl
          rw [fosRun_beyond (WfFrom_bounded hwf) h1 l (by omega), hT l (by omega)])
      have hA : ∀ l, r.A l = 0 := fun l =>
        adj_step e1 (L := ∅) (fun _ _ => rfl) l (by simp [Base.adjStep])
      have hm := fos_misc h2
      simp only [Base.nInd, Base.nDep, Nat.add_zero] at hm
      obtain ⟨r', f1, f2, f3⟩ := undo_run (N := N) (n := sf.ii) hk (u := u) h1 hsz hwf hreg hz
        (A := r.A) (bar := r.bar) hA (by omega) (fun i hi => e2.bar i hi)
      refine ⟨r', ?_, ⟨f2.T, f2.stk, f2.ii, f2.di, ?_, ?_⟩, f3⟩
      · rw [revRun_append]
        simp only [revRun, RS.init, e1]
        rw [← f1, ← e2.T, ← e2.stk, ← e2.ii, ← e2.di]
      · intro i hi
        have := (fos_ii_le h1).1
        rw [f2.bar i hi, e2.bar i (by omega)]
      · rw [f2.pair, e2.pair]

theorem stock_step {c : Cfg K} {v : Nat → K} {r : Nat} {vs : List K} {s s' : FS K}
    (h : fosStep c v (.takeStock r vs) s = .ok s') (hd : ∀ l, s.dT l = 0) :
    (∀ l, s'.dT l = 0) ∧ s'.stk = s.stk := by
  simp only [fosStep, Except.ok.injEq] at h
  subst h
  have : ∀ (vs : List K) (p : Nat × FS K), (∀ l, p.2.dT l = 0) →
      (∀ l, (vs.foldl (fun (p : Nat × FS K) k => (p.1 + 1, (p.2.set p.1 k).setD p.1 0)) p).2.dT l = 0)
      ∧ (vs.foldl (fun (p : Nat × FS K) k => (p.1 + 1, (p.2.set p.1 k).setD p.1 0)) p).2.stk = p.2.stk := by
    intro vs
    induction vs with
    | nil => intro p hp; exact ⟨hp, rfl⟩
    | cons x vs ih =>
      intro p hp
      refine ih (p.1 + 1, (p.2.set p.1 x).setD p.1 0) fun l => ?_
      simp only [FS.setD, FS.set, upd_apply]
      split_ifs
      · rfl
      · exact hp l
  exact this vs (r, s) hd

theorem stock_rev {u : Nat → K} {r : Nat} {vs : List K} {s s' : RS K}
    (h : revStep u (.takeStock r vs) s = .ok s') : s'.bar = s.bar ∧ s'.stk = s.stk := by
  simp only [revStep, Except.ok.injEq] at h
  subst h
  generalize List.range vs.length = J
  induction J generalizing s with
  | nil => exact ⟨rfl, rfl⟩
  | cons x J ih =>
    rw [List.foldl_cons]
    exact ih

theorem stock_run {c : Cfg K} {v : Nat → K} (stock : List (Nat × List K)) {s s' : FS K}
    (h : fosRun c v (stock.map fun p => .takeStock p.1 p.2) s = .ok s') (hd : ∀ l, s.dT l = 0) :
    (∀ l, s'.dT l = 0) ∧ s'.stk = s.stk ∧ s'.ii = s.ii ∧ s'.dy = s.dy ∧ s'.y = s.y := by
  induction stock generalizing s with
  | nil => cases h; exact ⟨hd, rfl, rfl, rfl, rfl⟩
  | cons p stock ih =>
    simp only [List.map_cons, fosRun] at h
    split at h
    · cases h
    · rename_i s1 h1
      obtain ⟨e1, e2⟩ := stock_step h1 hd
      obtain ⟨f1, f2, f3, f4, f5⟩ := ih h e1
      have hf := fos_frame h1 rfl rfl
      exact ⟨f1, by rw [f2, e2], by rw [f3, hf.ii], by rw [f4, hf.dy], by rw [f5, hf.y]⟩

theorem stock_rev_run {u : Nat → K} (stock : List (Nat × List K)) (s : RS K) :
    ∃ s', revRun u (stock.map fun p => .takeStock p.1 p.2) s = .ok s' ∧ s'.bar = s.bar ∧
      s'.stk = s.stk := by
  induction stock with
  | nil => exact ⟨s, rfl, rfl, rfl⟩
  | cons p stock ih =>
    obtain ⟨s1, e1, e2, e3⟩ := ih
    simp only [List.map_cons, revRun, e1]
    cases h : revStep u (.takeStock p.1 p.2) s1 with
    | error e => simp [revStep] at h
    | ok s2 =>
      obtain ⟨g1, g2⟩ := stock_rev h
      exact ⟨s2, rfl, by rw [g1, e2], by rw [g2, e3]⟩

theorem stock_sweep {c : Cfg K} {v : Nat → K} (stock : List (Nat × List K)) (s : FS K) :
    ∃ s', fosRun c v (stock.map fun p => .takeStock p.1 p.2) s = .ok s' := by
  induction stock generalizing s with
  | nil => exact ⟨s, rfl⟩
  | cons p stock ih =>
    simp only [List.map_cons, fosRun, fosStep]
    exact ih _

/-- Static conditions on a complete trace. -/
structure WfTrace (stock : List (Nat × List K)) (body : List (Base K)) (N : Nat) : Prop where
  pos : 0 < N
  stock : ∀ p ∈ stock, p.1 + p.2.length ≤ N
  body : WfFrom N Set.univ body

theorem numInd_append (a b : List (Base K)) : numInd (a ++ b) = numInd a + numInd b := by
  simp [numInd]
theorem numDep_append (a b : List (Base K)) : numDep (a ++ b) = numDep a + numDep b := by
  simp [numDep]

/-- The complete reverse sweep. -/
theorem full_reverse_from {stock : List (Nat × List K)} {body : List (Base K)} {N : Nat}
    (hw : WfTrace stock body N) {c : Cfg K} (hk : c.keep = true) (u v T0 : Nat → K)
    (hT0 : ∀ l, N ≤ l → T0 l = 0) {sf : FS K}
    (h : fosRun c v (fullTrace stock body N) (FS.start T0) = .ok sf)
    (hreg : Along regular c (fullTrace stock body N) (ZS.start T0)) :
    ∃ r, revRun u (fullTrace stock body N)
        (RS.init (numInd (fullTrace stock body N)) (numDep (fullTrace stock body N)) sf.stk) = .ok r ∧
      r.stk = [] ∧ dot (numInd (fullTrace stock body N)) r.bar v = wsum u sf.dy := by
  have hcnt := fos_ii_le h
  simp only [FS.start, Nat.zero_add, List.length_nil] at hcnt
  rw [← hcnt.1, ← hcnt.2.1]
  unfold fullTrace at h hreg ⊢
  rw [List.append_assoc] at h hreg ⊢
  rw [fosRun_append] at h
  split at h
  · cases h
  · rename_i s1 h1
    obtain ⟨e1, e2, e3, e4, e5⟩ := stock_run stock h1 (fun _ => rfl)
    have hz := fos_zos_run c v (stock.map fun p => .takeStock p.1 p.2)
      (s := (FS.start T0)) (z := (ZS.start T0)) ⟨rfl, rfl, rfl, rfl, le_refl _⟩
    rw [h1] at hz
    cases h2 : zosRun c (stock.map fun p => .takeStock p.1 p.2) (ZS.start T0) with
    | error e => rw [h2] at hz; exact hz.elim
    | ok z1 =>
      rw [h2] at hz
      have hsz : SameZ s1 z1 := hz
      obtain ⟨r, f1, f2, f3⟩ := undo_suffix hw.pos hk (u := u) h hsz hw.body
        (Along_left (Along_append hreg h2)) (fun l _ => e1 l) (by
          intro l hl
          exact fosRun_beyond (N := N) (fun o ho => by
            obtain ⟨p, hp, rfl⟩ := List.mem_map.1 ho
            exact hw.stock p hp) h1 l hl |>.trans (hT0 l hl))
      obtain ⟨r', g1, g2, g3⟩ := stock_rev_run (u := u) stock r
      refine ⟨r', ?_, ?_, ?_⟩
      · rw [revRun_append, f1]; exact g1
      · rw [g3, f2.stk, e2]; rfl
      · rw [g2]
        have hp := f2.pair
        have hd : s1.dT = fun _ => 0 := funext e1
        have hdy : s1.dy = [] := e4
        rw [hd, hdy, dot_zero_right, dot_zero_left, dot_zero_left] at hp
        simpa [wsum] using hp

theorem full_reverse {stock : List (Nat × List K)} {body : List (Base K)} {N : Nat}
    (hw : WfTrace stock body N) {c : Cfg K} (hk : c.keep = true) (u v : Nat → K) {sf : FS K}
    (h : fosRun c v (fullTrace stock body N) FS.init = .ok sf)
    (hreg : Along regular c (fullTrace stock body N) ZS.init) :
    ∃ r, revRun u (fullTrace stock body N)
        (RS.init (numInd (fullTrace stock body N)) (numDep (fullTrace stock body N)) sf.stk) = .ok r ∧
      r.stk = [] ∧ dot (numInd (fullTrace stock body N)) r.bar v = wsum u sf.dy :=
  full_reverse_from hw hk u v (fun _ => 0) (fun _ _ => rfl) h hreg

end Verif.AD
