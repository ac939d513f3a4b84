import Verif.AD.AdvRec
import Verif.AD.RecordFull

/-! Calls with active subscripts as sequences of plain calls on a resolved trace. -/
set_option linter.all false
namespace Verif.AD
open Elem

variable {K : Type} [Scalar K]

/-- A call depends on and changes only the objects it mentions. -/
theorem spec_frame {x par : Nat → K} {st : Stmt K} {e1 e2 e1' : SE K}
    (hv : ∀ a ∈ st.names, e1.vars a = e2.vars a) (hi : e1.ii = e2.ii) (hy : e1.ys = e2.ys)
    (h : st.spec x par e1 = some e1') :
    ∃ e2', st.spec x par e2 = some e2' ∧ e1'.ii = e2'.ii ∧ e1'.ys = e2'.ys ∧
      (∀ a ∈ st.names, e1'.vars a = e2'.vars a) ∧
      ∀ a, a ∉ st.names → e1'.vars a = e1.vars a ∧ e2'.vars a = e2.vars a := by
  cases st
  all_goals simp only [Stmt.names, List.mem_cons, List.not_mem_nil, or_false, forall_eq_or_imp, forall_eq] at hv
  all_goals simp only [Stmt.spec] at h
  all_goals try (split at h; swap; (· cases h); rename_i hcond)
  all_goals try simp only [Option.bind_eq_some_iff, Option.map_eq_some_iff] at h
  all_goals first
    | (cases h
       simp only [Stmt.spec, ← hv, if_pos hcond]
       refine ⟨_, rfl, ?_⟩
       simp_all [SE.set, SE.del, Stmt.names, upd_apply]; done)
    | (obtain ⟨v, h1, rfl⟩ := h
       first
         | simp only [Stmt.spec, ← hv, if_pos hcond, h1, Option.map_some]
         | simp only [Stmt.spec, ← hv, h1, Option.map_some]
       refine ⟨_, rfl, ?_⟩
       simp_all [SE.set, SE.del, Stmt.names, upd_apply]; done)
    | (obtain ⟨v, h1, w, h2, rfl⟩ := h
       first
         | simp only [Stmt.spec, ← hv, if_pos hcond, h1, h2, Option.map_some, Option.bind_some]
         | simp only [Stmt.spec, ← hv, h1, h2, Option.map_some, Option.bind_some]
       refine ⟨_, rfl, ?_⟩
       simp_all [SE.set, SE.del, Stmt.names, upd_apply]; done)
    | (obtain ⟨v, h1, w, h2, w', h3, rfl⟩ := h
       first
         | simp only [Stmt.spec, ← hv, if_pos hcond, h1, h2, h3, Option.map_some, Option.bind_some]
         | simp only [Stmt.spec, ← hv, h1, h2, h3, Option.map_some, Option.bind_some]
       refine ⟨_, rfl, ?_⟩
       simp_all [SE.set, SE.del, Stmt.names, upd_apply]; done)

/-- Differentiability of a call depends only on the objects it mentions. -/
theorem smooth_frame {lv : Sm} {st : Stmt ℝ} {e1 e2 : SE ℝ} (hv : ∀ a ∈ st.names, e1.vars a = e2.vars a)
    (h : st.smooth lv e1) : st.smooth lv e2 := by
  cases st
  case bin f l a b d =>
    simp only [Stmt.names, List.mem_cons, List.not_mem_nil, or_false, forall_eq_or_imp, forall_eq] at hv
    cases f <;> simp only [Stmt.smooth, hv] at h ⊢ <;> exact h
  all_goals simp only [Stmt.names, List.mem_cons, List.not_mem_nil, or_false, forall_eq_or_imp, forall_eq] at hv
  all_goals simp only [Stmt.smooth, hv] at h ⊢
  all_goals exact h

/-! ### Resolved traces -/

/-- An operation with active subscripts and the operation it is at a given point. -/
def PairOk (p : AOp K × Base K) : Prop :=
  match p.1 with
  | .base o => p.2 = o
  | _ => ∀ a b r, p.2 ≠ .multAA a b r

def AOp.isBase : AOp K → Bool
  | .base _ => true
  | _ => false

def vw (g : Base K → Base K) (p : AOp K × Base K) : Base K :=
  match p.1 with
  | .base o => o
  | _ => g p.2

/-- A reference as an object holding a constant. -/
def unref (o : Base K) : Base K :=
  match o with
  | .setRef r c => opAssignD r c
  | o => o

structure View (g : Base K → Base K) : Prop where
  mul : ∀ b, (∀ a b' r, b ≠ .multAA a b' r) → ∀ a b' r, g b ≠ .multAA a b' r
  id : ∀ b, (∀ r c, b ≠ .setRef r c) → g b = b

theorem View.id' : View (_root_.id : Base K → Base K) := ⟨fun b h => h, fun b h => rfl⟩
theorem View.un : View (unref : Base K → Base K) := by
  refine ⟨fun b h => ?_, fun b h => ?_⟩
  · cases b <;> simp only [unref, opAssignD] <;> try exact h
    intro a b' r
    split_ifs <;> simp
  · cases b <;> simp only [unref]
    exact absurd rfl (h _ _)

theorem vw_base (g : Base K → Base K) (o b : Base K) : vw g (.base o, b) = o := rfl
theorem vw_of {g : Base K → Base K} {a : AOp K} (h : a.isBase = false) (b : Base K) : vw g (a, b) = g b := by
  cases a <;> simp_all [vw, AOp.isBase]
theorem vw_id {p : AOp K × Base K} (h : PairOk p) : vw id p = p.2 := by
  obtain ⟨a, b⟩ := p
  cases a <;> simp_all [vw, PairOk]

theorem map_vw_id {L : List (AOp K × Base K)} (h : ∀ p ∈ L, PairOk p) : L.map (vw id) = L.map Prod.snd :=
  List.map_congr_left fun p hp => vw_id (h p hp)

/-- How a plain call changes the trace. -/
def Grow (L L' : List (AOp K × Base K)) : Prop :=
  L' = L ∨ (∃ o, L' = (.base o, o) :: L) ∨ ∃ m o L1, L = m :: L1 ∧ L' = (.base o, o) :: L1

theorem plain_step {cfg : RCfg K} {s s' : ARec K} {st : Stmt K} (h : s.plain cfg st = some s')
    {L : List (AOp K × Base K)} (hf : L.map Prod.fst = s.tr) (hp : ∀ p ∈ L, PairOk p) :
    ∃ L', L'.map Prod.fst = s'.tr ∧ (∀ p ∈ L', PairOk p) ∧ s'.rl = s.rl ∧ Grow L L' ∧
      ∀ g, View g → st.record cfg { s.r with tr := L.map (vw g) } =
        some { s'.r with tr := L'.map (vw g) } := by
  unfold ARec.plain at h
  simp only [Option.map_eq_some_iff] at h
  obtain ⟨r', h, rfl⟩ := h
  have hlen : L.length = s.tr.length := by rw [← hf]; simp
  have top : ∀ g, View g → SameTop (peek s.tr) (L.map (vw g)) := by
    intro g hg a b r
    cases L with
    | nil =>
      have : s.tr = [] := by rw [← hf]; rfl
      simp [this, peek]
    | cons p L =>
      obtain ⟨o, c⟩ := p
      have ht : s.tr = o :: L.map Prod.fst := by rw [← hf]; rfl
      have hp0 := hp _ (List.mem_cons_self ..)
      rw [ht]
      cases o
      case base o => simp [peek, vw]
      all_goals
        simp only [peek, List.map_cons, vw, List.cons.injEq, exists_eq_right', List.not_mem_nil]
        constructor
        · rintro ⟨t, ht⟩; simp at ht
        · intro ht; exact absurd ht (hg.mul _ hp0 _ _ _)
  have hfu : ∀ g, cfg.fuse (L.map (vw g)).length =
      cfg.fuse ((peek s.tr).length + (peekRest s.tr).length) := by
    intro g
    rw [List.length_map, hlen]
    cases hs : s.tr with
    | nil => rfl
    | cons o t => cases o <;> simp [peek, peekRest, Nat.add_comm]
  have hpk : ∀ o, r'.tr = o :: peek s.tr →
      r'.tr.map AOp.base ++ peekRest s.tr = .base o :: s.tr := by
    intro o ho
    rw [ho]
    cases hs : s.tr with
    | nil => rfl
    | cons o' t => cases o' <;> rfl
  rcases record_swap h with ⟨o, h1, sw⟩ | ⟨h1, sw⟩ | ⟨p, q, r, t, o, h0, h1, sw⟩
  · refine ⟨(.base o, o) :: L, ?_, ?_, rfl, .inr (.inl ⟨o, rfl⟩), fun g hg => ?_⟩
    · rw [hpk o h1, List.map_cons, hf]
    · intro p hp'
      rcases List.mem_cons.1 hp' with rfl | h2
      · rfl
      · exact hp p h2
    · exact sw (L.map (vw g)) cfg.fuse (top g hg) (hfu g)
  · refine ⟨L, ?_, hp, rfl, .inl rfl, fun g hg => ?_⟩
    · rw [h1, hf]
      cases hs : s.tr with
      | nil => rfl
      | cons o' t => cases o' <;> rfl
    · exact sw (L.map (vw g)) cfg.fuse (top g hg) (hfu g)
  · cases L with
    | nil =>
      have : s.tr = [] := by rw [← hf]; rfl
      rw [this] at h0; cases h0
    | cons m L =>
      obtain ⟨a, b⟩ := m
      have ht : s.tr = a :: L.map Prod.fst := by rw [← hf]; rfl
      rw [ht] at h0
      have ha : a = .base (.multAA p q r) ∧ t = [] := by
        cases a <;> simp [peek] at h0 ⊢
        exact ⟨h0.1, h0.2⟩
      obtain ⟨rfl, rfl⟩ := ha
      refine ⟨(.base o, o) :: L, ?_, ?_, rfl, .inr (.inr ⟨_, o, L, rfl, rfl⟩), fun g hg => ?_⟩
      · rw [h1, ht]; rfl
      · intro p hp'
        rcases List.mem_cons.1 hp' with rfl | h2
        · rfl
        · exact hp p (List.mem_cons_of_mem _ h2)
      · refine sw (L.map (vw g)) cfg.fuse ?_
        simp only [ht, peekRest, List.length_map]
        congr 1
        simp [Nat.add_comm]

end Verif.AD
