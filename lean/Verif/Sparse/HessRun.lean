import Verif.Sparse.HessStep

/-! The Hessian pattern sweeps on recorded traces: they read no uninitialised node, stay within the nodes allocated, and
list all nonlinear interactions. -/
set_option linter.all false
namespace Verif.Sparse
open Verif.AD Elem Filter Topology ContDiff

section
variable {K : Type} [Scalar K]

/-! ## Locations are written before they are read -/

/-- The locations read by an operation (vector operations, references and `take_stock` excluded). -/
def rd : Base K → List Nat
  | .cmp _ a => [a]
  | .assignA a _ | .plusDA a _ _ | .minDA a _ _ | .multDA a _ _ | .divDA a _ _ | .posSign a _ | .negSign a _ | .expOp a _
  | .logOp a _ | .powOp a _ _ | .sqrtOp a _ | .cbrtOp a _ | .absVal a _ _ | .ceilOp a _ _ | .floorOp a _ _ => [a]
  | .sinOp a _ _ | .cosOp a _ _ | .quad _ a _ _ => [a]
  | .assignDep r | .eqPlusD r _ | .eqMinD r _ | .eqMultD r _ | .incrA r | .decrA r => [r]
  | .eqPlusA a r | .eqMinA a r | .eqMultA a r => [a, r]
  | .plusAA a b _ | .minAA a b _ | .multAA a b _ | .divAA a b _ | .minOp a b _ _ | .genQuad a b _ _ _ => [a, b]
  | .eqPlusProd a b r | .eqMinProd a b r => [a, b, r]
  | .condAssign a a1 a2 _ _ | .condEqAssign a a1 a2 _ _ => [a, a1, a2]
  | .condAssignS a a1 r _ | .condEqAssignS a a1 r _ => [a, a1, r]
  | _ => []

/-- The locations given a value by an operation (for `sin`, `cos`: without the companion). -/
def wr : Base K → List Nat
  | .assignA _ r | .plusDA _ r _ | .minDA _ r _ | .multDA _ r _ | .divDA _ r _ | .posSign _ r | .negSign _ r | .expOp _ r
  | .logOp _ r | .powOp _ r _ | .sqrtOp _ r | .cbrtOp _ r | .absVal _ r _ | .ceilOp _ r _ | .floorOp _ r _ => [r]
  | .sinOp _ _ r | .cosOp _ _ r | .quad _ _ _ r => [r]
  | .assignD r _ | .assignP _ r | .assignD0 r | .assignD1 r | .assignInd r => [r]
  | .plusAA _ _ r | .minAA _ _ r | .multAA _ _ r | .divAA _ _ r | .minOp _ _ r _ | .genQuad _ _ r _ _ => [r]
  | .condAssign _ _ _ r _ | .condEqAssign _ _ _ r _ => [r]
  | _ => []

/-- Every location is written before it is read, those in `W` having been written. -/
def DefFrom : Set Nat → List (Base K) → Prop
  | _, [] => True
  | W, o :: os => (∀ l ∈ rd o, l ∈ W) ∧ DefFrom (W ∪ {l | l ∈ wr o}) os

def wrs (ops : List (Base K)) : Set Nat := {l | ∃ o ∈ ops, l ∈ wr o}

theorem DefFrom_append (W : Set Nat) (as bs : List (Base K)) :
    DefFrom W (as ++ bs) ↔ DefFrom W as ∧ DefFrom (W ∪ wrs as) bs := by
  induction as generalizing W with
  | nil => simp [DefFrom, wrs]
  | cons o os ih =>
    simp only [List.cons_append, DefFrom, ih, and_assoc]
    have : W ∪ {l | l ∈ wr o} ∪ wrs os = W ∪ wrs (o :: os) := by
      ext l
      simp only [wrs, Set.mem_union, Set.mem_setOf_eq, List.mem_cons, exists_eq_or_imp, or_assoc]
    rw [this]

/-- The invariant of the recorder (trace with the last operation first). -/
structure DefInv (s : Rec K) : Prop where
  tr : DefFrom ∅ s.tr.reverse
  env : ∀ a l, s.env a = some l → l ∈ wrs s.tr

theorem wrs_reverse (ops : List (Base K)) : wrs ops.reverse = wrs ops := by
  ext l; simp [wrs]

theorem wrs_cons (o : Base K) (ops : List (Base K)) : wrs (o :: ops) = {l | l ∈ wr o} ∪ wrs ops := by
  ext l; simp [wrs]

theorem DefInv.cons {s : Rec K} (h : DefInv s) {o : Base K} (ho : ∀ l ∈ rd o, l ∈ wrs s.tr) :
    DefFrom ∅ (o :: s.tr).reverse := by
  rw [List.reverse_cons, DefFrom_append, wrs_reverse]
  exact ⟨h.tr, fun l hl => .inr (ho l hl), trivial⟩

theorem def_step {cfg : RCfg K} (hal : ∀ k L, cfg.alloc k L ∉ L) {st : Stmt K} {s s' : Rec K} (ok : s.Ok) (h0 : DefInv s)
    (h : st.record cfg s = some s') : DefInv s' := by
  have env := h0.env
  have inj := ok.inj
  -- an operation is appended, the objects keep their locations
  have one : ∀ (o : Base K) (s' : Rec K), s'.tr = o :: s.tr → s'.env = s.env → (∀ l ∈ rd o, l ∈ wrs s.tr) → DefInv s' := by
    intro o s' ht he ho
    refine ⟨by rw [ht]; exact h0.cons ho, fun a l hl => ?_⟩
    rw [ht, wrs_cons]; rw [he] at hl; exact .inr (env a l hl)
  -- a new object
  have new : ∀ (o : Base K) (s' : Rec K) (d : Nat), s'.tr = o :: s.tr → s'.env = upd s.env d (some (s.next cfg)) →
      (∀ l ∈ rd o, l ∈ wrs s.tr) → s.next cfg ∈ wr o → DefInv s' := by
    intro o s' d ht he ho hw
    refine ⟨by rw [ht]; exact h0.cons ho, fun a l hl => ?_⟩
    rw [ht, wrs_cons]; rw [he, upd_apply] at hl
    split_ifs at hl with hd
    · cases hl; exact .inl hw
    · exact .inr (env a l hl)
  cases st
  all_goals simp only [Stmt.record] at h
  case new d => split at h <;> cases h; exact new _ _ d rfl rfl (by simp [rd]) (by simp [wr])
  case newD d c =>
    split at h <;> cases h
    refine new _ _ d rfl rfl ?_ ?_ <;> simp only [opAssignD] <;> split_ifs <;> simp [rd, wr]
  case copy d a =>
    split at h
    · simp only [Option.map_eq_some_iff] at h
      obtain ⟨la, ha, rfl⟩ := h
      exact new _ _ d rfl rfl (by simp [rd, env a la ha]) (by simp [wr])
    · cases h
  case move d a =>
    split at h
    · simp only [Option.map_eq_some_iff] at h
      obtain ⟨la, ha, rfl⟩ := h
      refine ⟨h0.tr, fun b l hl => ?_⟩
      simp only [upd_apply] at hl
      split_ifs at hl
      · cases hl; exact env a _ ha
      · exact env b l hl
    · cases h
  case moveA a b =>
    split at h
    · simp only [Option.bind_eq_some_iff, Option.map_eq_some_iff] at h
      obtain ⟨la, ha, lb, hb, rfl⟩ := h
      refine ⟨h0.tr, fun c l hl => ?_⟩
      simp only [upd_apply, Rec.free] at hl
      split_ifs at hl
      · cases hl; exact env b _ hb
      · exact env c l hl
    · cases h
  case del a =>
    simp only [Option.map_eq_some_iff] at h
    obtain ⟨la, ha, rfl⟩ := h
    refine ⟨h0.tr, fun c l hl => ?_⟩
    simp only [upd_apply, Rec.free] at hl
    split_ifs at hl
    exact env c l hl
  case setA a b =>
    simp only [Option.bind_eq_some_iff, Option.map_eq_some_iff] at h
    obtain ⟨la, ha, lb, hb, rfl⟩ := h
    split
    · exact one _ _ rfl rfl (by simp [rd, env b lb hb])
    · exact h0
  case accR m a t =>
    split at h
    · rename_i hat
      simp only [Option.bind_eq_some_iff, Option.map_eq_some_iff] at h
      obtain ⟨la, ha, lt, ht, rfl⟩ := h
      have hne : lt ≠ la := fun hh => hat (inj a t la ha (hh ▸ ht))
      have plain : DefInv ((s.rec1 cfg ((if m then Acc.minus else Acc.plus).opA lt la) la
          (if m then s.V la - s.V lt else s.V la + s.V lt)).free t lt) := by
        refine ⟨h0.cons ?_, fun c l hl => ?_⟩
        · cases m <;> simp [Acc.opA, rd, env t lt ht, env a la ha]
        · simp only [Rec.free, Rec.rec1, Rec.put, Rec.keepT, Rec.val, upd_apply] at hl ⊢
          rw [wrs_cons]
          split_ifs at hl
          exact .inr (env c l hl)
      split
      · rename_i p q r tr' htr
        split
        · rename_i hc
          obtain ⟨_, hr, _, _⟩ := hc
          have htr0 := h0.tr
          rw [htr, List.reverse_cons, DefFrom_append, wrs_reverse] at htr0
          have hpq : p ∈ wrs tr' ∧ q ∈ wrs tr' := by simpa [DefFrom, rd] using htr0.2
          have hla : ∀ c l, s.env c = some l → c ≠ t → l ∈ wrs tr' := by
            intro c l hcl hct
            have := env c l hcl
            rw [htr, wrs_cons] at this
            rcases this with hh | hh
            · simp only [wr, List.mem_singleton, Set.mem_setOf_eq] at hh
              exact absurd (inj c t l hcl (by rw [hh, ← hr]; exact ht)) hct
            · exact hh
          have key : ∀ s'' : Rec K, s''.tr = (if m then Base.eqMinProd p q la else .eqPlusProd p q la) :: tr' →
              s''.env = upd s.env t none → DefInv s'' := by
            intro s'' e1 e2
            refine ⟨?_, fun c l hl => ?_⟩
            · rw [e1, List.reverse_cons, DefFrom_append, wrs_reverse]
              refine ⟨htr0.1, ?_, trivial⟩
              intro l hl
              refine .inr ?_
              have : l = p ∨ l = q ∨ l = la := by cases m <;> simpa [rd] using hl
              rcases this with rfl | rfl | rfl
              exacts [hpq.1, hpq.2, hla a _ ha hat]
            · rw [e2, upd_apply] at hl
              split_ifs at hl with hct
              rw [e1, wrs_cons]
              exact .inr (hla c l hl hct)
          cases cfg.keep
          · exact key _ rfl rfl
          · simp only [if_true]
            split <;> exact key _ rfl rfl
        · exact plain
      · exact plain
    · cases h
  case trig co a b d =>
    split at h
    · simp only [Option.bind_eq_some_iff, Option.map_eq_some_iff] at h
      obtain ⟨ld, hd, lb, hb, la, ha, rfl⟩ := h
      refine one _ _ rfl rfl ?_
      cases co <;> simp [rd, env a la ha]
    · cases h
  case quad q a b d =>
    split at h
    · simp only [Option.bind_eq_some_iff, Option.map_eq_some_iff] at h
      obtain ⟨ld, hd, lb, hb, la, ha, rfl⟩ := h
      exact one _ _ rfl rfl (by simp [rd, env a la ha])
    · cases h
  all_goals
    simp only [Option.bind_eq_some_iff, Option.map_eq_some_iff] at h
  case bin f lv a b d =>
    obtain ⟨ld, hd, la, ha, lb, hb, rfl⟩ := h
    refine one _ _ rfl rfl ?_
    cases f <;> simp [Bin.op, rd, env a la ha, env b lb hb]
  case cond r c a b =>
    obtain ⟨lr, hr, lc, hc, la, ha, lb, hb, rfl⟩ := h
    exact one _ _ rfl rfl (by simp [rd, env a la ha, env b lb hb, env c lc hc])
  case condEq r c a b =>
    obtain ⟨lr, hr, lc, hc, la, ha, lb, hb, rfl⟩ := h
    exact one _ _ rfl rfl (by simp [rd, env a la ha, env b lb hb, env c lc hc])
  case condS r c a =>
    obtain ⟨lr, hr, lc, hc, la, ha, rfl⟩ := h
    exact one _ _ rfl rfl (by simp [rd, env a la ha, env r lr hr, env c lc hc])
  case condEqS r c a =>
    obtain ⟨lr, hr, lc, hc, la, ha, rfl⟩ := h
    exact one _ _ rfl rfl (by simp [rd, env a la ha, env r lr hr, env c lc hc])
  case accA f a b =>
    obtain ⟨la, ha, lb, hb, rfl⟩ := h
    refine one _ _ rfl rfl ?_
    cases f <;> simp [Acc.opA, rd, env a la ha, env b lb hb]
  case un f a d =>
    obtain ⟨ld, hd, la, ha, rfl⟩ := h
    refine one _ _ rfl rfl ?_
    cases f <;> simp only [Un.op, opPlusD, opMinD, opMultD] <;> (try split_ifs) <;> simp [rd, env a la ha]
  case setD a c =>
    obtain ⟨la, ha, rfl⟩ := h
    refine one _ _ rfl rfl ?_
    simp only [opAssignD]; split_ifs <;> simp [rd]
  case accD f a c =>
    obtain ⟨la, ha, rfl⟩ := h
    refine one _ _ rfl rfl ?_
    cases f <;> simp [Acc.opD, rd, env a la ha]
  all_goals
    obtain ⟨la, ha, rfl⟩ := h
    exact one _ _ rfl rfl (by simp [rd, env _ la ha])

theorem def_run {cfg : RCfg K} (hal : ∀ k L, cfg.alloc k L ∉ L) (p : Prog K) {s s' : Rec K} (ok : s.Ok) (h0 : DefInv s)
    (h : p.record cfg s = some s') : DefInv s' := by
  induction p generalizing s with
  | done => cases h; exact h0
  | stmt st k ih =>
    simp only [Prog.record, Option.bind_eq_some_iff] at h
    obtain ⟨s1, h1, h2⟩ := h
    exact ih (record_ok hal ok h1) (def_step hal ok h0 h1) h2
  | branch q a t f iht ihf =>
    simp only [Prog.record, Option.bind_eq_some_iff] at h
    obtain ⟨la, ha, h⟩ := h
    have h1 : DefInv (s.put (.cmp (q.recorded (q.holds (s.V la))) la)) := by
      refine ⟨h0.cons (by simp [rd, h0.env a la ha]), fun b l hl => ?_⟩
      simp only [Rec.put, wrs_cons]
      exact .inr (h0.env b l hl)
    have ok1 : (s.put (.cmp (q.recorded (q.holds (s.V la))) la)).Ok := ⟨ok.inj, ok.live, ok.hw⟩
    split at h
    · exact iht ok1 h1 h
    · exact ihf ok1 h1 h

/-- In a trace recorded while no `adouble` was alive at `trace_on`, every location is written before it is read. -/
theorem recorded_defined {cfg : RCfg K} (hal : ∀ k L, cfg.alloc k L ∉ L) (p : Prog K) {s s' : Rec K} (hs : s.Start [])
    (h : p.record cfg s = some s') (N : Nat) : DefFrom ∅ (s'.tape N) := by
  have henv : ∀ a l, s.env a = some l → False := by
    intro a l hl
    rcases hs.stock with ⟨bs, h1, h2⟩ | ⟨_, h1⟩
    · cases bs with
      | nil =>
        have h3 : s.hw = 0 := by
          have := congrArg List.length h2; simpa using this.symm
        have := hs.hw l (hs.live a l hl)
        omega
      | cons b bs => simp [stockBlocks] at h1
    · rw [h1] at hl; cases hl
  have := def_run hal p hs.ok ⟨by rw [hs.tr]; trivial, fun a l hl => (henv a l hl).elim⟩ h
  rw [Rec.tape, DefFrom_append]
  exact ⟨this.tr, by simp [DefFrom, rd]⟩

/-! ## The sweeps do not fail -/

/-- All nodes that can be reached are initialised, mention only the independents met so far, and the relation is symmetric. -/
structure NInv (W : Set Nat) (s : NS) : Prop where
  ok : ∀ l ∈ W, (s.idx l).ok = true
  nok : ∀ i, ∀ t ∈ s.nonl i, t.ok = true
  lt : ∀ l, ∀ i ∈ (s.idx l).leaves, i < s.ii
  nlt : ∀ i j, s.rel i j → i < s.ii ∧ j < s.ii
  sym : ∀ i j, s.rel i j → s.rel j i

section
variable {W : Set Nat} {M r : Nat} {s : NS}

theorem NInv.mono {W' : Set Nat} (h : NInv W s) (hW : W' ⊆ W) : NInv W' s := ⟨fun l hl => h.ok l (hW hl), h.nok, h.lt, h.nlt, h.sym⟩

theorem NInv.point (h : NInv W s) {t : Tr} (ht : t.ok = true) (hl : ∀ i ∈ t.leaves, i < s.ii) : NInv (W ∪ {l | l ∈ [r]}) (s.point r t) := by
  refine ⟨fun l hm => ?_, h.nok, fun l i hi => ?_, h.nlt, h.sym⟩
  · simp only [NS.point, upd_apply]
    split_ifs with hlr
    · exact ht
    · rcases hm with hm | hm
      · exact h.ok l hm
      · exact absurd (by simpa using hm) hlr
  · simp only [NS.point, upd_apply] at hi ⊢
    split_ifs at hi
    · exact hl i hi
    · exact h.lt l i hi

theorem alloc_ok (h : s.op < M) : s.alloc M = .ok { s with op := s.op + 1 } := by simp [NS.alloc, h]

theorem node_inv (h : NInv W s) (hM : s.op < M) {t : Tr} (ht : t.ok = true) (hl : ∀ i ∈ t.leaves, i < s.ii) :
    ∃ s', s.node M r t = .ok s' ∧ s'.op = s.op + 1 ∧ s'.ii = s.ii ∧ NInv (W ∪ {l | l ∈ [r]}) s' := by
  refine ⟨{ s with op := s.op + 1 }.point r t, by simp only [NS.node, alloc_ok hM], rfl, rfl, ?_⟩
  exact NInv.point (s := { s with op := s.op + 1 }) ⟨h.ok, h.nok, h.lt, h.nlt, h.sym⟩ ht hl

theorem link_ok {t node : Tr} (ht : t.ok = true) (hn : node.ok = true) (h : ∀ i, ∀ t ∈ s.nonl i, t.ok = true) :
    ∃ s', s.link t node = .ok s' ∧ ∀ i, ∀ t ∈ s'.nonl i, t.ok = true := by
  refine ⟨_, by simp only [NS.link, ht, if_true]; rfl, ?_⟩
  generalize t.leaves = L
  revert h
  simp only
  generalize s.nonl = nl
  induction L generalizing nl with
  | nil => intro h; exact h
  | cons x L ih =>
    intro h
    refine ih _ fun i t' ht' => ?_
    simp only [upd_apply] at ht'
    split_ifs at ht' with hx
    · rcases List.mem_cons.1 ht' with rfl | h'
      · exact hn
      · exact h _ _ h'
    · exact h _ _ ht'

/-- Two links in a row. -/
theorem links_inv (h : NInv W s) {t1 n1 t2 n2 : Tr} (o1 : t1.ok = true) (o2 : t2.ok = true) (o3 : n1.ok = true) (o4 : n2.ok = true)
    (b1 : ∀ i ∈ t1.leaves, i < s.ii) (b2 : ∀ i ∈ t2.leaves, i < s.ii) (b3 : ∀ i ∈ n1.leaves, i < s.ii) (b4 : ∀ i ∈ n2.leaves, i < s.ii)
    (hsym : ∀ i j, (i ∈ t1.leaves ∧ j ∈ n1.leaves) ∨ (i ∈ t2.leaves ∧ j ∈ n2.leaves) →
      (j ∈ t1.leaves ∧ i ∈ n1.leaves) ∨ (j ∈ t2.leaves ∧ i ∈ n2.leaves)) :
    ∃ s1 s2, s.link t1 n1 = .ok s1 ∧ s1.link t2 n2 = .ok s2 ∧ s2.op = s.op ∧ s2.ii = s.ii ∧ s2.idx = s.idx ∧ NInv W s2 := by
  obtain ⟨s1, k1, k2⟩ := link_ok (s := s) o1 o3 h.nok
  obtain ⟨s2, k3, k4⟩ := link_ok (s := s1) o2 o4 k2
  obtain ⟨a1, a2, a3, a4⟩ := link_rel k1
  obtain ⟨c1, c2, c3, c4⟩ := link_rel k3
  have hrel : ∀ i j, s2.rel i j ↔ s.rel i j ∨ (i ∈ t1.leaves ∧ j ∈ n1.leaves) ∨ (i ∈ t2.leaves ∧ j ∈ n2.leaves) := by
    intro i j; rw [c4, a4, or_assoc]
  refine ⟨s1, s2, k1, k3, by rw [c3, a3], by rw [c2, a2], by rw [c1, a1], ⟨?_, k4, ?_, ?_, ?_⟩⟩
  · rw [c1, a1]; exact h.ok
  · rw [c1, a1, c2, a2]; exact h.lt
  · intro i j hij
    rw [c2, a2]
    rcases (hrel i j).1 hij with g | ⟨g1, g2⟩ | ⟨g1, g2⟩
    · exact h.nlt i j g
    · exact ⟨b1 i g1, b3 j g2⟩
    · exact ⟨b2 i g1, b4 j g2⟩
  · intro i j hij
    rcases (hrel i j).1 hij with g | g
    · exact (hrel j i).2 (.inl (h.sym i j g))
    · exact (hrel j i).2 (.inr (hsym i j g))

theorem bump (h : NInv W s) : NInv W { s with op := s.op + 1 } := ⟨h.ok, h.nok, h.lt, h.nlt, h.sym⟩

theorem node2_inv (h : NInv W s) (hM : s.op < M) {t t1 n1 t2 n2 : Tr} (ht : t.ok = true) (hl : ∀ i ∈ t.leaves, i < s.ii)
    (o1 : t1.ok = true) (o2 : t2.ok = true) (o3 : n1.ok = true) (o4 : n2.ok = true)
    (b1 : ∀ i ∈ t1.leaves, i < s.ii) (b2 : ∀ i ∈ t2.leaves, i < s.ii) (b3 : ∀ i ∈ n1.leaves, i < s.ii) (b4 : ∀ i ∈ n2.leaves, i < s.ii)
    (hsym : ∀ i j, (i ∈ t1.leaves ∧ j ∈ n1.leaves) ∨ (i ∈ t2.leaves ∧ j ∈ n2.leaves) →
      (j ∈ t1.leaves ∧ i ∈ n1.leaves) ∨ (j ∈ t2.leaves ∧ i ∈ n2.leaves)) :
    ∃ s', s.node2 M r t t1 n1 t2 n2 = .ok s' ∧ s'.op = s.op + 1 ∧ s'.ii = s.ii ∧ NInv (W ∪ {l | l ∈ [r]}) s' := by
  obtain ⟨s1, s2, k1, k2, k3, k4, k5, k6⟩ := links_inv (bump h) o1 o2 o3 o4 b1 b2 b3 b4 hsym
  refine ⟨s2.point r t, ?_, k3, k4, NInv.point k6 ht ?_⟩
  · simp only [NS.node2, alloc_ok hM, k1, k2]
  · rw [k4]; exact hl

theorem nodeP_inv (h : NInv W s) (hM : s.op + 1 < M) {t t1 n1 t2 n2 : Tr} (ht : t.ok = true) (hl : ∀ i ∈ t.leaves, i < s.ii)
    (o1 : t1.ok = true) (o2 : t2.ok = true) (o3 : n1.ok = true) (o4 : n2.ok = true)
    (b1 : ∀ i ∈ t1.leaves, i < s.ii) (b2 : ∀ i ∈ t2.leaves, i < s.ii) (b3 : ∀ i ∈ n1.leaves, i < s.ii) (b4 : ∀ i ∈ n2.leaves, i < s.ii)
    (hsym : ∀ i j, (i ∈ t1.leaves ∧ j ∈ n1.leaves) ∨ (i ∈ t2.leaves ∧ j ∈ n2.leaves) →
      (j ∈ t1.leaves ∧ i ∈ n1.leaves) ∨ (j ∈ t2.leaves ∧ i ∈ n2.leaves)) :
    ∃ s', s.nodeP M r t1 n1 t2 n2 t = .ok s' ∧ s'.op = s.op + 2 ∧ s'.ii = s.ii ∧ NInv (W ∪ {l | l ∈ [r]}) s' := by
  obtain ⟨s1, s2, k1, k2, k3, k4, k5, k6⟩ := links_inv (bump h) o1 o2 o3 o4 b1 b2 b3 b4 hsym
  simp only at k3
  obtain ⟨s3, m1, m2, m3, m4⟩ := node_inv (M := M) (r := r) k6 (by omega) ht (by rw [k4]; exact hl)
  refine ⟨s3, ?_, by omega, by rw [m3, k4], m4⟩
  simp only [NS.nodeP, alloc_ok (show s.op < M by omega), k1, k2, m1]

theorem nodeU_inv {a : Nat} (h : NInv W s) (hM : s.op < M) (ha : a ∈ W) :
    ∃ s', s.nodeU M a r = .ok s' ∧ s'.op = s.op + 1 ∧ s'.ii = s.ii ∧ NInv (W ∪ {l | l ∈ [r]}) s' := by
  have o : (Tr.un (s.idx a)).ok = true := h.ok a ha
  have b : ∀ i ∈ (Tr.un (s.idx a)).leaves, i < s.ii := h.lt a
  obtain ⟨s1, k1, k2⟩ := link_ok (s := { s with op := s.op + 1 }) o o h.nok
  obtain ⟨a1, a2, a3, a4⟩ := link_rel k1
  have hi : NInv W s1 := by
    refine ⟨by rw [a1]; exact h.ok, k2, by rw [a1, a2]; exact h.lt, fun i j hij => ?_, fun i j hij => ?_⟩
    · rw [a2]
      rcases (a4 i j).1 hij with g | g
      · exact h.nlt i j g
      · exact ⟨b i g.1, b j g.2⟩
    · rcases (a4 i j).1 hij with g | g
      · exact (a4 j i).2 (.inl (h.sym i j g))
      · exact (a4 j i).2 (.inr ⟨g.2, g.1⟩)
  refine ⟨s1.point r (.un (s.idx a)), ?_, a3, a2, NInv.point hi o (by rw [a2]; exact b)⟩
  simp only [NS.nodeU, alloc_ok hM, k1]
end

/-- Excluded in totality: what `hess_step` excludes, and what stops the sweep. -/
def nlTot (T : Option (Nat → K)) (o : Base K) : Prop :=
  match o with
  | .minOp _ _ _ _ | .condAssign _ _ _ _ _ | .condEqAssign _ _ _ _ _ => T ≠ none
  | .condAssignS _ _ _ _ | .condEqAssignS _ _ _ _ => False
  | .vecCopy _ _ _ | .vecDot _ _ _ _ | .vecAxpy _ _ _ _ _ | .takeStock _ _ => False
  | .setRef _ _ | .genQuad _ _ _ _ _ => False
  | _ => True

theorem nl_step_total {W : Set Nat} {M : Nat} {T : Option (Nat → K)} {o : Base K} (hok : nlTot T o) {s : NS} (h : NInv W s)
    (hd : ∀ l ∈ rd o, l ∈ W) (hM : s.op + 1 + (if isEqProd o then 1 else 0) ≤ M) :
    ∃ s', nlStep M T o s = .ok s' ∧ s'.op ≤ s.op + 1 + (if isEqProd o then 1 else 0) ∧ s'.ii = s.ii + o.nInd ∧
      NInv (W ∪ {l | l ∈ wr o}) s' := by
  have keep : NInv (W ∪ {l | l ∈ ([] : List Nat)}) s := by
    refine ⟨fun l hl => ?_, h.nok, h.lt, h.nlt, h.sym⟩
    rcases hl with hl | hl
    · exact h.ok l hl
    · simp at hl
  have lk : ∀ {s' : NS} {k k' : Nat}, (∃ s', nlStep M T o s = .ok s' ∧ s'.op = s.op + k ∧ s'.ii = s.ii ∧ NInv (W ∪ {l | l ∈ wr o}) s') →
      k ≤ k' → ∃ s', nlStep M T o s = .ok s' ∧ s'.op ≤ s.op + k' ∧ s'.ii = s.ii + 0 ∧ NInv (W ∪ {l | l ∈ wr o}) s' :=
    fun ⟨s', h1, h2, h3, h4⟩ hk => ⟨s', h1, by omega, by rw [h3]; rfl, h4⟩
  have two : ∀ {a b : Nat} {i j : Nat}, (i ∈ (s.idx a).leaves ∧ j ∈ (s.idx b).leaves) ∨ (i ∈ (s.idx b).leaves ∧ j ∈ (s.idx a).leaves) →
      (j ∈ (s.idx a).leaves ∧ i ∈ (s.idx b).leaves) ∨ (j ∈ (s.idx b).leaves ∧ i ∈ (s.idx a).leaves) := by
    intro a b i j hh; tauto
  have bl : ∀ a b, ∀ i ∈ (Tr.bin (s.idx a) (s.idx b)).leaves, i < s.ii := by
    intro a b i hi
    simp only [Tr.leaves, List.mem_append] at hi
    rcases hi with hi | hi
    exacts [h.lt a i hi, h.lt b i hi]
  cases o
  all_goals simp only [rd, List.mem_cons, List.not_mem_nil, or_false, forall_eq_or_imp, forall_eq] at hd
  all_goals simp only [isEqProd, if_true, if_false, Bool.false_eq_true, Nat.add_zero] at hM
  all_goals simp only [nlStep, isEqProd, Base.nInd, wr, if_true, if_false, Bool.false_eq_true] at lk ⊢
  case assignInd r =>
    have hM' : s.op < M := hM
    simp only [NS.node, alloc_ok hM']
    refine ⟨_, rfl, by simp [NS.point], rfl, ?_⟩
    exact NInv.point (r := r) (s := { s with op := s.op + 1, ii := s.ii + 1 }) (t := .ind s.ii) (W := W)
      ⟨h.ok, h.nok, fun l i hi => Nat.lt_succ_of_lt (h.lt l i hi),
        fun i j hij => ⟨Nat.lt_succ_of_lt (h.nlt i j hij).1, Nat.lt_succ_of_lt (h.nlt i j hij).2⟩, h.sym⟩ rfl (by simp [Tr.leaves])
  case cmp | assignDep | eqPlusD | eqMinD | eqMultD | incrA | decrA | deathNot =>
    exact ⟨s, rfl, by omega, rfl, keep⟩
  case assignD | assignP | assignD0 | assignD1 =>
    exact lk (s' := s) (node_inv h hM rfl (by simp [Tr.leaves])) le_rfl
  case assignA | plusDA | minDA | multDA | posSign | negSign | absVal | ceilOp | floorOp =>
    exact ⟨_, rfl, by simp [NS.point], rfl, NInv.point h (h.ok _ hd) (h.lt _)⟩
  case expOp | divDA | sinOp | cosOp | quad | logOp | powOp | sqrtOp | cbrtOp =>
    exact lk (s' := s) (nodeU_inv h hM hd) le_rfl
  case plusAA a b r | minAA a b r =>
    exact lk (s' := s) (node_inv h hM (by simp [Tr.ok, h.ok _ hd.1, h.ok _ hd.2]) (bl a b)) le_rfl
  case eqPlusA a r | eqMinA a r =>
    obtain ⟨s', k1, k2, k3, k4⟩ := node_inv (r := r) h hM (t := .bin (s.idx r) (s.idx a)) (by simp [Tr.ok, h.ok _ hd.1, h.ok _ hd.2]) (bl r a)
    exact ⟨s', k1, k2.le, k3, k4.mono (by simp)⟩
  case eqMultA a r =>
    obtain ⟨s', k1, k2, k3, k4⟩ := node2_inv (r := r) h hM (t := .bin (s.idx r) (s.idx a)) (by simp [Tr.ok, h.ok _ hd.1, h.ok _ hd.2]) (bl r a)
      (h.ok _ hd.2) (h.ok _ hd.1) (h.ok _ hd.1) (h.ok _ hd.2) (h.lt r) (h.lt a) (h.lt a) (h.lt r) (fun i j => two)
    exact ⟨s', k1, k2.le, k3, k4.mono (by simp)⟩
  case multAA a b r =>
    exact lk (s' := s) (node2_inv (r := r) h hM (by simp [Tr.ok, h.ok _ hd.1, h.ok _ hd.2]) (bl a b)
      (h.ok _ hd.1) (h.ok _ hd.2) (h.ok _ hd.2) (h.ok _ hd.1) (h.lt a) (h.lt b) (h.lt b) (h.lt a) (fun i j => two)) le_rfl
  case divAA a b r =>
    exact lk (s' := s) (node2_inv (r := r) h hM (by simp [Tr.ok, h.ok _ hd.1, h.ok _ hd.2]) (bl a b)
      (h.ok _ hd.1) (h.ok _ hd.2) (h.ok _ hd.2) (by simp [Tr.ok, h.ok _ hd.1, h.ok _ hd.2]) (h.lt a) (h.lt b) (h.lt b) (bl a b)
      (fun i j => by simp only [Tr.leaves, List.mem_append]; tauto)) le_rfl
  case eqPlusProd a b r =>
    obtain ⟨o1, o2, o3⟩ := hd
    obtain ⟨s', k1, k2, k3, k4⟩ := nodeP_inv (r := r) h hM (t := .bin (s.idx r) (.bin (s.idx a) (s.idx b)))
      (by simp [Tr.ok, h.ok _ o1, h.ok _ o2, h.ok _ o3])
      (fun i hi => by simp only [Tr.leaves, List.mem_append] at hi; rcases hi with hi | hi | hi; exacts [h.lt r i hi, h.lt a i hi, h.lt b i hi])
      (h.ok _ o1) (h.ok _ o2) (h.ok _ o2) (h.ok _ o1) (h.lt a) (h.lt b) (h.lt b) (h.lt a) (fun i j => two)
    exact ⟨s', k1, k2.le, k3, k4.mono (by simp)⟩
  case eqMinProd a b r =>
    obtain ⟨o1, o2, o3⟩ := hd
    have oab : (Tr.bin (s.idx a) (s.idx b)).ok = true := by simp [Tr.ok, h.ok _ o1, h.ok _ o2]
    obtain ⟨s', k1, k2, k3, k4⟩ := nodeP_inv (r := r) h hM (t := .bin (s.idx r) (.bin (s.idx a) (s.idx b)))
      (by simp [Tr.ok, h.ok _ o1, h.ok _ o2, h.ok _ o3])
      (fun i hi => by simp only [Tr.leaves, List.mem_append] at hi; rcases hi with hi | hi | hi; exacts [h.lt r i hi, h.lt a i hi, h.lt b i hi])
      (h.ok _ o1) (h.ok _ o2) oab oab (h.lt a) (h.lt b) (bl a b) (bl a b)
      (fun i j => by simp only [Tr.leaves, List.mem_append]; tauto)
    exact ⟨s', k1, k2.le, k3, k4.mono (by simp)⟩
  case minOp a b r k =>
    cases T with
    | none => exact absurd rfl hok
    | some t =>
      simp only
      split_ifs
      · obtain ⟨s', k1, k2, k3, k4⟩ := node_inv (r := r) h hM (t := .un (s.idx a)) (h.ok _ hd.1) (h.lt a)
        exact ⟨s', k1, k2.le, k3, k4⟩
      · obtain ⟨s', k1, k2, k3, k4⟩ := node_inv (r := r) h hM (t := .un (s.idx b)) (h.ok _ hd.2) (h.lt b)
        exact ⟨s', k1, k2.le, k3, k4⟩
      · obtain ⟨s', k1, k2, k3, k4⟩ := node_inv (r := r) h hM (t := .bin (s.idx a) (s.idx b)) (by simp [Tr.ok, h.ok _ hd.1, h.ok _ hd.2]) (bl a b)
        exact ⟨s', k1, k2.le, k3, k4⟩
  case condAssign a a1 a2 r k | condEqAssign a a1 a2 r k =>
    cases T with
    | none => exact absurd rfl hok
    | some t =>
      refine ⟨_, rfl, by simp [NS.point], rfl, NInv.point h ?_ (h.lt _)⟩
      split_ifs
      · exact h.ok _ hd.2.1
      · exact h.ok _ hd.2.2
  all_goals exact hok.elim

theorem nl_safe_total {M : Nat} {ops : List (Base K)} (hok : ∀ o ∈ ops, nlTot (none : Option (Nat → K)) o) {W : Set Nat} {s : NS}
    (h : NInv W s) (hd : DefFrom W ops) (hM : s.op + ops.length + ops.countP isEqProd ≤ M) :
    ∃ s', nlSafeRun M ops s = .ok s' ∧ s'.ii = s.ii + numInd ops ∧ NInv ∅ s' := by
  induction ops generalizing s W with
  | nil => exact ⟨s, rfl, by simp [numInd], h.mono (Set.empty_subset _)⟩
  | cons o os ih =>
    simp only [List.length_cons, List.countP_cons] at hM
    obtain ⟨s1, k1, k2, k3, k4⟩ := nl_step_total (M := M) (hok o (by simp)) h hd.1 (by omega)
    obtain ⟨s2, m1, m2, m3⟩ := ih (fun o ho => hok o (List.mem_cons_of_mem _ ho)) k4 hd.2 (by omega)
    refine ⟨s2, by simp only [nlSafeRun, k1, m1], ?_, m3⟩
    rw [m2, k3]; simp only [numInd, List.map_cons, List.sum_cons]; omega

theorem nl_tight_total {M : Nat} {c : Cfg K} {ops : List (Base K)} (hok : ∀ o ∈ ops, ∀ T, nlTot (some T) o) (hcs : ∀ o ∈ ops, notCondS o)
    {W : Set Nat} {s : NS} (h : NInv W s) (hd : DefFrom W ops) (hM : s.op + ops.length + ops.countP isEqProd ≤ M)
    {z z' : ZS K} (hz : zosRun c ops z = .ok z') :
    ∃ s', nlTightRun M c ops z s = .ok s' ∧ s'.ii = s.ii + numInd ops ∧ NInv ∅ s' := by
  induction ops generalizing s W z with
  | nil => exact ⟨s, rfl, by simp [numInd], h.mono (Set.empty_subset _)⟩
  | cons o os ih =>
    simp only [List.length_cons, List.countP_cons] at hM
    simp only [zosRun] at hz
    split at hz
    · cases hz
    · rename_i z1 hz1
      obtain ⟨s1, k1, k2, k3, k4⟩ := nl_step_total (M := M) (hok o (by simp) z.T) h hd.1 (by omega)
      obtain ⟨s2, m1, m2, m3⟩ := ih (fun o ho => hok o (List.mem_cons_of_mem _ ho)) (fun o ho => hcs o (List.mem_cons_of_mem _ ho)) k4 hd.2 (by omega) hz
      refine ⟨s2, by simp only [nlTightRun, tightVal_eq (hcs o (by simp)), hz1, k1, m1], ?_, m3⟩
      rw [m2, k3]; simp only [numInd, List.map_cons, List.sum_cons]; omega

theorem nlTot_ok {T : Option (Nat → K)} {o : Base K} (h : nlTot T o) : nlOk T o := by
  cases o <;> first | exact h | trivial

/-! ## The rows -/

theorem mem_insertU (e i : Nat) (L : List Nat) : i ∈ insertU e L ↔ i = e ∨ i ∈ L := by
  induction L with
  | nil => simp [insertU]
  | cons x xs ih =>
    simp only [insertU]
    split_ifs with h1 h2
    · simp only [List.mem_cons, ih]; tauto
    · simp
    · obtain rfl : x = e := by omega
      simp

theorem insertU_sorted (e : Nat) {L : List Nat} (h : L.Pairwise (· < ·)) : (insertU e L).Pairwise (· < ·) := by
  induction L with
  | nil => simp [insertU]
  | cons x xs ih =>
    obtain ⟨h1, h2⟩ := List.pairwise_cons.1 h
    simp only [insertU]
    split_ifs with k1 k2
    · refine List.pairwise_cons.2 ⟨fun y hy => ?_, ih h2⟩
      rcases (mem_insertU _ _ _).1 hy with rfl | hy
      · exact k1
      · exact h1 y hy
    · refine List.pairwise_cons.2 ⟨fun y hy => ?_, h⟩
      rcases List.mem_cons.1 hy with rfl | hy
      · exact k2
      · exact k2.trans (h1 y hy)
    · exact h

theorem foldl_insertU (A L : List Nat) (h : L.Pairwise (· < ·)) :
    (A.foldl (fun L e => insertU e L) L).Pairwise (· < ·) ∧ ∀ i, i ∈ A.foldl (fun L e => insertU e L) L ↔ i ∈ A ∨ i ∈ L := by
  induction A generalizing L with
  | nil => simp [h]
  | cons a A ih =>
    obtain ⟨k1, k2⟩ := ih _ (insertU_sorted a h)
    refine ⟨k1, fun i => ?_⟩
    rw [List.foldl_cons, k2, mem_insertU, List.mem_cons]
    tauto

theorem crsRows_spec {s : NS} (h : NInv ∅ s) :
    ∃ cols : Nat → List Nat, crsRows s.ii s = .ok ((List.range s.ii).map fun i => (cols i).length :: cols i) ∧
      (∀ i, (cols i).Pairwise (· < ·)) ∧ ∀ i j, j ∈ cols i ↔ s.rel i j := by
  set cols : Nat → List Nat := fun i =>
    (((s.nonl i).reverse.flatMap Tr.leaves).filter (· < s.ii + 1)).foldl (fun L e => insertU e L) [] with hc
  have hrow : ∀ i, crsRow s.ii (s.nonl i) = .ok ((cols i).length :: cols i) := by
    intro i
    have : (s.nonl i).all Tr.ok = true := by simpa [List.all_eq_true] using h.nok i
    simp only [crsRow, this, if_true, hc]
  refine ⟨cols, ?_, fun i => (foldl_insertU _ [] (by simp)).1, fun i j => ?_⟩
  · unfold crsRows
    generalize List.range s.ii = R
    induction R with
    | nil => rfl
    | cons x R ih => rw [List.foldr_cons, ih, hrow]; rfl
  · rw [(foldl_insertU _ [] (by simp)).2]
    simp only [List.mem_filter, List.mem_flatMap, List.mem_reverse, decide_eq_true_eq, List.not_mem_nil, or_false]
    constructor
    · rintro ⟨h1, _⟩; exact h1
    · intro h1; exact ⟨h1, Nat.lt_succ_of_lt (h.nlt i j h1).2⟩
end

/-! ## All interactions are listed -/

section
variable {n : Nat} {x0 : Fin n → ℝ} {s s' : NS} {S : (Fin n → ℝ) → ZS ℝ} {M : Nat}

theorem hess_safe_run {c : (Fin n → ℝ) → Cfg ℝ} (hpar : ∀ e, (c e).par = (c x0).par)
    (hx : ∀ k R, Sp x0 (fun e => (c e).x k) (· = k) R) {N : Nat} {Z : Set Nat} {ops : List (Base ℝ)}
    (hwf : WfFrom N Z ops) (hok : ∀ o ∈ ops, nlTot (none : Option (Nat → ℝ)) o)
    (h : HI x0 (liveAdj ops) s S) (hs : Along (smoothS .ho) (c x0) ops (S x0)) (hz : ∃ z, zosRun (c x0) ops (S x0) = .ok z)
    (hn : nlSafeRun M ops s = .ok s') :
    ∃ S', (∀ᶠ e in 𝓝 x0, zosRun (c e) ops (S e) = .ok (S' e)) ∧ HI x0 ∅ s' S' := by
  induction ops generalizing S s Z with
  | nil => cases hn; exact ⟨S, .of_forall fun e => rfl, h⟩
  | cons o os ih =>
    obtain ⟨z, hz⟩ := hz
    simp only [zosRun] at hz
    simp only [nlSafeRun] at hn
    split at hz
    · cases hz
    · rename_i z1 hz1
      split at hn
      · cases hn
      · rename_i s1 hs1
        obtain ⟨_, w2, _, w4, w5⟩ := hwf
        obtain ⟨S1, e1, e2⟩ := hess_step hpar hx (T := none) (by simp) (nlTot_ok (hok o (by simp))) w4 h hs.1 ⟨z1, hz1⟩ hs1
        have e3 := e1.self_of_nhds
        rw [hz1] at e3
        cases e3
        obtain ⟨S2, f1, f2⟩ := ih w5 (fun o ho => hok o (List.mem_cons_of_mem _ ho)) e2 (hs.2 _ hz1) ⟨z, hz⟩ hn
        refine ⟨S2, ?_, f2⟩
        filter_upwards [e1, f1] with t t1 t2
        simp only [zosRun, t1, t2]

theorem hess_tight_run {c : (Fin n → ℝ) → Cfg ℝ} (hpar : ∀ e, (c e).par = (c x0).par)
    (hx : ∀ k R, Sp x0 (fun e => (c e).x k) (· = k) R) {N : Nat} {Z : Set Nat} {ops : List (Base ℝ)}
    (hwf : WfFrom N Z ops) (hok : ∀ o ∈ ops, ∀ T, nlTot (some T) o) (hcs : ∀ o ∈ ops, notCondS o)
    (h : HI x0 (liveAdj ops) s S) (hs : Along (smoothS .ho) (c x0) ops (S x0)) (hz : ∃ z, zosRun (c x0) ops (S x0) = .ok z)
    (hn : nlTightRun M (c x0) ops (S x0) s = .ok s') :
    ∃ S', (∀ᶠ e in 𝓝 x0, zosRun (c e) ops (S e) = .ok (S' e)) ∧ HI x0 ∅ s' S' := by
  induction ops generalizing S s Z with
  | nil => cases hn; exact ⟨S, .of_forall fun e => rfl, h⟩
  | cons o os ih =>
    obtain ⟨z, hz⟩ := hz
    simp only [zosRun] at hz
    simp only [nlTightRun, tightVal_eq (hcs o (by simp))] at hn
    split at hz
    · cases hz
    · rename_i z1 hz1
      rw [hz1] at hn
      simp only at hn
      split at hn
      · cases hn
      · rename_i s1 hs1
        obtain ⟨_, w2, _, w4, w5⟩ := hwf
        obtain ⟨S1, e1, e2⟩ := hess_step hpar hx (T := some (S x0).T) (by simp) (nlTot_ok (hok o (by simp) _)) w4 h hs.1 ⟨z1, hz1⟩ hs1
        have e3 := e1.self_of_nhds
        rw [hz1] at e3
        cases e3
        obtain ⟨S2, f1, f2⟩ := ih w5 (fun o ho => hok o (List.mem_cons_of_mem _ ho)) (fun o ho => hcs o (List.mem_cons_of_mem _ ho)) e2 (hs.2 _ hz1) ⟨z, hz⟩ hn
        refine ⟨S2, ?_, f2⟩
        filter_upwards [e1, f1] with t t1 t2
        simp only [zosRun, t1, t2]
end
end Verif.Sparse
