import Verif.AD.RecordSim

/-!
Programs that use their objects as documented record traces the reverse sweep can undo.
-/
set_option linter.all false
namespace Verif.AD
open Elem

variable {K : Type} [Scalar K]

/-! ### A forward monitor for `WfFrom` -/

/-- Adjoints an operation reads. -/
def Base.reads (o : Base K) : Set Nat :=
  match o with
  | .assignDep r => {r}
  | .assignA a _ | .plusDA a _ _ | .minDA a _ _ | .multDA a _ _ | .divDA a _ _ | .posSign a _
  | .negSign a _ | .expOp a _ | .logOp a _ | .powOp a _ _ | .sqrtOp a _ | .cbrtOp a _
  | .absVal a _ _ | .sinOp a _ _ | .cosOp a _ _ | .quad _ a _ _ | .genQuad a _ _ _ _
  | .eqPlusA a _ | .eqMinA a _ | .eqMultA a _ | .condAssignS _ a _ _ | .condEqAssignS _ a _ _ => {a}
  | .plusAA a b _ | .minAA a b _ | .multAA a b _ | .divAA a b _ | .minOp a b _ _
  | .eqPlusProd a b _ | .eqMinProd a b _ | .condAssign _ a b _ _ | .condEqAssign _ a b _ _ => {a, b}
  | .vecCopy a n _ => {l | a ≤ l ∧ l < a + n}
  | .vecDot a b n _ => {l | a ≤ l ∧ l < a + n} ∪ {l | b ≤ l ∧ l < b + n}
  | .vecAxpy a a1 a2 n _ => insert a ({l | a1 ≤ l ∧ l < a1 + n} ∪ {l | a2 ≤ l ∧ l < a2 + n})
  | _ => ∅

/-- Locations whose adjoint an operation certainly clears. -/
def Base.kills (o : Base K) : Set Nat :=
  match o with
  | .assignD r _ | .assignP _ r | .assignD0 r | .assignD1 r | .ceilOp _ r _ | .floorOp _ r _
  | .assignA _ r | .plusDA _ r _ | .minDA _ r _ | .multDA _ r _ | .divDA _ r _ | .posSign _ r
  | .negSign _ r | .expOp _ r | .logOp _ r | .powOp _ r _ | .sqrtOp _ r | .cbrtOp _ r
  | .absVal _ r _ | .sinOp _ _ r | .cosOp _ _ r | .quad _ _ _ r | .genQuad _ _ r _ _
  | .plusAA _ _ r | .minAA _ _ r | .multAA _ _ r | .divAA _ _ r | .minOp _ _ r _ => {r}
  | _ => ∅

theorem adjStep_eq (o : Base K) (L : Set Nat) : o.adjStep L = o.reads ∪ (L \ o.kills) := by
  cases o <;> simp only [Base.adjStep, Base.reads, Base.kills] <;> ext l <;> simp <;> tauto

/-- Monitor state: locations with zero tangent, and tainted locations (whose adjoint must not
be read any more). -/
structure Mon where
  Z : Set Nat
  D : Set Nat

def Mon.step (m : Mon) (o : Base K) : Mon := ⟨o.tanStep m.Z, (m.D \ o.kills) ∪ o.zeroAdj⟩

def Base.okM (N : Nat) (o : Base K) (m : Mon) : Prop :=
  o.bounded N ∧ o.okT ∧ o.zeroTan ⊆ m.Z ∧ ∀ l ∈ o.reads, l ∉ m.D

def Mon.Ok (N : Nat) : Mon → List (Base K) → Prop
  | _, [] => True
  | m, o :: os => o.okM N m ∧ Mon.Ok N (m.step o) os

def Mon.run (m : Mon) (ops : List (Base K)) : Mon := ops.foldl Mon.step m

theorem Mon.Ok.live {N : Nat} {ops : List (Base K)} {m : Mon} (h : m.Ok N ops) :
    ∀ l ∈ m.D, l ∉ liveAdj ops := by
  induction ops generalizing m with
  | nil => simp [liveAdj]
  | cons o os ih =>
    intro l hl hm
    rw [liveAdj, adjStep_eq] at hm
    rcases hm with hm | hm
    · exact h.1.2.2.2 l hm hl
    · exact ih h.2 l (.inl ⟨hl, hm.2⟩) hm.1

theorem Mon.Ok.wf {N : Nat} {ops : List (Base K)} {m : Mon} (h : m.Ok N ops) : WfFrom N m.Z ops := by
  induction ops generalizing m with
  | nil => trivial
  | cons o os ih =>
    exact ⟨h.1.1, h.1.2.1, h.1.2.2.1, fun l hl => h.2.live l (.inr hl), ih h.2⟩

theorem Mon.Ok.append {N : Nat} {a b : List (Base K)} {m : Mon} :
    m.Ok N (a ++ b) ↔ m.Ok N a ∧ (m.run a).Ok N b := by
  induction a generalizing m with
  | nil => simp [Mon.Ok, Mon.run]
  | cons o os ih => simp only [List.cons_append, Mon.Ok, ih, Mon.run, List.foldl_cons, and_assoc]

theorem Mon.Ok.mono {N N' : Nat} (hN : N ≤ N') {a : List (Base K)} {m : Mon} (h : m.Ok N a) :
    m.Ok N' a := by
  induction a generalizing m with
  | nil => trivial
  | cons o os ih =>
    refine ⟨⟨?_, h.1.2.1, h.1.2.2.1, h.1.2.2.2⟩, ih h.2⟩
    have := h.1.1
    cases o <;> simp only [Base.bounded] at this ⊢ <;> omega

/-! ### The discipline on object names -/

/-- `C`: objects holding a constant; `Q`: objects that must not be read before they are
overwritten: results of `>>=` (the reverse sweep assigns, not adds, the weight of a dependent)
and companions of sin/cos. -/
structure Disc where
  C : Set Nat
  Q : Set Nat

def moveSet (S : Set Nat) (a d : Nat) : Set Nat := {l | (l = d ∧ a ∈ S) ∨ (l ≠ d ∧ l ≠ a ∧ l ∈ S)}

/-- Objects whose derivative a call reads. -/
def Stmt.uses : Stmt K → Set Nat
  | .copy _ a | .setA _ a | .accA _ _ a | .accR _ _ a | .dep a | .un _ a _ | .trig _ a _ _
  | .quad _ a _ _ | .condS _ _ a | .condEqS _ _ a => {a}
  | .bin _ _ a b _ | .cond _ _ a b | .condEq _ _ a b => {a, b}
  | _ => ∅

/-- The discipline: no use of a tainted object; independents are declared on objects that hold
a constant. -/
def Stmt.disc (s : Stmt K) (m : Disc) : Prop :=
  (∀ a ∈ s.uses, a ∉ m.Q) ∧ match s with
    | .indep a => a ∈ m.C
    | _ => True

def Stmt.discNext (s : Stmt K) (m : Disc) : Disc :=
  match s with
  | .new d | .newD d _ | .setD d _ | .setP d _ => ⟨insert d m.C, m.Q \ {d}⟩
  | .copy d _ | .setA d _ | .un _ _ d | .bin _ _ _ _ d | .quad _ _ _ d => ⟨m.C \ {d}, m.Q \ {d}⟩
  | .move d a => ⟨moveSet m.C a d, moveSet m.Q a d⟩
  | .moveA a b => ⟨moveSet m.C b a, moveSet m.Q b a⟩
  | .del a => ⟨m.C \ {a}, m.Q \ {a}⟩
  | .accD _ _ _ | .incr _ | .decr _ => m
  | .accA _ a _ | .indep a => ⟨m.C \ {a}, m.Q⟩
  | .accR _ a t => ⟨m.C \ {a, t}, m.Q \ {t}⟩
  | .dep a => ⟨m.C, insert a m.Q⟩
  | .trig _ _ b d => ⟨m.C \ {b, d}, insert b (m.Q \ {d})⟩
  | .cond r _ _ _ | .condS r _ _ | .condEq r _ _ _ | .condEqS r _ _ => ⟨m.C \ {r}, m.Q⟩

/-- A program keeps the discipline on every path. -/
def Prog.disc : Prog K → Disc → Prop
  | .done, _ => True
  | .stmt s k, m => s.disc m ∧ k.disc (s.discNext m)
  | .branch _ _ t f, m => t.disc m ∧ f.disc m

/-! ### Names and locations -/

/-- The names' status describes the locations. -/
structure DSim (env : Nat → Option Nat) (d : Disc) (m : Mon) : Prop where
  C : ∀ a l, env a = some l → a ∈ d.C → l ∈ m.Z
  Q : ∀ a l, env a = some l → l ∈ m.D → a ∈ d.Q

/-- The monitor accepts the body recorded so far (the trace without the stock `tr0`). -/
structure MonOk (tr0 : List (Base K)) (s : Rec K) (d : Disc) : Prop where
  tr : ∃ body, s.tr = body ++ tr0 ∧ (Mon.mk Set.univ ∅).Ok s.hw body.reverse ∧
    DSim s.env d ((Mon.mk Set.univ ∅).run body.reverse)

theorem Rec.Ok.lt {s : Rec K} (h : s.Ok) {a l : Nat} (ha : s.env a = some l) : l < s.hw :=
  h.hw l (h.live a l ha)

theorem MonOk.snoc {tr0 : List (Base K)} {s s' : Rec K} {d d' : Disc} {o : Base K}
    (h : MonOk tr0 s d) (ho : s'.tr = o :: s.tr) (hw : s.hw ≤ s'.hw)
    (hok : ∀ m, DSim s.env d m → o.okM s'.hw m ∧ DSim s'.env d' (m.step o)) :
    MonOk tr0 s' d' := by
  obtain ⟨body, h1, h2, h3⟩ := h.tr
  refine ⟨o :: body, by rw [ho, h1]; rfl, ?_, ?_⟩
  · rw [List.reverse_cons, Mon.Ok.append]
    exact ⟨h2.mono hw, (hok _ h3).1, trivial⟩
  · rw [List.reverse_cons, Mon.run, List.foldl_append]
    exact (hok _ h3).2

theorem MonOk.same {tr0 : List (Base K)} {s s' : Rec K} {d d' : Disc} (h : MonOk tr0 s d)
    (ho : s'.tr = s.tr) (hw : s'.hw = s.hw) (hd : ∀ m, DSim s.env d m → DSim s'.env d' m) :
    MonOk tr0 s' d' := by
  obtain ⟨body, h1, h2, h3⟩ := h.tr
  exact ⟨body, by rw [ho, h1], by rwa [hw], hd _ h3⟩

/-- An operation with result `l`, the location of `a`: the status of other objects is kept. -/
theorem DSim.upd1 {env : Nat → Option Nat} {d d' : Disc} {m : Mon} {o : Base K} {a l : Nat}
    (h : DSim env d m) (inj : ∀ a b l, env a = some l → env b = some l → a = b)
    (ha : env a = some l)
    (hZ : ∀ k, k ≠ l → k ∈ m.Z → k ∈ o.tanStep m.Z) (hD : ∀ k, k ≠ l → k ∈ (m.step o).D → k ∈ m.D)
    (hC : ∀ b, b ≠ a → b ∈ d'.C → b ∈ d.C) (hQ : ∀ b, b ≠ a → b ∈ d.Q → b ∈ d'.Q)
    (hCa : a ∈ d'.C → l ∈ o.tanStep m.Z) (hQa : l ∈ (m.step o).D → a ∈ d'.Q) :
    DSim env d' (m.step o) := by
  refine ⟨fun b k hb hc => ?_, fun b k hb hd => ?_⟩
  · by_cases hba : b = a
    · subst hba; rw [ha] at hb; cases hb; exact hCa hc
    · have : k ≠ l := fun hk => hba (inj b a l (hk ▸ hb) ha)
      exact hZ k this (h.C b k hb (hC b hba hc))
  · by_cases hba : b = a
    · subst hba; rw [ha] at hb; cases hb; exact hQa hd
    · have : k ≠ l := fun hk => hba (inj b a l (hk ▸ hb) ha)
      exact hQ b hba (h.Q b k hb (hD k this hd))

theorem DSim.take {env : Nat → Option Nat} {d : Disc} {m : Mon} (h : DSim env d m) (a l : Nat) :
    DSim (upd env a (some l)) ⟨d.C \ {a}, insert a d.Q⟩ m := by
  refine ⟨fun b k hb hc => ?_, fun b k hb hd => ?_⟩
  · simp only [upd_apply, Set.mem_diff, Set.mem_singleton_iff] at hb hc
    rw [if_neg hc.2] at hb
    exact h.C b k hb hc.1
  · simp only [upd_apply, Set.mem_insert_iff] at hb ⊢
    by_cases hba : b = a
    · exact .inl hba
    · rw [if_neg hba] at hb; exact .inr (h.Q b k hb hd)

theorem DSim.drop {env : Nat → Option Nat} {d : Disc} {m : Mon} (h : DSim env d m) (a : Nat) :
    DSim (upd env a none) ⟨d.C \ {a}, d.Q \ {a}⟩ m := by
  refine ⟨fun b k hb hc => ?_, fun b k hb hd => ?_⟩
  · simp only [upd_apply] at hb
    split at hb
    · cases hb
    · exact h.C b k hb hc.1
  · simp only [upd_apply] at hb
    split at hb
    · cases hb
    · rename_i hba; exact ⟨h.Q b k hb hd, hba⟩

theorem DSim.move {env : Nat → Option Nat} {d : Disc} {m : Mon} (h : DSim env d m) {a l : Nat}
    (b : Nat) (ha : env a = some l) :
    DSim (upd (upd env a none) b (some l)) ⟨moveSet d.C a b, moveSet d.Q a b⟩ m := by
  refine ⟨fun i k hi hc => ?_, fun i k hi hd => ?_⟩
  · simp only [upd_apply, moveSet, Set.mem_setOf_eq] at hi hc
    rcases hc with ⟨rfl, hc⟩ | ⟨h1, h2, h3⟩
    · simp at hi; subst hi; exact h.C a l ha hc
    · rw [if_neg h1, if_neg h2] at hi; exact h.C i k hi h3
  · simp only [upd_apply, moveSet, Set.mem_setOf_eq] at hi ⊢
    by_cases h1 : i = b
    · rw [if_pos h1] at hi; cases hi; exact .inl ⟨h1, h.Q a _ ha hd⟩
    · rw [if_neg h1] at hi
      split at hi
      · cases hi
      · rename_i h2; exact .inr ⟨h1, h2, h.Q i k hi hd⟩

section
variable {tr0 : List (Base K)} {cfg : RCfg K} {s : Rec K} {d d' : Disc}

/-- A call that records `o` with result the object `a`. -/
theorem MonOk.rec1 (ok : s.Ok) (h : MonOk tr0 s d) {a l : Nat} (ha : s.env a = some l) {o : Base K}
    {v : K} (hok : ∀ m, DSim s.env d m → o.okM s.hw m)
    (hZ : ∀ (m : Mon) k, k ≠ l → k ∈ m.Z → k ∈ o.tanStep m.Z)
    (hD : ∀ (m : Mon) k, k ≠ l → k ∈ (m.step o).D → k ∈ m.D)
    (hC : ∀ b, b ≠ a → b ∈ d'.C → b ∈ d.C) (hQ : ∀ b, b ≠ a → b ∈ d.Q → b ∈ d'.Q)
    (hCa : ∀ m, DSim s.env d m → a ∈ d'.C → l ∈ o.tanStep m.Z)
    (hQa : ∀ m, DSim s.env d m → l ∈ (m.step o).D → a ∈ d'.Q) :
    MonOk tr0 (s.rec1 cfg o l v) d' :=
  h.snoc rfl le_rfl fun m hm =>
    ⟨hok m hm, hm.upd1 ok.inj ha (hZ m) (hD m) hC hQ (hCa m hm) (hQa m hm)⟩

theorem MonOk.take1 (hal : ∀ k L, cfg.alloc k L ∉ L) (ok : s.Ok) (h : MonOk tr0 s d) {a : Nat}
    {o : Base K} {v : K} (hok : ∀ m, DSim s.env d m → o.okM (max s.hw (s.next cfg + 1)) m)
    (hZ : ∀ (m : Mon) k, k ≠ s.next cfg → k ∈ m.Z → k ∈ o.tanStep m.Z)
    (hD : ∀ (m : Mon) k, k ≠ s.next cfg → k ∈ (m.step o).D → k ∈ m.D)
    (hC : ∀ b, b ≠ a → b ∈ d'.C → b ∈ d.C) (hQ : ∀ b, b ≠ a → b ∈ d.Q → b ∈ d'.Q)
    (hCa : ∀ m : Mon, a ∈ d'.C → s.next cfg ∈ o.tanStep m.Z)
    (hQa : ∀ m : Mon, s.next cfg ∈ (m.step o).D → a ∈ d'.Q) :
    MonOk tr0 ((s.take cfg a).rec1 cfg o (s.next cfg) v) d' :=
  h.snoc (s' := (s.take cfg a).rec1 cfg o (s.next cfg) v) rfl (le_max_left _ _) fun m hm =>
    ⟨hok m hm, (hm.take a (s.next cfg)).upd1 (ok.take hal a).inj (by simp [upd_apply])
      (hZ m) (hD m) (fun b hb hc => ⟨hC b hb hc, hb⟩)
      (fun b hb hq => hQ b hb (by simpa [hb] using hq)) (hCa m) (hQa m)⟩
end

local macro "mon" : tactic => `(tactic| (simp +contextual [Stmt.discNext, Base.okM, Base.bounded,
  Base.okT, Base.zeroTan, Base.reads, Base.tanStep, Mon.step, Base.kills, Base.zeroAdj, *] <;> assumption))

set_option maxHeartbeats 2000000 in
theorem disc_step {tr0 : List (Base K)} {cfg : RCfg K} (hal : ∀ k L, cfg.alloc k L ∉ L) {st : Stmt K}
    {s s' : Rec K} {d : Disc} (ok : s.Ok) (h0 : MonOk tr0 s d) (hd : st.disc d)
    (htr0 : ∀ p q r l, tr0 ≠ .multAA p q r :: l)
    (h : st.record cfg s = some s') : MonOk tr0 s' (st.discNext d) := by
  have rd : ∀ {a l m}, s.env a = some l → a ∉ d.Q → DSim s.env d m → l ∉ m.D :=
    fun ha hq hm hl => hq (hm.Q _ _ ha hl)
  cases st
  all_goals simp only [Stmt.record] at h
  all_goals simp only [Stmt.disc, Stmt.uses, Set.mem_singleton_iff, forall_eq, Set.mem_insert_iff,
    forall_eq_or_imp, Set.mem_empty_iff_false, and_true, false_imp_iff, implies_true, true_and] at hd
  case new a =>
    split at h
    · cases h
      apply MonOk.take1 hal ok h0 <;> mon
    · cases h
  case newD a k =>
    split at h
    · cases h
      unfold opAssignD
      split
      · apply MonOk.take1 hal ok h0 <;> mon
      · split
        · apply MonOk.take1 hal ok h0 <;> mon
        · apply MonOk.take1 hal ok h0 <;> mon
    · cases h
  case copy a b =>
    split at h
    · simp only [Option.map_eq_some_iff] at h
      obtain ⟨lb, hb, rfl⟩ := h
      have h1 := ok.lt hb
      have h2 : lb ≠ s.next cfg := fun hl => hal _ _ (hl ▸ ok.live b lb hb)
      have h3 := fun m => rd (m := m) hb hd
      apply MonOk.take1 hal ok h0 <;> mon
    · cases h
  case move a b =>
    split at h
    · simp only [Option.map_eq_some_iff] at h
      obtain ⟨lb, hb, rfl⟩ := h
      exact h0.same rfl rfl fun m hm => hm.move a hb
    · cases h
  case moveA a b =>
    split at h
    · rename_i hab
      simp only [Option.bind_eq_some_iff, Option.map_eq_some_iff] at h
      obtain ⟨la, ha, lb, hb, rfl⟩ := h
      refine h0.same rfl rfl fun m hm => ?_
      have := hm.move a hb
      refine ⟨fun i k hi => this.C i k ?_, fun i k hi => this.Q i k ?_⟩ <;>
      · simp only [Rec.free, upd_apply] at hi ⊢
        split_ifs at hi ⊢ <;> simp_all
    · cases h
  case del a =>
    simp only [Option.map_eq_some_iff] at h
    obtain ⟨la, ha, rfl⟩ := h
    exact h0.same rfl rfl fun m hm => hm.drop a
  case setD a k =>
    simp only [Option.map_eq_some_iff] at h
    obtain ⟨la, ha, rfl⟩ := h
    have h1 := ok.lt ha
    unfold opAssignD
    split
    · apply MonOk.rec1 ok h0 ha <;> mon
    · split
      · apply MonOk.rec1 ok h0 ha <;> mon
      · apply MonOk.rec1 ok h0 ha <;> mon
  case setA a b =>
    simp only [Option.bind_eq_some_iff, Option.map_eq_some_iff] at h
    obtain ⟨la, ha, lb, hb, h⟩ := h
    have h1 := ok.lt ha
    have h2 := ok.lt hb
    have h3 := fun m => rd (m := m) hb hd
    split at h
    · rename_i hab
      cases h
      have hab' : lb ≠ la := Ne.symm hab
      apply MonOk.rec1 ok h0 ha <;> mon
    · rename_i hab
      cases h
      have hab' : a = b := ok.inj a b la ha (by simp at hab; rw [hab]; exact hb)
      subst hab'
      refine h0.same rfl rfl fun m hm => ⟨fun i k hi hc => hm.C i k hi hc.1, fun i k hi hk =>
        ⟨hm.Q i k hi hk, fun hia => hd (hia ▸ hm.Q i k hi hk)⟩⟩
  case setP a k =>
    simp only [Option.map_eq_some_iff] at h
    obtain ⟨la, ha, rfl⟩ := h
    have h1 := ok.lt ha
    apply MonOk.rec1 ok h0 ha <;> mon
  case accD f a k =>
    simp only [Option.map_eq_some_iff] at h
    obtain ⟨la, ha, rfl⟩ := h
    have h1 := ok.lt ha
    have h2 := fun m (hm : DSim s.env d m) => hm.C a la ha
    have h3 := fun m (hm : DSim s.env d m) => hm.Q a la ha
    cases f <;> simp only [Acc.opD] <;> apply MonOk.rec1 ok h0 ha <;> mon
  case accA f a b =>
    simp only [Option.bind_eq_some_iff, Option.map_eq_some_iff] at h
    obtain ⟨la, ha, lb, hb, rfl⟩ := h
    have h1 := ok.lt ha
    have h2 := ok.lt hb
    have h3 := fun m => rd (m := m) hb hd
    have h4 := fun m (hm : DSim s.env d m) => hm.Q a la ha
    cases f <;> simp only [Acc.opA] <;> apply MonOk.rec1 ok h0 ha <;> mon
  case accR n a t =>
    split at h
    · rename_i hat
      simp only [Option.bind_eq_some_iff, Option.map_eq_some_iff] at h
      obtain ⟨la, ha, lt, ht, h⟩ := h
      have h1 := ok.lt ha
      have h2 := ok.lt ht
      have h3 := fun m => rd (m := m) ht hd
      have h4 := fun m (hm : DSim s.env d m) => hm.Q a la ha
      have plain : MonOk tr0 ((s.rec1 cfg ((if n then Acc.minus else Acc.plus).opA lt la) la
          (if n then s.V la - s.V lt else s.V la + s.V lt)).free t lt)
          ⟨d.C \ {a, t}, d.Q \ {t}⟩ := by
        have : MonOk tr0 (s.rec1 cfg ((if n then Acc.minus else Acc.plus).opA lt la) la
          (if n then s.V la - s.V lt else s.V la + s.V lt)) ⟨d.C \ {a}, d.Q⟩ := by
          cases n <;> simp only [Acc.opA, if_true, if_false, Bool.false_eq_true] <;>
            apply MonOk.rec1 ok h0 ha <;> mon
        refine this.same rfl rfl fun m hm => ?_
        have := hm.drop t
        refine ⟨fun i k hi hc => this.C i k hi ?_, this.Q⟩
        simp at hc ⊢; tauto
      split at h
      · rename_i p q r tr' htr
        split at h
        · rename_i hc
          obtain ⟨_, hr, hq, hp⟩ := hc
          subst hr
          obtain ⟨body, g1, g2, g3⟩ := h0.tr
          have key : ∀ V stk, MonOk tr0 ({ s with V := V, stk := stk, tr := (if n then
              Base.eqMinProd p q la else .eqPlusProd p q la) :: tr' }.free t lt)
              ⟨d.C \ {a, t}, d.Q \ {t}⟩ := by
            intro V stk
            cases body with
            | nil => simp only [List.nil_append] at g1; exact absurd (g1 ▸ htr) (htr0 _ _ _ _)
            | cons o bd =>
              rw [htr] at g1
              simp only [List.cons_append, List.cons.injEq] at g1
              obtain ⟨rfl, rfl⟩ := g1
              rw [List.reverse_cons, Mon.Ok.append] at g2
              rw [List.reverse_cons, Mon.run, List.foldl_append] at g3
              obtain ⟨g2, ⟨b1, b2, b3, b4⟩, _⟩ := g2
              simp only [List.foldl_cons, List.foldl_nil] at g3
              refine ⟨_ :: bd, by simp [Rec.free]; rfl, ?_, ?_⟩
              · rw [List.reverse_cons, Mon.Ok.append]
                refine ⟨g2, ?_, trivial⟩
                simp only [Base.bounded, Base.reads, Set.mem_insert_iff, Set.mem_singleton_iff,
                  forall_eq_or_imp, forall_eq] at b1 b4
                cases n <;> simp [Base.okM, Base.bounded, Base.okT, Base.zeroTan, Base.reads, Rec.free, *,
                  Ne.symm hp, Ne.symm hq]
              · rw [List.reverse_cons, Mon.run, List.foldl_append]
                simp only [List.foldl_cons, List.foldl_nil]
                have e1 := g3.C
                have e2 := g3.Q
                simp only [Mon.step, Base.tanStep, Base.kills, Base.zeroAdj, Set.mem_diff, Set.union_empty,
                  Set.mem_singleton_iff] at e1 e2
                refine ⟨fun i k hi hc => ?_, fun i k hi hk => ?_⟩
                · simp only [Rec.free, upd_apply] at hi
                  split at hi
                  · cases hi
                  · simp only [Set.mem_diff, Set.mem_insert_iff, Set.mem_singleton_iff, not_or] at hc
                    have := e1 i k hi hc.1
                    have hne : k ≠ la := fun hk => hc.2.1 (ok.inj i a la (hk ▸ hi) ha)
                    cases n
                    · exact ⟨this.1, hne⟩
                    · exact ⟨this.1, hne⟩
                · simp only [Rec.free, upd_apply] at hi
                  split at hi
                  · cases hi
                  · rename_i hit
                    refine ⟨e2 i k hi ?_, hit⟩
                    have hne : k ≠ lt := fun hk => hit (ok.inj i t lt (hk ▸ hi) ht)
                    refine ⟨?_, hne⟩
                    cases n
                    · rcases hk with hk | hk
                      · exact hk.1
                      · exact hk.elim
                    · rcases hk with hk | hk
                      · exact hk.1
                      · exact hk.elim
          cases hk : cfg.keep
          · simp only [hk, Rec.val] at h
            rw [← h]; exact key _ _
          · simp only [hk, Rec.val, if_true] at h
            cases hst : s.stk with
            | nil => simp only [hst] at h; rw [← h]; exact key _ _
            | cons y st => simp only [hst] at h; rw [← h]; exact key _ _
        · rw [← h]; exact plain
      · rw [← h]; exact plain
    · cases h
  case incr a =>
    simp only [Option.map_eq_some_iff] at h
    obtain ⟨la, ha, rfl⟩ := h
    have h1 := ok.lt ha
    have h2 := fun m (hm : DSim s.env d m) => hm.C a la ha
    have h3 := fun m (hm : DSim s.env d m) => hm.Q a la ha
    apply MonOk.rec1 ok h0 ha <;> mon
  case decr a =>
    simp only [Option.map_eq_some_iff] at h
    obtain ⟨la, ha, rfl⟩ := h
    have h1 := ok.lt ha
    have h2 := fun m (hm : DSim s.env d m) => hm.C a la ha
    have h3 := fun m (hm : DSim s.env d m) => hm.Q a la ha
    apply MonOk.rec1 ok h0 ha <;> mon
  case indep a =>
    simp only [Option.map_eq_some_iff] at h
    obtain ⟨la, ha, rfl⟩ := h
    have h1 := ok.lt ha
    have h2 := fun m (hm : DSim s.env d m) => hm.C a la ha hd
    have h3 := fun m (hm : DSim s.env d m) => hm.Q a la ha
    refine MonOk.same (s := s.rec1 cfg (.assignInd la) la (cfg.x s.ii)) ?_ rfl rfl fun m hm => hm
    apply MonOk.rec1 ok h0 ha <;> mon
  case dep a =>
    simp only [Option.map_eq_some_iff] at h
    obtain ⟨la, ha, rfl⟩ := h
    have h1 := ok.lt ha
    have h3 := fun m => rd (m := m) ha hd
    refine h0.snoc rfl le_rfl fun m hm => ⟨by simp [Base.okM, Base.bounded, Base.okT, Base.zeroTan,
      Base.reads, Rec.put, *], ?_⟩
    have h4 := fun m (hm : DSim s.env d m) => hm.C a la ha
    apply hm.upd1 ok.inj ha <;> mon
  case un f a b =>
    simp only [Option.bind_eq_some_iff, Option.map_eq_some_iff] at h
    obtain ⟨lb, hb, la, ha, rfl⟩ := h
    have h1 := ok.lt ha
    have h2 := ok.lt hb
    have h3 := fun m => rd (m := m) ha hd
    cases f <;> simp only [Un.op, opPlusD, opMinD, opMultD] <;> try (apply MonOk.rec1 ok h0 hb <;> mon)
    all_goals split
    all_goals try (apply MonOk.rec1 ok h0 hb <;> mon)
    all_goals split
    all_goals (apply MonOk.rec1 ok h0 hb <;> mon)
  case bin f lv a b r =>
    simp only [Option.bind_eq_some_iff, Option.map_eq_some_iff] at h
    obtain ⟨lr, hr, la, ha, lb, hb, rfl⟩ := h
    have h1 := ok.lt ha
    have h2 := ok.lt hb
    have h3 := ok.lt hr
    have h4 := fun m => rd (m := m) ha hd.1
    have h5 := fun m => rd (m := m) hb hd.2
    cases f <;> simp only [Bin.op] <;> apply MonOk.rec1 ok h0 hr <;> mon
  case trig co a b r =>
    split at h
    · rename_i hab
      simp only [Option.bind_eq_some_iff, Option.map_eq_some_iff] at h
      obtain ⟨lr, hr, lb, hb, la, ha, rfl⟩ := h
      have h1 := ok.lt ha
      have h2 := ok.lt hb
      have h3 := ok.lt hr
      have h4 := fun m => rd (m := m) ha hd
      have h5 : la ≠ lb := fun hl => hab.1 (ok.inj a b la ha (hl ▸ hb))
      have h6 : lb ≠ lr := fun hl => hab.2 (ok.inj b r lb hb (hl ▸ hr))
      refine h0.snoc (o := if co then .cosOp la lb lr else .sinOp la lb lr) rfl le_rfl fun m hm =>
        ⟨?_, ⟨fun i k hi hc => ?_, fun i k hi hk => ?_⟩⟩
      · cases co <;> simp [Base.okM, Base.bounded, Base.okT, Base.zeroTan, Base.reads, Rec.put,
          Rec.val, Rec.keepT, h1, h2, h3, h4 m hm, h5, h6]
      · simp only [Stmt.discNext, Set.mem_diff, Set.mem_insert_iff, Set.mem_singleton_iff, not_or] at hc
        have e1 := hm.C i k hi hc.1
        have e2 : k ≠ lb := fun hk => hc.2.1 (ok.inj i b lb (hk ▸ hi) hb)
        have e3 : k ≠ lr := fun hk => hc.2.2 (ok.inj i r lr (hk ▸ hi) hr)
        cases co <;> simp [Mon.step, Base.tanStep, e1, e2, e3]
      · have hk' : k = lb ∨ (k ∈ m.D ∧ k ≠ lr) := by
          cases co <;> simp [Mon.step, Base.kills, Base.zeroAdj] at hk <;> tauto
        simp only [Stmt.discNext, Set.mem_diff, Set.mem_insert_iff, Set.mem_singleton_iff]
        rcases hk' with rfl | ⟨e1, e2⟩
        · exact .inl (ok.inj i b k hi hb)
        · refine .inr ⟨hm.Q i k hi e1, fun hir => e2 ?_⟩
          subst hir
          have hi' : s.env i = some k := hi
          rw [hr] at hi'; cases hi'; rfl
    · cases h
  case quad q a b r =>
    split at h
    · rename_i hab
      simp only [Option.bind_eq_some_iff, Option.map_eq_some_iff] at h
      obtain ⟨lr, hr, lb, hb, la, ha, rfl⟩ := h
      have h1 := ok.lt ha
      have h2 := ok.lt hb
      have h3 := ok.lt hr
      have h4 := fun m => rd (m := m) ha hd
      have h6 : lb ≠ lr := fun hl => hab (ok.inj b r lb hb (hl ▸ hr))
      apply MonOk.rec1 ok h0 hr <;> mon
    · cases h
  case cond r c a b =>
    simp only [Option.bind_eq_some_iff, Option.map_eq_some_iff] at h
    obtain ⟨lr, hr, lc, hc, la, ha, lb, hb, rfl⟩ := h
    have h1 := ok.lt ha
    have h2 := ok.lt hb
    have h3 := ok.lt hr
    have h6 := ok.lt hc
    have h4 := fun m => rd (m := m) ha hd.1
    have h5 := fun m => rd (m := m) hb hd.2
    have h7 := fun m (hm : DSim s.env d m) => hm.Q r lr hr
    apply MonOk.rec1 ok h0 hr <;> mon
  case condEq r c a b =>
    simp only [Option.bind_eq_some_iff, Option.map_eq_some_iff] at h
    obtain ⟨lr, hr, lc, hc, la, ha, lb, hb, rfl⟩ := h
    have h1 := ok.lt ha
    have h2 := ok.lt hb
    have h3 := ok.lt hr
    have h6 := ok.lt hc
    have h4 := fun m => rd (m := m) ha hd.1
    have h5 := fun m => rd (m := m) hb hd.2
    have h7 := fun m (hm : DSim s.env d m) => hm.Q r lr hr
    apply MonOk.rec1 ok h0 hr <;> mon
  case condS r c a =>
    simp only [Option.bind_eq_some_iff, Option.map_eq_some_iff] at h
    obtain ⟨lr, hr, lc, hc, la, ha, rfl⟩ := h
    have h1 := ok.lt ha
    have h3 := ok.lt hr
    have h6 := ok.lt hc
    have h4 := fun m => rd (m := m) ha hd
    have h7 := fun m (hm : DSim s.env d m) => hm.Q r lr hr
    apply MonOk.rec1 ok h0 hr <;> mon
  case condEqS r c a =>
    simp only [Option.bind_eq_some_iff, Option.map_eq_some_iff] at h
    obtain ⟨lr, hr, lc, hc, la, ha, rfl⟩ := h
    have h1 := ok.lt ha
    have h3 := ok.lt hr
    have h6 := ok.lt hc
    have h4 := fun m => rd (m := m) ha hd
    have h7 := fun m (hm : DSim s.env d m) => hm.Q r lr hr
    apply MonOk.rec1 ok h0 hr <;> mon

/-- The monitor accepts the trace of a disciplined program. -/
theorem Prog.wf {tr0 : List (Base K)} {cfg : RCfg K} (hal : ∀ k L, cfg.alloc k L ∉ L) (p : Prog K)
    {s s' : Rec K} {d : Disc} (ok : s.Ok) (hm : MonOk tr0 s d) (hd : p.disc d)
    (htr0 : ∀ p q r l, tr0 ≠ .multAA p q r :: l)
    (h : p.record cfg s = some s') : s'.Ok ∧ ∃ d', MonOk tr0 s' d' := by
  induction p generalizing s d with
  | done => cases h; exact ⟨ok, d, hm⟩
  | stmt st k ih =>
    simp only [Prog.record, Option.bind_eq_some_iff] at h
    obtain ⟨s1, h1, h2⟩ := h
    exact ih (record_ok hal ok h1) (disc_step hal ok hm hd.1 htr0 h1) hd.2 h2
  | branch q a t f iht ihf =>
    simp only [Prog.record, Option.bind_eq_some_iff] at h
    obtain ⟨la, ha, h⟩ := h
    have hl := ok.lt ha
    have hm' : MonOk tr0 (s.put (.cmp (q.recorded (q.holds (s.V la))) la)) d :=
      hm.snoc rfl le_rfl fun m hm => ⟨by simp [Base.okM, Base.bounded, Base.okT, Base.zeroTan,
        Base.reads, Rec.put, hl], by simpa [Mon.step, Base.tanStep, Base.kills, Base.zeroAdj, Rec.put]⟩
    have ok' : (s.put (.cmp (q.recorded (q.holds (s.V la))) la)).Ok := ok.same rfl rfl rfl
    split at h
    · exact iht ok' hm' hd.1 h
    · exact ihf ok' hm' hd.2 h

end Verif.AD
