import Verif.Sparse.FwdTight
import Verif.Sparse.RevDriver
/-!
# Bit pattern propagation with the user's seeds (`sparse/sparse_fo_rev.h`)

`ADOLC::Sparse::forward<Safe | Tight>`, `ADOLC::Sparse::reverse<Safe | Tight>`: the seeds are the user's, not those of
`jac_pat`.  Simplification: a sweep that ends early (`setRef`, branch switch, empty value stack) is an error.  The entry points
with a `mode` argument (src/sparse/sparse_fo_rev.cpp) are declared in the header but their file is not in the build
(src/sparse/CMakeLists.txt), so they are not modelled.
-/
set_option linter.all false
namespace Verif.Sparse
open Verif.AD Elem

variable {K : Type}

/-- `forward<Safe>(tag, m, n, p, [x,] X, [y,] Y)` (sparse_fo_rev.h:73-87, 116-125) = `int_forward_safe` (uni5_for.cpp:589): the return
code (`ret_c = 3`, uni5_for.cpp:837; no operation lowers it in safe mode) and `Y`. -/
def bitForwardSafe (p : Nat) (X : Nat → Nat → Word) (ops : List (Base K)) : Except BErr (Int × List (Nat → Word)) :=
  match safeRun p X ops BS.init with
  | .error e => .error e
  | .ok s => .ok (3, s.Y)

/-- How `forward<Tight>` can fail. -/
inductive BFErr where
  /-- `SPARSE_NO_BP` is thrown (sparse_fo_rev.h:80-81) -/
  | noBasePoint
  /-- `int_forward_tight` ends early -/
  | sweep (e : FTErr)
  deriving DecidableEq, Repr

/-- `forward<Tight>(tag, m, n, p, x, X, y, Y)` (sparse_fo_rev.h:73-87) = `int_forward_tight`: the return code, `y` and `Y`; `x` is
`none` for a null pointer, `G` the memory behind the recorded values (`stream`). -/
def bitForwardTight [Scalar K] (p : Nat) (X : Nat → Nat → Word) (x : Option (Nat → K)) (par : Nat → K) (G : Nat → K)
    (ops : List (Base K)) : Except BFErr (Int × List K × List (Nat → Word)) :=
  match x with
  | none => .error .noBasePoint
  | some x =>
    match fwdTightRun p X ⟨x, par, false⟩ (stream ops G) ops TFS.init with
    | .error e => .error (.sweep e)
    | .ok s => .ok (s.z.rc, s.z.y, s.b.Y)

/-- `reverse<Safe>(tag, m, n, q, U, Z)` (sparse_fo_rev.h:160-172) = `int_reverse_safe` (fo_rev.cpp:290): the return code
(fo_rev.cpp:306) and `Z`; `R0` is what `Z` contained before. -/
def bitReverseSafe (q m n : Nat) (U R0 : Nat → Nat → Word) (ops : List (Base K)) : Except BErr (Int × (Nat → Nat → Word)) :=
  match revSafeRun q U ops (RBS.init n m R0) with
  | .error e => .error e
  | .ok s => .ok (3, s.R)

/-- `reverse<Tight>(tag, m, n, q, U, Z)` (sparse_fo_rev.h:160-172) = `int_reverse_tight`; `stk` is the value stack of the last forward
sweep with keep.  Simplification: the return code is not modelled. -/
def bitReverseTight [Scalar K] (q m n : Nat) (U R0 : Nat → Nat → Word) (stk : List K) (ops : List (Base K)) :
    Except RStop (Nat → Nat → Word) :=
  match revTightRun q U ops (TRS.init n m R0 stk) with
  | .error e => .error e
  | .ok s => .ok s.b.R

/-! ## No spurious bits in the reverse direction -/

/-- Bit `b` is set nowhere. -/
def NB (b : Nat) (u : Nat → Word) : Prop := ∀ a, (u a).getLsbD b = false

theorem NB.clr {b : Nat} {u : Nat → Word} (h : NB b u) (r : Nat) : NB b (bClr r u) := by
  intro x
  unfold bClr
  rw [upd_apply]
  split_ifs
  · simp
  · exact h x

theorem NB.set {b : Nat} {u : Nat → Word} (h : NB b u) (r : Nat) {w : Word} (hw : w.getLsbD b = false) : NB b (upd u r w) := by
  intro x
  rw [upd_apply]
  split_ifs
  · exact hw
  · exact h x

theorem NB.or {b : Nat} {u : Nat → Word} (h : NB b u) (a r : Nat) : NB b (bOr a r u) :=
  h.set a (by rw [BitVec.getLsbD_or, h a, h r]; rfl)

theorem NB.mv {b : Nat} {u : Nat → Word} (h : NB b u) (a r : Nat) : NB b (bMv a r u) := (h.or a r).clr r

theorem NB.un {b : Nat} {u : Nat → Word} (h : NB b u) (a r : Nat) : NB b (bUn a r u) := by
  have h1 : NB b (upd u r 0) := h.clr r
  exact h1.set a (by rw [BitVec.getLsbD_or, h1 a, h r]; rfl)

theorem NB.bin {b : Nat} {u : Nat → Word} (h : NB b u) (a c r : Nat) : NB b (bBin a c r u) := by
  have h1 : NB b (upd u r 0) := h.clr r
  have h2 : NB b (upd (upd u r 0) a (upd u r 0 a ||| u r)) := h1.set a (by rw [BitVec.getLsbD_or, h1 a, h r]; rfl)
  exact h2.set c (by rw [BitVec.getLsbD_or, h2 c, h r]; rfl)

/-- Bit `b` of word `l` is set neither in the patterns nor in the part of `Z` that has been written; `k` independents are still to come. -/
structure RNoBit (n l b k : Nat) (s : RBS) : Prop where
  A : NB b (s.A l)
  ii : s.ii = k
  out : ∀ i, k ≤ i → i < n → (s.R l i).getLsbD b = false

theorem RNoBit.loop {n p l b k : Nat} {s : RBS} (h : RNoBit n l b k s) {g : (Nat → Word) → Nat → Word}
    (hg : ∀ u, NB b u → NB b (g u)) : RNoBit n l b k (s.loop p g) := by
  refine ⟨?_, h.ii, h.out⟩
  simp only [RBS.loop]
  split_ifs
  · exact hg _ h.A
  · exact h.A

theorem RNoBit.foldl {n p l b k : Nat} {g : Nat → (Nat → Word) → Nat → Word} (J : List Nat)
    (hg : ∀ q u, NB b u → NB b (g q u)) {s : RBS} (h : RNoBit n l b k s) :
    RNoBit n l b k (J.foldl (fun s q => s.loop p (g q)) s) := by
  induction J generalizing s with
  | nil => exact h
  | cons q J ih => exact ih (h.loop (hg q))

theorem rnoBit_ind {n p l b k : Nat} {s : RBS} (hl : l < p) (h : RNoBit n l b k s) (r : Nat) :
    RNoBit n l b (k - 1) { s with R := fun l => if l < p then upd (s.R l) (s.ii - 1) (s.A l r) else s.R l, ii := s.ii - 1 } := by
  refine ⟨h.A, by simp only [h.ii], fun i h1 h2 => ?_⟩
  simp only [hl, if_true, upd_apply, h.ii]
  split_ifs with hi
  · exact h.A r
  · exact h.out i (by omega) h2

theorem rnoBit_dep {n p l b k : Nat} {s : RBS} {U : Nat → Nat → Word} (hU : ∀ j, (U l j).getLsbD b = false)
    (h : RNoBit n l b k s) (r : Nat) :
    RNoBit n l b k { s with A := fun l => if l < p then upd (s.A l) r (U l (s.di - 1)) else s.A l, di := s.di - 1 } := by
  refine ⟨?_, h.ii, h.out⟩
  simp only []
  split_ifs
  · exact h.A.set r (hU _)
  · exact h.A

section irr
attribute [local irreducible] bClr bOr bMv bUn bBin RBS.loop

theorem rnoBit_step {n p l b k : Nat} (hl : l < p) {U : Nat → Nat → Word} (hU : ∀ j, (U l j).getLsbD b = false) {o : Base K}
    (ho : Base.revOk o) {s s' : RBS} (h : RNoBit n l b k s) (hs : revSafeStep p U o s = .ok s') :
    RNoBit n l b (k - o.nInd) s' := by
  cases o
  all_goals simp only [revSafeStep, Except.ok.injEq, reduceCtorEq] at hs
  all_goals try subst hs
  all_goals try simp only [Base.nInd, Nat.sub_zero]
  case assignInd r => exact rnoBit_ind hl h r
  case assignDep r => exact rnoBit_dep hU h r
  case condAssign a a1 a2 r v =>
    have h1 : RNoBit n l b k (if r ≠ a1 then s.loop p (bOr a1 r) else s) := by
      by_cases hc : r ≠ a1
      · rw [if_pos hc]; exact h.loop fun u hu => hu.or a1 r
      · rw [if_neg hc]; exact h
    have h2 : ∀ t, RNoBit n l b k t → RNoBit n l b k (if r ≠ a2 then t.loop p (bOr a2 r) else t) := by
      intro t ht
      by_cases hc : r ≠ a2
      · rw [if_pos hc]; exact ht.loop fun u hu => hu.or a2 r
      · rw [if_neg hc]; exact ht
    have h3 : ∀ t, RNoBit n l b k t → RNoBit n l b k (if r ≠ a1 ∧ r ≠ a2 then t.loop p (bClr r) else t) := by
      intro t ht
      by_cases hc : r ≠ a1 ∧ r ≠ a2
      · rw [if_pos hc]; exact ht.loop fun u hu => hu.clr r
      · rw [if_neg hc]; exact ht
    exact h3 _ (h2 _ h1)
  case condEqAssign a a1 a2 r v =>
    have h1 : RNoBit n l b k (if r ≠ a1 then s.loop p (bOr a1 r) else s) := by
      by_cases hc : r ≠ a1
      · rw [if_pos hc]; exact h.loop fun u hu => hu.or a1 r
      · rw [if_neg hc]; exact h
    have h2 : ∀ t, RNoBit n l b k t → RNoBit n l b k (if r ≠ a2 then t.loop p (bOr a2 r) else t) := by
      intro t ht
      by_cases hc : r ≠ a2
      · rw [if_pos hc]; exact ht.loop fun u hu => hu.or a2 r
      · rw [if_neg hc]; exact ht
    have h3 : ∀ t, RNoBit n l b k t → RNoBit n l b k (if r ≠ a1 ∧ r ≠ a2 then t.loop p (bClr r) else t) := by
      intro t ht
      by_cases hc : r ≠ a1 ∧ r ≠ a2
      · rw [if_pos hc]; exact ht.loop fun u hu => hu.clr r
      · rw [if_neg hc]; exact ht
    exact h3 _ (h2 _ h1)
  case condAssignS => exact ho.elim
  case condEqAssignS => exact ho.elim
  case vecCopy a n r => exact RNoBit.foldl _ (fun q u hu => hu.mv (a + q) (r + q)) h
  case vecDot a c n r => exact RNoBit.foldl _ (fun q u hu => (hu.or (c + q) r).or (a + q) r) h
  case vecAxpy a a1 a2 n r =>
    exact RNoBit.foldl _ (fun q u hu => ((hu.or a (r + q)).or (a2 + q) (r + q)).or (a1 + q) (r + q)) h
  case takeStock r vs => exact RNoBit.foldl _ (fun q u hu => hu.clr (r + vs.length - 1 - q)) h
  case deathNot a c => exact RNoBit.foldl _ (fun q u hu => hu.clr (a + q)) h
  all_goals first
    | exact h
    | exact h.loop fun u hu => hu.mv _ _
    | exact h.loop fun u hu => hu.clr _
    | exact h.loop fun u hu => hu.or _ _
    | exact h.loop fun u hu => hu.bin _ _ _
    | exact h.loop fun u hu => hu.un _ _
    | exact h.loop fun u hu => (hu.or _ _).or _ _

end irr

theorem rnoBit_run {n p l b k : Nat} (hl : l < p) {U : Nat → Nat → Word} (hU : ∀ j, (U l j).getLsbD b = false) {ops : List (Base K)}
    (ho : ∀ o ∈ ops, Base.revOk o) {s s' : RBS} (h : RNoBit n l b k s) (hs : revSafeRun p U ops s = .ok s') :
    RNoBit n l b (k - numInd ops) s' := by
  induction ops generalizing s' with
  | nil => cases hs; exact h
  | cons o os ih =>
    simp only [revSafeRun] at hs
    split at hs
    · cases hs
    rename_i s1 h1
    have h2 := rnoBit_step hl hU (ho o (by simp)) (ih (fun o ho' => ho o (List.mem_cons_of_mem _ ho')) h1) hs
    have : k - numInd (o :: os) = k - numInd os - o.nInd := by simp only [numInd, List.map_cons, List.sum_cons]; omega
    rw [this]; exact h2

section tight
variable [Scalar K]

theorem RNoBit.pops {n p l b k : Nat} {g : Nat → (Nat → Word) → Nat → Word} {f : Nat → Nat} (J : List Nat)
    (hg : ∀ q u, NB b u → NB b (g q u)) {s s' : TRS K} (h : RNoBit n l b k s.b)
    (hs : J.foldlM (fun s q => (TRS.loop p (g q) s).pop (f q)) s = .ok s') : RNoBit n l b k s'.b := by
  induction J generalizing s with
  | nil => cases hs; exact h
  | cons q J ih =>
    rw [List.foldlM_cons] at hs
    cases h1 : (TRS.loop p (g q) s).pop (f q) with
    | error e => rw [h1] at hs; cases hs
    | ok s1 => rw [h1] at hs; exact ih (by rw [TRS.pop_b h1]; exact h.loop (hg q)) hs

theorem RNoBit.tloop {n p l b k : Nat} {t : TRS K} {g : (Nat → Word) → Nat → Word} (ht : RNoBit n l b k t.b)
    (hg : ∀ u, NB b u → NB b (g u)) : RNoBit n l b k (t.loop p g).b := ht.loop hg

theorem RNoBit.tpop {n l b k : Nat} {t t' : TRS K} {r : Nat} (ht : RNoBit n l b k t.b) (hp : t.pop r = .ok t') :
    RNoBit n l b k t'.b := by rw [TRS.pop_b hp]; exact ht

section irr
attribute [local irreducible] bClr bOr bMv bUn bBin TRS.loop TRS.pop

theorem trnoBit_step {n p l b k : Nat} (hl : l < p) {U : Nat → Nat → Word} (hU : ∀ j, (U l j).getLsbD b = false) {o : Base K}
    {s s' : TRS K} (h : RNoBit n l b k s.b) (hs : revTightStep p U o s = .ok s') :
    RNoBit n l b (k - o.nInd) s'.b := by
  cases o
  all_goals simp only [revTightStep] at hs
  all_goals try simp only [Base.nInd, Nat.sub_zero]
  case assignInd r => exact RNoBit.tpop (t := { s with b := { s.b with R := fun l => if l < p then upd (s.b.R l) (s.b.ii - 1) (s.b.A l r) else s.b.R l, ii := s.b.ii - 1 } }) (rnoBit_ind hl h r) hs
  case assignDep r => cases hs; exact rnoBit_dep hU h r
  case vecCopy a n r => exact RNoBit.pops _ (fun q u hu => hu.mv (a + q) (r + q)) h hs
  case vecDot a c n r =>
    refine RNoBit.tpop ?_ hs
    rw [TRS.foldl_b]
    exact RNoBit.foldl _ (fun q u hu => (hu.or (c + q) r).or (a + q) r) h
  case vecAxpy a a1 a2 n r =>
    exact RNoBit.pops _ (fun q u hu => ((hu.or a (r + q)).or (a2 + q) (r + q)).or (a1 + q) (r + q)) h hs
  case takeStock r vs =>
    cases hs
    rw [TRS.foldl_b]
    exact RNoBit.foldl _ (fun q u hu => hu.clr (r + vs.length - 1 - q)) h
  case deathNot a c =>
    rw [TRS.pops_b _ hs, TRS.foldl_b]
    exact RNoBit.foldl _ (fun q u hu => hu.clr (a + q)) h
  all_goals (repeat' split at hs)
  all_goals try (cases hs; done)
  all_goals first
    | (have e := Except.ok.inj hs; subst e)
    | refine RNoBit.tpop ?_ hs
  all_goals try refine RNoBit.tloop ?_ (fun u hu => ?_)
  all_goals try exact h
  all_goals first
    | exact hu.mv _ _
    | exact hu.clr _
    | exact hu.or _ _
    | exact hu.un _ _
    | exact hu.bin _ _ _
    | exact (hu.or _ _).or _ _
    | exact RNoBit.tloop h (fun u hu => (hu.or _ _).or _ _)
    | skip
  all_goals refine RNoBit.tpop ?_ (by assumption)
  all_goals first
    | exact h
    | exact RNoBit.tloop h (fun u hu => hu.un _ _)

end irr

theorem trnoBit_run {n p l b k : Nat} (hl : l < p) {U : Nat → Nat → Word} (hU : ∀ j, (U l j).getLsbD b = false) {ops : List (Base K)}
    {s s' : TRS K} (h : RNoBit n l b k s.b) (hs : revTightRun p U ops s = .ok s') :
    RNoBit n l b (k - numInd ops) s'.b := by
  induction ops generalizing s' with
  | nil => cases hs; exact h
  | cons o os ih =>
    simp only [revTightRun] at hs
    split at hs
    · cases hs
    rename_i s1 h1
    have h2 := trnoBit_step hl hU (ih h1) hs
    have : k - numInd (o :: os) = k - numInd os - o.nInd := by simp only [numInd, List.map_cons, List.sum_cons]; omega
    rw [this]; exact h2

end tight
end Verif.Sparse
