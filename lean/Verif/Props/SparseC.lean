import Verif.Sparse.SparseC
import Verif.Props.SparseHessDrv
/-!
# C60: the C interface of the sparse drivers

Reading guide: `o i` is `options[i]`; `CArgs` holds what the caller's pointers `nnz`, `rind`, `cind`, `values` designate and which blocks
have been deleted; `J` is what the tape keeps between calls; `next`, `next + 1`, `next + 2` are the identities of the blocks
the next three `new[]` return.
-/
set_option linter.all false
noncomputable section
namespace Verif.Props.SparseC
open Verif.AD Verif.Sparse Verif.Props.AD Verif.Props.Sparse Verif.Props.Drivers Verif.Drivers Verif.Props.SparseJac Verif.Props.SparseHess Filter Topology ContDiff

/-- The meaning of the option array of `jac_pat` and `sparse_jac`: index domains unless `o 0 = 1`, safe unless `o 1 = 1`, direction
of bit patterns from `o 2`. -/
inductive JacOpt (o : ℕ → ℤ) : Method → Prop
  | index (tight : Bool) : o 0 ≠ 1 → (tight = true ↔ o 1 = 1) → JacOpt o (.index tight)
  | bits (tight : Bool) (dir : Dir) : o 0 = 1 → (tight = true ↔ o 1 = 1) → (dir = .forward ↔ o 2 = 1) → (dir = .reverse ↔ o 2 = 2) →
      JacOpt o (.bits tight dir)

/-- The meaning of the option array of `hess_pat` and `sparse_hess`. -/
inductive HessOpt (o : ℕ → ℤ) : HMode → Prop
  | tight : o 0 = 1 → HessOpt o .tight
  | oldSafe : o 0 = 2 → HessOpt o .oldSafe
  | oldTight : o 0 = 3 → HessOpt o .oldTight
  | safe : o 0 ≠ 1 → o 0 ≠ 2 → o 0 ≠ 3 → HessOpt o .safe

theorem dispatch_spec (o : ℕ → ℤ) : JacOpt o (dispatchJac o).1 ∧ ((dispatchJac o).2 = .row ↔ o 3 = 1) := by
  unfold dispatchJac parseSM parseJacCFM parseBPPD parseCM
  by_cases h0 : o 0 = 1 <;> by_cases h1 : o 1 = 1 <;> by_cases h3 : o 3 = 1 <;>
    by_cases h2 : o 2 = 1 <;> by_cases h2' : o 2 = 2 <;> simp [h0, h1, h2, h2', h3] <;>
    first
    | exact .index _ h0 (by simp [h1])
    | exact .bits _ _ h0 (by simp [h1]) (by simp [h2, h2']) (by simp [h2, h2'])

/-- Every option array selects exactly one method. -/
theorem jacOpt_unique {o : ℕ → ℤ} {m m' : Method} (h : JacOpt o m) (h' : JacOpt o m') : m = m' := by
  cases h with
  | index t a b =>
    cases h' with
    | index t' a' b' =>
      congr 1; rw [Bool.eq_iff_iff, b, b']
    | bits t' d' a' => exact absurd a' a
  | bits t d a b c e =>
    cases h' with
    | index t' a' b' => exact absurd a a'
    | bits t' d' a' b' c' e' =>
      have : t = t' := by rw [Bool.eq_iff_iff, b, b']
      subst this
      congr 1
      cases d <;> cases d' <;> simp_all

/-- `jac_pat` of the C interface computes the pattern with the method the options stand for, and `hess_pat` with the control
flow mode. -/
theorem C60_patterns (o : ℕ → ℤ) (t : Tape ℝ) (x : ℕ → ℝ) :
    (∀ q m, JacOpt o m → jacPatC o t x q = jacPat m t x q) ∧ (∀ m, HessOpt o m → hessPatC o t x = hessPat m t x) := by
  refine ⟨fun q m hm => ?_, fun m hm => ?_⟩
  · have : jacPatC o t x q = jacPat (dispatchJac o).1 t x q := by
      unfold jacPatC dispatchJac
      split_ifs <;> rfl
    rw [this, jacOpt_unique hm (dispatch_spec o).1]
  · unfold hessPatC parseHessCFM
    cases hm with
    | tight h => simp [h]
    | oldSafe h => simp [h]
    | oldTight h => simp [h]
    | safe h1 h2 h3 => simp [h1, h2, h3]

/-- `sparse_hess` of the C interface is the C++ function with the control flow mode and the recovery method the options stand for, in
every state of the tape and of the caller's arrays (so C53 holds for it). -/
theorem C60_hess (cp : HColPack ℝ) (o : ℕ → ℤ) {cm : HMode} (hm : HessOpt o cm) {md : RMode} (hd : md = .direct ↔ o 1 = 1)
    (t : Tape ℝ) (rep : Bool) (x : ℕ → ℝ) (rrc : ℤ) (J : SH) (nnz : ℤ) (mem : Option (List (Entry ℝ))) :
    sparseHessC cp o t rep x rrc J nnz mem = sparseHess cp cm md t rep x rrc J nnz mem := by
  have hr : parseRM o = md := by
    unfold parseRM
    split_ifs with h
    · exact (hd.2 h).symm
    · cases md
      · exact absurd (hd.1 rfl) h
      · rfl
  have hc : parseHessCFM (o 0) = cm := by
    unfold parseHessCFM
    cases hm with
    | tight h => simp [h]
    | oldSafe h => simp [h]
    | oldTight h => simp [h]
    | safe h1 h2 h3 => simp [h1, h2, h3]
  unfold sparseHessC
  rw [hc, hr]
  cases cm <;> cases md <;> simp

/-- The blocks the caller's three pointers designate. -/
structure Arrays where
  r : Buf ℕ
  c : Buf ℕ
  v : Buf ℝ

/-- The caller's arguments where all pointers are set. -/
def args (nnz : ℤ) (b : Arrays) (del : List ℕ) : CArgs ℝ := ⟨some nnz, .ptr (some b.r), .ptr (some b.c), .ptr (some b.v), del⟩

/-- The first entries of the arrays are those of `E`. -/
def Holds (b : Arrays) (E : List (Entry ℝ)) : Prop :=
  E.map (·.1) <+: b.r.data ∧ E.map (·.2.1) <+: b.c.data ∧ E.map (·.2.2) <+: b.v.data

/-- What a successful call does with the caller's arguments, the Jacobian being `E`.  In place: same blocks, contents replaced at the
front.  Otherwise new blocks of exactly the size needed, and those of the caller's blocks that exist have been deleted. -/
def Delivered (E : List (Entry ℝ)) (next : ℕ) (a a' : CArgs ℝ) : Prop :=
  (∃ b b' : Arrays, ∃ nz del, a = args nz b del ∧ nz = E.length ∧ a' = args E.length b' del ∧
    b'.r.id = b.r.id ∧ b'.c.id = b.c.id ∧ b'.v.id = b.v.id ∧ Holds b' E ∧
    b'.r.data.length = b.r.data.length ∧ b'.c.data.length = b.c.data.length ∧ b'.v.data.length = b.v.data.length ∧
    b'.r.data.drop E.length = b.r.data.drop E.length ∧ b'.c.data.drop E.length = b.c.data.drop E.length ∧
    b'.v.data.drop E.length = b.v.data.drop E.length) ∨
  (¬ (a.user = true ∧ a.nnz = some (E.length : ℤ)) ∧
    a' = args E.length ⟨⟨next, E.map (·.1)⟩, ⟨next + 1, E.map (·.2.1)⟩, ⟨next + 2, E.map (·.2.2)⟩⟩
      (a.deleted ++ a.rind.freed ++ a.cind.freed ++ a.values.freed))

/-- What the caller must pass: no null pointers to pointers; and if all three arrays are there and `*nnz` is the number of entries,
then they have room for them. -/
structure Room (E : List (Entry ℝ)) (a : CArgs ℝ) : Prop where
  nnz : a.nnz ≠ none
  r : a.rind ≠ .null
  c : a.cind ≠ .null
  v : a.values ≠ .null
  room : ∀ b nz del, a = args nz b del → nz = E.length →
    E.length ≤ b.r.data.length ∧ E.length ≤ b.c.data.length ∧ E.length ≤ b.v.data.length

theorem fill_some {α : Type} {b : Buf α} {L : List α} (h : L.length ≤ b.data.length) :
    (PP.ptr (some b)).fill L = some (.ptr (some ⟨b.id, L ++ b.data.drop L.length⟩)) := by
  simp [PP.fill, h]

theorem write_ok {E : List (Entry ℝ)} {a : CArgs ℝ} (h : Room E a) (next : ℕ) :
    ∃ a', writeJac E next a = some a' ∧ Delivered E next a a' := by
  obtain ⟨nnz, r, c, v, del⟩ := a
  obtain ⟨h1, h2, h3, h4, h5⟩ := h
  cases nnz with
  | none => exact absurd rfl h1
  | some nz =>
    by_cases hu : (CArgs.user ⟨some nz, r, c, v, del⟩ : Bool) = true ∧ nz = E.length
    · obtain ⟨hu, hz⟩ := hu
      simp only [CArgs.user, Bool.and_eq_true] at hu
      obtain ⟨⟨u1, u2⟩, u3⟩ := hu
      cases r with
      | null => exact absurd rfl h2
      | ptr r =>
      cases c with
      | null => exact absurd rfl h3
      | ptr c =>
      cases v with
      | null => exact absurd rfl h4
      | ptr v =>
      cases r with
      | none => simp [PP.set] at u1
      | some r =>
      cases c with
      | none => simp [PP.set] at u2
      | some c =>
      cases v with
      | none => simp [PP.set] at u3
      | some v =>
      obtain ⟨l1, l2, l3⟩ := h5 ⟨r, c, v⟩ nz del rfl hz
      simp only at l1 l2 l3
      refine ⟨args E.length ⟨⟨r.id, E.map (·.1) ++ r.data.drop E.length⟩, ⟨c.id, E.map (·.2.1) ++ c.data.drop E.length⟩,
        ⟨v.id, E.map (·.2.2) ++ v.data.drop E.length⟩⟩ del, ?_, .inl ⟨⟨r, c, v⟩, _, nz, del, rfl, hz, rfl, rfl, rfl, rfl, ?_, ?_, ?_, ?_, ?_, ?_, ?_⟩⟩
      · simp only [writeJac, CArgs.user, PP.set, Bool.and_self, true_and, Option.getD_some, hz, if_true, Option.map_some]
        rw [fill_some (by simpa using l1), fill_some (by simpa using l2), fill_some (by simpa using l3)]
        simp [args]
      · exact ⟨List.prefix_append _ _, List.prefix_append _ _, List.prefix_append _ _⟩
      · simp; omega
      · simp; omega
      · simp; omega
      · simp [List.drop_append]
      · simp [List.drop_append]
      · simp [List.drop_append]
    · have hu' : ¬ ((CArgs.user ⟨some nz, r, c, v, del⟩ : Bool) = true ∧ (some nz : Option ℤ).getD 0 = E.length) := hu
      unfold writeJac
      simp only
      rw [if_neg hu']
      cases r with
      | null => exact absurd rfl h2
      | ptr r =>
      cases c with
      | null => exact absurd rfl h3
      | ptr c =>
      cases v with
      | null => exact absurd rfl h4
      | ptr v =>
      refine ⟨_, rfl, .inr ⟨?_, rfl⟩⟩
      rintro ⟨a1, a2⟩
      exact hu ⟨a1, by simpa using a2⟩

variable {cfg : RCfg ℝ} {stock : List (Nat × List ℝ)} {s s' : Rec ℝ} {p : Prog ℝ} {N : Nat}

/-- The C function `sparse_jac` with `repeat = 0`, for all option arrays and in every state of the tape: a nonnegative code and the
sparse Jacobian `E` at `x0`; for every state of the caller's arguments it is delivered, in place or in new arrays.

Partial: as `C52_first_call_partial`. -/
theorem C60_first_call_partial (h : Traced cfg stock s p s' N) (hd : p.disc ⟨Set.univ, ∅⟩) {cp : Colouring} (hcp : cp.Proper)
    (par : ℕ → ℝ) (x0 : Fin (numInd (s'.tape N)) → ℝ) {e0 : SE ℝ} (hspec : p.spec (ext x0) par s.se = some (e0, p.path cfg s))
    (hsm : p.smooth .rev (ext x0) par s.se) (hn0 : 0 < numInd (s'.tape N)) (hm0 : 0 < (s'.tape N).countP isDep)
    (o : ℕ → ℤ) (mth : Method) (ho : JacOpt o mth) (q : Junk ℝ) (hq : 0 ≤ q.rrc)
    (hm : safeMethod p (s'.tape N) mth ∨ tightMethod p stock (s'.tape N) (ext x0) par q.G mth) (J : SJ) :
    ∃ rc J' E, 0 ≤ rc ∧ IsJacobian p s par x0 ((s'.tape N).countP isDep) E ∧
      ∀ next a, Room E a → ∃ a', sparseJacC cp o (theTape s' N par) false (ext x0) q J next a = .ret rc J' a' ∧ Delivered E next a a' := by
  obtain ⟨rc, J', E, r1, r2, r3, _⟩ := C52_first_call_partial h hd hcp par x0 hspec hsm hn0 hm0 mth (dispatchJac o).2 q hq hm J []
  refine ⟨rc, J', E, r1, r2, fun next a ha => ?_⟩
  obtain ⟨a', w1, w2⟩ := write_ok ha next
  refine ⟨a', ?_, w2⟩
  rw [jacOpt_unique ho (dispatch_spec o).1] at r3
  simp only [sparseJacC, r3, w1, if_neg (show ¬ rc < 0 by omega)]

/-- The tape's data after a history of calls of the C function: any points, parameters, options with one compression mode and safe
patterns, any state of the caller's arguments; the flag tells whether one of them had `repeat = 0`. -/
inductive CHistory (cp : Colouring) (cm : CMode) (p : Prog ℝ) (s' : Rec ℝ) (N : ℕ) : SJ → Bool → Prop
  | fresh : CHistory cp cm p s' N SJ.init false
  | call {J b} (o : ℕ → ℤ) (mth : Method) (rep : Bool) (par x : ℕ → ℝ) (q : Junk ℝ) (next : ℕ) (a : CArgs ℝ) {c J' a'} :
      CHistory cp cm p s' N J b → JacOpt o mth → (cm = .row ↔ o 3 = 1) → (rep = false → safeMethod p (s'.tape N) mth) →
      sparseJacC cp o (theTape s' N par) rep x q J next a = .ret c J' a' → CHistory cp cm p s' N J' (b || !rep)

theorem mode_eq {o : ℕ → ℤ} {cm : CMode} (h : cm = .row ↔ o 3 = 1) : (dispatchJac o).2 = cm := by
  have := (dispatch_spec o).2
  cases cm <;> cases hd : (dispatchJac o).2 <;> simp_all

theorem chistory {cp : Colouring} {cm : CMode} {J : SJ} {b : Bool} (h : CHistory cp cm p s' N J b) : History cp cm p s' N J b := by
  induction h with
  | fresh => exact .fresh
  | @call J b o mth rep par x q next a c J' a' _ ho h3 hsafe hc ih =>
    unfold sparseJacC at hc
    rw [mode_eq h3, ← jacOpt_unique ho (dispatch_spec o).1] at hc
    revert hc
    cases hS : sparseJac cp mth cm false (theTape s' N par) rep x q J [] with
    | undef => intro hc; cases hc
    | ret c1 J1 M1 =>
      simp only
      intro hc
      have : J' = J1 := by
        split_ifs at hc
        · cases hc; rfl
        · split at hc
          · cases hc
          · cases hc; rfl
      subst this
      exact .call mth false rep par x q [] ih hsafe hS

/-- After any history of calls of the C function (one compression mode, safe patterns), at a point `x0` of the recorded path with any
parameters: a call with `repeat = 1` before any with `repeat = 0` returns -3 and leaves the caller's arguments alone;
afterwards it returns a nonnegative code and delivers the Jacobian at `x0`, whatever `*nnz` was. -/
theorem C60_history_partial (h : Traced cfg stock s p s' N) (hd : p.disc ⟨Set.univ, ∅⟩) {cp : Colouring} (hcp : cp.Proper)
    (hn0 : 0 < numInd (s'.tape N)) (hm0 : 0 < (s'.tape N).countP isDep) {cm : CMode} {J : SJ} {b : Bool}
    (hh : CHistory cp cm p s' N J b) (par : ℕ → ℝ) (x0 : Fin (numInd (s'.tape N)) → ℝ) {e0 : SE ℝ}
    (hspec : p.spec (ext x0) par s.se = some (e0, p.path cfg s)) (hsm : p.smooth .rev (ext x0) par s.se)
    (o : ℕ → ℤ) (ho : cm = .row ↔ o 3 = 1) (q : Junk ℝ) (hq : 0 ≤ q.rrc) :
    (b = false → ∀ next a, sparseJacC cp o (theTape s' N par) true (ext x0) q J next a = .ret (-3) J a) ∧
    (b = true → ∃ rc E, 0 ≤ rc ∧ IsJacobian p s par x0 ((s'.tape N).countP isDep) E ∧
      ∀ next a, Room E a → ∃ a', sparseJacC cp o (theTape s' N par) true (ext x0) q J next a = .ret rc J a' ∧ Delivered E next a a') := by
  obtain ⟨k1, k2⟩ := C52_history_partial h hd hcp hn0 hm0 (chistory hh) par x0 hspec hsm (dispatchJac o).1 q hq []
  refine ⟨fun hb next a => ?_, fun hb => ?_⟩
  · simp only [sparseJacC, mode_eq ho, k1 hb false]
    rfl
  · obtain ⟨rc, E, r1, r2, r3, _⟩ := k2 hb
    refine ⟨rc, E, r1, r2, fun next a ha => ?_⟩
    obtain ⟨a', w1, w2⟩ := write_ok ha next
    exact ⟨a', by simp only [sparseJacC, mode_eq ho, r3, w1, if_neg (show ¬ rc < 0 by omega)], w2⟩

/-- A call that returns a negative code leaves the caller's number, pointers and arrays as they were: for every tape, point, option
array, state and argument. -/
theorem C60_failure (cp : Colouring) (o : ℕ → ℤ) (t : Tape ℝ) (rep : Bool) (x : ℕ → ℝ) (q : Junk ℝ) (J J' : SJ) (next : ℕ) (a a' : CArgs ℝ)
    {c : ℤ} (hc : c < 0) (h : sparseJacC cp o t rep x q J next a = .ret c J' a') : a' = a := by
  unfold sparseJacC at h
  split at h
  · cases h
  · split_ifs at h with h0
    · cases h; rfl
    · split at h
      · cases h
      · cases h; omega

/-- `nnz` may not be null although the beginning of the function allows for it: unless the Jacobian has no entries and the caller
passes three arrays, a successful call then dereferences it. -/
theorem C60_null_nnz (cp : Colouring) (o : ℕ → ℤ) (t : Tape ℝ) (rep : Bool) (x : ℕ → ℝ) (q : Junk ℝ) (J : SJ) (next : ℕ) (a : CArgs ℝ)
    (ha : a.nnz = none) {c : ℤ} {J' : SJ} {M : List (Entry ℝ)} (hc : 0 ≤ c) (hM : a.user = true → M ≠ [])
    (h : sparseJac cp (dispatchJac o).1 (dispatchJac o).2 false t rep x q J [] = .ret c J' M) :
    sparseJacC cp o t rep x q J next a = .undef := by
  have hw : writeJac M next a = none := by
    unfold writeJac
    simp only [ha, Option.getD_none]
    rw [if_neg]
    · rfl
    · rintro ⟨h1, h2⟩
      have : M.length = 0 := by omega
      exact hM h1 (List.length_eq_zero_iff.1 this)
  simp only [sparseJacC, h, hw, if_neg (show ¬ c < 0 by omega)]

/-! ### The hypotheses can be met -/

/-- A call with arrays of size 2 and `*nnz = 2` for a Jacobian with two entries, one with `*nnz = 7`, and one without arrays. -/
example (del : List ℕ) : let E : List (Entry ℝ) := [(0, 0, 5), (0, 1, 6)]
    let b : Arrays := ⟨⟨10, [7, 7, 7]⟩, ⟨11, [8, 8, 8]⟩, ⟨12, [0, 0, 9]⟩⟩
    Room E (args 2 b del) ∧ writeJac E 20 (args 2 b del) = some (args 2 ⟨⟨10, [0, 0, 7]⟩, ⟨11, [0, 1, 8]⟩, ⟨12, [5, 6, 9]⟩⟩ del) ∧
    writeJac E 20 (args 7 b []) = some (args 2 ⟨⟨20, [0, 0]⟩, ⟨21, [0, 1]⟩, ⟨22, [5, 6]⟩⟩ [10, 11, 12]) ∧
    writeJac E 20 ⟨some 0, .ptr none, .ptr (some b.c), .ptr none, []⟩ = some (args 2 ⟨⟨20, [0, 0]⟩, ⟨21, [0, 1]⟩, ⟨22, [5, 6]⟩⟩ [11]) := by
  intro E b
  refine ⟨⟨by simp [args], by simp [args], by simp [args], by simp [args], ?_⟩, ?_, ?_, ?_⟩
  · intro b' nz del' h hz
    simp only [args, CArgs.mk.injEq, PP.ptr.injEq, Option.some.injEq] at h
    obtain ⟨_, h1, h2, h3, _⟩ := h
    simp [← h1, ← h2, ← h3, b, E]
  · simp [writeJac, args, CArgs.user, PP.set, PP.fill, E, b]
  · simp [writeJac, args, CArgs.user, PP.set, PP.renew, PP.freed, E, b]
  · simp [writeJac, args, CArgs.user, PP.set, PP.renew, PP.freed, E, b]

/-- The demo program, options all zero: a first call, after which the flag is set. -/
example : ∃ s', Traced demoCfg [] demoStart demo s' (s'.hw + 1) ∧ JacOpt (fun _ => 0) (.index false) ∧
    ∀ x par : ℕ → ℝ, ∀ a : CArgs ℝ, a.nnz ≠ none → a.rind ≠ .null → a.cind ≠ .null → a.values ≠ .null → a.user = false →
      ∃ J', CHistory ownColour .column demo s' (s'.hw + 1) J' true := by
  obtain ⟨e, h1, h2, h3⟩ := demo_spec demoCfg.x demoCfg.par (by simp only [demoCfg]; positivity)
  obtain ⟨s', h4, h5⟩ := traced_exists (stock := []) demo_alloc demo_start
    (by simp [demo, Prog.noFminLL, Stmt.notFminLL]) h1
  obtain ⟨e', g1, g2, g3⟩ := demo_spec demoCfg.x (fun _ => 0) (by simp only [demoCfg]; positivity)
  have hpath : demo.path demoCfg demoStart = [true] := by
    have := h5
    simp_all
  obtain ⟨c1, c2⟩ := counts_of_spec h4 demoCfg.x (fun _ => 0) (by rw [hpath]; exact g1)
  have hs : safeMethod demo (s'.tape (s'.hw + 1)) (.index false) := by simp [safeMethod, demo, allStmts, idxStmt]
  rw [g2] at c1
  rw [g3] at c2
  have hopt : JacOpt (fun _ => 0) (.index false) := .index _ (by norm_num) (by simp)
  refine ⟨s', h4, hopt, fun x par a n1 n2 n3 n4 n5 => ?_⟩
  obtain ⟨c, J', M', hc⟩ := C52_defined h4 demo_disc ownColour_proper (by omega) (by rw [← c2]; simp) (cm := .column) .fresh par x
      (.index false) false false (fun _ => hs) ⟨fun _ => 0, fun _ _ => 0, fun _ _ => 0, 0⟩ []
  have hR : Room M' a := ⟨n1, n2, n3, n4, fun b nz del hab _ => by subst hab; simp [args, CArgs.user, PP.set] at n5⟩
  obtain ⟨a', w1, _⟩ := write_ok hR 0
  have hd : dispatchJac (fun _ => 0) = (.index false, .column) := by simp [dispatchJac, parseSM, parseCM, parseJacCFM]
  by_cases hneg : c < 0
  · refine ⟨J', .call (fun _ => 0) _ false par x ⟨fun _ => 0, fun _ _ => 0, fun _ _ => 0, 0⟩ 0 a (c := c) (a' := a) .fresh hopt (by simp) (fun _ => hs) ?_⟩
    simp only [sparseJacC, hd, hc, if_pos hneg]
  · refine ⟨J', .call (fun _ => 0) _ false par x ⟨fun _ => 0, fun _ _ => 0, fun _ _ => 0, 0⟩ 0 a (c := c) (a' := a') .fresh hopt (by simp) (fun _ => hs) ?_⟩
    simp only [sparseJacC, hd, hc, w1, if_neg hneg]

end Verif.Props.SparseC
