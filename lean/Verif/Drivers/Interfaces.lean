import Verif.Drivers.Model

/-!
# The overloaded calls `forward` and `reverse` (`ADOL-C/src/interfaces.cpp`)

Arrays are functions on indices; an array `X[n][d+1]` has the entries `X i k` with `i < n`, `k ≤ d`.  Simplified: what a failing sweep has already
written to the result arrays is not modelled; the kept values are rows (one value for `zos_forward`, two for `fos_forward`).
-/
set_option linter.all false
namespace Verif.Drivers
open Verif.AD

variable {K : Type} [Scalar K]

/-- How an overloaded call ends without a result: the sweep returns a negative code, or an exception is thrown. -/
inductive IErr where
  | ret (rc : Int)
  | thrown
  deriving DecidableEq, Repr

/-- Which stops of a sweep are exceptions. -/
def IErr.ofStop : Stop → IErr
  | .outOfBounds => .thrown
  | .branchSwitch => .ret (-1)
  | .quadChanged => .ret (-2)
def IErr.ofHStop : HStop → IErr
  | .fwd s => .ofStop s
  | .notImplemented => .thrown

/-- `X[i][k] = v` -/
def put2 (X : Nat → Nat → K) (i k : Nat) (v : K) : Nat → Nat → K := fun a b => if a = i ∧ b = k then v else X a b

/-- `for (k = 0; k < d; k++) X[i][k] = X[i][k + 1];` (interfaces.cpp:48-49, 112-113) -/
def shiftDown (d i : Nat) (X : Nat → Nat → K) : Nat → Nat → K := (List.range d).foldl (fun X k => put2 X i k (X i (k + 1))) X
/-- `for (k = d; k > 0; k--) X[i][k] = X[i][k - 1];` (interfaces.cpp:65-66, 73-74, 130-131) -/
def shiftUp (d i : Nat) (X : Nat → Nat → K) : Nat → Nat → K := (List.range d).reverse.foldl (fun X k => put2 X i (k + 1) (X i k)) X

/-- What the sweep of the general call returns: `y`, the coefficients written to `Y` (`d > 1`) or `yp` (`d = 1`), the kept rows. -/
structure Swept (K : Type) where
  y : Nat → K
  Y : Nat → Nat → K
  kept : List (Nat → K)

/-- The function calls (interfaces.cpp:52-59): `x`, `xp` and the array `X` as prepared.  The sweeps compare `m` and `n` with the trace first (uni5_for.cpp:1098-1107), then check `keep`
(1143, 1158).  Rows of `X` from `n` on do not exist; the sweep gets 0 for them (and does not read them). -/
def callSweep (t : Tape K) (m n d keep : Nat) (x xp : Nat → K) (X : Nat → Nat → K) : Except IErr (Swept K) :=
  if m ≠ t.m ∨ n ≠ t.n then .error .thrown
  else if d = 0 then
    if keep > 1 then .error .thrown
    else match zosRun ⟨x, t.par, decide (0 < keep)⟩ t.ops ZS.init with
    | .ok z => .ok ⟨fun j => z.y[j]?.getD 0, fun _ _ => 0, z.stk.map fun v _ => v⟩
    | .error e => .error (.ofStop e)
  else if d = 1 then
    if keep > 2 then .error .thrown
    else match fosRun ⟨x, t.par, decide (0 < keep)⟩ xp t.ops FS.init with
    | .ok f => .ok ⟨fun j => f.y[j]?.getD 0, fun j _ => f.dy[j]?.getD 0, f.rows⟩
    | .error e => .error (.ofStop e)
  else match hosRun ⟨x, fun i => if i < n then X i else fun _ => 0, t.par, d, keep⟩ t.ops HS.init with
    | .ok H => .ok ⟨fun j => (H.y[j]?.getD fun _ => 0) 0, fun j k => (H.y[j]?.getD fun _ => 0) (k + 1), H.stk⟩
    | .error e => .error (.ofHStop e)

/-- The loop over the independents before the call: interfaces.cpp:43-50, 107-114. -/
def prepIn (n d : Nat) (X : Nat → Nat → K) : (Nat → K) × (Nat → K) × (Nat → Nat → K) :=
  (List.range n).foldl (fun (s : (Nat → K) × (Nat → K) × (Nat → Nat → K)) i =>
    (upd s.1 i (s.2.2 i 0), if d = 1 then upd s.2.1 i (s.2.2 i 1) else s.2.1, if d = 1 then s.2.2 else shiftDown d i s.2.2)) (fun _ => 0, fun _ => 0, X)

/-- The loop over the independents after the call: interfaces.cpp:63-68, 128-133. -/
def restoreX (n d : Nat) (x : Nat → K) (X : Nat → Nat → K) : Nat → Nat → K :=
  (List.range n).foldl (fun X i => if d > 1 then put2 (shiftUp d i X) i 0 (x i) else X) X

/-- What `hos_forward` has written to the caller's array (rows `j < m`, `d` coefficients). -/
def written (m d : Nat) (w : Swept K) (Y : Nat → Nat → K) : Nat → Nat → K := fun j k => if d > 1 ∧ j < m ∧ k < d then w.Y j k else Y j k

/-- The loop over the dependents: interfaces.cpp:70-77. -/
def prepOut (m d : Nat) (w : Swept K) (Y : Nat → Nat → K) : Nat → Nat → K :=
  (List.range m).foldl (fun Y j => put2 (if d = 1 then put2 Y j 1 (w.Y j 0) else shiftUp d j Y) j 0 (w.y j)) Y

/-- `forward(tag, m, n, d, keep, X[n][d+1], Y[m][d+1])` (interfaces.cpp:34-85): the caller's array `X` afterwards, and the array `Y` with the kept rows, or how the call failed. -/
def forward (t : Tape K) (m n d keep : Nat) (X Y : Nat → Nat → K) : (Nat → Nat → K) × Except IErr ((Nat → Nat → K) × List (Nat → K)) :=
  let (x, xp, X) := prepIn n d X
  match callSweep t m n d keep x xp X with
  | .ok w => (restoreX n d x X, .ok (prepOut m d w (written m d w Y), w.kept))
  | .error (.ret rc) => (restoreX n d x X, .error (.ret rc))
  | .error .thrown => (X, .error .thrown)

/-- `forward(tag, 1, n, d, keep, X[n][d+1], Y[d+1])` (interfaces.cpp:90-141); `Y` is the row `Y 0`.  `fos_forward` writes the derivative to `Y[0]`. -/
def forward1 (t : Tape K) (m n d keep : Nat) (X Y : Nat → Nat → K) : (Nat → Nat → K) × Except IErr ((Nat → Nat → K) × List (Nat → K)) :=
  if m = 1 then
    let (x, xp, X) := prepIn n d X
    match callSweep t m n d keep x xp X with
    | .ok w =>
      let Y := if d = 1 then put2 Y 0 0 (w.Y 0 0) else written m d w Y
      (restoreX n d x X, .ok (put2 (shiftUp d 0 Y) 0 0 (w.y 0), w.kept))
    | .error (.ret rc) => (restoreX n d x X, .error (.ret rc))
    | .error .thrown => (X, .error .thrown)
  else (X, .error .thrown)

/-- `reverse(tag, m, n, d, u[m], Z[n][d+1])` (interfaces.cpp:200-204): `hos_reverse` on the kept rows. -/
def reverse (t : Tape K) (d : Nat) (u : Nat → K) (kept : List (Nat → K)) : Except HRStop (Nat → Nat → K) :=
  (hosRevRun (d + 1) (lagr u) t.ops (HRS.init t.n t.m kept)).map fun r => r.Z

/-- The static variables of the `reverse` that defaults to the identity (interfaces.cpp:352-353): `depax` and the size `I` was made for. -/
structure RevI where
  depax : Nat
def RevI.init : RevI := ⟨0⟩
/-- interfaces.cpp:354-358 (`adolc_compsize` is `>`, dvlparms.h:50) -/
def RevI.next (c : RevI) (m : Nat) : RevI := if m > c.depax then ⟨m⟩ else c

/-- `reverse(tag, m, n, d, q, U[q][m], Z[q][n][d+1], nz[q][n])` (interfaces.cpp:253-258): `hov_reverse` on the kept rows. -/
def reverseU (t : Tape K) (d q : Nat) (U : Nat → Nat → K) (kept : List (Nat → K)) : Except HRStop ((Nat → Nat → Nat → K) × (Nat → Nat → K)) :=
  (hvrRun ⟨false, d + 1, q, fun l => lagr (U l)⟩ t.ops (RVS.init t.n t.m (kept.map fun x _ => x))).map fun r => (r.Z, r.nz)

/-- `reverse(tag, m, n, d, Z[m][n][d+1], nz[m][n])` (interfaces.cpp:348-360): `hov_reverse` with the rows of `I`, after earlier calls have left `c`. -/
def reverseI (t : Tape K) (d : Nat) (kept : List (Nat → K)) (c : RevI) : RevI × Except HRStop ((Nat → Nat → Nat → K) × (Nat → Nat → K)) :=
  let c := c.next t.m
  (c, (hvrRun ⟨false, d + 1, t.m, fun l => lagr (ident c.depax l)⟩ t.ops (RVS.init t.n t.m (kept.map fun x _ => x))).map fun r => (r.Z, r.nz))

/-- `reverse(tag, 1, n, d, q, U[q], Z[q][n][d+1], nz[q][n])` (interfaces.cpp:263-282): row `l` of the weights is `&U[l]`. -/
def reverseU1 (t : Tape K) (m d q : Nat) (U : Nat → K) (kept : List (Nat → K)) : Option (Except HRStop ((Nat → Nat → Nat → K) × (Nat → Nat → K))) :=
  if m ≠ 1 then none
  else some ((hvrRun ⟨false, d + 1, q, fun l => lagr fun j => U (l + j)⟩ t.ops (RVS.init t.n t.m (kept.map fun x _ => x))).map fun r => (r.Z, r.nz))

/-! ## The loops in closed form -/

theorem shiftDown_eq (d i : Nat) (X : Nat → Nat → K) : shiftDown d i X = fun a b => if a = i ∧ b < d then X i (b + 1) else X a b := by
  induction d with
  | zero => funext a b; simp [shiftDown]
  | succ d ih =>
    have : shiftDown (d + 1) i X = put2 (shiftDown d i X) i d ((shiftDown d i X) i (d + 1)) := by simp [shiftDown, List.range_succ]
    rw [this, ih]; funext a b
    simp only [put2]
    by_cases ha : a = i
    · subst ha
      by_cases hb : b = d
      · subst hb; simp
      · by_cases h2 : b < d
        · simp [hb, h2, show b < d + 1 by omega]
        · simp [hb, h2, show ¬ b < d + 1 by omega]
    · simp [ha]

theorem shiftUp_eq (d i : Nat) (X : Nat → Nat → K) : shiftUp d i X = fun a b => if a = i ∧ 0 < b ∧ b ≤ d then X i (b - 1) else X a b := by
  induction d generalizing X with
  | zero => funext a b; simp [shiftUp]; intro _ h1 h2; omega
  | succ d ih =>
    have : shiftUp (d + 1) i X = shiftUp d i (put2 X i (d + 1) (X i d)) := by simp [shiftUp, List.range_succ]
    rw [this, ih]; funext a b
    simp only [put2]
    by_cases ha : a = i
    · subst ha
      by_cases hb : b = d + 1
      · subst hb; simp
      · by_cases h2 : 0 < b ∧ b ≤ d
        · rw [if_pos ⟨rfl, h2⟩, if_neg (by omega), if_pos (by omega)]
        · rw [if_neg (by tauto), if_neg (by omega), if_neg (by omega)]
    · simp [ha]

theorem prepIn_eq (n d : Nat) (X : Nat → Nat → K) : prepIn n d X =
    (fun i => if i < n then X i 0 else 0, fun i => if i < n ∧ d = 1 then X i 1 else 0, fun i k => if i < n ∧ d ≠ 1 ∧ k < d then X i (k + 1) else X i k) := by
  induction n with
  | zero => simp [prepIn]
  | succ n ih =>
    have : prepIn (n + 1) d X = (upd (prepIn n d X).1 n ((prepIn n d X).2.2 n 0), if d = 1 then upd (prepIn n d X).2.1 n ((prepIn n d X).2.2 n 1) else (prepIn n d X).2.1,
        if d = 1 then (prepIn n d X).2.2 else shiftDown d n (prepIn n d X).2.2) := by simp [prepIn, List.range_succ]
    rw [this, ih]
    refine Prod.ext ?_ (Prod.ext ?_ ?_)
    · funext i
      simp only [upd_apply, lt_irrefl, false_and, if_false]
      by_cases hi : i = n
      · subst hi; simp
      · rw [if_neg hi]; by_cases h2 : i < n
        · rw [if_pos h2, if_pos (by omega)]
        · rw [if_neg h2, if_neg (by omega)]
    · funext i
      by_cases hd : d = 1
      · simp only [hd, if_true, upd_apply, lt_irrefl, false_and, if_false, and_true, ne_eq, not_true_eq_false, and_false]
        by_cases hi : i = n
        · subst hi; simp
        · rw [if_neg hi]; by_cases h2 : i < n
          · rw [if_pos h2, if_pos (by omega)]
          · rw [if_neg h2, if_neg (by omega)]
      · simp [hd]
    · funext i k
      by_cases hd : d = 1
      · simp [hd]
      · simp only [if_neg hd, shiftDown_eq, lt_irrefl, false_and, if_false]
        by_cases hi : i = n
        · subst hi
          by_cases hk : k < d
          · simp [hk, hd]
          · simp [hk]
        · by_cases h2 : i < n
          · simp [hi, h2, hd, show i < n + 1 by omega]
          · simp [hi, h2, show ¬ i < n + 1 by omega]

theorem restoreX_eq (n d : Nat) (x : Nat → K) (X : Nat → Nat → K) : restoreX n d x X =
    fun i k => if i < n ∧ 1 < d ∧ k ≤ d then (if k = 0 then x i else X i (k - 1)) else X i k := by
  induction n with
  | zero => simp [restoreX]
  | succ n ih =>
    have : restoreX (n + 1) d x X = if d > 1 then put2 (shiftUp d n (restoreX n d x X)) n 0 (x n) else restoreX n d x X := by simp [restoreX, List.range_succ]
    rw [this, ih]
    by_cases hd : 1 < d
    · rw [if_pos hd]
      funext i k
      simp only [put2, shiftUp_eq, lt_irrefl, false_and, if_false]
      by_cases hi : i = n
      · subst hi
        by_cases hk : k = 0
        · subst hk; simp [hd]
        · by_cases h3 : k ≤ d
          · simp [hk, h3, hd, show 0 < k by omega]
          · simp [hk, h3, show 0 < k by omega]
      · by_cases h2 : i < n
        · simp [hi, h2, show i < n + 1 by omega]
        · simp [hi, h2, show ¬ i < n + 1 by omega]
    · rw [if_neg hd]; funext i k; simp [hd]

theorem prepOut_eq (m d : Nat) (w : Swept K) (Y : Nat → Nat → K) : prepOut m d w Y =
    fun j k => if j < m ∧ k ≤ d then (if k = 0 then w.y j else if d = 1 then w.Y j 0 else Y j (k - 1)) else Y j k := by
  induction m with
  | zero => simp [prepOut]
  | succ m ih =>
    have : prepOut (m + 1) d w Y = put2 (if d = 1 then put2 (prepOut m d w Y) m 1 (w.Y m 0) else shiftUp d m (prepOut m d w Y)) m 0 (w.y m) := by
      simp [prepOut, List.range_succ]
    rw [this, ih]
    funext j k
    by_cases hj : j = m
    · subst hj
      by_cases hk : k = 0
      · subst hk; simp [put2]
      · by_cases hd : d = 1
        · subst hd
          by_cases hk1 : k = 1
          · subst hk1; simp [put2]
          · simp [put2, hk, hk1, show ¬ k ≤ 1 by omega]
        · by_cases hk1 : k ≤ d
          · simp [put2, hk, hd, shiftUp_eq, hk1, show 0 < k by omega]
          · simp [put2, hk, hd, shiftUp_eq, hk1]
    · by_cases h2 : j < m
      · by_cases hd : d = 1 <;> simp [put2, hj, h2, hd, shiftUp_eq, show j < m + 1 by omega]
      · by_cases hd : d = 1 <;> simp [put2, hj, h2, hd, shiftUp_eq, show ¬ j < m + 1 by omega]

/-- The caller's `X` is as before unless an exception is thrown. -/
theorem restore_prep (n d : Nat) (X : Nat → Nat → K) : restoreX n d (prepIn n d X).1 (prepIn n d X).2.2 = X := by
  rw [restoreX_eq, prepIn_eq]
  funext i k
  by_cases h : i < n ∧ 1 < d ∧ k ≤ d
  · obtain ⟨h1, h2, h3⟩ := h
    have hd : d ≠ 1 := by omega
    by_cases hk : k = 0
    · subst hk; simp [h1, h2]
    · simp only [h1, h2, h3, and_self, if_true, hk, if_false, true_and, hd, ne_eq, not_false_eq_true]
      rw [if_pos (by omega), Nat.sub_add_cancel (by omega)]
  · simp only [if_neg h]
    rw [if_neg]
    rintro ⟨h1, h2, h3⟩
    exact h ⟨h1, by omega, by omega⟩

end Verif.Drivers
