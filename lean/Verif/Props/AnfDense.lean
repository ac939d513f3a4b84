import Verif.Drivers.AnfDense
import Verif.Props.SparseANF
import Verif.Props.Fortran
/-!
# C66: the abs-normal form object (`ADOLC::AbsNormalForm`), `ADOLC::abs_normal<...>` and `abs_normal_`

Reading guide.  `Anf` is the object; `a.Y.get j i` is the C++ expression `anf.Y[j][i]` (an error if it is not an access to an
existing element), `a.Y.set j i v` is `anf.Y[j][i] = v`.  `absNormalObj upd tape par mm x a` is `ADOLC::abs_normal<uc>(tag, x, a)`,
`upd` meaning `uc = UpdateConsts::True`.  The functions `outFn`, `argFn` of the traced program (outputs and arguments of its
calls of `fabs` as functions of `x` and `w = |z|`) are those of C64.
-/
set_option linter.all false
noncomputable section
namespace Verif.Props.AnfDense
open Verif.AD Elem Verif.Drivers Verif.Props.AD Verif.Props.AbsNormal Verif.Props.SparseANF Verif.Props.Fortran

variable {s s' : Rec ℝ} {stock : List (Nat × List ℝ)} {cfg : RCfg ℝ} {p : Prog ℝ} {N : Nat}

/-! ### Objects -/

/-- Objects after any history of constructions, resizes, clears, moves, writes by the user to existing elements and calls of
`abs_normal`.  The flag says that the object was the source of a move and has not been cleared, resized or assigned since. -/
inductive Hist : Bool → Anf ℝ → Prop
  | new : Hist false Anf.new
  | ofShape (d : Shape) : Hist false (Anf.ofShape d)
  | resize {f a} (d : Shape) : Hist f a → Hist false (a.resize d)
  | clear {f a} : Hist f a → Hist false a.clear
  /-- the source of a move; the target is `a` itself -/
  | movedFrom {f a} : Hist f a → Hist true a.movedFrom
  | setY {a b i j v} : Hist false a → i < a.shape.m → j < a.shape.n → a.Y.set i j v = .ok b → Hist false { a with Y := b }
  | setJ {a b i j v} : Hist false a → i < a.shape.m → j < a.shape.s → a.J.set i j v = .ok b → Hist false { a with J := b }
  | setZ {a b i j v} : Hist false a → i < a.shape.s → j < a.shape.n → a.Z.set i j v = .ok b → Hist false { a with Z := b }
  | setL {a b i j v} : Hist false a → i < a.shape.s → j < a.shape.s → a.L.set i j v = .ok b → Hist false { a with L := b }
  | sety {a v k x} : Hist false a → wr a.y k x = .ok v → Hist false { a with y := v }
  | setz {a v k x} : Hist false a → wr a.z k x = .ok v → Hist false { a with z := v }
  | setcy {a v k x} : Hist false a → wr a.cy k x = .ok v → Hist false { a with cy := v }
  | setcz {a v k x} : Hist false a → wr a.cz k x = .ok v → Hist false { a with cz := v }
  | absNormal {a a' upd ops par mm x} : Hist false a → absNormalObj upd ops par mm x a = .ok a' → Hist false a'

theorem wr_len {v w : List ℝ} {k : ℕ} {x : ℝ} (h : wr v k x = .ok w) : w.length = v.length := by
  unfold wr at h
  split at h
  · cases h; simp
  · cases h

theorem loop_pres {S : Type} (P : S → Prop) {k : ℕ} {f : ℕ → S → Except AErr S} {s s' : S} (h0 : P s)
    (hs : ∀ i s s', P s → f i s = .ok s' → P s') (h : loop k f s = .ok s') : P s' := by
  induction k generalizing s' with
  | zero => cases h; exact h0
  | succ k ih =>
    rw [loop] at h
    split at h
    · cases h
    · rename_i t ht
      exact hs _ _ _ (ih ht) h

theorem updateC_len {r q : ℕ} {b : Block ℝ} {z y c : List ℝ} (h : updateC r q b z y = .ok c) : c.length = y.length := by
  refine loop_pres (fun c : List ℝ => c.length = y.length) rfl (fun i c c' hc hcc => ?_) h
  refine loop_pres (fun d : List ℝ => d.length = y.length) hc (fun j d d' hd hdd => ?_) hcc
  split at hdd
  · cases hdd
  split at hdd
  · cases hdd
  split at hdd
  · cases hdd
  rw [wr_len hdd, hd]

theorem set_ok {m n i j : ℕ} {b b' : Block ℝ} {v : ℝ} (h : b.Ok m n) (h1 : b.set i j v = .ok b') : b'.Ok m n := by
  unfold Block.set at h1
  split at h1
  · cases h1
  split at h1
  · cases h1
  rename_i w hw
  cases h1
  exact ⟨h.rows, by rw [wr_len hw]; exact h.len⟩

theorem write_ok {m n m' n' : ℕ} {b b' : Block ℝ} {v : ℕ → ℕ → ℝ} (h : b.Ok m n) (h1 : b.write m' n' v = .ok b') : b'.Ok m n :=
  loop_pres (fun c : Block ℝ => c.Ok m n) h (fun _ _ _ hc hcc => loop_pres (fun c : Block ℝ => c.Ok m n) hc (fun _ _ _ hd hdd => set_ok hd hdd) hcc) h1

theorem hist_ok {f : Bool} {a : Anf ℝ} (h : Hist f a) : f = false → a.Ok := by
  induction h with
  | new => exact fun _ => Anf.new_ok
  | ofShape d => exact fun _ => Anf.resize_ok _ _
  | resize d _ _ => exact fun _ => Anf.resize_ok _ _
  | clear _ _ => exact fun _ => Anf.new_ok
  | movedFrom _ _ => exact fun h => by cases h
  | setY _ _ _ h1 ih => exact fun _ => ⟨set_ok (ih rfl).Y h1, (ih rfl).J, (ih rfl).Z, (ih rfl).L, (ih rfl).cz, (ih rfl).cy, (ih rfl).y, (ih rfl).z⟩
  | setJ _ _ _ h1 ih => exact fun _ => ⟨(ih rfl).Y, set_ok (ih rfl).J h1, (ih rfl).Z, (ih rfl).L, (ih rfl).cz, (ih rfl).cy, (ih rfl).y, (ih rfl).z⟩
  | setZ _ _ _ h1 ih => exact fun _ => ⟨(ih rfl).Y, (ih rfl).J, set_ok (ih rfl).Z h1, (ih rfl).L, (ih rfl).cz, (ih rfl).cy, (ih rfl).y, (ih rfl).z⟩
  | setL _ _ _ h1 ih => exact fun _ => ⟨(ih rfl).Y, (ih rfl).J, (ih rfl).Z, set_ok (ih rfl).L h1, (ih rfl).cz, (ih rfl).cy, (ih rfl).y, (ih rfl).z⟩
  | sety _ h1 ih => exact fun _ => ⟨(ih rfl).Y, (ih rfl).J, (ih rfl).Z, (ih rfl).L, (ih rfl).cz, (ih rfl).cy, (wr_len h1).trans (ih rfl).y, (ih rfl).z⟩
  | setz _ h1 ih => exact fun _ => ⟨(ih rfl).Y, (ih rfl).J, (ih rfl).Z, (ih rfl).L, (ih rfl).cz, (ih rfl).cy, (ih rfl).y, (wr_len h1).trans (ih rfl).z⟩
  | setcy _ h1 ih => exact fun _ => ⟨(ih rfl).Y, (ih rfl).J, (ih rfl).Z, (ih rfl).L, (ih rfl).cz, (wr_len h1).trans (ih rfl).cy, (ih rfl).y, (ih rfl).z⟩
  | setcz _ h1 ih => exact fun _ => ⟨(ih rfl).Y, (ih rfl).J, (ih rfl).Z, (ih rfl).L, (wr_len h1).trans (ih rfl).cz, (ih rfl).cy, (ih rfl).y, (ih rfl).z⟩
  | @absNormal a a' upd ops par mm x _ h1 ih =>
    intro _
    have ha := ih rfl
    unfold absNormalObj at h1
    simp only at h1
    split at h1
    · cases h1
    split at h1
    · cases h1
    rename_i r _ _
    cases e1 : vwrite a.shape.m (fun i => r.y[i]?.getD 0) a.y with
    | error e => rw [e1] at h1; cases h1
    | ok y =>
    cases e2 : vwrite a.shape.s (fun i => r.z[i]?.getD 0) a.z with
    | error e => rw [e1, e2] at h1; cases h1
    | ok z =>
    cases e3 : a.Y.write a.shape.m a.shape.n r.Y with
    | error e => rw [e1, e2, e3] at h1; cases h1
    | ok Y =>
    cases e4 : a.J.write a.shape.m a.shape.s r.J with
    | error e => rw [e1, e2, e3, e4] at h1; cases h1
    | ok J =>
    cases e5 : a.Z.write a.shape.s a.shape.n r.Z with
    | error e => rw [e1, e2, e3, e4, e5] at h1; cases h1
    | ok Z =>
    cases e6 : a.L.write a.shape.s a.shape.s r.L with
    | error e => rw [e1, e2, e3, e4, e5, e6] at h1; cases h1
    | ok L =>
    have hy : y.length = a.shape.m := loop_pres (fun c : List ℝ => c.length = a.shape.m) ha.y (fun _ _ _ hc hcc => (wr_len hcc).trans hc) e1
    have hz : z.length = a.shape.s := loop_pres (fun c : List ℝ => c.length = a.shape.s) ha.z (fun _ _ _ hc hcc => (wr_len hcc).trans hc) e2
    rw [e1, e2, e3, e4, e5, e6] at h1
    cases upd with
    | false =>
      simp only [bind, Except.bind] at h1
      cases h1
      exact ⟨write_ok ha.Y e3, write_ok ha.J e4, write_ok ha.Z e5, write_ok ha.L e6, ha.cz, ha.cy, hy, hz⟩
    | true =>
      simp only [bind, Except.bind, if_true] at h1
      split at h1
      · cases h1
      rename_i cy ecy
      split at h1
      · cases h1
      rename_i cz ecz
      cases h1
      exact ⟨write_ok ha.Y e3, write_ok ha.J e4, write_ok ha.Z e5, write_ok ha.L e6, (updateC_len ecz).trans hz, (updateC_len ecy).trans hy, hy, hz⟩

/-- `B` is an `m x n` matrix: every `B[i][j]` exists, can be written, and a write changes no other element. -/
def IsMatrix (m n : ℕ) (b : Block ℝ) : Prop :=
  b.rows.length = m ∧ ∀ i j, i < m → j < n → (∃ v, b.get i j = .ok v) ∧
    ∀ v, ∃ b', b.set i j v = .ok b' ∧ b'.get i j = .ok v ∧ b'.rows.length = m ∧
      ∀ i' j', i' < m → j' < n → (i' ≠ i ∨ j' ≠ j) → b'.get i' j' = b.get i' j'

theorem isMatrix {m n : ℕ} {b : Block ℝ} (h : b.Ok m n) : IsMatrix m n b := by
  refine ⟨by rw [h.rows]; simp, fun i j hi hj => ⟨?_, fun v => ?_⟩⟩
  · obtain ⟨a, h1, _⟩ := h.get hi hj
    exact ⟨a, h1⟩
  · obtain ⟨b', e, h1, h2, h3⟩ := h.set hi hj v
    exact ⟨b', e, h2, by rw [h1.rows]; simp, fun i' j' hi' hj' hne => h3 i' j' hi' hj' (by omega)⟩

/-- **C66** After any history in which the object, if moved from, was cleared, resized or assigned afterwards: the four blocks
are matrices of the sizes that `dims()` reports, whose elements do not overlap (also if a dimension is 0), and the vectors have
the reported lengths. -/
theorem C66_storage {a : Anf ℝ} (h : Hist false a) :
    IsMatrix a.shape.m a.shape.n a.Y ∧ IsMatrix a.shape.m a.shape.s a.J ∧ IsMatrix a.shape.s a.shape.n a.Z ∧
      IsMatrix a.shape.s a.shape.s a.L ∧ a.y.length = a.shape.m ∧ a.z.length = a.shape.s ∧ a.cy.length = a.shape.m ∧
      a.cz.length = a.shape.s := by
  have ha := hist_ok h rfl
  exact ⟨isMatrix ha.Y, isMatrix ha.J, isMatrix ha.Z, isMatrix ha.L, ha.y, ha.z, ha.cy, ha.cz⟩

/-- **C66** `empty()` is true exactly if all three dimensions are 0; after `clear()` it is; and an object that has not been moved from and is `empty()` does not differ from a new one. -/
theorem C66_empty {f : Bool} {a : Anf ℝ} (h : Hist f a) : (a.empty = true ↔ a.shape.m = 0 ∧ a.shape.n = 0 ∧ a.shape.s = 0) ∧ a.clear.empty = true ∧
    (∀ d : Shape, (a.resize d).empty = true ↔ d.m = 0 ∧ d.n = 0 ∧ d.s = 0) ∧ (f = false → a.empty = true → a = Anf.new) := by
  have key : ∀ b : Anf ℝ, b.empty = true ↔ b.shape.m = 0 ∧ b.shape.n = 0 ∧ b.shape.s = 0 := fun b => by
    simp only [Anf.empty, Bool.and_eq_true, decide_eq_true_eq, and_assoc]
  refine ⟨key a, by rw [key]; exact ⟨rfl, rfl, rfl⟩, fun d => by rw [key]; rfl, fun hf he => ?_⟩
  subst hf
  obtain ⟨hm, hn, hs⟩ := (key a).1 he
  have ha := hist_ok h rfl
  obtain ⟨sh, Y, J, Z, L, cz, cy, y, z⟩ := a
  obtain ⟨m, n, q⟩ := sh
  simp only at hm hn hs
  subst hm hn hs
  have blk : ∀ (B : Block ℝ), B.rows = [] → B.mem.length = 0 → B = ⟨[], []⟩ := fun B h1 h2 => by
    obtain ⟨r, mm⟩ := B; simp only at h1 h2; rw [h1, List.length_eq_zero_iff.1 h2]
  have hY := blk Y (by simpa using ha.Y.rows) (by simpa using ha.Y.len)
  have hJ := blk J (by simpa using ha.J.rows) (by simpa using ha.J.len)
  have hZ := blk Z (by simpa using ha.Z.rows) (by simpa using ha.Z.len)
  have hL := blk L (by simpa using ha.L.rows) (by simpa using ha.L.len)
  have h1 := ha.y; have h2 := ha.z; have h3 := ha.cy; have h4 := ha.cz
  simp only [List.length_eq_zero_iff] at h1 h2 h3 h4
  subst hY hJ hZ hL h1 h2 h3 h4
  rfl

example : Hist false (Anf.new : Anf ℝ) ∧ Hist false (Anf.ofShape ⟨0, 2, 0⟩ : Anf ℝ) ∧ (Anf.ofShape ⟨0, 2, 0⟩ : Anf ℝ).empty = false := ⟨.new, .ofShape _, rfl⟩

/-- `fov_pl_reverse` gets null pointers exactly for rows without elements. -/
theorem C66_null {a : Anf ℝ} (h : Hist false a) (i : ℕ) (hi : i < a.shape.m) : (a.Y.rows[i]? = some none ↔ a.shape.n = 0) := by
  rw [(hist_ok h rfl).Y.rows, List.getElem?_map, List.getElem?_range hi]
  simp only [Option.map_some, Option.some.injEq]
  split_ifs with h1 <;> simp [h1]

/-- **C66** (partial: the number of columns is unchanged; otherwise the elements move, `C66_resize_moves`)  `resize` keeps the elements that remain and sets the new ones to zero. -/
theorem C66_resize_partial {a : Anf ℝ} (h : Hist false a) (d : Shape) (hn : d.n = a.shape.n) (i j : ℕ) (hi : i < d.m) (hj : j < d.n) :
    (a.resize d).Y.get i j = if i < a.shape.m then a.Y.get i j else .ok 0 := by
  have h1 := (Anf.resize_ok d a).Y
  have ha := (hist_ok h rfl).Y
  rw [Block.get, h1.row (i := i) hi (by show 0 < d.n; omega)]
  simp only [rd]
  rw [show ((a.resize d).Y.mem[i * (a.resize d).shape.n + j]?) = (vresize (d.m * d.n) a.Y.mem)[i * d.n + j]? from rfl,
    vresize_get _ _ _ (idx_lt hi hj)]
  split_ifs with h2
  · obtain ⟨v, e1, e2⟩ := ha.get h2 (show j < a.shape.n by omega)
    rw [e1, hn, e2]; rfl
  · rw [List.getElem?_eq_none]; · rfl
    rw [ha.len, hn]
    calc a.shape.m * a.shape.n ≤ i * a.shape.n := Nat.mul_le_mul_right _ (by omega)
      _ ≤ _ := by omega

/-- A resize that changes the number of columns keeps the flat storage: `Y[0][1]` becomes `Y[1][0]`. -/
theorem C66_resize_moves : ∃ a : Anf ℝ, Hist false a ∧ a.Y.get 0 1 = .ok 5 ∧
    (a.resize ⟨2, 1, 0⟩).Y.get 0 0 = .ok 0 ∧ (a.resize ⟨2, 1, 0⟩).Y.get 1 0 = .ok 5 := by
  refine ⟨{ (Anf.ofShape ⟨1, 2, 0⟩ : Anf ℝ) with Y := ⟨[some 0], [0, 5]⟩ }, Hist.setY (Hist.ofShape _) (i := 0) (j := 1) (v := 5) (by simp [Anf.ofShape, Anf.resize]) (by simp [Anf.ofShape, Anf.resize]) ?_, ?_, ?_, ?_⟩
  · simp [Anf.ofShape, Anf.resize, Anf.new, Block.set, Block.row, Block.resize, vresize, wr, List.range_succ]
  · simp [Block.get, Block.row, rd]
  · simp [Anf.resize, Block.get, Block.row, rd, Block.resize, vresize, List.range_succ]
  · simp [Anf.resize, Block.get, Block.row, rd, Block.resize, vresize, List.range_succ]

/-! ### The driver -/

/-- What the object must contain after `abs_normal` at `x0`: values, partial derivatives of the switching function. -/
structure IsDense (p : Prog ℝ) (s : Rec ℝ) (par : ℕ → ℝ) (m n q : ℕ) (x0 : Fin n → ℝ) (a : Anf ℝ) : Prop where
  shape : a.shape = ⟨m, n, q⟩
  y : ∀ e0 bs, p.spec (ext x0) par s.se = some (e0, bs) → a.y = e0.ys
  z : a.z = p.switches (ext x0) par s.se
  dy : ∀ j < m, DifferentiableAt ℝ (outFn p s par n q j) (x0, absZ p s par q x0)
  dz : ∀ k < q, DifferentiableAt ℝ (argFn p s par n q k) (x0, absZ p s par q x0)
  Y : ∀ j i, j < m → i < n → a.Y.get j i = .ok (fderiv ℝ (outFn p s par n q j) (x0, absZ p s par q x0) (ex n q i))
  J : ∀ j k, j < m → k < q → a.J.get j k = .ok (fderiv ℝ (outFn p s par n q j) (x0, absZ p s par q x0) (ew n q k))
  Z : ∀ k i, k < q → i < n → a.Z.get k i = .ok (fderiv ℝ (argFn p s par n q k) (x0, absZ p s par q x0) (ex n q i))
  L : ∀ k l, k < q → l < q → a.L.get k l = .ok (fderiv ℝ (argFn p s par n q k) (x0, absZ p s par q x0) (ew n q l))
  low : ∀ k l, k < q → l < q → k ≤ l → a.L.get k l = .ok 0

/-- The constant terms as `updateCy`, `updateCz` are documented to set them: `cy = y - J |z|`, `cz = z - L |z|`. -/
def IsConst (p : Prog ℝ) (s : Rec ℝ) (par : ℕ → ℝ) (m n q : ℕ) (x0 : Fin n → ℝ) (a : Anf ℝ) : Prop :=
  (∀ j < m, a.cy[j]?.getD 0 = a.y[j]?.getD 0 -
    ∑ k ∈ Finset.range q, fderiv ℝ (outFn p s par n q j) (x0, absZ p s par q x0) (ew n q k) * |a.z[k]?.getD 0|) ∧
  ∀ k < q, a.cz[k]?.getD 0 = a.z[k]?.getD 0 -
    ∑ l ∈ Finset.range q, fderiv ℝ (argFn p s par n q k) (x0, absZ p s par q x0) (ew n q l) * |a.z[l]?.getD 0|

theorem rowMap_ex {n q : ℕ} (A B : ℕ → ℝ) {i : ℕ} (hi : i < n) : rowMap (n := n) (q := q) A B (ex n q i) = A i := by
  have e : (ex n q i).1 = Pi.single (⟨i, hi⟩ : Fin n) 1 := by
    funext l; simp only [ex, Pi.single_apply, Fin.ext_iff]
  rw [rowMap_apply, e, dot_single]
  simp [ex, dot_zero_ext]

theorem rowMap_ew {n q : ℕ} (A B : ℕ → ℝ) {k : ℕ} (hk : k < q) : rowMap (n := n) (q := q) A B (ew n q k) = B k := by
  have e : (ew n q k).2 = Pi.single (⟨k, hk⟩ : Fin q) 1 := by
    funext l; simp only [ew, Pi.single_apply, Fin.ext_iff]
  rw [rowMap_apply, e, dot_single]
  simp [ew, dot_zero_ext]

/-- The list with the elements of `x0`, as function on indices. -/
theorem ofFn_ext {n : ℕ} (x0 : Fin n → ℝ) : (fun i => (List.ofFn x0)[i]?.getD 0) = ext x0 := by
  funext i
  by_cases hi : i < n
  · simp [ext, hi]
  · simp [ext, hi]

/-- **C66** (partial: the trace has a dependent or a switch; at a point of the recorded path at which the smooth operations
are differentiable; the object was not moved from)  Whatever the object contained before, `abs_normal<...>` fills it with the
values and the partial derivatives of the switching function, also at kinks; `UpdateConsts::True` sets the constant terms to
`y - J|z|` and `z - L|z|`, `UpdateConsts::False` leaves them. -/
theorem C66_abs_normal_partial (h : Traced cfg stock s p s' N) (hd : p.disc ⟨Set.univ, ∅⟩) (par : ℕ → ℝ) {n : ℕ}
    (x0 : Fin n → ℝ) {e0 : SE ℝ} (hpath : p.spec (ext x0) par s.se = some (e0, p.path cfg s)) (hn : e0.ii = n)
    (hsm : p.smoothAN (ext x0) par s.se) {q : ℕ} (hq : (p.switches (ext x0) par s.se).length = q) (hpos : 0 < e0.ys.length + q)
    {a : Anf ℝ} (ha : Hist false a) (hs : a.shape = ⟨e0.ys.length, n, q⟩) (upd : Bool) :
    ∃ a', absNormalObj upd (s'.tape N) par true (List.ofFn x0) a = .ok a' ∧ Hist false a' ∧
      IsDense p s par e0.ys.length n q x0 a' ∧ (upd = true → IsConst p s par e0.ys.length n q x0 a') ∧
      (upd = false → a'.cy = a.cy ∧ a'.cz = a.cz) := by
  obtain ⟨r, h1, h2, h3, h4, h5, h6⟩ := C47_abs_normal_form h hd par x0 hpath hn hsm hq (absZ p s par q x0) (fun _ => rfl) hpos
  have hok := hist_ok ha rfl
  rw [← ofFn_ext x0] at h1
  have f1 : ∀ j < e0.ys.length, ∀ v, fderiv ℝ (outFn p s par n q j) (x0, absZ p s par q x0) v = rowMap (r.Y j) (r.J j) v := fun j hj v => by
    rw [show outFn p s par n q j = fun b : (Fin n → ℝ) × (Fin q → ℝ) => p.swOut (ext b.1) (ext b.2) par s.se j from rfl, (h4 j hj).fderiv]
  have f2 : ∀ k < q, ∀ v, fderiv ℝ (argFn p s par n q k) (x0, absZ p s par q x0) v = rowMap (r.Z k) (r.L k) v := fun k hk v => by
    rw [show argFn p s par n q k = fun b : (Fin n → ℝ) × (Fin q → ℝ) => p.swArg (ext b.1) (ext b.2) par s.se k from rfl, (h5 k hk).fderiv]
  obtain ⟨a', e, g1, g2, g3, g4, g5, g6, g7, g8, g9⟩ := absNormalObj_eq (upd := upd) (ops := s'.tape N) (par := par) (mm := true)
    (x := List.ofFn x0) hok (by rw [hs]; simp) (r := r) (by rw [hs]; exact h1) (by rw [hs]; exact hpos) (by rw [hs, h2]) (by rw [hs, h3]; exact hq)
  rw [hs] at g5 g6 g7 g8 g9
  refine ⟨a', e, Hist.absNormal ha e, ⟨by rw [g2, hs], fun e1 bs hb => ?_, by rw [g4, h3], fun j hj => (h4 j hj).differentiableAt,
    fun k hk => (h5 k hk).differentiableAt, fun j i hj hi => ?_, fun j k hj hk => ?_, fun k i hk hi => ?_, fun k l hk hl => ?_, fun k l hk hl hkl => ?_⟩, ?_, ?_⟩
  · rw [hpath] at hb; cases hb; rw [g3, h2]
  · rw [g5 j i hj hi, f1 j hj, rowMap_ex _ _ hi]
  · rw [g6 j k hj hk, f1 j hj, rowMap_ew _ _ hk]
  · rw [g7 k i hk hi, f2 k hk, rowMap_ex _ _ hi]
  · rw [g8 k l hk hl, f2 k hk, rowMap_ew _ _ hl]
  · rw [g8 k l hk hl, h6 k l hk hl hkl]
  · rintro rfl
    rw [if_pos rfl] at g9
    refine ⟨fun j hj => ?_, fun k hk => ?_⟩
    · rw [g9.1 j hj, g3, g4]
      congr 1
      refine Finset.sum_congr rfl fun k hk => ?_
      rw [f1 j hj, rowMap_ew _ _ (Finset.mem_range.1 hk)]
      rfl
    · rw [g9.2 k hk, g4]
      congr 1
      refine Finset.sum_congr rfl fun l hl => ?_
      rw [f2 k hk, rowMap_ew _ _ (Finset.mem_range.1 hl)]
      rfl
  · rintro rfl
    simpa using g9

/-- **C66** An object of another shape than the trace, or a trace recorded without `enableMinMaxUsingAbs`: an exception. -/
theorem C66_wrong_shape (ops : List (Base ℝ)) (par : ℕ → ℝ) (mm upd : Bool) (x : List ℝ) (a : Anf ℝ)
    (h : mm = false ∨ a.shape ≠ shapeOfTape ops mm) : ∃ e, absNormalObj upd ops par mm x a = .error (.drv e) ∧
      (e = .switches ∨ e = .counts ∨ e = .noMinMax) := by
  obtain ⟨⟨m, n, q⟩, Y, J, Z, L, cz, cy, y, z⟩ := a
  unfold absNormalObj absNormalInto
  cases mm with
  | false =>
    simp only [Bool.false_eq_true, if_false]
    by_cases h1 : (0 : ℕ) ≠ q
    · rw [if_pos h1]; exact ⟨_, rfl, by simp⟩
    rw [if_neg h1]
    by_cases h2 : ¬ (n = numInd ops ∧ m = numDep ops)
    · rw [if_pos h2]; exact ⟨_, rfl, by simp⟩
    · rw [if_neg h2]; exact ⟨_, rfl, by simp⟩
  | true =>
    simp only [if_true]
    by_cases h1 : numSw ops ≠ q
    · rw [if_pos h1]; exact ⟨_, rfl, by simp⟩
    rw [if_neg h1]
    by_cases h2 : ¬ (n = numInd ops ∧ m = numDep ops)
    · rw [if_pos h2]; exact ⟨_, rfl, by simp⟩
    exfalso
    obtain ⟨h3, h4⟩ := not_not.1 h2
    have h5 := not_not.1 h1
    subst h3 h4 h5
    rcases h with h | h
    · cases h
    · exact h rfl

/-- **C66** `fromTape` makes an object of the right shape. -/
theorem C66_fromTape (h : Traced cfg stock s p s' N) (par : ℕ → ℝ) {n : ℕ}
    (x0 : Fin n → ℝ) {e0 : SE ℝ} (hpath : p.spec (ext x0) par s.se = some (e0, p.path cfg s)) (hn : e0.ii = n)
    (hsm : p.smoothAN (ext x0) par s.se) :
    Hist false (Anf.fromTape (s'.tape N) true) ∧
      (Anf.fromTape (s'.tape N) true).shape = ⟨e0.ys.length, n, (p.switches (ext x0) par s.se).length⟩ := by
  obtain ⟨c1, c2, c3⟩ := counts h par x0 hpath hsm
  refine ⟨Hist.ofShape _, ?_⟩
  show shapeOfTape (s'.tape N) true = _
  simp only [shapeOfTape, if_true, Shape.mk.injEq]
  exact ⟨by rw [← c3], by rw [← c2, hn], by rw [← c1]⟩

/-- **C66** The Fortran routine (partial: as `C66_abs_normal_partial`): the arrays are those of the C++ object, matrices by
columns (`fy(j)`, `fY(j, i)`); nothing behind them is written. -/
theorem C66_fortran_partial (h : Traced cfg stock s p s' N) (hd : p.disc ⟨Set.univ, ∅⟩) (par : ℕ → ℝ) {n : ℕ} (fx : ℕ → ℝ)
    {e0 : SE ℝ} (hpath : p.spec (ext fun i : Fin n => fx i) par s.se = some (e0, p.path cfg s)) (hn : e0.ii = n)
    (hsm : p.smoothAN (ext fun i : Fin n => fx i) par s.se) {q : ℕ} (hq : (p.switches (ext fun i : Fin n => fx i) par s.se).length = q)
    (hpos : 0 < e0.ys.length + q) (f : FAnf ℝ) :
    ∃ f' a, absNormalF (s'.tape N) par true e0.ys.length n q fx f = .ok f' ∧
      IsDense p s par e0.ys.length n q (fun i => fx i) a ∧ IsConst p s par e0.ys.length n q (fun i => fx i) a ∧
      (∀ k, f'.y k = if k < e0.ys.length then a.y[k]?.getD 0 else f.y k) ∧ (∀ k, f'.z k = if k < q then a.z[k]?.getD 0 else f.z k) ∧
      (∀ k, f'.cy k = if k < e0.ys.length then a.cy[k]?.getD 0 else f.cy k) ∧ (∀ k, f'.cz k = if k < q then a.cz[k]?.getD 0 else f.cz k) ∧
      (∀ j i, j < e0.ys.length → i < n → a.Y.get j i = .ok (f'.Y (i * e0.ys.length + j))) ∧ (∀ k, e0.ys.length * n ≤ k → f'.Y k = f.Y k) ∧
      (∀ j i, j < e0.ys.length → i < q → a.J.get j i = .ok (f'.J (i * e0.ys.length + j))) ∧ (∀ k, e0.ys.length * q ≤ k → f'.J k = f.J k) ∧
      (∀ j i, j < q → i < n → a.Z.get j i = .ok (f'.Z (i * q + j))) ∧ (∀ k, q * n ≤ k → f'.Z k = f.Z k) ∧
      (∀ j i, j < q → i < q → a.L.get j i = .ok (f'.L (i * q + j))) ∧ (∀ k, q * q ≤ k → f'.L k = f.L k) := by
  obtain ⟨a, e, ha, h1, h2, _⟩ := C66_abs_normal_partial h hd par (fun i : Fin n => fx i) hpath hn hsm hq hpos
    (a := Anf.ofShape ⟨e0.ys.length, n, q⟩) (Hist.ofShape _) rfl true
  have hx : (List.range n).map (spread1 n fx fun _ => 0) = List.ofFn fun i : Fin n => fx i := by
    apply List.ext_getElem
    · simp
    · intro i h1 h2
      simp only [List.length_map, List.length_range] at h1
      simp only [List.getElem_map, List.getElem_range, List.getElem_ofFn, spread1_eq]
      rw [if_pos h1]
  obtain ⟨k1, k2, k3, k4, _⟩ := C66_storage ha
  rw [h1.shape] at k1 k2 k3 k4
  have old : ∀ {m n : ℕ} {b : Block ℝ}, IsMatrix m n b → ∀ i j, i < m → j < n → b.get i j = .ok (b.old i j) := by
    intro m n b hb i j hi hj
    obtain ⟨v, hv⟩ := (hb.2 i j hi hj).1
    rw [Block.old, hv]
  refine ⟨_, a, by rw [absNormalF]; simp only [hx, e]; rfl, h1, h2 rfl, fun k => pack1_eq _ _ _ _, fun k => pack1_eq _ _ _ _,
    fun k => pack1_eq _ _ _ _, fun k => pack1_eq _ _ _ _, fun j i hj hi => ?_, fun k hk => (C57_layout2 _ _ a.Y.old a.Y.old f.Y f.Y).2.1 k hk,
    fun j i hj hi => ?_, fun k hk => (C57_layout2 _ _ a.J.old a.J.old f.J f.J).2.1 k hk,
    fun j i hj hi => ?_, fun k hk => (C57_layout2 _ _ a.Z.old a.Z.old f.Z f.Z).2.1 k hk,
    fun j i hj hi => ?_, fun k hk => (C57_layout2 _ _ a.L.old a.L.old f.L f.L).2.1 k hk⟩
  · dsimp only
    rw [((C57_layout2 _ _ a.Y.old a.Y.old f.Y f.Y).1 j i hj hi).1]; exact old k1 j i hj hi
  · dsimp only
    rw [((C57_layout2 _ _ a.J.old a.J.old f.J f.J).1 j i hj hi).1]; exact old k2 j i hj hi
  · dsimp only
    rw [((C57_layout2 _ _ a.Z.old a.Z.old f.Z f.Z).1 j i hj hi).1]; exact old k3 j i hj hi
  · dsimp only
    rw [((C57_layout2 _ _ a.L.old a.L.old f.L f.L).1 j i hj hi).1]; exact old k4 j i hj hi

/-! ### Where the code deviates -/

/-- The class is documented (absnormalformconcept.h:19-31, psdrivers.h) by `y = cy + Y x + J |z|`, `z = cz + Z x + L |z|`.  What is
computed satisfies `y = cy + J |z|`; the documented equation for `y_j` holds exactly if `(Y x)_j = 0`, and likewise for `z`. -/
theorem C66_equation {par : ℕ → ℝ} {m n q : ℕ} {x0 : Fin n → ℝ} {a : Anf ℝ} (h1 : IsDense p s par m n q x0 a)
    (h2 : IsConst p s par m n q x0 a) :
    (∀ j < m, (a.y[j]?.getD 0 = a.cy[j]?.getD 0 + ∑ i : Fin n, a.Y.old j i * x0 i + ∑ k ∈ Finset.range q, a.J.old j k * |a.z[k]?.getD 0| ↔
      ∑ i : Fin n, a.Y.old j i * x0 i = 0)) ∧
    ∀ k < q, (a.z[k]?.getD 0 = a.cz[k]?.getD 0 + ∑ i : Fin n, a.Z.old k i * x0 i + ∑ l ∈ Finset.range q, a.L.old k l * |a.z[l]?.getD 0| ↔
      ∑ i : Fin n, a.Z.old k i * x0 i = 0) := by
  have old : ∀ {b : Block ℝ} {i j : ℕ} {v : ℝ}, b.get i j = .ok v → b.old i j = v := fun h => by rw [Block.old, h]
  constructor
  · intro j hj
    have e : ∑ k ∈ Finset.range q, a.J.old j k * |a.z[k]?.getD 0| =
        ∑ k ∈ Finset.range q, fderiv ℝ (outFn p s par n q j) (x0, absZ p s par q x0) (ew n q k) * |a.z[k]?.getD 0| :=
      Finset.sum_congr rfl fun k hk => by rw [old (h1.J j k hj (Finset.mem_range.1 hk))]
    rw [h2.1 j hj, e]
    constructor <;> intro h <;> linarith
  · intro k hk
    have e : ∑ l ∈ Finset.range q, a.L.old k l * |a.z[l]?.getD 0| =
        ∑ l ∈ Finset.range q, fderiv ℝ (argFn p s par n q k) (x0, absZ p s par q x0) (ew n q l) * |a.z[l]?.getD 0| :=
      Finset.sum_congr rfl fun l hl => by rw [old (h1.L k l hk (Finset.mem_range.1 hl))]
    rw [h2.2 k hk, e]
    constructor <;> intro h <;> linarith

/-- A moved-from object still reports its former dimensions and is not `empty()`, although nothing is left in it: reading any
element, and a call of `abs_normal` that the C driver accepts, are accesses outside the vectors. -/
theorem C66_moved {f : Bool} {a : Anf ℝ} (h : Hist f a) :
    Hist true a.movedFrom ∧ a.movedFrom.shape = a.shape ∧ a.movedFrom.empty = a.empty ∧
      (∀ i j, a.movedFrom.Y.get i j = .error .oob ∧ a.movedFrom.J.get i j = .error .oob ∧ a.movedFrom.Z.get i j = .error .oob ∧
        a.movedFrom.L.get i j = .error .oob) ∧
      ∀ (upd : Bool) (ops : List (Base ℝ)) (par : ℕ → ℝ) (mm : Bool) (x : List ℝ) {r : ANF ℝ}, 0 < a.shape.m + a.shape.s →
        Verif.AD.absNormal ops par mm a.shape.m a.shape.n a.shape.s (fun i => x[i]?.getD 0) = .ok r →
        absNormalObj upd ops par mm x a.movedFrom = .error .oob := by
  refine ⟨h.movedFrom, rfl, rfl, fun i j => ⟨rfl, rfl, rfl, rfl⟩, fun upd ops par mm x r hpos hr => ?_⟩
  unfold absNormalObj
  simp only
  obtain ⟨r', e, _⟩ := absNormalInto_eq (bar0 := fun r i => if r < a.shape.m then a.movedFrom.Y.old r i else a.movedFrom.Z.old (r - a.shape.m) i)
    (sbar0 := fun r k => if r < a.shape.m then a.movedFrom.J.old r k else a.movedFrom.L.old (r - a.shape.m) k) hr hpos
  rw [show a.movedFrom.shape = a.shape from rfl, e]
  simp only
  by_cases hxl : x.length < a.shape.n
  · rw [if_pos hxl]
  rw [if_neg hxl]
  have hv : ∀ k (w : ℕ → ℝ), 0 < k → vwrite k w [] = .error .oob := by
    intro k w hk
    obtain ⟨k, rfl⟩ : ∃ k', k = k' + 1 := ⟨k - 1, by omega⟩
    induction k with
    | zero => rfl
    | succ k ih =>
      rw [vwrite, loop]
      have := ih (by omega)
      rw [vwrite] at this
      rw [this]
  have hy : a.movedFrom.y = [] := rfl
  have hz : a.movedFrom.z = [] := rfl
  by_cases hm : 0 < a.shape.m
  · rw [hy, hv _ _ hm]; rfl
  · have : a.shape.m = 0 := by omega
    rw [hy, hz, this, hv a.shape.s _ (by omega)]
    rfl

/-- The length of `x` is not checked: with a shorter vector the driver reads behind its end. -/
theorem C66_short_x {a : Anf ℝ} (upd : Bool) (ops : List (Base ℝ)) (par : ℕ → ℝ) (mm : Bool) (x : List ℝ) {r : ANF ℝ}
    (hpos : 0 < a.shape.m + a.shape.s) (hx : x.length < a.shape.n)
    (hr : Verif.AD.absNormal ops par mm a.shape.m a.shape.n a.shape.s (fun i => x[i]?.getD 0) = .ok r) :
    absNormalObj upd ops par mm x a = .error .oob := by
  unfold absNormalObj
  simp only
  obtain ⟨r', e, _⟩ := absNormalInto_eq (bar0 := fun r i => if r < a.shape.m then a.Y.old r i else a.Z.old (r - a.shape.m) i)
    (sbar0 := fun r k => if r < a.shape.m then a.J.old r k else a.L.old (r - a.shape.m) k) hr hpos
  rw [e]
  simp only
  rw [if_pos hx]

/-! ### The hypotheses are met -/

/-- All hypotheses of `C66_abs_normal_partial` hold for `kink` at every point, with the object made by `fromTape` and with one
that is used again. -/
example : ∃ s', Traced demoCfg [] demoStart kink s' (s'.hw + 1) ∧ kink.disc ⟨Set.univ, ∅⟩ ∧
    ∀ x0 : Fin 2 → ℝ, ∃ e0, kink.spec (ext x0) (fun _ => 0) demoStart.se = some (e0, kink.path demoCfg demoStart) ∧ e0.ii = 2 ∧
      kink.smoothAN (ext x0) (fun _ => 0) demoStart.se ∧ (kink.switches (ext x0) (fun _ => 0) demoStart.se).length = 2 ∧
      0 < e0.ys.length + 2 ∧ (∃ a, Hist false a ∧ a = Anf.fromTape (s'.tape (s'.hw + 1)) true ∧ a.shape = ⟨e0.ys.length, 2, 2⟩) ∧
      ∃ a a' : Anf ℝ, Hist false a' ∧ a' = (a.movedFrom).resize ⟨e0.ys.length, 2, 2⟩ := by
  obtain ⟨e, h1, h2, h3⟩ := kink_spec demoCfg.x demoCfg.par
  obtain ⟨s', h4, h5⟩ := traced_exists (stock := []) demo_alloc demo_start
    (by simp [kink, Prog.noFminLL, Stmt.notFminLL]) h1
  refine ⟨s', h4, by simp [kink, Prog.disc, Stmt.disc, Stmt.discNext, Stmt.uses], fun x0 => ?_⟩
  obtain ⟨e', g1, g2, g3⟩ := kink_spec (ext x0) (fun _ => 0)
  have hp : kink.spec (ext x0) (fun _ => 0) demoStart.se = some (e', kink.path demoCfg demoStart) := by rw [h5]; exact g1
  have hq : (kink.switches (ext x0) (fun _ => 0) demoStart.se).length = 2 := by rw [kink_switches]; rfl
  obtain ⟨f1, f2⟩ := C66_fromTape h4 (fun _ => 0) x0 hp g2 (kink_smooth _ _)
  rw [hq] at f2
  exact ⟨e', hp, g2, kink_smooth _ _, hq, by omega, ⟨_, f1, rfl, f2⟩, Anf.new, _, Hist.resize _ (Hist.movedFrom Hist.new), rfl⟩

theorem kink_swArg (x w par : ℕ → ℝ) : kink.swArg x w par demoStart.se 0 = x 0 := by
  simp [Prog.swArg, kink, Prog.swSpec, Stmt.swSpec, Stmt.spec, demoStart, Rec.se, SE.set, SE.del, upd_apply, Bin.fn, Un.fn, Elem.fabs]

/-- The documented equation fails: for `y = |x0| |x1 - |x0||` at `(1, 3)`, where the first switching variable is `x0`. -/
theorem C66_equation_witness : ∃ (s' : Rec ℝ) (a : Anf ℝ),
    Traced demoCfg [] demoStart kink s' (s'.hw + 1) ∧
    absNormalObj true (s'.tape (s'.hw + 1)) (fun _ => 0) true (List.ofFn (![1, 3] : Fin 2 → ℝ)) (Anf.fromTape (s'.tape (s'.hw + 1)) true) = .ok a ∧
    IsDense kink demoStart (fun _ => 0) 1 2 2 ![1, 3] a ∧
    a.z[0]?.getD 0 ≠ a.cz[0]?.getD 0 + ∑ i : Fin 2, a.Z.old 0 i * (![1, 3] : Fin 2 → ℝ) i + ∑ l ∈ Finset.range 2, a.L.old 0 l * |a.z[l]?.getD 0| := by
  obtain ⟨e, h1, h2, h3⟩ := kink_spec demoCfg.x demoCfg.par
  obtain ⟨s', h4, h5⟩ := traced_exists (stock := []) demo_alloc demo_start
    (by simp [kink, Prog.noFminLL, Stmt.notFminLL]) h1
  obtain ⟨e', g1, g2, g3⟩ := kink_spec (ext (![1, 3] : Fin 2 → ℝ)) (fun _ => 0)
  have hp : kink.spec (ext (![1, 3] : Fin 2 → ℝ)) (fun _ => 0) demoStart.se = some (e', kink.path demoCfg demoStart) := by rw [h5]; exact g1
  have hq : (kink.switches (ext (![1, 3] : Fin 2 → ℝ)) (fun _ => 0) demoStart.se).length = 2 := by rw [kink_switches]; rfl
  have hm : e'.ys.length = 1 := by rw [g3]; rfl
  obtain ⟨f1, f2⟩ := C66_fromTape h4 (fun _ => 0) _ hp g2 (kink_smooth _ _)
  rw [hq] at f2
  obtain ⟨a, k1, _, k2, k3, _⟩ := C66_abs_normal_partial h4 (by simp [kink, Prog.disc, Stmt.disc, Stmt.discNext, Stmt.uses]) (fun _ => 0)
    (![1, 3] : Fin 2 → ℝ) hp g2 (kink_smooth _ _) hq (by omega) f1 f2 true
  rw [hm] at k2 k3
  refine ⟨s', a, h4, k1, k2, fun hc => ?_⟩
  have hz := ((C66_equation k2 (k3 rfl)).2 0 (by omega)).1 hc
  have old : ∀ {b : Block ℝ} {i j : ℕ} {v : ℝ}, b.get i j = .ok v → b.old i j = v := fun h => by rw [Block.old, h]
  have hd : ∀ v : (Fin 2 → ℝ) × (Fin 2 → ℝ), fderiv ℝ (argFn kink demoStart (fun _ => 0) 2 2 0) (![1, 3], absZ kink demoStart (fun _ => 0) 2 ![1, 3]) v = v.1 0 := by
    intro v
    have e : argFn kink demoStart (fun _ => 0) 2 2 0 = fun b : (Fin 2 → ℝ) × (Fin 2 → ℝ) => b.1 0 := by
      funext b
      rw [argFn, kink_swArg]
      rfl
    rw [e]
    have := ((ContinuousLinearMap.proj (R := ℝ) (φ := fun _ : Fin 2 => ℝ) 0).comp (ContinuousLinearMap.fst ℝ (Fin 2 → ℝ) (Fin 2 → ℝ))).hasFDerivAt
      (x := (![1, 3], absZ kink demoStart (fun _ => 0) 2 ![1, 3]))
    exact congrArg (fun f : _ →L[ℝ] ℝ => f v) this.fderiv
  rw [Fin.sum_univ_two, old (k2.Z 0 _ (by omega) (by simp)), old (k2.Z 0 _ (by omega) (by simp)), hd, hd] at hz
  simp [ex] at hz

end Verif.Props.AnfDense
end
