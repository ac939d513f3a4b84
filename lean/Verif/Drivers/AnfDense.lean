import Verif.AD.AbsFrom
import Verif.Drivers.Fortran
import Mathlib.Algebra.BigOperators.Intervals

/-!
# `ADOLC::AbsNormalForm` (`include/adolc/drivers/absnormalform.h`, `src/drivers/absnormalform.cpp`), the drivers
`ADOLC::abs_normal<...>` (`src/drivers/psdrivers.cpp:166-190`) and `abs_normal_` (`src/drivers/psdriversf.cpp`)

A vector of doubles is a list, a row pointer is `none` (`nullptr`) or the offset of the row in the flat storage of its
block.  Reading or writing outside a vector is the error `oob`.
-/
set_option linter.all false
namespace Verif.Drivers
open Verif.AD Elem

section
variable {K : Type} [Scalar K]

/-- `DenseShape` (absnormalform.h:22-29) -/
structure Shape where
  m : ℕ
  n : ℕ
  s : ℕ
  deriving DecidableEq, Repr

/-- One block: row pointers and storage (absnormalform.h:47-63). -/
structure Block (K : Type) where
  rows : List (Option ℕ)
  mem : List K

/-- `AbsNormalForm` (absnormalform.h:40-72) -/
structure Anf (K : Type) where
  shape : Shape
  Y : Block K
  J : Block K
  Z : Block K
  L : Block K
  cz : List K
  cy : List K
  y : List K
  z : List K

/-- `AbsNormalForm() = default` (absnormalform.h:75) -/
def Anf.new : Anf K := ⟨⟨0, 0, 0⟩, ⟨[], []⟩, ⟨[], []⟩, ⟨[], []⟩, ⟨[], []⟩, [], [], [], []⟩

/-- `v.resize(k, 0.0)` -/
def vresize (k : ℕ) (v : List K) : List K := v.take k ++ List.replicate (k - v.length) 0

/-- `Y_storage.resize(m * n, 0.0); Y.resize(m); for (i) Y[i] = n == 0 ? nullptr : Y_storage.data() + i * n`
(absnormalform.cpp:33, 38, 43-45, and likewise for the other blocks) -/
def Block.resize (m n : ℕ) (b : Block K) : Block K :=
  ⟨(List.range m).map fun i => if n = 0 then none else some (i * n), vresize (m * n) b.mem⟩

/-- `AbsNormalForm::resize` (absnormalform.cpp:30-60) -/
def Anf.resize (d : Shape) (a : Anf K) : Anf K :=
  ⟨d, a.Y.resize d.m d.n, a.J.resize d.m d.s, a.Z.resize d.s d.n, a.L.resize d.s d.s,
    vresize d.s a.cz, vresize d.m a.cy, vresize d.m a.y, vresize d.s a.z⟩

/-- `AbsNormalForm::clear` (absnormalform.cpp:11-28) -/
def Anf.clear (_ : Anf K) : Anf K := Anf.new

/-- `explicit AbsNormalForm(Shape)` (absnormalform.h:83) -/
def Anf.ofShape (d : Shape) : Anf K := Anf.new.resize d

/-- What the defaulted move constructor and move assignment (absnormalform.h:85-86) leave in the source: `shape` is
copied, the vectors are emptied (as the vectors of all standard libraries do).  The target gets the source's former
value: the buffers move, so the row pointers stay valid. -/
def Anf.movedFrom (a : Anf K) : Anf K := { Anf.new with shape := a.shape }

/-- `empty()` (absnormalform.h:106) -/
def Anf.empty (a : Anf K) : Bool := a.shape.m = 0 && a.shape.n = 0 && a.shape.s = 0

/-- What goes wrong. -/
inductive AErr where
  /-- access outside a vector, or through a null pointer -/
  | oob
  /-- the C driver fails -/
  | drv (e : ANErr)
  deriving DecidableEq, Repr

/-- `v[k]` -/
def rd (v : List K) (k : ℕ) : Except AErr K := match v[k]? with | some a => .ok a | none => .error .oob

/-- `v[k] = a` -/
def wr (v : List K) (k : ℕ) (a : K) : Except AErr (List K) := if k < v.length then .ok (v.set k a) else .error .oob

/-- `B[i]` as a pointer -/
def Block.row (b : Block K) (i : ℕ) : Except AErr ℕ := match b.rows[i]? with | some (some p) => .ok p | _ => .error .oob

/-- `B[i][j]` -/
def Block.get (b : Block K) (i j : ℕ) : Except AErr K :=
  match b.row i with | .error e => .error e | .ok p => rd b.mem (p + j)

/-- `B[i][j] = a` -/
def Block.set (b : Block K) (i j : ℕ) (a : K) : Except AErr (Block K) :=
  match b.row i with
  | .error e => .error e
  | .ok p => match wr b.mem (p + j) a with | .error e => .error e | .ok v => .ok { b with mem := v }

/-- `for (j = 0; j < k; j++) s = f(j, s)` -/
def loop {S : Type} (k : ℕ) (f : ℕ → S → Except AErr S) (s : S) : Except AErr S :=
  match k with
  | 0 => .ok s
  | k + 1 => match loop k f s with | .error e => .error e | .ok s => f k s

/-- Rows `0..m-1`, columns `0..n-1` of the block get the values `v`: the writes of `fov_pl_reverse` through `results`,
`resultsSwitch`, which are the row pointers of the object (psdrivers.cpp:72-73, 80-81).  Simplified: in the order of the
rows, not in that of the sweep (the sweep never reads them, `absNormalInto_eq`). -/
def Block.write (m n : ℕ) (v : ℕ → ℕ → K) (b : Block K) : Except AErr (Block K) :=
  loop m (fun i b => loop n (fun j b => b.set i j (v i j)) b) b

/-- What is in row `i`, column `j` before the call (`0` if there is nothing). -/
def Block.old (b : Block K) (i j : ℕ) : K := match b.get i j with | .ok a => a | .error _ => 0

/-- `v[0..k-1] = w` -/
def vwrite (k : ℕ) (w : ℕ → K) (v : List K) : Except AErr (List K) := loop k (fun i v => wr v i (w i)) v

/-- `updateCy`, `updateCz` (absnormalform.h:132-149): `c = y; for i < r, for j < s: c[i] -= B[i][j] * fabs(z[j])` -/
def updateC (r s : ℕ) (b : Block K) (z y : List K) : Except AErr (List K) :=
  loop r (fun i c => loop s (fun j c =>
    match b.get i j with
    | .error e => .error e
    | .ok a =>
      match rd z j with
      | .error e => .error e
      | .ok zj =>
        match rd c i with
        | .error e => .error e
        | .ok ci => wr c i (ci - a * fabs zj)) c) y

/-- `abs_normal` (psdrivers.cpp:33-88) as in `absNormal`, but `results` and `resultsSwitch` are the caller's arrays:
`bar0 row i`, `sbar0 row k` is what they contain. -/
def absNormalInto (bar0 sbar0 : ℕ → ℕ → K) (ops : List (Base K)) (par : ℕ → K) (mm : Bool) (m n swchk : ℕ) (x : ℕ → K) :
    Except ANErr (ANF K) :=
  let s := if mm then numSw ops else 0
  if s ≠ swchk then .error .switches
  else if ¬ (n = numInd ops ∧ m = numDep ops) then .error .counts
  else if ¬ mm then .error .noMinMax
  else
    match zosPlRun ⟨x, par, true⟩ ops ⟨ZS.init, []⟩ with
    | .error _ => .error .stopped
    | .ok f =>
      let lagrange : ℕ → ℕ → K := fun row j => if row < m ∧ j = row then 1 else 0
      let lagrangeSwitch : ℕ → ℕ → K := fun row k => if m ≤ row ∧ k = row - m then 1 else 0
      match fovPlRevRun (m + s) lagrange lagrangeSwitch ops ⟨{ VRS.init n m f.z.stk with bar := bar0 }, s, sbar0⟩ with
      | .error _ => .error .stack
      | .ok r => .ok ⟨f.z.y, f.sw, fun j i => r.r.bar j i, fun j k => r.sbar j k,
          fun k i => r.r.bar (m + k) i, fun k l => r.sbar (m + k) l⟩

/-- `ADOLC::abs_normal<UpdateConsts::True>` (`upd`) and `<UpdateConsts::False>` (psdrivers.cpp:166-189).  The length of
`x` is not checked.  An exception of the C driver leaves the object as it was. -/
def absNormalObj (upd : Bool) (ops : List (Base K)) (par : ℕ → K) (mm : Bool) (x : List K) (a : Anf K) : Except AErr (Anf K) :=
  let m := a.shape.m
  let n := a.shape.n
  let s := a.shape.s
  match absNormalInto (fun r i => if r < m then a.Y.old r i else a.Z.old (r - m) i)
      (fun r k => if r < m then a.J.old r k else a.L.old (r - m) k) ops par mm m n s (fun i => x[i]?.getD 0) with
  | .error e => .error (.drv e)
  | .ok r =>
    if x.length < n then .error .oob
    else do
      let y ← vwrite m (fun i => r.y[i]?.getD 0) a.y
      let z ← vwrite s (fun i => r.z[i]?.getD 0) a.z
      let Y ← a.Y.write m n r.Y
      let J ← a.J.write m s r.J
      let Z ← a.Z.write s n r.Z
      let L ← a.L.write s s r.L
      if upd then
        let cy ← updateC m s J z y
        let cz ← updateC s s L z z
        return { a with Y := Y, J := J, Z := Z, L := L, y := y, z := z, cy := cy, cz := cz }
      else return { a with Y := Y, J := J, Z := Z, L := L, y := y, z := z }

/-- `getShapeFromTape` (absnormalform.cpp:5-10) -/
def shapeOfTape (ops : List (Base K)) (mm : Bool) : Shape := ⟨numDep ops, numInd ops, if mm then numSw ops else 0⟩

/-- `AbsNormalForm::fromTape` (absnormalform.h:97-99) -/
def Anf.fromTape (ops : List (Base K)) (mm : Bool) : Anf K := Anf.ofShape (shapeOfTape ops mm)

/-- The Fortran arrays of `abs_normal_`. -/
structure FAnf (K : Type) where
  y : ℕ → K
  z : ℕ → K
  cz : ℕ → K
  cy : ℕ → K
  J : ℕ → K
  Y : ℕ → K
  Z : ℕ → K
  L : ℕ → K

/-- `abs_normal_` (psdriversf.cpp:33-58); `pack2` reads through the row pointers. -/
def absNormalF (ops : List (Base K)) (par : ℕ → K) (mm : Bool) (m n s : ℕ) (fx : ℕ → K) (f : FAnf K) : Except AErr (FAnf K) :=
  let x := spread1 n fx (fun _ => 0)
  match absNormalObj true ops par mm ((List.range n).map x) (Anf.ofShape ⟨m, n, s⟩) with
  | .error e => .error e
  | .ok a => .ok
    { y := pack1 m (fun i => a.y[i]?.getD 0) f.y
      z := pack1 s (fun i => a.z[i]?.getD 0) f.z
      cz := pack1 s (fun i => a.cz[i]?.getD 0) f.cz
      cy := pack1 m (fun i => a.cy[i]?.getD 0) f.cy
      Y := pack2 m n a.Y.old f.Y
      J := pack2 m s a.J.old f.J
      Z := pack2 s n a.Z.old f.Z
      L := pack2 s s a.L.old f.L }

/-! ### Blocks -/

/-- Row pointers and storage belong together. -/
structure Block.Ok (m n : ℕ) (b : Block K) : Prop where
  rows : b.rows = (List.range m).map fun i => if n = 0 then none else some (i * n)
  len : b.mem.length = m * n

theorem vresize_length (k : ℕ) (v : List K) : (vresize k v).length = k := by
  simp only [vresize, List.length_append, List.length_take, List.length_replicate]; omega

theorem vresize_get (k : ℕ) (v : List K) (i : ℕ) (h : i < k) : (vresize k v)[i]? = some (v[i]?.getD 0) := by
  unfold vresize
  by_cases hi : i < v.length
  · rw [List.getElem?_append_left (by simp; omega), List.getElem?_take, if_pos h, List.getElem?_eq_getElem hi]; rfl
  · rw [List.getElem?_append_right (by simp; omega), List.getElem?_replicate, if_pos (by simp; omega), List.getElem?_eq_none (by omega)]
    rfl

theorem Block.resize_ok (m n : ℕ) (b : Block K) : (b.resize m n).Ok m n := ⟨rfl, vresize_length _ _⟩

theorem Block.Ok.row {m n : ℕ} {b : Block K} (h : b.Ok m n) {i : ℕ} (hi : i < m) (hn : 0 < n) : b.row i = .ok (i * n) := by
  simp only [Block.row, h.rows, List.getElem?_map, List.getElem?_range hi, Option.map_some, if_neg (show ¬ n = 0 by omega)]

theorem idx_lt {m n i j : ℕ} (hi : i < m) (hj : j < n) : i * n + j < m * n := by
  calc i * n + j < i * n + n := by omega
    _ = (i + 1) * n := by ring
    _ ≤ m * n := Nat.mul_le_mul_right _ hi

theorem Block.Ok.get {m n : ℕ} {b : Block K} (h : b.Ok m n) {i j : ℕ} (hi : i < m) (hj : j < n) :
    ∃ a, b.get i j = .ok a ∧ b.mem[i * n + j]? = some a := by
  have hl : i * n + j < b.mem.length := by rw [h.len]; exact idx_lt hi hj
  refine ⟨b.mem[i * n + j], ?_, List.getElem?_eq_getElem hl⟩
  rw [Block.get, h.row hi (by omega)]
  simp only [rd, List.getElem?_eq_getElem hl]

theorem idx_inj {n i j i' j' : ℕ} (hj : j < n) (hj' : j' < n) (h : i * n + j = i' * n + j') : i = i' ∧ j = j' := by
  have h1 : (i * n + j) % n = (i' * n + j') % n := by rw [h]
  rw [Nat.mul_comm i, Nat.mul_comm i', Nat.mul_add_mod, Nat.mul_add_mod, Nat.mod_eq_of_lt hj, Nat.mod_eq_of_lt hj'] at h1
  subst h1
  exact ⟨Nat.eq_of_mul_eq_mul_right (show 0 < n by omega) (by omega), rfl⟩

theorem Block.Ok.set {m n : ℕ} {b : Block K} (h : b.Ok m n) {i j : ℕ} (hi : i < m) (hj : j < n) (a : K) :
    ∃ b', b.set i j a = .ok b' ∧ b'.Ok m n ∧ b'.get i j = .ok a ∧
      ∀ i' j', i' < m → j' < n → ¬ (i' = i ∧ j' = j) → b'.get i' j' = b.get i' j' := by
  have hl : i * n + j < b.mem.length := by rw [h.len]; exact idx_lt hi hj
  have e : b.set i j a = .ok { b with mem := b.mem.set (i * n + j) a } := by
    rw [Block.set, h.row hi (by omega)]
    simp only [wr, if_pos hl]
  have hok : Block.Ok m n { b with mem := b.mem.set (i * n + j) a } := ⟨h.rows, by simp [h.len]⟩
  refine ⟨_, e, hok, ?_, fun i' j' hi' hj' hne => ?_⟩
  · rw [Block.get, hok.row hi (by omega)]
    simp only [rd]
    rw [List.getElem?_set_self hl]
  · rw [Block.get, hok.row hi' (by omega), Block.get, h.row hi' (by omega)]
    simp only [rd]
    rw [List.getElem?_set_ne (fun he => hne (by obtain ⟨a, b⟩ := idx_inj hj hj' he; exact ⟨a.symm, b.symm⟩))]

theorem loop_inv {S : Type} (P : ℕ → S → Prop) {k : ℕ} {f : ℕ → S → Except AErr S} {s : S} (h0 : P 0 s)
    (hs : ∀ i s, i < k → P i s → ∃ s', f i s = .ok s' ∧ P (i + 1) s') : ∃ s', loop k f s = .ok s' ∧ P k s' := by
  induction k with
  | zero => exact ⟨s, rfl, h0⟩
  | succ k ih =>
    obtain ⟨s1, e1, p1⟩ := ih (fun i s hi => hs i s (by omega))
    obtain ⟨s2, e2, p2⟩ := hs k s1 (by omega) p1
    exact ⟨s2, by rw [loop, e1]; exact e2, p2⟩

theorem Block.Ok.write {m n : ℕ} {b : Block K} (h : b.Ok m n) (v : ℕ → ℕ → K) :
    ∃ b', b.write m n v = .ok b' ∧ b'.Ok m n ∧ ∀ i j, i < m → j < n → b'.get i j = .ok (v i j) := by
  obtain ⟨b', e, h1, h2⟩ := loop_inv (k := m) (f := fun i b => loop n (fun j b => b.set i j (v i j)) b)
    (s := b) (fun k c => c.Ok m n ∧ ∀ i j, i < k → j < n → c.get i j = .ok (v i j)) ⟨h, fun i j hi => by omega⟩
    (fun i c hi hc => by
      obtain ⟨c', e, h1, h2, h3⟩ := loop_inv (k := n) (f := fun j b => b.set i j (v i j)) (s := c)
        (fun k d => d.Ok m n ∧ (∀ j, j < k → d.get i j = .ok (v i j)) ∧ ∀ i' j, i' < i → j < n → d.get i' j = .ok (v i' j))
        ⟨hc.1, fun j hj => by omega, hc.2⟩
        (fun j d hj hd => by
          obtain ⟨d', e, k1, k2, k3⟩ := hd.1.set hi hj (v i j)
          refine ⟨d', e, k1, fun j' hj' => ?_, fun i' j' hi' hj' => ?_⟩
          · by_cases hjj : j' = j
            · rw [hjj]; exact k2
            · rw [k3 i j' hi (by omega) (by omega)]; exact hd.2.1 j' (by omega)
          · rw [k3 i' j' (by omega) hj' (by omega)]; exact hd.2.2 i' j' hi' hj')
      refine ⟨c', e, h1, fun i' j hi' hj => ?_⟩
      by_cases hii : i' = i
      · rw [hii]; exact h2 j hj
      · exact h3 i' j (by omega) hj)
  exact ⟨b', e, h1, h2⟩

theorem vwrite_eq {k : ℕ} {v : List K} (hv : v.length = k) {w : List K} (hw : w.length = k) :
    vwrite k (fun i => w[i]?.getD 0) v = .ok w := by
  obtain ⟨v', e, h1, h2⟩ := loop_inv (k := k) (f := fun i v => wr v i (w[i]?.getD 0)) (s := v)
    (fun j u => u.length = k ∧ ∀ i, i < j → u[i]? = w[i]?) ⟨hv, fun i hi => by omega⟩
    (fun i u hi hu => by
      refine ⟨u.set i (w[i]?.getD 0), by rw [wr, if_pos (by omega)], by simp [hu.1], fun j hj => ?_⟩
      by_cases hij : j = i
      · subst hij
        rw [List.getElem?_set_self (by omega), List.getElem?_eq_getElem (show j < w.length by omega)]; rfl
      · rw [List.getElem?_set_ne (by omega)]; exact hu.2 j (by omega))
  rw [vwrite, e]
  congr 1
  apply List.ext_getElem?
  intro i
  by_cases hi : i < k
  · exact h2 i hi
  · rw [List.getElem?_eq_none (by omega), List.getElem?_eq_none (by omega)]

theorem updateC_eq {r s : ℕ} {b : Block K} (hb : b.Ok r s) {v : ℕ → ℕ → K} (hv : ∀ i j, i < r → j < s → b.get i j = .ok (v i j))
    {z y : List K} (hz : z.length = s) (hy : y.length = r) :
    ∃ c, updateC r s b z y = .ok c ∧ c.length = r ∧
      ∀ i, i < r → c[i]?.getD 0 = y[i]?.getD 0 - ∑ j ∈ Finset.range s, v i j * fabs (z[j]?.getD 0) := by
  obtain ⟨c, e, h1, h2, h3⟩ := loop_inv (k := r) (s := y)
    (f := fun i c => loop s (fun j c =>
      match b.get i j with
      | .error e => .error e
      | .ok a =>
        match rd z j with
        | .error e => .error e
        | .ok zj =>
          match rd c i with
          | .error e => .error e
          | .ok ci => wr c i (ci - a * fabs zj)) c)
    (fun k c => c.length = r ∧ (∀ i, i < k → c[i]?.getD 0 = y[i]?.getD 0 - ∑ j ∈ Finset.range s, v i j * fabs (z[j]?.getD 0)) ∧
      ∀ i, k ≤ i → c[i]? = y[i]?) ⟨hy, fun i hi => by omega, fun i _ => rfl⟩
    (fun i c hi hc => by
      obtain ⟨d, e, h1, h2, h3⟩ := loop_inv (k := s) (s := c)
        (f := fun j c =>
          match b.get i j with
          | .error e => .error e
          | .ok a =>
            match rd z j with
            | .error e => .error e
            | .ok zj =>
              match rd c i with
              | .error e => .error e
              | .ok ci => wr c i (ci - a * fabs zj))
        (fun k d => d.length = r ∧ (d[i]?.getD 0 = y[i]?.getD 0 - ∑ j ∈ Finset.range k, v i j * fabs (z[j]?.getD 0)) ∧
          ∀ i', i' ≠ i → d[i']? = c[i']?)
        ⟨hc.1, by rw [hc.2.2 i (le_refl _)]; simp, fun _ _ => rfl⟩
        (fun j d hj hd => by
          have hzj : z[j]? = some (z[j]'(by omega)) := List.getElem?_eq_getElem (by omega)
          have hdi : d[i]? = some (d[i]'(by omega)) := List.getElem?_eq_getElem (by omega)
          refine ⟨d.set i (d[i]'(by omega) - v i j * fabs (z[j]'(by omega))), ?_, by simp [hd.1], ?_, fun i' hi' => ?_⟩
          · rw [hv i j hi hj]
            simp only [rd, hzj, hdi, wr]
            rw [if_pos (by omega)]
          · rw [List.getElem?_set_self (by omega), Finset.sum_range_succ, hzj]
            have := hd.2.1
            rw [hdi] at this
            simp only [Option.getD_some] at this ⊢
            rw [this]; ring
          · rw [List.getElem?_set_ne (by omega)]; exact hd.2.2 i' hi')
      refine ⟨d, e, h1, fun i' hi' => ?_, fun i' hi' => ?_⟩
      · by_cases hii : i' = i
        · rw [hii]; exact h2
        · rw [h3 i' hii]; exact hc.2.1 i' (by omega)
      · rw [h3 i' (by omega)]; exact hc.2.2 i' (by omega))
  exact ⟨c, e, h1, h2⟩

/-- Shape, row pointers and vectors of the object belong together. -/
structure Anf.Ok (a : Anf K) : Prop where
  Y : a.Y.Ok a.shape.m a.shape.n
  J : a.J.Ok a.shape.m a.shape.s
  Z : a.Z.Ok a.shape.s a.shape.n
  L : a.L.Ok a.shape.s a.shape.s
  cz : a.cz.length = a.shape.s
  cy : a.cy.length = a.shape.m
  y : a.y.length = a.shape.m
  z : a.z.length = a.shape.s

theorem Anf.resize_ok (d : Shape) (a : Anf K) : (a.resize d).Ok :=
  ⟨Block.resize_ok _ _ _, Block.resize_ok _ _ _, Block.resize_ok _ _ _, Block.resize_ok _ _ _, vresize_length _ _, vresize_length _ _,
    vresize_length _ _, vresize_length _ _⟩

theorem Anf.new_ok : (Anf.new : Anf K).Ok :=
  ⟨⟨rfl, rfl⟩, ⟨rfl, rfl⟩, ⟨rfl, rfl⟩, ⟨rfl, rfl⟩, rfl, rfl, rfl, rfl⟩

/-! ### Results into arrays with old contents -/

theorem absNormalInto_eq {bar0 sbar0 : ℕ → ℕ → K} {ops : List (Base K)} {par : ℕ → K} {mm : Bool} {m n q : ℕ} {x : ℕ → K}
    {a : ANF K} (h : absNormal ops par mm m n q x = .ok a) (hpos : 0 < m + q) :
    ∃ a', absNormalInto bar0 sbar0 ops par mm m n q x = .ok a' ∧ a'.y = a.y ∧ a'.z = a.z ∧
      (∀ j i, j < m → i < n → a'.Y j i = a.Y j i) ∧ (∀ j k, j < m → k < q → a'.J j k = a.J j k) ∧
      (∀ k i, k < q → i < n → a'.Z k i = a.Z k i) ∧ ∀ k l, k < q → l < q → a'.L k l = a.L k l := by
  cases mm with
  | false =>
    exfalso
    unfold absNormal at h
    by_cases h1 : (0 : ℕ) ≠ q
    · simp [h1] at h
    · by_cases h2 : ¬ (n = numInd ops ∧ m = numDep ops)
      · simp [h1, h2] at h
      · simp [h1, h2] at h
  | true =>
  unfold absNormal at h
  unfold absNormalInto
  simp only [if_true] at h ⊢
  by_cases h1 : numSw ops ≠ q
  · rw [if_pos h1] at h; cases h
  rw [if_neg h1] at h ⊢
  by_cases h2 : ¬ (n = numInd ops ∧ m = numDep ops)
  · rw [if_pos h2] at h; cases h
  rw [if_neg h2] at h ⊢
  simp only [not_true_eq_false, if_false] at h ⊢
  cases hz : zosPlRun ⟨x, par, true⟩ ops ⟨ZS.init, []⟩ with
  | error e => rw [hz] at h; cases h
  | ok f =>
    rw [hz] at h
    simp only at h ⊢
    obtain ⟨hn, hm⟩ := not_not.1 h2
    have h1 := not_not.1 h1
    rw [h1] at h ⊢
    generalize hU : (fun row j => if row < m ∧ j = row then (1 : K) else 0) = U at h ⊢
    generalize hUs : (fun row k => if m ≤ row ∧ k = row - m then (1 : K) else 0) = Us at h ⊢
    cases hr : fovPlRevRun (m + q) U Us ops ⟨VRS.init n m f.z.stk, q, fun _ _ => 0⟩ with
    | error e => rw [hr] at h; cases h
    | ok r =>
      rw [hr] at h
      cases h
      have row : ∀ l, l < m + q → ∃ t, plRevRun (U l) (Us l) ops
          (VPRS.row l (⟨{ VRS.init n m f.z.stk with bar := bar0 }, q, sbar0⟩ : VPRS K)) = .ok t ∧
          (∀ i, i < n → t.r.bar i = r.r.bar l i) ∧ ∀ k, k < q → t.sbar k = r.sbar l k := by
        intro l hl
        have e := pl_row_run hl U Us ops (⟨VRS.init n m f.z.stk, q, fun _ _ => 0⟩ : VPRS K)
        rw [hr] at e
        obtain ⟨t, g1, g2, g3, g4⟩ := plRevRun_fr (n := n) (q := q) (U l) (Us l) ops
          (t := VPRS.row l (⟨{ VRS.init n m f.z.stk with bar := bar0 }, q, sbar0⟩ : VPRS K))
          (s := VPRS.row l (⟨VRS.init n m f.z.stk, q, fun _ _ => 0⟩ : VPRS K))
          ⟨⟨bar0 l, rfl, fun i h1 h2 => by
            have : n ≤ i := h1
            omega⟩, rfl, fun k h1 h2 => by
            have : q ≤ k := h1
            omega⟩ e.symm
        refine ⟨t, g1, fun i hi => ?_, fun k hk => ?_⟩
        · obtain ⟨b, b1, b2⟩ := g2.r
          rw [b1]
          refine b2 i ?_ hi
          rw [g3]
          show n - numInd ops ≤ i
          omega
        · refine g2.sb k ?_ hk
          rw [g4]
          show q - numSw ops ≤ k
          omega
      obtain ⟨t0, e0, _⟩ := row 0 hpos
      have run := pl_row_run hpos U Us ops (⟨{ VRS.init n m f.z.stk with bar := bar0 }, q, sbar0⟩ : VPRS K)
      rw [e0] at run
      cases hr' : fovPlRevRun (m + q) U Us ops ⟨{ VRS.init n m f.z.stk with bar := bar0 }, q, sbar0⟩ with
      | error e => rw [hr'] at run; cases run
      | ok r' =>
        have row' : ∀ l, l < m + q → (∀ i, i < n → r'.r.bar l i = r.r.bar l i) ∧ ∀ k, k < q → r'.sbar l k = r.sbar l k := by
          intro l hl
          obtain ⟨t, e1, e2, e3⟩ := row l hl
          have := pl_row_run hl U Us ops (⟨{ VRS.init n m f.z.stk with bar := bar0 }, q, sbar0⟩ : VPRS K)
          rw [e1, hr'] at this
          simp only [Except.map, Except.ok.injEq] at this
          subst this
          exact ⟨e2, e3⟩
        exact ⟨_, rfl, rfl, rfl, fun j i hj hi => (row' j (by omega)).1 i hi, fun j k hj hk => (row' j (by omega)).2 k hk,
          fun k i hk hi => (row' (m + k) (by omega)).1 i hi, fun k l hk hl => (row' (m + k) (by omega)).2 l hl⟩

/-- `abs_normal<...>` on a consistent object of the right shape. -/
theorem absNormalObj_eq {upd : Bool} {ops : List (Base K)} {par : ℕ → K} {mm : Bool} {x : List K} {a : Anf K} (ha : a.Ok)
    (hx : a.shape.n ≤ x.length) {r : ANF K}
    (h : absNormal ops par mm a.shape.m a.shape.n a.shape.s (fun i => x[i]?.getD 0) = .ok r) (hpos : 0 < a.shape.m + a.shape.s)
    (hy : r.y.length = a.shape.m) (hz : r.z.length = a.shape.s) :
    ∃ a', absNormalObj upd ops par mm x a = .ok a' ∧ a'.Ok ∧ a'.shape = a.shape ∧ a'.y = r.y ∧ a'.z = r.z ∧
      (∀ j i, j < a.shape.m → i < a.shape.n → a'.Y.get j i = .ok (r.Y j i)) ∧
      (∀ j k, j < a.shape.m → k < a.shape.s → a'.J.get j k = .ok (r.J j k)) ∧
      (∀ k i, k < a.shape.s → i < a.shape.n → a'.Z.get k i = .ok (r.Z k i)) ∧
      (∀ k l, k < a.shape.s → l < a.shape.s → a'.L.get k l = .ok (r.L k l)) ∧
      if upd then
        (∀ j, j < a.shape.m → a'.cy[j]?.getD 0 = r.y[j]?.getD 0 - ∑ k ∈ Finset.range a.shape.s, r.J j k * fabs (r.z[k]?.getD 0)) ∧
        ∀ j, j < a.shape.s → a'.cz[j]?.getD 0 = r.z[j]?.getD 0 - ∑ k ∈ Finset.range a.shape.s, r.L j k * fabs (r.z[k]?.getD 0)
      else a'.cy = a.cy ∧ a'.cz = a.cz := by
  unfold absNormalObj
  simp only
  obtain ⟨r', e, r1, r2, r3, r4, r5, r6⟩ := absNormalInto_eq
    (bar0 := fun r i => if r < a.shape.m then a.Y.old r i else a.Z.old (r - a.shape.m) i)
    (sbar0 := fun r k => if r < a.shape.m then a.J.old r k else a.L.old (r - a.shape.m) k) h hpos
  rw [e]
  simp only
  rw [if_neg (by omega)]
  obtain ⟨Y, Y1, Y2, Y3⟩ := ha.Y.write r'.Y
  obtain ⟨J, J1, J2, J3⟩ := ha.J.write r'.J
  obtain ⟨Z, Z1, Z2, Z3⟩ := ha.Z.write r'.Z
  obtain ⟨L, L1, L2, L3⟩ := ha.L.write r'.L
  have J3' : ∀ i j, i < a.shape.m → j < a.shape.s → J.get i j = .ok (r.J i j) := fun i j hi hj => by rw [J3 i j hi hj, r4 i j hi hj]
  have L3' : ∀ i j, i < a.shape.s → j < a.shape.s → L.get i j = .ok (r.L i j) := fun i j hi hj => by rw [L3 i j hi hj, r6 i j hi hj]
  obtain ⟨cy, c1, c2, c3⟩ := updateC_eq J2 J3' hz hy
  obtain ⟨cz, d1, d2, d3⟩ := updateC_eq L2 L3' hz hz
  rw [r1, r2, vwrite_eq ha.y hy, vwrite_eq ha.z hz, Y1, J1, Z1, L1]
  cases upd with
  | true =>
    simp only [if_true, bind, Except.bind, c1, d1]
    exact ⟨_, rfl, ⟨Y2, J2, Z2, L2, d2, c2, hy, hz⟩, rfl, rfl, rfl, fun j i hj hi => by rw [Y3 j i hj hi, r3 j i hj hi], J3',
      fun j i hj hi => by rw [Z3 j i hj hi, r5 j i hj hi], L3', c3, d3⟩
  | false =>
    simp only [bind, Except.bind]
    exact ⟨_, rfl, ⟨Y2, J2, Z2, L2, ha.cz, ha.cy, hy, hz⟩, rfl, rfl, rfl, fun j i hj hi => by rw [Y3 j i hj hi, r3 j i hj hi], J3',
      fun j i hj hi => by rw [Z3 j i hj hi, r5 j i hj hi], L3', rfl, rfl⟩
end
end Verif.Drivers
