import Verif.AD.RevRun
import Verif.AD.ZosFos
import Verif.Sparse.Bits

/-!
Propagation of index domains: `indopro_forward_safe` and `indopro_forward_tight` (uni5_for.cpp
with `_INDOPRO_` and `_NTIGHT_` / `_TIGHT_`).

An index domain `ind_dom[l]` is modelled by the list of its entries `ind_dom[l][2 …]`
(`ind_dom[l][0]` is the length); the capacity `ind_dom[l][1]` only decides about reallocation
and is not modelled.
-/
set_option linter.all false
namespace Verif.Sparse
open Verif.AD Elem

/-- The `while` loop and the two `for` loops of `merge_2_index_domains`
(uni5_for.cpp:5984-6010). -/
def mergeU : List Nat → List Nat → List Nat
  | [], ys => ys
  | x :: xs, [] => x :: xs
  | x :: xs, y :: ys =>
    if x < y then x :: mergeU xs (y :: ys)
    else if x = y then y :: mergeU xs ys
    else y :: mergeU (x :: xs) ys
termination_by xs ys => xs.length + ys.length

/-- `copy_index_domain` (uni5_for.cpp:5952-5962). -/
def copyDom (r a : Nat) (dom : Nat → List Nat) : Nat → List Nat := upd dom r (dom a)

/-- `merge_2_index_domains` (uni5_for.cpp:5964-6016). -/
def merge2 (r a : Nat) (dom : Nat → List Nat) : Nat → List Nat :=
  if dom r = [] then copyDom r a dom
  else if r ≠ a then upd dom r (mergeU (dom r) (dom a)) else dom

/-- `combine_2_index_domains` (uni5_for.cpp:6018-6025). -/
def combine2 (r a b : Nat) (dom : Nat → List Nat) : Nat → List Nat :=
  merge2 r b (if r ≠ a then copyDom r a dom else dom)

/-- `merge_3_index_domains` (uni5_for.cpp:6027-6031). -/
def merge3 (r a b : Nat) (dom : Nat → List Nat) : Nat → List Nat := merge2 r b (merge2 r a dom)

/-- Variables of the sweep: `ind_dom`, `indexi`, and the rows `crs` written so far. -/
structure IS where
  dom : Nat → List Nat
  ii : Nat
  Y : List (List Nat)

/-- uni5_for.cpp:1182-1189 -/
def IS.init : IS := ⟨fun _ => [], 0, []⟩

def IS.map (s : IS) (g : (Nat → List Nat) → Nat → List Nat) : IS := { s with dom := g s.dom }

/-- How a sweep stops. -/
inductive IErr where
  /-- subscripting and references in safe mode throw (uni5_for.cpp:4528, 4557, 4586, …) -/
  | refs
  /-- `return -2` at `gen_quad` (uni5_for.cpp:3677) -/
  | genQuad
  /-- tight mode: the value sweep stops (a comparison has another outcome) -/
  | stop (e : Stop)
  deriving DecidableEq

variable {K : Type} [Scalar K]

/-- What the `case`s do with the index domains.  `T = some t` in tight mode, `t` being the values
(`dp_T0`) before the operation; `T = none` in safe mode. -/
def idStep (T : Option (Nat → K)) (o : Base K) (s : IS) : Except IErr IS :=
  match o with
  -- 1313-1423
  | .cmp _ _ => .ok s
  -- 1443
  | .assignA a r => .ok (s.map (copyDom r a))
  -- 1475, 1509, 1539, 1569
  | .assignD r _ | .assignP _ r | .assignD0 r | .assignD1 r => .ok (s.map fun d => upd d r [])
  -- 1600-1601, 1620
  | .assignInd r => .ok { s.map (fun d => upd d r [s.ii]) with ii := s.ii + 1 }
  -- 1635-1644
  | .assignDep r => .ok { s with Y := s.Y ++ [(s.dom r).length :: s.dom r] }
  -- 1672-1685, 1724-1737, 1776-1800, 1858-1877
  | .eqPlusD _ _ | .eqMinD _ _ | .eqMultD _ _ | .incrA _ | .decrA _ => .ok s
  -- 1701, 1753, 1812
  | .eqPlusA a r | .eqMinA a r | .eqMultA a r => .ok (s.map (merge2 r a))
  -- 1897, 1968, 2038, 2275
  | .plusAA a b r | .minAA a b r | .multAA a b r | .divAA a b r => .ok (s.map (combine2 r a b))
  -- 2096, 2162
  | .eqPlusProd a b r | .eqMinProd a b r => .ok (s.map (merge3 r a b))
  -- 1938, 2009, 2237, 2343, 2403, 2431, 2467
  | .plusDA a r _ | .minDA a r _ | .multDA a r _ | .divDA a r _ | .posSign a r | .negSign a r
  | .expOp a r => .ok (s.map (copyDom r a))
  -- 2529, 2601: the companion's domain is not touched
  | .sinOp a _ r | .cosOp a _ r => .ok (s.map (copyDom r a))
  -- 2671, 2732, 2832, 2932, 2993, 3078, 3185, 3243
  | .quad _ a _ r => .ok (s.map (copyDom r a))
  -- 3296, 3378, 3506, 3588
  | .logOp a r | .powOp a r _ | .sqrtOp a r | .cbrtOp a r => .ok (s.map (copyDom r a))
  -- 3674-3677
  | .genQuad _ _ _ _ _ => .error .genQuad
  -- 3742-3749 / 3751
  | .minOp a b r _ =>
    match T with
    | some t =>
      if t a < t b then .ok (s.map (copyDom r a))
      else if t a > t b then .ok (s.map (copyDom r b))
      else .ok (s.map (combine2 r a b))
    | none => .ok (s.map (combine2 r a b))
  -- 3920
  | .absVal a r _ => .ok (s.map (copyDom r a))
  -- 4016 / 4018, 4054 / 4056
  | .ceilOp a r _ | .floorOp a r _ =>
    match T with
    | some _ => .ok (s.map fun d => upd d r [])
    | none => .ok (s.map (copyDom r a))
  -- 4092-4106 / 4108
  | .condAssign a a1 a2 r _ =>
    match T with
    | some t => .ok (s.map (copyDom r (if t a > 0 then a1 else a2)))
    | none => .ok (s.map (combine2 r a1 a2))
  -- 4203-4215 / 4217
  | .condEqAssign a a1 a2 r _ =>
    match T with
    | some t => .ok (s.map (copyDom r (if t a ≥ 0 then a1 else a2)))
    | none => .ok (s.map (combine2 r a1 a2))
  -- 4306 / 4309
  | .condAssignS a a1 r _ =>
    match T with
    | some t => .ok (if t a > 0 then s.map (copyDom r a1) else s)
    | none => .ok (s.map (merge2 r a1))
  -- 4367 / 4370
  | .condEqAssignS a a1 r _ =>
    match T with
    | some t => .ok (if t a ≥ 0 then s.map (copyDom r a1) else s)
    | none => .ok (s.map (merge2 r a1))
  -- 4557; in tight mode the domain of `res` is not touched (4549-4555)
  | .setRef _ _ =>
    match T with
    | some _ => .ok s
    | none => .error .refs
  -- 4967-4988
  | .vecCopy a n r => .ok ((List.range n).foldl (fun s q => s.map (copyDom (r + q) (a + q))) s)
  -- 5003, 5018-5021
  | .vecDot a b n r =>
    .ok ((List.range n).foldl (fun s q => s.map (merge3 r (a + q) (b + q))) (s.map fun d => upd d r []))
  -- 5087-5092
  | .vecAxpy a a1 a2 n r =>
    .ok ((List.range n).foldl (fun s q => (s.map (combine2 (r + q) a (a1 + q))).map (merge2 (r + q) (a2 + q))) s)
  -- 5468-5493
  | .takeStock _ _ => .ok s
  -- 5496-5507
  | .deathNot _ _ => .ok s

/-- `indopro_forward_safe`. -/
def idSafeRun : List (Base K) → IS → Except IErr IS
  | [], s => .ok s
  | o :: os, s =>
    match idStep none o s with
    | .error e => .error e
    | .ok s' => idSafeRun os s'

/-- The values in `indopro_forward_tight`: as in `zos_forward`, but `cond_assign_s` and
`cond_eq_assign_s` do not assign (uni5_for.cpp:4302-4350, 4363-4409), and `take_stock_op` assigns its
first value to its first location again and again, because `res++` and `d++` are compiled only
outside of the index domain sweeps (uni5_for.cpp:5476-5492). -/
def tightVal (c : Cfg K) (o : Base K) (z : ZS K) : Except Stop (ZS K) :=
  match o with
  | .takeStock r vs => .ok (vs.foldl (fun z _ => z.set r (vs.headD 0)) z)
  | .condAssignS _ _ _ _ | .condEqAssignS _ _ _ _ => .ok z
  | _ => zosStep c o z

/-- `indopro_forward_tight`. -/
def idTightRun (c : Cfg K) : List (Base K) → ZS K → IS → Except IErr IS
  | [], _, s => .ok s
  | o :: os, z, s =>
    match tightVal c o z with
    | .error e => .error (.stop e)
    | .ok z' =>
      match idStep (some z.T) o s with
      | .error e => .error e
      | .ok s' => idTightRun c os z' s'

/-! ## Set operations -/

theorem mem_mergeU (xs ys : List Nat) (i : Nat) : i ∈ mergeU xs ys ↔ i ∈ xs ∨ i ∈ ys := by
  fun_induction mergeU xs ys with
  | case1 ys => simp
  | case2 x xs => simp
  | case3 x xs y ys h ih => simp [ih, or_assoc]
  | case4 xs y ys h ih => simp only [List.mem_cons, ih]; tauto
  | case5 x xs y ys h h2 ih => simp only [List.mem_cons, ih]; tauto

theorem mergeU_sorted {xs ys : List Nat} (hx : xs.Pairwise (· < ·)) (hy : ys.Pairwise (· < ·)) :
    (mergeU xs ys).Pairwise (· < ·) := by
  fun_induction mergeU xs ys with
  | case1 ys => exact hy
  | case2 x xs => exact hx
  | case3 x xs y ys h ih =>
    rw [List.pairwise_cons] at hx
    have hy' := List.pairwise_cons.1 hy
    rw [List.pairwise_cons]
    refine ⟨fun a ha => ?_, ih hx.2 hy⟩
    rcases (mem_mergeU _ _ _).1 ha with ha | ha
    · exact hx.1 a ha
    · rcases List.mem_cons.1 ha with rfl | ha
      · exact h
      · exact lt_trans h (hy'.1 a ha)
  | case4 xs y ys h ih =>
    rw [List.pairwise_cons] at hx hy
    rw [List.pairwise_cons]
    refine ⟨fun a ha => ?_, ih hx.2 hy.2⟩
    rcases (mem_mergeU _ _ _).1 ha with ha | ha
    · have := hx.1 a ha; omega
    · exact hy.1 a ha
  | case5 x xs y ys h h2 ih =>
    rw [List.pairwise_cons] at hy
    have hx' := List.pairwise_cons.1 hx
    rw [List.pairwise_cons]
    refine ⟨fun a ha => ?_, ih hx hy.2⟩
    rcases (mem_mergeU _ _ _).1 ha with ha | ha
    · rcases List.mem_cons.1 ha with rfl | ha
      · omega
      · have := hx'.1 a ha; omega
    · exact hy.1 a ha

theorem mem_copyDom {r a : Nat} {dom : Nat → List Nat} {x i : Nat} :
    i ∈ copyDom r a dom x ↔ if x = r then i ∈ dom a else i ∈ dom x := by
  unfold copyDom; rw [upd_apply]; split_ifs <;> rfl

theorem mem_merge2 {r a : Nat} {dom : Nat → List Nat} {x i : Nat} :
    i ∈ merge2 r a dom x ↔ if x = r then i ∈ dom r ∨ i ∈ dom a else i ∈ dom x := by
  unfold merge2
  by_cases h1 : dom r = []
  · rw [if_pos h1, mem_copyDom, h1]; simp
  · rw [if_neg h1]
    by_cases h2 : r = a
    · subst h2; rw [if_neg (by simp)]
      split_ifs with h3
      · subst h3; simp
      · rfl
    · rw [if_pos h2, upd_apply]
      split_ifs with h3
      · exact mem_mergeU _ _ _
      · rfl

theorem mem_combine2 {r a b : Nat} (h : r ≠ b ∨ r = a) {dom : Nat → List Nat} {x i : Nat} :
    i ∈ combine2 r a b dom x ↔ if x = r then i ∈ dom a ∨ i ∈ dom b else i ∈ dom x := by
  unfold combine2
  rw [mem_merge2]
  by_cases hx : x = r
  · simp only [hx, if_true]
    by_cases hra : r = a
    · simp [hra]
    · have hrb : ¬ b = r := by rcases h with h | h; exact Ne.symm h; exact absurd h hra
      simp [hra, mem_copyDom, hrb]
  · simp only [hx, if_false]
    split_ifs with hra
    · simp [mem_copyDom, hx]
    · rfl

theorem mem_merge3 {r a b : Nat} {dom : Nat → List Nat} {x i : Nat} :
    i ∈ merge3 r a b dom x ↔ if x = r then i ∈ dom r ∨ i ∈ dom a ∨ i ∈ dom b else i ∈ dom x := by
  unfold merge3
  rw [mem_merge2]
  by_cases hx : x = r
  · simp only [hx, if_true, mem_merge2]
    by_cases hb : b = r
    · simp [hb]; tauto
    · simp [hb, or_assoc]
  · simp only [hx, if_false, mem_merge2]

/-! ## Soundness -/

/-- The domains of the locations in `L` contain `i` wherever the tangent is nonzero. -/
def CovI (L : Set Nat) (i : Nat) (dom : Nat → List Nat) (dT : Nat → K) : Prop :=
  ∀ a ∈ L, i ∉ dom a → dT a = 0

structure CoversI (L : Set Nat) (i : Nat) (s : IS) (f : FS K) : Prop where
  cov : CovI L i s.dom f.dT
  ii : s.ii = f.ii
  len : s.Y.length = f.dy.length
  out : ∀ (j : Nat) (y : List Nat), s.Y[j]? = some y → i ∉ y.tail → f.dy[j]? = some 0

/-- Operations covered: `combine_2_index_domains` is wrong if the result is the second argument
only; the vector operations are not considered. -/
def domOk (T : Option (Nat → K)) : Base K → Prop
  | .plusAA a b r | .minAA a b r | .multAA a b r | .divAA a b r => r ≠ b ∨ r = a
  | .minOp a b r _ => r ≠ b ∨ r = a ∨ ∃ t, T = some t ∧ (t a ≠ t b ∨ a = b)
  | .condAssign _ a b r _ | .condEqAssign _ a b r _ => r ≠ b ∨ r = a ∨ T ≠ none
  | .vecCopy _ _ _ | .vecDot _ _ _ _ | .vecAxpy _ _ _ _ _ => False
  | _ => True

theorem CoversI.set {L L' : Set Nat} {i : Nat} {s s' : IS} {f f' : FS K} (h : CoversI L' i s f) {r : Nat} {d : K}
    {Q : Prop} (hL : ∀ x ∈ L, x ≠ r → x ∈ L') (hsi : s'.ii = s.ii) (hsY : s'.Y = s.Y)
    (hs : ∀ x, i ∈ s'.dom x ↔ if x = r then Q else i ∈ s.dom x)
    (hf : f'.dT = AD.upd f.dT r d) (hi : f'.ii = f.ii) (hy : f'.dy = f.dy)
    (hd : r ∈ L → ¬ Q → d = 0) : CoversI L i s' f' := by
  obtain ⟨h1, h2, h3, h4⟩ := h
  refine ⟨fun x hx hn => ?_, by rw [hsi, hi, h2], by rw [hsY, hy, h3], by rw [hsY, hy]; exact h4⟩
  rw [hs] at hn
  rw [hf, upd_apply]
  split_ifs at hn ⊢ with hxr
  · exact hd (hxr ▸ hx) hn
  · exact h1 x (hL x hx hxr) hn

theorem CoversI.skip {L L' : Set Nat} {i : Nat} {s : IS} {f f' : FS K} (h : CoversI L' i s f) (hL : L ⊆ L')
    (hf : f'.dT = f.dT) (hi : f'.ii = f.ii) (hy : f'.dy = f.dy) : CoversI L i s f' := by
  obtain ⟨h1, h2, h3, h4⟩ := h
  exact ⟨by rw [hf]; exact fun a ha => h1 a (hL ha), by rw [hi]; exact h2, by rw [hy]; exact h3,
    by rw [hy]; exact h4⟩

theorem coversI_step {c : Cfg K} {v : Nat → K} {i : Nat} (hv : ∀ k, k ≠ i → v k = 0) {o : Base K} {T : Option (Nat → K)}
    {s s' : IS} {f f' : FS K} {L : Set Nat} (hT : ∀ t, T = some t → t = f.T)
    (hok : domOk T o) (hokT : o.okT) (hz : ∀ l ∈ o.zeroAdj, l ∉ L) (hpow : powOk o f.T)
    (h : CoversI (o.adjStep L) i s f)
    (hs : idStep T o s = .ok s') (hf : fosStep c v o f = .ok f') : CoversI L i s' f' := by
  have hc := h.cov
  cases o
  all_goals simp only [idStep, fosStep, Except.ok.injEq, reduceCtorEq, Base.adjStep] at hs hf h hc
  case cmp q a =>
    subst hs
    by_cases hq : q.holds (f.T a)
    · rw [if_pos hq] at hf
      cases q <;> simp only [Except.ok.injEq] at hf <;> subst hf <;> exact h.skip subset_rfl rfl rfl rfl
    · rw [if_neg hq] at hf; cases hf
  case assignInd r =>
    subst hs hf
    obtain ⟨h1, h2, h3, h4⟩ := h
    refine ⟨fun x hx hn => ?_, ?_, h3, h4⟩
    · show AD.upd f.dT r (v f.ii) x = 0
      simp only [IS.map, upd_apply] at hn ⊢
      split_ifs at hn ⊢ with hxr
      · rw [← h2]; exact hv _ (fun hh => hn (by simp [hh]))
      · exact h1 x hx hn
    · show s.ii + 1 = f.ii + 1
      rw [h2]
  case assignDep r =>
    subst hs hf
    obtain ⟨h1, h2, h3, h4⟩ := h
    refine ⟨fun x hx => h1 x (by simp [hx]), h2, by simp [h3], ?_⟩
    intro j y hj hy
    simp only [List.getElem?_append, h3] at hj ⊢
    split_ifs at hj ⊢ with hlt
    · exact h4 j y hj hy
    · rcases Nat.eq_zero_or_pos (j - f.dy.length) with hz | hz
      · rw [hz] at hj ⊢; simp only [List.getElem?_cons_zero, Option.some.injEq] at hj ⊢
        subst hj; exact hc r (by simp) hy
      · rw [List.getElem?_eq_none (by simp only [List.length_singleton]; omega)] at hj; cases hj
  case eqPlusD r k => subst hs hf; exact h.skip subset_rfl rfl rfl rfl
  case eqMinD r k => subst hs hf; exact h.skip subset_rfl rfl rfl rfl
  case incrA r => subst hs hf; exact h.skip subset_rfl rfl rfl rfl
  case decrA r => subst hs hf; exact h.skip subset_rfl rfl rfl rfl
  case eqMultD r k =>
    subst hs hf
    exact h.set (r := r) (Q := i ∈ s.dom r) (fun x hx _ => hx) rfl rfl
      (fun x => by split_ifs with hx <;> simp [hx]) rfl rfl rfl
      (fun hr hd => by simp [FS.push, FS.set, hc r hr hd])
  case eqPlusA a r =>
    subst hs hf
    exact h.set (r := r) (Q := i ∈ s.dom r ∨ i ∈ s.dom a) (fun x hx hxr => by simp [hx]) rfl rfl
      (fun x => mem_merge2) rfl rfl rfl (fun hr hn => by
        rw [not_or] at hn
        simp [FS.push, FS.set, hc a (by simp) hn.2, hc r (by simp [hr]) hn.1])
  case eqMinA a r =>
    subst hs hf
    exact h.set (r := r) (Q := i ∈ s.dom r ∨ i ∈ s.dom a) (fun x hx hxr => by simp [hx]) rfl rfl
      (fun x => mem_merge2) rfl rfl rfl (fun hr hn => by
        rw [not_or] at hn
        simp [FS.push, FS.set, hc a (by simp) hn.2, hc r (by simp [hr]) hn.1])
  case eqMultA a r =>
    subst hs hf
    exact h.set (r := r) (Q := i ∈ s.dom r ∨ i ∈ s.dom a) (fun x hx hxr => by simp [hx]) rfl rfl
      (fun x => mem_merge2) rfl rfl rfl (fun hr hn => by
        rw [not_or] at hn
        simp [FS.push, FS.set, hc a (by simp) hn.2, hc r (by simp [hr]) hn.1])
  case eqPlusProd a b r =>
    subst hs hf
    exact h.set (r := r) (Q := i ∈ s.dom r ∨ i ∈ s.dom a ∨ i ∈ s.dom b) (fun x hx hxr => by simp [hx]) rfl rfl
      (fun x => mem_merge3) rfl rfl rfl (fun hr hn => by
        rw [not_or, not_or] at hn
        simp [FS.push, FS.set, hc a (by simp) hn.2.1, hc b (by simp) hn.2.2, hc r (by simp [hr]) hn.1])
  case eqMinProd a b r =>
    subst hs hf
    exact h.set (r := r) (Q := i ∈ s.dom r ∨ i ∈ s.dom a ∨ i ∈ s.dom b) (fun x hx hxr => by simp [hx]) rfl rfl
      (fun x => mem_merge3) rfl rfl rfl (fun hr hn => by
        rw [not_or, not_or] at hn
        simp [FS.push, FS.set, hc a (by simp) hn.2.1, hc b (by simp) hn.2.2, hc r (by simp [hr]) hn.1])
  case assignD r k =>
    subst hs hf
    exact h.set (r := r) (Q := False) (fun x hx hxr => by simp [hx, hxr]) rfl rfl
      (fun x => by simp only [IS.map, upd_apply]; split_ifs <;> simp) rfl rfl rfl (fun _ hn => rfl)
  case assignP k r =>
    subst hs hf
    exact h.set (r := r) (Q := False) (fun x hx hxr => by simp [hx, hxr]) rfl rfl
      (fun x => by simp only [IS.map, upd_apply]; split_ifs <;> simp) rfl rfl rfl (fun _ hn => rfl)
  case assignD0 r =>
    subst hs hf
    exact h.set (r := r) (Q := False) (fun x hx hxr => by simp [hx, hxr]) rfl rfl
      (fun x => by simp only [IS.map, upd_apply]; split_ifs <;> simp) rfl rfl rfl (fun _ hn => rfl)
  case assignD1 r =>
    subst hs hf
    exact h.set (r := r) (Q := False) (fun x hx hxr => by simp [hx, hxr]) rfl rfl
      (fun x => by simp only [IS.map, upd_apply]; split_ifs <;> simp) rfl rfl rfl (fun _ hn => rfl)
  case assignA a r =>
    subst hs hf
    exact h.set (r := r) (Q := i ∈ s.dom a) (fun x hx hxr => by simp [hx, hxr]) rfl rfl (fun x => mem_copyDom) rfl rfl rfl
      (fun _ hn => by simp [FS.push, FS.set, hc a (by simp) hn])
  case plusDA a r k =>
    subst hs hf
    exact h.set (r := r) (Q := i ∈ s.dom a) (fun x hx hxr => by simp [hx, hxr]) rfl rfl (fun x => mem_copyDom) rfl rfl rfl
      (fun _ hn => by simp [FS.push, FS.set, hc a (by simp) hn])
  case minDA a r k =>
    subst hs hf
    exact h.set (r := r) (Q := i ∈ s.dom a) (fun x hx hxr => by simp [hx, hxr]) rfl rfl (fun x => mem_copyDom) rfl rfl rfl
      (fun _ hn => by simp [FS.push, FS.set, hc a (by simp) hn])
  case multDA a r k =>
    subst hs hf
    exact h.set (r := r) (Q := i ∈ s.dom a) (fun x hx hxr => by simp [hx, hxr]) rfl rfl (fun x => mem_copyDom) rfl rfl rfl
      (fun _ hn => by simp [FS.push, FS.set, hc a (by simp) hn])
  case divDA a r k =>
    subst hs hf
    exact h.set (r := r) (Q := i ∈ s.dom a) (fun x hx hxr => by simp [hx, hxr]) rfl rfl (fun x => mem_copyDom) rfl rfl rfl
      (fun _ hn => by simp [FS.push, FS.set, hc a (by simp) hn])
  case posSign a r =>
    subst hs hf
    exact h.set (r := r) (Q := i ∈ s.dom a) (fun x hx hxr => by simp [hx, hxr]) rfl rfl (fun x => mem_copyDom) rfl rfl rfl
      (fun _ hn => by simp [FS.push, FS.set, hc a (by simp) hn])
  case negSign a r =>
    subst hs hf
    exact h.set (r := r) (Q := i ∈ s.dom a) (fun x hx hxr => by simp [hx, hxr]) rfl rfl (fun x => mem_copyDom) rfl rfl rfl
      (fun _ hn => by simp [FS.push, FS.set, hc a (by simp) hn])
  case expOp a r =>
    subst hs hf
    exact h.set (r := r) (Q := i ∈ s.dom a) (fun x hx hxr => by simp [hx, hxr]) rfl rfl (fun x => mem_copyDom) rfl rfl rfl
      (fun _ hn => by simp [FS.push, FS.set, hc a (by simp) hn])
  case logOp a r =>
    subst hs hf
    exact h.set (r := r) (Q := i ∈ s.dom a) (fun x hx hxr => by simp [hx, hxr]) rfl rfl (fun x => mem_copyDom) rfl rfl rfl
      (fun _ hn => by simp [FS.push, FS.set, hc a (by simp) hn])
  case sqrtOp a r =>
    subst hs hf
    exact h.set (r := r) (Q := i ∈ s.dom a) (fun x hx hxr => by simp [hx, hxr]) rfl rfl (fun x => mem_copyDom) rfl rfl rfl
      (fun _ hn => by simp [FS.push, FS.set, hc a (by simp) hn])
  case cbrtOp a r =>
    subst hs hf
    exact h.set (r := r) (Q := i ∈ s.dom a) (fun x hx hxr => by simp [hx, hxr]) rfl rfl (fun x => mem_copyDom) rfl rfl rfl
      (fun _ hn => by simp [FS.push, FS.set, hc a (by simp) hn])
  case quad q a b r =>
    subst hs hf
    exact h.set (r := r) (Q := i ∈ s.dom a) (fun x hx hxr => by simp [hx, hxr]) rfl rfl (fun x => mem_copyDom) rfl rfl rfl
      (fun _ hn => by simp only [FS.push, FS.set, hc a (by simp) hn, quadTangent_zero])
  case powOp a r k =>
    subst hs
    by_cases h0 : f.T a = 0
    · have h0' : (f.push c r).T a = 0 := h0
      simp only [h0', if_true, Except.ok.injEq] at hf
      subst hf
      exact h.set (r := r) (Q := i ∈ s.dom a) (fun x hx hxr => by simp [hx, hxr]) rfl rfl (fun x => mem_copyDom) rfl rfl rfl
        (fun _ hn => by simp only [FS.push, FS.set, hc a (by simp) hn]; exact powZeroTangent_zero (hpow h0))
    · have h0' : ¬ (f.push c r).T a = 0 := h0
      simp only [h0', if_false, Except.ok.injEq] at hf
      subst hf
      exact h.set (r := r) (Q := i ∈ s.dom a) (fun x hx hxr => by simp [hx, hxr]) rfl rfl (fun x => mem_copyDom) rfl rfl rfl
        (fun _ hn => by simp [FS.push, FS.set, hc a (by simp) hn])
  case plusAA a b r =>
    subst hs hf
    exact h.set (r := r) (Q := i ∈ s.dom a ∨ i ∈ s.dom b) (fun x hx hxr => by simp [hx, hxr]) rfl rfl
      (fun x => mem_combine2 hok) rfl rfl rfl (fun _ hn => by
        rw [not_or] at hn
        simp [FS.push, FS.set, hc a (by simp) hn.1, hc b (by simp) hn.2])
  case minAA a b r =>
    subst hs hf
    exact h.set (r := r) (Q := i ∈ s.dom a ∨ i ∈ s.dom b) (fun x hx hxr => by simp [hx, hxr]) rfl rfl
      (fun x => mem_combine2 hok) rfl rfl rfl (fun _ hn => by
        rw [not_or] at hn
        simp [FS.push, FS.set, hc a (by simp) hn.1, hc b (by simp) hn.2])
  case multAA a b r =>
    subst hs hf
    exact h.set (r := r) (Q := i ∈ s.dom a ∨ i ∈ s.dom b) (fun x hx hxr => by simp [hx, hxr]) rfl rfl
      (fun x => mem_combine2 hok) rfl rfl rfl (fun _ hn => by
        rw [not_or] at hn
        simp [FS.push, FS.set, hc a (by simp) hn.1, hc b (by simp) hn.2])
  case divAA a b r =>
    subst hs hf
    exact h.set (r := r) (Q := i ∈ s.dom a ∨ i ∈ s.dom b) (fun x hx hxr => by simp [hx, hxr]) rfl rfl
      (fun x => mem_combine2 hok) rfl rfl rfl (fun _ hn => by
        rw [not_or] at hn
        simp [FS.push, FS.set, hc a (by simp) hn.1, hc b (by simp) hn.2])
  case sinOp a b r =>
    subst hs hf
    have hb : ∀ x ∈ L, x ≠ b := fun x hx hh => hz b (by simp [Base.zeroAdj]) (hh ▸ hx)
    have hab : a ≠ b := hokT.1
    refine ⟨fun x hx hn => ?_, h.ii, h.len, h.out⟩
    simp only [IS.map, mem_copyDom] at hn
    simp only [FS.push, FS.set, FS.setD, upd_apply, ite_self]
    by_cases hxr : x = r
    · rw [if_pos hxr] at hn
      have := hc a (by simp) hn
      simp [hxr, this, hab]
    · rw [if_neg hxr] at hn
      rw [if_neg hxr, if_neg (hb x hx)]
      exact hc x (by simp [hx, hxr]) hn
  case cosOp a b r =>
    subst hs hf
    have hb : ∀ x ∈ L, x ≠ b := fun x hx hh => hz b (by simp [Base.zeroAdj]) (hh ▸ hx)
    have hab : a ≠ b := hokT.1
    refine ⟨fun x hx hn => ?_, h.ii, h.len, h.out⟩
    simp only [IS.map, mem_copyDom] at hn
    simp only [FS.push, FS.set, FS.setD, upd_apply, ite_self]
    by_cases hxr : x = r
    · rw [if_pos hxr] at hn
      have := hc a (by simp) hn
      simp [hxr, this, hab]
    · rw [if_neg hxr] at hn
      rw [if_neg hxr, if_neg (hb x hx)]
      exact hc x (by simp [hx, hxr]) hn
  case absVal a r k =>
    subst hs hf
    have fin : ∀ (g : FS K) (d : K), g.dT = upd f.dT r d → g.ii = f.ii → g.dy = f.dy → (f.dT a = 0 → d = 0) →
        CoversI L i (s.map (copyDom r a)) g := fun g d h1 h2 h3 h4 =>
      h.set (r := r) (Q := i ∈ s.dom a) (fun x hx hxr => by simp [hx, hxr]) rfl rfl (fun x => mem_copyDom) h1 h2 h3
        (fun _ hn => h4 (hc a (by simp) hn))
    rcases lt_trichotomy (f.T a) 0 with h1 | h1 | h1
    · simp only [FS.push, FS.dec, FS.set, FS.setD, h1, if_true]
      exact fin _ _ rfl rfl rfl fun hb => by rw [hb, mul_zero]
    · simp only [FS.push, FS.dec, FS.set, FS.setD, gt_iff_lt, h1, lt_irrefl, if_true, if_false]
      exact fin _ _ rfl rfl rfl fun hb => by rw [hb, mul_zero]
    · have h2 : ¬ f.T a < 0 := not_lt.mpr h1.le
      simp only [FS.push, FS.dec, FS.set, FS.setD, gt_iff_lt, h1, h2, if_true, if_false]
      exact fin _ _ rfl rfl rfl fun hb => by rw [hb, mul_zero]
  case minOp a b r k =>
    subst hf
    have fin : ∀ (s' : IS) (g : FS K) (d : K) (Q : Prop), s'.ii = s.ii → s'.Y = s.Y →
        (∀ x, i ∈ s'.dom x ↔ if x = r then Q else i ∈ s.dom x) → g.dT = upd f.dT r d → g.ii = f.ii →
        g.dy = f.dy → (¬ Q → d = 0) → CoversI L i s' g := fun s' g d Q h1 h2 h3 h4 h5 h6 h7 =>
      h.set (r := r) (Q := Q) (fun x hx hxr => by simp [hx, hxr]) h1 h2 h3 h4 h5 h6 (fun _ => h7)
    have ca : i ∉ s.dom a → f.dT a = 0 := hc a (by simp)
    have cb : i ∉ s.dom b → f.dT b = 0 := hc b (by simp)
    rcases lt_trichotomy (f.T a) (f.T b) with h1 | h1 | h1
    · have h2 : ¬ f.T a > f.T b := not_lt.mpr h1.le
      simp only [FS.push, FS.dec, FS.set, FS.setD, gt_iff_lt, h1, h2, if_true, if_false]
      cases T with
      | none =>
        simp only [Except.ok.injEq] at hs; subst hs
        have hok' : r ≠ b ∨ r = a := by simpa [domOk] using hok
        exact fin _ _ (f.dT a) _ rfl rfl (fun x => mem_combine2 hok') rfl rfl rfl (fun hn => ca (not_or.1 hn).1)
      | some t =>
        rw [hT t rfl] at hs
        simp only [h1, if_true, Except.ok.injEq] at hs; subst hs
        exact fin _ _ (f.dT a) _ rfl rfl (fun x => mem_copyDom) rfl rfl rfl ca
    · simp only [FS.push, FS.dec, FS.set, FS.setD, gt_iff_lt, h1, lt_irrefl, if_true, if_false]
      have hok' : r ≠ b ∨ r = a := by
        rcases hok with h | h | ⟨t, ht, h⟩
        · exact .inl h
        · exact .inr h
        · rw [hT t ht] at h
          rcases h with h | h
          · exact absurd h1 h
          · subst h; tauto
      have hs' : s.map (combine2 r a b) = s' := by
        cases T with
        | none => simpa using hs
        | some t =>
          rw [hT t rfl] at hs
          simpa only [h1, gt_iff_lt, lt_irrefl, if_false, Except.ok.injEq] using hs
      subst hs'
      exact fin _ _ _ _ rfl rfl (fun x => mem_combine2 hok') rfl rfl rfl (fun hn => by
        simp [ca (not_or.1 hn).1, cb (not_or.1 hn).2])
    · have h2 : ¬ f.T a < f.T b := not_lt.mpr h1.le
      simp only [FS.push, FS.dec, FS.set, FS.setD, gt_iff_lt, h1, h2, if_true, if_false]
      cases T with
      | none =>
        simp only [Except.ok.injEq] at hs; subst hs
        have hok' : r ≠ b ∨ r = a := by simpa [domOk] using hok
        exact fin _ _ (f.dT b) _ rfl rfl (fun x => mem_combine2 hok') rfl rfl rfl (fun hn => cb (not_or.1 hn).2)
      | some t =>
        rw [hT t rfl] at hs
        simp only [h1, h2, gt_iff_lt, if_true, if_false, Except.ok.injEq] at hs; subst hs
        exact fin _ _ (f.dT b) _ rfl rfl (fun x => mem_copyDom) rfl rfl rfl cb
  case ceilOp a r k =>
    subst hf
    cases T with
    | none =>
      simp only [Except.ok.injEq] at hs; subst hs
      exact ⟨fun x hx hn => by
        simp only [IS.map, mem_copyDom] at hn
        show upd f.dT r 0 x = 0
        rw [upd_apply]
        split_ifs at hn ⊢ with hxr
        · rfl
        · exact hc x (by simp [hx, hxr]) hn, h.ii, h.len, h.out⟩
    | some t =>
      simp only [Except.ok.injEq] at hs; subst hs
      exact h.set (r := r) (Q := False) (fun x hx hxr => by simp [hx, hxr]) rfl rfl
        (fun x => by simp only [IS.map, upd_apply]; split_ifs <;> simp) rfl rfl rfl (fun _ hn => rfl)
  case floorOp a r k =>
    subst hf
    cases T with
    | none =>
      simp only [Except.ok.injEq] at hs; subst hs
      exact ⟨fun x hx hn => by
        simp only [IS.map, mem_copyDom] at hn
        show upd f.dT r 0 x = 0
        rw [upd_apply]
        split_ifs at hn ⊢ with hxr
        · rfl
        · exact hc x (by simp [hx, hxr]) hn, h.ii, h.len, h.out⟩
    | some t =>
      simp only [Except.ok.injEq] at hs; subst hs
      exact h.set (r := r) (Q := False) (fun x hx hxr => by simp [hx, hxr]) rfl rfl
        (fun x => by simp only [IS.map, upd_apply]; split_ifs <;> simp) rfl rfl rfl (fun _ hn => rfl)
  case condAssign a a1 a2 r k =>
    have fin : ∀ (s' : IS) (g : FS K) (d : K) (Q : Prop), s'.ii = s.ii → s'.Y = s.Y →
        (∀ x, i ∈ s'.dom x ↔ if x = r then Q else i ∈ s.dom x) → g.dT = upd f.dT r d → g.ii = f.ii →
        g.dy = f.dy → (¬ Q → d = 0) → CoversI L i s' g := fun s' g d Q h1 h2 h3 h4 h5 h6 h7 =>
      h.set (r := r) (Q := Q) (fun x hx hxr => by simp [hx]) h1 h2 h3 h4 h5 h6 (fun _ => h7)
    have ca : i ∉ s.dom a1 → f.dT a1 = 0 := hc a1 (by simp)
    have cb : i ∉ s.dom a2 → f.dT a2 = 0 := hc a2 (by simp)
    by_cases h1 : f.T a > 0
    · have h2 : (f.push c r).T a > 0 := h1
      have h3 : ((f.push c r).setD r ((f.push c r).dT a1)).T a > 0 := h1
      simp only [h2, h3, if_true, Except.ok.injEq] at hf
      subst hf
      cases T with
      | none =>
        simp only [Except.ok.injEq] at hs; subst hs
        have hok' : r ≠ a2 ∨ r = a1 := by simpa [domOk] using hok
        exact fin _ _ (f.dT a1) _ rfl rfl (fun x => mem_combine2 hok') rfl rfl rfl (fun hn => ca (not_or.1 hn).1)
      | some t =>
        rw [hT t rfl] at hs
        simp only [h1, if_true, Except.ok.injEq] at hs; subst hs
        exact fin _ _ (f.dT a1) _ rfl rfl (fun x => mem_copyDom) rfl rfl rfl ca
    · have h2 : ¬ (f.push c r).T a > 0 := h1
      have h3 : ¬ ((f.push c r).setD r ((f.push c r).dT a2)).T a > 0 := h1
      simp only [h2, h3, if_false, Except.ok.injEq] at hf
      subst hf
      cases T with
      | none =>
        simp only [Except.ok.injEq] at hs; subst hs
        have hok' : r ≠ a2 ∨ r = a1 := by simpa [domOk] using hok
        exact fin _ _ (f.dT a2) _ rfl rfl (fun x => mem_combine2 hok') rfl rfl rfl (fun hn => cb (not_or.1 hn).2)
      | some t =>
        rw [hT t rfl] at hs
        simp only [h1, if_false, Except.ok.injEq] at hs; subst hs
        exact fin _ _ (f.dT a2) _ rfl rfl (fun x => mem_copyDom) rfl rfl rfl cb
  case condEqAssign a a1 a2 r k =>
    have fin : ∀ (s' : IS) (g : FS K) (d : K) (Q : Prop), s'.ii = s.ii → s'.Y = s.Y →
        (∀ x, i ∈ s'.dom x ↔ if x = r then Q else i ∈ s.dom x) → g.dT = upd f.dT r d → g.ii = f.ii →
        g.dy = f.dy → (¬ Q → d = 0) → CoversI L i s' g := fun s' g d Q h1 h2 h3 h4 h5 h6 h7 =>
      h.set (r := r) (Q := Q) (fun x hx hxr => by simp [hx]) h1 h2 h3 h4 h5 h6 (fun _ => h7)
    have ca : i ∉ s.dom a1 → f.dT a1 = 0 := hc a1 (by simp)
    have cb : i ∉ s.dom a2 → f.dT a2 = 0 := hc a2 (by simp)
    by_cases h1 : f.T a ≥ 0
    · have h2 : (f.push c r).T a ≥ 0 := h1
      have h3 : ((f.push c r).setD r ((f.push c r).dT a1)).T a ≥ 0 := h1
      simp only [h2, h3, if_true, Except.ok.injEq] at hf
      subst hf
      cases T with
      | none =>
        simp only [Except.ok.injEq] at hs; subst hs
        have hok' : r ≠ a2 ∨ r = a1 := by simpa [domOk] using hok
        exact fin _ _ (f.dT a1) _ rfl rfl (fun x => mem_combine2 hok') rfl rfl rfl (fun hn => ca (not_or.1 hn).1)
      | some t =>
        rw [hT t rfl] at hs
        simp only [h1, if_true, Except.ok.injEq] at hs; subst hs
        exact fin _ _ (f.dT a1) _ rfl rfl (fun x => mem_copyDom) rfl rfl rfl ca
    · have h2 : ¬ (f.push c r).T a ≥ 0 := h1
      have h3 : ¬ ((f.push c r).setD r ((f.push c r).dT a2)).T a ≥ 0 := h1
      simp only [h2, h3, if_false, Except.ok.injEq] at hf
      subst hf
      cases T with
      | none =>
        simp only [Except.ok.injEq] at hs; subst hs
        have hok' : r ≠ a2 ∨ r = a1 := by simpa [domOk] using hok
        exact fin _ _ (f.dT a2) _ rfl rfl (fun x => mem_combine2 hok') rfl rfl rfl (fun hn => cb (not_or.1 hn).2)
      | some t =>
        rw [hT t rfl] at hs
        simp only [h1, if_false, Except.ok.injEq] at hs; subst hs
        exact fin _ _ (f.dT a2) _ rfl rfl (fun x => mem_copyDom) rfl rfl rfl cb
  case condAssignS a a1 r k =>
    by_cases h1 : f.T a > 0
    · have h2 : (f.push c r).T a > 0 := h1
      have h3 : ((f.push c r).setD r ((f.push c r).dT a1)).T a > 0 := h1
      simp only [h2, h3, if_true, Except.ok.injEq] at hf
      subst hf
      cases T with
      | none =>
        simp only [Except.ok.injEq] at hs; subst hs
        exact h.set (r := r) (d := f.dT a1) (Q := i ∈ s.dom r ∨ i ∈ s.dom a1) (fun x hx hxr => by simp [hx]) rfl rfl
          (fun x => mem_merge2) rfl rfl rfl (fun _ hn => hc a1 (by simp) (not_or.1 hn).2)
      | some t =>
        rw [hT t rfl] at hs
        simp only [h1, if_true, Except.ok.injEq] at hs; subst hs
        exact h.set (r := r) (d := f.dT a1) (Q := i ∈ s.dom a1) (fun x hx hxr => by simp [hx]) rfl rfl
          (fun x => mem_copyDom) rfl rfl rfl (fun _ hn => hc a1 (by simp) hn)
    · have h2 : ¬ (f.push c r).T a > 0 := h1
      simp only [h2, if_false, Except.ok.injEq] at hf
      subst hf
      cases T with
      | none =>
        simp only [Except.ok.injEq] at hs; subst hs
        refine ⟨fun x hx hn => ?_, h.ii, h.len, h.out⟩
        simp only [IS.map, mem_merge2] at hn
        have hx' : x ∈ insert a1 L := by simp [hx]
        show f.dT x = 0
        split_ifs at hn with hxr
        · subst hxr; exact hc x hx' (not_or.1 hn).1
        · exact hc x hx' hn
      | some t =>
        rw [hT t rfl] at hs
        simp only [h1, if_false, Except.ok.injEq] at hs; subst hs
        exact h.skip (fun x hx => by simp [hx]) rfl rfl rfl
  case condEqAssignS a a1 r k =>
    by_cases h1 : f.T a ≥ 0
    · have h2 : (f.push c r).T a ≥ 0 := h1
      have h3 : ((f.push c r).setD r ((f.push c r).dT a1)).T a ≥ 0 := h1
      simp only [h2, h3, if_true, Except.ok.injEq] at hf
      subst hf
      cases T with
      | none =>
        simp only [Except.ok.injEq] at hs; subst hs
        exact h.set (r := r) (d := f.dT a1) (Q := i ∈ s.dom r ∨ i ∈ s.dom a1) (fun x hx hxr => by simp [hx]) rfl rfl
          (fun x => mem_merge2) rfl rfl rfl (fun _ hn => hc a1 (by simp) (not_or.1 hn).2)
      | some t =>
        rw [hT t rfl] at hs
        simp only [h1, if_true, Except.ok.injEq] at hs; subst hs
        exact h.set (r := r) (d := f.dT a1) (Q := i ∈ s.dom a1) (fun x hx hxr => by simp [hx]) rfl rfl
          (fun x => mem_copyDom) rfl rfl rfl (fun _ hn => hc a1 (by simp) hn)
    · have h2 : ¬ (f.push c r).T a ≥ 0 := h1
      simp only [h2, if_false, Except.ok.injEq] at hf
      subst hf
      cases T with
      | none =>
        simp only [Except.ok.injEq] at hs; subst hs
        refine ⟨fun x hx hn => ?_, h.ii, h.len, h.out⟩
        simp only [IS.map, mem_merge2] at hn
        have hx' : x ∈ insert a1 L := by simp [hx]
        show f.dT x = 0
        split_ifs at hn with hxr
        · subst hxr; exact hc x hx' (not_or.1 hn).1
        · exact hc x hx' hn
      | some t =>
        rw [hT t rfl] at hs
        simp only [h1, if_false, Except.ok.injEq] at hs; subst hs
        exact h.skip (fun x hx => by simp [hx]) rfl rfl rfl
  case setRef r k =>
    cases T with
    | none => cases hs
    | some t =>
      simp only [Except.ok.injEq] at hs; subst hs hf
      exact h.skip subset_rfl rfl rfl rfl
  case vecCopy => exact hok.elim
  case vecDot => exact hok.elim
  case vecAxpy => exact hok.elim
  case takeStock => exact hokT.elim
  case deathNot a a2 =>
    subst hs hf
    have : ∀ (J : List Nat) (f : FS K), CoversI L i s f → CoversI L i s (J.foldl (fun s q => s.push c (a2 - q)) f) := by
      intro J
      induction J with
      | nil => intro f h; exact h
      | cons q J ih => intro f h; exact ih _ (h.skip subset_rfl rfl rfl rfl)
    exact this _ _ h

theorem coversI_safe_run {c : Cfg K} {v : Nat → K} {i : Nat} (hv : ∀ k, k ≠ i → v k = 0) {N : Nat}
    {ops : List (Base K)} {Z : Set Nat} (hwf : WfFrom N Z ops) (hok : ∀ o ∈ ops, domOk (none : Option (Nat → K)) o)
    {s s' : IS} {f f' : FS K} {z : ZS K} (h : CoversI (liveAdj ops) i s f)
    (hz : SameZ f z) (hpow : Along powOk c ops z)
    (hs : idSafeRun ops s = .ok s') (hf : fosRun c v ops f = .ok f') : CoversI ∅ i s' f' := by
  induction ops generalizing s f z Z with
  | nil => cases hs; cases hf; exact h
  | cons o os ih =>
    simp only [idSafeRun] at hs
    simp only [fosRun] at hf
    have hzz := fos_zos_step c v o hz
    cases h1 : idStep none o s with
    | error e => rw [h1] at hs; cases hs
    | ok s1 =>
      cases h2 : fosStep c v o f with
      | error e => rw [h2] at hf; cases hf
      | ok f1 =>
        rw [h1] at hs
        rw [h2] at hf hzz
        cases h3 : zosStep c o z with
        | error e => rw [h3] at hzz; exact hzz.elim
        | ok z1 =>
          rw [h3] at hzz
          obtain ⟨_, w2, _, w4, w5⟩ := hwf
          refine ih w5 (fun o ho => hok o (List.mem_cons_of_mem _ ho)) ?_ hzz (hpow.2 z1 h3) hs hf
          exact coversI_step hv (by simp) (hok o (by simp)) w2 w4 (by have := hpow.1; rwa [← hz.T] at this) h h1 h2

/-- Neither one of the two-argument conditional assignments nor `take_stock_op`. -/
def notCondS : Base K → Prop
  | .takeStock _ _ => False
  | .condAssignS _ _ _ _ | .condEqAssignS _ _ _ _ => False
  | _ => True

theorem tightVal_eq {c : Cfg K} {o : Base K} (h : notCondS o) (z : ZS K) : tightVal c o z = zosStep c o z := by
  cases o <;> first | rfl | exact h.elim

theorem coversI_tight_run {c : Cfg K} {v : Nat → K} {i : Nat} (hv : ∀ k, k ≠ i → v k = 0) {N : Nat}
    {ops : List (Base K)} {Z : Set Nat} (hwf : WfFrom N Z ops)
    {s s' : IS} {f f' : FS K} {z : ZS K} (hok : Along (fun o T => domOk (some T) o) c ops z)
    (hcs : ∀ o ∈ ops, notCondS o) (h : CoversI (liveAdj ops) i s f)
    (hz : SameZ f z) (hpow : Along powOk c ops z)
    (hs : idTightRun c ops z s = .ok s') (hf : fosRun c v ops f = .ok f') : CoversI ∅ i s' f' := by
  induction ops generalizing s f z Z with
  | nil => cases hs; cases hf; exact h
  | cons o os ih =>
    simp only [idTightRun, tightVal_eq (hcs o (by simp))] at hs
    simp only [fosRun] at hf
    have hzz := fos_zos_step c v o hz
    cases h2 : fosStep c v o f with
    | error e => rw [h2] at hf; cases hf
    | ok f1 =>
      rw [h2] at hf hzz
      cases h3 : zosStep c o z with
      | error e => rw [h3] at hzz; exact hzz.elim
      | ok z1 =>
        rw [h3] at hzz hs
        simp only at hs
        cases h1 : idStep (some z.T) o s with
        | error e => rw [h1] at hs; cases hs
        | ok s1 =>
          rw [h1] at hs
          obtain ⟨_, w2, _, w4, w5⟩ := hwf
          refine ih w5 (hok.2 z1 h3) (fun o ho => hcs o (List.mem_cons_of_mem _ ho)) ?_ hzz (hpow.2 z1 h3) hs hf
          exact coversI_step hv (fun t ht => by cases ht; exact hz.T.symm) hok.1 w2 w4
            (by have := hpow.1; rwa [← hz.T] at this) h h1 h2

/-! ## Shape of the rows, totality -/

/-- Domains and rows are strictly increasing and list declared independents. -/
structure IS.Ok (s : IS) : Prop where
  dom : ∀ a, (s.dom a).Pairwise (· < ·) ∧ ∀ i ∈ s.dom a, i < s.ii
  rows : ∀ y ∈ s.Y, ∃ L : List Nat, y = L.length :: L ∧ L.Pairwise (· < ·) ∧ ∀ i ∈ L, i < s.ii

theorem IS.Ok.map {s : IS} (h : s.Ok) {g : (Nat → List Nat) → Nat → List Nat}
    (hg : ∀ d : Nat → List Nat, (∀ a, (d a).Pairwise (· < ·) ∧ ∀ i ∈ d a, i < s.ii) →
      ∀ a, (g d a).Pairwise (· < ·) ∧ ∀ i ∈ g d a, i < s.ii) : (s.map g).Ok :=
  ⟨fun a => hg _ h.dom a, h.rows⟩

section
variable {n : Nat} {d : Nat → List Nat}

/-- All domains are strictly increasing with entries below `n`. -/
def DomOk (n : Nat) (d : Nat → List Nat) : Prop := ∀ a, (d a).Pairwise (· < ·) ∧ ∀ i ∈ d a, i < n

theorem DomOk.upd (h : DomOk n d) {r : Nat} {L : List Nat} (h1 : L.Pairwise (· < ·)) (h2 : ∀ i ∈ L, i < n) :
    DomOk n (AD.upd d r L) := by
  intro a
  rw [upd_apply]
  split_ifs
  · exact ⟨h1, h2⟩
  · exact h a
theorem DomOk.copy (h : DomOk n d) (r a : Nat) : DomOk n (copyDom r a d) := h.upd (h a).1 (h a).2
theorem DomOk.merge2 (h : DomOk n d) (r a : Nat) : DomOk n (merge2 r a d) := by
  unfold Sparse.merge2
  split_ifs
  · exact h.copy r a
  · refine h.upd (mergeU_sorted (h r).1 (h a).1) fun i hi => ?_
    rcases (mem_mergeU _ _ _).1 hi with hi | hi
    · exact (h r).2 i hi
    · exact (h a).2 i hi
  · exact h
theorem DomOk.combine2 (h : DomOk n d) (r a b : Nat) : DomOk n (combine2 r a b d) := by
  unfold Sparse.combine2
  split_ifs
  · exact (h.copy r a).merge2 r b
  · exact h.merge2 r b
theorem DomOk.merge3 (h : DomOk n d) (r a b : Nat) : DomOk n (merge3 r a b d) := (h.merge2 r a).merge2 r b
end

theorem IS.Ok.foldl {γ : Type} {g : IS → γ → IS} (J : List γ) (hs : ∀ s q, s.Ok → (g s q).Ok ∧ (g s q).Y = s.Y ∧ (g s q).ii = s.ii)
    {s : IS} (h : s.Ok) : (J.foldl g s).Ok ∧ (J.foldl g s).Y = s.Y ∧ (J.foldl g s).ii = s.ii := by
  induction J generalizing s with
  | nil => exact ⟨h, rfl, rfl⟩
  | cons q J ih =>
    obtain ⟨h1, h2, h3⟩ := hs s q h
    obtain ⟨g1, g2, g3⟩ := ih h1
    exact ⟨g1, by rw [List.foldl_cons, g2, h2], by rw [List.foldl_cons, g3, h3]⟩

/-- Operations that stop an index domain sweep. -/
def noStop : Base K → Prop
  | .genQuad _ _ _ _ _ | .setRef _ _ => False
  | _ => True

theorem idStep_total (T : Option (Nat → K)) {o : Base K} (ho : noStop o) {s : IS} (h : s.Ok) :
    ∃ s', idStep T o s = .ok s' ∧ s'.Ok ∧ s'.Y.length = s.Y.length + (if isDep o then 1 else 0) ∧
      s'.ii = s.ii + o.nInd := by
  have one : ∀ g, (∀ d, DomOk s.ii d → DomOk s.ii (g d)) → (s.map g).Ok :=
    fun g hg => h.map hg
  cases o
  case genQuad => exact ho.elim
  case setRef => exact ho.elim
  case assignInd r =>
    refine ⟨_, rfl, ⟨fun a => ?_, fun y hy => ?_⟩, rfl, rfl⟩
    · refine DomOk.upd (n := s.ii + 1) (fun a => ⟨(h.dom a).1, fun i hi => ?_⟩) ?_ ?_ a
      · have := (h.dom a).2 i hi; omega
      · simp
      · simp
    · obtain ⟨L, h1, h2, h3⟩ := h.rows y hy
      exact ⟨L, h1, h2, fun i hi => by have := h3 i hi; simp only [IS.map]; omega⟩
  case assignDep r =>
    refine ⟨_, rfl, ⟨h.dom, fun y hy => ?_⟩, by simp [isDep], rfl⟩
    rcases List.mem_append.1 hy with hy | hy
    · exact h.rows y hy
    · rw [List.mem_singleton.1 hy]
      exact ⟨_, rfl, h.dom r⟩
  case minOp a b r k =>
    cases T with
    | none => exact ⟨_, rfl, one _ fun d hd => hd.combine2 r a b, rfl, rfl⟩
    | some t =>
      simp only [idStep, isDep, Bool.false_eq_true, if_false]
      split_ifs
      · exact ⟨_, rfl, one _ fun d hd => hd.copy r a, rfl, rfl⟩
      · exact ⟨_, rfl, one _ fun d hd => hd.copy r b, rfl, rfl⟩
      · exact ⟨_, rfl, one _ fun d hd => hd.combine2 r a b, rfl, rfl⟩
  case ceilOp a r k =>
    cases T with
    | none => exact ⟨_, rfl, one _ fun d hd => hd.copy r a, rfl, rfl⟩
    | some t => exact ⟨_, rfl, one _ fun d hd => hd.upd .nil (by simp), rfl, rfl⟩
  case floorOp a r k =>
    cases T with
    | none => exact ⟨_, rfl, one _ fun d hd => hd.copy r a, rfl, rfl⟩
    | some t => exact ⟨_, rfl, one _ fun d hd => hd.upd .nil (by simp), rfl, rfl⟩
  case condAssign a a1 a2 r k =>
    cases T with
    | none => exact ⟨_, rfl, one _ fun d hd => hd.combine2 r a1 a2, rfl, rfl⟩
    | some t => exact ⟨_, rfl, one _ fun d hd => hd.copy r _, rfl, rfl⟩
  case condEqAssign a a1 a2 r k =>
    cases T with
    | none => exact ⟨_, rfl, one _ fun d hd => hd.combine2 r a1 a2, rfl, rfl⟩
    | some t => exact ⟨_, rfl, one _ fun d hd => hd.copy r _, rfl, rfl⟩
  case condAssignS a a1 r k =>
    cases T with
    | none => exact ⟨_, rfl, one _ fun d hd => hd.merge2 r a1, rfl, rfl⟩
    | some t =>
      simp only [idStep, isDep, Bool.false_eq_true, if_false]
      split_ifs
      · exact ⟨_, rfl, one _ fun d hd => hd.copy r a1, rfl, rfl⟩
      · exact ⟨_, rfl, h, rfl, rfl⟩
  case condEqAssignS a a1 r k =>
    cases T with
    | none => exact ⟨_, rfl, one _ fun d hd => hd.merge2 r a1, rfl, rfl⟩
    | some t =>
      simp only [idStep, isDep, Bool.false_eq_true, if_false]
      split_ifs
      · exact ⟨_, rfl, one _ fun d hd => hd.copy r a1, rfl, rfl⟩
      · exact ⟨_, rfl, h, rfl, rfl⟩
  case vecCopy a n r =>
    obtain ⟨h1, h2, h3⟩ := IS.Ok.foldl (g := fun s q => s.map (copyDom (r + q) (a + q))) (List.range n)
      (fun s q hs => ⟨hs.map fun d hd => DomOk.copy hd _ _, rfl, rfl⟩) h
    exact ⟨_, rfl, h1, by rw [h2]; rfl, h3⟩
  case vecDot a b n r =>
    obtain ⟨h1, h2, h3⟩ := IS.Ok.foldl (g := fun s q => s.map (merge3 r (a + q) (b + q))) (List.range n)
      (fun s q hs => ⟨hs.map fun d hd => DomOk.merge3 hd _ _ _, rfl, rfl⟩)
      (one (fun d => upd d r []) fun d hd => hd.upd .nil (by simp))
    exact ⟨_, rfl, h1, by rw [h2]; rfl, h3⟩
  case vecAxpy a a1 a2 n r =>
    obtain ⟨h1, h2, h3⟩ := IS.Ok.foldl
      (g := fun s q => (s.map (combine2 (r + q) a (a1 + q))).map (merge2 (r + q) (a2 + q))) (List.range n)
      (fun s q hs => ⟨(hs.map fun d hd => DomOk.combine2 hd _ _ _).map fun d hd => DomOk.merge2 hd _ _, rfl, rfl⟩) h
    exact ⟨_, rfl, h1, by rw [h2]; rfl, h3⟩
  all_goals first
    | exact ⟨_, rfl, h, rfl, rfl⟩
    | exact ⟨_, rfl, one _ fun d hd => hd.copy _ _, rfl, rfl⟩
    | exact ⟨_, rfl, one _ fun d hd => hd.upd .nil (by simp), rfl, rfl⟩
    | exact ⟨_, rfl, one _ fun d hd => hd.merge2 _ _, rfl, rfl⟩
    | exact ⟨_, rfl, one _ fun d hd => hd.combine2 _ _ _, rfl, rfl⟩
    | exact ⟨_, rfl, one _ fun d hd => hd.merge3 _ _ _, rfl, rfl⟩

theorem idSafe_total {ops : List (Base K)} (ho : ∀ o ∈ ops, noStop o) {s : IS} (h : s.Ok) :
    ∃ s', idSafeRun ops s = .ok s' ∧ s'.Ok ∧ s'.Y.length = s.Y.length + ops.countP isDep ∧
      s'.ii = s.ii + numInd ops := by
  induction ops generalizing s with
  | nil => exact ⟨s, rfl, h, rfl, rfl⟩
  | cons o os ih =>
    obtain ⟨s1, h1, h2, h3, h4⟩ := idStep_total (K := K) none (ho o (by simp)) h
    obtain ⟨s2, g1, g2, g3, g4⟩ := ih (fun o h => ho o (List.mem_cons_of_mem _ h)) h2
    refine ⟨s2, by simp only [idSafeRun, h1, g1], g2, ?_, ?_⟩
    · rw [g3, h3, List.countP_cons]; omega
    · rw [g4, h4]; simp only [numInd, List.map_cons, List.sum_cons]; omega

theorem idTight_total {c : Cfg K} {ops : List (Base K)} (ho : ∀ o ∈ ops, noStop o) (hcs : ∀ o ∈ ops, notCondS o)
    {s : IS} (h : s.Ok) {z z' : ZS K} (hz : zosRun c ops z = .ok z') :
    ∃ s', idTightRun c ops z s = .ok s' ∧ s'.Ok ∧ s'.Y.length = s.Y.length + ops.countP isDep ∧
      s'.ii = s.ii + numInd ops := by
  induction ops generalizing s z with
  | nil => exact ⟨s, rfl, h, rfl, rfl⟩
  | cons o os ih =>
    simp only [zosRun] at hz
    cases h0 : zosStep c o z with
    | error e => rw [h0] at hz; cases hz
    | ok z1 =>
      rw [h0] at hz
      obtain ⟨s1, h1, h2, h3, h4⟩ := idStep_total (some z.T) (ho o (by simp)) h
      obtain ⟨s2, g1, g2, g3, g4⟩ := ih (fun o h => ho o (List.mem_cons_of_mem _ h))
        (fun o h => hcs o (List.mem_cons_of_mem _ h)) h2 hz
      refine ⟨s2, by simp only [idTightRun, tightVal_eq (hcs o (by simp)), h0, h1, g1], g2, ?_, ?_⟩
      · rw [g3, h3, List.countP_cons]; omega
      · rw [g4, h4]; simp only [numInd, List.map_cons, List.sum_cons]; omega

/-! ## Complete traces -/

theorem liveAdj_death (ops : List (Base K)) (a b : Nat) : liveAdj (ops ++ [.deathNot a b]) = liveAdj ops := by
  induction ops with
  | nil => rfl
  | cons o os ih => simp only [List.cons_append, liveAdj, ih]

theorem WfFrom.death {N : Nat} (hN : 0 < N) {ops : List (Base K)} {Z : Set Nat} (h : WfFrom N Z ops) :
    ∃ Z', WfFrom N Z' (ops ++ [.deathNot 0 (N - 1)]) ∧ Z' = Z := by
  refine ⟨Z, ?_, rfl⟩
  induction ops generalizing Z with
  | nil =>
    refine ⟨⟨Nat.zero_le _, Nat.sub_lt hN Nat.one_pos⟩, trivial, ?_, fun l _ h => h, trivial⟩
    intro x hx; exact hx.elim
  | cons o os ih =>
    obtain ⟨h1, h2, h3, h4, h5⟩ := h
    exact ⟨h1, h2, h3, fun l hl => (liveAdj_death os 0 (N - 1)) ▸ h4 l hl, ih h5⟩

theorem CoversI.stock {i r : Nat} {vs : List K} {c : Cfg K} {v : Nat → K} {s : IS} {f f1 : FS K} (h : CoversI Set.univ i s f)
    (hd : ∀ l, f.dT l = 0) (h1 : fosStep c v (.takeStock r vs) f = .ok f1) :
    CoversI Set.univ i s f1 ∧ ∀ l, f1.dT l = 0 := by
  obtain ⟨e1, e2⟩ := stock_step h1 hd
  have hf := fos_frame h1 rfl rfl
  exact ⟨⟨fun a _ _ => e1 a, by rw [hf.ii]; exact h.ii, by rw [hf.dy]; exact h.len, by rw [hf.dy]; exact h.out⟩, e1⟩

/-- Safe mode on a complete trace. -/
theorem coversI_safe_full {c : Cfg K} {v : Nat → K} {i : Nat} (hv : ∀ k, k ≠ i → v k = 0) {N : Nat}
    {stock : List (Nat × List K)} {body : List (Base K)} (hw : WfTrace stock body N)
    (hok : ∀ o ∈ fullTrace stock body N, domOk (none : Option (Nat → K)) o)
    {s s' : IS} {f f' : FS K} {z : ZS K} (h : CoversI Set.univ i s f) (hd : ∀ l, f.dT l = 0)
    (hz : SameZ f z) (hpow : Along powOk c (fullTrace stock body N) z)
    (hs : idSafeRun (fullTrace stock body N) s = .ok s') (hf : fosRun c v (fullTrace stock body N) f = .ok f') :
    CoversI ∅ i s' f' := by
  obtain ⟨hN, hst, hb⟩ := hw
  clear hst
  obtain ⟨Z, hb', _⟩ := WfFrom.death hN hb
  unfold fullTrace at *
  induction stock generalizing s f z with
  | nil =>
    refine coversI_safe_run hv hb' hok ⟨fun a _ => h.cov a trivial, h.ii, h.len, h.out⟩ hz hpow hs hf
  | cons p stock ih =>
    simp only [List.map_cons, List.cons_append, idSafeRun, idStep] at hs
    simp only [List.map_cons, List.cons_append, fosRun] at hf
    have hzz := fos_zos_step c v (.takeStock p.1 p.2) hz
    cases h2 : fosStep c v (.takeStock p.1 p.2) f with
    | error e => rw [h2] at hf; cases hf
    | ok f1 =>
      rw [h2] at hf hzz
      cases h3 : zosStep c (.takeStock p.1 p.2) z with
      | error e => rw [h3] at hzz; exact hzz.elim
      | ok z1 =>
        rw [h3] at hzz
        obtain ⟨g1, g2⟩ := h.stock hd h2
        exact ih (fun o ho => hok o (List.mem_cons_of_mem _ ho)) g1 g2 hzz (hpow.2 z1 h3) hs hf

/-- Tight mode on a complete trace. -/
theorem coversI_tight_full {c : Cfg K} {v : Nat → K} {i : Nat} (hv : ∀ k, k ≠ i → v k = 0) {N : Nat}
    {stock : List (Nat × List K)} {body : List (Base K)} (hw : WfTrace stock body N)
    (hcs : ∀ o ∈ fullTrace stock body N, notCondS o)
    {s s' : IS} {f f' : FS K} {z : ZS K} (hok : Along (fun o T => domOk (some T) o) c (fullTrace stock body N) z)
    (h : CoversI Set.univ i s f) (hd : ∀ l, f.dT l = 0)
    (hz : SameZ f z) (hpow : Along powOk c (fullTrace stock body N) z)
    (hs : idTightRun c (fullTrace stock body N) z s = .ok s') (hf : fosRun c v (fullTrace stock body N) f = .ok f') :
    CoversI ∅ i s' f' := by
  obtain ⟨hN, hst, hb⟩ := hw
  clear hst
  obtain ⟨Z, hb', _⟩ := WfFrom.death hN hb
  unfold fullTrace at *
  induction stock generalizing s f z with
  | nil =>
    refine coversI_tight_run hv hb' hok hcs ⟨fun a _ => h.cov a trivial, h.ii, h.len, h.out⟩ hz hpow hs hf
  | cons p stock ih => exact (hcs (.takeStock p.1 p.2) (by simp)).elim

end Verif.Sparse
