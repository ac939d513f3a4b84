import Verif.AD.RecordFull

/-!
The reverse sweep restores the values of the forward sweep, at every point (differentiable or
not) and for every weight.
-/
set_option linter.all false
namespace Verif.AD
open Elem

variable {K : Type} [Scalar K]

theorem zpush_fold {c : Cfg K} (hk : c.keep = true) (g : Nat → Nat) (L : List Nat) (s : ZS K) :
    L.foldl (fun s q => s.push c (g q)) s = { s with stk := (L.map fun q => s.T (g q)).reverse ++ s.stk } := by
  induction L generalizing s with
  | nil => rfl
  | cons q L ih => rw [List.foldl_cons, ih]; simp [ZS.push, hk]

theorem zdot_fold (r a b : Nat) (L : List Nat) (s : ZS K) :
    ∃ x, L.foldl (fun s q => s.set r (s.T r + s.T (a + q) * s.T (b + q))) s = s.set r x := by
  induction L generalizing s with
  | nil => exact ⟨s.T r, by simp [ZS.set]⟩
  | cons q L ih =>
    obtain ⟨x, hx⟩ := ih (s.set r (s.T r + s.T (a + q) * s.T (b + q)))
    exact ⟨x, by rw [List.foldl_cons, hx]; simp [ZS.set]⟩

theorem rdot_fold (r a b : Nat) (L : List Nat) (s : RS K) :
    ∃ A, L.foldl (fun s q =>
      (s.addA (b + q) (s.A r * s.T (a + q))).addA (a + q)
        ((s.addA (b + q) (s.A r * s.T (a + q))).A r * (s.addA (b + q) (s.A r * s.T (a + q))).T (b + q))) s
      = { s with A := A } := by
  induction L generalizing s with
  | nil => exact ⟨s.A, rfl⟩
  | cons q L ih =>
    obtain ⟨A, hA⟩ := ih ((s.addA (b + q) (s.A r * s.T (a + q))).addA (a + q)
        ((s.addA (b + q) (s.A r * s.T (a + q))).A r * (s.addA (b + q) (s.A r * s.T (a + q))).T (b + q)))
    exact ⟨A, by rw [List.foldl_cons, hA]; rfl⟩

/-- Undoing one operation restores the memory and the value stack. -/
theorem restore_step {c : Cfg K} (hk : c.keep = true) {u : Nat → K} {o : Base K} {z z' : ZS K}
    (h : zosStep c o z = .ok z') (hT : o.okT) (hd : ∀ a b, o = .deathNot a b → a ≤ b) (r : RS K)
    (h1 : r.T = z'.T) (h2 : r.stk = z'.stk) :
    ∃ r', revStep u o r = .ok r' ∧ r'.T = z.T ∧ r'.stk = z.stk := by
  obtain ⟨T, stk, rc, ii, y⟩ := z
  obtain ⟨rT, rA, rstk, rii, rdi, rbar⟩ := r
  simp only at h1 h2
  subst h1 h2
  cases o
  case deathNot a b =>
    simp only [zosStep, zpush_fold hk, Except.ok.injEq] at h
    subst h
    have hab := hd a b rfl
    simp only [revStep]
    have e1 : ∀ (L : List Nat) (s : RS K), ∃ A, L.foldl (fun s q => s.setA (a + q) 0) s = { s with A := A } := by
      intro L
      induction L with
      | nil => intro s; exact ⟨s.A, rfl⟩
      | cons q L ih => intro s; obtain ⟨A, hA⟩ := ih (s.setA (a + q) 0); exact ⟨A, by rw [List.foldl_cons, hA]; rfl⟩
    obtain ⟨A, hA⟩ := e1 (List.range (b + 1 - a)) ⟨T, rA, ((List.range (b - a + 1)).map fun q => T (b - q)).reverse ++ stk, rii, rdi, rbar⟩
    rw [hA]
    have e2 : ((List.range (b - a + 1)).map fun q => T (b - q)).reverse = (List.range (b + 1 - a)).map fun q => T (a + q) := by
      apply List.ext_getElem
      · simp; omega
      · intro i h1 h2
        simp at h1 h2 ⊢
        congr 1; omega
    rw [e2]
    have e3 : ∀ (L : List Nat) (s : RS K), s.stk = L.map (fun q => T (a + q)) ++ stk → s.T = T →
        ∃ r', L.foldlM (fun s q => s.pop (a + q)) s = .ok r' ∧ r'.T = T ∧ r'.stk = stk := by
      intro L
      induction L with
      | nil => intro s h1 h2; exact ⟨s, rfl, h2, h1⟩
      | cons q L ih =>
        intro s h1 h2
        simp only [List.foldlM_cons, RS.pop, h1, List.map_cons, List.cons_append, h2, upd_self]
        exact ih _ rfl rfl
    exact e3 _ _ rfl rfl
  case vecDot a b m r =>
    simp only [zosStep, Except.ok.injEq] at h
    obtain ⟨x, hx⟩ := zdot_fold r a b (List.range m) (((ZS.mk T stk rc ii y).push c r).set r 0)
    rw [hx] at h
    simp only [ZS.push, ZS.set, hk, if_true, upd_upd] at h
    subst h
    obtain ⟨A, hA⟩ := rdot_fold r a b (List.range m) ⟨upd T r x, rA, T r :: stk, rii, rdi, rbar⟩
    simp only [revStep]
    rw [hA]
    simp [RS.pop]
  case vecCopy a m r =>
    rcases hT with rfl | ⟨rfl, har⟩
    · simp only [zosStep, List.range_zero, List.foldl_nil, Except.ok.injEq] at h
      subst h
      exact ⟨_, rfl, rfl, rfl⟩
    · simp only [zosStep, List.range_one, List.foldl_cons, List.foldl_nil, Nat.add_zero,
        ZS.push, ZS.set, hk, if_true, Except.ok.injEq] at h
      subst h
      simp only [revStep, List.range_one, List.foldlM_cons, List.foldlM_nil, RS.pop, RS.setA, RS.addA, Nat.add_zero,
        upd_upd, upd_self, bind, Except.bind, pure, Except.pure]
      exact ⟨_, rfl, rfl, rfl⟩
  case vecAxpy a a1 a2 m r =>
    rcases hT with rfl | ⟨rfl, ha, ha1, ha2⟩
    · simp only [zosStep, List.range_zero, List.foldl_nil, Except.ok.injEq] at h
      subst h
      exact ⟨_, rfl, rfl, rfl⟩
    · simp only [zosStep, List.range_one, List.foldl_cons, List.foldl_nil, Nat.add_zero,
        ZS.push, ZS.set, hk, if_true, Except.ok.injEq] at h
      subst h
      simp only [revStep, List.range_one, List.foldlM_cons, List.foldlM_nil, RS.pop, RS.setA, RS.addA, Nat.add_zero,
        upd_upd, upd_self, bind, Except.bind, pure, Except.pure]
      exact ⟨_, rfl, rfl, rfl⟩
  case takeStock => exact hT.elim
  case cmp q a =>
    simp only [zosStep] at h
    refine ⟨_, rfl, ?_⟩
    split at h
    · cases q <;> simp only [Except.ok.injEq] at h <;> subst h <;> exact ⟨rfl, rfl⟩
    · cases h
  case genQuad a b r old k =>
    simp only [zosStep] at h
    split at h
    · cases h
    · simp only [ZS.push, ZS.set, hk, if_true, Except.ok.injEq] at h
      subst h
      simp only [revStep, RS.pop, RS.un, RS.setA, RS.addA, upd_upd, upd_self]
      exact ⟨_, rfl, rfl, rfl⟩
  case eqPlusProd a b r =>
    obtain ⟨ha, hb⟩ := hT
    simp only [zosStep, ZS.set, Except.ok.injEq] at h
    subst h
    refine ⟨_, rfl, ?_, rfl⟩
    simp [RS.addA, RS.setA, upd_ne _ _ ha, upd_ne _ _ hb]
  case eqMinProd a b r =>
    obtain ⟨ha, hb⟩ := hT
    simp only [zosStep, ZS.set, Except.ok.injEq] at h
    subst h
    refine ⟨_, rfl, ?_, rfl⟩
    simp [RS.addA, RS.setA, upd_ne _ _ ha, upd_ne _ _ hb]
  case assignDep r =>
    simp only [zosStep, Except.ok.injEq] at h
    subst h
    exact ⟨_, rfl, rfl, rfl⟩
  case sinOp a b r =>
    obtain ⟨ha, hb⟩ := hT
    simp only [zosStep, ZS.push, ZS.set, hk, if_true, Except.ok.injEq] at h
    subst h
    simp only [revStep, RS.pop, RS.un, RS.setA, RS.addA]
    refine ⟨_, rfl, ?_, rfl⟩
    funext l
    simp only [upd_apply]
    split <;> (try split) <;> simp_all
  case cosOp a b r =>
    obtain ⟨ha, hb⟩ := hT
    simp only [zosStep, ZS.push, ZS.set, hk, if_true, Except.ok.injEq] at h
    subst h
    simp only [revStep, RS.pop, RS.un, RS.setA, RS.addA]
    refine ⟨_, rfl, ?_, rfl⟩
    funext l
    simp only [upd_apply]
    split <;> (try split) <;> simp_all
  case minOp a b r k =>
    simp only [zosStep, ZS.push, ZS.set, ZS.dec, hk, if_true, Except.ok.injEq] at h
    have h' : ∃ x rc', z' = ⟨upd T r x, T r :: stk, rc', ii, y⟩ := by
      rw [← h]; split <;> (try split) <;> exact ⟨_, _, rfl⟩
    obtain ⟨x, rc', rfl⟩ := h'
    simp only [revStep, RS.pop, RS.setA, RS.addA, upd_upd, upd_self]
    split <;> (try split) <;> exact ⟨_, rfl, rfl, rfl⟩
  case absVal a r k =>
    simp only [zosStep, ZS.push, ZS.set, ZS.dec, hk, if_true, Except.ok.injEq] at h
    have h' : ∃ x rc', z' = ⟨upd T r x, T r :: stk, rc', ii, y⟩ := by
      rw [← h]; split <;> (try split) <;> exact ⟨_, _, rfl⟩
    obtain ⟨x, rc', rfl⟩ := h'
    simp only [revStep, RS.pop, RS.setA, RS.addA, upd_upd, upd_self]
    split <;> (try split) <;> exact ⟨_, rfl, rfl, rfl⟩
  case powOp a r k =>
    simp only [zosStep, ZS.push, ZS.set, hk, if_true, Except.ok.injEq] at h
    subst h
    simp only [revStep]
    by_cases har : a = r
    · subst har
      simp only [if_true, RS.pop, RS.un, RS.setA, RS.addA, upd_upd, upd_self]
      exact ⟨_, rfl, rfl, rfl⟩
    · simp only [if_neg har, RS.pop, RS.un, RS.setA, RS.addA, upd_upd, upd_self]
      exact ⟨_, rfl, rfl, rfl⟩
  all_goals
    simp only [zosStep, ZS.push, ZS.set, ZS.dec, hk, if_true, Except.ok.injEq] at h
    first
      | (subst h
         simp only [revStep, RS.pop, RS.un, RS.setA, RS.addA, upd_upd, upd_self]
         exact ⟨_, rfl, rfl, rfl⟩)
      | (subst h
         simp only [revStep, RS.pop, RS.un, RS.setA, RS.addA, upd_upd, upd_self]
         repeat' split
         all_goals exact ⟨_, rfl, by simp_all, rfl⟩)
      | (split at h <;> simp only [Except.ok.injEq] at h <;> subst h <;>
         simp only [revStep, RS.pop, RS.un, RS.setA, RS.addA, upd_upd, upd_self] <;>
         repeat' split
         all_goals exact ⟨_, rfl, by simp_all, rfl⟩)

/-- Undoing a suffix. -/
theorem restore_run {c : Cfg K} (hk : c.keep = true) {u : Nat → K} {ops : List (Base K)} {z z' : ZS K}
    (h : zosRun c ops z = .ok z') (hT : ∀ o ∈ ops, o.okT ∧ ∀ a b, o = .deathNot a b → a ≤ b) (r : RS K)
    (h1 : r.T = z'.T) (h2 : r.stk = z'.stk) :
    ∃ r', revRun u ops r = .ok r' ∧ r'.T = z.T ∧ r'.stk = z.stk := by
  induction ops generalizing z with
  | nil => cases h; exact ⟨r, rfl, h1, h2⟩
  | cons o os ih =>
    simp only [zosRun] at h
    split at h
    · cases h
    · rename_i z1 hz1
      obtain ⟨r1, e1, e2, e3⟩ := ih h (fun o ho => hT o (by simp [ho]))
      obtain ⟨r2, g1, g2, g3⟩ := restore_step hk (u := u) hz1 (hT o (by simp)).1 (hT o (by simp)).2 r1 e2 e3
      exact ⟨r2, by simp only [revRun, e1, g1], g2, g3⟩

/-- The sweep touches only locations the operations mention. -/
theorem zosRun_beyond {N : Nat} {c : Cfg K} {ops : List (Base K)} {z z' : ZS K}
    (hb : ∀ o ∈ ops, o.bounded N) (h : zosRun c ops z = .ok z') : ∀ l, N ≤ l → z'.T l = z.T l := by
  have hs : SameZ (⟨z.T, fun _ => 0, z.stk, z.rc, z.ii, z.y, [], []⟩ : FS K) z := ⟨rfl, rfl, rfl, rfl, le_refl _⟩
  have := fos_zos_run c (fun _ => 0) ops hs
  rw [h] at this
  cases hf : fosRun c (fun _ => 0) ops (⟨z.T, fun _ => 0, z.stk, z.rc, z.ii, z.y, [], []⟩ : FS K) with
  | error e => rw [hf] at this; exact this.elim
  | ok f =>
    rw [hf] at this
    intro l hl
    have h2 := fosRun_beyond hb hf l hl
    rw [← this.T, h2]

/-- The reverse of `death_not` fills the memory. -/
theorem restore_death {N : Nat} (hN : 0 < N) {c : Cfg K} (hk : c.keep = true) {u : Nat → K} {n m : Nat} {z1 zf : ZS K}
    (h2 : zosStep c (.deathNot 0 (N - 1)) z1 = .ok zf) (hz : ∀ l, N ≤ l → z1.T l = 0) :
    ∃ r1, revStep u (.deathNot 0 (N - 1)) (RS.init n m zf.stk) = .ok r1 ∧ r1.T = z1.T ∧ r1.stk = z1.stk := by
  have hst := death_stk hk hN h2
  have e1 : ∀ (L : List Nat) (s : RS K), ∃ A, L.foldl (fun s q => s.setA (0 + q) 0) s = { s with A := A } := by
    intro L
    induction L with
    | nil => intro s; exact ⟨s.A, rfl⟩
    | cons q L ih => intro s; obtain ⟨A, hA⟩ := ih (s.setA (0 + q) 0); exact ⟨A, by rw [List.foldl_cons, hA]; rfl⟩
  have e3 : ∀ (L : List Nat) (s : RS K) (stk : List K), s.stk = L.map z1.T ++ stk →
      ∃ r', L.foldlM (fun s q => s.pop (0 + q)) s = .ok r' ∧
        (∀ l, r'.T l = if l ∈ L then z1.T l else s.T l) ∧ r'.stk = stk := by
    intro L
    induction L with
    | nil => intro s stk h1; exact ⟨s, rfl, fun l => by simp, h1⟩
    | cons q L ih =>
      intro s stk h1
      obtain ⟨r', g1, g2, g3⟩ := ih ⟨upd s.T q (z1.T q), s.A, L.map z1.T ++ stk, s.ii, s.di, s.bar⟩ stk rfl
      have hp : s.pop (0 + q) = .ok ⟨upd s.T q (z1.T q), s.A, L.map z1.T ++ stk, s.ii, s.di, s.bar⟩ := by
        simp [RS.pop, h1]
      refine ⟨r', by rw [List.foldlM_cons, hp]; exact g1, fun l => ?_, g3⟩
      rw [g2 l]
      by_cases hl : l ∈ L
      · simp [hl]
      · by_cases hq : l = q
        · subst hq; simp [hl]
        · simp [hl, hq, upd_ne]
  obtain ⟨A, hA⟩ := e1 (List.range (N - 1 + 1 - 0)) (RS.init n m zf.stk)
  obtain ⟨r1, g1, g2, g3⟩ := e3 (List.range (N - 1 + 1 - 0)) ({ RS.init n m zf.stk with A := A }) z1.stk (by
    simp only [RS.init, hst]
    rw [show N - 1 + 1 - 0 = N by omega])
  have hd : revStep u (.deathNot 0 (N - 1)) (RS.init n m zf.stk) = .ok r1 := by
    simp only [revStep]; rw [hA]; exact g1
  have hr1 : r1.T = z1.T := by
    funext l
    rw [g2 l]
    by_cases hl : l < N
    · rw [if_pos (by simp; omega)]
    · rw [if_neg (by simp; omega), hz l (by omega)]; rfl
  exact ⟨r1, hd, hr1, g3⟩

/-- A whole reverse sweep over the end of a trace: all values come back. -/
theorem restore_suffix {N : Nat} (hN : 0 < N) {c : Cfg K} (hk : c.keep = true) {u : Nat → K} {n m : Nat}
    {ops : List (Base K)} {z zf : ZS K}
    (h : zosRun c (ops ++ [.deathNot 0 (N - 1)]) z = .ok zf)
    (hT : ∀ o ∈ ops, o.okT ∧ o.bounded N) (hz : ∀ l, N ≤ l → z.T l = 0) :
    ∃ r, revRun u (ops ++ [.deathNot 0 (N - 1)]) (RS.init n m zf.stk) = .ok r ∧
      r.T = z.T ∧ r.stk = z.stk := by
  rw [zosRun_append] at h
  split at h
  · cases h
  · rename_i z1 h1
    simp only [zosRun] at h
    split at h
    · cases h
    · rename_i z2 h2
      cases h
      have hbey := zosRun_beyond (fun o ho => (hT o ho).2) h1
      obtain ⟨r1, hd, hr1, g3⟩ := restore_death hN hk (u := u) (n := n) (m := m) h2 (fun l hl => by rw [hbey l hl, hz l hl])
      obtain ⟨r, k1, k2, k3⟩ := restore_run hk (u := u) h1 (fun o ho => ⟨(hT o ho).1, fun a b hab => by
        have := (hT o ho).2; rw [hab] at this; exact this.1⟩) r1 hr1 g3
      refine ⟨r, ?_, k2, k3⟩
      rw [revRun_append]
      simp only [revRun, hd]
      exact k1

/-! ### Recorded operations are within the patterns the reverse sweep can undo -/

/-- Operations recorded so far, after the stock `tr0`. -/
def Rec.Static (tr0 : List (Base K)) (s : Rec K) : Prop :=
  ∃ body, s.tr = body ++ tr0 ∧ ∀ o ∈ body, o.okT ∧ o.bounded s.hw

theorem bounded_mono {N N' : Nat} (h : N ≤ N') {o : Base K} (hb : o.bounded N) : o.bounded N' := by
  cases o <;> simp only [Base.bounded] at hb ⊢ <;> omega

variable {tr0 : List (Base K)}

theorem Rec.Static.put {s s' : Rec K} (h : s.Static tr0) {o : Base K} (ho : s'.tr = o :: s.tr) (hw : s.hw ≤ s'.hw)
    (hb : o.bounded s'.hw) (hT : o.okT) : s'.Static tr0 := by
  obtain ⟨b, b1, b2⟩ := h
  refine ⟨o :: b, by rw [ho, b1]; rfl, fun o' ho' => ?_⟩
  rcases List.mem_cons.1 ho' with rfl | h1
  · exact ⟨hT, hb⟩
  · exact ⟨(b2 _ h1).1, bounded_mono hw (b2 _ h1).2⟩

theorem Rec.Static.same {s s' : Rec K} (h : s.Static tr0) (ho : s'.tr = s.tr) (hw : s'.hw = s.hw) :
    s'.Static tr0 := by
  obtain ⟨b, b1, b2⟩ := h
  exact ⟨b, by rw [ho, b1], fun o h => by rw [hw]; exact b2 o h⟩

theorem static_step {cfg : RCfg K} (hal : ∀ k L, cfg.alloc k L ∉ L) {st : Stmt K} {s s' : Rec K} (ok : s.Ok) (hs : s.Static tr0)
    (hm : ∀ p q r l, tr0 ≠ (Base.multAA p q r : Base K) :: l)
    (h : st.record cfg s = some s') : s'.Static tr0 := by
  have lt := fun a l (ha : s.env a = some l) => ok.lt ha
  have inj := ok.inj
  cases st
  all_goals simp only [Stmt.record] at h
  case new d =>
    split at h
    · cases h
      refine hs.put (o := .assignD0 (s.next cfg)) rfl (le_max_left _ _) ?_ trivial
      show _ < max _ _; omega
    · cases h
  case newD d c =>
    split at h
    · cases h
      refine hs.put (o := opAssignD (s.next cfg) c) rfl (le_max_left _ _) ?_ ?_
      · unfold opAssignD; split <;> (try split) <;> (show _ < max _ _; omega)
      · unfold opAssignD; split <;> (try split) <;> trivial
    · cases h
  case copy d a =>
    split at h
    · simp only [Option.map_eq_some_iff] at h
      obtain ⟨la, ha, rfl⟩ := h
      have hla := lt a la ha
      refine hs.put (o := .assignA la (s.next cfg)) rfl (le_max_left _ _) ?_ ?_
      · show _ < max _ _ ∧ _ < max _ _; omega
      · intro h; have h1 := ok.live a la ha; rw [h] at h1; exact hal s.cnt s.live h1
    · cases h
  case accR m a t =>
    split at h
    · rename_i hat
      simp only [Option.bind_eq_some_iff, Option.map_eq_some_iff] at h
      obtain ⟨la, ha, lt', ht, h⟩ := h
      have hla := lt a la ha
      have hlt := lt t lt' ht
      have plain : ((s.rec1 cfg ((if m then Acc.minus else Acc.plus).opA lt' la) la
          (if m then s.V la - s.V lt' else s.V la + s.V lt')).free t lt').Static tr0 := by
        refine hs.put (o := (if m then Acc.minus else Acc.plus).opA lt' la) rfl (le_refl _) ?_ ?_
        · cases m <;> exact ⟨hlt, hla⟩
        · cases m <;> trivial
      split at h
      · rename_i p q r tr' htr
        split at h
        · rename_i hf
          obtain ⟨b, b1, b2⟩ := hs
          rw [htr] at b1
          cases b with
          | nil => exact absurd b1.symm (hm _ _ _ _)
          | cons o b' =>
          simp only [List.cons_append, List.cons.injEq] at b1
          obtain ⟨rfl, rfl⟩ := b1
          have h0 := (b2 (.multAA p q r) (by simp)).2
          have key : ∀ s'' : Rec K,
              s''.tr = (if m then Base.eqMinProd p q la else .eqPlusProd p q la) :: (b' ++ tr0) →
              s''.hw = s.hw → s''.Static tr0 := by
            intro s'' e1 e2
            refine ⟨(if m then Base.eqMinProd p q la else .eqPlusProd p q la) :: b', by rw [e1]; rfl, ?_⟩
            intro o ho
            rw [e2]
            rcases List.mem_cons.1 ho with rfl | h1
            · simp only [Base.bounded] at h0
              cases m
              · exact ⟨⟨Ne.symm hf.2.2.2, Ne.symm hf.2.2.1⟩, ⟨h0.1, h0.2.1, hla⟩⟩
              · exact ⟨⟨Ne.symm hf.2.2.2, Ne.symm hf.2.2.1⟩, ⟨h0.1, h0.2.1, hla⟩⟩
            · exact b2 o (by simp [h1])
          cases hk : cfg.keep
          · simp only [hk, Rec.val] at h
            rw [← h]; exact key _ rfl rfl
          · simp only [hk, Rec.val, if_true] at h
            cases hst : s.stk with
            | nil => simp only [hst] at h; rw [← h]; exact key _ rfl rfl
            | cons y st => simp only [hst] at h; rw [← h]; exact key _ rfl rfl
        · rw [← h]; exact plain
      · rw [← h]; exact plain
    · cases h
  case setA a b =>
    simp only [Option.bind_eq_some_iff, Option.map_eq_some_iff] at h
    obtain ⟨la, ha, lb, hb, h⟩ := h
    have hla := lt a la ha
    have hlb := lt b lb hb
    split at h
    · rename_i hne
      rw [← h]
      exact hs.put (o := .assignA lb la) rfl (le_refl _) ⟨hlb, hla⟩ (Ne.symm hne)
    · rw [← h]; exact hs
  case un f a d =>
    simp only [Option.bind_eq_some_iff, Option.map_eq_some_iff] at h
    obtain ⟨ld, hd, la, ha, rfl⟩ := h
    have hla := lt a la ha
    have hld := lt d ld hd
    refine hs.put (o := f.op (s.V la) la ld) rfl (le_refl _) ?_ ?_
    · cases f <;> simp only [Un.op, opPlusD, opMinD, opMultD] <;> repeat' split
      all_goals exact ⟨hla, hld⟩
    · cases f <;> simp only [Un.op, opPlusD, opMinD, opMultD] <;> repeat' split
      all_goals trivial
  case bin f lv a b d =>
    simp only [Option.bind_eq_some_iff, Option.map_eq_some_iff] at h
    obtain ⟨ld, hd, la, ha, lb, hb, rfl⟩ := h
    refine hs.put (o := f.op (s.V la) (s.V lb) la lb ld) rfl (le_refl _) ?_ ?_
    · cases f <;> exact ⟨lt a la ha, lt b lb hb, lt d ld hd⟩
    · cases f <;> trivial
  case trig co a b d =>
    split at h
    · rename_i hne
      simp only [Option.bind_eq_some_iff, Option.map_eq_some_iff] at h
      obtain ⟨ld, hd, lb, hb, la, ha, rfl⟩ := h
      have h1 : la ≠ lb := fun h => hne.1 (inj a b la ha (h ▸ hb))
      have h2 : lb ≠ ld := fun h => hne.2 (inj b d lb hb (h ▸ hd))
      cases co
      · exact hs.put (o := .sinOp la lb ld) rfl (le_refl _) ⟨lt a la ha, lt b lb hb, lt d ld hd⟩ ⟨h1, h2⟩
      · exact hs.put (o := .cosOp la lb ld) rfl (le_refl _) ⟨lt a la ha, lt b lb hb, lt d ld hd⟩ ⟨h1, h2⟩
    · cases h
  case quad q a b d =>
    split at h
    · rename_i hne
      simp only [Option.bind_eq_some_iff, Option.map_eq_some_iff] at h
      obtain ⟨ld, hd, lb, hb, la, ha, rfl⟩ := h
      have h2 : lb ≠ ld := fun h => hne (inj b d lb hb (h ▸ hd))
      exact hs.put (o := .quad q la lb ld) rfl (le_refl _) ⟨lt a la ha, lt b lb hb, lt d ld hd⟩ h2
    · cases h
  case setD a c =>
    simp only [Option.map_eq_some_iff] at h
    obtain ⟨la, ha, rfl⟩ := h
    refine hs.put (o := opAssignD la c) rfl (le_refl _) ?_ ?_
    · unfold opAssignD; split <;> (try split) <;> exact lt a la ha
    · unfold opAssignD; split <;> (try split) <;> trivial
  case accD f a c =>
    simp only [Option.map_eq_some_iff] at h
    obtain ⟨la, ha, rfl⟩ := h
    refine hs.put (o := f.opD la c) rfl (le_refl _) ?_ ?_
    · cases f <;> exact lt a la ha
    · cases f <;> trivial
  case accA f a b =>
    simp only [Option.bind_eq_some_iff, Option.map_eq_some_iff] at h
    obtain ⟨la, ha, lb, hb, rfl⟩ := h
    refine hs.put (o := f.opA lb la) rfl (le_refl _) ?_ ?_
    · cases f <;> exact ⟨lt b lb hb, lt a la ha⟩
    · cases f <;> trivial
  case move d a =>
    split at h
    · simp only [Option.map_eq_some_iff] at h
      obtain ⟨la, ha, rfl⟩ := h
      exact hs.same rfl rfl
    · cases h
  case moveA a b =>
    split at h
    · simp only [Option.bind_eq_some_iff, Option.map_eq_some_iff] at h
      obtain ⟨la, ha, lb, hb, rfl⟩ := h
      exact hs.same rfl rfl
    · cases h
  case del a =>
    simp only [Option.map_eq_some_iff] at h
    obtain ⟨la, ha, rfl⟩ := h
    exact hs.same rfl rfl
  case dep a =>
    simp only [Option.map_eq_some_iff] at h
    obtain ⟨la, ha, rfl⟩ := h
    exact hs.put (o := .assignDep la) rfl (le_refl _) (lt a la ha) trivial
  case indep a =>
    simp only [Option.map_eq_some_iff] at h
    obtain ⟨la, ha, rfl⟩ := h
    exact hs.put (o := .assignInd la) rfl (le_refl _) (lt a la ha) trivial
  case incr a =>
    simp only [Option.map_eq_some_iff] at h
    obtain ⟨la, ha, rfl⟩ := h
    exact hs.put (o := .incrA la) rfl (le_refl _) (lt a la ha) trivial
  case decr a =>
    simp only [Option.map_eq_some_iff] at h
    obtain ⟨la, ha, rfl⟩ := h
    exact hs.put (o := .decrA la) rfl (le_refl _) (lt a la ha) trivial
  case setP a p =>
    simp only [Option.map_eq_some_iff] at h
    obtain ⟨la, ha, rfl⟩ := h
    exact hs.put (o := .assignP p la) rfl (le_refl _) (lt a la ha) trivial
  case cond r c a b =>
    simp only [Option.bind_eq_some_iff, Option.map_eq_some_iff] at h
    obtain ⟨lr, hr, lc, hc, la, ha, lb, hb, rfl⟩ := h
    exact hs.put (o := .condAssign lc la lb lr (s.V lc)) rfl (le_refl _)
      ⟨lt c lc hc, lt a la ha, lt b lb hb, lt r lr hr⟩ trivial
  case condEq r c a b =>
    simp only [Option.bind_eq_some_iff, Option.map_eq_some_iff] at h
    obtain ⟨lr, hr, lc, hc, la, ha, lb, hb, rfl⟩ := h
    exact hs.put (o := .condEqAssign lc la lb lr (s.V lc)) rfl (le_refl _)
      ⟨lt c lc hc, lt a la ha, lt b lb hb, lt r lr hr⟩ trivial
  case condS r c a =>
    simp only [Option.bind_eq_some_iff, Option.map_eq_some_iff] at h
    obtain ⟨lr, hr, lc, hc, la, ha, rfl⟩ := h
    exact hs.put (o := .condAssignS lc la lr (s.V lc)) rfl (le_refl _)
      ⟨lt c lc hc, lt a la ha, lt r lr hr⟩ trivial
  case condEqS r c a =>
    simp only [Option.bind_eq_some_iff, Option.map_eq_some_iff] at h
    obtain ⟨lr, hr, lc, hc, la, ha, rfl⟩ := h
    exact hs.put (o := .condEqAssignS lc la lr (s.V lc)) rfl (le_refl _)
      ⟨lt c lc hc, lt a la ha, lt r lr hr⟩ trivial

theorem static_run {cfg : RCfg K} (hal : ∀ k L, cfg.alloc k L ∉ L) (p : Prog K) {s s' : Rec K} (ok : s.Ok)
    (hs : s.Static tr0)
    (hm : ∀ p q r l, tr0 ≠ (Base.multAA p q r : Base K) :: l) (h : p.record cfg s = some s') : s'.Static tr0 := by
  induction p generalizing s with
  | done => cases h; exact hs
  | stmt st k ih =>
    simp only [Prog.record, Option.bind_eq_some_iff] at h
    obtain ⟨s1, h1, h2⟩ := h
    exact ih (record_ok hal ok h1) (static_step hal ok hs hm h1) h2
  | branch q a t f iht ihf =>
    simp only [Prog.record, Option.bind_eq_some_iff] at h
    obtain ⟨la, ha, h⟩ := h
    have h1 : (s.put (.cmp (q.recorded (q.holds (s.V la))) la)).Static tr0 :=
      hs.put (o := .cmp (q.recorded (q.holds (s.V la))) la) rfl (le_refl _) (ok.lt ha) trivial
    have ok1 : (s.put (.cmp (q.recorded (q.holds (s.V la))) la)).Ok := ⟨ok.inj, ok.live, ok.hw⟩
    split at h
    · exact iht ok1 h1 h
    · exact ihf ok1 h1 h

/-- What a program appends is restorable. -/
theorem static_body {cfg : RCfg K} (hal : ∀ k L, cfg.alloc k L ∉ L) (p : Prog K) {s s' : Rec K}
    {stock : List (Nat × List K)} (hs : s.Start stock) (h : p.record cfg s = some s') :
    ∃ body, s'.tr.reverse = (stock.map fun p => Base.takeStock p.1 p.2) ++ body ∧
      ∀ o ∈ body, o.okT ∧ o.bounded s'.hw := by
  have hm : ∀ p q r l, s.tr ≠ (Base.multAA p q r : Base K) :: l := by
    intro p q r l h
    have : (Base.multAA p q r : Base K) ∈ stock.map fun p => Base.takeStock p.1 p.2 := by
      rw [← List.mem_reverse, ← hs.tr, h]; simp
    simp at this
  obtain ⟨b, b1, b2⟩ := static_run hal p hs.ok (tr0 := s.tr) ⟨[], rfl, by simp⟩ hm h
  refine ⟨b.reverse, ?_, by simpa using b2⟩
  rw [b1, hs.tr]; simp

end Verif.AD
