import Verif.AD.RecordSmooth
import Verif.AD.RecordKeep

/-!
Complete recordings: `trace_on`, program, `trace_off`, and sweeps over the result.
-/
set_option linter.all false
namespace Verif.AD
open Elem

section
variable {K : Type} [Scalar K]

/-- `take_stock` operations write their values. -/
theorem stock_zos {c : Cfg K} (bs : List (List K)) (k : Nat) (z : ZS K) :
    ∃ z', zosRun c ((stockBlocks k bs).map fun p => .takeStock p.1 p.2) z = .ok z' ∧
      z'.ii = z.ii ∧ z'.y = z.y ∧ z'.stk = z.stk ∧
      ∀ l, z'.T l = if h : k ≤ l ∧ l < k + bs.flatten.length then bs.flatten[l - k]'(by omega) else z.T l := by
  have one : ∀ (vs : List K) (r : Nat) (z : ZS K), ∃ z',
      (vs.foldl (fun (p : Nat × ZS K) v => (p.1 + 1, p.2.set p.1 v)) (r, z)).2 = z' ∧
      z'.ii = z.ii ∧ z'.y = z.y ∧ z'.stk = z.stk ∧
      ∀ l, z'.T l = if h : r ≤ l ∧ l < r + vs.length then vs[l - r]'(by omega) else z.T l := by
    intro vs
    induction vs with
    | nil =>
      intro r z
      exact ⟨z, rfl, rfl, rfl, rfl, fun l => by rw [dif_neg (by simp)]⟩
    | cons v vs ih =>
      intro r z
      obtain ⟨z', h1, h2, h3, h4, h5⟩ := ih (r + 1) (z.set r v)
      refine ⟨z', h1, h2, h3, h4, fun l => ?_⟩
      rw [h5 l]
      by_cases hl : r + 1 ≤ l ∧ l < r + 1 + vs.length
      · rw [dif_pos hl, dif_pos (by simp; omega)]
        rw [List.getElem_cons, dif_neg (by omega)]
        congr 1
      · rw [dif_neg hl]
        by_cases hlr : l = r
        · subst hlr
          rw [dif_pos (by simp)]
          simp [ZS.set]
        · rw [dif_neg (by simp; omega)]
          simp [ZS.set, upd_apply, hlr]
  induction bs generalizing k z with
  | nil => exact ⟨z, rfl, rfl, rfl, rfl, fun l => by rw [dif_neg (by simp)]⟩
  | cons vs bs ih =>
    obtain ⟨z1, h1, h2, h3, h4, h5⟩ := one vs k z
    obtain ⟨z', g1, g2, g3, g4, g5⟩ := ih (k + vs.length) z1
    refine ⟨z', ?_, by rw [g2, h2], by rw [g3, h3], by rw [g4, h4], fun l => ?_⟩
    · simp only [stockBlocks, List.map_cons, zosRun, zosStep, h1]
      exact g1
    · rw [g5 l]
      simp only [List.flatten_cons, List.length_append]
      by_cases hl : k + vs.length ≤ l ∧ l < k + vs.length + bs.flatten.length
      · rw [dif_pos hl, dif_pos (by omega)]
        rw [List.getElem_append_right (by omega)]
        congr 1; omega
      · rw [dif_neg hl, h5 l]
        by_cases hl2 : k ≤ l ∧ l < k + vs.length
        · rw [dif_pos hl2, dif_pos (by omega), List.getElem_append_left (by omega)]
        · rw [dif_neg hl2, dif_neg (by omega)]

variable {T0 : Nat → K} {s : Rec K} {stock : List (Nat × List K)}

theorem Rec.Start.sweep (h : s.Start stock) (T0 : Nat → K) (c : Cfg K) :
    ∃ z, Swept T0 c s z ∧ Sim s.env z s.se ∧ z.stk = [] ∧
      ∀ l, z.T l = if stock ≠ [] ∧ l < s.hw then s.V l else T0 l := by
  have htr : s.tr.reverse = stock.map fun p => Base.takeStock p.1 p.2 := by
    rw [h.tr, List.reverse_reverse]
  rcases h.stock with ⟨bs, rfl, hbs⟩ | ⟨rfl, hn⟩
  · obtain ⟨z, h1, h2, h3, h4, h5⟩ := stock_zos (c := c) bs 0 (ZS.start T0)
    have hlen : bs.flatten.length = s.hw := by rw [hbs]; simp
    have hT : ∀ l, l < s.hw → z.T l = s.V l := fun l hl => by
      rw [h5 l, dif_pos (by omega)]
      simp [hbs]
    refine ⟨z, by unfold Swept SweptFrom; rw [htr]; exact h1, ⟨fun a => ?_, h2, h3⟩, h4, fun l => ?_⟩
    · simp only [Rec.se]
      cases ha : s.env a with
      | none => rfl
      | some l => simp [hT l (h.hw l (h.live a l ha))]
    · by_cases hb : l < s.hw
      · rw [hT l hb, if_pos]
        refine ⟨?_, hb⟩
        cases bs with
        | nil => simp at hlen; omega
        | cons b bs => simp [stockBlocks]
      · rw [h5 l, dif_neg (by omega), if_neg (by tauto)]; rfl
  · refine ⟨ZS.start T0, by unfold Swept SweptFrom; rw [htr]; rfl, ⟨fun a => ?_, rfl, rfl⟩, rfl, fun l => ?_⟩
    · simp [Rec.se, hn a]
    · simp [ZS.start]

theorem death_step {c : Cfg K} {a b : Nat} {z : ZS K} :
    ∃ z', zosStep c (.deathNot a b) z = .ok z' ∧ z'.T = z.T ∧ z'.ii = z.ii ∧ z'.y = z.y ∧
      z'.rc = z.rc := by
  refine ⟨_, rfl, ?_⟩
  generalize List.range (b - a + 1) = L
  induction L generalizing z with
  | nil => exact ⟨rfl, rfl, rfl, rfl⟩
  | cons q L ih => rw [List.foldl_cons]; exact ih (z := z.push c (b - q))

theorem death_stk {c : Cfg K} (hk : c.keep = true) {N : Nat} (hN : 0 < N) {z z' : ZS K}
    (h : zosStep c (.deathNot 0 (N - 1)) z = .ok z') : z'.stk = (List.range N).map z.T ++ z.stk := by
  simp only [zosStep, Except.ok.injEq] at h
  have key : ∀ (L : List Nat) (z : ZS K), (L.foldl (fun s q => ZS.push c (N - 1 - q) s) z).stk =
      (L.map fun q => z.T (N - 1 - q)).reverse ++ z.stk := by
    intro L
    induction L with
    | nil => intro z; rfl
    | cons q L ih =>
      intro z
      rw [List.foldl_cons, ih]
      simp [ZS.push, hk]
  rw [← h, key]
  congr 1
  apply List.ext_getElem
  · simp; omega
  · intro i h1 h2
    simp at h1 h2 ⊢
    congr 1; omega

/-- The forward sweep over the complete trace. -/
theorem Rec.tape_run {c : Cfg K} {N : Nat} {z : ZS K} (h : Swept T0 c s z) :
    ∃ z', zosRun c (s.tape N) (ZS.start T0) = .ok z' ∧ z'.T = z.T ∧ z'.ii = z.ii ∧ z'.y = z.y ∧
      z'.rc = z.rc := by
  obtain ⟨z', h1, h2⟩ := death_step (c := c) (a := 0) (b := N - 1) (z := z)
  refine ⟨z', ?_, h2⟩
  unfold Rec.tape
  rw [zosRun_append, show zosRun c s.tr.reverse (ZS.start T0) = .ok z from h]
  simp [zosRun, h1]

theorem Rec.tape_stop {c : Cfg K} {N : Nat} {x : Stop}
    (h : zosRun c s.tr.reverse (ZS.start T0) = .error x) :
    zosRun c (s.tape N) (ZS.start T0) = .error x := zosRun_stop h

/-- Sweeps over a recorded program: the program's values, or a branch switch. -/
theorem recorded_forward {cfg : RCfg K} (hal : ∀ k L, cfg.alloc k L ∉ L) (p : Prog K) {s' : Rec K}
    (hs : s.Start stock) (hrec : p.record cfg s = some s') (T0 : Nat → K) (c : Cfg K) (N : Nat) :
    (∃ e z, p.spec c.x c.par s.se = some (e, p.path cfg s) ∧
      zosRun c (s'.tape N) (ZS.start T0) = .ok z ∧ z.y = e.ys ∧ z.ii = e.ii) ∨
    (zosRun c (s'.tape N) (ZS.start T0) = .error .branchSwitch ∧
      ∀ e bs, p.spec c.x c.par s.se = some (e, bs) → bs ≠ p.path cfg s) := by
  obtain ⟨z0, h1, h2, _⟩ := hs.sweep T0 c
  rcases Prog.sim hal p hs.ok h1 h2 hrec with ⟨e, z, g1, _, g2, g3⟩ | ⟨g1, g2⟩
  · obtain ⟨z', k1, k2, k3, k4, k5⟩ := Rec.tape_run (N := N) g2
    exact .inl ⟨e, z', g1, k1, by rw [k4, g3.y], by rw [k3, g3.ii]⟩
  · exact .inr ⟨Rec.tape_stop g1, g2⟩

/-- The trace of a disciplined program is well formed. -/
theorem recorded_wf {cfg : RCfg K} (hal : ∀ k L, cfg.alloc k L ∉ L) (p : Prog K) {s' : Rec K}
    (hs : s.Start stock) (hd : p.disc ⟨Set.univ, ∅⟩) (hrec : p.record cfg s = some s') {N : Nat}
    (hN : 0 < N) (hNw : s'.hw ≤ N) :
    ∃ body, s'.tape N = fullTrace stock body N ∧ WfTrace stock body N := by
  have hm0 : MonOk (stock.map fun p => Base.takeStock p.1 p.2).reverse s ⟨Set.univ, ∅⟩ :=
    ⟨[], by rw [hs.tr]; rfl, trivial, fun a l _ _ => trivial, fun a l _ h => h.elim⟩
  have htr0 : ∀ (p q r : Nat) l, (stock.map fun p => Base.takeStock p.1 p.2).reverse ≠
      (Base.multAA p q r : Base K) :: l := by
    intro p q r l h
    have : (Base.multAA p q r : Base K) ∈ stock.map fun p => Base.takeStock p.1 p.2 := by
      rw [← List.mem_reverse, h]; simp
    simp at this
  obtain ⟨ok', d', ⟨body, b1, b2, b3⟩⟩ := Prog.wf hal p hs.ok hm0 hd htr0 hrec
  have hhw : s.hw ≤ s'.hw := hw_mono p hrec
  refine ⟨body.reverse, ?_, hN, ?_, (b2.mono hNw).wf⟩
  · unfold Rec.tape fullTrace
    rw [b1]; simp
  · rcases hs.stock with ⟨bs, rfl, hbs⟩ | ⟨rfl, hn⟩
    · have hlen : bs.flatten.length = s.hw := by rw [hbs]; simp
      have key : ∀ (bs : List (List K)) (k : Nat), ∀ p ∈ stockBlocks k bs,
          p.1 + p.2.length ≤ k + bs.flatten.length := by
        intro bs
        induction bs with
        | nil => intro k p hp; simp [stockBlocks] at hp
        | cons vs bs ih =>
          intro k p hp
          simp only [stockBlocks, List.mem_cons] at hp
          simp only [List.flatten_cons, List.length_append]
          rcases hp with rfl | hp
          · simp
          · have := ih _ p hp; omega
      intro p hp
      have := key bs 0 p hp
      omega
    · intro p hp; simp at hp
where
  hw_mono {cfg : RCfg K} (p : Prog K) {s s' : Rec K} (h : p.record cfg s = some s') : s.hw ≤ s'.hw := by
    induction p generalizing s with
    | done => cases h; exact le_rfl
    | stmt st k ih =>
      simp only [Prog.record, Option.bind_eq_some_iff] at h
      obtain ⟨s1, h1, h2⟩ := h
      exact le_trans (step h1) (ih h2)
    | branch q a t f iht ihf =>
      simp only [Prog.record, Option.bind_eq_some_iff] at h
      obtain ⟨la, ha, h⟩ := h
      split at h
      · exact iht (s := s.put _) h
      · exact ihf (s := s.put _) h
  step {cfg : RCfg K} {st : Stmt K} {s s' : Rec K} (h : st.record cfg s = some s') : s.hw ≤ s'.hw := by
    cases st
    all_goals simp only [Stmt.record] at h
    case accR m a t =>
      split at h
      · simp only [Option.bind_eq_some_iff, Option.map_eq_some_iff] at h
        obtain ⟨la, ha, lt, ht, h⟩ := h
        split at h
        · split at h
          · cases hk : cfg.keep
            · simp only [hk, Rec.val] at h
              rw [← h]; exact le_rfl
            · simp only [hk, Rec.val, if_true] at h
              cases hst : s.stk with
              | nil => simp only [hst] at h; rw [← h]; exact le_rfl
              | cons y st => simp only [hst] at h; rw [← h]; exact le_rfl
          · rw [← h]; exact le_rfl
        · rw [← h]; exact le_rfl
      · cases h
    all_goals try split at h
    all_goals try cases h
    all_goals try simp only [Option.bind_eq_some_iff, Option.map_eq_some_iff] at h
    all_goals first
      | exact le_max_left _ _
      | (obtain ⟨_, _, rfl⟩ := h; first | exact le_rfl | exact le_max_left _ _)
      | (obtain ⟨_, _, _, _, h⟩ := h; split at h <;> cases h <;> exact le_rfl)
      | (obtain ⟨_, _, _, _, rfl⟩ := h; exact le_rfl)
      | (obtain ⟨_, _, _, _, _, _, rfl⟩ := h; exact le_rfl)
      | (obtain ⟨_, _, _, _, _, _, _, _, rfl⟩ := h; exact le_rfl)

/-- The value stack `trace_on(tag, 1)` … `trace_off()` leaves behind is the one of a forward
sweep with keep started on the recorder's store. -/
theorem recorded_stack {cfg : RCfg K} (hal : ∀ k L, cfg.alloc k L ∉ L) (hk : cfg.keep = true)
    (p : Prog K) (hf : p.noFminLL) {s' : Rec K} (hs : s.Start stock) (hrec : p.record cfg s = some s')
    {N : Nat} (hN : 0 < N) :
    ∃ z, zosRun ⟨cfg.x, cfg.par, true⟩ (s'.tape N) (ZS.start s.V) = .ok z ∧ z.stk = s'.endStk N := by
  have hK : KOk s.V cfg s := by
    obtain ⟨z0, h1, h2, h3, h4⟩ := hs.sweep s.V ⟨cfg.x, cfg.par, true⟩
    refine ⟨z0, h1, ?_, by rw [h3, hs.stk], by rw [h2.ii, hs.ii]; rfl⟩
    funext l
    rw [h4 l, ite_self]
  obtain ⟨z, g1, g2⟩ := Prog.keep hal hk p hf hs.ok hK hrec
  obtain ⟨z', k1, k2⟩ := death_step (c := ⟨cfg.x, cfg.par, true⟩) (a := 0) (b := N - 1) (z := z)
  refine ⟨z', ?_, ?_⟩
  · unfold Rec.tape
    rw [zosRun_append, show zosRun _ s'.tr.reverse (ZS.start s.V) = .ok z from g1]
    simp [zosRun, k1]
  · rw [death_stk rfl hN k1, g2.T, g2.stk]; rfl
end

/-! ### Derivatives -/

theorem RefOk_of {c : Cfg ℝ} {b : Sm} {ops : List (Base ℝ)} {z z' : ZS ℝ}
    (h : Along (smoothS b) c ops z) (hok : zosRun c ops z = .ok z') (Z : Set Nat) : RefOk Z ops := by
  induction ops generalizing z Z with
  | nil => trivial
  | cons o os ih =>
    simp only [zosRun] at hok
    split at hok
    · cases hok
    · rename_i z1 h1
      exact ⟨fun r k ho => absurd ho (h.1.2.2.2.1 r k), ih (h.2 z1 h1) hok _⟩

variable {s s' : Rec ℝ} {stock : List (Nat × List ℝ)} {cfg : RCfg ℝ}

/-- On the recorded path a differentiable program has a smooth trace. -/
theorem recorded_smooth (hal : ∀ k L, cfg.alloc k L ∉ L) (p : Prog ℝ) (hs : s.Start stock)
    (hrec : p.record cfg s = some s') {b : Sm} (T0 : Nat → ℝ) (c : Cfg ℝ) {e : SE ℝ}
    (hpath : p.spec c.x c.par s.se = some (e, p.path cfg s)) (hsm : p.smooth b c.x c.par s.se) (N : Nat) :
    Along (smoothS b) c (s'.tape N) (ZS.start T0) := by
  obtain ⟨z0, h1, h2, _⟩ := hs.sweep T0 c
  have h0 : SmoothTr T0 b c s := by
    unfold SmoothTr SmoothFrom
    rw [hs.tr, List.reverse_reverse]
    have key : ∀ (st : List (Nat × List ℝ)) (z : ZS ℝ),
        Along (smoothS b) c (st.map fun p => Base.takeStock p.1 p.2) z := by
      intro st
      induction st with
      | nil => intro z; trivial
      | cons p st ih => intro z; exact ⟨by simp [smoothS, smooth], fun z' _ => ih z'⟩
    exact key _ _
  have := Prog.smooth_tr hal p hs.ok h1 h2 h0 hsm ⟨e, hpath⟩ hrec
  unfold Rec.tape
  rw [Along_snoc]
  exact ⟨this, fun z' _ => by simp [smoothS, smooth]⟩

end Verif.AD
