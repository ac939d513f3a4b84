import Verif.AD.AdvMain
import Verif.AD.RecordDeriv
import Verif.AD.Restore

/-! Derivatives of programs with active subscripts. -/
set_option linter.all false
namespace Verif.AD
open Elem Filter Topology

section
variable {K : Type} [Scalar K]

/-! ### The sweeps on the trace and on the operations it is at the point -/

theorem fosRunA_append {c : Cfg K} {v : Nat → K} {a b : List (AOp K)} {z : FS K} :
    fosRunA c v (a ++ b) z = (match fosRunA c v a z with | .error e => .error e | .ok z' => fosRunA c v b z') := by
  induction a generalizing z with
  | nil => rfl
  | cons o os ih =>
    simp only [List.cons_append, fosRunA]
    cases o.resolve z.T with
    | error e => rfl
    | ok b1 =>
      simp only
      cases fosStep c v b1 z with
      | error e => rfl
      | ok z1 => simp only [ih]

theorem Res.fos {Z0 : ZS K} {c : Cfg K} {L : PL K} {z : ZS K} (h : Res Z0 c L z) (v : Nat → K) {f0 : FS K} (h0 : SameZ f0 Z0) :
    ∃ f, fosRunA c v (L.map Prod.fst).reverse f0 = .ok f ∧ fosRun c v (L.map Prod.snd).reverse f0 = .ok f ∧ SameZ f z := by
  induction L generalizing z with
  | nil => cases h; exact ⟨f0, rfl, rfl, h0⟩
  | cons p L ih =>
    obtain ⟨z1, h1, h2, h3, h4⟩ := h
    obtain ⟨f1, g1, g2, g3⟩ := ih h1
    have hs := fos_zos_step c v p.2 g3
    rw [h3] at hs
    cases hf : fosStep c v p.2 f1 with
    | error e => rw [hf] at hs; exact hs.elim
    | ok f =>
      rw [hf] at hs
      refine ⟨f, ?_, ?_, hs⟩
      · rw [List.map_cons, List.reverse_cons, fosRunA_append, g1]
        simp [fosRunA, g3.T, h2, hf]
      · rw [List.map_cons, List.reverse_cons, fosRun_append, g2]
        simp [fosRun, hf]

/-- A reverse sweep over plain operations, as one over a trace with subscripts. -/
def liftR : Except RStop (RS K) → Except ARStop (RS K)
  | .ok r => .ok r
  | .error e => .error (.sweep e)

theorem revRunA_append {u : Nat → K} {a b : List (AOp K)} {s : RS K} :
    revRunA u (a ++ b) s = (match revRunA u b s with | .error e => .error e | .ok s' => revRunA u a s') := by
  induction a with
  | nil => simp only [List.nil_append]; cases revRunA u b s <;> rfl
  | cons o os ih =>
    simp only [List.cons_append, revRunA, ih]
    cases revRunA u b s with
    | error e => rfl
    | ok s1 => rfl

theorem revRunA_base {u : Nat → K} (ops : List (Base K)) (s : RS K) :
    revRunA u (ops.map .base) s = liftR (revRun u ops s) := by
  induction ops with
  | nil => rfl
  | cons o os ih =>
    simp only [List.map_cons, revRunA, revRun, ih]
    cases revRun u os s with
    | error e => rfl
    | ok s1 =>
      simp only [liftR, AOp.resolveRev]
      cases revStep u o s1 <;> rfl

theorem Res.rev {Z0 : ZS K} {c : Cfg K} (hk : c.keep = true) {Lb Ls : PL K} {z : ZS K} (h : Res Z0 c (Lb ++ Ls) z) (u : Nat → K)
    (hT : ∀ p ∈ Lb, p.2.okT ∧ ∀ a b, p.2 = .deathNot a b → a ≤ b) (hb : ∀ p ∈ Ls, p.1 = .base p.2) (r : RS K)
    (h1 : r.T = z.T) (h2 : r.stk = z.stk) :
    revRunA u ((Lb ++ Ls).map Prod.fst).reverse r = liftR (revRun u ((Lb ++ Ls).map Prod.snd).reverse r) := by
  induction Lb generalizing z r with
  | nil =>
    simp only [List.nil_append]
    have : (Ls.map Prod.fst).reverse = ((Ls.map Prod.snd).reverse).map AOp.base := by
      rw [List.map_reverse, List.map_map]
      congr 1
      exact List.map_congr_left fun p hp => hb p hp
    rw [this, revRunA_base]
  | cons p L ih =>
    obtain ⟨z1, k1, k2, k3, k4⟩ := h
    obtain ⟨g1, g2⟩ := hT p (List.mem_cons_self ..)
    obtain ⟨r', q1, q2, q3⟩ := restore_step hk (u := u) k3 g1 g2 r h1 h2
    simp only [List.cons_append, List.map_cons, List.reverse_cons]
    rw [revRunA_append, revRun_append]
    simp only [revRunA, revRun, h1, k4, q1]
    exact ih k1 (fun p hp => hT p (List.mem_cons_of_mem _ hp)) r' q2 q3

/-! ### References as constants -/

theorem tanStep_mono {o : Base K} {Z Z' : Set Nat} (h : Z ⊆ Z') : o.tanStep Z ⊆ o.tanStep Z' := by
  cases o <;> simp only [Base.tanStep]
  all_goals first
    | exact h
    | exact Set.insert_subset_insert h
    | exact Set.diff_subset_diff_left h
    | exact Set.union_subset_union_left _ h

theorem adjStep_mono {o : Base K} {Z Z' : Set Nat} (h : Z ⊆ Z') : o.adjStep Z ⊆ o.adjStep Z' := by
  rw [adjStep_eq, adjStep_eq]
  exact Set.union_subset_union_right _ (Set.diff_subset_diff_left h)

theorem vw_cases (p : AOp K × Base K) : vw unref p = vw id p ∨ ∃ r c, vw id p = .setRef r c ∧ vw unref p = opAssignD r c := by
  obtain ⟨a, b⟩ := p
  cases a
  case base o => exact .inl rfl
  all_goals
    cases b
    case setRef r c => exact .inr ⟨r, c, rfl, rfl⟩
    all_goals exact .inl rfl

theorem opAssignD_cases (P : Base K → Prop) (r : Nat) (c : K) (h : ∀ c, P (.assignD r c)) (h0 : P (.assignD0 r)) (h1 : P (.assignD1 r)) :
    P (opAssignD r c) := by
  unfold opAssignD
  split_ifs
  exacts [h0, h1, h c]

theorem liveAdj_unref (L : PL K) : liveAdj (L.map (vw unref)) ⊆ liveAdj (L.map (vw id)) := by
  induction L with
  | nil => exact subset_rfl
  | cons p L ih =>
    simp only [List.map_cons, liveAdj]
    rcases vw_cases p with h | ⟨r, c, h1, h2⟩
    · rw [h]; exact adjStep_mono ih
    · rw [h1, h2]
      refine opAssignD_cases (fun o => o.adjStep _ ⊆ _) r c (fun c => ?_) ?_ ?_ <;>
        exact fun l hl => ih hl.1

theorem wf_unref {N : Nat} {L : PL K} {Z Z' : Set Nat} (hZ : Z ⊆ Z') (h : WfFrom N Z (L.map (vw id))) :
    WfFrom N Z' (L.map (vw unref)) := by
  induction L generalizing Z Z' with
  | nil => trivial
  | cons p L ih =>
    obtain ⟨h1, h2, h3, h4, h5⟩ := h
    rcases vw_cases p with he | ⟨r, c, e1, e2⟩
    · simp only [List.map_cons, WfFrom, he]
      exact ⟨h1, h2, h3.trans hZ, fun l hl hm => h4 l hl (liveAdj_unref L hm), ih (tanStep_mono hZ) h5⟩
    · simp only [List.map_cons, WfFrom, e2]
      rw [e1] at h1 h5
      have hsub : Z ⊆ insert r Z' := hZ.trans (Set.subset_insert _ _)
      refine opAssignD_cases (fun o => o.bounded N ∧ o.okT ∧ o.zeroTan ⊆ Z' ∧ (∀ l ∈ o.zeroAdj, l ∉ liveAdj (L.map (vw unref))) ∧
        WfFrom N (o.tanStep Z') (L.map (vw unref))) r c (fun c => ?_) ?_ ?_ <;>
      exact ⟨h1, trivial, Set.empty_subset _, fun l hl => hl.elim, ih hsub h5⟩

theorem setA_same {r : Nat} {s : RS K} (h : s.A r = 0) : s.setA r 0 = s := by
  unfold RS.setA
  rw [← h, upd_self]

theorem rev_unref {N : Nat} {u : Nat → K} {L : PL K} {Z : Set Nat} (h : WfFrom N Z (L.map (vw id))) {s : RS K} (hA : ∀ l, s.A l = 0) :
    revRun u (L.map (vw unref)) s = revRun u (L.map (vw id)) s ∧
      ∀ r, revRun u (L.map (vw id)) s = .ok r → ∀ l, l ∉ liveAdj (L.map (vw id)) → r.A l = 0 := by
  induction L generalizing Z with
  | nil => exact ⟨rfl, fun r hr l _ => by cases hr; exact hA l⟩
  | cons p L ih =>
    obtain ⟨h1, h2, h3, h4, h5⟩ := h
    obtain ⟨i1, i2⟩ := ih h5
    simp only [List.map_cons, revRun, i1]
    cases hr : revRun u (L.map (vw id)) s with
    | error e => exact ⟨rfl, fun r h => by cases h⟩
    | ok s1 =>
      refine ⟨?_, fun r h => adj_step h (i2 s1 hr)⟩
      rcases vw_cases p with he | ⟨r, c, e1, e2⟩
      · rw [he]
      · rw [e1] at h4
        have hz : s1.A r = 0 := i2 s1 hr r (h4 r rfl)
        rw [e1, e2]
        refine opAssignD_cases (fun o => revStep u o s1 = _) r c (fun c => ?_) ?_ ?_ <;>
        simp only [revStep, setA_same hz]

theorem along_unref {P : Base K → (Nat → K) → Prop} (hP : ∀ r c T, P (.setRef r c) T) {c : Cfg K} {L : PL K} {z : ZS K}
    (h : Along P c (L.map (vw unref)) z) : Along P c (L.map (vw id)) z := by
  induction L generalizing z with
  | nil => trivial
  | cons p L ih =>
    obtain ⟨h1, h2⟩ := h
    refine ⟨?_, fun z' hz => ih (h2 z' (by rw [vw_unref_zos]; exact hz))⟩
    rcases vw_cases p with he | ⟨r, k, e1, e2⟩
    · rw [← he]; exact h1
    · rw [e1]; exact hP _ _ _

/-! ### `keep` does not change the tangents -/

theorem fov_keep {c c' : Cfg K} (hx : c.x = c'.x) (hp : c.par = c'.par) {p : Nat} {V : Nat → Nat → K} (ops : List (Base K)) (s : VS K) :
    fovRun c p V ops s = fovRun c' p V ops s := by
  induction ops generalizing s with
  | nil => rfl
  | cons o os ih =>
    have : fovStep c p V o s = fovStep c' p V o s := by
      cases o <;> simp only [fovStep, hx, hp]
    simp only [fovRun, this, ih]

theorem fos_keep {c c' : Cfg K} (hx : c.x = c'.x) (hp : c.par = c'.par) {v : Nat → K} {ops : List (Base K)} {T0 : Nat → K} {f f' : FS K}
    (h : fosRun c v ops (FS.start T0) = .ok f) (h' : fosRun c' v ops (FS.start T0) = .ok f')
    (hl : Along logArgNonzero c ops (ZS.start T0)) (hl' : Along logArgNonzero c' ops (ZS.start T0)) : f.dy = f'.dy := by
  have hcol : Col 0 (⟨T0, fun _ _ => 0, 3, 0, [], []⟩ : VS K) (FS.start T0) := ⟨rfl, fun _ => rfl, rfl, rfl, rfl, le_refl _⟩
  have e1 := fov_fos_run (p := 1) c (V := fun i _ => v i) (Nat.zero_lt_one) ops hcol (z := ZS.start T0) ⟨rfl, rfl, rfl, rfl, le_refl _⟩ hl
  have e2 := fov_fos_run (p := 1) c' (V := fun i _ => v i) (Nat.zero_lt_one) ops hcol (z := ZS.start T0) ⟨rfl, rfl, rfl, rfl, le_refl _⟩ hl'
  rw [fov_keep hx hp] at e1
  simp only [h, h'] at e1 e2
  cases hr : fovRun c' 1 (fun i _ => v i) ops (⟨T0, fun _ _ => 0, 3, 0, [], []⟩ : VS K) with
  | error e => rw [hr] at e1; exact e1.elim
  | ok s =>
    rw [hr] at e1 e2
    rw [← e1.dy, ← e2.dy]

/-- A complete trace with the resolved operations. -/
def FL (stock : List (Nat × List K)) (Lb : PL K) (N : Nat) : PL K :=
  (stock.map fun p => (.base (.takeStock p.1 p.2), .takeStock p.1 p.2)) ++ Lb ++ [(.base (.deathNot 0 (N - 1)), .deathNot 0 (N - 1))]

theorem FL_map (stock : List (Nat × List K)) (Lb : PL K) (N : Nat) (g : Base K → Base K) :
    (FL stock Lb N).map (vw g) = fullTrace stock (Lb.map (vw g)) N := by
  simp [FL, fullTrace, vw, Function.comp_def]

/-- Tangents and adjoints over a trace do not see the tangents of reference cells. -/
theorem unref_sweeps {stock : List (Nat × List K)} {Lb : PL K} {N : Nat} (hw : WfTrace stock (Lb.map (vw id)) N) {c : Cfg K}
    (hk : c.keep = true) {T0 : Nat → K} (hT0 : ∀ l, N ≤ l → T0 l = 0) {z : ZS K}
    (hz : zosRun c (fullTrace stock (Lb.map (vw id)) N) (ZS.start T0) = .ok z)
    (hreg : Along regular c (fullTrace stock (Lb.map (vw unref)) N) (ZS.start T0)) (v : Nat → K) :
    ∃ fA fB, fosRun c v (fullTrace stock (Lb.map (vw id)) N) (FS.start T0) = .ok fA ∧
      fosRun c v (fullTrace stock (Lb.map (vw unref)) N) (FS.start T0) = .ok fB ∧
      fA.dy.length = z.y.length ∧ fB.dy.length = z.y.length ∧ (∀ j : Nat, fA.dy[j]?.getD 0 = fB.dy[j]?.getD 0) ∧
      ∀ u, ∃ r, revRun u (fullTrace stock (Lb.map (vw id)) N) (RS.init z.ii z.y.length z.stk) = .ok r ∧ r.stk = [] ∧
        dot z.ii r.bar v = wsum u fB.dy := by
  have hregA : Along regular c (fullTrace stock (Lb.map (vw id)) N) (ZS.start T0) := by
    rw [← FL_map] at hreg ⊢
    exact along_unref (fun r c T => by simp [regular]) hreg
  have hzB : zosRun c (fullTrace stock (Lb.map (vw unref)) N) (ZS.start T0) = .ok z := by
    rw [← FL_map, vw_unref_run, FL_map]; exact hz
  have hwB : WfTrace stock (Lb.map (vw unref)) N := ⟨hw.pos, hw.stock, wf_unref subset_rfl hw.body⟩
  have get : ∀ ops, zosRun c ops (ZS.start T0) = .ok z → ∃ f, fosRun c v ops (FS.start T0) = .ok f ∧ f.ii = z.ii ∧ f.stk = z.stk ∧
      f.dy.length = z.y.length ∧ numInd ops = z.ii ∧ numDep ops = z.y.length := by
    intro ops h
    have hsame := fos_zos_run c v ops (s := FS.start T0) (z := ZS.start T0) ⟨rfl, rfl, rfl, rfl, le_refl _⟩
    rw [h] at hsame
    cases hf : fosRun c v ops (FS.start T0) with
    | error e => rw [hf] at hsame; exact hsame.elim
    | ok f =>
      rw [hf] at hsame
      have hcnt := fos_ii_le hf
      simp only [FS.start, Nat.zero_add, List.length_nil] at hcnt
      have h1 : f.y.length = z.y.length := by rw [hsame.y]
      exact ⟨f, rfl, hsame.ii, hsame.stk, by omega, by rw [← hcnt.1, hsame.ii], by omega⟩
  obtain ⟨fA, a1, a2, a3, a4, a5, a6⟩ := get _ hz
  obtain ⟨fB, b1, b2, b3, b4, b5, b6⟩ := get _ hzB
  have heq : ∀ u s, (∀ l, s.A l = 0) → revRun u (fullTrace stock (Lb.map (vw unref)) N) s = revRun u (fullTrace stock (Lb.map (vw id)) N) s := by
    intro u s hs
    unfold fullTrace
    rw [revRun_append, revRun_append (a := _ ++ Lb.map (vw id))]
    cases hd : revRun u [Base.deathNot 0 (N - 1)] s with
    | error e => rfl
    | ok s1 =>
      simp only
      rw [revRun_append, revRun_append (a := stock.map _)]
      have hA : ∀ l, s1.A l = 0 := by
        simp only [revRun] at hd
        exact fun l => adj_step hd (L := ∅) (fun l _ => hs l) l (by simp [Base.adjStep])
      rw [(rev_unref hw.body hA).1]
  have main : ∀ u, ∃ r, revRun u (fullTrace stock (Lb.map (vw id)) N) (RS.init z.ii z.y.length z.stk) = .ok r ∧ r.stk = [] ∧
      dot z.ii r.bar v = wsum u fA.dy ∧ dot z.ii r.bar v = wsum u fB.dy := by
    intro u
    obtain ⟨r, r1, r2, r3⟩ := full_reverse_from hw hk u v T0 hT0 a1 hregA
    obtain ⟨q, q1, q2, q3⟩ := full_reverse_from hwB hk u v T0 hT0 b1 (by exact hreg)
    rw [a5, a6, a3] at r1
    rw [b5, b6, b3, heq u _ (fun _ => rfl), r1] at q1
    cases q1
    rw [a5] at r3
    rw [b5] at q3
    exact ⟨r, r1, r2, r3, q3⟩
  refine ⟨fA, fB, a1, b1, a4, b4, fun j => ?_, fun u => ?_⟩
  · obtain ⟨r, _, _, h3, h4⟩ := main (fun i => if i = j then 1 else 0)
    rw [h3, wsum, wsum, a4, b4] at h4
    by_cases hj : j < z.y.length
    · simpa [Finset.sum_ite_eq, hj] using h4
    · rw [List.getElem?_eq_none (by omega), List.getElem?_eq_none (by omega)]
  · obtain ⟨r, h1, h2, _, h4⟩ := main u
    exact ⟨r, h1, h2, h4⟩
end

theorem idx_ofLoc_real (l : Nat) : idx (ofLoc l : ℝ) = l := by
  show ⌊|((l : ℕ) : ℝ)|⌋₊ = l
  rw [abs_of_nonneg (by positivity)]
  exact Nat.floor_natCast l

theorem MAll_MSmooth {lv : Sm} {x par : Nat → ℝ} {ms : List (Mic ℝ)} {e : SE ℝ} :
    MAll (fun m e => match m with
      | .call st => st.smooth lv e
      | .cmp _ a => ∀ v, e.vars a = some v → v ≠ 0
      | _ => True) x par ms e ↔ MSmooth lv x par ms e := by
  induction ms generalizing e with
  | nil => exact Iff.rfl
  | cons m ms ih =>
    simp only [MAll, MSmooth, ih]
    cases m <;> exact Iff.rfl

theorem Res.mem {K : Type} [Scalar K] {Z0 : ZS K} {c : Cfg K} {L : PL K} {z : ZS K} (h : Res Z0 c L z) {p : AOp K × Base K} (hp : p ∈ L) :
    ∃ T, p.1.resolve T = .ok p.2 := by
  induction L generalizing z with
  | nil => cases hp
  | cons q L ih =>
    obtain ⟨z1, k1, k2, k3, k4⟩ := h
    rcases List.mem_cons.1 hp with rfl | hp
    · exact ⟨_, k2⟩
    · exact ih k1 hp

theorem resolve_take {K : Type} [Scalar K] {T : Nat → K} {a : AOp K} {r : Nat} {vs : List K} (h : a.resolve T = .ok (.takeStock r vs)) :
    a = .base (.takeStock r vs) := by
  cases a <;> simp only [AOp.resolve, Except.ok.injEq] at h
  case base o => rw [h]
  case ref f q => cases f <;> cases h
  all_goals first
    | cases h; done
    | (split at h <;> cases h)

/-- The `j`-th output of a program run on plain numbers. -/
def AProg.out {K : Type} [Scalar K] (p : AProg K) (x par : Nat → K) (e0 : SE K) (j : Nat) : K :=
  match p.spec x par ⟨e0, []⟩ with
  | some (E, _, _) => E.e.ys[j]?.getD 0
  | none => 0

variable {s : Rec ℝ} {s' : ARec ℝ} {stock : List (Nat × List ℝ)} {cfg : RCfg ℝ}

set_option maxHeartbeats 2000000 in
/-- `fos_forward` and `fos_reverse` over the recorded trace compute the derivative of the program. -/
theorem adv_derivative (hal : ∀ k L, cfg.alloc k L ∉ L) (p : AProg ℝ) (hs : s.Start stock)
    (hrec : p.record cfg (ARec.start s) = some s') (hcon : p.contig cfg (ARec.start s))
    (T0 par : Nat → ℝ) {n : Nat} (x0 : Fin n → ℝ) {k : List Nat}
    (hnear : ∀ᶠ x in 𝓝 x0, ∃ E, p.spec (ext x) par ⟨s.se, []⟩ = some (E, p.path cfg (ARec.start s), k))
    (hsm : p.smooth .rev (ext x0) par ⟨s.se, []⟩) (hd : p.disc (ext x0) par ⟨s.se, []⟩ ⟨Set.univ, ∅⟩)
    {N : Nat} (hN : 0 < N) (hNw : s'.r.hw ≤ N) (hT0 : ∀ l, N ≤ l → T0 l = 0) :
    ∃ (E0 : ASE ℝ) (D : Nat → (Fin n → ℝ) →L[ℝ] ℝ),
      p.spec (ext x0) par ⟨s.se, []⟩ = some (E0, p.path cfg (ARec.start s), k) ∧
      (∀ j, HasFDerivAt (fun x => p.out (ext x) par s.se j) (D j) x0) ∧
      (∀ (keep : Bool) (v : Fin n → ℝ), ∃ f, fosRunA ⟨ext x0, par, keep⟩ (ext v) (s'.tape N) (FS.start T0) = .ok f ∧
        f.y = E0.e.ys ∧ f.dy.length = E0.e.ys.length ∧ ∀ j, f.dy[j]?.getD 0 = D j v) ∧
      ∀ z, E0.e.ii = n → zosRunA ⟨ext x0, par, true⟩ (s'.tape N) (ZS.start T0) = .ok z → ∀ u,
        ∃ r, revRunA u (s'.tape N) (RS.init n E0.e.ys.length z.stk) = .ok r ∧ r.stk = [] ∧
          ∀ i : Fin n, r.bar i = ∑ j ∈ Finset.range E0.e.ys.length, u j * D j (Pi.single i 1) := by
  obtain ⟨E0, sp0⟩ := hnear.self_of_nhds
  obtain ⟨z0, inv0⟩ := AInv.start hs T0 ⟨ext x0, par, true⟩
  obtain ⟨ms, L', w⟩ := awalk hal idx_ofLoc_real p hrec hcon (Cov.start s) inv0 sp0
  -- the stretch recorded after the stock
  have htr0 : ∀ (p q r : Nat) l, (stock.map fun p => Base.takeStock p.1 p.2).reverse ≠ (Base.multAA p q r : Base ℝ) :: l := by
    intro p q r l h
    have : (Base.multAA p q r : Base ℝ) ∈ stock.map fun p => Base.takeStock p.1 p.2 := by
      rw [← List.mem_reverse, h]; simp
    simp at this
  have hst : (startL s).map (vw id) = s.tr := by
    simp [startL, vw, Function.comp_def]
  have hm0 : MonOk (stock.map fun p => Base.takeStock p.1 p.2).reverse
      { (ARec.start s).r with tr := (startL s).map (vw id) } ⟨Set.univ, ∅⟩ :=
    ⟨[], by rw [hst, hs.tr]; rfl, trivial, fun a l _ _ => trivial, fun a l _ h => h.elim⟩
  obtain ⟨d', hd'⟩ := w.disc _ hd
  obtain ⟨ok', hhw, ⟨body, b1, b2, b3⟩⟩ := mics_mon hal w.go hs.ok hm0 hd' htr0
  simp only at b1 b2
  obtain ⟨Lb, Ls, hL, hLb, hLs⟩ := List.map_eq_append_iff.1 b1
  obtain ⟨_, _, z1, inv1⟩ := w.sim _ _ _ _ E0 rfl inv0 sp0
  have hLs' : Ls = (stock.map fun p => ((.base (.takeStock p.1 p.2), .takeStock p.1 p.2) : AOp ℝ × Base ℝ)).reverse := by
    have h1 : ∀ p ∈ Ls, ((.base (vw id p), vw id p) : AOp ℝ × Base ℝ) = p := by
      intro p hp
      have hpL : p ∈ L' := by rw [hL]; simp [hp]
      have h2 : vw id p ∈ (stock.map fun p => Base.takeStock p.1 p.2).reverse := by
        rw [← hLs]; exact List.mem_map_of_mem hp
      have h3 := vw_id (w.cov.pair p hpL)
      simp only [List.mem_reverse, List.mem_map] at h2
      obtain ⟨q, _, h2⟩ := h2
      obtain ⟨T, hT⟩ := inv1.res.mem hpL
      rw [← h3, ← h2] at hT
      have h4 := resolve_take hT
      rw [← h2]
      refine Prod.ext h4.symm ?_
      rw [← h3, ← h2]
    have : Ls = (Ls.map (vw id)).map fun o => ((.base o, o) : AOp ℝ × Base ℝ) := by
      rw [List.map_map]
      conv_lhs => rw [← List.map_id Ls]
      exact List.map_congr_left fun p hp => (h1 p hp).symm
    rw [this, hLs, List.map_reverse, List.map_map]
    rfl
  have hfull : ∀ g : Base ℝ → Base ℝ, (L'.map (vw g)).reverse ++ [Base.deathNot 0 (N - 1)] = fullTrace stock (Lb.reverse.map (vw g)) N := by
    intro g
    rw [← FL_map, hL, hLs']
    simp [FL, vw]
  have hsnd : L'.map (vw id) = L'.map Prod.snd := map_vw_id w.cov.pair
  have hstock : ∀ p ∈ stock, p.1 + p.2.length ≤ N := by
    rcases hs.stock with ⟨bs, rfl, hbs⟩ | ⟨rfl, hn⟩
    · have hlen : bs.flatten.length = s.hw := by rw [hbs]; simp
      have key : ∀ (bs : List (List ℝ)) (k : Nat), ∀ p ∈ stockBlocks k bs, p.1 + p.2.length ≤ k + bs.flatten.length := by
        intro bs
        induction bs with
        | nil => intro k p hp; simp [stockBlocks] at hp
        | cons vs bs ih =>
          intro k p hp
          simp only [stockBlocks, List.mem_cons] at hp
          simp only [List.flatten_cons, List.length_append]
          rcases hp with rfl | hp
          · simp
          · have := ih _ p hp; omega
      intro p hp
      have := key bs 0 p hp
      have : s.hw ≤ s'.r.hw := hhw
      omega
    · intro p hp; simp at hp
  have hwA : WfTrace stock (Lb.reverse.map (vw id)) N := ⟨hN, hstock, by
    rw [List.map_reverse, hLb]
    exact (b2.mono hNw).wf⟩
  -- sweeps at points nearby
  have sweep : ∀ (x : Fin n → ℝ) (keep : Bool) (E : ASE ℝ),
      p.spec (ext x) par ⟨s.se, []⟩ = some (E, p.path cfg (ARec.start s), k) →
      ∃ z1 z, Res (ZS.start T0) ⟨ext x, par, keep⟩ L' z1 ∧ zosStep ⟨ext x, par, keep⟩ (.deathNot 0 (N - 1)) z1 = .ok z ∧
        zosRun ⟨ext x, par, keep⟩ (fullTrace stock (Lb.reverse.map (vw id)) N) (ZS.start T0) = .ok z ∧
        zosRunA ⟨ext x, par, keep⟩ (s'.tape N) (ZS.start T0) = .ok z ∧ z.y = E.e.ys ∧ z.ii = E.e.ii := by
    intro x keep E sp
    obtain ⟨z0', inv0'⟩ := AInv.start hs T0 ⟨ext x, par, keep⟩
    obtain ⟨_, _, z1', inv1'⟩ := w.sim _ ⟨ext x, par, keep⟩ _ _ E rfl inv0' sp
    obtain ⟨z, h1, h2, h3, h4, _⟩ := death_step (c := (⟨ext x, par, keep⟩ : Cfg ℝ)) (a := 0) (b := N - 1) (z := z1')
    refine ⟨z1', z, inv1'.res, h1, ?_, ?_, ?_, ?_⟩
    · rw [← hfull, zosRun_append, hsnd, inv1'.res.run]
      simp [zosRun, h1]
    · unfold ARec.tape
      rw [← w.cov.fst, zosRunA_append, inv1'.res.runA]
      simp [zosRunA, AOp.resolve, h1]
    · rw [h4, inv1'.sim.y]; rfl
    · rw [h3, inv1'.sim.ii]; rfl
  -- the trace with constants for references is smooth
  have hms : MSmooth .rev (ext x0) par ms (gse (ARec.start s).r.env ⟨s.se, []⟩) := by
    refine MAll_MSmooth.1 (w.all _ _ (fun st E ms env hf hp hr => MAll_MSmooth.2 (astep_smooth hf hr hp)) ?_ hsm)
    intro q a e h
    exact h
  have hsmooth : ∀ keep : Bool, Along (smoothS .rev) ⟨ext x0, par, keep⟩ (fullTrace stock (Lb.reverse.map (vw unref)) N) (ZS.start T0) := by
    intro keep
    obtain ⟨z0', inv0'⟩ := AInv.start hs T0 ⟨ext x0, par, keep⟩
    obtain ⟨_, msp, _⟩ := w.sim _ ⟨ext x0, par, keep⟩ _ _ E0 rfl inv0' sp0
    have := mics_smooth hal (lv := .rev) w.go hs.ok (inv0'.zos (Cov.start s)) inv0'.sim msp hms (by
      have : (startL s).map (vw unref) = s.tr := by simp [startL, vw, Function.comp_def]
      rw [this, hs.tr, List.reverse_reverse]
      have key : ∀ (st : List (Nat × List ℝ)) (z : ZS ℝ),
          Along (smoothS .rev) ⟨ext x0, par, keep⟩ (st.map fun p => Base.takeStock p.1 p.2) z := by
        intro st
        induction st with
        | nil => intro z; trivial
        | cons p st ih => intro z; exact ⟨by simp [smoothS, smooth], fun z' _ => ih z'⟩
      exact key _ _)
    rw [← hfull, Along_snoc]
    exact ⟨this, fun z' _ => by simp [smoothS, smooth]⟩
  have hB : ∀ (c : Cfg ℝ), zosRun c (fullTrace stock (Lb.reverse.map (vw unref)) N) (ZS.start T0) =
      zosRun c (fullTrace stock (Lb.reverse.map (vw id)) N) (ZS.start T0) := by
    intro c
    rw [← FL_map, ← FL_map, vw_unref_run]
  obtain ⟨z1t, zt, resT, dT, runT, runAT, hyT, hiT⟩ := sweep x0 true E0 sp0
  have hreg : Along regular ⟨ext x0, par, true⟩ (fullTrace stock (Lb.reverse.map (vw unref)) N) (ZS.start T0) :=
    Along_mono (fun o T h => smoothS_regular h) (hsmooth true)
  have runB : zosRun ⟨ext x0, par, true⟩ (fullTrace stock (Lb.reverse.map (vw unref)) N) (ZS.start T0) = .ok zt := by rw [hB]; exact runT
  obtain ⟨Y, dY, h1, h2, h3, h4, h5⟩ := fos_derivative (x0 := x0) par T0 true ext (fun x i => rfl) runB
    (Along_mono (fun o T h => h.1) (hsmooth true)) (RefOk_of (hsmooth true) runB _)
  choose D hD1 hD2 using h5
  refine ⟨E0, D, sp0, fun j => ?_, fun keep v => ?_, fun z hn hz u => ?_⟩
  · refine (hD1 j).congr_of_eventuallyEq ?_
    filter_upwards [h1, hnear] with x hx hE
    obtain ⟨E, hE⟩ := hE
    obtain ⟨_, zx, _, _, runx, _, hy, _⟩ := sweep x true E hE
    rw [hB, runx] at hx
    cases hx
    simp only [AProg.out, hE, hy]
  · obtain ⟨z1k, zk, resK, dK, runK, runAK, hyK, hiK⟩ := sweep x0 keep E0 sp0
    obtain ⟨f1, g1, g2, g3⟩ := resK.fos (ext v) (f0 := FS.start T0) ⟨rfl, rfl, rfl, rfl, le_refl _⟩
    have hs1 := fos_zos_step ⟨ext x0, par, keep⟩ (ext v) (.deathNot 0 (N - 1)) g3
    rw [dK] at hs1
    cases hf : fosStep ⟨ext x0, par, keep⟩ (ext v) (.deathNot 0 (N - 1)) f1 with
    | error e => rw [hf] at hs1; exact hs1.elim
    | ok f =>
      rw [hf] at hs1
      have r1 : fosRunA ⟨ext x0, par, keep⟩ (ext v) (s'.tape N) (FS.start T0) = .ok f := by
        unfold ARec.tape
        rw [← w.cov.fst, fosRunA_append, g1]
        simp [fosRunA, AOp.resolve, hf]
      have r2 : fosRun ⟨ext x0, par, keep⟩ (ext v) (fullTrace stock (Lb.reverse.map (vw id)) N) (FS.start T0) = .ok f := by
        rw [← hfull, fosRun_append, hsnd, g2]
        simp [fosRun, hf]
      obtain ⟨fA, fB, a1, a2, a3, a4, a5, _⟩ := unref_sweeps hwA rfl hT0 runT hreg (ext v)
      have hlog : ∀ keep : Bool, Along logArgNonzero ⟨ext x0, par, keep⟩ (fullTrace stock (Lb.reverse.map (vw id)) N) (ZS.start T0) := by
        intro keep
        have h := Along_mono (Q := logArgNonzero) (fun o T h => by
          have := smoothS_regular h
          cases o <;> simp_all [logArgNonzero, regular]) (hsmooth keep)
        rw [← FL_map] at h ⊢
        exact along_unref (fun r c T => by simp [logArgNonzero]) h
      have hdy : f.dy = fA.dy := fos_keep (c := ⟨ext x0, par, keep⟩) (c' := ⟨ext x0, par, true⟩) rfl rfl r2 a1 (hlog keep) (hlog true)
      refine ⟨f, r1, by rw [hs1.y, hyK], by rw [hdy, a3, hyT], fun j => ?_⟩
      rw [hdy, a5 j]
      rw [h2 v] at a2
      cases a2
      exact hD2 j v
  · rw [runAT] at hz
    cases hz
    have key : ∀ v : Fin n → ℝ, ∃ r, revRunA u (s'.tape N) (RS.init n E0.e.ys.length zt.stk) = .ok r ∧
        r.stk = [] ∧ dot n r.bar (ext v) = ∑ j ∈ Finset.range E0.e.ys.length, u j * D j v := by
      intro v
      obtain ⟨fA, fB, a1, a2, a3, a4, a5, a6⟩ := unref_sweeps hwA rfl hT0 runT hreg (ext v)
      obtain ⟨r, r1, r2, r3⟩ := a6 u
      rw [hiT, hn, hyT] at r1
      rw [hiT, hn] at r3
      have hfin : ∀ l, N ≤ l → z1t.T l = 0 := by
        intro l hl
        have hb : ∀ o ∈ (L'.map Prod.snd).reverse, o.bounded N := by
          rw [← hsnd]
          have hwf : ∀ (Z : Set Nat) (ops : List (Base ℝ)), WfFrom N Z ops → ∀ o ∈ ops, o.bounded N := by
            intro Z ops
            induction ops generalizing Z with
            | nil => intro _ o ho; cases ho
            | cons q ops ih =>
              intro h o ho
              rcases List.mem_cons.1 ho with rfl | ho
              · exact h.1
              · exact ih _ h.2.2.2.2 o ho
          have hb2 := hwf _ _ hwA.body
          intro o ho
          rw [hL, hLs'] at ho
          simp only [List.map_append, List.reverse_append, List.mem_append, List.mem_reverse, List.mem_map] at ho
          rcases ho with ⟨q, ⟨p, hp, rfl⟩, rfl⟩ | ⟨q, hq, rfl⟩
          · exact hstock p hp
          · exact hb2 _ (List.mem_map_of_mem (by simpa using hq))
        rw [zosRun_beyond hb resT.run l hl]
        exact hT0 l hl
      obtain ⟨rd, d1, d2, d3⟩ := restore_death hN rfl (u := u) (n := n) (m := E0.e.ys.length) dT hfin
      have hwf2 : ∀ p ∈ Lb, p.2.okT ∧ ∀ a b, p.2 = .deathNot a b → a ≤ b := by
        have hwf : ∀ (Z : Set Nat) (ops : List (Base ℝ)), WfFrom N Z ops → ∀ o ∈ ops, o.okT ∧ o.bounded N := by
          intro Z ops
          induction ops generalizing Z with
          | nil => intro _ o ho; cases ho
          | cons q ops ih =>
            intro h o ho
            rcases List.mem_cons.1 ho with rfl | ho
            · exact ⟨h.2.1, h.1⟩
            · exact ih _ h.2.2.2.2 o ho
        intro p hp
        have h3 := vw_id (w.cov.pair p (by rw [hL]; simp [hp]))
        obtain ⟨q1, q2⟩ := hwf _ _ hwA.body (vw id p) (List.mem_map_of_mem (by simpa using hp))
        rw [h3] at q1 q2
        exact ⟨q1, fun a b h => by rw [h] at q2; exact q2.1⟩
      have hbs : ∀ p ∈ Ls, p.1 = .base p.2 := by
        intro p hp
        rw [hLs'] at hp
        simp only [List.mem_reverse, List.mem_map] at hp
        obtain ⟨q, _, rfl⟩ := hp
        rfl
      have hrr := Res.rev rfl (Lb := Lb) (Ls := Ls) (by rw [← hL]; exact resT) u hwf2 hbs rd d2 d3
      rw [← hL] at hrr
      refine ⟨r, ?_, r2, ?_⟩
      · rw [← hfull, revRun_append, hsnd] at r1
        simp only [revRun, d1] at r1
        unfold ARec.tape
        rw [← w.cov.fst, revRunA_append]
        simp only [revRunA, AOp.resolveRev, d1]
        rw [hrr, r1]
        rfl
      · rw [r3, wsum, a4, hyT]
        rw [h2 v] at a2
        cases a2
        exact Finset.sum_congr rfl fun j _ => by rw [hD2 j v]
    obtain ⟨r, r1, r2, _⟩ := key 0
    refine ⟨r, r1, r2, fun i => ?_⟩
    obtain ⟨r', q1, q2, q3⟩ := key (Pi.single i 1)
    rw [r1] at q1
    cases q1
    rw [← dot_single r.bar i, q3]

end Verif.AD
