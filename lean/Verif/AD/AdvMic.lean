import Verif.AD.AdvGhost

/-! Small steps on the resolved trace, and what the sweeps need of them. -/
set_option linter.all false
namespace Verif.AD
open Elem

variable {K : Type} [Scalar K]

abbrev PL (K : Type) := List (AOp K × Base K)

/-- Steps a call with active subscripts is made of. -/
inductive Mic (K : Type) where
  | call (st : Stmt K)
  | setref (q lt : Nat)
  | self (t : Nat)
  | cmp (q : Cmp) (a : Nat)

def Mic.go (cfg : RCfg K) (m : Mic K) (r : Rec K) (L : PL K) (r' : Rec K) (L' : PL K) : Prop :=
  match m with
  | .call st => ∀ g, View g → ∃ V stk, st.record cfg { r with tr := L.map (vw g) } =
      some { r' with tr := L'.map (vw g), V := V, stk := stk }
  | .setref q lt => ∃ a V stk tr, a.isBase = false ∧
      L' = (a, .setRef (r.next cfg) (ofLoc lt)) :: L ∧ r' = { r.take cfg q with V := V, stk := stk, tr := tr }
  | .self t => ∃ lt a V stk tr, a.isBase = false ∧ r.env t = some lt ∧ L' = (a, .assignA lt lt) :: L ∧
      r' = { r with V := V, stk := stk, tr := tr }
  | .cmp q a => ∃ la tr, r.env a = some la ∧ L' = (.base (.cmp q la), .cmp q la) :: L ∧ r' = { r with tr := tr }

def Mic.spec (x par : Nat → K) (m : Mic K) (e : SE K) : Option (SE K) :=
  match m with
  | .call st => st.spec x par e
  | .setref q lt => some (e.set q (ofLoc lt))
  | .self _ => some e
  | .cmp q a => (e.vars a).bind fun v => if q.holds v then some e else none

def Mics (cfg : RCfg K) : List (Mic K) → Rec K → PL K → Rec K → PL K → Prop
  | [], r, L, r', L' => r' = r ∧ L' = L
  | m :: ms, r, L, r', L' => ∃ r1 L1, m.go cfg r L r1 L1 ∧ Mics cfg ms r1 L1 r' L'

def Mics.spec (x par : Nat → K) : List (Mic K) → SE K → Option (SE K)
  | [], e => some e
  | m :: ms, e => (m.spec x par e).bind fun e' => Mics.spec x par ms e'

theorem Mics.append {cfg : RCfg K} {a b : List (Mic K)} {r r1 r2 : Rec K} {L L1 L2 : PL K}
    (h1 : Mics cfg a r L r1 L1) (h2 : Mics cfg b r1 L1 r2 L2) : Mics cfg (a ++ b) r L r2 L2 := by
  induction a generalizing r L with
  | nil => obtain ⟨rfl, rfl⟩ := h1; exact h2
  | cons m ms ih =>
    obtain ⟨r', L', g1, g2⟩ := h1
    exact ⟨r', L', g1, ih g2⟩

theorem Mics.spec_append {x par : Nat → K} {a b : List (Mic K)} {e : SE K} :
    Mics.spec x par (a ++ b) e = (Mics.spec x par a e).bind (Mics.spec x par b) := by
  induction a generalizing e with
  | nil => rfl
  | cons m ms ih =>
    simp only [List.cons_append, Mics.spec]
    cases m.spec x par e <;> simp [ih]

/-! ### Values -/

theorem mic_sim {Z0 : ZS K} {c : Cfg K} {cfg : RCfg K} (hal : ∀ k L, cfg.alloc k L ∉ L) {m : Mic K} {r r' : Rec K}
    {L L' : PL K} {z : ZS K} {e e' : SE K} (h : m.go cfg r L r' L') (ok : r.Ok)
    (hz : zosRun c (L.map (vw id)).reverse Z0 = .ok z) (hs : Sim r.env z e)
    (hsp : m.spec c.x c.par e = some e') :
    r'.Ok ∧ ∃ z', zosRun c (L'.map (vw id)).reverse Z0 = .ok z' ∧ Sim r'.env z' e' := by
  cases m
  case call st =>
    obtain ⟨V, stk, h⟩ := h id View.id'
    obtain ⟨o1, e2, z2, h1, h2, h3⟩ := sim_step (Z0 := Z0) (c := c) hal (s := { r with tr := L.map (vw id) }) (ok.same rfl rfl rfl) hz hs h
    simp only [Mic.spec] at hsp
    rw [hsp] at h1; cases h1
    exact ⟨o1.same rfl rfl rfl, z2, h2, h3⟩
  case setref q lt =>
    obtain ⟨a, V, stk, tr, h1, rfl, rfl⟩ := h
    cases hsp
    obtain ⟨o1, e2, z2, g1, g2, g3⟩ := StepOk.take1 (Z0 := Z0) (c := c) hal (s := { r with tr := L.map (vw id) })
      (ok.same rfl rfl rfl) hz hs (d := q) (o := .setRef (r.next cfg) (ofLoc lt)) (v := 0) (w := ofLoc lt) rfl rfl rfl rfl
    cases g1
    refine ⟨o1.same rfl rfl rfl, z2, ?_, g3⟩
    rw [List.map_cons, vw_of h1]
    exact g2
  case self t =>
    obtain ⟨lt, a, V, stk, tr, h1, h2, rfl, rfl⟩ := h
    cases hsp
    obtain ⟨o1, e2, z2, g1, g2, g3⟩ := StepOk.rec1 (Z0 := Z0) (c := c) (cfg := cfg) (s := { r with tr := L.map (vw id) })
      (ok.same rfl rfl rfl) hz hs h2 (o := .assignA lt lt) (v := 0) (w := z.T lt) rfl rfl rfl rfl
    cases g1
    have hes : e.set t (z.T lt) = e := by
      have := hs.get h2
      cases e; simp only [SE.set, SE.mk.injEq, and_true, true_and] at this ⊢
      funext b; simp only [upd_apply]; split <;> simp_all
    rw [hes] at g3
    refine ⟨ok.same rfl rfl rfl, z2, ?_, g3⟩
    rw [List.map_cons, vw_of h1]
    exact g2
  case cmp q a =>
    obtain ⟨la, tr, h1, rfl, rfl⟩ := h
    simp only [Mic.spec, hs.get h1, Option.bind_some] at hsp
    split at hsp
    · rename_i hq
      cases hsp
      obtain ⟨z', k1, k2, k3, k4⟩ := cmp_step_ok (c := c) hq
      refine ⟨ok.same rfl rfl rfl, z', ?_, ?_⟩
      · rw [List.map_cons, List.reverse_cons, zosRun_append, hz]
        simp [zosRun, vw, k1]
      · exact ⟨fun b => by rw [hs.vars, k2], by rw [k3, hs.ii], by rw [k4, hs.y]⟩
    · cases hsp

theorem mics_sim {Z0 : ZS K} {c : Cfg K} {cfg : RCfg K} (hal : ∀ k L, cfg.alloc k L ∉ L) {ms : List (Mic K)} {r r' : Rec K}
    {L L' : PL K} {z : ZS K} {e e' : SE K} (h : Mics cfg ms r L r' L') (ok : r.Ok)
    (hz : zosRun c (L.map (vw id)).reverse Z0 = .ok z) (hs : Sim r.env z e)
    (hsp : Mics.spec c.x c.par ms e = some e') :
    r'.Ok ∧ ∃ z', zosRun c (L'.map (vw id)).reverse Z0 = .ok z' ∧ Sim r'.env z' e' := by
  induction ms generalizing r L z e with
  | nil =>
    obtain ⟨rfl, rfl⟩ := h
    cases hsp
    exact ⟨ok, z, hz, hs⟩
  | cons m ms ih =>
    obtain ⟨r1, L1, g1, g2⟩ := h
    simp only [Mics.spec, Option.bind_eq_some_iff] at hsp
    obtain ⟨e1, k1, k2⟩ := hsp
    obtain ⟨o1, z1, q1, q2⟩ := mic_sim hal g1 ok hz hs k1
    exact ih g2 o1 q1 q2 k2

/-! ### Smoothness, on the view with constants for references -/

def MSmooth (lv : Sm) (x par : Nat → ℝ) : List (Mic ℝ) → SE ℝ → Prop
  | [], _ => True
  | m :: ms, e => (match m with
      | .call st => st.smooth lv e
      | .cmp _ a => ∀ v, e.vars a = some v → v ≠ 0
      | _ => True) ∧ ∀ e', m.spec x par e = some e' → MSmooth lv x par ms e'

theorem MSmooth.append {lv : Sm} {x par : Nat → ℝ} {a b : List (Mic ℝ)} {e : SE ℝ} (h1 : MSmooth lv x par a e)
    (h2 : ∀ e', Mics.spec x par a e = some e' → MSmooth lv x par b e') : MSmooth lv x par (a ++ b) e := by
  induction a generalizing e with
  | nil => exact h2 e rfl
  | cons m ms ih =>
    refine ⟨h1.1, fun e' he => ih (h1.2 e' he) fun e2 h3 => h2 e2 ?_⟩
    simp [Mics.spec, he, h3]

theorem unref_zos (c : Cfg K) (o : Base K) (z : ZS K) : zosStep c (unref o) z = zosStep c o z := by
  cases o <;> simp only [unref]
  rename_i r k
  simp only [opAssignD]
  split
  · rename_i h; rw [h]; rfl
  · split
    · rename_i h; rw [h]; rfl
    · rfl

theorem vw_unref_zos (c : Cfg K) (p : AOp K × Base K) (z : ZS K) : zosStep c (vw unref p) z = zosStep c (vw id p) z := by
  obtain ⟨a, b⟩ := p
  cases a <;> simp only [vw, unref_zos, id]

theorem vw_unref_run (c : Cfg K) (L : PL K) (z : ZS K) : zosRun c (L.map (vw unref)) z = zosRun c (L.map (vw id)) z := by
  induction L generalizing z with
  | nil => rfl
  | cons p L ih =>
    simp only [List.map_cons, zosRun, vw_unref_zos]
    split
    · rfl
    · exact ih _

theorem vw_unref_rev (c : Cfg K) (L : PL K) (z : ZS K) :
    zosRun c (L.map (vw unref)).reverse z = zosRun c (L.map (vw id)).reverse z := by
  rw [← List.map_reverse, ← List.map_reverse, vw_unref_run]

theorem mics_smooth {Z0 : ZS ℝ} {c : Cfg ℝ} {cfg : RCfg ℝ} (hal : ∀ k L, cfg.alloc k L ∉ L) {lv : Sm}
    {ms : List (Mic ℝ)} {r r' : Rec ℝ}
    {L L' : PL ℝ} {z : ZS ℝ} {e e' : SE ℝ} (h : Mics cfg ms r L r' L') (ok : r.Ok)
    (hz : zosRun c (L.map (vw id)).reverse Z0 = .ok z) (hs : Sim r.env z e)
    (hsp : Mics.spec c.x c.par ms e = some e') (hsm : MSmooth lv c.x c.par ms e)
    (h0 : Along (smoothS lv) c (L.map (vw unref)).reverse Z0) :
    Along (smoothS lv) c (L'.map (vw unref)).reverse Z0 := by
  induction ms generalizing r L z e with
  | nil =>
    obtain ⟨rfl, rfl⟩ := h
    exact h0
  | cons m ms ih =>
    obtain ⟨r1, L1, g1, g2⟩ := h
    simp only [Mics.spec, Option.bind_eq_some_iff] at hsp
    obtain ⟨e1, k1, k2⟩ := hsp
    obtain ⟨o1, z1, q1, q2⟩ := mic_sim hal g1 ok hz hs k1
    refine ih g2 o1 q1 q2 k2 (hsm.2 e1 k1) ?_
    have hzu : zosRun c (L.map (vw unref)).reverse Z0 = .ok z := by rw [vw_unref_rev]; exact hz
    have hsm1 := hsm.1
    clear ih q1 q2 k2 g2 hsm
    cases m
    case call st =>
      obtain ⟨V, stk, hr⟩ := g1 unref View.un
      exact smooth_step (Z0 := Z0) (s := { r with tr := L.map (vw unref) }) (s' := { r1 with tr := L1.map (vw unref), V := V, stk := stk })
        (ok.same rfl rfl rfl) hzu hs h0 hsm1 hr
    case setref q lt =>
      obtain ⟨a, V, stk, tr, h1, rfl, rfl⟩ := g1
      rw [List.map_cons, List.reverse_cons, Along_snoc]
      refine ⟨h0, fun z' _ => ?_⟩
      rw [vw_of h1]
      simp only [unref, opAssignD]
      split_ifs <;> simp [smoothS, smooth]
    case self t =>
      obtain ⟨lt, a, V, stk, tr, h1, h2, rfl, rfl⟩ := g1
      rw [List.map_cons, List.reverse_cons, Along_snoc]
      refine ⟨h0, fun z' _ => ?_⟩
      rw [vw_of h1]
      simp [unref, smoothS, smooth]
    case cmp q a =>
      obtain ⟨la, tr, h1, rfl, rfl⟩ := g1
      rw [List.map_cons, List.reverse_cons, Along_snoc]
      refine ⟨h0, fun z' hz' => ?_⟩
      rw [hzu] at hz'; cases hz'
      have := hsm1 _ (hs.get h1)
      simp only [vw]
      simp [smoothS, smooth, this]

/-! ### The discipline, on the view with references -/

def MDisc : List (Mic K) → Disc → Disc → Prop
  | [], d, d' => d' = d
  | .call st :: ms, d, d' => st.disc d ∧ MDisc ms (st.discNext d) d'
  | .setref q _ :: ms, d, d' => MDisc ms ⟨d.C \ {q}, insert q d.Q⟩ d'
  | .self _ :: _, _, _ => False
  | .cmp _ _ :: ms, d, d' => MDisc ms d d'

theorem MDisc.append {a b : List (Mic K)} {d d1 d2 : Disc} (h1 : MDisc a d d1) (h2 : MDisc b d1 d2) :
    MDisc (a ++ b) d d2 := by
  induction a generalizing d with
  | nil => cases h1; exact h2
  | cons m ms ih =>
    cases m
    · exact ⟨h1.1, ih h1.2⟩
    · exact ih (d := ⟨_, _⟩) h1
    · exact h1.elim
    · exact ih (d := d) h1

theorem mics_mon {cfg : RCfg K} (hal : ∀ k L, cfg.alloc k L ∉ L) {ms : List (Mic K)} {r r' : Rec K}
    {L L' : PL K} {tr0 : List (Base K)} {d d' : Disc} (h : Mics cfg ms r L r' L') (ok : r.Ok)
    (h0 : MonOk tr0 { r with tr := L.map (vw id) } d) (hd : MDisc ms d d')
    (htr0 : ∀ p q r l, tr0 ≠ .multAA p q r :: l) :
    r'.Ok ∧ r.hw ≤ r'.hw ∧ MonOk tr0 { r' with tr := L'.map (vw id) } d' := by
  induction ms generalizing r L d with
  | nil =>
    obtain ⟨rfl, rfl⟩ := h
    cases hd
    exact ⟨ok, le_rfl, h0⟩
  | cons m ms ih =>
    obtain ⟨r1, L1, g1, g2⟩ := h
    cases m
    case call st =>
      obtain ⟨V, stk, hr⟩ := g1 id View.id'
      have ok' : ({ r with tr := L.map (vw id) } : Rec K).Ok := ok.same rfl rfl rfl
      have o1 := record_ok hal ok' hr
      obtain ⟨m1, m2, m3⟩ := ih g2 (o1.same rfl rfl rfl) (d := st.discNext d) (by
        obtain ⟨b, b1, b2, b3⟩ := (disc_step hal ok' h0 hd.1 htr0 hr).tr
        exact ⟨b, b1, b2, b3⟩) hd.2
      have hh := recorded_wf.step hr
      exact ⟨m1, le_trans hh m2, m3⟩
    case setref q lt =>
      obtain ⟨a, V, stk, tr, h1, rfl, rfl⟩ := g1
      have hn : ∀ b l, r.env b = some l → l ≠ r.next cfg := fun b l hb hl => hal _ _ (hl ▸ ok.live b l hb)
      obtain ⟨m1, m2, m3⟩ := ih g2 ((ok.take hal q).same rfl rfl rfl) (d := ⟨d.C \ {q}, insert q d.Q⟩) (by
        refine MonOk.snoc (s := { r with tr := L.map (vw id) }) h0 (o := .setRef (r.next cfg) (ofLoc lt)) ?_ ?_ fun m hm => ⟨?_, ?_⟩
        · simp [vw_of h1]
        · exact le_max_left _ _
        · simp [Base.okM, Base.bounded, Base.okT, Base.zeroTan, Base.reads, Rec.take]
        · refine ⟨fun b l hb hc => ?_, fun b l hb hD => ?_⟩
          · simp only [Rec.take, upd_apply] at hb
            simp only [Set.mem_diff, Set.mem_singleton_iff] at hc
            rw [if_neg hc.2] at hb
            have := hm.C b l hb hc.1
            simpa [Mon.step, Base.tanStep] using this
          · simp only [Rec.take, upd_apply] at hb
            split at hb
            · rename_i hbq; exact .inl hbq
            · right
              refine hm.Q b l hb ?_
              simp only [Mon.step, Base.kills, Base.zeroAdj, Set.mem_union, Set.mem_diff,
                Set.mem_singleton_iff, Set.mem_empty_iff_false, not_false_eq_true, and_true] at hD
              rcases hD with hD | hD
              · exact hD
              · exact absurd hD (hn b l hb)) hd
      exact ⟨m1, le_trans (le_max_left _ _) m2, m3⟩
    case self t => exact hd.elim
    case cmp q a =>
      obtain ⟨la, tr, h1, rfl, rfl⟩ := g1
      obtain ⟨m1, m2, m3⟩ := ih g2 (ok.same rfl rfl rfl) (d := d) (by
        refine MonOk.snoc (s := { r with tr := L.map (vw id) }) h0 (o := .cmp q la) rfl le_rfl fun m hm => ⟨?_, ?_⟩
        · have := ok.lt h1
          simp [Base.okM, Base.bounded, Base.okT, Base.zeroTan, Base.reads, this]
        · refine ⟨fun b l hb hc => ?_, fun b l hb hD => ?_⟩
          · simpa [Mon.step, Base.tanStep] using hm.C b l hb hc
          · exact hm.Q b l hb (by simpa [Mon.step, Base.kills, Base.zeroAdj] using hD)) hd
      exact ⟨m1, m2, m3⟩

end Verif.AD
