import Verif.AD.HovHos
import Verif.AD.HosRun

/-! `hov_forward` over a recorded trace. -/
set_option linter.all false
namespace Verif.AD
open Elem Filter Topology ContDiff Finset

theorem smoothS_colOk {o : Base ℝ} {T : Nat → ℝ} (h : smoothS .ho o T) : o.colOk T := by
  cases o <;> simp only [Base.colOk]
  case logOp a r => exact ne_of_gt h.1
  case powOp a r v => intro h0; exact absurd (h.2.1 a r v rfl h0) (by simp [Sm.pow0])

/-- Along a run for which the scalar sweep is smooth in direction `l`, no operation couples the directions. -/
theorem hov_along {c : HVCfg ℝ} {l : Nat} (hl : l < c.p) {zc : ℝ → Cfg ℝ} (hkk : c.keep ≤ c.k + 1)
    (hk : ∀ t, (zc t).keep = decide (0 < c.keep))
    (hpar : ∀ t, (zc t).par = c.par) (hx : ∀ i, Jet c.k (fun t => (zc t).x i) (hcons (c.x i) (c.X i l)))
    {ops : List (Base ℝ)} {S : ℝ → ZS ℝ} {H : HS ℝ} {s : HVS ℝ} (h : JetS (c.col l) S H) (cl : HCol c.keep l s H)
    (hs : ∀ᶠ t in 𝓝 0, Along (smoothS .ho) (zc t) ops (S t)) (hok : ∃ z, zosRun (zc 0) ops (S 0) = .ok z) :
    AlongV Base.colOk c ops s := by
  induction ops generalizing S H s with
  | nil => trivial
  | cons o os ih =>
    obtain ⟨z, hz⟩ := hok
    simp only [zosRun] at hz
    split at hz
    · cases hz
    · rename_i z1 hz1
      obtain ⟨S1, H1, e1, e2, e3⟩ := jet_step (c := c.col l) hkk hk hpar hx h (hs.mono fun t ht => ht.1) ⟨z1, hz1⟩
      have e4 := e1.self_of_nhds
      rw [hz1] at e4
      cases e4
      have hT : s.T = (S 0).T := cl.T.trans (funext h.T)
      have hc : o.colOk s.T := by
        rw [hT]; exact smoothS_colOk (hs.self_of_nhds).1
      refine ⟨hc, fun s' hs' => ?_⟩
      have hstep := hov_step hl hc cl
      rw [hs', e2] at hstep
      exact ih e3 hstep (by filter_upwards [hs, e1] with t t1 t2; exact t1.2 _ t2) ⟨z, hz⟩

end Verif.AD
