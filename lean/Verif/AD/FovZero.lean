import Verif.AD.FovFos

/-! `fov_forward` with no directions stops exactly when `zos_forward` does. -/
set_option linter.all false
namespace Verif.AD
open Elem
variable {K : Type} [Scalar K]

def Same0 (w : VS K) (z : ZS K) : Prop := w.T = z.T ∧ w.ii = z.ii

theorem VS.up0 (f : Nat → VS K → VS K) (s : VS K) : s.up 0 f = s := rfl
theorem VS.down0 (f : Nat → VS K → VS K) (s : VS K) : s.down 0 f = s := rfl

theorem Same0.foldl {γ : Type} {f : VS K → γ → VS K} {g : ZS K → γ → ZS K} (L : List γ)
    (hf : ∀ w z q, Same0 w z → Same0 (f w q) (g z q)) {w : VS K} {z : ZS K} (h : Same0 w z) : Same0 (L.foldl f w) (L.foldl g z) := by
  induction L generalizing w z with
  | nil => exact h
  | cons x L ih => exact ih (hf _ _ _ h)

theorem Same0.foldl2 {γ : Type} {f : Nat × VS K → γ → Nat × VS K} {g : Nat × ZS K → γ → Nat × ZS K} (L : List γ)
    (hf : ∀ w z q, w.1 = z.1 → Same0 w.2 z.2 → (f w q).1 = (g z q).1 ∧ Same0 (f w q).2 (g z q).2) {w : Nat × VS K} {z : Nat × ZS K}
    (h1 : w.1 = z.1) (h : Same0 w.2 z.2) : Same0 (L.foldl f w).2 (L.foldl g z).2 := by
  induction L generalizing w z with
  | nil => exact h
  | cons x L ih => exact ih (hf _ _ _ h1 h).1 (hf _ _ _ h1 h).2

theorem Same0.foldlR {γ : Type} {g : ZS K → γ → ZS K} (L : List γ)
    (hf : ∀ w z q, Same0 w z → Same0 w (g z q)) {w : VS K} {z : ZS K} (h : Same0 w z) : Same0 w (L.foldl g z) := by
  induction L generalizing z with
  | nil => exact h
  | cons x L ih => exact ih (hf _ _ _ h)

theorem fov_zero_step (c : Cfg K) (V : Nat → Nat → K) (o : Base K) {w : VS K} {z : ZS K} (h : Same0 w z) :
    ExRel Same0 (fovStep c 0 V o w) (zosStep c o z) := by
  obtain ⟨hT, hi⟩ := h
  cases o
  case vecCopy a n r =>
    exact Same0.foldl _ (fun w z q h => by obtain ⟨a, b⟩ := h; constructor <;> simp [VS.up0, VS.set, ZS.set, ZS.push, a, b]) ⟨hT, hi⟩
  case vecDot a b n r =>
    exact Same0.foldl _ (fun w z q h => by obtain ⟨a, b⟩ := h; constructor <;> simp [VS.up0, VS.down0, VS.set, ZS.set, ZS.push, a, b]) (by constructor <;> simp [VS.up0, VS.down0, VS.set, ZS.set, ZS.push, hT, hi])
  case vecAxpy a a1 a2 n r =>
    exact Same0.foldl _ (fun w z q h => by obtain ⟨a, b⟩ := h; constructor <;> simp [VS.up0, VS.down0, VS.set, ZS.set, ZS.push, a, b]) ⟨hT, hi⟩
  case takeStock r vs =>
    refine Same0.foldl2 _ (fun w z q h1 h => ?_) rfl ⟨hT, hi⟩
    obtain ⟨a, b⟩ := h
    refine ⟨by simp [h1], ?_, ?_⟩ <;> simp [VS.up0, VS.set, ZS.set, ZS.push, a, b, h1]
  case deathNot a b =>
    exact Same0.foldlR _ (fun w z q h => by obtain ⟨a, b⟩ := h; constructor <;> simp [ZS.push, a, b]) ⟨hT, hi⟩
  case cmp q a => cases q <;> simp only [fovStep, zosStep, hT] <;> split_ifs <;> simp_all [ExRel, Same0]
  all_goals
    simp only [fovStep, zosStep, VS.up0, VS.down0, ExRel, List.range_zero, List.foldl_nil]
    try split_ifs
    all_goals simp_all [ExRel, Same0, VS.set, VS.dec, ZS.set, ZS.push, ZS.dec]
    all_goals try exact absurd ‹_ < _› (not_lt.2 ‹_ ≤ _›)

theorem fov_zero_run (c : Cfg K) (V : Nat → Nat → K) (ops : List (Base K)) {w : VS K} {z : ZS K} (h : Same0 w z) :
    ExRel Same0 (fovRun c 0 V ops w) (zosRun c ops z) := by
  induction ops generalizing w z with
  | nil => exact h
  | cons o os ih =>
    have hs := fov_zero_step c V o h
    simp only [fovRun, zosRun]
    cases h1 : fovStep c 0 V o w <;> cases h2 : zosStep c o z <;> simp only [h1, h2, ExRel] at hs ⊢
    · exact hs
    · exact ih hs

end Verif.AD
