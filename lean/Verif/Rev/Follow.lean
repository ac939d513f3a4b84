import Verif.Rev.Arith
import Verif.Rev.Sched
set_option linter.all false
namespace Verif.Rev

/-- Consecutive calls of the scheduler with the same `snaps`: the actions returned, each with the
arguments as the call left them. -/
inductive Calls (snaps : Int) : Nums → Args → List (Act × Args) → Nums → Args → Prop
  | nil (g x) : Calls snaps g x [] g x
  | cons {g x a g' x' evs g'' x''} : revolve g x snaps = some (a, g', x') → Calls snaps g' x' evs g'' x'' →
      Calls snaps g x ((a, x') :: evs) g'' x''

theorem Calls.append {snaps g x evs g' x' evs' g'' x''} (h : Calls snaps g x evs g' x') (h' : Calls snaps g' x' evs' g'' x'') :
    Calls snaps g x (evs ++ evs') g'' x'' := by
  induction h with
  | nil => exact h'
  | cons a _ ih => exact .cons a (ih h')

theorem Calls.one {snaps g x a g' x'} (h : revolve g x snaps = some (a, g', x')) : Calls snaps g x [(a, x')] g' x' :=
  .cons h (.nil _ _)

def turnAct (first : Bool) : Act := if first then .firsturn else .youturn

/-- The schedules that the scheduler produces, for `l` steps from state `p` which is the current state and stored in
slot `k`; `w` forward steps. -/
inductive Plan (c : Nat) (info : Int) : Nat → Nat → Nat → Bool → Nat → List (Act × Args) → Prop
  | one (k p b) : Plan c info k p 1 b 0 [(turnAct b, ⟨k - 1, p, p, info⟩)]
  | next (k p a b wl left) : 1 ≤ a → Plan c info k p a false wl left →
      Plan c info k p (a + 1) b (a + wl)
        ((.advance, ⟨k, (p + a : Nat), (p + a + 1 : Nat), info⟩) :: (turnAct b, ⟨k, (p + a : Nat), (p + a : Nat), info⟩) ::
          (.restore, ⟨k, p, (p + a : Nat), info⟩) :: left)
  | split (k p a l b wr right wl left) : 1 ≤ a → 2 ≤ l → k + 1 < c → Plan c info (k + 1) (p + a) l b wr right →
      Plan c info k p a false wl left →
      Plan c info k p (a + l) b (a + wr + wl)
        ((.advance, ⟨k, (p + a : Nat), (p + a + l : Nat), info⟩) :: (.takeshot, ⟨(k + 1 : Nat), (p + a : Nat), (p + a + l : Nat), info⟩) ::
          (right ++ (.restore, ⟨k, p, (p + a : Nat), info⟩) :: left))

theorem rev_turn {g : Nums} {snaps check p info : Int} (here : Bool) (hck : -1 ≤ check)
    (hg : check = -1 → g.turn = 0 ∧ g.ch 0 = p - 1)
    (hat : atTop g ⟨check, p, p + 1, info⟩ = some here) :
    ∃ g', revolve g ⟨check, p, p + 1, info⟩ snaps = some (turnAct (decide (g.turn = 0)), g', ⟨if here then check - 1 else check, p, p, info⟩) ∧
      g'.ch = g.ch ∧ g'.oldfine = p ∧ g'.advances = g.advances ∧ g'.turn ≠ 0 := by
  have h0 : (if (check = -1 ∧ p < p + 1) then { g.setCh 0 (p - 1) with turn := 0 } else g) = g := by
    split
    · rename_i h
      obtain ⟨a, b⟩ := hg h.1
      obtain ⟨x1, x2, x3, x4, x5, x6, x7⟩ := g
      simp only [Nums.setCh, Nums.mk.injEq, true_and, and_true] at *
      refine ⟨a.symm, ?_⟩
      funext j
      split
      · rename_i hj; subst hj; exact b.symm
      · rfl
    · rfl
  simp only [revolve]
  rw [if_neg (by omega), h0, if_neg (by omega), if_pos (by omega)]
  simp only [revolve1, hat, Option.map_some]
  by_cases ht : g.turn = 0
  · rw [if_pos ht]
    refine ⟨{ g with turn := 1, oldfine := p }, by simp [turnAct, ht], rfl, rfl, rfl, by simp⟩
  · rw [if_neg ht]
    exact ⟨{ g with oldfine := p }, by simp [turnAct, ht], rfl, rfl, rfl, ht⟩

theorem atTop_nat {g : Nums} {k : Nat} {p f info : Int} (hk : (k : Int) < checkup) :
    atTop g ⟨k, p, f, info⟩ = some (decide (g.ch k = p)) := by
  simp only [atTop, Nums.chAt]
  rw [if_neg (by omega), if_pos ⟨by omega, hk⟩]
  rfl

theorem rev_turn' {g : Nums} {snaps info : Int} {k p : Nat} (here : Bool) (hk : (k : Int) < checkup)
    (hat : decide (g.ch k = p) = here) :
    ∃ g', revolve g ⟨k, p, (p + 1 : Nat), info⟩ snaps = some (turnAct (decide (g.turn = 0)), g', ⟨if here then (k : Int) - 1 else k, p, p, info⟩) ∧
      g'.ch = g.ch ∧ g'.oldfine = p ∧ g'.advances = g.advances ∧ g'.turn ≠ 0 := by
  have := rev_turn (g := g) (snaps := snaps) (check := k) (p := p) (info := info) here (by omega) (by omega)
    (by rw [atTop_nat hk, hat])
  simpa using this

theorem rev_restore {g : Nums} {snaps info : Int} {k p : Nat} {q : Nat} (hk : (k : Int) < checkup) (h0 : g.ch 0 ≠ p)
    (hq : g.ch k = q) :
    revolve g ⟨k, p, p, info⟩ snaps = some (.restore, { g with oldfine := p }, ⟨k, q, p, info⟩) := by
  simp only [revolve]
  rw [if_neg (by omega), if_pos (by omega), if_neg (by omega)]
  simp only [revolve0]
  rw [if_neg (by intro h; rcases h with h | h; omega; exact h0 h.symm)]
  simp only [Nums.chAt]
  rw [if_pos ⟨by omega, hk⟩]
  simp [hq]

theorem rev_takeshot {g : Nums} {snaps info : Int} {k p l : Nat} (hl : 2 ≤ l) (hk : (k : Int) + 1 < checkup) (hs : (k : Int) + 2 ≤ snaps)
    (h : g.ch k ≠ p) :
    revolve g ⟨k, p, (p + l : Nat), info⟩ snaps
      = some (.takeshot, { g.setCh (k + 1) p with oldfine := (p + l : Nat) }, ⟨(k + 1 : Nat), p, (p + l : Nat), info⟩) := by
  simp only [revolve]
  rw [if_neg (by omega), if_neg (by omega), if_neg (by omega), if_neg (by omega), atTop_nat (by omega)]
  simp only [Option.bind_some, decide_eq_true_eq]
  rw [if_neg h]
  simp only [takeshot]
  rw [if_neg (by omega), if_neg (by omega), if_neg (by omega)]
  rw [show ((k : Int) + 1).toNat = k + 1 by omega]
  rfl

theorem rev_advance {g : Nums} {info : Int} {c k p l : Nat} (hl : 2 ≤ l) (hkc : k < c) (hc : (c : Int) ≤ checkup)
    (h : g.ch k = p) (ho : g.oldfine = (p + l : Nat)) (R : Nat) (hR : l ≤ beta (c - k) R) (hR2 : (R : Int) ≤ repsup)
    (hM : (l - 1) * (R + (c - k)) ≤ 2147483647) (hadv : 0 ≤ g.advances) (hb : g.advances + cost (c - k) l ≤ 2147483647) :
    ∃ a g' ρ, revolve g ⟨k, p, (p + l : Nat), info⟩ c = some (.advance, g', ⟨k, (p + a : Nat), (p + l : Nat), info⟩) ∧
      g'.ch = g.ch ∧ g'.oldfine = (p + l : Nat) ∧ g'.advances = g.advances + a ∧ g'.turn = g.turn ∧ 1 ≤ a ∧ a < l ∧ ρ + 1 ≤ R ∧
      a ≤ beta (c - k) ρ ∧ l - a ≤ beta (c - k - 1) (ρ + 1) ∧
      cost (c - k) l = a + cost (c - k) a + cost (c - k - 1) (l - a) ∧ (c - k = 1 → l - a = 1) := by
  obtain ⟨e, he⟩ : ∃ e, c - k = e + 1 := ⟨c - k - 1, by omega⟩
  rw [he] at hR hM hb ⊢
  rw [Nat.add_sub_cancel]
  obtain ⟨r, r1, r2, r3, r4⟩ := rangeLoop_spec e l R hR hM (l + 1) 0 (by omega) (by omega)
  simp only [Nat.zero_max, Nat.cast_zero, beta_zero_right, Nat.cast_one, Nat.zero_le, Nat.max_eq_right] at r1 r2
  obtain ⟨ρ, rfl⟩ : ∃ ρ, r = ρ + 1 := ⟨r - 1, by
    have : r ≠ 0 := by rintro rfl; rw [beta_zero_right] at r3; omega
    omega⟩
  have hlt := r4 ρ (by omega)
  obtain ⟨a, s1, s2, s3, s4, s5, s6, s7⟩ := split_spec e l ρ hlt r3
    (Nat.le_trans (Nat.mul_le_mul_left _ (by omega)) hM)
  have he1 : e = 0 → l - a = 1 := by
    rintro rfl; rw [beta_zero_left] at s6 s7; omega
  have hcost := cost_split_eq e l a ρ s2 s3 he1 s4 s5 s6 s7
  refine ⟨a, { g with reps := (ρ : Int) + 1, range := (beta (e + 1) (ρ + 1) : Int), advances := g.advances + a, oldfine := (p + l : Nat) }, ρ, ?_, rfl, rfl, rfl, rfl, s2, s3, r1, s4, s7, hcost, by omega⟩
  simp only [revolve]
  rw [if_neg (by omega), if_neg (by omega), if_neg (by omega), if_neg (by omega), atTop_nat (by omega)]
  simp only [Option.bind_some, decide_eq_true_eq]
  rw [if_pos h]
  simp only [advance]
  rw [if_neg (by rw [ho]; omega), if_neg (by omega), show (c : Int) - k = (e : Int) + 1 by omega,
    show ((p + l : Nat) : Int) - p = (l : Int) by push_cast; ring]
  rw [Int.toNat_natCast, r2, Option.bind_some]
  simp only
  rw [if_neg (by omega), if_neg (by omega)]
  rw [show (((ρ + 1 : Nat) : Int)) = (ρ : Int) + 1 by push_cast; ring, s1, Option.bind_some]
  rw [show ck (g.advances + (a : Int)) = some (g.advances + a) by
    rw [ck, if_pos]; constructor <;> omega]
  simp

/-- The scheduler follows a plan of minimal cost. -/
theorem follow (c : Nat) (info : Int) (hc : (c : Int) ≤ checkup) : ∀ (l k p : Nat) (g : Nums) (R : Nat), 1 ≤ l → k < c → g.ch k = p → g.ch 0 ≤ p →
    g.oldfine = (p + l : Nat) → l ≤ beta (c - k) R → (R : Int) ≤ repsup → (l - 1) * (R + (c - k)) ≤ 2147483647 →
    0 ≤ g.advances → g.advances + cost (c - k) l ≤ 2147483647 →
    ∃ evs g', Calls c g ⟨k, p, (p + l : Nat), info⟩ evs g' ⟨k - 1, p, p, info⟩ ∧
      Plan c info k p l (decide (g.turn = 0)) (cost (c - k) l) evs ∧
      (∀ i, i ≤ k → g'.ch i = g.ch i) ∧ g'.oldfine = p ∧ g'.advances = g.advances + cost (c - k) l ∧ g'.turn ≠ 0 := by
  intro l
  induction l using Nat.strong_induction_on with
  | _ l ih =>
    intro k p g R hl hk hch h0 ho hR hR2 hM ha hb
    by_cases hl1 : l = 1
    · subst hl1
      obtain ⟨g', a1, a2, a3, a4, a5⟩ := rev_turn' (g := g) (snaps := c) (info := info) (k := k) (p := p) true (by omega) (by simp [hch])
      refine ⟨_, g', .one a1, ?_, fun i _ => by rw [a2], a3, by rw [a4, cost_one]; simp, a5⟩
      rw [cost_one]
      exact .one k p _
    · obtain ⟨a, g1, ρ, b1, b2, b3, b4, b5, b6, b7, b8, b9, b10, b11, b12⟩ :=
        rev_advance (g := g) (info := info) (c := c) (k := k) (p := p) (l := l) (by omega) hk hc hch ho R hR hR2 hM ha hb
      -- reversing the steps from p + a
      have hright : ∃ evs g2, Calls c g1 ⟨k, (p + a : Nat), (p + l : Nat), info⟩ evs g2 ⟨k, (p + a : Nat), (p + a : Nat), info⟩ ∧
          (∀ i, i ≤ k → g2.ch i = g.ch i) ∧ g2.turn ≠ 0 ∧ g2.advances = g1.advances + cost (c - k - 1) (l - a) ∧
          (∀ wl left, Plan c info k p a false wl left →
            Plan c info k p l (decide (g.turn = 0)) (a + cost (c - k - 1) (l - a) + wl)
              ((.advance, ⟨k, (p + a : Nat), (p + l : Nat), info⟩) :: (evs ++ (.restore, ⟨k, p, (p + a : Nat), info⟩) :: left))) := by
        by_cases hla : l - a = 1
        · obtain ⟨g2, d1, d2, d3, d4, d5⟩ := rev_turn' (g := g1) (snaps := c) (info := info) (k := k) (p := p + a) false (by omega)
            (by rw [b2, hch]; simp; omega)
          rw [show p + a + 1 = p + l by omega] at d1
          refine ⟨_, g2, .one (by simpa using d1), fun i _ => by rw [d2, b2], d5, by rw [d4, hla, cost_one]; simp, ?_⟩
          intro wl left hp
          rw [hla, cost_one, b5]
          have := Plan.next (c := c) (info := info) k p a (decide (g.turn = 0)) wl left b6 hp
          rw [show a + 1 = l by omega, show p + a + 1 = p + l by omega] at this
          simpa using this
        · have hkc : k + 1 < c := by omega
          have hs := rev_takeshot (g := g1) (snaps := c) (info := info) (k := k) (p := p + a) (l := l - a) (by omega) (by omega) (by omega)
            (by rw [b2, hch]; push_cast; omega)
          rw [show p + a + (l - a) = p + l by omega] at hs
          obtain ⟨evs, g2, i1, i2, i3, i4, i5, i6⟩ := ih (l - a) (by omega) (k + 1) (p + a)
            { g1.setCh (k + 1) (p + a : Nat) with oldfine := (p + l : Nat) } (ρ + 1) (by omega) hkc (by simp [Nums.setCh])
            (by simp only [Nums.setCh]; rw [if_neg (by omega), b2]; push_cast; omega)
            (by rw [show p + a + (l - a) = p + l by omega]) (by rw [show c - (k + 1) = c - k - 1 by omega]; exact b10) (by omega)
            (Nat.le_trans (Nat.mul_le_mul (by omega) (by omega)) hM) (by show 0 ≤ g1.advances; omega)
            (by
              show g1.advances + _ ≤ _
              rw [show c - (k + 1) = c - k - 1 by omega]; omega)
          rw [show p + a + (l - a) = p + l by omega] at i1
          rw [show c - (k + 1) = c - k - 1 by omega] at i2 i5
          refine ⟨_, g2, .cons hs (by simpa using i1), ?_, i6, i5, ?_⟩
          · intro i hi
            rw [i3 i (by omega)]
            simp only [Nums.setCh]
            rw [if_neg (by omega), b2]
          · intro wl left hp
            have i2' : Plan c info (k + 1) (p + a) (l - a) (decide (g.turn = 0)) (cost (c - k - 1) (l - a)) evs := by
              have : (decide (g1.turn = 0)) = (decide (g.turn = 0)) := by rw [b5]
              rw [← this]; exact i2
            have := Plan.split (c := c) (info := info) k p a (l - a) _ _ evs wl left b6 (by omega) hkc i2' hp
            rw [show a + (l - a) = l by omega, show p + a + (l - a) = p + l by omega] at this
            simpa using this
      obtain ⟨evs, g2, r1, r2, r3, r4, r5⟩ := hright
      have hrest := rev_restore (g := g2) (snaps := c) (info := info) (k := k) (p := p + a) (q := p) (by omega)
        (by rw [r2 0 (by omega)]; push_cast; omega) (by rw [r2 k (Nat.le_refl _), hch])
      obtain ⟨levs, g3, l1, l2, l3, l4, l5, l6⟩ := ih a b7 k p { g2 with oldfine := (p + a : Nat) } ρ b6 hk
        (by show g2.ch k = p; rw [r2 k (Nat.le_refl _), hch]) (by show g2.ch 0 ≤ p; rw [r2 0 (by omega)]; exact h0) rfl b9 (by omega)
        (Nat.le_trans (Nat.mul_le_mul (by omega) (by omega)) hM) (by show 0 ≤ g2.advances; omega)
        (by show g2.advances + _ ≤ _; omega)
      refine ⟨(.advance, ⟨k, (p + a : Nat), (p + l : Nat), info⟩) :: (evs ++ (.restore, ⟨k, p, (p + a : Nat), info⟩) :: levs), g3,
        .cons b1 (r1.append (.cons hrest l1)), ?_, ?_, l4, ?_, l6⟩
      · have hp := r5 _ levs (by
          have : (decide (({ g2 with oldfine := ((p + a : Nat) : Int) } : Nums).turn = 0)) = false := by simp [r3]
          rw [← this]; exact l2)
        rw [b11, show a + cost (c - k) a + cost (c - k - 1) (l - a) = a + cost (c - k - 1) (l - a) + cost (c - k) a by omega]
        exact hp
      · intro i hi
        rw [l3 i hi]; exact r2 i hi
      · rw [l5]; show g2.advances + _ = _; omega

end Verif.Rev
