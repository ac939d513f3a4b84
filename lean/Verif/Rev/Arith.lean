import Verif.Rev.Cost
set_option linter.all false
namespace Verif.Rev

theorem ck_nat {x : Int} (n : Nat) (hx : x = n) (h : n ≤ 2147483647) : ck x = some (n : Int) := by
  subst hx
  have h1 : -2147483648 ≤ (n : Int) ∧ (n : Int) ≤ 2147483647 := by omega
  rw [ck, if_pos h1]

theorem ckIf_nat {b : Bool} {x : Int} (n : Nat) (hx : b = true → x = n) (h : b = true → n ≤ 2147483647) :
    ckIf b x = some (if b then (n : Int) else 0) := by
  cases b with
  | false => rfl
  | true => simp only [ckIf, if_true]; exact ck_nat n (hx rfl) (h rfl)

theorem tdiv_nat {x y : Int} (a b : Nat) (hb : 0 < b) (hx : x = ((a * b : Nat) : Int)) (hy : y = b) : x.tdiv y = a := by
  subst hx hy
  push_cast
  exact Int.mul_tdiv_cancel _ (by omega)

theorem rangeLoop_spec (d l R : Nat) (hR : l ≤ beta (d + 1) R)
    (hM : (l - 1) * (R + (d + 1)) ≤ 2147483647) : ∀ (fuel i : Nat), l + 1 ≤ i + fuel →
    (∀ j, j < i → beta (d + 1) j < l) →
    ∃ r, r ≤ max i R ∧ rangeLoop ((d : Int) + 1) l fuel i (beta (d + 1) i) = some ((r : Int), (beta (d + 1) r : Int)) ∧
      l ≤ beta (d + 1) r ∧ ∀ j, j < r → beta (d + 1) j < l := by
  intro fuel
  induction fuel with
  | zero =>
    intro i hi hj
    have := hj l (by omega)
    have := beta_ge d l
    omega
  | succ fuel ih =>
    intro i hi hj
    simp only [rangeLoop]
    by_cases h : beta (d + 1) i < l
    · rw [if_pos (by exact_mod_cast h)]
      have hiR : i < R := by
        by_contra hc
        have := beta_mono_right (d + 1) (show R ≤ i by omega)
        omega
      have hp : beta (d + 1) i * (i + 1 + (d + 1)) ≤ 2147483647 := by
        refine Nat.le_trans (Nat.mul_le_mul (show _ ≤ l - 1 by omega) (show _ ≤ R + (d + 1) by omega)) hM
      rw [ck_nat (beta (d + 1) i * (i + 1 + (d + 1))) (by push_cast; ring) hp]
      simp only [Option.bind_eq_bind, Option.bind_some]
      rw [tdiv_nat (beta (d + 1) (i + 1)) (i + 1) (by omega) (by rw [beta_succ_right]; congr 2; omega) (by push_cast; ring)]
      obtain ⟨r, h1, h2, h3⟩ := ih (i + 1) (by omega) (by
        intro j hj'
        by_cases hji : j = i
        · subst hji; exact h
        · exact hj j (by omega))
      exact ⟨r, by omega, by exact_mod_cast h2, h3⟩
    · rw [if_neg (by exact_mod_cast h)]
      exact ⟨i, by omega, rfl, by omega, hj⟩

/-- The branches of revolve.cpp:451-468. -/
def pick (l b1 b2 b3 b4 b5 b6 : Nat) : Nat :=
  if l ≤ b1 + b3 then (if b4 = 0 then 1 else b4) else if l < b1 + b2 then l - b2 - b3
    else if l ≤ b1 + b2 + b5 then (if b1 - b3 = 0 then 1 else b1 - b3) else l - b6

theorem pick_bounds (l b1 b2 b3 b4 b5 b6 : Nat) (f1 : b1 = b4 + b2) (f2 : b6 = b2 + b3 + b5) (h1 : b1 < l) (h2 : l ≤ b1 + b6)
    (f4 : b3 ≤ b2) (f5 : 1 ≤ b2) (h : b4 = 0 → b1 = 1) :
    1 ≤ pick l b1 b2 b3 b4 b5 b6 ∧ pick l b1 b2 b3 b4 b5 b6 < l ∧ pick l b1 b2 b3 b4 b5 b6 ≤ b1 ∧ b4 ≤ pick l b1 b2 b3 b4 b5 b6 ∧
      b2 ≤ l - pick l b1 b2 b3 b4 b5 b6 ∧ l - pick l b1 b2 b3 b4 b5 b6 ≤ b6 := by
  unfold pick
  split_ifs <;> omega

theorem pick_int (l b1 b2 b3 b4 b5 b6 : Nat) (f1 : b1 = b4 + b2) (f2 : b6 = b2 + b3 + b5) (h1 : b1 < l) (h2 : l ≤ b1 + b6)
    (f4 : b3 ≤ b2) (f5 : 1 ≤ b2) (s12 s : Int) (hs12 : ¬ (l : Int) ≤ ((b1 + b3 : Nat) : Int) → s12 = ((b1 + b2 : Nat) : Int))
    (hs : ¬ (l : Int) ≤ ((b1 + b3 : Nat) : Int) ∧ ¬ (l : Int) < s12 → s = ((b1 + b2 + b5 : Nat) : Int)) (a : Int)
    (ha : a = if (l : Int) ≤ ((b1 + b3 : Nat) : Int) then (b4 : Int)
      else if (l : Int) < s12 then (l : Int) - b2 - b3
      else if (l : Int) ≤ s then (b1 : Int) - b3
      else (l : Int) - b6) :
    (if a = 0 then 1 else a) = ((pick l b1 b2 b3 b4 b5 b6 : Nat) : Int) := by
  unfold pick
  by_cases c1 : l ≤ b1 + b3
  · rw [if_pos (by omega)] at ha; rw [if_pos c1]; split_ifs <;> omega
  · have h12 := hs12 (by omega)
    rw [if_neg (by omega)] at ha; rw [if_neg c1]
    by_cases c2 : l < b1 + b2
    · rw [if_pos (by omega)] at ha; rw [if_pos c2]; split_ifs <;> omega
    · have := hs (by omega)
      subst this
      rw [if_neg (by omega)] at ha; rw [if_neg c2]
      by_cases c3 : l ≤ b1 + b2 + b5
      · rw [if_pos (by omega)] at ha; rw [if_pos c3]; split_ifs <;> omega
      · rw [if_neg (by omega)] at ha; rw [if_neg c3]; split_ifs <;> omega

set_option maxHeartbeats 2000000 in
/-- The new position is within the optimal interval. -/
theorem split_spec (e l ρ : Nat) (h1 : beta (e + 1) ρ < l) (h2 : l ≤ beta (e + 1) (ρ + 1))
    (hM : (l - 1) * (ρ + 1 + (e + 1)) ≤ 2147483647) :
    ∃ a : Nat, split ((e : Int) + 1) l ((ρ : Int) + 1) (beta (e + 1) (ρ + 1)) = some (a : Int) ∧ 1 ≤ a ∧ a < l ∧
      a ≤ beta (e + 1) ρ ∧ (∀ i, i + 1 ≤ ρ → beta (e + 1) i ≤ a) ∧ beta e ρ ≤ l - a ∧ l - a ≤ beta e (ρ + 1) := by
  obtain ⟨b1, hb1⟩ : ∃ b, b = beta (e + 1) ρ := ⟨_, rfl⟩
  obtain ⟨b2, hb2⟩ : ∃ b, b = beta e ρ := ⟨_, rfl⟩
  obtain ⟨b3, hb3⟩ : ∃ b, b = if e = 0 then 0 else beta (e - 1) ρ := ⟨_, rfl⟩
  obtain ⟨b4, hb4⟩ : ∃ b, b = if ρ = 0 then 0 else beta (e + 1) (ρ - 1) := ⟨_, rfl⟩
  obtain ⟨b5, hb5⟩ : ∃ b, b = if e < 2 then 0 else beta (e - 2) (ρ + 1) := ⟨_, rfl⟩
  obtain ⟨b6, hb6⟩ : ∃ b, b = beta e (ρ + 1) := ⟨_, rfl⟩
  -- relations
  have f1 : b1 = b4 + b2 := by
    subst hb1 hb2 hb4
    cases ρ with
    | zero => simp [beta_zero_right]
    | succ ρ => simp [beta_pascal]
  have f2 : b6 = b2 + b3 + b5 := by
    subst hb6 hb2 hb3 hb5
    rcases e with _ | _ | e
    · simp [beta_zero_left]
    · simp [beta_zero_left, beta_pascal]
    · simp only [Nat.add_sub_cancel, show e + 1 + 1 - 2 = e by omega]
      rw [if_neg (by omega), if_neg (by omega), beta_pascal, beta_pascal]; omega
  have f3 : beta (e + 1) (ρ + 1) = b1 + b6 := by rw [beta_pascal, hb1, hb6]
  have f4 : b3 ≤ b2 := by
    subst hb3 hb2
    split
    · exact Nat.zero_le _
    · rename_i h; obtain ⟨k, rfl⟩ : ∃ k, e = k + 1 := ⟨e - 1, by omega⟩
      simpa using beta_le_succ_left k ρ
  have f5 : 1 ≤ b2 := by subst hb2; exact beta_pos _ _
  have f6 : ρ = 0 → b1 = 1 ∧ b2 = 1 ∧ b4 = 0 := by rintro rfl; subst hb1 hb2 hb4; simp [beta_zero_right]
  have f7 : ρ ≠ 0 → 1 ≤ b4 := by intro h; subst hb4; rw [if_neg h]; exact beta_pos _ _
  have f8 : b2 ≤ b1 := by omega
  have hmul : ∀ x y : Nat, x ≤ l - 1 → y ≤ ρ + 1 + (e + 1) → x * y ≤ 2147483647 :=
    fun x y hx hy => Nat.le_trans (Nat.mul_le_mul hx hy) hM
  have hbl : b1 ≤ l - 1 := by omega
  have g1 : beta (e + 1) (ρ + 1) * (ρ + 1) = b1 * (ρ + 1 + (e + 1)) := by
    rw [beta_succ_right, hb1]; congr 1; omega
  have q1 : ck ((beta (e + 1) (ρ + 1) : Int) * ((ρ : Int) + 1)) = some ((b1 * (ρ + 1 + (e + 1)) : Nat) : Int) :=
    ck_nat _ (by rw [← g1]; push_cast; ring) (hmul _ _ hbl (Nat.le_refl _))
  have d1 : (((b1 * (ρ + 1 + (e + 1)) : Nat) : Int)).tdiv ((e : Int) + 1 + ((ρ : Int) + 1)) = b1 :=
    tdiv_nat b1 (ρ + 1 + (e + 1)) (by omega) rfl (by push_cast; ring)
  have g2 : b1 * (e + 1) = b2 * (e + ρ + 1) := by subst hb1 hb2; exact beta_succ_left e ρ
  have q2 : ckIf (decide ((e : Int) + 1 > 1)) ((b1 : Int) * ((e : Int) + 1)) = some (if decide ((e : Int) + 1 > 1) = true then ((b1 * (e + 1) : Nat) : Int) else 0) :=
    ckIf_nat _ (fun _ => by push_cast; ring) (fun _ => hmul _ _ hbl (by omega))
  have d2 : (if (e : Int) + 1 > 1 then (if decide ((e : Int) + 1 > 1) = true then ((b1 * (e + 1) : Nat) : Int) else 0).tdiv ((e : Int) + 1 + ((ρ : Int) + 1) - 1) else 1) = b2 := by
    split
    · rename_i h
      rw [if_pos (by simpa using h), g2]; exact tdiv_nat b2 (e + ρ + 1) (by omega) rfl (by push_cast; ring)
    · have : e = 0 := by omega
      subst hb2 this; simp [beta_zero_left]
  have hb2l : b2 ≤ l - 1 := by omega
  have q3 : ckIf (decide ((e : Int) + 1 > 2)) ((b2 : Int) * ((e : Int) + 1 - 1)) = some (if decide ((e : Int) + 1 > 2) = true then ((b2 * e : Nat) : Int) else 0) :=
    ckIf_nat _ (fun _ => by push_cast; ring) (fun _ => hmul _ _ hb2l (by omega))
  have d3 : (if (e : Int) + 1 = 1 then 0 else if (e : Int) + 1 > 2 then
      (if decide ((e : Int) + 1 > 2) = true then ((b2 * e : Nat) : Int) else 0).tdiv ((e : Int) + 1 + ((ρ : Int) + 1) - 2) else 1) = b3 := by
    subst hb3
    split
    · rw [if_pos (by omega)]; rfl
    · split
      · rename_i h
        rw [if_pos (by simpa using h)]
        obtain ⟨k, rfl⟩ : ∃ k, e = k + 1 := ⟨e - 1, by omega⟩
        rw [if_neg (by omega), hb2, beta_succ_left]
        exact tdiv_nat _ (k + ρ + 1) (by omega) rfl (by push_cast; ring)
      · have : e = 1 := by omega
        subst this; simp [beta_zero_left]
  have g4 : b2 * ρ = b4 * (e + 1) := by
    subst hb2 hb4
    cases ρ with
    | zero => simp
    | succ ρ => simp [beta_trade]
  have q4 : ck ((b2 : Int) * ((ρ : Int) + 1 - 1)) = some ((b4 * (e + 1) : Nat) : Int) :=
    ck_nat _ (by rw [← g4]; push_cast; ring) (by rw [← g4]; exact hmul _ _ hb2l (by omega))
  have d4 : (((b4 * (e + 1) : Nat) : Int)).tdiv ((e : Int) + 1) = b4 := tdiv_nat b4 (e + 1) (by omega) rfl (by push_cast; ring)
  have q5 : ckIf (decide ((e : Int) + 1 > 3)) ((b3 : Int) * ((e : Int) + 1 - 2)) = some (if decide ((e : Int) + 1 > 3) = true then ((b3 * (e - 1) : Nat) : Int) else 0) := by
    refine ckIf_nat _ (fun h => ?_) (fun _ => hmul _ _ (by omega) (by omega))
    have : 1 ≤ e := by simp at h; omega
    push_cast [this]; ring
  have d5 : (if (e : Int) + 1 < 3 then 0 else if (e : Int) + 1 > 3 then
      (if decide ((e : Int) + 1 > 3) = true then ((b3 * (e - 1) : Nat) : Int) else 0).tdiv ((ρ : Int) + 1) else 1) = b5 := by
    subst hb5
    split
    · rw [if_pos (by omega)]; rfl
    · split
      · rename_i h
        rw [if_pos (by simpa using h)]
        obtain ⟨k, rfl⟩ : ∃ k, e = k + 2 := ⟨e - 2, by omega⟩
        rw [if_neg (by omega), hb3, if_neg (by omega), show k + 2 - 1 = k + 1 by omega, beta_trade, show k + 2 - 2 = k by omega]
        exact tdiv_nat _ (ρ + 1) (by omega) rfl (by push_cast; ring)
      · have : e = 2 := by omega
        subst this; simp [beta_zero_left]
  have g6 : b1 * (e + 1) = b6 * (ρ + 1) := by subst hb1 hb6; exact beta_trade e ρ
  have q6 : ck ((b1 : Int) * ((e : Int) + 1)) = some ((b6 * (ρ + 1) : Nat) : Int) :=
    ck_nat _ (by rw [← g6]; push_cast; ring) (by rw [← g6]; exact hmul _ _ hbl (by omega))
  have d6 : (((b6 * (ρ + 1) : Nat) : Int)).tdiv ((ρ : Int) + 1) = b6 := tdiv_nat b6 (ρ + 1) (by omega) rfl (by push_cast; ring)
  have hrange : b1 + b6 ≤ 2147483647 := by
    rw [← f3]
    refine Nat.le_trans (Nat.le_mul_of_pos_right _ (show 0 < ρ + 1 by omega)) ?_
    rw [g1]; exact hmul _ _ hbl (Nat.le_refl _)
  have q7 : ck ((b1 : Int) + (b3 : Int)) = some ((b1 + b3 : Nat) : Int) := ck_nat _ (by push_cast; ring) (by omega)
  have q8 : ckIf (decide (¬ (l : Int) ≤ ((b1 + b3 : Nat) : Int))) ((b1 : Int) + (b2 : Int)) = some (if decide (¬ (l : Int) ≤ ((b1 + b3 : Nat) : Int)) = true then ((b1 + b2 : Nat) : Int) else 0) :=
    ckIf_nat _ (fun _ => by push_cast; ring) (fun _ => by omega)
  obtain ⟨s12, hs12⟩ : ∃ s, s = if decide (¬ (l : Int) ≤ ((b1 + b3 : Nat) : Int)) = true then ((b1 + b2 : Nat) : Int) else 0 := ⟨_, rfl⟩
  have q9 : ckIf (decide (¬ (l : Int) ≤ ((b1 + b3 : Nat) : Int) ∧ ¬ (l : Int) < s12)) ((b1 : Int) + (b2 : Int) + (b5 : Int)) = some (if decide (¬ (l : Int) ≤ ((b1 + b3 : Nat) : Int) ∧ ¬ (l : Int) < s12) = true then ((b1 + b2 + b5 : Nat) : Int) else 0) :=
    ckIf_nat _ (fun _ => by push_cast; ring) (fun _ => by omega)
  have hmono : ∀ i, i + 1 ≤ ρ → beta (e + 1) i ≤ b4 := by
    intro i hi
    subst hb4
    rw [if_neg (by omega)]
    exact beta_mono_right _ (by omega)
  simp only [split]
  rw [q1, Option.bind_some]; simp only [d1]
  rw [q2, Option.bind_some]; simp only [d2]
  rw [q3, Option.bind_some]; simp only [d3]
  rw [q4, Option.bind_some]; simp only [d4]
  rw [q5, Option.bind_some]; simp only [d5]
  rw [q6, Option.bind_some]; simp only [d6]
  rw [q7, Option.bind_some, q8, Option.bind_some, ← hs12, q9, Option.bind_some]
  rw [f3] at h2
  rw [← hb1] at h1
  have hz : b4 = 0 → b1 = 1 := by
    intro h0
    by_cases hρ : ρ = 0
    · exact (f6 hρ).1
    · have := f7 hρ; omega
  obtain ⟨k1, k2, k3, k4, k5, k6⟩ := pick_bounds l b1 b2 b3 b4 b5 b6 f1 f2 h1 h2 f4 f5 hz
  refine ⟨pick l b1 b2 b3 b4 b5 b6, ?_, k1, k2, hb1 ▸ k3, fun i hi => Nat.le_trans (hmono i hi) k4, hb2 ▸ k5, hb6 ▸ k6⟩
  congr 1
  exact pick_int l b1 b2 b3 b4 b5 b6 f1 f2 h1 h2 f4 f5 s12 _ (fun hn => by rw [hs12, if_pos (by simpa using hn)]) (fun hn => if_pos (by simpa using hn)) _ rfl

end Verif.Rev
