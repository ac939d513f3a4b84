import Verif.Rev.Cost
/-!
# All checkpointing schedules

A specification, independent of the code: a machine that holds one current state and up to `c`
stored states of a loop, and must reverse the loop's steps from the last to the first.
-/
set_option linter.all false
namespace Verif.Rev

/-- Number of the current state, numbers of the states stored in each slot, number of steps not yet reversed. -/
structure Mach where
  pos : Option Nat
  mem : Nat → Option Nat
  fine : Nat

/-- Overwriting a slot. -/
def put (M : Nat → Option Nat) (i : Nat) (v : Option Nat) : Nat → Option Nat := fun j => if j = i then v else M j

/-- One move and the number of forward steps it takes, with slots `0 .. c-1`.  Any slot may be
restored or overwritten at any time; reversing step `p` needs the state before it and loses the
current state. -/
inductive Move (c : Nat) : Mach → Nat → Mach → Prop
  | advance (p : Nat) (M) (f : Nat) : Move c ⟨some p, M, f⟩ 1 ⟨some (p + 1), M, f⟩
  | store (p i : Nat) (M) (f : Nat) (h : i < c) : Move c ⟨some p, M, f⟩ 0 ⟨some p, put M i (some p), f⟩
  | restore (p : Option Nat) (i x : Nat) (M) (f : Nat) (h : i < c) (hx : M i = some x) : Move c ⟨p, M, f⟩ 0 ⟨some x, M, f⟩
  | turn (p : Nat) (M) : Move c ⟨some p, M, p + 1⟩ 0 ⟨none, M, p⟩

/-- A schedule: moves one after the other, with the total number of forward steps. -/
inductive Sched (c : Nat) : Mach → Nat → Mach → Prop
  | nil (m : Mach) : Sched c m 0 m
  | cons {m m' m'' : Mach} {w w' : Nat} : Move c m w m' → Sched c m' w' m'' → Sched c m (w + w') m''

theorem Sched.append {c : Nat} {m m' m'' : Mach} {w w' : Nat} (h : Sched c m w m') (h' : Sched c m' w' m'') :
    Sched c m (w + w') m'' := by
  induction h with
  | nil => simpa using h'
  | cons a _ ih => rw [Nat.add_assoc]; exact .cons a (ih h')

/-! ### The lower bound -/

/-- A potential continuation: places `t` where states will be kept, each obtained from a held state `q`. -/
def COk (S : Nat → Prop) (f : Nat) : Nat → Nat × Nat → List (Nat × Nat) → Prop
  | c, (q, t), [] => S q ∧ q ≤ t ∧ t < f ∧ (c = 0 → f - t = 1)
  | c, (q, t), (q', t') :: rest => S q ∧ q ≤ t ∧ t < t' ∧ q < q' ∧ 1 ≤ c ∧ COk S f (c - 1) (q', t') rest

def cval (f : Nat) : Nat → Nat × Nat → List (Nat × Nat) → Nat
  | c, (q, t), [] => (t - q) + cost c (f - t)
  | c, (q, t), (q', t') :: rest => (t - q) + cost c (t' - t) + cval f (c - 1) (q', t') rest

theorem cost_anti (c l : Nat) : cost (c + 1) l ≤ cost c l := by
  apply Finset.sum_le_sum
  intro i _
  have := beta_le_succ_left c i
  omega

theorem COk.up {S : Nat → Prop} {f : Nat} : ∀ {c : Nat} {h : Nat × Nat} {rest}, COk S f c h rest → COk S f (c + 1) h rest
  | c, (q, t), [], h => ⟨h.1, h.2.1, h.2.2.1, by omega⟩
  | c, (q, t), (q', t') :: rest, h => by
    obtain ⟨h1, h2, h3, h4, h5, h6⟩ := h
    refine ⟨h1, h2, h3, h4, by omega, ?_⟩
    have := h6.up
    rwa [show c + 1 - 1 = c - 1 + 1 by omega]

theorem cval_up {S : Nat → Prop} {f : Nat} : ∀ {c : Nat} {h : Nat × Nat} {rest}, COk S f c h rest →
    cval f (c + 1) h rest ≤ cval f c h rest
  | c, (q, t), [], h => by simp only [cval]; have := cost_anti c (f - t); omega
  | c, (q, t), (q', t') :: rest, h => by
    obtain ⟨h1, h2, h3, h4, h5, h6⟩ := h
    simp only [cval]
    have a := cost_anti c (t' - t)
    have b := cval_up h6
    rw [show c + 1 - 1 = c - 1 + 1 by omega]
    omega

/-- The second place is superfluous if the first is at or above its source. -/
theorem drop_second {S : Nat → Prop} {f c q t q' t' : Nat} {rest : List (Nat × Nat)} (hq : S q) (hqt : q ≤ t) (htt : t < t') (hs : q' ≤ t)
    (hqq : q ≤ q') (hc : 1 ≤ c) (h : COk S f (c - 1) (q', t') rest) :
    COk S f c (q, t) rest ∧
      cval f c (q, t) rest ≤ (t - q) + cost c (t' - t) + cval f (c - 1) (q', t') rest := by
  obtain ⟨k, rfl⟩ : ∃ k, c = k + 1 := ⟨c - 1, by omega⟩
  rw [Nat.add_sub_cancel] at h ⊢
  cases rest with
  | nil =>
    obtain ⟨h1, h2, h3, h4⟩ := h
    refine ⟨⟨hq, hqt, by omega, by omega⟩, ?_⟩
    simp only [cval]
    have := cost_split_le k (f - t) (t' - t) (by omega) (by omega) (by intro h0; have := h4 h0; omega)
    rw [show f - t - (t' - t) = f - t' by omega] at this
    omega
  | cons x rest =>
    obtain ⟨q'', t''⟩ := x
    obtain ⟨h1, h2, h3, h4, h5, h6⟩ := h
    have hup := h6.up
    have hv := cval_up h6
    rw [show k - 1 + 1 = k by omega] at hup hv
    refine ⟨⟨hq, hqt, by omega, by omega, by omega, by simpa using hup⟩, ?_⟩
    simp only [cval, Nat.add_sub_cancel]
    have := cost_split_le k (t'' - t) (t' - t) (by omega) (by omega) (by omega)
    rw [show t'' - t - (t' - t) = t'' - t' by omega] at this
    omega

theorem COk.mono {S S' : Nat → Prop} {f : Nat} (hS : ∀ x, S x → S' x) : ∀ {c : Nat} {h : Nat × Nat} {rest}, COk S f c h rest → COk S' f c h rest
  | c, (q, t), [], h => ⟨hS _ h.1, h.2⟩
  | c, (q, t), (q', t') :: rest, h => ⟨hS _ h.1, h.2.1, h.2.2.1, h.2.2.2.1, h.2.2.2.2.1, h.2.2.2.2.2.mono hS⟩

theorem COk.above {S S' : Nat → Prop} {f b : Nat} (hS : ∀ x, b < x → S x → S' x) : ∀ {c : Nat} {h : Nat × Nat} {rest}, b < h.1 →
    COk S f c h rest → COk S' f c h rest
  | c, (q, t), [], hb, h => ⟨hS _ hb h.1, h.2⟩
  | c, (q, t), (q', t') :: rest, hb, h => ⟨hS _ hb h.1, h.2.1, h.2.2.1, h.2.2.2.1, h.2.2.2.2.1,
      h.2.2.2.2.2.above hS (by simp only at hb ⊢; have := h.2.2.2.1; omega)⟩

theorem chain_advance {M : List Nat} {p f : Nat} : ∀ (rest : List (Nat × Nat)) (c q t : Nat),
    COk (fun x => x ∈ M ∨ x = p + 1) f c (q, t) rest →
    ∃ q' rest', COk (fun x => x ∈ M ∨ x = p) f c (q', t) rest' ∧ (q' = q ∨ (q = p + 1 ∧ q' = p)) ∧
      cval f c (q', t) rest' ≤ cval f c (q, t) rest + 1 := by
  intro rest
  induction rest with
  | nil =>
    rintro c q t ⟨h1, h2, h3, h4⟩
    rcases h1 with h1 | rfl
    · exact ⟨q, [], ⟨.inl h1, h2, h3, h4⟩, .inl rfl, by omega⟩
    · exact ⟨p, [], ⟨.inr rfl, by omega, h3, h4⟩, .inr ⟨rfl, rfl⟩, by simp only [cval]; omega⟩
  | cons x rest ih =>
    obtain ⟨q1, t1⟩ := x
    rintro c q t ⟨h1, h2, h3, h4, h5, h6⟩
    rcases h1 with h1 | rfl
    · obtain ⟨q2, rest2, a1, a2, a3⟩ := ih (c - 1) q1 t1 h6
      by_cases hlt : q < q2
      · refine ⟨q, (q2, t1) :: rest2, ⟨.inl h1, h2, h3, hlt, h5, a1⟩, .inl rfl, ?_⟩
        simp only [cval]; omega
      · rcases a2 with rfl | ⟨rfl, rfl⟩
        · omega
        · have hqe : q = q2 := by omega
          subst hqe
          have := drop_second (S := fun x => x ∈ M ∨ x = q) (f := f) (c := c) (q := q) (t := t) (q' := q) (t' := t1)
            (rest := rest2) (.inr rfl) h2 h3 h2 (Nat.le_refl _) h5 a1
          refine ⟨q, rest2, this.1, .inl rfl, ?_⟩
          simp only [cval]; omega
    · refine ⟨p, (q1, t1) :: rest, ⟨.inr rfl, by omega, h3, by omega, h5, ?_⟩, .inr ⟨rfl, rfl⟩, by simp only [cval]; omega⟩
      refine h6.above (b := p + 1) ?_ h4
      rintro x hx (h | h)
      · exact .inl h
      · omega

theorem chain_snoc {M : List Nat} {p : Nat} : ∀ (rest : List (Nat × Nat)) (c q t : Nat),
    COk (fun x => x ∈ M) p c (q, t) rest → rest.length + 1 ≤ c →
    COk (fun x => x ∈ M ∨ x = p) (p + 1) c (q, t) (rest ++ [(p, p)]) ∧
      cval (p + 1) c (q, t) (rest ++ [(p, p)]) = cval p c (q, t) rest := by
  intro rest
  induction rest with
  | nil =>
    rintro c q t ⟨h1, h2, h3, h4⟩ hl
    simp only [List.length_nil] at hl
    refine ⟨⟨.inl h1, h2, h3, by omega, by omega, .inr rfl, Nat.le_refl _, by omega, by omega⟩, ?_⟩
    simp only [List.nil_append, cval]
    rw [show p + 1 - p = 1 by omega, cost_one]; omega
  | cons x rest ih =>
    obtain ⟨q1, t1⟩ := x
    rintro c q t ⟨h1, h2, h3, h4, h5, h6⟩ hl
    simp only [List.length_cons] at hl
    obtain ⟨a1, a2⟩ := ih (c - 1) q1 t1 h6 (by omega)
    refine ⟨⟨.inl h1, h2, h3, h4, h5, a1⟩, ?_⟩
    simp only [List.cons_append, cval, a2]

/-- Sources are distinct stored states. -/
theorem chain_length {M : List Nat} {f : Nat} : ∀ (rest : List (Nat × Nat)) (c q t : Nat),
    COk (fun x => x ∈ M) f c (q, t) rest →
    (∀ x ∈ q :: rest.map (·.1), q ≤ x ∧ x ∈ M) ∧ (q :: rest.map (·.1)).Nodup := by
  intro rest
  induction rest with
  | nil => rintro c q t ⟨h1, _⟩; simp [h1]
  | cons x rest ih =>
    obtain ⟨q1, t1⟩ := x
    rintro c q t ⟨h1, h2, h3, h4, h5, h6⟩
    obtain ⟨a1, a2⟩ := ih (c - 1) q1 t1 h6
    constructor
    · intro x hx
      simp only [List.map_cons, List.mem_cons] at hx
      rcases hx with rfl | hx
      · exact ⟨Nat.le_refl _, h1⟩
      · have := a1 x (by simpa using hx)
        exact ⟨by omega, this.2⟩
    · rw [List.nodup_cons]
      refine ⟨?_, by simpa using a2⟩
      intro hmem
      have := (a1 q (by simpa using hmem)).1
      omega

/-- The states held by the machine. -/
def slots (c : Nat) (M : Nat → Option Nat) : List Nat := (List.range c).filterMap M

theorem mem_slots {c : Nat} {M : Nat → Option Nat} {x : Nat} : x ∈ slots c M ↔ ∃ i, i < c ∧ M i = some x := by
  simp [slots]

theorem slots_length (c : Nat) (M : Nat → Option Nat) : (slots c M).length ≤ c := by
  have := List.length_filterMap_le M (List.range c)
  simpa [slots] using this

def Mach.held (c : Nat) (m : Mach) (x : Nat) : Prop := x ∈ slots c m.mem ∨ m.pos = some x

theorem sched_chain {c : Nat} {m m' : Mach} {w : Nat} (h : Sched c m w m') (hf : m'.fine = 0)
    (h1 : 1 ≤ m.fine) : ∃ q rest, COk (m.held c) m.fine c (q, 0) rest ∧ cval m.fine c (q, 0) rest ≤ w := by
  induction h with
  | nil m => omega
  | @cons m1 m2 m3 w1 w2 a b ih =>
    cases a with
    | advance p M f =>
      obtain ⟨q, rest, i1, i2⟩ := ih hf h1
      obtain ⟨q', rest', j1, j2, j3⟩ := chain_advance (M := slots c M) (p := p) rest c q 0
        (i1.mono (by rintro x (hx | hx); exact .inl hx; simp at hx; exact .inr hx.symm))
      refine ⟨q', rest', j1.mono (by rintro x (hx | hx); exact .inl hx; exact .inr (by simp [hx])), ?_⟩
      simp only at i2 j3 ⊢; omega
    | store p i M f hlt =>
      obtain ⟨q, rest, i1, i2⟩ := ih hf h1
      refine ⟨q, rest, i1.mono ?_, by simpa using i2⟩
      rintro x (hx | hx)
      · obtain ⟨j, hj, hjx⟩ := mem_slots.1 hx
        simp only [put] at hjx
        split at hjx
        · exact .inr hjx
        · exact .inl (mem_slots.2 ⟨j, hj, hjx⟩)
      · exact .inr hx
    | restore p i x M f hi hx =>
      obtain ⟨q, rest, i1, i2⟩ := ih hf h1
      refine ⟨q, rest, i1.mono ?_, by simpa using i2⟩
      rintro y (hy | hy)
      · exact .inl hy
      · simp at hy; subst hy; exact .inl (mem_slots.2 ⟨i, hi, hx⟩)
    | turn p M =>
      cases p with
      | zero =>
        refine ⟨0, [], ⟨.inr rfl, Nat.le_refl _, by simp, by simp⟩, ?_⟩
        simp only [cval]
        rw [show 0 + 1 - 0 = 1 from rfl, cost_one]; omega
      | succ p =>
        obtain ⟨q, rest, i1, i2⟩ := ih hf (by simp)
        have i1' : COk (fun x => x ∈ slots c M) (p + 1) c (q, 0) rest :=
          i1.mono (by rintro y (hy | hy); exact hy; simp at hy)
        have hlen := chain_length rest c q 0 i1'
        have : (q :: rest.map (·.1)).length ≤ (slots c M).length :=
          (List.subperm_of_subset hlen.2 (fun x hx => (hlen.1 x hx).2)).length_le
        simp only [List.length_cons, List.length_map] at this
        obtain ⟨j1, j2⟩ := chain_snoc rest c q 0 i1' (by have := slots_length c M; omega)
        exact ⟨q, rest ++ [(p + 1, p + 1)], j1.mono (by rintro x (hx | hx); exact .inl hx; exact .inr (by simp [hx])),
          by simp only at i2 ⊢; omega⟩

/-- No schedule reverses `l` steps with `c` slots in fewer forward steps. -/
theorem sched_lower (c l w : Nat) (m' : Mach) (hl : 1 ≤ l) (h : Sched c ⟨some 0, fun _ => none, l⟩ w m') (hf : m'.fine = 0) :
    cost c l ≤ w := by
  obtain ⟨q, rest, h1, h2⟩ := sched_chain h hf hl
  have hq : ∀ x, Mach.held c ⟨some 0, fun _ => none, l⟩ x → x = 0 := by
    rintro x (hx | hx)
    · obtain ⟨i, _, h⟩ := mem_slots.1 hx; simp at h
    · simpa using hx.symm
  cases rest with
  | nil =>
    have := hq q h1.1
    subst this
    simpa [cval] using h2
  | cons x rest =>
    obtain ⟨q1, t1⟩ := x
    obtain ⟨a1, a2, a3, a4, a5, a6⟩ := h1
    have b1 := hq q a1
    have b2 : q1 = 0 := by
      cases rest with
      | nil => exact hq q1 a6.1
      | cons y rest => exact hq q1 a6.1
    omega

end Verif.Rev
