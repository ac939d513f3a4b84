import Verif.AD.HigherVec
import Verif.AD.HosLoops
import Verif.AD.ZosFos

/-! Every direction of `hov_forward` is a run of `hos_forward`. -/
set_option linter.all false
namespace Verif.AD
open Elem

variable {K : Type} [Scalar K]

/-- Same values and coefficients, same scratch entries below `n`. -/
structure SimZ (n : Nat) (h h' : HS K) : Prop where
  T : h.T = h'.T
  D : h.D = h'.D
  z : ∀ j, j < n → h.z j = h'.z j
  ii : h.ii = h'.ii
  rc : h.rc ≤ h'.rc

theorem SimZ.mono {n m : Nat} {h h' : HS K} (s : SimZ n h h') (hm : m ≤ n) : SimZ m h h' :=
  ⟨s.T, s.D, fun j hj => s.z j (by omega), s.ii, s.rc⟩

theorem SimZ.setC {n : Nat} {h h' : HS K} (s : SimZ n h h') (r i : Nat) {v v' : K} (hv : v = v') :
    SimZ n (h.setC r i v) (h'.setC r i v') := by
  subst hv
  exact ⟨s.T, by simp only [HS.setC, s.D], s.z, s.ii, s.rc⟩

theorem SimZ.setZ {n : Nat} {h h' : HS K} (s : SimZ n h h') {v v' : K} (hv : v = v') :
    SimZ (n + 1) (h.setZ n v) (h'.setZ n v') := by
  subst hv
  refine ⟨s.T, s.D, fun j hj => ?_, s.ii, s.rc⟩
  simp only [HS.setZ, upd_apply]
  split_ifs with e
  · rfl
  · exact s.z j (by omega)

theorem SimZ.dec {n : Nat} {h h' : HS K} (s : SimZ n h h') {b b' : Bool} (hb : b = b') (m : Int) :
    SimZ n (h.dec b m) (h'.dec b' m) := by
  subst hb
  refine ⟨s.T, s.D, s.z, s.ii, ?_⟩
  simp only [HS.dec]
  split_ifs
  · exact mindec_mono s.rc
  · exact s.rc

/-- A loop that writes scratch entry `i` in pass `i`. -/
theorem SimZ.loopZ {m : Nat} {f : Nat → HS K → HS K} {h h' : HS K}
    (hf : ∀ i h h', i < m → SimZ i h h' → SimZ (i + 1) (f i h) (f i h')) (s : SimZ 0 h h') :
    SimZ m (forUp m f h) (forUp m f h') := by
  induction m with
  | zero => exact s
  | succ m ih =>
    rw [forUp_succ, forUp_succ]
    exact hf m _ _ (by omega) (ih fun i h h' hi => hf i h h' (by omega))

/-- A loop that does not write the scratch array. -/
theorem SimZ.loop {n m : Nat} {f g : Nat → HS K → HS K} {h h' : HS K}
    (hf : ∀ i h h', i < m → SimZ n h h' → SimZ n (f i h) (g i h')) (s : SimZ n h h') :
    SimZ n (forUp m f h) (forUp m g h') := by
  induction m with
  | zero => exact s
  | succ m ih =>
    rw [forUp_succ, forUp_succ]
    exact hf m _ _ (by omega) (ih fun i h h' hi => hf i h h' (by omega))

theorem SimZ.loopDown {n m : Nat} {f : Nat → HS K → HS K} {h h' : HS K}
    (hf : ∀ i h h', i < m → SimZ n h h' → SimZ n (f i h) (f i h')) (s : SimZ n h h') :
    SimZ n (forDown m f h) (forDown m f h') := by
  unfold forDown
  exact SimZ.loop (m := m) (f := fun q s => f (m - 1 - q) s) (g := fun q s => f (m - 1 - q) s)
    (fun i h h' hi hs => hf _ _ _ (by omega) hs) s

/-- What the loops over coefficients leave alone. -/
structure ColFrame (h h' : HS K) : Prop where
  T : h'.T = h.T
  stk : h'.stk = h.stk
  ii : h'.ii = h.ii
  y : h'.y = h.y
  rc : h'.rc ≤ h.rc

theorem ColFrame.refl (h : HS K) : ColFrame h h := ⟨rfl, rfl, rfl, rfl, le_refl _⟩
theorem ColFrame.trans {a b c : HS K} (x : ColFrame a b) (y : ColFrame b c) : ColFrame a c :=
  ⟨y.T.trans x.T, y.stk.trans x.stk, y.ii.trans x.ii, y.y.trans x.y, le_trans y.rc x.rc⟩
theorem ColFrame.setC {h h' : HS K} (f : ColFrame h h') (r i : Nat) (v : K) : ColFrame h (h'.setC r i v) :=
  ⟨f.T, f.stk, f.ii, f.y, f.rc⟩
theorem ColFrame.setZ {h h' : HS K} (f : ColFrame h h') (i : Nat) (v : K) : ColFrame h (h'.setZ i v) :=
  ⟨f.T, f.stk, f.ii, f.y, f.rc⟩
theorem ColFrame.dec {h h' : HS K} (f : ColFrame h h') (b : Bool) (m : Int) : ColFrame h (h'.dec b m) := by
  refine ⟨f.T, f.stk, f.ii, f.y, ?_⟩
  simp only [HS.dec]; split_ifs
  · exact le_trans (mindec_le_left _ _) f.rc
  · exact f.rc
theorem ColFrame.loop {m : Nat} {f : Nat → HS K → HS K} {h h0 : HS K} (hf : ∀ i h', ColFrame h0 h' → ColFrame h0 (f i h'))
    (hh : ColFrame h0 h) : ColFrame h0 (forUp m f h) :=
  forUp_inv (fun _ h' => ColFrame h0 h') hh fun i s _ hs => hf i s hs
theorem ColFrame.loopDown {m : Nat} {f : Nat → HS K → HS K} {h h0 : HS K} (hf : ∀ i h', ColFrame h0 h' → ColFrame h0 (f i h'))
    (hh : ColFrame h0 h) : ColFrame h0 (forDown m f h) :=
  forDown_inv (fun _ h' => ColFrame h0 h') hh fun i s _ hs => hf i s hs

/-- A body of the loop over the directions. -/
structure ColBody (f : HS K → HS K) : Prop where
  sim : ∀ h h', SimZ 0 h h' → SimZ 0 (f h) (f h')
  frame : ∀ h, ColFrame h (f h)

theorem ColBody.pw {k r : Nat} {φ : Nat → HS K → K} (hφ : ∀ i h h', SimZ 0 h h' → φ i h = φ i h') :
    ColBody (forUp k fun i s => s.setC r i (φ i s)) :=
  ⟨fun h h' s => SimZ.loop (fun i h h' _ s => s.setC r i (hφ i h h' s)) s,
   fun h => ColFrame.loop (fun i h' f => f.setC _ _ _) (ColFrame.refl h)⟩

theorem ColBody.copyRow (k a r : Nat) : ColBody (copyRow (K := K) k a r) := ColBody.pw fun i h h' s => by rw [s.D]
theorem ColBody.fillRow (k r : Nat) (v : K) : ColBody (fillRow k r v) := ColBody.pw fun i h h' s => rfl

theorem ColBody.prod {k a b r : Nat} {φ : Nat → HS K → K} (hφ : ∀ i h h', SimZ 0 h h' → φ i h = φ i h') :
    ColBody (prodBody k a b r φ) :=
  ⟨fun h h' s => SimZ.loopDown (fun i h h' _ s => SimZ.loop (fun j h h' _ s => s.setC _ _ (by rw [s.D])) (s.setC _ _ (hφ i h h' s))) s,
   fun h => ColFrame.loopDown (fun i h' f => ColFrame.loop (fun j h' f => f.setC _ _ _) (f.setC _ _ _)) (ColFrame.refl h)⟩

theorem ColBody.prodSub {k a b r : Nat} {φ : Nat → HS K → K} (hφ : ∀ i h h', SimZ 0 h h' → φ i h = φ i h') :
    ColBody (prodBodySub k a b r φ) :=
  ⟨fun h h' s => SimZ.loopDown (fun i h h' _ s => SimZ.loop (fun j h h' _ s => s.setC _ _ (by rw [s.D])) (s.setC _ _ (hφ i h h' s))) s,
   fun h => ColFrame.loopDown (fun i h' f => ColFrame.loop (fun j h' f => f.setC _ _ _) (f.setC _ _ _)) (ColFrame.refl h)⟩

theorem ColBody.div {k b r : Nat} {divs : K} {φ : Nat → HS K → K} (hφ : ∀ i h h', SimZ 0 h h' → φ i h = φ i h') :
    ColBody (divBody k b r divs φ) := by
  refine ⟨fun h h' s => (SimZ.loopZ (fun i h h' _ s => ?_) s).mono (Nat.zero_le _), fun h => ColFrame.loop (fun i h' f => ?_) (ColFrame.refl h)⟩
  · have s1 := s.setZ (v := - h.D b i * divs) (v' := - h'.D b i * divs) (by rw [s.D])
    have s2 := s1.setC r i (hφ i _ _ (s1.mono (Nat.zero_le _)))
    exact SimZ.loop (m := i) (f := fun j s => s.setC r i (s.D r i + s.D r j * s.z (i - 1 - j)))
      (g := fun j s => s.setC r i (s.D r i + s.D r j * s.z (i - 1 - j)))
      (fun j h h' hj s => s.setC r i (by rw [s.D, s.z _ (by omega)])) s2
  · exact ColFrame.loop (fun j h' f => f.setC _ _ _) ((f.setZ _ _).setC _ _ _)

theorem ColBody.exp (k a r : Nat) : ColBody (expBody (K := K) k a r) := by
  refine ⟨fun h h' s => (SimZ.loopZ (fun i h h' _ s => ?_) s).mono (Nat.zero_le _), fun h => ColFrame.loop (fun i h' f => ?_) (ColFrame.refl h)⟩
  · have s1 := s.setZ (v := ((i : K) + 1) * h.D a i) (v' := ((i : K) + 1) * h'.D a i) (by rw [s.D])
    have s2 := s1.setC r i (v := h.T r * h.D a i) (v' := h'.T r * h'.D a i) (by rw [s.D, s.T])
    have s3 := s2.setC r i (congrArg (fun D : Nat → Nat → K => D r i * ((i : K) + 1)) s2.D)
    have s4 := SimZ.loop (m := i) (f := fun j s => s.setC r i (s.D r i + s.D r j * s.z (i - 1 - j)))
      (g := fun j s => s.setC r i (s.D r i + s.D r j * s.z (i - 1 - j)))
      (fun j h h' hj s => s.setC r i (by rw [s.D, s.z _ (by omega)])) s3
    exact s4.setC r i (congrArg (fun D : Nat → Nat → K => D r i / ((i : K) + 1)) s4.D)
  · exact (ColFrame.loop (fun j h' f => f.setC _ _ _) (((f.setZ _ _).setC _ _ _).setC _ _ _)).setC _ _ _

theorem ColBody.quadLoop (k a b r : Nat) : ColBody (quadLoop (K := K) k a b r) := by
  refine ⟨fun h h' s => (SimZ.loopZ (fun i h h' _ s => ?_) s).mono (Nat.zero_le _), fun h => ColFrame.loop (fun i h' f => ?_) (ColFrame.refl h)⟩
  · have s1 := s.setZ (v := ((i : K) + 1) * h.D a i) (v' := ((i : K) + 1) * h'.D a i) (by rw [s.D])
    have s2 := s1.setC r i (v := h.T b * h.D a i) (v' := h'.T b * h'.D a i) (by rw [s.D, s.T])
    have s3 := s2.setC r i (congrArg (fun D : Nat → Nat → K => D r i * ((i : K) + 1)) s2.D)
    have s4 := SimZ.loop (m := i) (f := fun j s => s.setC r i (s.D r i + s.D b j * s.z (i - 1 - j)))
      (g := fun j s => s.setC r i (s.D r i + s.D b j * s.z (i - 1 - j)))
      (fun j h h' hj s => s.setC r i (by rw [s.D, s.z _ (by omega)])) s3
    exact s4.setC r i (congrArg (fun D : Nat → Nat → K => D r i / ((i : K) + 1)) s4.D)
  · exact (ColFrame.loop (fun j h' f => f.setC _ _ _) (((f.setZ _ _).setC _ _ _).setC _ _ _)).setC _ _ _

theorem ColBody.sin (k a b r : Nat) : ColBody (sinBody (K := K) k a b r) := by
  refine ⟨fun h h' s => (SimZ.loopZ (fun i h h' _ s => ?_) s).mono (Nat.zero_le _), fun h => ColFrame.loop (fun i h' f => ?_) (ColFrame.refl h)⟩
  · have s1 := s.setZ (v := ((i : K) + 1) * h.D a i) (v' := ((i : K) + 1) * h'.D a i) (by rw [s.D])
    have s2 := s1.setC b i (v := - h.T r * h.D a i) (v' := - h'.T r * h'.D a i) (by rw [s.D, s.T])
    have s3 := s2.setC r i (congrArg₂ (fun (T : Nat → K) (D : Nat → Nat → K) => T b * D a i) s2.T s2.D)
    have s4 := s3.setC r i (congrArg (fun D : Nat → Nat → K => D r i * ((i : K) + 1)) s3.D)
    have s5 := s4.setC b i (congrArg (fun D : Nat → Nat → K => D b i * ((i : K) + 1)) s4.D)
    have s6 := SimZ.loop (m := i) (f := fun j s =>
        let s := s.setC r i (s.D r i + s.D b j * s.z (i - 1 - j))
        s.setC b i (s.D b i - s.D r j * s.z (i - 1 - j)))
      (g := fun j s =>
        let s := s.setC r i (s.D r i + s.D b j * s.z (i - 1 - j))
        s.setC b i (s.D b i - s.D r j * s.z (i - 1 - j)))
      (fun j h h' hj s => by
        have t := s.setC r i (v := h.D r i + h.D b j * h.z (i - 1 - j)) (v' := h'.D r i + h'.D b j * h'.z (i - 1 - j))
          (by rw [s.D, s.z _ (by omega)])
        exact t.setC b i (by rw [t.D, t.z _ (by omega)])) s5
    have s7 := s6.setC b i (congrArg (fun D : Nat → Nat → K => D b i / ((i : K) + 1)) s6.D)
    exact s7.setC r i (congrArg (fun D : Nat → Nat → K => D r i / ((i : K) + 1)) s7.D)
  · exact ((ColFrame.loop (fun j h' f => (f.setC _ _ _).setC _ _ _)
      (((((f.setZ _ _).setC _ _ _).setC _ _ _).setC _ _ _).setC _ _ _)).setC _ _ _).setC _ _ _

theorem ColBody.cos (k a b r : Nat) : ColBody (cosBody (K := K) k a b r) := by
  refine ⟨fun h h' s => (SimZ.loopZ (fun i h h' _ s => ?_) s).mono (Nat.zero_le _), fun h => ColFrame.loop (fun i h' f => ?_) (ColFrame.refl h)⟩
  · have s1 := s.setZ (v := ((i : K) + 1) * h.D a i) (v' := ((i : K) + 1) * h'.D a i) (by rw [s.D])
    have s2 := s1.setC b i (v := h.T r * h.D a i) (v' := h'.T r * h'.D a i) (by rw [s.D, s.T])
    have s3 := s2.setC r i (congrArg₂ (fun (T : Nat → K) (D : Nat → Nat → K) => - T b * D a i) s2.T s2.D)
    have s4 := s3.setC r i (congrArg (fun D : Nat → Nat → K => D r i * ((i : K) + 1)) s3.D)
    have s5 := s4.setC b i (congrArg (fun D : Nat → Nat → K => D b i * ((i : K) + 1)) s4.D)
    have s6 := SimZ.loop (m := i) (f := fun j s =>
        let s := s.setC r i (s.D r i - s.D b j * s.z (i - 1 - j))
        s.setC b i (s.D b i + s.D r j * s.z (i - 1 - j)))
      (g := fun j s =>
        let s := s.setC r i (s.D r i - s.D b j * s.z (i - 1 - j))
        s.setC b i (s.D b i + s.D r j * s.z (i - 1 - j)))
      (fun j h h' hj s => by
        have t := s.setC r i (v := h.D r i - h.D b j * h.z (i - 1 - j)) (v' := h'.D r i - h'.D b j * h'.z (i - 1 - j))
          (by rw [s.D, s.z _ (by omega)])
        exact t.setC b i (by rw [t.D, t.z _ (by omega)])) s5
    have s7 := s6.setC b i (congrArg (fun D : Nat → Nat → K => D b i / ((i : K) + 1)) s6.D)
    exact s7.setC r i (congrArg (fun D : Nat → Nat → K => D r i / ((i : K) + 1)) s7.D)
  · exact ((ColFrame.loop (fun j h' f => (f.setC _ _ _).setC _ _ _)
      (((((f.setZ _ _).setC _ _ _).setC _ _ _).setC _ _ _).setC _ _ _)).setC _ _ _).setC _ _ _

theorem ColBody.log (k a r : Nat) (divs : K) : ColBody (logBody k a r divs) := by
  refine ⟨fun h h' s => (SimZ.loopZ (fun i h h' _ s => ?_) s).mono (Nat.zero_le _), fun h => ColFrame.loop (fun i h' f => ?_) (ColFrame.refl h)⟩
  · have s1 := s.setC r i (v := h.D a i * divs) (v' := h'.D a i * divs) (by rw [s.D])
    have s2 := s1.setZ (congrArg (fun D : Nat → Nat → K => D r i) s1.D)
    have s3 := s2.setC r i (congrArg (fun D : Nat → Nat → K => D r i * ((i : K) + 1)) s2.D)
    have s4 := SimZ.loop (m := i) (f := fun j s => s.setC r i (s.D r i - s.z (i - 1 - j) * s.D r j * ((j : K) + 1)))
      (g := fun j s => s.setC r i (s.D r i - s.z (i - 1 - j) * s.D r j * ((j : K) + 1)))
      (fun j h h' hj s => s.setC r i (by rw [s.D, s.z _ (by omega)])) s3
    exact s4.setC r i (congrArg (fun D : Nat → Nat → K => D r i / ((i : K) + 1)) s4.D)
  · exact (ColFrame.loop (fun j h' f => f.setC _ _ _) (((f.setC _ _ _).setZ _ _).setC _ _ _)).setC _ _ _

/-- Loops carrying a scalar. -/
theorem SimZ.loopP {n m : Nat} {f : Nat → HS K × K → HS K × K} {p p' : HS K × K}
    (hf : ∀ i (p p' : HS K × K), i < m → SimZ n p.1 p'.1 → p.2 = p'.2 → SimZ n (f i p).1 (f i p').1 ∧ (f i p).2 = (f i p').2)
    (s : SimZ n p.1 p'.1) (e : p.2 = p'.2) : SimZ n (forUp m f p).1 (forUp m f p').1 ∧ (forUp m f p).2 = (forUp m f p').2 := by
  induction m with
  | zero => exact ⟨s, e⟩
  | succ m ih =>
    rw [forUp_succ, forUp_succ]
    have := ih fun i p p' hi => hf i p p' (by omega)
    exact hf m _ _ (by omega) this.1 this.2

theorem ColFrame.loopP {m : Nat} {f : Nat → HS K × K → HS K × K} {h0 : HS K} {p : HS K × K}
    (hf : ∀ i (p : HS K × K), ColFrame h0 p.1 → ColFrame h0 (f i p).1) (hh : ColFrame h0 p.1) : ColFrame h0 (forUp m f p).1 :=
  forUp_inv (fun _ p => ColFrame h0 p.1) hh fun i s _ hs => hf i s hs

theorem ColBody.pow (k a r : Nat) (v r0 : K) : ColBody (powBody k a r v r0) := by
  refine ⟨fun h h' s => (SimZ.loopZ (fun i h h' _ s => ?_) s).mono (Nat.zero_le _), fun h => ColFrame.loop (fun i h' f => ?_) (ColFrame.refl h)⟩
  · have s1 := s.setZ (v := h.D a i * r0) (v' := h'.D a i * r0) (by rw [s.D])
    have s2 := s1.setC r i (v := h.T r * h.D a i * v * r0) (v' := h'.T r * h'.D a i * v * r0) (by rw [s.D, s.T])
    have s3 := s2.setC r i (congrArg (fun D : Nat → Nat → K => D r i * ((i : K) + 1)) s2.D)
    have s4 := (SimZ.loopP (m := i) (f := fun j (p : HS K × K) =>
      (p.1.setC r i (p.1.D r i + p.1.D r j * p.1.z (i - 1 - j) * p.2), p.2 - (v + 1)))
      (p := (_, v * i - 1)) (p' := (_, v * i - 1))
      (fun j p p' hj s e => ⟨s.setC r i (by rw [s.D, s.z _ (by omega), e]), by rw [e]⟩) s3 rfl).1
    exact s4.setC r i (congrArg (fun D : Nat → Nat → K => D r i / ((i : K) + 1)) s4.D)
  · exact (ColFrame.loopP (f := fun j (p : HS K × K) =>
      (p.1.setC r i (p.1.D r i + p.1.D r j * p.1.z (i - 1 - j) * p.2), p.2 - (v + 1)))
      (p := (_, v * i - 1)) (fun j p f => f.setC _ _ _) (((f.setZ _ _).setC _ _ _).setC _ _ _)).setC _ _ _

theorem ColBody.sqrt (k a r : Nat) : ColBody (sqrtBody (K := K) k a r) := by
  refine ⟨fun h h' s => ?_, fun h => ColFrame.loop (fun i h' f => (f.setC _ _ _).setC _ _ _) (ColFrame.refl h)⟩
  unfold sqrtBody
  rw [s.T, s.D]
  refine SimZ.loop (fun i h1 h1' _ s => ?_) s
  have s2 := s.setC r i (congrArg (fun D : Nat → Nat → K =>
    (if h'.T a = 0 then edgeVal k (h'.D a) inf nan else 1 / 2 / h'.T r) * D a i) s.D)
  exact s2.setC r i (by rw [s2.D])

theorem ColBody.min (k a b r : Nat) : ColBody (minBody (K := K) k a b r) := by
  refine ⟨fun h h' s => ?_, fun h => (ColBody.copyRow k _ r).frame h⟩
  unfold minBody
  rw [s.T, s.D]
  exact (ColBody.copyRow k _ r).sim h h' s

theorem ColBody.abs (k a r : Nat) : ColBody (absBody (K := K) k a r) := by
  refine ⟨fun h h' s => ?_, fun h => ColFrame.loopP (fun i p f => (f.dec _ _).setC _ _ _) (ColFrame.refl h)⟩
  unfold absBody
  rw [s.T]
  refine (SimZ.loopP (p := (h, _)) (p' := (h', _)) (fun i p p' hi s e => ?_) s rfl).1
  have hb : (p.2 = 0 ∧ p.1.D a i ≠ 0) = (p'.2 = 0 ∧ p'.1.D a i ≠ 0) := by rw [s.D, e]
  have hD : p.1.D a i = p'.1.D a i := by rw [s.D]
  simp only [e, hD]
  refine ⟨(s.dec (by simp) 1).setC r i ?_, trivial⟩
  simp only [HS.dec, hD]

theorem ColBody.edge {k r : Nat} {a : Nat} (u w : K) : ColBody (fun h : HS K => h.setC r 0 (edgeVal k (h.D a) u w)) :=
  ⟨fun h h' s => s.setC _ _ (by rw [s.D]), fun h => (ColFrame.refl h).setC _ _ _⟩

theorem ColBody.comp {f g : HS K → HS K} (hf : ColBody f) (hg : ColBody g) : ColBody (fun h => g (f h)) :=
  ⟨fun h h' s => hg.sim _ _ (hf.sim _ _ s), fun h => (hf.frame h).trans (hg.frame _)⟩

theorem ColBody.quadHO (q : Quad) (k a b r : Nat) : ColBody (quadHO (K := K) q k a b r) := by
  refine ⟨fun h h' s => ?_, fun h => ?_⟩
  · have hq := (ColBody.quadLoop k a b r).sim h h' s
    have he : ∀ u w : K, SimZ 0 (h.setC r 0 (edgeVal k (h.D a) u w)) (h'.setC r 0 (edgeVal k (h'.D a) u w)) :=
      fun u w => (ColBody.edge u w).sim h h' s
    have hf : ∀ u w : K, SimZ 0 (forUp (k - 1) (fun i s => s.setC r (i + 1) nan) (h.setC r 0 (edgeVal k (h.D a) u w)))
        (forUp (k - 1) (fun i s => s.setC r (i + 1) nan) (h'.setC r 0 (edgeVal k (h'.D a) u w))) :=
      fun u w => SimZ.loop (fun i h h' _ s => s.setC _ _ rfl) (he u w)
    cases q <;> simp only [Verif.AD.quadHO, s.T] <;> (try split_ifs) <;> first | exact hq | exact he _ _ | exact hf _ _
  · have hq := (ColBody.quadLoop k a b r).frame h
    have he : ∀ v : K, ColFrame h (h.setC r 0 v) := fun v => (ColFrame.refl h).setC _ _ _
    have hf : ∀ v : K, ColFrame h (forUp (k - 1) (fun i s => s.setC r (i + 1) nan) (h.setC r 0 v)) :=
      fun v => ColFrame.loop (fun i h' f => f.setC _ _ _) (he v)
    cases q <;> simp only [Verif.AD.quadHO] <;> (try split_ifs) <;> first | exact hq | exact he _ | exact hf _

/-- Direction `l` of a vector-mode state is a scalar-mode state. -/
structure HCol (keep l : Nat) (s : HVS K) (h : HS K) : Prop where
  T : s.T = h.T
  D : ∀ a i, s.D a l i = h.D a i
  stk : h.stk = s.stk.map fun r => fun n => match n with
    | 0 => r.1
    | n + 1 => r.2 l n
  ii : s.ii = h.ii
  y : h.y = s.y.map fun r => fun n => match n with
    | 0 => r.1
    | n + 1 => r.2 l n
  rc : s.rc ≤ h.rc

variable {keep l : Nat} {s : HVS K} {h : HS K}

theorem HCol.onCol {f : HS K → HS K} (hf : ColBody f) {h' : HS K} (cl : HCol keep l s h) : HCol keep l (s.onCol l f) (f h) := by
  have e : SimZ 0 (s.view l) h := ⟨cl.T, by funext a i; exact cl.D a i, fun j hj => absurd hj (by omega), cl.ii, cl.rc⟩
  have hs := hf.sim _ _ e
  have hF := hf.frame h
  refine ⟨cl.T.trans hF.T.symm, fun a i => ?_, hF.stk.trans cl.stk, cl.ii.trans hF.ii.symm, hF.y.trans cl.y, hs.rc⟩
  simp only [HVS.onCol, if_pos]
  exact congrFun (congrFun hs.D a) i

theorem HCol.onCol_ne {f : HS K → HS K} (hf : ColBody f) {l' : Nat} (hl : l' ≠ l) (cl : HCol keep l s h) : HCol keep l (s.onCol l' f) h := by
  refine ⟨cl.T, fun a i => ?_, cl.stk, cl.ii, cl.y, le_trans (hf.frame _).rc cl.rc⟩
  simp only [HVS.onCol]
  rw [if_neg (Ne.symm hl)]
  exact cl.D a i

theorem HCol.cols {p : Nat} {f : Nat → HS K → HS K} (hf : ∀ l, ColBody (f l)) (hl : l < p) (cl : HCol keep l s h) :
    HCol keep l (s.cols p f) (f l h) := by
  have key : ∀ m, HCol keep l (forUp m (fun l s => s.onCol l (f l)) s) (if l < m then f l h else h) := by
    intro m
    induction m with
    | zero => simpa using cl
    | succ m ih =>
      rw [forUp_succ]
      by_cases e : m = l
      · subst e
        simp only [lt_irrefl, if_false] at ih
        rw [if_pos (Nat.lt_succ_self _)]
        exact ih.onCol (h' := h) (hf m)
      · have := ih.onCol_ne (hf m) e
        have e2 : (l < m + 1) ↔ (l < m) := by omega
        simp only [e2]; exact this
  have := key p
  rwa [if_pos hl] at this

theorem HCol.colsDown {p : Nat} {f : Nat → HS K → HS K} (hf : ∀ l, ColBody (f l)) (hl : l < p) (cl : HCol keep l s h) :
    HCol keep l (s.colsDown p f) (f l h) := by
  have : HCol keep l (s.colsDown p f) (if l < 0 then h else f l h) := by
    refine forDown_inv (P := fun m s => HCol keep l s (if l < m then h else f l h)) ?_ fun i s hi hs => ?_
    · rw [if_pos hl]; exact cl
    · by_cases e : i = l
      · subst e
        rw [if_pos (Nat.lt_succ_self _)] at hs
        rw [if_neg (lt_irrefl _)]
        exact hs.onCol (h' := h) (hf i)
      · have := hs.onCol_ne (hf i) e
        have e2 : (l < i + 1) ↔ (l < i) := by omega
        simp only [e2] at this; exact this
  simpa using this

/-- The configuration of the scalar run for direction `l`. -/
def HVCfg.col (c : HVCfg K) (l : Nat) : HCfg K := ⟨c.x, fun i j => c.X i l j, c.par, c.k, c.keep⟩

variable {c : HVCfg K}

theorem HCol.push (cl : HCol c.keep l s h) (r : Nat) : HCol c.keep l (s.push c r) (h.push (c.col l) r) := by
  refine ⟨cl.T, cl.D, ?_, cl.ii, cl.y, cl.rc⟩
  simp only [HVS.push, HS.push]
  rw [show (c.col l).keep = c.keep from rfl]
  split_ifs with hk
  · rw [List.map_cons, cl.stk]
    congr 1
    funext n
    cases n with
    | zero => simp [HS.row, hk, cl.T]
    | succ n => simp only [HS.row]; rw [cl.D]
  · exact cl.stk

theorem HCol.set (cl : HCol keep l s h) (r : Nat) {v v' : K} (hv : v = v') : HCol keep l (s.set r v) (h.set r v') := by
  subst hv
  exact ⟨by simp only [HVS.set, HS.set, cl.T], cl.D, cl.stk, cl.ii, cl.y, cl.rc⟩

theorem HCol.dec (cl : HCol keep l s h) {b b' : Bool} (hb : b = b') (n : Int) : HCol keep l (s.dec b n) (h.dec b' n) := by
  subst hb
  refine ⟨cl.T, cl.D, cl.stk, cl.ii, cl.y, ?_⟩
  simp only [HVS.dec, HS.dec]; split_ifs
  · exact mindec_mono cl.rc
  · exact cl.rc

theorem HCol.loop {m : Nat} {f : Nat → HVS K → HVS K} {g : Nat → HS K → HS K}
    (hf : ∀ q s h, HCol keep l s h → HCol keep l (f q s) (g q h)) (cl : HCol keep l s h) :
    HCol keep l (forUp m f s) (forUp m g h) := by
  induction m with
  | zero => exact cl
  | succ m ih => rw [forUp_succ, forUp_succ]; exact hf m _ _ ih

/-- Where a direction of the vector mode may depend on the others: `log` and `pow` at 0. -/
def Base.colOk (o : Base K) (T : Nat → K) : Prop :=
  match o with
  | .logOp a _ => T a ≠ 0
  | .powOp a _ v => T a = 0 → v ≤ 0 ∨ v - 1 = 0
  | _ => True

theorem HCol.log {p k a r : Nat} (hl : l < p) (h0 : s.T a ≠ 0) (cl : HCol keep l s h) :
    HCol keep l (forUp p (fun l (ps : K × HVS K) =>
      let divs := if ps.2.T a = 0 ∧ ∃ i ∈ List.range k, ps.2.D a l i < 0 then nan else ps.1
      (divs, ps.2.onCol l (logBody k a r divs))) (1 / s.T a, s)).2 (logBody k a r (1 / h.T a) h) := by
  have e : forUp p (fun l (ps : K × HVS K) =>
      let divs := if ps.2.T a = 0 ∧ ∃ i ∈ List.range k, ps.2.D a l i < 0 then nan else ps.1
      (divs, ps.2.onCol l (logBody k a r divs))) (1 / s.T a, s) =
      (1 / s.T a, s.cols p fun _ => logBody k a r (1 / s.T a)) ∧
      (s.cols p fun _ => logBody k a r (1 / s.T a)).T = s.T := by
    unfold HVS.cols
    induction p with
    | zero => exact ⟨rfl, rfl⟩
    | succ p ih =>
      by_cases hp : l < p
      · obtain ⟨i1, i2⟩ := ih hp
        rw [forUp_succ, forUp_succ, i1]
        refine ⟨?_, i2⟩
        simp only [i2, h0, false_and, if_false]
      · clear ih hl
        have : ∀ p, forUp p (fun l (ps : K × HVS K) =>
            let divs := if ps.2.T a = 0 ∧ ∃ i ∈ List.range k, ps.2.D a l i < 0 then nan else ps.1
            (divs, ps.2.onCol l (logBody k a r divs))) (1 / s.T a, s) =
            (1 / s.T a, forUp p (fun l s' => s'.onCol l (logBody k a r (1 / s.T a))) s) ∧
            (forUp p (fun l s' => s'.onCol l (logBody k a r (1 / s.T a))) s).T = s.T := by
          intro p
          induction p with
          | zero => exact ⟨rfl, rfl⟩
          | succ p ih =>
            obtain ⟨i1, i2⟩ := ih
            rw [forUp_succ, forUp_succ, i1]
            refine ⟨?_, i2⟩
            simp only [i2, h0, false_and, if_false]
        exact this _
  rw [e.1]
  have := cl.cols (f := fun _ => logBody k a r (1 / s.T a)) (fun l => ColBody.log k a r _) hl
  rw [← cl.T]
  exact this

theorem hov_step {o : Base K} (hl : l < c.p) (ho : o.colOk s.T) (cl : HCol c.keep l s h) :
    ExRel (HCol c.keep l) (hovStep c o s) (hosStep (c.col l) o h) := by
  have hT := cl.T
  have pT : ∀ r, (s.push c r).T = s.T := fun r => rfl
  have qT : ∀ r, (h.push (c.col l) r).T = h.T := fun r => rfl
  have cp := fun r => cl.push (c := c) r
  cases o
  case cmp q a =>
    simp only [hovStep, hosStep]
    rw [hT]
    by_cases hq : q.holds (h.T a)
    · rw [if_pos hq, if_pos hq]
      cases q <;> simp only [ExRel] <;> refine ⟨by first | rfl | exact cl.T, cl.D, cl.stk, cl.ii, cl.y, ?_⟩ <;>
        first | exact cl.rc | exact le_refl _ | (simp only [hT]; split_ifs; exact le_refl _; exact cl.rc)
    · rw [if_neg hq, if_neg hq]; rfl
  case assignA a r =>
    exact ((cp r).set r (by rw [pT, hT]; rfl)).cols (f := fun _ => copyRow c.k a r) (fun _ => ColBody.copyRow _ _ _) hl
  case assignD r v =>
    exact ((cp r).set r rfl).cols (f := fun _ => fillRow c.k r 0) (fun _ => ColBody.fillRow _ _ _) hl
  case assignP q r =>
    exact ((cp r).set r rfl).cols (f := fun _ => fillRow c.k r 0) (fun _ => ColBody.fillRow _ _ _) hl
  case assignD0 r =>
    exact ((cp r).set r rfl).cols (f := fun _ => fillRow c.k r 0) (fun _ => ColBody.fillRow _ _ _) hl
  case assignD1 r =>
    exact ((cp r).set r rfl).cols (f := fun _ => fillRow c.k r 0) (fun _ => ColBody.fillRow _ _ _) hl
  case assignInd r =>
    have h1 := ((cp r).set r (v := c.x s.ii) (v' := c.x h.ii) (by rw [cl.ii])).cols
      (f := fun l => forUp c.k fun i s => s.setC r i (c.X s.ii l i))
      (fun l => ColBody.pw fun i h h' e => by rw [e.ii]) hl
    exact ⟨h1.T, h1.D, h1.stk, congrArg (· + 1) h1.ii, h1.y, h1.rc⟩
  case assignDep r =>
    refine ⟨cl.T, cl.D, cl.stk, cl.ii, ?_, cl.rc⟩
    simp only [List.map_append, List.map_cons, List.map_nil, cl.y]
    congr 2
    funext n
    cases n with
    | zero => simp only [HS.row, hT]
    | succ n => simp only [HS.row, cl.D]
  case eqPlusD r v => exact (cp r).set r (by rw [pT, qT, hT])
  case eqPlusA a r =>
    exact ((cp r).set r (by rw [pT, hT]; rfl)).cols (f := fun _ => forUp c.k fun i s => s.setC r i (s.D r i + s.D a i))
      (fun _ => ColBody.pw fun i h h' e => by rw [e.D]) hl
  case eqMinD r v => exact (cp r).set r (by rw [pT, qT, hT])
  case eqMinA a r =>
    exact ((cp r).set r (by rw [pT, hT]; rfl)).cols (f := fun _ => forUp c.k fun i s => s.setC r i (s.D r i - s.D a i))
      (fun _ => ColBody.pw fun i h h' e => by rw [e.D]) hl
  case eqMultD r v =>
    exact ((cp r).set r (by rw [pT, hT]; rfl)).cols (f := fun _ => forUp c.k fun i s => s.setC r i (s.D r i * v))
      (fun _ => ColBody.pw fun i h h' e => by rw [e.D]) hl
  case eqMultA a r =>
    have h1 := (cp r).colsDown (f := fun _ => prodBody c.k r a r fun i s => s.T r * s.D a i + s.D r i * s.T a)
      (fun _ => ColBody.prod fun i h h' e => by rw [e.D, e.T]) hl
    exact h1.set r (by rw [h1.T]; rfl)
  case incrA r => exact (cp r).set r (by rw [pT, qT, hT])
  case decrA r => exact (cp r).set r (by rw [pT, qT, hT])
  case plusAA a b r =>
    exact ((cp r).set r (by rw [pT, hT]; rfl)).cols (f := fun _ => forUp c.k fun i s => s.setC r i (s.D a i + s.D b i))
      (fun _ => ColBody.pw fun i h h' e => by rw [e.D]) hl
  case plusDA a r v =>
    exact ((cp r).set r (by rw [pT, hT]; rfl)).cols (f := fun _ => copyRow c.k a r) (fun _ => ColBody.copyRow _ _ _) hl
  case minAA a b r =>
    exact ((cp r).set r (by rw [pT, hT]; rfl)).cols (f := fun _ => forUp c.k fun i s => s.setC r i (s.D a i - s.D b i))
      (fun _ => ColBody.pw fun i h h' e => by rw [e.D]) hl
  case minDA a r v =>
    exact ((cp r).set r (by rw [pT, hT]; rfl)).cols (f := fun _ => forUp c.k fun i s => s.setC r i (- s.D a i))
      (fun _ => ColBody.pw fun i h h' e => by rw [e.D]) hl
  case multAA a b r =>
    have h1 := (cp r).colsDown (f := fun _ => prodBody c.k a b r fun i s => s.T a * s.D b i + s.D a i * s.T b)
      (fun _ => ColBody.prod fun i h h' e => by rw [e.D, e.T]) hl
    exact h1.set r (by rw [h1.T]; rfl)
  case eqPlusProd a b r =>
    have h1 := cl.colsDown (f := fun _ => prodBody c.k a b r fun i s => s.D r i + (s.T a * s.D b i + s.D a i * s.T b))
      (fun _ => ColBody.prod fun i h h' e => by rw [e.D, e.T]) hl
    exact h1.set r (by rw [h1.T]; rfl)
  case eqMinProd a b r =>
    have h1 := cl.colsDown (f := fun _ => prodBodySub c.k a b r fun i s => s.D r i - (s.T a * s.D b i + s.D a i * s.T b))
      (fun _ => ColBody.prodSub fun i h h' e => by rw [e.D, e.T]) hl
    exact h1.set r (by rw [h1.T]; rfl)
  case multDA a r v =>
    exact ((cp r).set r (by rw [pT, hT]; rfl)).cols (f := fun _ => forUp c.k fun i s => s.setC r i (s.D a i * v))
      (fun _ => ColBody.pw fun i h h' e => by rw [e.D]) hl
  case divAA a b r =>
    simp only [hovStep, hosStep, pT, qT, hT]
    exact ((cp r).set r rfl).cols (f := fun _ => divBody c.k b r (1 / h.T b) fun i s => s.D a i * (1 / h.T b) + s.T r * (- s.D b i * (1 / h.T b)))
      (fun _ => ColBody.div fun i h h' e => by rw [e.D, e.T]) hl
  case divDA a r v =>
    simp only [hovStep, hosStep, pT, qT, hT]
    exact ((cp r).set r rfl).cols (f := fun _ => divBody c.k a r (1 / h.T a) fun i s => s.T r * (- s.D a i * (1 / h.T a)))
      (fun _ => ColBody.div fun i h h' e => by rw [e.D, e.T]) hl
  case posSign a r =>
    exact ((cp r).set r (by rw [pT, hT]; rfl)).cols (f := fun _ => copyRow c.k a r) (fun _ => ColBody.copyRow _ _ _) hl
  case negSign a r =>
    exact ((cp r).set r (by rw [pT, hT]; rfl)).cols (f := fun _ => forUp c.k fun i s => s.setC r i (- s.D a i))
      (fun _ => ColBody.pw fun i h h' e => by rw [e.D]) hl
  case expOp a r =>
    exact ((cp r).set r (by rw [pT, hT]; rfl)).cols (f := fun _ => expBody c.k a r) (fun _ => ColBody.exp _ _ _) hl
  case sinOp a b r =>
    have h1 := (((cp b).push (c := c) r).set b (v := cos (((s.push c b).push c r).T a)) (v' := cos (((h.push (c.col l) b).push (c.col l) r).T a)) (congrArg (fun T : Nat → K => cos (T a)) hT))
    exact (h1.set r (congrArg (fun T : Nat → K => sin (T a)) h1.T)).cols (f := fun _ => sinBody c.k a b r) (fun _ => ColBody.sin _ _ _ _) hl
  case cosOp a b r =>
    have h1 := (((cp b).push (c := c) r).set b (v := sin (((s.push c b).push c r).T a)) (v' := sin (((h.push (c.col l) b).push (c.col l) r).T a)) (congrArg (fun T : Nat → K => sin (T a)) hT))
    exact (h1.set r (congrArg (fun T : Nat → K => cos (T a)) h1.T)).cols (f := fun _ => cosBody c.k a b r) (fun _ => ColBody.cos _ _ _ _) hl
  case quad q a b r =>
    exact ((cp r).set r (by rw [pT, hT]; rfl)).cols (f := fun _ => quadHO q c.k a b r) (fun _ => ColBody.quadHO _ _ _ _ _) hl
  case logOp a r =>
    have ha : s.T a ≠ 0 := ho
    have h1 := HCol.log (s := s.push c r) (p := c.p) (k := c.k) (a := a) (r := r) hl ha (cp r)
    have e : hosStep (c.col l) (.logOp a r) h = .ok ((logBody c.k a r (1 / h.T a) (h.push (c.col l) r)).set r
        (log ((logBody c.k a r (1 / h.T a) (h.push (c.col l) r)).T a))) := by
      have h0 : ¬ h.T a = 0 := by rw [← hT]; exact ha
      simp only [hosStep, qT, h0, false_and, if_false]
      rfl
    rw [e]
    exact h1.set r (by rw [h1.T]; rfl)
  case powOp a r v =>
    have hw := (cp r).set r (v := pow (s.T a) v) (v' := pow (h.T a) v) (by rw [hT])
    simp only [hovStep, hosStep, pT, qT, hT] at hw ⊢
    split_ifs with h1 h2 h3
    · exact hw.cols (f := fun _ => fillRow c.k r nan) (fun _ => ColBody.fillRow _ _ _) hl
    · exfalso
      have := ho (by rw [hT]; exact h1)
      tauto
    · exact hw.cols (f := fun _ => copyRow c.k a r) (fun _ => ColBody.copyRow _ _ _) hl
    · exact hw.cols (f := fun _ => powBody c.k a r v (1 / h.T a)) (fun _ => ColBody.pow _ _ _ _ _) hl
  case sqrtOp a r =>
    exact ((cp r).set r (by rw [pT, hT]; rfl)).cols (f := fun _ => sqrtBody c.k a r) (fun _ => ColBody.sqrt _ _ _) hl
  case cbrtOp a r => rfl
  case genQuad a b r old v =>
    simp only [hovStep, hosStep, hT]
    split_ifs with h1
    · rfl
    · exact ((cp r).set r rfl).cols (f := fun _ => quadLoop c.k a b r) (fun _ => ColBody.quadLoop _ _ _ _) hl
  case minOp a b r v =>
    simp only [hovStep, hosStep, pT, qT, hT]
    have key : ∀ (S : HVS K) (H : HS K), HCol c.keep l S H →
        HCol c.keep l ((S.cols c.p fun _ => minBody c.k a b r).set r
          (if (S.cols c.p fun _ => minBody c.k a b r).T a > (S.cols c.p fun _ => minBody c.k a b r).T b then
            (S.cols c.p fun _ => minBody c.k a b r).T b else (S.cols c.p fun _ => minBody c.k a b r).T a))
          ((minBody c.k a b r H).set r (if (minBody c.k a b r H).T a > (minBody c.k a b r H).T b then
            (minBody c.k a b r H).T b else (minBody c.k a b r H).T a)) := by
      intro S H hc
      have := hc.cols (f := fun _ => minBody c.k a b r) (fun _ => ColBody.min _ _ _ _) hl
      exact this.set r (by rw [this.T])
    by_cases h1 : h.T a > h.T b
    · simp only [h1, if_true]
      exact key _ _ ((cp r).dec rfl 2)
    · by_cases h2 : h.T a < h.T b
      · simp only [h1, h2, if_true, if_false]
        exact key _ _ ((cp r).dec rfl 2)
      · simp only [h1, h2, if_false]
        exact key _ _ ((cp r).dec rfl 1)
  case absVal a r v =>
    have key : ∀ (S : HVS K) (H : HS K), HCol c.keep l S H →
        HCol c.keep l ((S.cols c.p fun _ => absBody c.k a r).set r (fabs ((S.cols c.p fun _ => absBody c.k a r).T a)))
          ((absBody c.k a r H).set r (fabs ((absBody c.k a r H).T a))) := by
      intro S H hc
      have := hc.cols (f := fun _ => absBody c.k a r) (fun _ => ColBody.abs _ _ _) hl
      exact this.set r (by rw [this.T])
    refine key (if (s.push c r).T a < 0 then (s.push c r).dec (v ≠ 0) 2
        else if (s.push c r).T a > 0 then (s.push c r).dec (v = 0) 2 else s.push c r)
      (if (h.push (c.col l) r).T a < 0 then (h.push (c.col l) r).dec (v ≠ 0) 2
        else if (h.push (c.col l) r).T a > 0 then (h.push (c.col l) r).dec (v = 0) 2 else h.push (c.col l) r) ?_
    rw [pT, qT, hT]
    split_ifs
    · exact (cp r).dec rfl 2
    · exact (cp r).dec rfl 2
    · exact cp r
  case ceilOp a r v =>
    have h1 := (cp r).set r (v := ceil (s.T a)) (v' := ceil (h.T a)) (by rw [hT])
    exact (h1.dec (congrArg (fun T : Nat → K => decide (v ≠ T r)) h1.T) 2).cols (f := fun _ => fillRow c.k r 0) (fun _ => ColBody.fillRow _ _ _) hl
  case floorOp a r v =>
    have h1 := (cp r).set r (v := floor (s.T a)) (v' := floor (h.T a)) (by rw [hT])
    exact (h1.dec (congrArg (fun T : Nat → K => decide (v ≠ T r)) h1.T) 2).cols (f := fun _ => fillRow c.k r 0) (fun _ => ColBody.fillRow _ _ _) hl
  case condAssign a a1 a2 r v =>
    have hr := (cp r).cols (f := fun _ => copyRow c.k a1 r) (fun _ => ColBody.copyRow _ _ _) hl
    have hr' := (cp r).cols (f := fun _ => copyRow c.k a2 r) (fun _ => ColBody.copyRow _ _ _) hl
    have e1 : (copyRow c.k a1 r (h.push (c.col l) r)).T = h.T := ((ColBody.copyRow c.k a1 r).frame _).T
    have e2 : (copyRow c.k a2 r (h.push (c.col l) r)).T = h.T := ((ColBody.copyRow c.k a2 r).frame _).T
    have e3 := hr.T.trans e1
    have e4 := hr'.T.trans e2
    have ek : (c.col l).k = c.k := rfl
    simp only [hovStep, hosStep, pT, qT, hT, ek]
    by_cases h1 : h.T a > 0
    · simp only [h1, if_true, e1, e3]
      exact (hr.dec rfl 2).set r (congrFun (e3.trans e1.symm) a1)
    · simp only [h1, if_false, e2, e4]
      exact ((hr'.dec rfl 2).dec (congrArg (fun T : Nat → K => decide (T a = 0)) (e4.trans e2.symm)) 0).set r (congrFun (e4.trans e2.symm) a2)
  case condEqAssign a a1 a2 r v =>
    have hr := (cp r).cols (f := fun _ => copyRow c.k a1 r) (fun _ => ColBody.copyRow _ _ _) hl
    have hr' := (cp r).cols (f := fun _ => copyRow c.k a2 r) (fun _ => ColBody.copyRow _ _ _) hl
    have e1 : (copyRow c.k a1 r (h.push (c.col l) r)).T = h.T := ((ColBody.copyRow c.k a1 r).frame _).T
    have e2 : (copyRow c.k a2 r (h.push (c.col l) r)).T = h.T := ((ColBody.copyRow c.k a2 r).frame _).T
    have e3 := hr.T.trans e1
    have e4 := hr'.T.trans e2
    have ek : (c.col l).k = c.k := rfl
    simp only [hovStep, hosStep, pT, qT, hT, ek]
    by_cases h1 : h.T a ≥ 0
    · simp only [h1, if_true, e1, e3]
      exact (hr.dec rfl 2).set r (congrFun (e3.trans e1.symm) a1)
    · simp only [h1, if_false, e2, e4]
      exact (hr'.dec rfl 2).set r (congrFun (e4.trans e2.symm) a2)
  case condAssignS a a1 r v =>
    have hr := (cp r).cols (f := fun _ => copyRow c.k a1 r) (fun _ => ColBody.copyRow _ _ _) hl
    have e1 : (copyRow c.k a1 r (h.push (c.col l) r)).T = h.T := ((ColBody.copyRow c.k a1 r).frame _).T
    have e3 := hr.T.trans e1
    have ek : (c.col l).k = c.k := rfl
    simp only [hovStep, hosStep, pT, qT, hT, ek]
    by_cases h1 : h.T a > 0
    · simp only [h1, if_true, e1, e3]
      exact (hr.dec rfl 2).set r (congrFun (e3.trans e1.symm) a1)
    · simp only [h1, if_false, pT, qT, hT]
      exact (cp r).dec rfl 0
  case condEqAssignS a a1 r v =>
    have hr := (cp r).cols (f := fun _ => copyRow c.k a1 r) (fun _ => ColBody.copyRow _ _ _) hl
    have e1 : (copyRow c.k a1 r (h.push (c.col l) r)).T = h.T := ((ColBody.copyRow c.k a1 r).frame _).T
    have e3 := hr.T.trans e1
    have ek : (c.col l).k = c.k := rfl
    simp only [hovStep, hosStep, pT, qT, hT, ek]
    by_cases h1 : h.T a ≥ 0
    · simp only [h1, if_true, e1, e3]
      exact (hr.dec rfl 2).set r (congrFun (e3.trans e1.symm) a1)
    · simp only [h1, if_false, pT, qT, hT]
      exact cp r
  case setRef r v => exact (cp r).set r rfl
  case vecCopy a n r =>
    refine HCol.loop (fun q s h cl => ?_) cl
    exact ((cl.push _).set _ (by rw [(cl.push (c := c) _).T])).cols (f := fun _ => copyRow c.k (a + q) (r + q)) (fun _ => ColBody.copyRow _ _ _) hl
  case vecDot a b n r =>
    refine HCol.loop (fun q s h cl => ?_) (((cp r).set r rfl).cols (f := fun _ => fillRow c.k r 0) (fun _ => ColBody.fillRow _ _ _) hl)
    have h1 := cl.colsDown (f := fun _ => prodBody c.k (a + q) (b + q) r fun i s =>
        s.D r i + (s.T (a + q) * s.D (b + q) i + s.D (a + q) i * s.T (b + q)))
      (fun _ => ColBody.prod fun i h h' e => by rw [e.D, e.T]) hl
    exact h1.set r (by rw [h1.T]; rfl)
  case vecAxpy a a1 a2 n r =>
    refine HCol.loop (fun q s h cl => ?_) cl
    have h1 := (cl.push (c := c) (r + q)).colsDown (f := fun _ => prodBody c.k a (a1 + q) (r + q) fun i s =>
        s.T a * s.D (a1 + q) i + s.D a i * s.T (a1 + q) + s.D (a2 + q) i)
      (fun _ => ColBody.prod fun i h h' e => by rw [e.D, e.T]) hl
    exact h1.set _ (by rw [h1.T]; rfl)
  case takeStock r vs =>
    simp only [hovStep, hosStep, ExRel]
    clear ho cp qT pT hT
    induction vs generalizing s h r with
    | nil => exact cl
    | cons v vs ih =>
      exact ih ((cl.set r rfl).cols (f := fun _ => fillRow c.k r 0) (fun _ => ColBody.fillRow _ _ _) hl) (r + 1)
  case deathNot a b => exact HCol.loop (fun q s h cl => cl.push _) cl

/-- `P` holds of every executed operation and the values before it. -/
def AlongV (P : Base K → (Nat → K) → Prop) (c : HVCfg K) : List (Base K) → HVS K → Prop
  | [], _ => True
  | o :: os, s => P o s.T ∧ ∀ s', hovStep c o s = .ok s' → AlongV P c os s'

theorem hov_run {ops : List (Base K)} (hl : l < c.p) (ho : AlongV Base.colOk c ops s) (cl : HCol c.keep l s h) :
    ExRel (HCol c.keep l) (hovRun c ops s) (hosRun (c.col l) ops h) := by
  induction ops generalizing s h with
  | nil => exact cl
  | cons o os ih =>
    have h1 := hov_step hl ho.1 cl
    simp only [hovRun, hosRun]
    cases e1 : hovStep c o s with
    | error e =>
      rw [e1] at h1
      cases e2 : hosStep (c.col l) o h with
      | error e' => rw [e2] at h1; exact h1
      | ok h' => rw [e2] at h1; exact h1.elim
    | ok s' =>
      rw [e1] at h1
      cases e2 : hosStep (c.col l) o h with
      | error e' => rw [e2] at h1; exact h1.elim
      | ok h' => rw [e2] at h1; exact ih (ho.2 s' e1) h1

theorem HCol.start (T0 : Nat → K) : HCol keep l (HVS.start T0) (HS.start T0) :=
  ⟨rfl, fun _ _ => rfl, rfl, rfl, rfl, le_refl _⟩

end Verif.AD
