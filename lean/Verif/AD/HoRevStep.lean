import Verif.AD.HoRevJet

/-! One operation of `hos_reverse` computes the coefficients of the first-order reverse step. -/
set_option linter.all false
namespace Verif.AD
open Elem Filter Topology ContDiff Finset

variable {d : Nat} {S : ℝ → RS ℝ} {H : HRS ℝ} {g p : ℝ → ℝ} {w v : Nat → ℝ} {M' : Row → Nat → ℝ} {fl' : Nat → ℝ}

theorem JetR.adj (h : JetR d S H) {A' : ℝ → Nat → ℝ} (hJ : JM d (fun t => (S t).T) A' M') (hfl : FlagOk d fl' M') :
    JetR d (fun t => { S t with A := A' t }) { H with M := M', fl := fl' } :=
  ⟨hJ, hfl, h.ii, h.di, h.stk, h.bar⟩

theorem JetR.zr (h : JetR d S H) {r : Nat} (hr : H.fl r = 0) : ZJ d (fun t => (S t).A r) :=
  (h.J.A r).toZ ((h.fl r).2 hr)

/-- `*Ares = 0` when the flag is already zero. -/
theorem JetR.set0 (h : JetR d S H) {r : Nat} (hr : H.fl r = 0) : JetR d (fun t => (S t).setA r 0) H :=
  h.adj (h.J.keepA (ZJ.row Jet.zero' ((h.fl r).2 hr))) h.fl

/-- `*Aarg += g` with `g` zero to order `d`. -/
theorem JetR.addZ (h : JetR d S H) {a : Nat} (hz : ZJ d g) : JetR d (fun t => (S t).addA a (g t)) H :=
  h.adj (h.J.keepA ((h.J.A a).addZ hz)) h.fl

theorem JetR.pop (h : JetR d S H) (r : Nat) (hne : (S 0).stk ≠ []) :
    ∃ S1 H1, (∀ t, (S t).pop r = .ok (S1 t)) ∧ H.pop (d + 1) r = .ok H1 ∧ JetR d S1 H1 ∧
      (∀ t, (S1 t).A = (S t).A) ∧ (∀ t, (S1 t).ii = (S t).ii) ∧ H1.fl = H.fl ∧ H1.ii = H.ii ∧
      (∀ t l, l ≠ r → (S1 t).T l = (S t).T l) ∧
      (∃ st, (S 0).stk = (S1 0).T r :: st ∧ (S1 0).stk = st) ∧ (∀ l, l ≠ r → H1.M (.T l) = H.M (.T l)) ∧
      (∀ c, c ≠ .T r → H1.M c = H.M c) := by
  obtain ⟨f, fs, x, st, h1, h2, h3, h4⟩ := h.top hne
  refine ⟨fun t => { S t with T := upd (S t).T r (f t), stk := fs.map fun f => f t },
    { H with M := ovR H.M (.T r) (d + 1) x, stk := st }, ?_, ?_, ?_, fun t => rfl, fun t => rfl, rfl, rfl, ?_, ?_, ?_, ?_⟩
  · intro t; simp only [RS.pop, h1]
  · simp only [HRS.pop, h2, setRowR_eq]
  · exact ⟨h.J.setT h3, h.fl.rows (fun l => ovR_ne (M := H.M) (k := d + 1) (w := x) (r := .A l) (c := .T r) (by simp)), h.ii, h.di, ⟨fs, fun t => rfl, h4⟩, h.bar⟩
  · intro t l hl; exact upd_ne _ _ hl
  · exact ⟨_, by simp [h1], rfl⟩
  · intro l hl; exact ovR_ne (by simp [hl])
  · intro c hc; exact ovR_ne hc

/-! ### Unary operations -/

theorem JetR.un0 (h : JetR d S H) {a r : Nat} (hr : H.fl r = 0) (hp : ContDiffAt ℝ ∞ p 0) :
    JetR d (fun t => (S t).un a r (p t)) H :=
  (h.set0 hr).addZ ((h.zr hr).mul hp)

theorem JetR.tmpM (h : JetR d S H) {c : Row} {k : Nat} (hT : ∀ l, Row.T l ≠ c) (hA : ∀ l, Row.A l ≠ c) :
    JetR d S { H with M := ovR H.M c k w } :=
  ⟨h.J.tmp hT hA, h.fl.rows fun l => ovR_ne (hA l), h.ii, h.di, h.stk, h.bar⟩

theorem JetR.un1 (h : JetR d S H) {a r : Nat} {b : Row} {x : ℝ} (hr : H.fl r ≠ 0) (hx : 0 < x)
    (hp : Jet d p (H.M b)) (hb : Row.A r ≠ b) :
    JetR d (fun t => (S t).un a r (p t)) { H with fl := H.flUn a r x, M := inconv0R (d + 1) (.A r) b (.A a) H.M } := by
  rw [inconv0R_eq _ _ _ _ hb]
  have J1 := h.J.setA (r := r) Jet.zero'
  exact h.adj (J1.setA ((J1.A a).add ((h.J.A r).cv hp))) (((h.fl.zero r).max a _).add hx _ _)

theorem JetR.un1' (h : JetR d S H) {a r : Nat} {b : Row} {x : ℝ} (hr : H.fl r ≠ 0) (hx : 0 < x)
    (hp : Jet d p (H.M b)) (hb : Row.A r ≠ b) :
    JetR d (fun t => ((S t).setA r 0).addA a (- ((S t).A r * p t)))
      { H with fl := H.flUn a r x, M := deconv0R (d + 1) (.A r) b (.A a) H.M } := by
  rw [deconv0R_eq _ _ _ _ hb]
  have J1 := h.J.setA (r := r) Jet.zero'
  exact h.adj (J1.setA (((J1.A a).sub ((h.J.A r).cv hp)).fn fun t => (sub_eq_add_neg _ _).symm)) (((h.fl.zero r).max a _).add hx _ _)

/-! ### Linear operations -/

theorem JetR.lin0 (h : JetR d S H) {a r : Nat} (hr : H.fl r = 0) (hp : ZJ d p) :
    JetR d (fun t => ((S t).setA r 0).addA a (p t)) H := (h.set0 hr).addZ hp

theorem JetR.lin1 (h : JetR d S H) {a r : Nat} {f : ℝ → ℝ → ℝ} (hr : H.fl r ≠ 0)
    (hp : ∀ {x : ℝ → ℝ} {y}, Jet d x y → Jet d (fun t => x t + p t) fun i => f (y i) (H.M (.A r) i)) :
    JetR d (fun t => ((S t).setA r 0).addA a (p t))
      { H with fl := H.flLin a r, M := spreadR (d + 1) (.A a) (.A r) f H.M } := by
  rw [spreadR_eq]
  have J1 := h.J.setA (r := r) Jet.zero'
  exact h.adj (J1.setA (hp (J1.A a))) ((h.fl.zero r).add (h.fl.gt hr) _ _)

theorem JetR.lin2 (h : JetR d S H) {a b r : Nat} {f g : ℝ → ℝ → ℝ} {p q : ℝ → ℝ} (hr : H.fl r ≠ 0)
    (hp : ∀ {x : ℝ → ℝ} {y}, Jet d x y → Jet d (fun t => x t + p t) fun i => f (y i) (H.M (.A r) i))
    (hq : ∀ {x : ℝ → ℝ} {y}, Jet d x y → Jet d (fun t => x t + q t) fun i => g (y i) (H.M (.A r) i)) :
    JetR d (fun t => (((S t).setA r 0).addA a (p t)).addA b (q t))
      { H with fl := H.flLin2 a b r, M := spread2R (d + 1) (.A a) (.A b) (.A r) f g H.M } := by
  rw [spread2R_eq]
  have J1 := h.J.setA (r := r) Jet.zero'
  have J2 := J1.setA (r := a) (hp (J1.A a))
  exact h.adj (J2.setA (hq (J2.A b))) (((h.fl.zero r).add (h.fl.gt hr) _ _).add (h.fl.gt hr) _ _)

/-- `*Aarg += *Ares; *Ares = 0` -/
theorem JetR.mv (h : JetR d S H) {a r : Nat} :
    JetR d (fun t => ((S t).addA a ((S t).A r)).setA r 0) (H.move (d + 1) a r) := by
  unfold HRS.move
  by_cases hr : H.fl r = 0
  · rw [if_pos hr]
    exact (h.addZ (h.zr hr)).set0 hr
  · rw [if_neg hr, moveR_eq]
    have J1 := h.J.setA (r := a) ((h.J.A a).add (h.J.A r))
    refine h.adj (J1.setA (r := r) Jet.zero') ?_
    exact FlagOk.zero (h.fl.add (h.fl.gt hr) _ _) r

/-- `*Aarg += ± *Ares` -/
theorem JetR.acc (h : JetR d S H) {a r : Nat} {f : ℝ → ℝ → ℝ}
    (hp : ∀ {x : ℝ → ℝ} {y}, Jet d x y → Jet d (fun t => x t + p t) fun i => f (y i) (H.M (.A r) i)) (hz : H.fl r = 0 → ZJ d p) :
    JetR d (fun t => (S t).addA a (p t)) (if H.fl r = 0 then H
      else { H with fl := maxdec H.fl a (H.fl r), M := accR' (d + 1) (.A a) (.A r) f H.M }) := by
  by_cases hr : H.fl r = 0
  · rw [if_pos hr]; exact h.addZ (hz hr)
  · rw [if_neg hr, accR'_eq]
    exact h.adj (h.J.setA (hp (h.J.A a))) (h.fl.add (h.fl.gt hr) _ _)

/-- `*Ares++ = 0` including the flag. -/
theorem JetR.zero (h : JetR d S H) (r : Nat) : JetR d (fun t => (S t).setA r 0) (H.zero (d + 1) r) := by
  unfold HRS.zero
  rw [setRowR_eq]
  exact h.adj (h.J.setA Jet.zero') (h.fl.zero r)

theorem JetR.zeros (h : JetR d S H) (J : List Nat) (f : Nat → Nat) :
    JetR d (fun t => J.foldl (fun s q => s.setA (f q) 0) (S t)) (J.foldl (fun s q => s.zero (d + 1) (f q)) H) := by
  induction J generalizing S H with
  | nil => exact h
  | cons q J ih => exact ih (h.zero (f q))

theorem JetR.pops (h : JetR d S H) (J : List Nat) (f : Nat → Nat) {r : RS ℝ}
    (hr : J.foldlM (fun s q => s.pop (f q)) (S 0) = .ok r) :
    ∃ S' H', (∀ t, J.foldlM (fun s q => s.pop (f q)) (S t) = .ok (S' t)) ∧
      J.foldlM (fun s q => s.pop (d + 1) (f q)) H = .ok H' ∧ JetR d S' H' := by
  induction J generalizing S H with
  | nil => exact ⟨S, H, fun t => rfl, rfl, h⟩
  | cons q J ih =>
    simp only [List.foldlM_cons] at hr ⊢
    have hne : (S 0).stk ≠ [] := by
      intro e
      rw [show (S 0).pop (f q) = .error .stackEmpty by simp only [RS.pop, e]] at hr
      cases hr
    obtain ⟨S1, H1, e1, e2, e3, _⟩ := h.pop (f q) hne
    rw [e1] at hr
    obtain ⟨S2, H2, k1, k2, k3⟩ := ih e3 hr
    exact ⟨S2, H2, fun t => by rw [e1]; exact k1 t, by rw [e2]; exact k2, k3⟩

theorem Jet.addp {q : ℝ → ℝ} (hq : Jet d q w) {x : ℝ → ℝ} {y : Nat → ℝ} (hx : Jet d x y) :
    Jet d (fun t => x t + q t) fun i => y i + w i := hx.add hq
theorem Jet.addm {q : ℝ → ℝ} (hq : Jet d q w) {x : ℝ → ℝ} {y : Nat → ℝ} (hx : Jet d x y) :
    Jet d (fun t => x t + - q t) fun i => y i - w i := (hx.sub hq).fn fun t => (sub_eq_add_neg _ _).symm

theorem ZJ.smul (h : ZJ d p) (c : ℝ) : ZJ d (fun t => c * p t) :=
  (ZJ.mul h (g := fun _ => c) contDiffAt_const).fn fun t => mul_comm _ _

theorem JetR.fnS {S' : ℝ → RS ℝ} (h : JetR d S H) (e : ∀ t, S' t = S t) : JetR d S' H := by
  have : S' = S := funext e
  rw [this]; exact h

theorem JetR.setT (h : JetR d S H) {r : Nat} (hg : Jet d g w) :
    JetR d (fun t => { S t with T := upd (S t).T r (g t) }) { H with M := ovR H.M (.T r) (d + 1) w } :=
  ⟨h.J.setT hg, h.fl.rows fun l => ovR_ne (M := H.M) (k := d + 1) (w := w) (r := .A l) (c := .T r) (by simp), h.ii, h.di, h.stk, h.bar⟩

theorem FlagOk.updpos {fl : Nat → ℝ} {M : Row → Nat → ℝ} (h : FlagOk d fl M) {r : Nat} {x : ℝ} (hx : 0 < x) : FlagOk d (upd fl r x) M := by
  intro l
  by_cases hl : l = r
  · subst hl; rw [upd_same]; exact ⟨hx.le, fun e => absurd e hx.ne'⟩
  · rw [upd_ne _ _ hl]; exact h l

theorem comp_pos (x : ℝ) : 0 < (if x > 2 then x else 2) := by split_ifs <;> linarith

theorem upd_comm {K : Type} (T : Nat → K) {a b : Nat} (h : a ≠ b) (x y : K) : upd (upd T a x) b y = upd (upd T b y) a x := by
  funext l
  simp only [upd_apply]
  split_ifs <;> simp_all

theorem JetR.div (h : JetR d S H) {a b r : Nat} {c : Row} {q : ℝ → ℝ} (hq : Jet d q (H.M c)) (hc1 : c ≠ .tt) (h0 : (S 0).T b ≠ 0) :
    JetR d (fun t => (((S t).setA r 0).addA a ((S t).A r * (1 / (S t).T b))).addA b ((S t).A r * (- q t * (1 / (S t).T b))))
      (if H.fl r = 0 then H else
        { H with
          fl := maxdec (maxdec (maxdec (maxdec (upd H.fl r 0) a 3) a (H.fl r)) b 3) b (H.fl r)
          M := deconvR (d + 1) .at1 .at2 (.A b) (inconvR (d + 1) .at1 .tt (.A a) (cpzR (d + 1) (.A r) .at1
            (convR (d + 1) .tt c .at2 (reciprR (d + 1) 1 (.T b) .tt H.M)))) }) := by
  have jp : Jet d (fun t => 1 / (S t).T b) (tc fun t => 1 / (S t).T b) := Jet.of (smooth_div contDiffAt_const (h.J.T b).smooth h0)
  by_cases hz : H.fl r = 0
  · rw [if_pos hz]
    exact (h.lin0 hz ((h.zr hz).mul jp.smooth)).addZ ((h.zr hz).mul (hq.smooth.neg.mul jp.smooth))
  · rw [if_neg hz, reciprR_jet 1 (h.J.T b) h0 (by simp)]
    have k1 := h.tmpM (c := .tt) (k := d + 1) (w := tc fun t => 1 / (S t).T b) (by simp) (by simp)
    have t1 : Jet d (fun t => 1 / (S t).T b) (ovR H.M .tt (d + 1) (tc fun t => 1 / (S t).T b) .tt) := jp.ov
    have q1 : Jet d q (ovR H.M .tt (d + 1) (tc fun t => 1 / (S t).T b) c) := by rw [ovR_ne hc1]; exact hq
    have fl1 := k1.fl
    have J1 := k1.J
    clear k1
    simp only at fl1 J1
    generalize ovR H.M .tt (d + 1) (tc fun t => 1 / (S t).T b) = M1 at *
    rw [convR_eq]
    have J2 := J1.tmp (c := .at2) (k := d + 1) (w := fun i => cv (M1 .tt) (M1 c) i) (by simp) (by simp)
    have t2 : Jet d (fun t => 1 / (S t).T b) (ovR M1 .at2 (d + 1) (fun i => cv (M1 .tt) (M1 c) i) .tt) := by rw [ovR_ne (by simp)]; exact t1
    have s2 : Jet d (fun t => 1 / (S t).T b * q t) (ovR M1 .at2 (d + 1) (fun i => cv (M1 .tt) (M1 c) i) .at2) := (t1.cv q1).ov
    have fl2 : FlagOk d H.fl (ovR M1 .at2 (d + 1) (fun i => cv (M1 .tt) (M1 c) i)) := fl1.rows fun l => ovR_ne (by simp)
    clear fl1 t1 q1 J1
    generalize ovR M1 .at2 (d + 1) (fun i => cv (M1 .tt) (M1 c) i) = M2 at *
    rw [cpzR_eq]
    have J3 := J2.tmp (c := .at1) (k := d + 1) (w := M2 (.A r)) (by simp) (by simp)
    have t3 : Jet d (fun t => 1 / (S t).T b) (ovR M2 .at1 (d + 1) (M2 (.A r)) .tt) := by rw [ovR_ne (by simp)]; exact t2
    have s3 : Jet d (fun t => 1 / (S t).T b * q t) (ovR M2 .at1 (d + 1) (M2 (.A r)) .at2) := by rw [ovR_ne (by simp)]; exact s2
    have u3 : Jet d (fun t => (S t).A r) (ovR M2 .at1 (d + 1) (M2 (.A r)) .at1) := (J2.A r).ov
    have fl3 : FlagOk d H.fl (ovR M2 .at1 (d + 1) (M2 (.A r))) := fl2.rows fun l => ovR_ne (by simp)
    clear fl2 t2 s2 J2
    generalize ovR M2 .at1 (d + 1) (M2 (.A r)) = M3 at *
    have J4 := J3.setA (r := r) Jet.zero'
    have t4 : Jet d (fun t => 1 / (S t).T b) (ovR M3 (.A r) (d + 1) (fun _ => 0) .tt) := by rw [ovR_ne (by simp)]; exact t3
    have s4 : Jet d (fun t => 1 / (S t).T b * q t) (ovR M3 (.A r) (d + 1) (fun _ => 0) .at2) := by rw [ovR_ne (by simp)]; exact s3
    have u4 : Jet d (fun t => (S t).A r) (ovR M3 (.A r) (d + 1) (fun _ => 0) .at1) := by rw [ovR_ne (by simp)]; exact u3
    have fl4 := fl3.zero r
    clear fl3 t3 s3 u3 J3
    generalize ovR M3 (.A r) (d + 1) (fun _ => 0) = M4 at *
    rw [inconvR_eq, deconvR_eq]
    have J5 := J4.setA (r := a) ((J4.A a).add (u4.cv t4))
    have s5 : Jet d (fun t => 1 / (S t).T b * q t) (ovR M4 (.A a) (d + 1) (fun i => M4 (.A a) i + cv (M4 .at1) (M4 .tt) i) .at2) := by
      rw [ovR_ne (by simp)]; exact s4
    have u5 : Jet d (fun t => (S t).A r) (ovR M4 (.A a) (d + 1) (fun i => M4 (.A a) i + cv (M4 .at1) (M4 .tt) i) .at1) := by
      rw [ovR_ne (by simp)]; exact u4
    have J6 := J5.setA (r := b) (g := fun t => upd (upd (S t).A r 0) a (upd (S t).A r 0 a + (S t).A r * (1 / (S t).T b)) b + (S t).A r * (- q t * (1 / (S t).T b)))
      (((u5.cv s5).addm (J5.A b)).fn fun t => by ring)
    refine h.adj J6 ?_
    have f1 := (((fl4.max a 3).max a (H.fl r)).max b 3).max b (H.fl r)
    have p3 : (0:ℝ) < 3 := by norm_num
    refine (f1.pos ?_ _ _).pos ?_ _ _
    · exact lt_of_lt_of_le p3 (le_trans (le_trans (le_trans le_maxdec (maxdec_le a)) (maxdec_le a)) (maxdec_le a))
    · exact lt_of_lt_of_le p3 (le_trans le_maxdec (maxdec_le b))

theorem JetR.divD (h : JetR d S H) {a r : Nat} {c : Row} {q : ℝ → ℝ} (hq : Jet d q (H.M c)) (hc1 : c ≠ .tt) (h0 : (S 0).T a ≠ 0) :
    JetR d (fun t => (S t).un a r (- q t / (S t).T a))
      (if H.fl r = 0 then H else
        { H with
          fl := H.flUn a r 3
          M := deconv0R (d + 1) (.A r) .at1 (.A a) (convR (d + 1) .tt c .at1 (reciprR (d + 1) 1 (.T a) .tt H.M)) }) := by
  have jp : Jet d (fun t => 1 / (S t).T a) (tc fun t => 1 / (S t).T a) := Jet.of (smooth_div contDiffAt_const (h.J.T a).smooth h0)
  by_cases hz : H.fl r = 0
  · rw [if_pos hz]
    exact h.un0 hz (smooth_div hq.smooth.neg (h.J.T a).smooth h0)
  · rw [if_neg hz, reciprR_jet 1 (h.J.T a) h0 (by simp), convR_eq]
    have k1 := h.tmpM (c := .tt) (k := d + 1) (w := tc fun t => 1 / (S t).T a) (by simp) (by simp)
    have t1 : Jet d (fun t => 1 / (S t).T a) (ovR H.M .tt (d + 1) (tc fun t => 1 / (S t).T a) .tt) := jp.ov
    have q1 : Jet d q (ovR H.M .tt (d + 1) (tc fun t => 1 / (S t).T a) c) := by rw [ovR_ne hc1]; exact hq
    have k2 := k1.tmpM (c := .at1) (k := d + 1) (w := cv (ovR H.M .tt (d + 1) (tc fun t => 1 / (S t).T a) .tt) (ovR H.M .tt (d + 1) (tc fun t => 1 / (S t).T a) c)) (by simp) (by simp)
    have := k2.un1' (a := a) (r := r) (b := .at1) (x := 3) hz (by norm_num) (t1.cv q1).ov (by simp)
    refine this.fnS fun t => ?_
    simp only [RS.un]
    congr 1
    ring

theorem JetR.pw (h : JetR d S H) {a r : Nat} {c : Row} {q : ℝ → ℝ} (v : ℝ) (hq : Jet d q (H.M c)) (hc1 : c ≠ .tt) (h0 : (S 0).T a ≠ 0) :
    JetR d (fun t => (S t).un a r (q t * (v / (S t).T a)))
      (if H.fl r = 0 then H else
        { H with
          fl := H.flUn a r 4
          M := inconv0R (d + 1) (.A r) .tt (.A a) (mapR (d + 1) .tt (fun x => x * v) (divideR (d + 1) c (.T a) .tt H.M)) }) := by
  by_cases hz : H.fl r = 0
  · rw [if_pos hz]
    exact h.un0 hz (hq.smooth.mul (smooth_div contDiffAt_const (h.J.T a).smooth h0))
  · have jp : Jet d (fun t => q t / (S t).T a) (tc fun t => q t / (S t).T a) := Jet.of (smooth_div hq.smooth (h.J.T a).smooth h0)
    rw [if_neg hz, divideR_jet hq (h.J.T a) h0 (by simp) hc1, mapR_eq]
    have k1 := h.tmpM (c := .tt) (k := d + 1) (w := tc fun t => q t / (S t).T a) (by simp) (by simp)
    have t1 : Jet d (fun t => q t / (S t).T a) (ovR H.M .tt (d + 1) (tc fun t => q t / (S t).T a) .tt) := jp.ov
    have k2 := k1.tmpM (c := .tt) (k := d + 1) (w := fun i => ovR H.M .tt (d + 1) (tc fun t => q t / (S t).T a) .tt i * v) (by simp) (by simp)
    have := k2.un1 (a := a) (r := r) (b := .tt) (x := 4) (p := fun t => q t * (v / (S t).T a)) hz (by norm_num)
      ((t1.mulConst v).fn fun t => by ring).ov (by simp)
    exact this

theorem hrev_step {u : ℝ → Nat → ℝ} {L : Nat → Nat → ℝ} (hL : ∀ j, Jet d (fun t => u t j) (L j)) {c : Cfg ℝ} {o : Base ℝ} {z z' : ZS ℝ}
    (h : JetR d S H) (hs : smoothS .hor o z.T) (hz : zosStep c o z = .ok z') (hT : (S 0).T = z'.T) {r0 : RS ℝ}
    (hr : revStep (u 0) o (S 0) = .ok r0) (hr0 : r0.T = z.T) :
    ∃ S' H', (∀ᶠ t in 𝓝 0, revStep (u t) o (S t) = .ok (S' t)) ∧ hosRevStep (d + 1) L o H = .ok H' ∧ JetR d S' H' := by
  cases o
  case cmp => exact ⟨S, H, .of_forall fun t => rfl, rfl, h⟩
  case assignA a r =>
    obtain ⟨S1, H1, e1, e2, e3, _⟩ := (h.mv (a := a) (r := r)).pop r (by intro e; simp [revStep, RS.pop, RS.setA, RS.addA, RS.un, show (S 0).stk = [] from e] at hr)
    exact ⟨S1, H1, .of_forall e1, e2, e3⟩
  case assignD r _ =>
    obtain ⟨S1, H1, e1, e2, e3, _⟩ := (h.zero r).pop r (by intro e; simp [revStep, RS.pop, RS.setA, RS.addA, RS.un, show (S 0).stk = [] from e] at hr)
    exact ⟨S1, H1, .of_forall e1, e2, e3⟩
  case assignP _ r =>
    obtain ⟨S1, H1, e1, e2, e3, _⟩ := (h.zero r).pop r (by intro e; simp [revStep, RS.pop, RS.setA, RS.addA, RS.un, show (S 0).stk = [] from e] at hr)
    exact ⟨S1, H1, .of_forall e1, e2, e3⟩
  case assignD0 r =>
    obtain ⟨S1, H1, e1, e2, e3, _⟩ := (h.zero r).pop r (by intro e; simp [revStep, RS.pop, RS.setA, RS.addA, RS.un, show (S 0).stk = [] from e] at hr)
    exact ⟨S1, H1, .of_forall e1, e2, e3⟩
  case assignD1 r =>
    obtain ⟨S1, H1, e1, e2, e3, _⟩ := (h.zero r).pop r (by intro e; simp [revStep, RS.pop, RS.setA, RS.addA, RS.un, show (S 0).stk = [] from e] at hr)
    exact ⟨S1, H1, .of_forall e1, e2, e3⟩
  case eqPlusD r _ =>
    obtain ⟨S1, H1, e1, e2, e3, _⟩ := h.pop r (by intro e; simp [revStep, RS.pop, RS.setA, RS.addA, RS.un, show (S 0).stk = [] from e] at hr)
    exact ⟨S1, H1, .of_forall e1, e2, e3⟩
  case eqMinD r _ =>
    obtain ⟨S1, H1, e1, e2, e3, _⟩ := h.pop r (by intro e; simp [revStep, RS.pop, RS.setA, RS.addA, RS.un, show (S 0).stk = [] from e] at hr)
    exact ⟨S1, H1, .of_forall e1, e2, e3⟩
  case incrA r =>
    obtain ⟨S1, H1, e1, e2, e3, _⟩ := h.pop r (by intro e; simp [revStep, RS.pop, RS.setA, RS.addA, RS.un, show (S 0).stk = [] from e] at hr)
    exact ⟨S1, H1, .of_forall e1, e2, e3⟩
  case decrA r =>
    obtain ⟨S1, H1, e1, e2, e3, _⟩ := h.pop r (by intro e; simp [revStep, RS.pop, RS.setA, RS.addA, RS.un, show (S 0).stk = [] from e] at hr)
    exact ⟨S1, H1, .of_forall e1, e2, e3⟩
  case eqPlusA a r =>
    obtain ⟨S1, H1, e1, e2, e3, _⟩ := (h.acc (a := a) (r := r) (h.J.A r).addp (fun hz => h.zr hz)).pop r (by intro e; simp [revStep, RS.pop, RS.setA, RS.addA, RS.un, show (S 0).stk = [] from e] at hr)
    exact ⟨S1, H1, .of_forall e1, e2, e3⟩
  case eqMinA a r =>
    obtain ⟨S1, H1, e1, e2, e3, _⟩ := (h.acc (a := a) (r := r) (h.J.A r).addm (fun hz => (h.zr hz).neg)).pop r (by intro e; simp [revStep, RS.pop, RS.setA, RS.addA, RS.un, show (S 0).stk = [] from e] at hr)
    exact ⟨S1, H1, .of_forall e1, e2, e3⟩
  case eqMultD r k =>
    have key : JetR d (fun t => (S t).setA r ((S t).A r * k))
        (if H.fl r = 0 then H else { H with M := mapR (d + 1) (.A r) (fun x => x * k) H.M }) := by
      by_cases hz : H.fl r = 0
      · rw [if_pos hz]
        exact h.adj (h.J.keepA (ZJ.row ((h.zr hz).mul contDiffAt_const) ((h.fl r).2 hz))) h.fl
      · rw [if_neg hz, mapR_eq]
        exact h.adj (h.J.setA ((h.J.A r).mulConst k)) (h.fl.pos (h.fl.gt hz) _ _)
    obtain ⟨S1, H1, e1, e2, e3, _⟩ := key.pop r (by intro e; simp [revStep, RS.pop, RS.setA, RS.addA, RS.un, show (S 0).stk = [] from e] at hr)
    exact ⟨S1, H1, .of_forall e1, e2, e3⟩
  case plusAA a b r =>
    have key : JetR d (fun t => (((S t).setA r 0).addA a ((S t).A r)).addA b ((S t).A r))
        (if H.fl r = 0 then H else { H with fl := H.flLin2 a b r, M := spread2R (d + 1) (.A a) (.A b) (.A r) (fun x t => x + t) (fun x t => x + t) H.M }) := by
      by_cases hz : H.fl r = 0
      · rw [if_pos hz]; exact (h.lin0 hz (h.zr hz)).addZ (h.zr hz)
      · rw [if_neg hz]; exact h.lin2 hz (h.J.A r).addp (h.J.A r).addp
    obtain ⟨S1, H1, e1, e2, e3, _⟩ := key.pop r (by intro e; simp [revStep, RS.pop, RS.setA, RS.addA, RS.un, show (S 0).stk = [] from e] at hr)
    exact ⟨S1, H1, .of_forall e1, e2, e3⟩
  case minAA a b r =>
    have key : JetR d (fun t => (((S t).setA r 0).addA a ((S t).A r)).addA b (- (S t).A r))
        (if H.fl r = 0 then H else { H with fl := H.flLin2 a b r, M := spread2R (d + 1) (.A a) (.A b) (.A r) (fun x t => x + t) (fun x t => x - t) H.M }) := by
      by_cases hz : H.fl r = 0
      · rw [if_pos hz]; exact (h.lin0 hz (h.zr hz)).addZ (h.zr hz).neg
      · rw [if_neg hz]; exact h.lin2 hz (h.J.A r).addp (h.J.A r).addm
    obtain ⟨S1, H1, e1, e2, e3, _⟩ := key.pop r (by intro e; simp [revStep, RS.pop, RS.setA, RS.addA, RS.un, show (S 0).stk = [] from e] at hr)
    exact ⟨S1, H1, .of_forall e1, e2, e3⟩
  case plusDA a r _ =>
    have key : JetR d (fun t => ((S t).setA r 0).addA a ((S t).A r))
        (if H.fl r = 0 then H else { H with fl := H.flLin a r, M := spreadR (d + 1) (.A a) (.A r) (fun x t => x + t) H.M }) := by
      by_cases hz : H.fl r = 0
      · rw [if_pos hz]; exact h.lin0 hz (h.zr hz)
      · rw [if_neg hz]; exact h.lin1 hz (h.J.A r).addp
    obtain ⟨S1, H1, e1, e2, e3, _⟩ := key.pop r (by intro e; simp [revStep, RS.pop, RS.setA, RS.addA, RS.un, show (S 0).stk = [] from e] at hr)
    exact ⟨S1, H1, .of_forall e1, e2, e3⟩
  case posSign a r =>
    have key : JetR d (fun t => ((S t).setA r 0).addA a ((S t).A r))
        (if H.fl r = 0 then H else { H with fl := H.flLin a r, M := spreadR (d + 1) (.A a) (.A r) (fun x t => x + t) H.M }) := by
      by_cases hz : H.fl r = 0
      · rw [if_pos hz]; exact h.lin0 hz (h.zr hz)
      · rw [if_neg hz]; exact h.lin1 hz (h.J.A r).addp
    obtain ⟨S1, H1, e1, e2, e3, _⟩ := key.pop r (by intro e; simp [revStep, RS.pop, RS.setA, RS.addA, RS.un, show (S 0).stk = [] from e] at hr)
    exact ⟨S1, H1, .of_forall e1, e2, e3⟩
  case minDA a r _ =>
    have key : JetR d (fun t => ((S t).setA r 0).addA a (- (S t).A r))
        (if H.fl r = 0 then H else { H with fl := H.flLin a r, M := spreadR (d + 1) (.A a) (.A r) (fun x t => x - t) H.M }) := by
      by_cases hz : H.fl r = 0
      · rw [if_pos hz]; exact h.lin0 hz (h.zr hz).neg
      · rw [if_neg hz]; exact h.lin1 hz (h.J.A r).addm
    obtain ⟨S1, H1, e1, e2, e3, _⟩ := key.pop r (by intro e; simp [revStep, RS.pop, RS.setA, RS.addA, RS.un, show (S 0).stk = [] from e] at hr)
    exact ⟨S1, H1, .of_forall e1, e2, e3⟩
  case negSign a r =>
    have key : JetR d (fun t => ((S t).setA r 0).addA a (- (S t).A r))
        (if H.fl r = 0 then H else { H with fl := H.flLin a r, M := spreadR (d + 1) (.A a) (.A r) (fun x t => x - t) H.M }) := by
      by_cases hz : H.fl r = 0
      · rw [if_pos hz]; exact h.lin0 hz (h.zr hz).neg
      · rw [if_neg hz]; exact h.lin1 hz (h.J.A r).addm
    obtain ⟨S1, H1, e1, e2, e3, _⟩ := key.pop r (by intro e; simp [revStep, RS.pop, RS.setA, RS.addA, RS.un, show (S 0).stk = [] from e] at hr)
    exact ⟨S1, H1, .of_forall e1, e2, e3⟩
  case multDA a r k =>
    have key : JetR d (fun t => ((S t).setA r 0).addA a (k * (S t).A r))
        (if H.fl r = 0 then H else { H with fl := H.flLin a r, M := spreadR (d + 1) (.A a) (.A r) (fun x t => x + k * t) H.M }) := by
      by_cases hz : H.fl r = 0
      · rw [if_pos hz]; exact h.lin0 hz ((h.zr hz).smul k)
      · rw [if_neg hz]
        have : Jet d (fun t => k * (S t).A r) (fun i => k * H.M (.A r) i) :=
          (((h.J.A r).mulConst k).fn fun t => mul_comm _ _).coefs fun n _ => mul_comm _ _
        exact h.lin1 hz this.addp
    obtain ⟨S1, H1, e1, e2, e3, _⟩ := key.pop r (by intro e; simp [revStep, RS.pop, RS.setA, RS.addA, RS.un, show (S 0).stk = [] from e] at hr)
    exact ⟨S1, H1, .of_forall e1, e2, e3⟩
  case expOp a r =>
    have key : JetR d (fun t => (S t).un a r ((S t).T r))
        (if H.fl r = 0 then H else { H with fl := H.flUn a r 4, M := inconv0R (d + 1) (.A r) (.T r) (.A a) H.M }) := by
      by_cases hz : H.fl r = 0
      · rw [if_pos hz]; exact h.un0 hz (h.J.T r).smooth
      · rw [if_neg hz]; exact h.un1 hz (by norm_num) (h.J.T r) (by simp)
    obtain ⟨S1, H1, e1, e2, e3, _⟩ := key.pop r (by intro e; simp [revStep, RS.pop, RS.setA, RS.addA, RS.un, show (S 0).stk = [] from e] at hr)
    exact ⟨S1, H1, .of_forall e1, e2, e3⟩
  case genQuad a b r _ _ => exact absurd hs.1 (by simp [smooth])
  case sinOp a b r =>
    have key : JetR d (fun t => (S t).un a r ((S t).T b))
        (if H.fl r = 0 then H else { H with fl := H.flUn a r 4, M := inconv0R (d + 1) (.A r) (.T b) (.A a) H.M }) := by
      by_cases hz : H.fl r = 0
      · rw [if_pos hz]; exact h.un0 hz (h.J.T b).smooth
      · rw [if_neg hz]; exact h.un1 hz (by norm_num) (h.J.T b) (by simp)
    obtain ⟨S1, H1, e1, e2, e3, _⟩ := key.pop r (by intro e; simp [revStep, RS.pop, RS.setA, RS.addA, RS.un, show (S 0).stk = [] from e] at hr)
    obtain ⟨S2, H2, f1, f2, f3, _⟩ := e3.pop b (by
      intro e
      have : revStep (u 0) (.sinOp a b r) (S 0) = (S1 0).pop b := by simp only [revStep, e1]
      rw [this] at hr
      simp [RS.pop, e] at hr)
    refine ⟨S2, H2, .of_forall fun t => ?_, ?_, f3⟩
    · simp only [revStep, e1]; exact f1 t
    · simp only [hosRevStep, e2]; exact f2
  case cosOp a b r =>
    have key : JetR d (fun t => ((S t).setA r 0).addA a (- ((S t).A r * (S t).T b)))
        (if H.fl r = 0 then H else { H with fl := H.flUn a r 4, M := deconv0R (d + 1) (.A r) (.T b) (.A a) H.M }) := by
      by_cases hz : H.fl r = 0
      · rw [if_pos hz]; exact h.lin0 hz ((h.zr hz).mul (h.J.T b).smooth).neg
      · rw [if_neg hz]; exact h.un1' hz (by norm_num) (h.J.T b) (by simp)
    obtain ⟨S1, H1, e1, e2, e3, _⟩ := key.pop r (by intro e; simp [revStep, RS.pop, RS.setA, RS.addA, RS.un, show (S 0).stk = [] from e] at hr)
    obtain ⟨S2, H2, f1, f2, f3, _⟩ := e3.pop b (by
      intro e
      have : revStep (u 0) (.cosOp a b r) (S 0) = (S1 0).pop b := by simp only [revStep, e1]
      rw [this] at hr
      simp [RS.pop, e] at hr)
    refine ⟨S2, H2, .of_forall fun t => ?_, ?_, f3⟩
    · simp only [revStep, e1]; exact f1 t
    · simp only [hosRevStep, e2]; exact f2
  case cbrtOp a r => exact absurd rfl (hs.2.2.1 a r rfl).2
  case ceilOp a r k => exact absurd rfl ((hs.2.2.2.2 rfl).2.1 a r k).1
  case floorOp a r k => exact absurd rfl ((hs.2.2.2.2 rfl).2.1 a r k).2
  case setRef r k => exact absurd rfl (hs.2.2.2.1 r k)
  case vecCopy a n r => exact absurd rfl ((hs.2.2.2.2 rfl).2.2.1 a n r)
  case vecDot a b n r => exact absurd rfl ((hs.2.2.2.2 rfl).2.2.2.1 a b n r)
  case vecAxpy a a1 a2 n r => exact absurd rfl ((hs.2.2.2.2 rfl).2.2.2.2 a a1 a2 n r)
  case takeStock r vs =>
    exact ⟨_, _, .of_forall fun t => rfl, rfl, h.zeros (List.range vs.length) fun q => r + vs.length - 1 - q⟩
  case deathNot a b =>
    have h1 := h.zeros (List.range (b + 1 - a)) fun q => a + q
    obtain ⟨S1, H1, e1, e2, e3⟩ := h1.pops (List.range (b + 1 - a)) (fun q => a + q) hr
    exact ⟨S1, H1, .of_forall e1, e2, e3⟩
  case assignInd r =>
    have h1 : JetR d (fun t => { S t with bar := upd (S t).bar ((S t).ii - 1) ((S t).A r) })
        { H with Z := fun j i => if j = H.ii - 1 ∧ i < d + 1 then H.M (.A r) i else H.Z j i } := by
      refine ⟨h.J, h.fl, h.ii, h.di, h.stk, fun j => ?_⟩
      by_cases hj : j = H.ii - 1
      · subst hj
        refine ((h.J.A r).fn fun t => ?_).coefs fun n hn => ?_
        · simp only [h.ii, upd_same]
        · simp [show n < d + 1 by omega]
      · refine ((h.bar j).fn fun t => ?_).coefs fun n hn => ?_
        · simp only [h.ii]; exact upd_ne _ _ hj
        · simp [hj]
    obtain ⟨S1, H1, e1, e2, e3, e4, e5, e6, e7, _⟩ := h1.pop r (by intro e; simp [revStep, RS.pop, show (S 0).stk = [] from e] at hr)
    refine ⟨fun t => { S1 t with ii := (S1 t).ii - 1 }, { H1 with ii := H1.ii - 1 }, .of_forall fun t => ?_, ?_,
      ⟨e3.J, e3.fl, fun t => by simp only [e3.ii], e3.di, e3.stk, e3.bar⟩⟩
    · simp only [revStep, e1]
    · simp only [hosRevStep, e2]; rfl
  case assignDep r =>
    have h1 : FlagOk d (upd H.fl r (match (List.range (d + 1)).reverse.find? (fun i => L (H.di - 1) i ≠ 0) with
        | none => 0 | some 0 => 1 | some _ => 2)) (ovR H.M (.A r) (d + 1) (L (H.di - 1))) := by
      intro l
      by_cases hl : l = r
      · subst hl
        rw [upd_same]
        split
        · rename_i hn
          refine ⟨le_refl _, fun _ i hi => ?_⟩
          rw [ovR_lt (by omega)]
          rw [List.find?_eq_none] at hn
          simpa using hn i (by simp; omega)
        · exact ⟨by norm_num, fun e => by norm_num at e⟩
        · exact ⟨by norm_num, fun e => by norm_num at e⟩
      · rw [upd_ne _ _ hl, ovR_ne (by simp [hl])]; exact h.fl l
    refine ⟨fun t => { (S t).setA r (u t ((S t).di - 1)) with di := (S t).di - 1 }, _, .of_forall fun t => rfl, rfl, ?_⟩
    rw [setRowR_eq]
    refine ⟨h.J.setA ((hL (H.di - 1)).fn fun t => by simp only [h.di]), h1, h.ii, fun t => by simp only [h.di], h.stk, h.bar⟩
  case multAA a b r =>
    obtain ⟨S1, H1, e1, e2, e3, _⟩ := h.pop r (by intro e; simp [revStep, RS.pop, show (S 0).stk = [] from e] at hr)
    have hS : ∀ t, revStep (u t) (.multAA a b r) (S t) = .ok ((((S1 t).setA r 0).addA b ((S1 t).A r * (S1 t).T a)).addA a ((S1 t).A r * (S1 t).T b)) :=
      fun t => by simp only [revStep, e1]; rfl
    by_cases hz : H1.fl r = 0
    · refine ⟨_, _, .of_forall hS, by simp only [hosRevStep, e2]; exact if_pos hz, ?_⟩
      exact (e3.lin0 hz ((e3.zr hz).mul (e3.J.T a).smooth)).addZ ((e3.zr hz).mul (e3.J.T b).smooth)
    · refine ⟨_, _, .of_forall hS, by simp only [hosRevStep, e2]; exact if_neg hz, ?_⟩
      simp only [cpzR_eq, inconvR_eq]
      have hx := comp_pos (H1.fl r)
      have J1 := (e3.J.tmp (c := .at1) (k := d + 1) (w := H1.M (.A r)) (by simp) (by simp)).setA (r := r) Jet.zero'
      have j1 : Jet d (fun t => (S1 t).A r) (ovR (ovR H1.M .at1 (d + 1) (H1.M (.A r))) (.A r) (d + 1) (fun _ => 0) .at1) := by
        rw [ovR_ne (by simp)]; exact (e3.J.A r).ov
      have J2 := J1.setA (r := b) ((J1.A b).add (j1.cv (J1.T a)))
      have j2 : Jet d (fun t => (S1 t).A r) (ovR (ovR (ovR H1.M .at1 (d + 1) (H1.M (.A r))) (.A r) (d + 1) (fun _ => 0)) (.A b) (d + 1)
          (fun i => ovR (ovR H1.M .at1 (d + 1) (H1.M (.A r))) (.A r) (d + 1) (fun _ => 0) (.A b) i +
            cv (ovR (ovR H1.M .at1 (d + 1) (H1.M (.A r))) (.A r) (d + 1) (fun _ => 0) .at1)
              (ovR (ovR H1.M .at1 (d + 1) (H1.M (.A r))) (.A r) (d + 1) (fun _ => 0) (.T a)) i) .at1) := by
        rw [ovR_ne (by simp)]; exact j1
      refine e3.adj (J2.setA (r := a) ((J2.A a).add (j2.cv (J2.T b)))) ?_
      have f0 : FlagOk d H1.fl (ovR H1.M .at1 (d + 1) (H1.M (.A r))) := e3.fl.rows fun l => ovR_ne (by simp)
      have f1 := ((f0.zero r).max a (if H1.fl r > 2 then H1.fl r else 2)).max b (if H1.fl r > 2 then H1.fl r else 2)
      exact (f1.pos (lt_of_lt_of_le hx le_maxdec) _ _).pos (lt_of_lt_of_le hx (le_trans le_maxdec (maxdec_le a))) _ _
  case eqPlusProd a b r =>
    have h1 := h.setT (r := r) ((h.J.T r).sub ((h.J.T a).cv (h.J.T b)))
    rw [← deconvR_eq] at h1
    by_cases hz : H.fl r = 0
    · refine ⟨_, _, .of_forall fun t => rfl, by simp only [hosRevStep]; exact if_pos hz, ?_⟩
      have h2 := h1.addZ (a := b) ((h1.zr hz).mul (h1.J.T a).smooth)
      exact h2.addZ (a := a) ((h2.zr hz).mul (h2.J.T b).smooth)
    · refine ⟨_, _, .of_forall fun t => rfl, by simp only [hosRevStep]; exact if_neg hz, ?_⟩
      rw [inconvR_eq (a := .A r), inconvR_eq (a := .A r)]
      have hx := comp_pos (H.fl r)
      have J2 := h1.J.setA (r := b) ((h1.J.A b).add ((h1.J.A r).cv (h1.J.T a)))
      refine h1.adj (J2.setA (r := a) ((J2.A a).add ((J2.A r).cv (J2.T b)))) ?_
      have f1 := ((h1.fl.updpos hx (r := r)).max a (if H.fl r > 2 then H.fl r else 2)).max b (if H.fl r > 2 then H.fl r else 2)
      exact (f1.pos (lt_of_lt_of_le hx le_maxdec) _ _).pos (lt_of_lt_of_le hx (le_trans le_maxdec (maxdec_le a))) _ _
  case eqMinProd a b r =>
    have h1 := h.setT (r := r) ((h.J.T r).add ((h.J.T a).cv (h.J.T b)))
    rw [← inconvR_eq] at h1
    by_cases hz : H.fl r = 0
    · refine ⟨_, _, .of_forall fun t => rfl, by simp only [hosRevStep]; exact if_pos hz, ?_⟩
      have h2 := h1.addZ (a := b) ((h1.zr hz).mul (h1.J.T a).smooth).neg
      exact h2.addZ (a := a) ((h2.zr hz).mul (h2.J.T b).smooth).neg
    · refine ⟨_, _, .of_forall fun t => rfl, by simp only [hosRevStep]; exact if_neg hz, ?_⟩
      rw [deconvR_eq (a := .A r), deconvR_eq (a := .A r)]
      have hx := comp_pos (H.fl r)
      have J2 := h1.J.setA (r := b) (((h1.J.A r).cv (h1.J.T a)).addm (h1.J.A b))
      refine h1.adj (J2.setA (r := a) (((J2.A r).cv (J2.T b)).addm (J2.A a))) ?_
      have f1 := ((h1.fl.updpos hx (r := r)).max a (if H.fl r > 2 then H.fl r else 2)).max b (if H.fl r > 2 then H.fl r else 2)
      exact (f1.pos (lt_of_lt_of_le hx le_maxdec) _ _).pos (lt_of_lt_of_le hx (le_trans le_maxdec (maxdec_le a))) _ _
  case quad q a b r =>
    obtain ⟨S1, H1, e1, e2, e3, _⟩ := h.pop r (by intro e; simp [revStep, RS.pop, show (S 0).stk = [] from e] at hr)
    refine ⟨fun t => (S1 t).un a r ((S1 t).T b), if H1.fl r = 0 then H1 else { H1 with fl := H1.flUn a r 4, M := inconv0R (d + 1) (.A r) (.T b) (.A a) H1.M },
      .of_forall fun t => by simp only [revStep, e1], ?_, ?_⟩
    · simp only [hosRevStep, e2]
      by_cases hz : H1.fl r = 0
      · simp only [if_pos hz]; exact if_pos hz
      · simp only [if_neg hz]; exact if_neg hz
    · by_cases hz : H1.fl r = 0
      · rw [if_pos hz]; exact e3.un0 hz (e3.J.T b).smooth
      · rw [if_neg hz]; exact e3.un1 hz (by norm_num) (e3.J.T b) (by simp)
  case logOp a r =>
    obtain ⟨S1, H1, e1, e2, e3, _⟩ := h.pop r (by intro e; simp [revStep, RS.pop, show (S 0).stk = [] from e] at hr)
    have hT1 : (S1 0).T = z.T := by simp only [revStep, e1] at hr; cases hr; exact hr0
    have h0 : (S1 0).T a ≠ 0 := by rw [hT1]; exact (hs.1 : 0 < z.T a).ne'
    have jp : Jet d (fun t => 1 / (S1 t).T a) (tc fun t => 1 / (S1 t).T a) := Jet.of (smooth_div contDiffAt_const (e3.J.T a).smooth h0)
    by_cases hz : H1.fl r = 0
    · refine ⟨fun t => (S1 t).un a r (1 / (S1 t).T a), H1, .of_forall fun t => by simp only [revStep, e1], ?_, e3.un0 hz jp.smooth⟩
      simp only [hosRevStep, e2]; exact if_pos hz
    · have h2 := (e3.tmpM (c := .tt) (k := d + 1) (w := tc fun t => 1 / (S1 t).T a) (by simp) (by simp)).un1
        (a := a) (r := r) (b := .tt) (x := 4) hz (by norm_num) jp.ov (by simp)
      refine ⟨fun t => (S1 t).un a r (1 / (S1 t).T a), _, .of_forall fun t => by simp only [revStep, e1], ?_, h2⟩
      simp only [hosRevStep, e2]
      refine (if_neg hz).trans ?_
      rw [reciprR_jet 1 (e3.J.T a) h0 (by simp)]
      rfl
  case sqrtOp a r =>
    have h0 : (S 0).T r ≠ 0 := by
      rw [hT]
      simp only [zosStep, Except.ok.injEq] at hz
      subst hz
      have : 0 < z.T a := hs.1
      simp only [ZS.set, ZS.push, upd_same]
      exact (Real.sqrt_pos.2 this).ne'
    have hev := ev_ne (h.J.T r).smooth h0
    have jp : Jet d (fun t => 1 / 2 / (S t).T r) (tc fun t => 1 / 2 / (S t).T r) := Jet.of (smooth_div contDiffAt_const (h.J.T r).smooth h0)
    have key : JetR d (fun t => (S t).un a r (1 / 2 / (S t).T r)) (if H.fl r = 0 then H
        else { H with fl := H.flUn a r 4, M := inconv0R (d + 1) (.A r) .tt (.A a) (reciprR (d + 1) (1 / 2) (.T r) .tt H.M) }) := by
      by_cases hz : H.fl r = 0
      · rw [if_pos hz]; exact h.un0 hz jp.smooth
      · rw [if_neg hz, reciprR_jet (1 / 2) (h.J.T r) h0 (by simp)]
        exact (h.tmpM (c := .tt) (k := d + 1) (w := tc fun t => 1 / 2 / (S t).T r) (by simp) (by simp)).un1
          (a := a) (r := r) (b := .tt) (x := 4) hz (by norm_num) jp.ov (by simp)
    obtain ⟨S1, H1, e1, e2, e3, _⟩ := key.pop r (by intro e; simp [revStep, RS.pop, RS.setA, RS.addA, RS.un, show (S 0).stk = [] from e] at hr)
    refine ⟨S1, H1, ?_, e2, e3⟩
    filter_upwards [hev] with t ht
    simp only [revStep, ne_eq, ht, not_false_eq_true, if_true]
    exact e1 t
  case minOp a b r k =>
    obtain ⟨S1, H1, e1, e2, e3, _⟩ := h.pop r (by intro e; simp [revStep, RS.pop, show (S 0).stk = [] from e] at hr)
    have hT1 : (S1 0).T = z.T := by simp only [revStep, e1] at hr; split_ifs at hr <;> cases hr <;> exact hr0
    have ca := (e3.J.T a).smooth.continuousAt
    have cb := (e3.J.T b).smooth.continuousAt
    have za : H1.M (.T a) 0 = z.T a := by rw [← (e3.J.T a).zero, hT1]
    have zb : H1.M (.T b) 0 = z.T b := by rw [← (e3.J.T b).zero, hT1]
    by_cases hab : a = b
    · subst hab
      have hS : ∀ t, revStep (u t) (.minOp a a r k) (S t) = .ok ((((S1 t).setA r 0).addA a ((S1 t).A r / 2)).addA a ((S1 t).A r / 2)) := by
        intro t; simp [revStep, e1]
      have hm : minPick (d + 1) (H1.M (.T a)) (H1.M (.T a)) = none := by
        have : (List.range' 1 d).find? (fun i => decide (H1.M (.T a) i > H1.M (.T a) i ∨ H1.M (.T a) i < H1.M (.T a) i)) = none := by
          rw [List.find?_eq_none]; intro x _; simp
        unfold minPick
        rw [if_neg (lt_irrefl _), if_neg (lt_irrefl _)]
        simp only [Nat.add_sub_cancel, this]
      have j2 : Jet d (fun t => (S1 t).A r / 2) (fun i => H1.M (.A r) i / 2) :=
        (((e3.J.A r).mulConst (1 / 2)).fn fun t => by ring).coefs fun n _ => by ring
      by_cases hz : H1.fl r = 0
      · refine ⟨_, H1, .of_forall hS, by simp only [hosRevStep, e2]; exact if_pos hz, ?_⟩
        have : ZJ d (fun t => (S1 t).A r / 2) := ((e3.zr hz).smul (1 / 2)).fn fun t => by ring
        exact (e3.lin0 hz this).addZ this
      · refine ⟨_, _, .of_forall hS, ?_, e3.lin2 (a := a) (b := a) (r := r) (f := fun x t => x + t / 2) (g := fun x t => x + t / 2) hz j2.addp j2.addp⟩
        simp only [hosRevStep, e2]
        refine (if_neg hz).trans ?_
        rw [hm]
    · have hne : z.T a ≠ z.T b := (hs.1 : _ ∨ _).resolve_right hab
      rcases lt_or_gt_of_ne hne with hlt | hgt
      · have hev : ∀ᶠ t in 𝓝 0, (S1 t).T a < (S1 t).T b := ca.eventually_lt cb (by rw [hT1]; exact hlt)
        have hm : minPick (d + 1) (H1.M (.T a)) (H1.M (.T b)) = some (false, false) := by
          simp only [minPick, za, zb, gt_iff_lt, not_lt.2 hlt.le, if_false, hlt, if_true]
        have hS : ∀ᶠ t in 𝓝 0, revStep (u t) (.minOp a b r k) (S t) = .ok (((S1 t).setA r 0).addA a ((S1 t).A r)) := by
          filter_upwards [hev] with t ht
          simp only [revStep, e1, gt_iff_lt, not_lt.2 ht.le, if_false, ht, if_true]
        by_cases hz : H1.fl r = 0
        · exact ⟨_, H1, hS, by simp only [hosRevStep, e2]; exact if_pos hz, e3.lin0 hz (e3.zr hz)⟩
        · refine ⟨_, _, hS, ?_, e3.lin1 (a := a) (r := r) (f := fun x t => x + t) hz (e3.J.A r).addp⟩
          simp only [hosRevStep, e2]
          refine (if_neg hz).trans ?_
          rw [hm]; rfl
      · have hev : ∀ᶠ t in 𝓝 0, (S1 t).T b < (S1 t).T a := cb.eventually_lt ca (by rw [hT1]; exact hgt)
        have hm : minPick (d + 1) (H1.M (.T a)) (H1.M (.T b)) = some (true, false) := by
          have : z.T b < z.T a := hgt
          simp only [minPick, za, zb, gt_iff_lt, this, if_true]
        have hS : ∀ᶠ t in 𝓝 0, revStep (u t) (.minOp a b r k) (S t) = .ok (((S1 t).setA r 0).addA b ((S1 t).A r)) := by
          filter_upwards [hev] with t ht
          simp only [revStep, e1, gt_iff_lt, ht, if_true]
        by_cases hz : H1.fl r = 0
        · exact ⟨_, H1, hS, by simp only [hosRevStep, e2]; exact if_pos hz, e3.lin0 hz (e3.zr hz)⟩
        · refine ⟨_, _, hS, ?_, e3.lin1 (a := b) (r := r) (f := fun x t => x + t) hz (e3.J.A r).addp⟩
          simp only [hosRevStep, e2]
          refine (if_neg hz).trans ?_
          rw [hm]; rfl
  case absVal a r k =>
    obtain ⟨S1, H1, e1, e2, e3, _⟩ := h.pop r (by intro e; simp [revStep, RS.pop, show (S 0).stk = [] from e] at hr)
    have hT1 : (S1 0).T = z.T := by simp only [revStep, e1] at hr; split_ifs at hr <;> cases hr <;> exact hr0
    have ca := (e3.J.T a).smooth.continuousAt
    have za : H1.M (.T a) 0 = z.T a := by rw [← (e3.J.T a).zero, hT1]
    have hne : z.T a ≠ 0 := hs.1
    have hab : absSign (d + 1) (H1.M (.T a)) = (0, if z.T a < 0 then -1 else 1) := by
      simp only [absSign, List.range_succ_eq_map, List.find?_cons, za, ne_eq, hne, not_false_eq_true, decide_true]
    have hH : H1.fl r ≠ 0 → hosRevStep (d + 1) L (.absVal a r k) H = .ok
        { H1 with fl := H1.flLin a r, M := spreadR (d + 1) (.A a) (.A r) (fun x t => x + (if z.T a < 0 then -1 else 1) * t) H1.M } := by
      intro hz
      simp only [hosRevStep, e2]
      refine (if_neg hz).trans ?_
      simp only [hab, za, hne, if_false, setRowR_eq, Nat.zero_add, Nat.sub_zero]
      have : ovR H1.M (.A r) 0 (fun _ => 0) = H1.M := by funext q i; simp [ovR]
      rw [this]
      rfl
    rcases lt_or_gt_of_ne hne with hlt | hgt
    · have hev : ∀ᶠ t in 𝓝 0, (S1 t).T a < 0 := ca.eventually_lt continuousAt_const (by rw [hT1]; exact hlt)
      have hS : ∀ᶠ t in 𝓝 0, revStep (u t) (.absVal a r k) (S t) = .ok (((S1 t).setA r 0).addA a (- (S1 t).A r)) := by
        filter_upwards [hev] with t ht
        simp only [revStep, e1, ht, if_true]
      by_cases hz : H1.fl r = 0
      · exact ⟨_, H1, hS, by simp only [hosRevStep, e2]; exact if_pos hz, e3.lin0 hz (e3.zr hz).neg⟩
      · refine ⟨_, _, hS, hH hz, e3.lin1 (a := a) (r := r) hz fun {x y} hx => ?_⟩
        exact ((e3.J.A r).addm hx).coefs fun n _ => by simp only [hlt, if_true]; ring
    · have hev : ∀ᶠ t in 𝓝 0, 0 < (S1 t).T a := continuousAt_const.eventually_lt ca (by rw [hT1]; exact hgt)
      have hS : ∀ᶠ t in 𝓝 0, revStep (u t) (.absVal a r k) (S t) = .ok (((S1 t).setA r 0).addA a ((S1 t).A r)) := by
        filter_upwards [hev] with t ht
        simp only [revStep, e1, not_lt.2 ht.le, if_false, gt_iff_lt, ht, if_true]
      by_cases hz : H1.fl r = 0
      · exact ⟨_, H1, hS, by simp only [hosRevStep, e2]; exact if_pos hz, e3.lin0 hz (e3.zr hz)⟩
      · refine ⟨_, _, hS, hH hz, e3.lin1 (a := a) (r := r) hz fun {x y} hx => ?_⟩
        have : ¬ z.T a < 0 := not_lt.2 (le_of_lt hgt)
        exact ((e3.J.A r).addp hx).coefs fun n _ => by simp only [this, if_false]; ring
  case eqMultA a r =>
    obtain ⟨S1, H1, e1, e2, e3, _⟩ := h.pop r (by intro e; simp [revStep, RS.pop, show (S 0).stk = [] from e] at hr)
    have hS : ∀ t, revStep (u t) (.eqMultA a r) (S t) = .ok (((S1 t).setA r ((S1 t).A r * (S1 t).T a)).addA a ((S1 t).A r * (S1 t).T r)) := by
      intro t; simp only [revStep, e1]; rfl
    by_cases hz : H1.fl r = 0
    · refine ⟨_, H1, .of_forall hS, by simp only [hosRevStep, e2]; exact if_pos hz, ?_⟩
      have j1 : JetR d (fun t => (S1 t).setA r ((S1 t).A r * (S1 t).T a)) H1 :=
        e3.adj (e3.J.keepA (ZJ.row ((e3.zr hz).mul (e3.J.T a).smooth) ((e3.fl r).2 hz))) e3.fl
      exact j1.addZ ((e3.zr hz).mul (e3.J.T r).smooth)
    · have f1 : FlagOk d (maxdec (maxdec H1.fl r 2) a (maxdec H1.fl r 2 r)) H1.M := (e3.fl.max r 2).max a _
      have pr : 0 < maxdec (maxdec H1.fl r 2) a (maxdec H1.fl r 2 r) r :=
        lt_of_lt_of_le (lt_of_lt_of_le (by norm_num) (le_maxdec (fl := H1.fl) (a := r) (x := 2))) (maxdec_le r)
      have pa : 0 < maxdec (maxdec H1.fl r 2) a (maxdec H1.fl r 2 r) a :=
        lt_of_lt_of_le (lt_of_lt_of_le (by norm_num) (le_maxdec (fl := H1.fl) (a := r) (x := 2))) le_maxdec
      by_cases har : a = r
      · subst har
        refine ⟨_, _, .of_forall hS, by simp only [hosRevStep, e2]; exact if_neg hz, ?_⟩
        simp only [ne_eq, not_true_eq_false, if_false]
        have el : ∀ M : Row → Nat → ℝ, forUp (d + 1) (fun i M => wrR M (.A a) i (2 * M .at1 i)) M = ovR M (.A a) (d + 1) (fun i => 2 * M .at1 i) := by
          intro M
          rw [col_loop (fun i M r j h => wrR_ne h) (fun i M M' h r => by simp [wrR, h])]
          funext q i; simp only [wrR, ovR]; split_ifs <;> simp_all
        rw [el, convR_eq]
        have jt := e3.J.tmp (c := .at1) (k := d + 1) (w := fun i => cv (H1.M (.A a)) (H1.M (.T a)) i) (by simp) (by simp)
        have j2 : Jet d (fun t => (S1 t).A a * (S1 t).T a + (S1 t).A a * (S1 t).T a)
            (fun i => 2 * ovR H1.M .at1 (d + 1) (fun i => cv (H1.M (.A a)) (H1.M (.T a)) i) .at1 i) := by
          have := (((e3.J.A a).cv (e3.J.T a)).ov (M := H1.M) (c := .at1))
          exact (this.add this).coefs fun n _ => by ring
        refine JetR.fnS (e3.adj (jt.setA (r := a) j2) ?_) fun t => ?_
        · refine FlagOk.pos ?_ pr _ _
          exact f1.rows fun l => ovR_ne (by simp)
        · simp only [RS.addA, RS.setA, upd_same, upd_upd]
      · refine ⟨_, _, .of_forall hS, by simp only [hosRevStep, e2]; exact if_neg hz, ?_⟩
        simp only [ne_eq, har, not_false_eq_true, if_true, copyR_eq, inconvR_eq, convR_eq]
        have jt := e3.J.tmp (c := .at1) (k := d + 1) (w := fun i => cv (H1.M (.A r)) (H1.M (.T a)) i) (by simp) (by simp)
        have j2 := jt.setA (r := a) ((jt.A a).add ((jt.A r).cv (jt.T r)))
        have ja : Jet d (fun t => (S1 t).A r * (S1 t).T a) (ovR H1.M .at1 (d + 1) (fun i => cv (H1.M (.A r)) (H1.M (.T a)) i) .at1) :=
          ((e3.J.A r).cv (e3.J.T a)).ov
        refine JetR.fnS (e3.adj (j2.setA (r := r) (g := fun t => (S1 t).A r * (S1 t).T a) (by rw [ovR_ne (by simp)]; exact ja)) ?_) fun t => ?_
        · refine FlagOk.pos (FlagOk.pos ?_ pa _ _) pr _ _
          exact f1.rows fun l => ovR_ne (by simp)
        · simp only [RS.addA, RS.setA, upd_ne _ _ har]
          rw [upd_comm _ (Ne.symm har)]
  case condAssign a a1 a2 r k =>
    obtain ⟨S1, H1, e1, e2, e3, _⟩ := h.pop r (by intro e; simp [revStep, RS.pop, show (S 0).stk = [] from e] at hr)
    have hT1 : (S1 0).T = z.T := by simp only [revStep, e1] at hr; split_ifs at hr <;> cases hr <;> exact hr0
    have ca := (e3.J.T a).smooth.continuousAt
    have za : H1.M (.T a) 0 = z.T a := by rw [← (e3.J.T a).zero, hT1]
    have hne : z.T a ≠ 0 := hs.1
    rcases lt_or_gt_of_ne hne with hlt | hgt
    · have hev : ∀ᶠ t in 𝓝 0, (S1 t).T a < 0 := ca.eventually_lt continuousAt_const (by rw [hT1]; exact hlt)
      by_cases hra : r = a2
      · subst hra
        refine ⟨S1, H1, ?_, ?_, e3⟩
        · filter_upwards [hev] with t ht
          simp only [revStep, e1, gt_iff_lt, not_lt.2 ht.le, if_false, ne_eq, not_true_eq_false]
        · simp only [hosRevStep, e2]
          refine (if_neg (by rw [za]; exact not_lt.2 hlt.le)).trans ?_
          refine (if_neg (by simp)).trans ?_
          rw [if_neg (by rw [za]; exact fun h => hne h.2)]
      · refine ⟨_, H1.move (d + 1) a2 r, ?_, ?_, e3.mv (a := a2) (r := r)⟩
        · filter_upwards [hev] with t ht
          simp only [revStep, e1, gt_iff_lt, not_lt.2 ht.le, if_false, ne_eq, hra, not_false_eq_true, if_true]
        · simp only [hosRevStep, e2]
          refine (if_neg (by rw [za]; exact not_lt.2 hlt.le)).trans ?_
          refine (if_pos hra).trans ?_
          simp only [HRS.move, za, hne, if_false]
          split_ifs <;> rfl
    · have hev : ∀ᶠ t in 𝓝 0, 0 < (S1 t).T a := continuousAt_const.eventually_lt ca (by rw [hT1]; exact hgt)
      by_cases hra : r = a1
      · subst hra
        refine ⟨S1, H1, ?_, ?_, e3⟩
        · filter_upwards [hev] with t ht
          simp only [revStep, e1, gt_iff_lt, ht, if_true, ne_eq, not_true_eq_false, if_false]
        · simp only [hosRevStep, e2]
          refine (if_pos (by rw [za]; exact hgt)).trans ?_
          rw [if_neg (by simp)]
      · refine ⟨_, H1.move (d + 1) a1 r, ?_, ?_, e3.mv (a := a1) (r := r)⟩
        · filter_upwards [hev] with t ht
          simp only [revStep, e1, gt_iff_lt, ht, if_true, ne_eq, hra, not_false_eq_true]
        · simp only [hosRevStep, e2]
          refine (if_pos (by rw [za]; exact hgt)).trans ?_
          rw [if_pos hra]
  case condEqAssign a a1 a2 r k =>
    obtain ⟨S1, H1, e1, e2, e3, _⟩ := h.pop r (by intro e; simp [revStep, RS.pop, show (S 0).stk = [] from e] at hr)
    have hT1 : (S1 0).T = z.T := by simp only [revStep, e1] at hr; split_ifs at hr <;> cases hr <;> exact hr0
    have ca := (e3.J.T a).smooth.continuousAt
    have za : H1.M (.T a) 0 = z.T a := by rw [← (e3.J.T a).zero, hT1]
    have hne : z.T a ≠ 0 := hs.1
    rcases lt_or_gt_of_ne hne with hlt | hgt
    · have hev : ∀ᶠ t in 𝓝 0, (S1 t).T a < 0 := ca.eventually_lt continuousAt_const (by rw [hT1]; exact hlt)
      by_cases hra : r = a2
      · subst hra
        refine ⟨S1, H1, ?_, ?_, e3⟩
        · filter_upwards [hev] with t ht
          simp only [revStep, e1, ge_iff_le, not_le.2 ht, if_false, ne_eq, not_true_eq_false]
        · simp only [hosRevStep, e2]
          refine (if_neg (by rw [za]; exact not_le.2 hlt)).trans ?_
          rw [if_neg (by simp)]
      · refine ⟨_, H1.move (d + 1) a2 r, ?_, ?_, e3.mv (a := a2) (r := r)⟩
        · filter_upwards [hev] with t ht
          simp only [revStep, e1, ge_iff_le, not_le.2 ht, if_false, ne_eq, hra, not_false_eq_true, if_true]
        · simp only [hosRevStep, e2]
          refine (if_neg (by rw [za]; exact not_le.2 hlt)).trans ?_
          rw [if_pos hra]
    · have hev : ∀ᶠ t in 𝓝 0, 0 < (S1 t).T a := continuousAt_const.eventually_lt ca (by rw [hT1]; exact hgt)
      by_cases hra : r = a1
      · subst hra
        refine ⟨S1, H1, ?_, ?_, e3⟩
        · filter_upwards [hev] with t ht
          simp only [revStep, e1, ge_iff_le, ht.le, if_true, ne_eq, not_true_eq_false, if_false]
        · simp only [hosRevStep, e2]
          refine (if_pos (by rw [za]; exact (le_of_lt hgt))).trans ?_
          rw [if_neg (by simp)]
      · refine ⟨_, H1.move (d + 1) a1 r, ?_, ?_, e3.mv (a := a1) (r := r)⟩
        · filter_upwards [hev] with t ht
          simp only [revStep, e1, ge_iff_le, ht.le, if_true, ne_eq, hra, not_false_eq_true]
        · simp only [hosRevStep, e2]
          refine (if_pos (by rw [za]; exact (le_of_lt hgt))).trans ?_
          rw [if_pos hra]
  case condAssignS a a1 r k =>
    obtain ⟨S1, H1, e1, e2, e3, _⟩ := h.pop r (by intro e; simp [revStep, RS.pop, show (S 0).stk = [] from e] at hr)
    have hT1 : (S1 0).T = z.T := by simp only [revStep, e1] at hr; split_ifs at hr <;> cases hr <;> exact hr0
    have ca := (e3.J.T a).smooth.continuousAt
    have za : H1.M (.T a) 0 = z.T a := by rw [← (e3.J.T a).zero, hT1]
    have hne : z.T a ≠ 0 := hs.1
    rcases lt_or_gt_of_ne hne with hlt | hgt
    · have hev : ∀ᶠ t in 𝓝 0, (S1 t).T a < 0 := ca.eventually_lt continuousAt_const (by rw [hT1]; exact hlt)
      refine ⟨S1, H1, ?_, ?_, e3⟩
      · filter_upwards [hev] with t ht
        simp only [revStep, e1, gt_iff_lt, not_lt.2 ht.le, if_false]
      · simp only [hosRevStep, e2]
        refine (if_neg (by rw [za]; exact hne)).trans ?_
        exact if_neg (by rw [za]; exact not_lt.2 hlt.le)
    · have hev : ∀ᶠ t in 𝓝 0, 0 < (S1 t).T a := continuousAt_const.eventually_lt ca (by rw [hT1]; exact hgt)
      by_cases hra : r = a1
      · subst hra
        refine ⟨S1, H1, ?_, ?_, e3⟩
        · filter_upwards [hev] with t ht
          simp only [revStep, e1, gt_iff_lt, ht, if_true, ne_eq, not_true_eq_false, if_false]
        · simp only [hosRevStep, e2]
          refine (if_neg (by rw [za]; exact hne)).trans ?_
          refine (if_pos (by rw [za]; exact hgt)).trans ?_
          rw [if_neg (by simp)]
      · refine ⟨_, H1.move (d + 1) a1 r, ?_, ?_, e3.mv (a := a1) (r := r)⟩
        · filter_upwards [hev] with t ht
          simp only [revStep, e1, gt_iff_lt, ht, if_true, ne_eq, hra, not_false_eq_true]
        · simp only [hosRevStep, e2]
          refine (if_neg (by rw [za]; exact hne)).trans ?_
          refine (if_pos (by rw [za]; exact hgt)).trans ?_
          rw [if_pos hra]
  case condEqAssignS a a1 r k =>
    obtain ⟨S1, H1, e1, e2, e3, _⟩ := h.pop r (by intro e; simp [revStep, RS.pop, show (S 0).stk = [] from e] at hr)
    have hT1 : (S1 0).T = z.T := by simp only [revStep, e1] at hr; split_ifs at hr <;> cases hr <;> exact hr0
    have ca := (e3.J.T a).smooth.continuousAt
    have za : H1.M (.T a) 0 = z.T a := by rw [← (e3.J.T a).zero, hT1]
    have hne : z.T a ≠ 0 := hs.1
    rcases lt_or_gt_of_ne hne with hlt | hgt
    · have hev : ∀ᶠ t in 𝓝 0, (S1 t).T a < 0 := ca.eventually_lt continuousAt_const (by rw [hT1]; exact hlt)
      refine ⟨S1, H1, ?_, ?_, e3⟩
      · filter_upwards [hev] with t ht
        simp only [revStep, e1, ge_iff_le, not_le.2 ht, if_false]
      · simp only [hosRevStep, e2]
        exact if_neg (by rw [za]; exact not_le.2 hlt)
    · have hev : ∀ᶠ t in 𝓝 0, 0 < (S1 t).T a := continuousAt_const.eventually_lt ca (by rw [hT1]; exact hgt)
      by_cases hra : r = a1
      · subst hra
        refine ⟨S1, H1, ?_, ?_, e3⟩
        · filter_upwards [hev] with t ht
          simp only [revStep, e1, ge_iff_le, ht.le, if_true, ne_eq, not_true_eq_false, if_false]
        · simp only [hosRevStep, e2]
          refine (if_pos (by rw [za]; exact (le_of_lt hgt))).trans ?_
          rw [if_neg (by simp)]
      · refine ⟨_, H1.move (d + 1) a1 r, ?_, ?_, e3.mv (a := a1) (r := r)⟩
        · filter_upwards [hev] with t ht
          simp only [revStep, e1, ge_iff_le, ht.le, if_true, ne_eq, hra, not_false_eq_true]
        · simp only [hosRevStep, e2]
          refine (if_pos (by rw [za]; exact (le_of_lt hgt))).trans ?_
          rw [if_pos hra]
  case divAA a b r =>
    have hb0 : z.T b ≠ 0 := hs.1
    by_cases hbr : b = r
    · subst hbr
      have k1 := h.tmpM (c := .tt2) (k := d + 1) (w := H.M (.T b)) (by simp) (by simp)
      have q1 : Jet d (fun t => (S t).T b) (ovR H.M .tt2 (d + 1) (H.M (.T b)) .tt2) := (h.J.T b).ov
      obtain ⟨S1, H1, e1, e2, e3, _, _, _, _, _, _, _, e4⟩ := k1.pop b (by intro e; simp [revStep, RS.pop, show (S 0).stk = [] from e] at hr)
      have hT1 : (S1 0).T = z.T := by simp only [revStep, e1] at hr; cases hr; exact hr0
      have key := e3.div (a := a) (b := b) (r := b) (c := .tt2) (q := fun t => (S t).T b) (by rw [e4 _ (by simp)]; exact q1) (by simp)
        (by rw [hT1]; exact hb0)
      refine ⟨_, _, .of_forall fun t => ?_, ?_, key⟩
      · simp only [revStep, e1]
      · simp only [hosRevStep, if_true, copyR_eq, e2, ne_eq, not_true_eq_false, if_false]
        rfl
    · have hT1 : (S 0).T b = z.T b := by
        obtain ⟨S1, H1, e1, e2, e3, _, _, _, _, e4, _⟩ := h.pop r (by intro e; simp [revStep, RS.pop, show (S 0).stk = [] from e] at hr)
        simp only [revStep, e1] at hr
        cases hr
        rw [← hr0]
        exact (e4 0 b hbr).symm
      have key := h.div (a := a) (b := b) (r := r) (c := .T r) (h.J.T r) (by simp) (by rw [hT1]; exact hb0)
      obtain ⟨S1, H1, e1, e2, e3, _⟩ := key.pop r (by intro e; simp [revStep, RS.pop, show (S 0).stk = [] from e] at hr)
      refine ⟨S1, H1, .of_forall fun t => ?_, ?_, e3⟩
      · rw [← e1 t]
        cases hst : (S t).stk with
        | nil => simp [revStep, RS.pop, RS.setA, RS.addA, hst]
        | cons x st => simp [revStep, RS.pop, RS.setA, RS.addA, hst, upd_ne _ _ hbr]
      · simp only [hosRevStep, hbr, if_false, ne_eq, not_false_eq_true, if_true]
        exact e2
  case divDA a r k =>
    have ha0 : z.T a ≠ 0 := hs.1
    by_cases har : a = r
    · subst har
      have k1 := h.tmpM (c := .tt2) (k := d + 1) (w := H.M (.T a)) (by simp) (by simp)
      have q1 : Jet d (fun t => (S t).T a) (ovR H.M .tt2 (d + 1) (H.M (.T a)) .tt2) := (h.J.T a).ov
      obtain ⟨S1, H1, e1, e2, e3, _, _, _, _, _, _, _, e4⟩ := k1.pop a (by intro e; simp [revStep, RS.pop, show (S 0).stk = [] from e] at hr)
      have hT1 : (S1 0).T = z.T := by simp only [revStep, e1, if_true] at hr; cases hr; exact hr0
      have key := e3.divD (a := a) (r := a) (c := .tt2) (q := fun t => (S t).T a) (by rw [e4 _ (by simp)]; exact q1) (by simp)
        (by rw [hT1]; exact ha0)
      refine ⟨_, _, .of_forall fun t => ?_, ?_, key⟩
      · simp only [revStep, e1, if_true]
      · simp only [hosRevStep, if_true, copyR_eq, e2, ne_eq, not_true_eq_false, if_false]
        rfl
    · have hne : (S 0).stk ≠ [] := by
        intro e
        simp only [revStep, har, if_false] at hr
        simp [RS.pop, RS.setA, RS.addA, RS.un, show (S 0).stk = [] from e] at hr
      have hT1 : (S 0).T a = z.T a := by
        cases hst : (S 0).stk with
        | nil => exact absurd hst hne
        | cons x st =>
          simp only [revStep, har, if_false, RS.un, RS.setA, RS.addA, RS.pop, hst] at hr
          cases hr
          rw [← hr0]
          exact (upd_ne _ _ har).symm
      have key := h.divD (a := a) (r := r) (c := .T r) (h.J.T r) (by simp) (by rw [hT1]; exact ha0)
      obtain ⟨S1, H1, e1, e2, e3, _⟩ := key.pop r hne
      refine ⟨S1, H1, .of_forall fun t => ?_, ?_, e3⟩
      · rw [← e1 t]
        simp only [revStep, har, if_false]
      · simp only [hosRevStep, har, if_false, ne_eq, not_false_eq_true, if_true]
        exact e2
  case powOp a r k =>
    have hae := (hs.2.2.2.2 rfl).1 a r k rfl
    have ha0 : z.T a ≠ 0 := by intro e; rw [e] at hae; norm_num at hae
    have heps : z.T a > adolcEps ∨ z.T a < - adolcEps := by
      have : (adolcEps : ℝ) = 1 / 10 ^ 19 := by norm_num [adolcEps]
      rw [this]
      rcases lt_abs.1 hae with h1 | h1
      · exact .inl h1
      · exact .inr (by linarith)
    by_cases har : a = r
    · subst har
      have k1 := h.tmpM (c := .tt2) (k := d + 1) (w := H.M (.T a)) (by simp) (by simp)
      have q1 : Jet d (fun t => (S t).T a) (ovR H.M .tt2 (d + 1) (H.M (.T a)) .tt2) := (h.J.T a).ov
      obtain ⟨S1, H1, e1, e2, e3, _, _, _, _, _, _, _, e4⟩ := k1.pop a (by intro e; simp [revStep, RS.pop, show (S 0).stk = [] from e] at hr)
      have hT1 : (S1 0).T = z.T := by simp only [revStep, e1, if_true] at hr; cases hr; exact hr0
      have h0 : (S1 0).T a ≠ 0 := by rw [hT1]; exact ha0
      have za : H1.M (.T a) 0 = z.T a := by rw [← (e3.J.T a).zero, hT1]
      have key := e3.pw (a := a) (r := a) (c := .tt2) (q := fun t => (S t).T a) k (by rw [e4 _ (by simp)]; exact q1) (by simp) h0
      refine ⟨_, _, ?_, ?_, key⟩
      · filter_upwards [ev_ne (e3.J.T a).smooth h0] with t ht
        simp only [revStep, e1, if_true, ht, if_false]
      · simp only [hosRevStep, if_true, copyR_eq, e2, ne_eq, not_true_eq_false, if_false]
        refine congrArg Except.ok ?_
        by_cases hz : H1.fl a = 0
        · simp only [hz, if_true]
        · simp only [hz, if_false, za, heps, if_true]
    · have hne : (S 0).stk ≠ [] := by
        intro e
        simp only [revStep, har, if_false] at hr
        simp [RS.pop, RS.setA, RS.addA, RS.un, show (S 0).stk = [] from e] at hr
      have hT1 : (S 0).T a = z.T a := by
        cases hst : (S 0).stk with
        | nil => exact absurd hst hne
        | cons x st =>
          simp only [revStep, har, if_false, RS.un, RS.setA, RS.addA, RS.pop, hst] at hr
          cases hr
          rw [← hr0]
          exact (upd_ne _ _ har).symm
      have h0 : (S 0).T a ≠ 0 := by rw [hT1]; exact ha0
      have za : H.M (.T a) 0 = z.T a := by rw [← (h.J.T a).zero, hT1]
      have key := h.pw (a := a) (r := r) (c := .T r) k (h.J.T r) (by simp) h0
      obtain ⟨S1, H1, e1, e2, e3, _⟩ := key.pop r hne
      refine ⟨S1, H1, ?_, ?_, e3⟩
      · filter_upwards [ev_ne (h.J.T a).smooth h0] with t ht
        rw [← e1 t]
        simp only [revStep, har, if_false, ht]
      · simp only [hosRevStep, har, if_false, ne_eq, not_false_eq_true, if_true]
        have hc : H.M (.T a) 0 > adolcEps ∨ H.M (.T a) 0 < - adolcEps := by rw [za]; exact heps
        refine Eq.trans ?_ e2
        show HRS.pop (d + 1) r (if H.fl r = 0 then H else if _ then _ else _) = _
        rw [if_pos hc]

end Verif.AD
