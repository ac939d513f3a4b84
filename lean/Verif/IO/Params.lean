import Verif.IO.Tape
import Mathlib.Data.List.Basic
/-!
# Parameters of a trace: `save_params`, `read_params`, `openTape`, `set_param_vec` (valuetape.cpp)
-/
set_option linter.all false
namespace Verif.IO
variable {V : Type} [Zero V]

/-- The loop of `read_params`: valuetape.cpp:488-519.  `buf` is the part of `valBuffer` before
`currVal`, `nvt` is `nVT`, `ip` the number of parameters still to be read; the result is the
parameters read.  `none`: seeking before the start of the file. -/
def readLoop (cap : Nat) (file : List V) : Nat → (buf : List V) → (nvt ip : Nat) → Option (List V)
  | 0, _, _, _ => none
  | fuel + 1, buf, nvt, ip =>
    if ip > 0 then
      let rs := if buf.length < ip then buf.length else ip
      let got := buf.drop (buf.length - rs)
      if ip - rs > 0 then
        if nvt < cap then none
        else (readLoop cap file fuel ((file.drop (nvt - cap)).take cap) (nvt - cap) (ip - rs)).map (· ++ got)
      else some got
    else some []

/-- `read_params`: valuetape.cpp:445-523. -/
def readParams (c : Closed V) (np : Nat) : Option (List V) :=
  let number := c.data.length / c.cap * c.cap
  let rest := c.data.length % c.cap
  readLoop c.cap c.data (np + 2) ((c.data.drop number).take rest) (c.data.length - rest) np

/-- What later evaluations of a finished trace know about its parameters: the closed value stream,
whether all three streams are on disk, `NUM_PARAM`, `paramstore` and `keepTaylors`. -/
structure PTape (V : Type) where
  val : Closed V
  allDisk : Bool
  np : Nat
  pstore : List V
  keep : Bool

/-- `save_params` (valuetape.cpp:322-335): the values of the parameters at `trace_off` are copied to
`paramstore`, and `NUM_PARAM` is set. `v` is the value stream before. -/
def closeParams (flag allDisk keep : Bool) (ps : List V) (v : Strm V) : Option (PTape V) :=
  (saveParams ps v).map fun v => { val := v.close flag, allDisk := allDisk, np := ps.length, pstore := ps, keep := keep }

/-- `openTape`: valuetape.cpp:91-110 with `read_tape_stats` (577-602), called at the start of every
sweep and by `set_param_vec`. -/
def openTape (t : PTape V) : Option (PTape V) :=
  if !t.keep && t.allDisk then
    if t.np > 0 then (readParams t.val t.np).map fun ps => { t with pstore := ps } else some t
  else some t

/-- Uses of a finished trace: `set_param_vec`, or an evaluation (with or without `keep`). -/
inductive PUse (V : Type) where
  | set (ps : List V)
  | eval (keep : Bool)

/-- `set_param_vec` (valuetape.cpp:528-553; `none`: the number of parameters differs) and the start
of a sweep; the second component is the parameters the evaluation uses.  A sweep with `keep` sets
`keepTaylors` (valuetape.cpp:198-199). -/
def PTape.use (t : PTape V) : PUse V → Option (PTape V × Option (List V))
  | .set ps => match openTape t with
    | none => none
    | some t => if t.np ≠ ps.length then none else some ({ t with pstore := ps }, none)
  | .eval keep => (openTape t).map fun t => ({ t with keep := t.keep || keep }, some t.pstore)

def PTape.uses : List (PUse V) → PTape V → Option (List (List V))
  | [], _ => some []
  | u :: us, t => match t.use u with
    | none => none
    | some (t, o) => (uses us t).map (o.toList ++ ·)

/-! ### Specification: the parameters in force -/

/-- Every evaluation uses the values set last, initially the recorded ones. -/
def specUses : List (PUse V) → (cur : List V) → List (List V)
  | [], _ => []
  | .set ps :: us, _ => specUses us ps
  | .eval _ :: us, cur => cur :: specUses us cur

/-! ### Proofs -/

theorem readLoop_spec (cap : Nat) (file : List V) (fuel : Nat) (buf : List V) (nvt ip : Nat)
    (hc : 1 ≤ cap) (h : buf = (file.drop nvt).take buf.length) (hd : cap ∣ nvt) (hip : ip ≤ nvt + buf.length)
    (hl : nvt + buf.length ≤ file.length) (hf : ip + (if buf.length = 0 then 2 else 1) ≤ fuel) :
    readLoop cap file fuel buf nvt ip = some ((file.take (nvt + buf.length)).drop (nvt + buf.length - ip)) := by
  induction fuel generalizing buf nvt ip with
  | zero => split at hf <;> omega
  | succ fuel ih =>
    simp only [readLoop]
    by_cases h0 : ip > 0
    · rw [if_pos h0]
      by_cases h1 : buf.length < ip
      · rw [if_pos h1, if_pos (by omega)]
        obtain ⟨q, hq⟩ := hd
        have hcap : cap ≤ nvt := by
          rcases Nat.eq_zero_or_pos q with rfl | hq0
          · simp at hq; omega
          · rw [hq]; exact Nat.le_mul_of_pos_right _ hq0
        rw [if_neg (by omega)]
        have hlen : ((file.drop (nvt - cap)).take cap).length = cap := by simp; omega
        rw [ih _ _ _ (by rw [hlen]) (by rw [hq]; exact ⟨q - 1, by rw [Nat.mul_sub, Nat.mul_one]⟩) (by rw [hlen]; omega)
          (by rw [hlen]; omega) (by rw [hlen, if_neg (by omega)]; split at hf <;> omega)]
        simp only [Option.map_some, hlen]
        congr 1
        rw [show nvt - cap + cap = nvt by omega, Nat.sub_self, List.drop_zero]
        have e : file.take (nvt + buf.length) = file.take nvt ++ buf := by
          rw [List.take_add, ← h]
        rw [e, List.drop_append_of_le_length (by simp; omega)]
        congr 2
        omega
      · rw [if_neg h1, if_neg (by omega)]
        congr 1
        have e : file.take (nvt + buf.length) = file.take nvt ++ buf := by rw [List.take_add, ← h]
        have hl' : (file.take nvt).length = nvt := by simp; omega
        have e2 : nvt + buf.length - ip = (file.take nvt).length + (buf.length - ip) := by omega
        have e3 : (file.take nvt).drop ((file.take nvt).length + (buf.length - ip)) = [] := List.drop_eq_nil_of_le (by omega)
        rw [e, e2, List.drop_append, e3, Nat.add_sub_cancel_left, List.nil_append]
    · rw [if_neg h0]
      have : ip = 0 := by omega
      subst this
      simp

/-- `read_params` recovers the last `np` values of the stream, whatever the block structure. -/
theorem readParams_spec (c : Closed V) (hc : 1 ≤ c.cap) (np : Nat) (h : np ≤ c.data.length) :
    readParams c np = some (c.data.drop (c.data.length - np)) := by
  have hdm := Nat.div_add_mod c.data.length c.cap
  have hlt := Nat.mod_lt c.data.length hc
  rw [Nat.mul_comm] at hdm
  simp only [readParams]
  have hlen : ((c.data.drop (c.data.length / c.cap * c.cap)).take (c.data.length % c.cap)).length = c.data.length % c.cap := by
    simp; omega
  rw [show c.data.length - c.data.length % c.cap = c.data.length / c.cap * c.cap by omega]
  rw [readLoop_spec _ _ _ _ _ _ hc (by rw [hlen]) ⟨_, Nat.mul_comm _ _⟩ (by rw [hlen]; omega) (by rw [hlen]; omega)
    (by split <;> omega)]
  rw [hlen, hdm, List.take_length]

/-- States in which the parameters in force are `cur`, and those recorded with the trace are `rec`. -/
structure PInv (rec cur : List V) (t : PTape V) : Prop where
  cap : 1 ≤ t.val.cap
  np : t.np = rec.length
  len : t.np ≤ t.val.data.length
  tail : t.val.data.drop (t.val.data.length - t.np) = rec
  cur : t.pstore = cur

theorem PInv.open_keep {rec cur : List V} {t : PTape V} (h : PInv rec cur t) (hk : t.keep = true ∨ t.allDisk = false) :
    openTape t = some t := by
  rcases hk with hk | hk <;> simp [openTape, hk]

theorem PInv.open_disk {rec cur : List V} {t : PTape V} (h : PInv rec cur t) (hk : t.keep = false) (hd : t.allDisk = true)
    : ∃ t', openTape t = some t' ∧ PInv rec (if rec = [] then cur else rec) t' ∧ t'.keep = false ∧ t'.allDisk = true := by
  by_cases hnp : t.np > 0
  · have hne : rec ≠ [] := by rintro rfl; simp [h.np] at hnp
    refine ⟨{ t with pstore := rec }, ?_, ⟨h.cap, h.np, h.len, h.tail, by simp [hne]⟩, hk, hd⟩
    simp [openTape, hk, hd, hnp, readParams_spec _ h.cap _ h.len, h.tail]
  · have hne : rec = [] := by have := h.np; cases rec <;> simp_all
    exact ⟨t, by simp [openTape, hk, hd, hnp], ⟨h.cap, h.np, h.len, h.tail, by simp [hne, h.cur]⟩, hk, hd⟩

end Verif.IO
