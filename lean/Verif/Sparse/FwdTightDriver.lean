import Verif.Sparse.FwdTight

/-!
# The bit pattern driver, forward direction, tight mode (`sparsedrivers.h`)
-/
set_option linter.all false
namespace Verif.Sparse
open Verif.AD Elem

variable {K : Type} [Scalar K]

/-- How `jac_pat<BitPattern, Tight, Forward>` can fail. -/
inductive FErr where
  /-- `int_forward_tight` ends early -/
  | sweep (e : FTErr)
  /-- as `DErr.nullDeref` -/
  | nullDeref
  deriving DecidableEq, Repr

/-- One iteration of the strip loop (sparsedrivers.h:424-428, 377-383); `V` is the value stream.  Simplification: a
sweep that ends early is an error (the code goes on and extracts what is there). -/
def stripFwdTight (n : Nat) (c : Cfg K) (V : Nat → K) (ops : List (Base K)) (rows : List (Option (List Nat))) (strip : Nat) :
    Except FErr (List (Option (List Nat))) :=
  match fwdTightRun (wordsPerBatch n) (createSeed n strip) c V ops TFS.init with
  | .error e => .error (.sweep e)
  | .ok s =>
    match extractRows (bitsPerStrip n) strip s.b.Y rows with
    | .error _ => .error .nullDeref
    | .ok rows' => .ok rows'

/-- `jac_pat<BitPattern, Tight, Forward>` for a trace with `m` dependents and `n` independents, at the point and with the
parameters in `c` (sparsedrivers.h:415-430); `G` is what the value buffer contains behind the recorded values. -/
def jacPatFwdTight (m n : Nat) (c : Cfg K) (G : Nat → K) (ops : List (Base K)) : Except FErr (List (Option (List Nat))) :=
  (List.range (batches n)).foldl (fun r k => match r with
    | .error e => .error e
    | .ok rows => stripFwdTight n { c with keep := false } (stream ops G) ops rows k) (.ok (List.replicate m none))

/-- Up to 1920 independents there is a single strip. -/
theorem jacPatTight_crs {m n : Nat} {c : Cfg K} {G : Nat → K} {ops : List (Base K)} {t : TFS K} (hb : batches n = 1)
    (hrun : fwdTightRun (wordsPerBatch n) (createSeed n 0) { c with keep := false } (stream ops G) ops TFS.init = .ok t)
    (hlen : t.b.Y.length = m) :
    jacPatFwdTight m n c G ops = .ok ((List.range m).map fun j => crs (rowCols n (fun _ => t.b) j 1)) := by
  unfold jacPatFwdTight
  rw [hb]
  simp only [List.range_one, List.foldl_cons, List.foldl_nil, stripFwdTight, hrun]
  have : extractRows (bitsPerStrip n) 0 t.b.Y (List.replicate m none) =
      .ok ((List.range m).map fun j => crs (rowCols n (fun _ => t.b) j 1)) := by
    rw [range_getD t.b.Y (fun _ => 0), hlen,
      show List.replicate m (none : Option (List Nat)) = (List.range m).map fun _ => crs [] by simp [crs]]
    refine extractRows_map _ _ _ _ _ _ fun j hj => ?_
    rw [extractFwd_crs (fun _ => rfl) (by omega)]
    simp [rowCols, stripCols]
  rw [this]

theorem tightCols_lt {n : Nat} {c : Cfg K} {V : Nat → K} {ops : List (Base K)} {t : TFS K}
    (hrun : fwdTightRun (wordsPerBatch n) (createSeed n 0) c V ops TFS.init = .ok t)
    {j i : Nat} (hi : i ∈ rowCols n (fun _ => t.b) j 1) : i < n := by
  simp only [rowCols, List.mem_flatMap, List.mem_range] at hi
  obtain ⟨k, hk, hi⟩ := hi
  obtain rfl : k = 0 := by omega
  obtain ⟨h1, h2, h3⟩ := mem_stripCols.1 hi
  by_contra hn
  have hX : ∀ i', (createSeed n 0 i' ((i - 0 * bitsPerStrip n) / 64)).getLsbD
      (63 - (i - 0 * bitsPerStrip n) % 64) = false := by
    intro i'
    by_contra hh
    simp only [Bool.not_eq_false] at hh
    obtain ⟨g1, g2, g3, g4, g5⟩ := (createSeed_bit n 0 i' _ _).1 hh
    omega
  have := ftight_noBit hX (s := TFS.init) ⟨fun a => by simp [TFS.init, BS.init], by simp [TFS.init, BS.init]⟩ hrun
  cases hy : t.b.Y[j]? with
  | none => rw [hy] at h3; simp at h3
  | some y =>
    rw [hy] at h3
    simp only [Option.getD_some] at h3
    rw [this.Y y (List.mem_of_getElem? hy)] at h3
    cases h3

end Verif.Sparse
