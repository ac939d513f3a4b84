import Mathlib.Data.List.Basic

/-!
# `valuetape.cpp`, `tapeinfos.cpp`, `valuetape.h`: the three tape streams

The trace is written to three buffered streams (operations, locations, values), each flushed to a
file in blocks of the buffer size, and read back forward or backward by the sweeps.

Simplifications.  A block is one `fwrite`/`fread` (no splitting into chunks of 2^30 bytes).  File
operations succeed.  `none` is an access outside a buffer (an `assert` of bufferstate.h, or
undefined behaviour in release builds).  `size_t` does not overflow; where the code subtracts
below zero the wrapped (huge) value is modelled explicitly.  Values padding a flushed block are
`0`-filled as by `memset`.
-/
set_option linter.all false
namespace Verif.IO

/-- Operation bytes: the three markers and all others. -/
inductive Code where
  | endOp | endInt | endVal
  | op (c : Nat)
deriving DecidableEq

/-- `BufferState`: bufferstate.h:36-212, while writing: capacity, file, buffer up to `position()`. -/
structure Strm (α : Type) where
  cap : Nat
  file : List α := []
  buf : List α := []

/-- `writeAndAdvance`: bufferstate.h:189-192. -/
def Strm.write {α : Type} (s : Strm α) (v : α) : Option (Strm α) :=
  if s.buf.length < s.cap then some { s with buf := s.buf ++ [v] } else none

def Strm.writes {α : Type} (s : Strm α) : List α → Option (Strm α)
  | [] => some s
  | v :: vs => match s.write v with
    | none => none
    | some s => s.writes vs

/-- `put_block<Info>(fileName, capacity())`: tapeinfos.h:235-263, where the buffer behind the
position holds `pad`. -/
def Strm.flush {α : Type} (s : Strm α) (pad : List α) : Strm α :=
  { s with file := s.file ++ (s.buf ++ pad), buf := [] }

/-- The streams of a tape being written. -/
structure W (V : Type) where
  op : Strm Code
  loc : Strm Nat
  val : Strm V

variable {V : Type} [Zero V]

/-- tapeinfos.cpp:317-322 (also 304-309, 337-342, 416-421, 499-505): write an operation byte,
flushing the operation buffer first if only one byte is free. -/
def putCode (w : W V) (c : Code) : Option (W V) :=
  if w.op.buf.length = w.op.cap - 1 then
    match w.op.write .endOp with
    | none => none
    | some o => match (o.flush []).write .endOp with
      | none => none
      | some o => (o.write c).map fun o => { w with op := o }
  else (w.op.write c).map fun o => { w with op := o }

/-- `put_loc`: tapeinfos.h:151. -/
def putLoc (w : W V) (l : Nat) : Option (W V) := (w.loc.write l).map fun s => { w with loc := s }

/-- Contents of the location block flushed at tapeinfos.cpp:292-300: the rest is zeroed and the
last element is set to the number of unused elements. -/
def locPad (s : Strm Nat) : List Nat :=
  let rem := s.cap - s.buf.length
  if rem > 0 then s.buf ++ List.replicate (rem - 1) 0 ++ [rem] else s.buf.dropLast ++ [0]

/-- tapeinfos.cpp:290-311: make room for the locations of the next operation. The comparison is
done in `size_t`, so for a buffer smaller than `10 + extra` it is never true. -/
def roomLoc (extra : Nat) (w : W V) : Option (W V) :=
  if 10 + extra ≤ w.loc.cap ∧ w.loc.buf.length > w.loc.cap - 10 - extra then
    putCode { w with loc := { w.loc with file := w.loc.file ++ locPad w.loc, buf := [] } } .endInt
  else some w

/-- tapeinfos.cpp:313-333 and 496-507 (`get_val_space`, which does not zero the rest): make room for values. -/
def roomVal (w : W V) : Option (W V) :=
  if 5 ≤ w.val.cap ∧ w.val.buf.length > w.val.cap - 5 then
    match putLoc w (w.val.cap - w.val.buf.length) with
    | none => none
    | some w => putCode { w with val := w.val.flush (List.replicate (w.val.cap - w.val.buf.length) 0) } .endVal
  else some w

/-- `put_op(op, reserveExtraLocations)`: tapeinfos.cpp:282-323. -/
def putOp (c extra : Nat) (w : W V) : Option (W V) :=
  match roomLoc extra w with
  | none => none
  | some w => match roomVal w with
    | none => none
    | some w => putCode w (.op c)

/-- `put_vals_writeBlock(vals, numVals)`: tapeinfos.cpp:407-424. -/
def putValsWriteBlock (vs : List V) (w : W V) : Option (W V) :=
  match w.val.writes vs with
  | none => none
  | some v =>
    let w := { w with val := v }
    match putLoc w (w.val.cap - w.val.buf.length) with
    | none => none
    | some w => putCode { w with val := w.val.flush (List.replicate (w.val.cap - w.val.buf.length) 0) } .endVal

/-- One operation on the tape: opcode, locations, values. -/
structure Item (V : Type) where
  code : Nat
  locs : List Nat
  vals : List V
deriving DecidableEq

/-- An overloaded operator records one operation: `put_op`, then its `put_loc`s and `put_val`s. -/
def putItem (extra : Nat) (it : Item V) (w : W V) : Option (W V) :=
  match putOp it.code extra w with
  | none => none
  | some w => match w.loc.writes it.locs, w.val.writes it.vals with
    | some l, some v => some { w with loc := l, val := v }
    | _, _ => none

/-- `upd_resloc_inc_prod(temp, newlhs, newop)`: tapeinfos.h:340-356 (`mult_a_a` is `mult`). -/
def updIncProd (mult temp newlhs newop : Nat) (w : W V) : W V × Bool :=
  let n := w.loc.buf.length
  if n < 3 then (w, false)
  else if w.op.buf.length < 1 then (w, false)
  else if some temp = w.loc.buf[n - 1]? ∧ w.op.buf[w.op.buf.length - 1]? = some (.op mult) ∧
      some newlhs ≠ w.loc.buf[n - 2]? ∧ some newlhs ≠ w.loc.buf[n - 3]? then
    ({ w with loc := { w.loc with buf := w.loc.buf.dropLast ++ [newlhs] },
              op := { w.op with buf := w.op.buf.dropLast ++ [.op newop] } }, true)
  else (w, false)

/-- `take_stock`: valuetape.cpp:112-149 (loop 123-147; `fuel` bounds the number of blocks, and
`numLives > 0`).  `tsop` is the opcode `take_stock_op`. -/
def takeStock (tsop : Nat) : Nat → (vals : List V) → (loc : Nat) → W V → Option (W V)
  | 0, _, _, _ => none
  | fuel + 1, vals, loc, w =>
    match roomVal w with   -- get_val_space
    | none => none
    | some w =>
      let space := w.val.cap - w.val.buf.length
      if space < vals.length then
        match putOp tsop 0 w with
        | none => none
        | some w => match w.loc.writes [space, loc] with
          | none => none
          | some l => match putValsWriteBlock (vals.take space) { w with loc := l } with
            | none => none
            | some w => takeStock tsop fuel (vals.drop space) (loc + space) w
      else if vals.length > 0 then
        match putOp tsop 0 w with
        | none => none
        | some w => match w.loc.writes [vals.length, loc], w.val.writes vals with
          | some l, some v => some { w with loc := l, val := v }
          | _, _ => none
      else some w

/-- `statSpace`: dvlparms.h:44. -/
def statSpace : Nat := 42

/-- `start_trace`: valuetape.cpp:294-320 (`sot` is the opcode `start_of_tape`). -/
def startTrace (sot : Nat) (w : W V) : Option (W V) :=
  match putOp sot 0 w with
  | none => none
  | some w => (w.loc.writes (List.replicate statSpace 0)).map fun l => { w with loc := l }

/-- The loop of `save_params`: valuetape.cpp:342-354. -/
def saveLoop : Nat → List V → Strm V → Option (Strm V)
  | 0, _, _ => none
  | fuel + 1, ps, s =>
    if ps.length > 0 then
      let avail := s.cap - s.buf.length
      let chunk := if avail < ps.length then avail else ps.length
      match s.writes (ps.take chunk) with
      | none => none
      | some s => saveLoop fuel (ps.drop chunk) (if chunk < ps.length then s.flush [] else s)
    else some s

/-- `save_params`: valuetape.cpp:322-357, the part writing to the value stream.  The comparison is
done in `size_t`: for more parameters than the buffer holds it is always true. -/
def saveParams (ps : List V) (s : Strm V) : Option (Strm V) :=
  if s.cap < ps.length ∨ s.buf.length < s.cap - ps.length then s.writes ps
  else saveLoop (ps.length + 2) ps s

/-! ## Reading -/

/-- A stream being read: the buffer, `position()`, the whole file and `numOnTape()`. -/
structure Rd (α : Type) where
  cap : Nat
  file : List α
  buf : List α
  pos : Nat
  num : Nat

/-- A stream after `close_tape` (valuetape.cpp:393-441): it is on disk if it was flushed before or
`flag != 0` (then the last part is written as a block of its actual length); otherwise it stays in
the buffer.  `data` is the contents of the file or of the buffer. -/
structure Closed (α : Type) where
  cap : Nat
  disk : Bool
  data : List α

/-- valuetape.cpp:395-407 and 410-421: closing the operation or value stream. -/
def Strm.close {α : Type} (flag : Bool) (s : Strm α) : Closed α :=
  { cap := s.cap, disk := flag || !s.file.isEmpty, data := s.file ++ s.buf }

/-- valuetape.cpp:424-440: closing the location stream; if it is on disk its beginning is
overwritten with the statistics. -/
def closeLoc (flag : Bool) (stats : List Nat) (s : Strm Nat) : Closed Nat :=
  let c := s.close flag
  if c.disk then { c with data := stats ++ c.data.drop stats.length } else c

/-- `prepare_for<Info>()`: valuetape.h:676-701, for a buffer larger than `statSpace` (the loop at
692-696 is then not entered).  `start` is the initial position: `statSpace` for the locations, `0`
for the others.  A short `fread` (an error) is modelled by an empty buffer, from which nothing can be read. -/
def prepFor {α : Type} (start : Nat) (c : Closed α) : Rd α :=
  if c.disk then
    let n := min c.cap c.data.length
    { cap := c.cap, file := c.data, buf := if c.data.length < n then [] else c.data.take n, pos := start, num := c.data.length - n }
  else { cap := c.cap, file := [], buf := c.data, pos := start, num := 0 }

/-- `readAndAdvance`: bufferstate.h:208. -/
def Rd.next {α : Type} (r : Rd α) : Option (α × Rd α) :=
  match r.buf[r.pos]? with
  | none => none
  | some v => some (v, { r with pos := r.pos + 1 })

def Rd.nexts {α : Type} : Nat → Rd α → Option (List α × Rd α)
  | 0, r => some ([], r)
  | n + 1, r => match r.next with
    | none => none
    | some (v, r) => match r.nexts n with
      | none => none
      | some (vs, r) => some (v :: vs, r)

/-- `get_*_block_f`: tapeinfos.cpp:224-245, 328-350, 429-453.  The file position is
`file.length - num`; `none`: `fread` finds fewer than the `n` elements asked for (EVAL_LOC_TAPE_READ_FAILED etc.). -/
def Rd.blockF {α : Type} (r : Rd α) : Option (Rd α) :=
  let n := min r.cap r.num
  if r.num < n then none
  else some { r with buf := (r.file.drop (r.file.length - r.num)).take n, num := r.num - n, pos := 0 }

/-- Readers of the three streams. -/
structure R (V : Type) where
  op : Rd Code
  loc : Rd Nat
  val : Rd V

/-- One iteration of the loop of a forward sweep (uni5_for.cpp:1279-1306 for the markers).  For an
ordinary operation `nl` locations and `nv` values are consumed; every case of the sweep consumes
what the operator recorded.  `none`: reading outside what was loaded. -/
def stepF (nl nv : Nat) (r : R V) : Option (R V × Option (Item V)) :=
  match r.op.next with
  | none => none
  | some (.endOp, o) => match o.blockF with
    | none => none
    | some o => match o.next with
      | none => none
      | some (_, o) => some ({ r with op := o }, none)
  | some (.endInt, o) => r.loc.blockF.map fun l => ({ r with op := o, loc := l }, none)
  | some (.endVal, o) => r.val.blockF.map fun v => ({ r with op := o, val := v, loc := { r.loc with pos := r.loc.pos + 1 } }, none)
  | some (.op c, o) => match r.loc.nexts nl, r.val.nexts nv with
    | some (ls, l), some (vs, v) => some (⟨o, l, v⟩, some ⟨c, ls, vs⟩)
    | _, _ => none

/-- A forward sweep, told how many locations and values each operation has; `fuel` bounds the
number of loop iterations. -/
def sweepF : Nat → List (Nat × Nat) → R V → Option (List (Item V))
  | _, [], _ => some []
  | 0, _ :: _, _ => none
  | fuel + 1, s :: ss, r => match stepF s.1 s.2 r with
    | none => none
    | some (r, none) => sweepF fuel (s :: ss) r
    | some (r, some it) => (sweepF fuel ss r).map (it :: ·)

/-- `prepare_rev<Info>()`: valuetape.h:713-753. -/
def prepRev {α : Type} (c : Closed α) : Rd α :=
  if c.disk then
    let n := c.data.length % c.cap
    { cap := c.cap, file := c.data, buf := (c.data.drop (c.data.length / c.cap * c.cap)).take n,
      pos := n, num := c.data.length - n }
  else { cap := c.cap, file := [], buf := c.data, pos := c.data.length, num := 0 }

/-- `retreatAndRead`: bufferstate.h:211. -/
def Rd.prev {α : Type} (r : Rd α) : Option (α × Rd α) :=
  if r.pos = 0 then none
  else match r.buf[r.pos - 1]? with
    | none => none
    | some v => some (v, { r with pos := r.pos - 1 })

/-- The last `n` elements, in the order they were written. -/
def Rd.prevs {α : Type} : Nat → Rd α → Option (List α × Rd α)
  | 0, r => some ([], r)
  | n + 1, r => match r.prev with
    | none => none
    | some (v, r) => match r.prevs n with
      | none => none
      | some (vs, r) => some (vs ++ [v], r)

/-- The reading part of `get_*_block_r`: tapeinfos.cpp:250-274, 355-380, 458-482. `none`: seeking before the start. -/
def Rd.blockR {α : Type} (r : Rd α) : Option (Rd α) :=
  if r.num < r.cap then none
  else some { r with buf := (r.file.drop (r.num - r.cap)).take r.cap, num := r.num - r.cap }

/-- One iteration of the loop of a reverse sweep (fo_rev.cpp:549-580 for the markers; the value
block takes its position from the location stream, tapeinfos.cpp:480-481). -/
def stepR (nl nv : Nat) (r : R V) : Option (R V × Option (Item V)) :=
  match r.op.prev with
  | none => none
  | some (.endOp, o) => match o.blockR with
    | none => none
    | some o => match ({ o with pos := o.cap } : Rd Code).prev with
      | none => none
      | some (_, o) => some ({ r with op := o }, none)
  | some (.endInt, o) => match r.loc.blockR with
    | none => none
    | some l => match l.buf[l.cap - 1]? with
      | none => none
      | some k => some ({ r with op := o, loc := { l with pos := l.cap - k } }, none)
  | some (.endVal, o) => match r.val.blockR with
    | none => none
    | some v => match r.loc.prev with
      | none => none
      | some (k, l) => some ({ r with op := o, loc := l, val := { v with pos := v.cap - k } }, none)
  | some (.op c, o) => match r.loc.prevs nl, r.val.prevs nv with
    | some (ls, l), some (vs, v) => some (⟨o, l, v⟩, some ⟨c, ls, vs⟩)
    | _, _ => none

/-- A reverse sweep; the result lists the operations as they are met. -/
def sweepR : Nat → List (Nat × Nat) → R V → Option (List (Item V))
  | _, [], _ => some []
  | 0, _ :: _, _ => none
  | fuel + 1, s :: ss, r => match stepR s.1 s.2 r with
    | none => none
    | some (r, none) => sweepR fuel (s :: ss) r
    | some (r, some it) => (sweepR fuel ss r).map (it :: ·)

/-! ## Whole traces -/

/-- The opcodes the writer and the readers treat specially (oplate.h): `start_of_tape`,
`end_of_tape`, `take_stock_op` and `mult_a_a`. -/
structure Codes where
  sot : Nat
  eot : Nat
  stock : Nat
  mult : Nat
  h1 : sot ≠ mult
  h2 : stock ≠ mult

/-- What the overloaded operators do with the tape: record an operation, or retarget the product
just recorded (adouble.cpp, `operator+=` and `operator-=` for rvalues). -/
inductive Call (V : Type) where
  | put (extra : Nat) (it : Item V)
  | incProd (temp newlhs newop : Nat)

def runCall (k : Codes) (w : W V) : Call V → Option (W V)
  | .put extra it => putItem extra it w
  | .incProd temp newlhs newop => some (updIncProd k.mult temp newlhs newop w).1

def runCalls (k : Codes) : List (Call V) → W V → Option (W V)
  | [], w => some w
  | c :: cs, w => match runCall k w c with
    | none => none
    | some w => runCalls k cs w

/-- Buffer sizes and the other things a trace depends on. -/
structure Cfg where
  opCap : Nat
  locCap : Nat
  valCap : Nat

/-- `trace_on ... trace_off`: `start_trace` (valuetape.cpp:294-320), `take_stock`
(tape_interface.cpp), the recorded operations, then `stop_trace` (valuetape.cpp:362-364:
`put_op(end_of_tape)`, `save_params`). -/
def record (k : Codes) (g : Cfg) (stock : List V) (cs : List (Call V)) (ps : List V) : Option (W V) :=
  match startTrace k.sot ({ op := { cap := g.opCap }, loc := { cap := g.locCap }, val := { cap := g.valCap } } : W V) with
  | none => none
  | some w => match takeStock k.stock (stock.length + 1) stock 0 w with
    | none => none
    | some w => match runCalls k cs w with
      | none => none
      | some w => match putItem 0 ⟨k.eot, [], []⟩ w with
        | none => none
        | some w => (saveParams ps w.val).map fun v => { w with val := v }

/-- `close_tape` followed by `init_sweep<Forward>`: valuetape.h:797-803. -/
def openFor (flag : Bool) (stats : List Nat) (w : W V) : R V :=
  { op := prepFor 0 (w.op.close flag), loc := prepFor statSpace (closeLoc flag stats w.loc),
    val := prepFor 0 (w.val.close flag) }

/-- `close_tape` followed by `init_sweep<Reverse>`: valuetape.h:807-808. -/
def openRev (flag : Bool) (stats : List Nat) (w : W V) : R V :=
  { op := prepRev (w.op.close flag), loc := prepRev (closeLoc flag stats w.loc),
    val := prepRev (w.val.close flag) }

/-- `discard_params_r`: valuetape.cpp:626-661.  The block loaded when the parameters extend over
more than one buffer is not `tapestats(VAL_BUFFER_SIZE)` values long but as long as the enumeration
constant `TapeInfos::VAL_BUFFER_SIZE` (`12`, tapeinfos.h:18-31), and it is read to `begin() + 12`. `none`: reading before
the start of the file or beyond the end of the buffer. -/
def discardParams : Nat → Nat → Rd V → Option (Rd V)
  | 0, _, _ => none
  | fuel + 1, np, r =>
    if np > 0 then
      let rs := if r.pos < np then r.pos else np
      let r := { r with pos := r.pos - rs }
      if np - rs > 0 then
        if r.num < 12 ∨ r.cap < 24 then none
        else
          let b := r.buf ++ List.replicate (r.cap - r.buf.length) 0
          discardParams fuel (np - rs) { r with
            buf := b.take 12 ++ (r.file.drop (r.num - 12)).take 12 ++ b.drop 24, num := r.num - 12, pos := r.cap }
      else discardParams fuel (np - rs) r
    else some r

/-- A reverse sweep (fo_rev.cpp:545-583): the first operation met is `end_of_tape`, at which the
parameters are skipped. `shapes` are those of the operations before it, last first. -/
def sweepRev (np : Nat) (fuel : Nat) (shapes : List (Nat × Nat)) (r : R V) : Option (List (Item V)) :=
  match stepR 0 0 r with
  | some (r, some it) => match discardParams (np + 2) np r.val with
    | none => none
    | some v => (sweepR fuel shapes { r with val := v }).map (it :: ·)
  | _ => none

end Verif.IO
