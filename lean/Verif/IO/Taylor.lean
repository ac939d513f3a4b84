import Verif.IO.Tape
import Mathlib.Data.Int.Basic
import Mathlib.Tactic.Linarith
/-!
# The value (Taylor) stack: tapeinfos.cpp:82-221, tapeinfos.h:104-118, valuetape.cpp:177-275

A forward sweep with `keep` (or the taping itself) pushes values; a reverse sweep pops them.  The
stack is a buffer of `TAY_BUFFER_SIZE` values whose full contents are moved to a file.  As in
`Verif.IO.Tape`, file operations succeed and a block is one `fread`/`fwrite`; `none` stands for
accesses outside a buffer, reads beyond the file and operations on a null `FILE*`.
-/
set_option linter.all false
namespace Verif.IO
variable {V : Type} [Zero V]

/-- `write_scaylor`: tapeinfos.h:111-118. -/
def writeScaylor (v : V) (s : Strm V) : Option (Strm V) :=
  (if s.buf.length = s.cap then s.flush [] else s).write v

/-- `write_taylor(pos, keep)`, with `row` the `keep` values at `pos`: tapeinfos.cpp:84-101; also
`write_scaylors`: 120-142.  The comparison is done in `size_t`: for a row longer than the buffer it is false. -/
def writeTaylor : Nat → List V → Strm V → Option (Strm V)
  | 0, _, _ => none
  | fuel + 1, row, s =>
    if row.length ≤ s.cap ∧ s.buf.length > s.cap - row.length then
      let n := s.cap - s.buf.length
      writeTaylor fuel (row.drop n) ({ s with buf := s.buf ++ row.take n }.flush [])
    else s.writes row

/-- `write_taylors(pos, keep, degree, numDir)`: tapeinfos.cpp:103-118; `vs` are the values
`pos[j*degree + i]`, `i < keep`, `j < numDir`, in this order. -/
def writeAll : List V → Strm V → Option (Strm V)
  | [], s => some s
  | v :: vs, s => match writeScaylor v s with
    | none => none
    | some s => writeAll vs s

/-- The stack as a reverse sweep sees it: `file` (`none`: null pointer), buffer, `position()`,
`nextBufferNumber`, `lastTayBlockInCore` and `numOnTape()`. -/
structure TR (V : Type) where
  cap : Nat
  file : Option (List V)
  buf : List V
  pos : Nat
  next : Int
  inCore : Bool
  num : Nat

/-- `taylor_close`: valuetape.cpp:217-230 (the file is open iff a block was written since
`taylor_begin`, 177-202, which empties the stack). -/
def taylorClose (s : Strm V) : TR V :=
  { cap := s.cap, file := if s.file.isEmpty then none else some (s.file ++ s.buf), buf := s.buf,
    pos := if s.file.isEmpty then s.buf.length else 0, next := 0, inCore := true,
    num := s.file.length + s.buf.length }

/-- `taylor_back`: valuetape.cpp:235-275. -/
def taylorBack (t : TR V) : Option (TR V) :=
  let q := t.num / t.cap
  let number := t.num % t.cap
  if t.inCore then some { t with pos := number, next := (q : Int) - 1 }
  else match t.file with
    | none => none
    | some f => some { t with pos := number, next := (q : Int) - 1, buf := (f.drop (q * t.cap)).take number }

/-- `get_tay_block_r`: tapeinfos.cpp:190-220. -/
def getTayBlockR (t : TR V) : Option (TR V) :=
  match t.file with
  | none => none
  | some f =>
    if t.next < 0 then none
    else if f.length < t.next.toNat * t.cap + t.cap then none
    else some { t with inCore := false, buf := (f.drop (t.next.toNat * t.cap)).take t.cap, pos := t.cap, next := t.next - 1 }

/-- `retreatAndRead`. -/
def TR.prev (t : TR V) : Option (V × TR V) :=
  if t.pos = 0 then none
  else match t.buf[t.pos - 1]? with
    | none => none
    | some v => some (v, { t with pos := t.pos - 1 })

/-- `get_taylor`: tapeinfos.h:104-108. -/
def getTaylor (t : TR V) : Option (V × TR V) :=
  if t.pos = 0 then match getTayBlockR t with
    | none => none
    | some t => t.prev
  else t.prev

/-- The stores `*(T--) = *tay` of tapeinfos.cpp:146-149 (`T` is post-decremented). -/
def storeDown : List V → Nat → (Nat → V) → Nat × (Nat → V)
  | [], T, m => (T, m)
  | v :: vs, T, m => storeDown vs (T - 1) (fun i => if i = T then v else m i)

/-- The stores `*(--T) = retreatAndRead()` of tapeinfos.cpp:155-157. -/
def popDown : Nat → Nat → (Nat → V) → TR V → Option ((Nat → V) × TR V)
  | 0, _, m, t => some (m, t)
  | n + 1, T, m, t => match t.prev with
    | none => none
    | some (v, t) => popDown n (T - 1) (fun i => if i = T - 1 then v else m i) t

/-- `get_taylors(taylorCoefficients, degree)`: tapeinfos.cpp:144-158.  `m` is the memory, indexed
from `taylorCoefficients`. -/
def getTaylorsLoop : Nat → Nat → Nat → (Nat → V) → TR V → Option ((Nat → V) × TR V)
  | 0, _, _, _, _ => none
  | fuel + 1, deg, T, m, t =>
    if t.pos < deg then
      let (T, m) := storeDown (t.buf.take t.pos).reverse T m
      match getTayBlockR t with
      | none => none
      | some t' => getTaylorsLoop fuel (deg - t.pos) T m t'
    else popDown deg T m t

def getTaylors (deg : Nat) (m : Nat → V) (t : TR V) : Option ((Nat → V) × TR V) :=
  getTaylorsLoop (deg + 2) deg deg m t

/-- The inner loop of `get_taylors_p`: tapeinfos.cpp:166-172, `n` values downwards from `T`. -/
def popTay : Nat → Nat → (Nat → V) → TR V → Option ((Nat → V) × TR V)
  | 0, _, m, t => some (m, t)
  | n + 1, T, m, t => match getTaylor t with
    | none => none
    | some (v, t) => popTay n (T - 1) (fun i => if i = T - 1 then v else m i) t

/-- The outer loop: tapeinfos.cpp:165-174, `j` directions left, `T` points behind the last of them. -/
def popDirs (deg : Nat) : Nat → Nat → (Nat → V) → TR V → Option ((Nat → V) × TR V)
  | 0, _, m, t => some (m, t)
  | j + 1, T, m, t => match popTay (deg - 1) T m t with
    | none => none
    | some (m, t) => popDirs deg j (T - (deg - 1) - 1) m t

/-- `get_taylors_p(taylorCoefficients, degree, numDir)`: tapeinfos.cpp:160-184. -/
def getTaylorsP (deg p : Nat) (m : Nat → V) (t : TR V) : Option ((Nat → V) × TR V) :=
  match popDirs deg p (deg * p) m t with
  | none => none
  | some (m, t) => match getTaylor t with
    | none => none
    | some (v, t) => some (fun i => if i % deg = 0 ∧ i < deg * p then v else m i, t)

/-- Saving the row of a variable in a higher-order scalar sweep: `IF_KEEP_WRITE_TAYLOR`,
uni5_for.cpp:275-284; `row` is the base point and `keep - 1` coefficients. -/
def saveRow : List V → Strm V → Option (Strm V)
  | [], s => some s
  | v :: vs, s => match writeScaylor v s with
    | none => none
    | some s => if vs = [] then some s else writeTaylor (vs.length + 2) vs s

/-- A sequence of operations. -/
def runAll {α β : Type} (f : α → β → Option β) : List α → β → Option β
  | [], s => some s
  | x :: xs, s => match f x s with
    | none => none
    | some s => runAll f xs s

/-- `n` values popped one after the other (the reverse sweeps' `GET_TAYL`, fo_rev.cpp:637 and the like). -/
def popN : Nat → TR V → Option (List V × TR V)
  | 0, t => some ([], t)
  | n + 1, t => match getTaylor t with
    | none => none
    | some (v, t) => match popN n t with
      | none => none
      | some (vs, t) => some (v :: vs, t)

/-- Reverse sweeps one after the other, the i-th popping `ns[i]` values: each starts with
`taylor_back` (fo_rev.cpp:532). -/
def revSweeps : List Nat → TR V → Option (List (List V))
  | [], _ => some []
  | n :: ns, t => match taylorBack t with
    | none => none
    | some t => match popN n t with
      | none => none
      | some (vs, t) => match revSweeps ns t with
        | none => none
        | some vss => some (vs :: vss)

/-- `n` rows restored one after the other with `get` into memory `m`. -/
def popRows (get : (Nat → V) → TR V → Option ((Nat → V) × TR V)) (m : Nat → V) : Nat → TR V → Option (List (Nat → V) × TR V)
  | 0, t => some ([], t)
  | n + 1, t => match get m t with
    | none => none
    | some (r, t) => match popRows get m n t with
      | none => none
      | some (rs, t) => some (r :: rs, t)

/-- Saving the row of a variable in a higher-order vector sweep: `IF_KEEP_WRITE_TAYLOR`,
uni5_for.cpp:234-243 (`_HOV_`): base point, then `write_taylors`. -/
def saveRows : V × List (List V) → Strm V → Option (Strm V)
  | (x, rows), s => match writeScaylor x s with
    | none => none
    | some s => writeAll rows.flatten s

end Verif.IO
