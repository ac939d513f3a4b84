import Verif.IO.TapeHist
set_option linter.all false

/-!
# `tapedoc/tapedoc.cpp`: the LaTeX listing of a trace

`tape_doc` reads the trace forward and prints one line of a table per operation: the number of the
operation counted from the start and from the end, the opcode, its name, up to four locations
(right-justified) and up to two constants (right-justified).

Modelled: the listing without `ADOLC_TAPE_DOC_VALUES`, AMPI and MEDIPACK (the default build).  The
text is a list of printed pieces, where `&` (which separates the columns) is a piece of its own;
fixed text (preamble, table heads, page breaks) is one piece.  `int` and `size_t` counters do not
overflow; `rev_op_cnt` stays positive on a trace that ends with `end_of_tape`.  The file can be
opened.  `none`: reading outside what was loaded.
-/
namespace Verif.IO.Doc
open Verif.IO
variable {V : Type}

/-- What is printed inside a line. -/
inductive Tok (V : Type) where
  | amp
  | txt (s : String)
  | num (n : Nat)
  /-- `fctn n`: tapedoc.cpp:127. -/
  | fctn (n : Nat)
  | dbl (v : V)
deriving DecidableEq

/-- The pieces of the file. -/
inductive Line (V : Type) where
  /-- preamble, head of the table and the line of `start_of_tape`: tapedoc.cpp:53-81 -/
  | top (code : Nat)
  /-- end of the table, `\newpage`, head of the next table: tapedoc.cpp:85-94 -/
  | brk
  | row (t : List (Tok V))
  /-- the line of `end_of_tape` and the end of the document: tapedoc.cpp:210-222 -/
  | bottom (cnt rev code : Nat)
deriving DecidableEq

/-- tapedoc.cpp:119-120. -/
def isExt (code : Nat) : Bool := code = 60 || code = 61 || code = 63

/-- The line printed by `filewrite`: tapedoc.cpp:110-118 (counters, opcode, name), 119-132 (locations; `4 - nloc`
is negative for more than four, then nothing is padded), 157-169 (constants), for `nloc = locs.length`, `ncst = csts.length`. -/
def fwRow (cnt rev code : Nat) (name : String) (locs : List Nat) (csts : List V) : List (Tok V) :=
  [.num cnt, .amp, .num rev, .amp, .num code, .amp, .txt name, .amp] ++
  (if isExt code then
    match locs with
    | [] => []
    | l :: ls => .fctn l :: .amp :: (List.replicate (4 - locs.length - 1) .amp ++ ls.flatMap fun l => [.num l, .amp])
  else List.replicate (4 - locs.length) .amp ++ locs.flatMap fun l => [.num l, .amp]) ++
  (match csts with
  | [] => [.amp]
  | c :: cs => List.replicate (2 - (c :: cs).length) .amp ++ (.dbl c :: cs.flatMap fun c => [.amp, .dbl c]))

/-- `filewrite`: tapedoc.cpp:104-174 with `checkPageBreak` (83-98): the lines added to the file and
the new `pagelength`. -/
def filewrite (pg : Int) (cnt rev code : Nat) (name : String) (locs : List Nat) (csts : List V) :
    List (Line V) × Int :=
  if pg = 100 then ([.brk, .row (fwRow cnt rev code name locs csts)], -1 + 1)
  else ([.row (fwRow cnt rev code name locs csts)], pg + 1)

/-- A case of the switch that reads `nl` locations into `loc_a[0..]`, then `nv` values into
`cst_d[0..]` and prints all of them. -/
structure Case where
  name : String
  nl : Nat
  nv : Nat

/-- The regular cases of the switch. -/
def cases : List (Nat × Case) :=
  [(48, ⟨"eq zero", 1, 0⟩), -- eq_zero: tapedoc.cpp:335
  (49, ⟨"neq zero", 1, 0⟩), -- neq_zero: tapedoc.cpp:343
  (50, ⟨"le zero", 1, 0⟩), -- le_zero: tapedoc.cpp:351
  (51, ⟨"gt zero", 1, 0⟩), -- gt_zero: tapedoc.cpp:359
  (52, ⟨"ge zero", 1, 0⟩), -- ge_zero: tapedoc.cpp:367
  (53, ⟨"lt zero", 1, 0⟩), -- lt_zero: tapedoc.cpp:375
  (3, ⟨"assign a", 2, 0⟩), -- assign_a: tapedoc.cpp:389
  (4, ⟨"assigne d", 1, 1⟩), -- assign_d: tapedoc.cpp:404
  (40, ⟨"assign d one", 1, 0⟩), -- assign_d_one: tapedoc.cpp:417
  (41, ⟨"assign d zero", 1, 0⟩), -- assign_d_zero: tapedoc.cpp:429
  (1, ⟨"assign ind", 1, 0⟩), -- assign_ind: tapedoc.cpp:441
  (2, ⟨"assign dep", 1, 0⟩), -- assign_dep: tapedoc.cpp:457
  (5, ⟨"eq plus d", 1, 1⟩), -- eq_plus_d: tapedoc.cpp:473
  (6, ⟨"eq plus a", 2, 0⟩), -- eq_plus_a: tapedoc.cpp:487
  (54, ⟨"eq plus prod", 3, 0⟩), -- eq_plus_prod: tapedoc.cpp:502
  (7, ⟨"eq min d", 1, 1⟩), -- eq_min_d: tapedoc.cpp:520
  (8, ⟨"eq min a", 2, 0⟩), -- eq_min_a: tapedoc.cpp:534
  (55, ⟨"eq min prod", 3, 0⟩), -- eq_min_prod: tapedoc.cpp:549
  (9, ⟨"eq mult d", 1, 1⟩), -- eq_mult_d: tapedoc.cpp:567
  (10, ⟨"eq mult a", 2, 0⟩), -- eq_mult_a: tapedoc.cpp:581
  (42, ⟨"incr a", 1, 0⟩), -- incr_a: tapedoc.cpp:596
  (43, ⟨"decr a", 1, 0⟩), -- decr_a: tapedoc.cpp:607
  (11, ⟨"plus a a", 3, 0⟩), -- plus_a_a: tapedoc.cpp:622
  (12, ⟨"plus d a", 2, 1⟩), -- plus_d_a: tapedoc.cpp:639
  (13, ⟨"min a a", 3, 0⟩), -- min_a_a: tapedoc.cpp:656
  (14, ⟨"min d a", 2, 1⟩), -- min_d_a: tapedoc.cpp:674
  (15, ⟨"mult a a", 3, 0⟩), -- mult_a_a: tapedoc.cpp:691
  (16, ⟨"mult d a", 2, 1⟩), -- mult_d_a: tapedoc.cpp:708
  (17, ⟨"div a a", 3, 0⟩), -- div_a_a: tapedoc.cpp:725
  (18, ⟨"div d a", 2, 1⟩), -- div_d_a: tapedoc.cpp:743
  (45, ⟨"pos sign a", 2, 0⟩), -- pos_sign_a: tapedoc.cpp:763
  (44, ⟨"neg sign a", 2, 0⟩), -- neg_sign_a: tapedoc.cpp:777
  (19, ⟨"exp op", 2, 0⟩), -- exp_op: tapedoc.cpp:795
  (21, ⟨"sin op", 3, 0⟩), -- sin_op: tapedoc.cpp:810
  (20, ⟨"cos op", 3, 0⟩), -- cos_op: tapedoc.cpp:830
  (22, ⟨"atan op", 3, 0⟩), -- atan_op: tapedoc.cpp:850
  (25, ⟨"asin op", 3, 0⟩), -- asin_op: tapedoc.cpp:868
  (26, ⟨"acos op", 3, 0⟩), -- acos_op: tapedoc.cpp:886
  (28, ⟨"asinh op", 3, 0⟩), -- asinh_op: tapedoc.cpp:904
  (29, ⟨"acosh op", 3, 0⟩), -- acosh_op: tapedoc.cpp:922
  (30, ⟨"atanh op", 3, 0⟩), -- atanh_op: tapedoc.cpp:940
  (56, ⟨"erf op", 3, 0⟩), -- erf_op: tapedoc.cpp:958
  (57, ⟨"erfc op", 3, 0⟩), -- erfc_op: tapedoc.cpp:976
  (23, ⟨"log op", 2, 0⟩), -- log_op: tapedoc.cpp:994
  (24, ⟨"pow op", 2, 1⟩), -- pow_op: tapedoc.cpp:1009
  (27, ⟨"sqrt op", 2, 0⟩), -- sqrt_op: tapedoc.cpp:1026
  (112, ⟨"cbrt op", 2, 0⟩), -- cbrt_op: tapedoc.cpp:1041
  (31, ⟨"gen quad", 3, 2⟩), -- gen_quad: tapedoc.cpp:1056
  (46, ⟨"min op", 3, 1⟩), -- min_op: tapedoc.cpp:1075
  (47, ⟨"abs val", 2, 1⟩), -- abs_val: tapedoc.cpp:1097
  (58, ⟨"ceil op", 2, 1⟩), -- ceil_op: tapedoc.cpp:1113
  (59, ⟨"floor op", 2, 1⟩), -- floor_op: tapedoc.cpp:1129
  (37, ⟨"cond assign $\\longrightarrow$", 4, 1⟩), -- cond_assign: tapedoc.cpp:1149
  (38, ⟨"cond assign s $\\longrightarrow$", 3, 1⟩), -- cond_assign_s: tapedoc.cpp:1175
  (84, ⟨"vec copy $\\longrightarrow$", 3, 0⟩), -- vec_copy: tapedoc.cpp:1195
  (85, ⟨"vec dot $\\longrightarrow$", 4, 0⟩), -- vec_dot: tapedoc.cpp:1209
  (0, ⟨"death not", 2, 0⟩)] -- death_not: tapedoc.cpp:1268

def caseOf (code : Nat) : Option Case := (cases.find? (·.1 == code)).map (·.2)

/-- One location: `get_locint_f`. -/
def loc1 (r : R V) : Option (Nat × R V) := r.loc.next.map fun x => (x.1, { r with loc := x.2 })
/-- `n` calls of `get_locint_f`. -/
def locN (n : Nat) (r : R V) : Option (List Nat × R V) := (r.loc.nexts n).map fun x => (x.1, { r with loc := x.2 })
/-- `n` calls of `get_val_f`; also `get_val_v_f(n)` (tapeinfos.h:284-288). -/
def valN (n : Nat) (r : R V) : Option (List V × R V) := (r.val.nexts n).map fun x => (x.1, { r with val := x.2 })

/-- The body of the `switch` for an operation that is not a marker, after its opcode was read: what
is passed to `filewrite` (name, locations, constants), or nothing (`default:`, tapedoc.cpp:1564-1568, which
only prints a message on the error stream), and the state of the streams. -/
def readCase (code : Nat) (r : R V) : Option (Option (String × List Nat × List V) × R V) :=
  if code = 39 then -- take_stock_op: tapedoc.cpp:1251-1265
    match locN 2 r with
    | some ([size, res], r) =>
      match valN size r, r.val.buf[r.val.pos]? with
      | some (_, r), some d0 => some (some ("take stock op", [size, res], [d0]), r)
      | _, _ => none
    | _ => none
  else if code = 86 then -- vec_axpy: tapedoc.cpp:1227-1243 (`loc_a[1]` is written twice)
    match locN 5 r with
    | some ([res, _, arg1, arg2, size], r) => some (some ("vec axpy $\\longrightarrow$", [res, arg1, arg2, size], []), r)
    | _ => none
  else if code = 60 then -- ext_diff: tapedoc.cpp:1277-1285 (`loc_a[3]` is written three times, and not printed)
    match locN 6 r with
    | some ([i, n, m, _, _, _], r) => some (some ("extern diff", [i + 1, n, m], []), r)
    | _ => none
  else if code = 61 then -- ext_diff_iArr: tapedoc.cpp:1287-1299
    match loc1 r with
    | some (k, r) => match locN k r with
      | some (_, r) => match loc1 r with
        | some (_, r) => match locN 6 r with
          | some ([i, n, m, _, _, _], r) => some (some ("extern diff iArr", [i + 1, n, m], []), r)
          | _ => none
        | none => none
      | none => none
    | none => none
  else if code = 63 then -- ext_diff_v2: tapedoc.cpp:1300-1321
    match locN 2 r with
    | some ([i, k], r) => match locN k r with
      | some (_, r) => match locN 3 r with
        | some ([_, nin, nout], r) => match locN (2 * nin) r with
          | some (_, r) => match locN (2 * nout) r with
            | some (_, r) => match locN 2 r with
              | some (_, r) => some (some ("extern diff v2", [i, nin, nout], []), r)
              | none => none
            | none => none
          | none => none
        | _ => none
      | none => none
    | _ => none
  else match caseOf code with
    | some k => match locN k.nl r with
      | some (ls, r) => match valN k.nv r with
        | some (vs, r) => some (some (k.name, ls, vs), r)
        | none => none
      | none => none
    | none => some (none, r)

/-- The loop of `tape_doc`: tapedoc.cpp:289-1580.  `cnt` and `rev` are `op_cnt` and `rev_op_cnt`
after the opcode at the reader was counted, `pg` is `pagelength`; `fuel` bounds the number of
iterations.  The second marker after `end_of_op` is counted as well (300-307). -/
def docLoop : Nat → R V → (cnt rev : Nat) → (pg : Int) → Option (List (Line V))
  | 0, _, _, _, _ => none
  | fuel + 1, r, cnt, rev, pg =>
    match r.op.next with
    | none => none
    | some (.endOp, o) => match o.blockF with
      | none => none
      | some o => match o.next with
        | none => none
        | some (_, o) =>
          let f := filewrite (V := V) pg cnt rev 34 "end of op" [] []
          (docLoop fuel { r with op := o } (cnt + 2) (rev - 2) f.2).map (f.1 ++ ·)
    | some (.endInt, o) => match r.loc.blockF with
      | none => none
      | some l =>
        let f := filewrite (V := V) pg cnt rev 35 "end of int" [] []
        (docLoop fuel { r with op := o, loc := l } (cnt + 1) (rev - 1) f.2).map (f.1 ++ ·)
    | some (.endVal, o) => match r.val.blockF with
      | none => none
      | some v =>
        let f := filewrite (V := V) pg cnt rev 36 "end of val" [] []
        (docLoop fuel { r with op := o, val := v, loc := { r.loc with pos := r.loc.pos + 1 } } (cnt + 1) (rev - 1) f.2).map (f.1 ++ ·)
    | some (.op c, o) =>
      if c = 32 then some [.bottom cnt rev c]
      else if c = 33 then (docLoop fuel { r with op := o } (cnt + 1) (rev - 1) 0).map (.top c :: ·)
      else match readCase c { r with op := o } with
        | none => none
        | some (none, r) => docLoop fuel r (cnt + 1) (rev - 1) pg
        | some (some (name, ls, cs), r) =>
          let f := filewrite pg cnt rev c name ls cs
          (docLoop fuel r (cnt + 1) (rev - 1) f.2).map (f.1 ++ ·)

/-- What a call of `tape_doc` leaves: the file, or the exception and no file. -/
inductive Res (V : Type) where
  | file (ls : List (Line V))
  | mismatch
deriving DecidableEq

/-- `tape_doc(tag, depcheck, indcheck, …)`: tapedoc.cpp:226-1592; `nops`, `ndep`, `nind` are the
statistics of the trace (`NUM_OPERATIONS` is the number of opcodes on the tape, valuetape.cpp:396-407).
A negative `depcheck` or `indcheck` is converted to a huge number and never agrees. -/
def tapeDoc (fuel nops ndep nind : Nat) (depcheck indcheck : Int) (r : R V) : Option (Res V) :=
  if depcheck ≠ ndep ∨ indcheck ≠ nind then some .mismatch
  else (docLoop fuel r 1 (nops + 1 - 1) 0).map .file

end Verif.IO.Doc
