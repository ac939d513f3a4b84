import Verif.IO.Doc
set_option linter.all false

/-!
Specification of the listing of a trace, independent of the printing routines: which operations the
overloaded operators record, and the ten cells of the line of an operation.
-/
namespace Verif.IO.Doc
open Verif.IO
variable {V : Type}

/-- Opcode (oplate.h), number of locations and number of values of every operation of fixed shape, as recorded
by the operators (adouble.cpp, pdouble.cpp, advector.cpp; `death_not`: valuetape.cpp). -/
def arities : List (Nat × Nat × Nat) :=
  [(0, 2, 0), (1, 1, 0), (2, 1, 0), (3, 2, 0), (4, 1, 1), (5, 1, 1),  -- death_not assign_ind assign_dep assign_a assign_d eq_plus_d
   (6, 2, 0), (7, 1, 1), (8, 2, 0), (9, 1, 1), (10, 2, 0), (11, 3, 0),  -- eq_plus_a eq_min_d eq_min_a eq_mult_d eq_mult_a plus_a_a
   (12, 2, 1), (13, 3, 0), (14, 2, 1), (15, 3, 0), (16, 2, 1), (17, 3, 0),  -- plus_d_a min_a_a min_d_a mult_a_a mult_d_a div_a_a
   (18, 2, 1), (19, 2, 0), (20, 3, 0), (21, 3, 0), (22, 3, 0), (23, 2, 0),  -- div_d_a exp_op cos_op sin_op atan_op log_op
   (24, 2, 1), (25, 3, 0), (26, 3, 0), (27, 2, 0), (28, 3, 0), (29, 3, 0),  -- pow_op asin_op acos_op sqrt_op asinh_op acosh_op
   (30, 3, 0), (31, 3, 2), (37, 4, 1), (38, 3, 1), (40, 1, 0), (41, 1, 0),  -- atanh_op gen_quad cond_assign cond_assign_s assign_d_one assign_d_zero
   (42, 1, 0), (43, 1, 0), (44, 2, 0), (45, 2, 0), (46, 3, 1), (47, 2, 1),  -- incr_a decr_a neg_sign_a pos_sign_a min_op abs_val
   (48, 1, 0), (49, 1, 0), (50, 1, 0), (51, 1, 0), (52, 1, 0), (53, 1, 0),  -- eq_zero neq_zero le_zero gt_zero ge_zero lt_zero
   (54, 3, 0), (55, 3, 0), (56, 3, 0), (57, 3, 0), (58, 2, 1), (59, 2, 1),  -- eq_plus_prod eq_min_prod erf_op erfc_op ceil_op floor_op
   (64, 4, 1), (65, 3, 1), (66, 3, 1), (67, 3, 1), (68, 1, 0), (69, 1, 0),  -- cond_eq_assign cond_eq_assign_s subscript subscript_ref ref_assign_d_zero ref_assign_d_one
   (70, 1, 1), (71, 2, 0), (72, 1, 0), (73, 1, 0), (74, 1, 0), (75, 1, 1),  -- ref_assign_d ref_assign_a ref_assign_ind ref_incr_a ref_decr_a ref_eq_plus_d
   (76, 1, 1), (77, 2, 0), (78, 2, 0), (79, 1, 1), (80, 2, 0), (81, 2, 0),  -- ref_eq_min_d ref_eq_plus_a ref_eq_min_a ref_eq_mult_d ref_eq_mult_a ref_copyout
   (82, 4, 1), (83, 3, 1), (84, 3, 0), (85, 4, 0), (86, 5, 0), (87, 4, 1),  -- ref_cond_assign ref_cond_assign_s vec_copy vec_dot vec_axpy ref_cond_eq_assign
   (88, 3, 1), (89, 2, 0), (90, 3, 1), (91, 3, 1), (92, 3, 1), (93, 3, 1),  -- ref_cond_eq_assign_s assign_p eq_a_a neq_a_a le_a_a gt_a_a
   (94, 3, 1), (95, 3, 1), (112, 2, 0)]  -- ge_a_a lt_a_a cbrt_op

/-- The operations whose line `tape_doc` prints incorrectly or not at all: the `…_eq_assign`, `subscript`, `ref_…`
operations (64–83, 87, 88), `assign_p` (89), the comparisons of two `adouble`s (90–95), and `vec_axpy` (86). -/
def unlisted : List Nat := (List.range 20).map (64 + ·) ++ (List.range 10).map (86 + ·)

/-- An operation `tape_doc` knows, recorded as the operators record it: one of fixed shape, or a
block of initial values (`take_stock_op`, 39). -/
def Plain (it : Item V) : Prop :=
  (it.code = 39 ∧ (∃ l, it.locs = [it.vals.length, l]) ∧ it.vals ≠ []) ∨
  ((it.code, it.locs.length, it.vals.length) ∈ arities ∧ it.code ∉ unlisted)

/-- The name printed for an opcode. -/
def nameOf (code : Nat) : String := if code = 39 then "take stock op" else ((caseOf code).map (·.name)).getD ""

/-- The constants shown: those of the operation; of a block of initial values, the first. -/
def shownVals (it : Item V) : List V := if it.code = 39 then it.vals.take 1 else it.vals

/-- The ten cells of the line of an operation: position from the start and from the end, opcode,
name, the locations in the order recorded in the last of four cells, the constants in the last of two. -/
def cells (cnt rev : Nat) (it : Item V) : List (List (Tok V)) :=
  [[.num cnt], [.num rev], [.num it.code], [.txt (nameOf it.code)]] ++
    List.replicate (4 - it.locs.length) [] ++ it.locs.map (fun l => [.num l]) ++
    List.replicate (2 - (shownVals it).length) [] ++ (shownVals it).map (fun v => [.dbl v])

/-- The columns of a printed line. -/
def cols : List (Tok V) → List (List (Tok V))
  | [] => [[]]
  | .amp :: ts => [] :: cols ts
  | t :: ts => match cols ts with
    | c :: cs => (t :: c) :: cs
    | [] => [[t]]

/-- A line is that of a marker: its third cell is `end_of_op`, `end_of_int` or `end_of_val` (34–36). -/
def isMarker (t : List (Tok V)) : Bool :=
  match cols t with
  | _ :: _ :: [.num c] :: _ => c = 34 || c = 35 || c = 36
  | _ => false

/-- The lines of operations, in the order printed, as cells. -/
def itemRows (ls : List (Line V)) : List (List (List (Tok V))) :=
  ls.filterMap fun
    | .row t => if isMarker t then none else some (cols t)
    | _ => none

/-- The rows are those of the operations, one each and in order; the first cell of each is the
position (from 1) of its opcode on the operation tape `ops`, the second its position from the end. -/
def Lists (ops : List Code) (is : List (Item V)) (rows : List (List (List (Tok V)))) : Prop :=
  ∃ cs : List Nat, cs.Pairwise (· < ·) ∧
    List.Forall₂ (fun c (it : Item V) => 0 < c ∧ ops[c - 1]? = some (.op it.code)) cs is ∧
    rows = List.zipWith (fun c it => cells c (ops.length + 1 - c) it) cs is

/-- No page is too long: between two page breaks (and before the first) there are at most `n` lines in succession. -/
def PagesAtMost (n : Nat) (ls : List (Line V)) : Prop :=
  ∀ a b c, ls = a ++ b ++ c → (∀ x ∈ b, ∃ t, x = .row t) → b.length ≤ n

end Verif.IO.Doc
