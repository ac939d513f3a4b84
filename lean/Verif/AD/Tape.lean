import Mathlib.Algebra.Field.Defs
import Mathlib.Algebra.Order.Ring.Defs
import Mathlib.Order.Defs.LinearOrder

/-!
# Traces (`oplate.h`, the `case` labels of `uni5_for.cpp` / `fo_rev.cpp`)

A trace is a list of operations.  `Base` are operations whose operands are
locations written on the tape; `Op` adds the operations whose operand location is
found at run time (advector subscripts and adubref references).
-/
namespace Verif.AD

/-- The `<cmath>` functions the sweeps call, as opaque functions on the scalar
type, plus the two special constants `make_nan()`/`make_inf()` (valuetape.h) and
the conversions between values and locations used by adubref:
`idx v = (size_t)trunc(fabs(v))` and `ofLoc l = to_double(l)`. -/
class Elem (K : Type) where
  exp : K → K
  log : K → K
  sqrt : K → K
  cbrt : K → K
  sin : K → K
  cos : K → K
  atan : K → K
  asin : K → K
  acos : K → K
  asinh : K → K
  acosh : K → K
  atanh : K → K
  erf : K → K
  erfc : K → K
  pow : K → K → K
  ceil : K → K
  floor : K → K
  fabs : K → K
  nan : K
  inf : K
  idx : K → Nat
  ofLoc : Nat → K

/-- The scalar type of the sweeps: exact field with a decidable order.  (`double`
is replaced by exact arithmetic, see DESIGN.md.) -/
class Scalar (K : Type) extends Field K, LinearOrder K, IsStrictOrderedRing K, Elem K

/-- The six comparisons with zero: oplate.h `eq_zero … lt_zero`. -/
inductive Cmp where
  | eq | neq | le | gt | ge | lt
  deriving DecidableEq, Repr

/-- The eight functions recorded together with a location holding the value of
their derivative (uni5_for.cpp:2658-3285). -/
inductive Quad where
  | atan | asin | acos | asinh | acosh | atanh | erf | erfc
  deriving DecidableEq, Repr

/-- Operations with explicit locations.  Argument order is the order in which the
recorder puts the locations, i.e. arguments first and the result last; constants
(`coval`) come last.  oplate.h:30-170, uni5_for.cpp:1313-5507. -/
inductive Base (K : Type) where
  | cmp (c : Cmp) (arg : Nat)                       -- uni5_for.cpp:1313-1423
  | assignA (arg res : Nat)                         -- 1430
  | assignD (res : Nat) (c : K)                     -- 1459
  | assignP (p res : Nat)                           -- 1493
  | assignD0 (res : Nat)                            -- 1527
  | assignD1 (res : Nat)                            -- 1557
  | assignInd (res : Nat)                           -- 1588
  | assignDep (res : Nat)                           -- 1624
  | eqPlusD (res : Nat) (c : K)                     -- 1672
  | eqPlusA (arg res : Nat)                         -- 1688
  | eqMinD (res : Nat) (c : K)                      -- 1724
  | eqMinA (arg res : Nat)                          -- 1740
  | eqMultD (res : Nat) (c : K)                     -- 1776
  | eqMultA (arg res : Nat)                         -- 1803
  | incrA (res : Nat)                               -- 1858
  | decrA (res : Nat)                               -- 1869
  | plusAA (arg1 arg2 res : Nat)                    -- 1884
  | plusDA (arg res : Nat) (c : K)                  -- 1921
  | minAA (arg1 arg2 res : Nat)                     -- 1954
  | minDA (arg res : Nat) (c : K)                   -- 1992
  | multAA (arg1 arg2 res : Nat)                    -- 2029
  | eqPlusProd (arg1 arg2 res : Nat)                -- 2088
  | eqMinProd (arg1 arg2 res : Nat)                 -- 2154
  | multDA (arg res : Nat) (c : K)                  -- 2220
  | divAA (arg1 arg2 res : Nat)                     -- 2257
  | divDA (arg res : Nat) (c : K)                   -- 2323
  | posSign (arg res : Nat)                         -- 2391
  | negSign (arg res : Nat)                         -- 2419
  | expOp (arg res : Nat)                           -- 2455
  | sinOp (arg1 arg2 res : Nat)                     -- 2513
  | cosOp (arg1 arg2 res : Nat)                     -- 2585
  | quad (q : Quad) (arg1 arg2 res : Nat)           -- 2658-3285
  | logOp (arg res : Nat)                           -- 3288
  | powOp (arg res : Nat) (c : K)                   -- 3354
  | sqrtOp (arg res : Nat)                          -- 3494
  | cbrtOp (arg res : Nat)                          -- 3576
  | genQuad (arg1 arg2 res : Nat) (old c : K)       -- 3647
  | minOp (arg1 arg2 res : Nat) (c : K)             -- 3714
  | absVal (arg res : Nat) (c : K)                  -- 3872
  | ceilOp (arg res : Nat) (c : K)                  -- 3996
  | floorOp (arg res : Nat) (c : K)                 -- 4034
  | condAssign (arg arg1 arg2 res : Nat) (c : K)    -- 4076
  | condEqAssign (arg arg1 arg2 res : Nat) (c : K)  -- 4187
  | condAssignS (arg arg1 res : Nat) (c : K)        -- 4291
  | condEqAssignS (arg arg1 res : Nat) (c : K)      -- 4352
  | setRef (res : Nat) (c : K)                      -- 4534 (subscript_ref, index resolved)
  | vecCopy (arg size res : Nat)                    -- 4962
  | vecDot (arg1 arg2 size res : Nat)               -- 4992
  | vecAxpy (arg arg1 arg2 size res : Nat)          -- 5080
  | takeStock (res : Nat) (vals : List K)           -- 5468
  | deathNot (arg1 arg2 : Nat)                      -- 5496

variable {K : Type}

/-- `T[r] = v`. -/
def upd (T : Nat → K) (r : Nat) (v : K) : Nat → K := fun l => if l = r then v else T l

theorem upd_apply (T : Nat → K) (r : Nat) (v : K) (l : Nat) :
    upd T r v l = if l = r then v else T l := rfl

@[simp] theorem upd_same (T : Nat → K) (r : Nat) (v : K) : upd T r v r = v := by simp [upd]

@[simp] theorem upd_upd (T : Nat → K) (r : Nat) (v w : K) : upd (upd T r v) r w = upd T r w := by
  funext l; simp only [upd]; split <;> rfl

@[simp] theorem upd_self (T : Nat → K) (r : Nat) : upd T r (T r) = T := by
  funext l; simp only [upd]; split <;> simp_all

theorem upd_ne (T : Nat → K) {r l : Nat} (v : K) (h : l ≠ r) : upd T r v l = T l := by
  simp [upd, h]

/-- Outcome of the tests at uni5_for.cpp:1317,1336,1354,1374,1392,1412: does the
recorded comparison still hold? -/
def Cmp.holds [Zero K] [LinearOrder K] (c : Cmp) (v : K) : Bool :=
  match c with
  | .eq => v = 0
  | .neq => v ≠ 0
  | .le => v ≤ 0
  | .gt => 0 < v
  | .ge => 0 ≤ v
  | .lt => v < 0

/-- The function of a `Quad` operation (`asin(dp_T0[arg1])` etc.). -/
def Quad.fn [Elem K] (q : Quad) : K → K :=
  match q with
  | .atan => Elem.atan | .asin => Elem.asin | .acos => Elem.acos | .asinh => Elem.asinh
  | .acosh => Elem.acosh | .atanh => Elem.atanh | .erf => Elem.erf | .erfc => Elem.erfc

/-- Why a sweep stops early. -/
inductive Stop where
  /-- `ret_c = -1; operation = end_of_tape` (uni5_for.cpp:1323) -/
  | branchSwitch
  /-- `return -2` (uni5_for.cpp:3658) -/
  | quadChanged
  /-- `ADOLCError::fail(ADUBREF_OOB)` (uni5_for.cpp:4507, 4551) -/
  | outOfBounds
  deriving DecidableEq, Repr

/-- The code returned to the caller for a sweep that stops early
(the `outOfBounds` case throws instead of returning). -/
def Stop.code : Stop → Int
  | .branchSwitch => -1
  | .quadChanged => -2
  | .outOfBounds => -3

/-- What a sweep is called with: base point, direction, parameters, `keep`. -/
structure Cfg (K : Type) where
  x : Nat → K
  par : Nat → K
  keep : Bool

/-- `MINDEC(a,b)`: `if (b < a) a = b` (internal/common.h:137-142). -/
def mindec (a b : Int) : Int := if b < a then b else a

end Verif.AD
