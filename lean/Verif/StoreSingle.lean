/-
Model of the location manager `StoreManagerLocint`
(ADOL-C/src/storemanager.cpp:58-222, ADOL-C/include/adolc/storemanager.h:115-153):
a singly linked free list threaded through the array `indexFree`, 0 = end of list.
`size_t` is `Nat`; reading or writing outside an array, and the failing `assert`s, are `none`.
Debug output and activity tracking are not modelled.
-/
namespace Verif.StoreSingle

/-- `StoreManager::initialSize` (storemanager.h:83). -/
def initialSize : Nat := 4

/-- Fields of `StoreManagerLocint` (storemanager.h:117-126). -/
structure SM (α : Type) where
  indexFree : Nat → Nat
  head : Nat
  maxsize : Nat
  fill : Nat
  store : Nat → α

/-- Constructor (storemanager.cpp:58-69) on a null store of size 0
(globaltapevarscl.cpp:81-107 `reallocStore`). -/
def SM.init {α : Type} [Zero α] : SM α :=
  { indexFree := fun _ => 0, head := 0, maxsize := 0, fill := 0, store := fun _ => 0 }

/-- `StoreManagerLocint::grow` (storemanager.cpp:138-222).  The freshly allocated part of
`storePtr` is uninitialised in C++; here it is given by the arbitrary function `junk`. -/
def SM.grow {α : Type} (junk : Nat → α) (s : SM α) (mingrow : Nat) : SM α :=
  let m0 := if s.maxsize = 0 then s.maxsize + initialSize else s.maxsize
  let old := m0
  let m1 := m0 * 2
  let mx := if m1 < mingrow then mingrow else m1
  let first := old = initialSize          -- `if (oldMaxsize != initialSize)` is the copy branch
  let i := if first then 1 else old
  { s with
    maxsize := mx
    head := i
    store := fun j => if ¬ first ∧ 1 ≤ j ∧ j < old then s.store j else junk j
    indexFree := fun j =>
      if j + 1 = mx then 0
      else if i ≤ j ∧ j < mx then j + 1
      else if ¬ first ∧ 1 ≤ j ∧ j < old then s.indexFree j
      else 0 }

/-- `StoreManagerLocint::next_loc` (storemanager.cpp:109-122). -/
def SM.nextLoc {α : Type} (junk : Nat → α) (s : SM α) : Option (Nat × SM α) :=
  let s1 := if s.head = 0 then s.grow junk 0 else s
  if s1.head = 0 then none
  else if s1.maxsize ≤ s1.head then none
  else some (s1.head, { s1 with head := s1.indexFree s1.head, fill := s1.fill + 1 })

/-- `StoreManagerLocint::free_loc` (storemanager.cpp:124-133). -/
def SM.freeLoc {α : Type} (s : SM α) (loc : Nat) : Option (SM α) :=
  if 0 < loc ∧ loc < s.maxsize then
    some { s with indexFree := fun j => if j = loc then s.head else s.indexFree j
                  head := loc, fill := s.fill - 1 }
  else none

/-- `StoreManagerLocint::ensure_block` (storemanager.cpp:135-137): always raises
`SM_LOCINT_BLOCK`. -/
def SM.ensureBlock {α : Type} (_ : SM α) (_ : Nat) : Option (SM α) := none

/-- `set_ad_value` (valuetape.h:462-465). -/
def SM.write {α : Type} (s : SM α) (loc : Nat) (v : α) : Option (SM α) :=
  if s.maxsize ≤ loc then none
  else some { s with store := fun i => if i = loc then v else s.store i }

/-- `get_ad_value` (valuetape.h:461). -/
def SM.read {α : Type} (s : SM α) (loc : Nat) : Option α :=
  if s.maxsize ≤ loc then none else some (s.store loc)

end Verif.StoreSingle
