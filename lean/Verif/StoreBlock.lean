/-
Model of the location manager `StoreManagerLocintBlock`
(ADOL-C/src/storemanager.cpp:224-580, ADOL-C/include/adolc/storemanager.h:155-222).

`size_t` is modelled by `Nat`.  Simplification: wrap-around of `maxsize *= 2` is not
modelled (`new double[maxsize]` throws long before 2^64; the check
`maxsize > numeric_limits<size_t>::max()` at storemanager.cpp:425 is never true and
is dropped).  Taking `front()` of an empty list, and indexing outside the store are
undefined behaviour in C++ and are modelled by `none`.
`#ifdef ADOLC_TRACK_ACTIVITY` (off by default) is not modelled.
-/
namespace Verif.StoreBlock

/-- `struct FreeBlock` (storemanager.h:163-171). -/
structure Blk where
  next : Nat
  size : Nat
deriving DecidableEq, Repr

/-- State of the block location manager: the free list `indexFree`, `maxsize`,
`currentfill`, the value array `storePtr` (a function, meaningful below `maxsize`),
and the garbage-collection trigger used by `ensure_block`
(storemanager.h:155-181 and StoreManager's `myGcTriggerRatio`, `myGcTriggerMaxSize`,
storemanager.h:84-85).  The trigger
`double(maxSize())/double(size()) > ratio || maxSize() > gcMaxSize`
is kept as an arbitrary predicate of `(maxSize, size)`, which covers every setting of
the two controls and any rounding of the floating-point quotient. -/
structure SM (α : Type) where
  free : List Blk
  maxsize : Nat
  fill : Nat
  store : Nat → α
  gc : Nat → Nat → Bool

/-- `StoreManager::initialSize` (storemanager.h:83). -/
def initialSize : Nat := 4

/-- Freshly constructed manager (storemanager.cpp:268-285): empty free list, size 0. -/
def SM.init {α : Type} [Zero α] (gc : Nat → Nat → Bool) : SM α :=
  { free := [], maxsize := 0, fill := 0, store := fun _ => 0, gc := gc }

/-- The loop `while (maxsize - oldMaxsize < minGrow) maxsize *= 2;`
(storemanager.cpp:419-423).  The guard `0 < m` only makes the function total;
`growTarget` always calls it with `m > 0`. -/
def growLoop (old minGrow m : Nat) : Nat :=
  if m - old < minGrow ∧ 0 < m then growLoop old minGrow (2 * m) else m
termination_by minGrow + old - m
decreasing_by omega

/-- New size of the store (storemanager.cpp:410-423). -/
def growTarget (old minGrow : Nat) : Nat :=
  growLoop old minGrow (if old = 0 then initialSize else old * 2)

/-- The search loop of `grow` for the free block that ends at the old end of the store
(storemanager.cpp:481-493): the first such block and the list without it. -/
def extractTail (old : Nat) : List Blk → Option (Blk × List Blk)
  | [] => none
  | b :: bs =>
    if b.next + b.size = old then some (b, bs)
    else match extractTail old bs with
      | none => none
      | some (c, cs) => some (c, b :: cs)

/-- The clean-up loop "don't leave 0 blocks around" (storemanager.cpp:507-517). -/
def dropEmpty : List Blk → List Blk
  | [] => []
  | b :: bs => if b.size = 0 then dropEmpty bs else b :: dropEmpty bs

/-- `StoreManagerLocintBlock::grow` (storemanager.cpp:409-525).  `memset` to zero and
`memcpy` of the old values (lines 447-478) give the new store. -/
def SM.grow {α : Type} [Zero α] (s : SM α) (minGrow : Nat) : SM α :=
  let old := s.maxsize
  let mx := growTarget old minGrow
  let fl := match extractTail old s.free with
    | some (b, rest) => { b with size := b.size + (mx - old) } :: rest
    | none => { next := old, size := mx - old } :: s.free
  { s with
    free := dropEmpty fl
    maxsize := mx
    store := fun i => if i < old then s.store i else 0 }

/-- `StoreManagerLocintBlock::next_loc` (storemanager.cpp:329-354). -/
def SM.nextLoc {α : Type} [Zero α] (s : SM α) : Option (Nat × SM α) :=
  let s1 := if s.free.isEmpty then s.grow 0 else s
  match s1.free with
  | [] => none
  | front :: rest =>
    let result := front.next
    if front.size - 1 = 0 then
      if rest.isEmpty then
        let s2 := { s1 with free := [{ next := front.next + 1, size := 0 }] }
        let s3 := s2.grow 0
        some (result, { s3 with fill := s3.fill + 1 })
      else
        some (result, { s1 with free := rest, fill := s1.fill + 1 })
    else
      some (result, { s1 with
        free := { next := front.next + 1, size := front.size - 1 } :: rest
        fill := s1.fill + 1 })

/-- `StoreManagerLocintBlock::free_loc` (storemanager.cpp:527-556).  The `assert`
and `front()` of an empty list are the failure cases. -/
def SM.freeLoc {α : Type} (s : SM α) (loc : Nat) : Option (SM α) :=
  if s.maxsize ≤ loc then none else
  match s.free with
  | [] => none
  | front :: rest =>
    if loc + 1 = front.next ∨ front.next + front.size = loc then
      let nx := if loc + 1 = front.next then loc else front.next
      some { s with free := { next := nx, size := front.size + 1 } :: rest
                    fill := s.fill - 1 }
    else
      some { s with free := { next := loc, size := 1 } :: front :: rest
                    fill := s.fill - 1 }

/-- The merging loop of `consolidateBlocks` over the sorted list
(storemanager.cpp:560-571): `niter` is the block last kept, `iter` runs over the rest. -/
def mergeAdj (cur : Blk) : List Blk → List Blk
  | [] => [cur]
  | b :: bs =>
    if cur.next + cur.size = b.next then mergeAdj { cur with size := cur.size + b.size } bs
    else cur :: mergeAdj b bs

/-- `StoreManagerLocintBlock::consolidateBlocks` (storemanager.cpp:558-580);
`forward_list::sort` with `operator<` on `next` is a stable merge sort. -/
def consolidate (fl : List Blk) : List Blk :=
  match fl.mergeSort (fun a b => decide (a.next ≤ b.next)) with
  | [] => []
  | b :: bs => mergeAdj b bs

/-- The search loop of `ensure_block` (storemanager.cpp:381-393): the first block of
size at least `n`, moved to the front. -/
def extractFit (n : Nat) : List Blk → Option (Blk × List Blk)
  | [] => none
  | b :: bs =>
    if n ≤ b.size then some (b, bs)
    else match extractFit n bs with
      | none => none
      | some (c, cs) => some (c, b :: cs)

/-- `StoreManagerLocintBlock::ensure_block` (storemanager.cpp:356-407). -/
def SM.ensureBlock {α : Type} [Zero α] (s : SM α) (n : Nat) : Option (SM α) :=
  if s.maxsize - s.fill > n then
    match s.free with
    | [] => none
    | front :: _ =>
      if n ≤ front.size then some s
      else if s.gc s.maxsize s.fill then
        let fl := consolidate s.free
        match extractFit n fl with
        | some (b, rest) => some { s with free := b :: rest }
        | none => some ({ s with free := fl }.grow n)
      else some (s.grow n)
  else some (s.grow n)

/-- `setStoreManagerControl` (storemanager.h:99-102). -/
def SM.setControl {α : Type} (s : SM α) (gc : Nat → Nat → Bool) : SM α := { s with gc := gc }

/-- `set_ad_value` (valuetape.h:462-465): `store[loc] = coval`. -/
def SM.write {α : Type} (s : SM α) (loc : Nat) (v : α) : Option (SM α) :=
  if s.maxsize ≤ loc then none
  else some { s with store := fun i => if i = loc then v else s.store i }

/-- `get_ad_value` (valuetape.h:461). -/
def SM.read {α : Type} (s : SM α) (loc : Nat) : Option α :=
  if s.maxsize ≤ loc then none else some (s.store loc)

end Verif.StoreBlock
