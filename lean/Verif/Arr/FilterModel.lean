import Verif.Dense.DenseModel

/-!
# Model of `arolla/array/id_filter.{h,cc}`

Ids are `Int`, offsets are `Nat`; `none` is a read outside of a buffer (or out of fuel).  Fuel is always
chosen by the modelled function itself, never by the caller.  `std::lower_bound` is modelled by its
contract on a sorted range.  `kDenseSparsityLimit * size` (a `double`) is modelled exactly; the rounding
of sizes above 2^53 is not modelled.
-/

namespace Verif.Arr
open Verif.Dense

/-- `IdFilter::Type` — id_filter.h:41-45. -/
inductive FType where
  | empty
  | partial'
  | full
  deriving DecidableEq

/-- `IdFilter` — id_filter.h:36-178. -/
structure Filter where
  typ : FType
  ids : List Int
  off : Int
  deriving DecidableEq

/-- `IdFilter(kEmpty)` — id_filter.h:55-58. -/
def Filter.emptyF : Filter := ⟨.empty, [], 0⟩
/-- `IdFilter(kFull)` — id_filter.h:55-58. -/
def Filter.fullF : Filter := ⟨.full, [], 0⟩

/-- `IdFilter(size, ids, ids_offset)` — id_filter.h:64-83.  (The checks read `ids` after it was moved
from; moving a `Buffer` leaves its span in place.) -/
def mkFilter (size : Nat) (ids : List Int) (off : Int) : Filter :=
  if ids = [] then ⟨.empty, ids, 0⟩
  else if ids.length = size then ⟨.full, [], 0⟩
  else ⟨.partial', ids, off⟩

/-- `std::lower_bound(begin, end, v) - begin`. -/
def lb (xs : List Int) (v : Int) : Nat := (xs.takeWhile (fun x => decide (x < v))).length

/-- `IdToOffset` — id_filter.h:85-100. -/
def Filter.idToOffset (f : Filter) (id : Nat) : Option Nat :=
  match f.typ with
  | .full => some id
  | .partial' =>
    let offset := lb f.ids (id + f.off)
    if offset ≠ f.ids.length ∧ f.ids[offset]? = some (id + f.off) then some offset else none
  | .empty => none

/-- `IdsOffsetToId` — id_filter.h:102-107. -/
def Filter.idsOffsetToId (f : Filter) (offset : Nat) : Option Int := f.ids[offset]?.map (· - f.off)

/-- `IsSame` — id_filter.h:111-119.  `pe` answers whether the two `ids` buffers are the same memory; all
that is assumed about it (see `PtrEq`) is that the same memory has the same content. -/
def Filter.isSame (pe : List Int → List Int → Bool) (a b : Filter) : Bool :=
  if a.typ ≠ b.typ then false
  else if a.typ = .partial' then pe a.ids b.ids && decide (a.off = b.off)
  else true

/-- `*(begin + i) - ids_offset`. -/
def rdId (l : List Int) (off : Int) (i : Nat) : Option Int := l[i]?.map (· - off)

/-- `while (id < bound) id = *(++iter) - ids_offset` — id_filter.h:205-207, 212-217. -/
def adv (l : List Int) (off bound : Int) : Nat → Nat → Int → Option (Nat × Int)
  | 0, _, _ => none
  | fuel + 1, i, id =>
    if id < bound then do adv l off bound fuel (i + 1) (← rdId l off (i + 1)) else some (i, id)

/-- State of the main loop: positions and ids of both iterators. -/
structure CState where
  i1 : Nat
  id1 : Int
  i2 : Nat
  id2 : Int

/-- First step of the loop body — id_filter.h:197-201: the emitted call and the new state. -/
def stepEq (l1 : List Int) (off1 : Int) (l2 : List Int) (off2 : Int) (s : CState) :
    Option (List (Int × Nat × Nat) × CState) :=
  if s.id1 = s.id2 then do
    let a ← rdId l1 off1 (s.i1 + 1)
    let b ← rdId l2 off2 (s.i2 + 1)
    some ([(s.id1, s.i1, s.i2)], ⟨s.i1 + 1, a, s.i2 + 1, b⟩)
  else some ([], s)

/-- Second and third step of the loop body — id_filter.h:205-210. -/
def stepAdv (l1 : List Int) (off1 : Int) (l2 : List Int) (off2 maxId : Int) (s : CState) :
    Option CState := do
  let (i1, id1) ← adv l1 off1 (min maxId s.id2) (l1.length + 1) s.i1 s.id1
  if s.id2 < min maxId id1 then do
    some ⟨i1, id1, s.i2 + 1, ← rdId l2 off2 (s.i2 + 1)⟩
  else some ⟨i1, id1, s.i2, s.id2⟩

/-- Main loop — id_filter.h:196-211. -/
def commonLoop (l1 : List Int) (off1 : Int) (l2 : List Int) (off2 maxId : Int) :
    Nat → CState → Option (List (Int × Nat × Nat) × CState)
  | 0, _ => none
  | fuel + 1, s =>
    if s.id1 < maxId ∧ s.id2 < maxId then do
      let (out, s) ← stepEq l1 off1 l2 off2 s
      let s ← stepAdv l1 off1 l2 off2 maxId s
      let (out', s) ← commonLoop l1 off1 l2 off2 maxId fuel s
      some (out ++ out', s)
    else some ([], s)

/-- `ForEachCommonId` — id_filter.h:181-221: the calls `fn(id, offset1, offset2)`, in order. -/
def forEachCommonId (l1 : List Int) (off1 : Int) (l2 : List Int) (off2 : Int) :
    Option (List (Int × Nat × Nat)) := do
  let id1 ← rdId l1 off1 0
  let id2 ← rdId l2 off2 0
  let maxId := min ((← l1.getLast?) - off1) ((← l2.getLast?) - off2)
  let (out, s) ← commonLoop l1 off1 l2 off2 maxId (l1.length + l2.length + 1) ⟨0, id1, 0, id2⟩
  let (i1, id1) ← adv l1 off1 maxId (l1.length + 1) s.i1 s.id1
  let (i2, id2) ← adv l2 off2 maxId (l2.length + 1) s.i2 s.id2
  some (out ++ if id1 = id2 then [(id1, i1, i2)] else [])

/-- Merge loops — id_filter.cc:45-54. -/
def mergeLoop (offA offB : Int) : Nat → List Int → List Int → Option (List Int)
  | 0, _, _ => none
  | fuel + 1, x :: xs, y :: ys => do
    let va := x - offA
    let vb := y - offB
    let v := min va vb
    let rest ← mergeLoop offA offB fuel (if va = v then xs else x :: xs)
      (if vb = v then ys else y :: ys)
    some (v :: rest)
  | _ + 1, xs, [] => some (xs.map (· - offA))
  | _ + 1, [], ys => some (ys.map (· - offB))

/-- `UpperBoundMergeImpl` — id_filter.cc:27-57; writing more ids than allocated is undefined. -/
def mergeImpl (pe : List Int → List Int → Bool) (size : Nat) (a b : Filter) : Option Filter :=
  if a.typ = .empty ∨ b.typ = .full then some b
  else if b.typ = .empty ∨ a.typ = .full then some a
  else if a.isSame pe b then some a
  else if 4 * max a.ids.length b.ids.length ≥ size then some .fullF
  else do
    let ids ← mergeLoop a.off b.off (a.ids.length + b.ids.length + 1) a.ids b.ids
    if ids.length ≤ a.ids.length + b.ids.length then some (mkFilter size ids 0) else none

/-- `UpperBoundMerge` — id_filter.h:223-234. -/
def merge (pe : List Int → List Int → Bool) (size : Nat) : Filter → List Filter → Option Filter
  | f, [] => some f
  | f, g :: gs => do mergeImpl pe size f (← merge pe size g gs)

/-- `UpperBoundIntersectImpl` — id_filter.h:246-251. -/
def intersectImpl (a b : Filter) : Filter :=
  if a.typ = .empty ∨ b.typ = .full then a
  else if b.typ = .empty ∨ a.typ = .full then b
  else if a.ids.length < b.ids.length then a else b

/-- `UpperBoundIntersect` — id_filter.h:236-244. -/
def intersect : Filter → List Filter → Filter
  | f, [] => f
  | f, g :: gs => intersectImpl f (intersect g gs)

end Verif.Arr
