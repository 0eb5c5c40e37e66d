import Verif.Group.IterModel
import Verif.Edge.EdgeModel

/-!
# Model of array operators on dense arrays

`arolla/qexpr/operators/dense_array/array_ops.h` (and `.cc`), `factory_ops.h` and the implementation for
more than two arguments of `arolla/dense_array/ops/dense_ops.h`.

`Option`: definedness; `Except`: `absl::StatusOr`, or the status of the evaluation context (error
messages shortened).  Uninitialised buffers are filled from an arbitrary function `mem`.  Value buffers
are those of simple types (memory/simple_buffer.h); buffers of strings (memory/strings_buffer.h) are
not modelled here.
-/

namespace Verif.DOps
open Verif.Bits Verif.Bitmap Verif.Dense

variable {α V R : Type}

/-- `SimpleBuffer<T>::Builder(max_size)` — memory/simple_buffer.h:96-120. -/
def fresh (mem : Nat → α) (n : Nat) : List α := (List.range n).map mem

/-- `Inserter::Add` — memory/simple_buffer.h:63-66: the buffer and the position. -/
def insV (s : List α × Nat) (v : α) : Option (List α × Nat) := do some (← wrV s.1 s.2 v, s.2 + 1)

/-! ## array.at -/

/-- `DenseArrayAtOp` for one index — array_ops.h:46-54.  The index of an out-of-range error is kept. -/
def atOp (arr : DArr α) (id : Int) : Option (Except Int (Option α)) :=
  if id < 0 ∨ id ≥ arr.size then some (.error id)
  else do
    let p ← arr.present id.toNat
    let v ← arr.values[id.toNat]?
    some (.ok (if p then some v else none))

/-- `DenseArrayAtOp` for an optional index — array_ops.h:56-60. -/
def atOptOp (arr : DArr α) : Option Int → Option (Except Int (Option α))
  | some id => atOp arr id
  | none => some (.ok none)

/-- The functor for a list of indices — array_ops.h:67-76.  The error `some id` is an index out of
range, `none` an access outside of a buffer. -/
def atFn (arr : DArr α) : List (Option Int) → Except (Option Int) (Option α)
  | [some id] =>
    if id < 0 ∨ id ≥ arr.size then .error (some id)
    else
      match arr.present id.toNat with
      | none => .error none
      | some false => .ok none
      | some true =>
        match arr.values[id.toNat]? with
        | none => .error none
        | some v => .ok (some v)
  | _ => .error none

/-- `DenseArrayAtOp` for a list of indices — array_ops.h:62-80, 26-32 of array_ops.cc.  The code only
keeps the first error in the evaluation context and goes on; the evaluation fails with that error
afterwards, so here it stops at once. -/
def atListOp (mem : Nat → α) (arr : DArr α) (ids : DArr Int) : Option (Except Int (DArr α)) := do
  match ← universalOp false (atFn arr) true [⟨false, ids⟩] (fresh mem ids.size) with
  | .ok r => some (.ok r)
  | .error (some id) => some (.error id)
  | .error none => none

/-! ## array.slice -/

/-- `DenseArraySliceOp` — array_ops.h:90-112. -/
def sliceOp (a : DArr α) (offset size : Int) : Option (Except String (DArr α)) :=
  if offset < 0 ∨ offset > a.size then some (.error "bad offset")
  else if size < -1 ∨ size > a.size - offset then some (.error "bad size")
  else do
    let size := if size = -1 then a.size - offset else size
    let r ← (← a.slice offset.toNat size.toNat).forceNoOffset
    some (.ok r)

/-! ## array.concat -/

/-- The bitmap of the second array — array_ops.h:135-141. -/
def concatSecond (a b : DArr α) (bitmap : List Word) : Option (List Word) :=
  if b.bitmap ≠ [] then do
    let w := a.size / 32
    let r ← copyBits b.size b.bitmap b.off (bitmap.drop w) (a.size % 32)
    some (bitmap.take w ++ r)
  else some bitmap

/-- The bitmap of the first array — array_ops.h:131-134. -/
def concatFirst (a : DArr α) (bitmap : List Word) : Option (List Word) :=
  if a.bitmap ≠ [] then copyBits a.size a.bitmap a.off bitmap 0 else some bitmap

/-- `DenseArrayConcatOp` — array_ops.h:115-144. -/
def concatOp (mem : Nat → α) (a b : DArr α) : Option (DArr α) := do
  let s ← a.values.foldlM insV (fresh mem (a.size + b.size), 0)
  let s ← b.values.foldlM insV s
  if a.bitmap = [] ∧ b.bitmap = [] then some ⟨s.1, [], 0⟩
  else do
    let bitmap := List.replicate (bitmapSize (a.size + b.size)) fullWord
    let bitmap ← concatFirst a bitmap
    let bitmap ← concatSecond a b bitmap
    some ⟨s.1, bitmap, 0⟩

/-! ## array._present_indices and array.present_values -/

/-- Callback of `DenseArrayPresentIndicesOp` — array_ops.h:155-159. -/
def indexStep (s : List Int × Nat) (x : Nat × Bool × Unit) : Option (List Int × Nat) :=
  if x.2.1 then insV s (x.1 : Int) else some s

/-- `DenseArrayPresentIndicesOp` — array_ops.h:147-162. -/
def presentIndices (mem : Nat → Int) (a : DArr Unit) : Option (DArr Int) := do
  let count ← countBits a.bitmap a.off a.size
  let s ← (← a.forEach).foldlM indexStep (fresh mem count, 0)
  some ⟨s.1.take count, [], 0⟩

/-- Callback of `DenseArrayPresentValuesOp` — array_ops.h:174-178. -/
def valueStep (s : List α × Nat) (x : Nat × Bool × α) : Option (List α × Nat) :=
  if x.2.1 then insV s x.2.2 else some s

/-- `DenseArrayPresentValuesOp` — array_ops.h:165-181. -/
def presentValues (mem : Nat → α) (a : DArr α) : Option (DArr α) := do
  let count ← countBits a.bitmap a.off a.size
  let s ← (← a.forEach).foldlM valueStep (fresh mem count, 0)
  some ⟨s.1.take count, [], 0⟩

/-! ## array.from_indices_and_values -/

/-- The loop over indices — array_ops.cc:54-74. -/
def checkIndices (size : Int) : Int → List Int → Except String Unit
  | _, [] => .ok ()
  | last, index :: l =>
    if index ≤ last then
      if index < 0 then .error "expected non-negative indices"
      else .error "expected a strictly increasing sequence"
    else if index ≥ size then .error "index is out of range"
    else checkIndices size index l

/-- `ValidateInputs` — array_ops.cc:34-76. -/
def validateInputs (indices : DArr Int) (valuesSize : Nat) (size : Int) : Option (Except String Unit) :=
  if indices.size ≠ valuesSize then some (.error "expected arrays of the same sizes")
  else if size < 0 then some (.error "expected a non-negative integer")
  else do
    if !(← indices.isFull) then some (.error "missing indices are not supported")
    else some (checkIndices size (-1) indices.values)

/-- Body of the loop — array_ops.h:196-200. -/
def fivStep (indices : DArr Int) (values : DArr α) (b : DBuilder α) (i : Nat) : Option (DBuilder α) := do
  if ← values.present i then do
    let id ← indices.values[i]?
    let v ← values.values[i]?
    if id < 0 then none else b.set id.toNat (some v)
  else some b

/-- `DenseArrayFromIndicesAndValues` — array_ops.h:187-202. -/
def fromIndicesAndValues (mem : Nat → α) (indices : DArr Int) (values : DArr α) (size : Int) :
    Option (Except String (DArr α)) := do
  match ← validateInputs indices values.size size with
  | .error e => some (.error e)
  | .ok () => do
    let b ← (List.range indices.size).foldlM (fivStep indices values)
      (DBuilder.new (fresh mem size.toNat))
    some (.ok b.build)

/-! ## array.unique -/

/-- Callback of `DenseArrayUniqueOp` — array_ops.h:219-223: the elements of the hash set and the
inserter; `eq` is the comparison of the hash set. -/
def uniqueStep (eq : α → α → Bool) (st : List α × (List α × Nat)) (x : Nat × α) :
    Option (List α × (List α × Nat)) :=
  if st.1.any (fun y => eq y x.2) then some st
  else do some (st.1 ++ [x.2], ← insV st.2 x.2)

/-- `DenseArrayUniqueOp` — array_ops.h:212-226. -/
def uniqueOp (eq : α → α → Bool) (mem : Nat → α) (a : DArr α) : Option (DArr α) := do
  let st ← (← a.forEachPresent).foldlM (uniqueStep eq) ([], (fresh mem a.size, 0))
  some ⟨st.2.1.take st.1.length, [], 0⟩

/-! ## array.select -/

/-- `builder.Set(offset++, value)` for the values of the calls — array_ops.h:248-252. -/
def setAll : List (Option α) → Nat → DBuilder α → Option (DBuilder α)
  | [], _, b => some b
  | v :: vs, i, b => do setAll vs (i + 1) (← b.set i v)

/-- The calls of the functor by `DenseArraysForEachPresent` — dense_ops.h:453-471 for
`(filter, OptionalValue input)`; values of both arrays are put into one type. -/
def selectCalls (a : DArr α) (filter : DArr Unit) : Option (List (Option α)) := do
  let rows ← Group.denseIterateFromZero
    [⟨false, ⟨filter.values.map (fun _ => (none : Option α)), filter.bitmap, filter.off⟩⟩,
     ⟨true, ⟨a.values.map some, a.bitmap, a.off⟩⟩] filter.size
  some (rows.filterMap (fun r => if r.2.1 then some ((r.2.2[1]?).join.join) else none))

/-- `DenseArraySelectOp` — array_ops.h:230-257. -/
def selectOp (mem : Nat → α) (a : DArr α) (filter : DArr Unit) : Option (Except String (DArr α)) :=
  if a.size ≠ filter.size then some (.error "argument sizes mismatch")
  else if filter.bitmap = [] then some (.ok a)
  else do
    let count ← filter.presentCount
    if count = 0 then some (.ok ⟨[], [], 0⟩)
    else do
      let b ← setAll (← selectCalls a filter) 0 (DBuilder.new (fresh mem count))
      some (.ok b.build)

/-! ## array.make_dense_array, array._iota, shapes -/

/-- Bound `MakeDenseArrayOperator` for optional arguments — factory_ops.cc:60-75; `i` is the index of
the first remaining argument. -/
def makeDense (mem : Nat → α) (args : List (Option α)) : Option (DArr α) := do
  let b ← setAll args 0 (DBuilder.new (fresh mem args.length))
  some b.build

/-- `std::iota` in `DenseArrayIotaOp` — factory_ops.h:84-92; `n` elements remain. -/
def iotaLoop : Nat → Nat → List Int → Option (List Int)
  | 0, _, buf => some buf
  | n + 1, i, buf => do iotaLoop n (i + 1) (← wrV buf i (i : Int))

/-- `DenseArrayIotaOp` — factory_ops.h:84-92. -/
def iota (mem : Nat → Int) (size : Nat) : Option (DArr Int) := do
  some ⟨← iotaLoop size 0 (fresh mem size), [], 0⟩

/-- `DenseArrayResizeShapeOp` — factory_ops.h:51-59. -/
def resizeShape (size : Int) : Except String Int :=
  if size < 0 then .error "bad size" else .ok size

/-- `DenseArrayConstWithShapeOp` — factory_ops.h:63-81. -/
def constWithShape (mem : Nat → α) (size : Nat) : Option α → DArr α
  | some v => createConst size v
  | none => createEmpty (fresh mem size)

/-! ## Pointwise operations with more than two arguments -/

/-- `bitmap[i] &= ptr[i]` — dense_ops.h:208-210; `n` words remain. -/
def andWords (ptr : List Word) : Nat → Nat → List Word → Option (List Word)
  | 0, _, bm => some bm
  | n + 1, i, bm => do andWords ptr n (i + 1) (← wrV bm i ((← bm[i]?) &&& (← ptr[i]?)))

/-- `std::memcpy` — dense_ops.h:212; `n` words remain. -/
def copyWords (ptr : List Word) : Nat → Nat → List Word → Option (List Word)
  | 0, _, bm => some bm
  | n + 1, i, bm => do copyWords ptr n (i + 1) (← wrV bm i (← ptr[i]?))

/-- `intersect_fn` — dense_ops.h:204-215, on `(bitmap, initialized)`. -/
def intersectFn (bitmapSize : Nat) (st : List Word × Bool) (a : DArr V) : Option (List Word × Bool) :=
  if a.bitmap = [] then some st
  else if st.2 then do some (← andWords a.bitmap bitmapSize 0 st.1, true)
  else do some (← copyWords a.bitmap bitmapSize 0 st.1, true)

/-- `SimpleOpImpl` with `SpanOp` — dense_ops.h:95-105, 181-226. -/
def simpleOp (fn : List V → R) (bmem : Nat → Word) (first : DArr V) (rest : List (DArr V)) :
    Option (DArr R) := do
  let vals ← (List.range first.size).mapM (fun i => do
    some (fn (← (first :: rest).mapM (fun a => a.values[i]?))))
  if rest.all (fun a => a.bitmap.isEmpty) then some ⟨vals, first.bitmap, 0⟩
  else do
    let n := bitmapSize first.size
    let st ← (first :: rest).foldlM (intersectFn n) (fresh bmem n, false)
    some ⟨vals, st.1, 0⟩

/-- `OpWithSizeValidation` around it — dense_ops.h:228-248. -/
def simpleOpChecked (fn : List V → R) (bmem : Nat → Word) (first : DArr V) (rest : List (DArr V)) :
    Option (Except String (DArr R)) :=
  if rest.all (fun a => a.size == first.size) then do some (.ok (← simpleOp fn bmem first rest))
  else some (.error "argument sizes mismatch")

end Verif.DOps
