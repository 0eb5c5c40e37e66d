import Verif.Dense.DenseModel

/-!
# Model of pointwise operations on dense arrays

`arolla/dense_array/ops/dense_ops.h`, `universal_dense_op.h`, `util.h` and
`arolla/qexpr/operators/dense_array/logic_ops.h`.

Outer `Option`: definedness (`none` = access outside of a buffer).  `StatusOr` is `Except`.
The initial contents of result buffers (`mem`, `bmem`) are arbitrary.
-/

namespace Verif.Dense
open Verif.Bits Verif.Bitmap

variable {α β γ V R E : Type}

/-- `UnaryOpImpl` with `SpanOp` — dense_ops.h:95-105, 110-131: values are computed for all rows;
the bitmap is shared.  `fn` is total on (possibly unspecified) stored values. -/
def unaryOp (fn : α → β) (a : DArr α) : DArr β := ⟨a.values.map fn, a.bitmap, a.off⟩

/-- `SpanOp` for two arguments — dense_ops.h:95-105: `res[i] = fn(x[i], y[i])` for
`i < res.size()`. -/
def spanOp2 (fn : α → β → γ) (x : List α) (y : List β) (n : Nat) : Option (List γ) :=
  (List.range n).mapM (fun i => do some (fn (← x[i]?) (← y[i]?)))

/-- `BinaryOpImpl<NoBitmapOffset = false>` — dense_ops.h:143-174.  `bmem` is the uninitialised
result bitmap; its size is the size requested from `RawBuilder`. -/
def binaryOp (fn : α → β → γ) (bmem : List Word) (a : DArr α) (b : DArr β) : Option (DArr γ) := do
  let values ← spanOp2 fn a.values b.values a.size
  if b.bitmap = [] then some ⟨values, a.bitmap, a.off⟩
  else if a.bitmap = [] then some ⟨values, b.bitmap, b.off⟩
  else do
    let bm ← intersect a.bitmap b.bitmap a.off b.off
      (bmem.take (min a.bitmap.length b.bitmap.length))
    some ⟨values, bm, min a.off b.off⟩

/-- `GetMask<AllowBitmapOffset>` — util.h:36-45. -/
def getMask (allowOffset : Bool) (a : DArr α) (wordId : Nat) : Option Word :=
  if allowOffset then getWordWithOffset a.bitmap wordId a.off else some (getWord a.bitmap wordId)

/-- An argument of a generic pointwise operation: whether the functor takes it as
`OptionalValue`, and the array. -/
structure Arg (V : Type) where
  optional : Bool
  arr : DArr V

/-- `IntersectMasks` — util.h:97-102 with `GetOptionalMask` 49-58. -/
def intersectMasks (allowOffset : Bool) (wordId : Nat) : List (Arg V) → Option Word
  | [] => some fullWord
  | a :: as => do
    let m ← if a.optional then some fullWord else getMask allowOffset a.arr wordId
    some (m &&& (← intersectMasks allowOffset wordId as))

/-- `Getter::operator()` — util.h:63-85.  A plain argument is passed as `some value` even if the
row is missing; an optional one is `none` when missing (the functor does not look at the value of
a missing optional). -/
def getArg (allowOffset : Bool) (wordId i : Nat) (a : Arg V) : Option (Option V) := do
  let v ← a.arr.values[wordId * 32 + i]?
  if a.optional then do
    let mask ← getMask allowOffset a.arr wordId
    some (if mask.getLsbD i then some v else none)
  else some (some v)

/-- `EvalGroup` — universal_dense_op.h:117-149.  `skip` is `SkipMissing || kCheckStatus`. A missing
result leaves the value memory unspecified (here: unchanged). -/
def evalGroup (fn : List (Option V) → Except E (Option R)) (get : Nat → Option (List (Option V)))
    (skip : Bool) (offset : Nat) : Nat → Nat → List R → Word → Option (Except E (List R × Word))
  | _, 0, vals, mask => some (.ok (vals, mask))
  | i, n + 1, vals, mask => do
    let bit ← shl 1 i
    if skip = true ∧ mask &&& bit = 0 then evalGroup fn get skip offset (i + 1) n vals mask
    else do
      let args ← get i
      match fn args with
      | .error e => some (.error e)
      | .ok none => evalGroup fn get skip offset (i + 1) n vals (mask &&& ~~~bit)
      | .ok (some v) => do
        let vals ← wrV vals (offset + i) v
        evalGroup fn get skip offset (i + 1) n vals mask

/-- State of the group loop: values, bitmap words so far, `full`. -/
structure UState (R : Type) where
  vals : List R
  bits : List Word
  full : Bool

/-- Evaluation of one full word — universal_dense_op.h:72-80: nothing is evaluated if no row has all
required arguments. -/
def groupEval (allowOffset : Bool) (fn : List (Option V) → Except E (Option R)) (skip : Bool)
    (args : List (Arg V)) (g : Nat) (vals : List R) (mask : Word) :
    Option (Except E (List R × Word)) :=
  if mask ≠ 0 then
    evalGroup fn (fun i => args.mapM (getArg allowOffset g i)) skip (g * 32) 0 32 vals mask
  else some (.ok (vals, mask))

/-- Loop over full words — universal_dense_op.h:70-83; `n` groups remain. -/
def groupsLoop (allowOffset : Bool) (fn : List (Option V) → Except E (Option R)) (skip : Bool)
    (args : List (Arg V)) : Nat → Nat → UState R → Option (Except E (UState R))
  | _, 0, s => some (.ok s)
  | g, n + 1, s => do
    let mask ← intersectMasks allowOffset g args
    match ← groupEval allowOffset fn skip args g s.vals mask with
    | .error e => some (.error e)
    | .ok (vals, mask) =>
      groupsLoop allowOffset fn skip args (g + 1) n
        ⟨vals, s.bits ++ [mask], s.full && decide (mask = fullWord)⟩

/-- Last incomplete word — universal_dense_op.h:84-101. -/
def lastGroup (allowOffset : Bool) (fn : List (Option V) → Except E (Option R)) (skip : Bool)
    (args : List (Arg V)) (size : Nat) (s : UState R) : Option (Except E (UState R)) :=
  if size % 32 ≠ 0 then do
    let validBits ← shr fullWord (32 - size % 32)
    let mask := validBits &&& (← intersectMasks allowOffset (size / 32) args)
    match ← evalGroup fn (fun i => args.mapM (getArg allowOffset (size / 32) i)) skip
        (size - size % 32) 0 (size % 32) s.vals mask with
    | .error e => some (.error e)
    | .ok (vals, mask) =>
      some (.ok ⟨vals, s.bits ++ [mask], s.full && decide (mask = validBits)⟩)
  else some (.ok s)

/-- `UniversalDenseOp::operator()` — universal_dense_op.h:56-106.  `mem` is the uninitialised value
buffer of `size` elements. -/
def universalOp (allowOffset : Bool) (fn : List (Option V) → Except E (Option R)) (skip : Bool)
    (args : List (Arg V)) (mem : List R) : Option (Except E (DArr R)) := do
  let size := mem.length
  match ← groupsLoop allowOffset fn skip args 0 (size / 32) ⟨mem, [], true⟩ with
  | .error e => some (.error e)
  | .ok s =>
    match ← lastGroup allowOffset fn skip args size s with
    | .error e => some (.error e)
    | .ok s => some (.ok ⟨s.vals, if s.full then [] else s.bits, 0⟩)

/-! ## logic_ops.h -/

/-- `DenseArrayHasOp` — logic_ops.h:39-44. -/
def hasOp (a : DArr α) : DArr Unit := ⟨List.replicate a.size (), a.bitmap, a.off⟩

/-- `DenseArrayPresenceAndOp` — logic_ops.h:48-70.  `bmem` is the uninitialised result buffer, of
`BitmapSize(lhs.size())` words.  `Except Unit`: size mismatch error. -/
def presenceAnd (bmem : List Word) (l : DArr α) (r : DArr Unit) :
    Option (Except Unit (DArr α)) :=
  if l.size ≠ r.size then some (.error ())
  else if r.bitmap = [] then some (.ok l)
  else if l.bitmap = [] then some (.ok ⟨l.values, r.bitmap, r.off⟩)
  else do
    let bm ← intersect l.bitmap r.bitmap l.off r.off (bmem.take (bitmapSize l.size))
    some (.ok ⟨l.values, bm, min l.off r.off⟩)

/-- Search for the first nonzero word — logic_ops.h:80-85. -/
def firstNonzero : List Word → Nat
  | [] => 0
  | w :: ws => if w = 0 then firstNonzero ws + 1 else 0

/-- `DenseArrayPresenceNotOp` — logic_ops.h:72-101. -/
def presenceNot (a : DArr α) : DArr Unit :=
  if a.bitmap = [] then createEmpty (List.replicate a.size ())
  else
    let k := firstNonzero a.bitmap
    if k = a.bitmap.length then ⟨List.replicate a.size (), [], 0⟩
    else ⟨List.replicate a.size (), List.replicate k fullWord ++ (a.bitmap.drop k).map (~~~ ·), a.off⟩

/-- The functor of `DenseArrayPresenceOrOp` — logic_ops.h:119-126. -/
def orFn : List (Option α) → Except Unit (Option α)
  | [some x, _] => .ok (some x)
  | [none, y] => .ok y
  | _ => .error ()

/-- `DenseArrayPresenceOrOp` (array, array) — logic_ops.h:106-131.  The functor is run with
`kRunOnMissing | kNoBitmapOffset`. -/
def presenceOr (mem : List α) (l r : DArr α) : Option (Except Unit (DArr α)) :=
  if l.size ≠ r.size then some (.error ())
  else if l.bitmap = [] then some (.ok l)
  else do
    if ← areAllBitsUnset l.bitmap l.size then some (.ok r)
    else universalOp false orFn false [⟨true, l⟩, ⟨true, r⟩] mem

/-- The functor of the (array, optional) overload — logic_ops.h:142-144. -/
def orConstFn (v : α) : List (Option α) → Except Unit (Option α)
  | [some x] => .ok (some x)
  | _ => .ok (some v)

/-- `DenseArrayPresenceOrOp` (array, optional) — logic_ops.h:135-150. -/
def presenceOrConst (mem : List α) (l : DArr α) (r : Option α) : Option (Except Unit (DArr α)) :=
  match r with
  | none => some (.ok l)
  | some v =>
    if l.bitmap = [] then some (.ok l)
    else do
      if ← areAllBitsUnset l.bitmap l.size then some (.ok (createConst l.size v))
      else universalOp false (orConstFn v) false [⟨true, l⟩] mem

end Verif.Dense
