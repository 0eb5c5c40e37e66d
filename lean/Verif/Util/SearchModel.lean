/-!
# Model of `arolla/util/binary_search.{h,cc}` and `exp_lower_bound` (`arolla/util/algorithms.h`)

Arrays are lists, every element read is `arr[i]?` in the `Option` monad, so `none` means a read
outside of the array.  Iterators are positions.  Loops carry `fuel`; running out of it is `none`.
Simplification: `size_t` positions are natural numbers.
-/

namespace Verif.Search
variable {α : Type}

/-- `SmallLinearSearch` — binary_search.h:85-97.  Inner `none` is `std::nullopt`. -/
def smallLinearSearch (arr : List α) (p : α → Bool) : Option (Option Nat) :=
  if arr.length ≤ 2 then
    if arr.length = 0 then some (some 0)
    else do
      let a0 ← arr[0]?
      if p a0 then some (some 0)
      else if arr.length = 1 then some (some 1)
      else do
        let a1 ← arr[1]?
        if p a1 then some (some 1) else some (some 2)
  else some none

/-- Loop of `FastBinarySearchT` — binary_search.cc:50-57, on the array starting at `base`. -/
def fastLoop (arr : List α) (base : Nat) (p : α → Bool) : Nat → Nat → Nat → Option Nat
  | 0, _, _ => none
  | fuel + 1, k, offset =>
    if k > 0 then do
      let k := k / 2
      let a ← arr[base + (offset + k)]?
      fastLoop arr base p fuel k (if !p a then offset + k + 1 else offset)
    else some offset

/-- `FastBinarySearchT<size>` — binary_search.cc:47-58. -/
def fastBinarySearch (size : Nat) (arr : List α) (base : Nat) (p : α → Bool) : Option Nat :=
  fastLoop arr base p (size + 1) size 0

/-- `BinarySearchT` — binary_search.cc:63-93 (`BitScanReverse` of the size is `Nat.log2`). -/
def binarySearch (arr : List α) (p : α → Bool) : Option Nat := do
  let size := 2 ^ Nat.log2 arr.length - 1
  let a ← arr[size]?
  let offset := if !p a then arr.length - size else 0
  let r ← fastBinarySearch size arr offset p
  some (offset + r)

/-- `LowerBound<T>` for integers — binary_search.h:108-116, binary_search.cc:105-111. -/
def lowerBoundInt (value : Int) (arr : List Int) : Option Nat := do
  match ← smallLinearSearch arr (fun arg => !decide (arg < value)) with
  | some r => some r
  | none => binarySearch arr (fun arg => decide (arg ≥ value))

/-- `UpperBound<T>` for integers — binary_search.h:118-126, binary_search.cc:136-142. -/
def upperBoundInt (value : Int) (arr : List Int) : Option Nat := do
  match ← smallLinearSearch arr (fun arg => decide (value < arg)) with
  | some r => some r
  | none => binarySearch arr (fun arg => decide (arg > value))

/-- A floating point number as far as comparisons go: NaN or a point of a linear order (the two
zeros are one point). -/
inductive Flt (α : Type) where
  | nan
  | num (x : α)

section
variable [LT α] [LE α] [DecidableLT α] [DecidableLE α]

/-- C++ `<` on floats. -/
def Flt.lt : Flt α → Flt α → Bool
  | .num a, .num b => decide (a < b)
  | _, _ => false

/-- C++ `<=` on floats. -/
def Flt.le : Flt α → Flt α → Bool
  | .num a, .num b => decide (a ≤ b)
  | _, _ => false

/-- `std::isnan`. -/
def Flt.isnan : Flt α → Bool
  | .nan => true
  | .num _ => false

/-- `LowerBound<float/double>` — binary_search.h:108-116, binary_search.cc:97-103. -/
def lowerBoundFlt (value : Flt α) (arr : List (Flt α)) : Option Nat := do
  match ← smallLinearSearch arr (fun arg => !(arg.lt value)) with
  | some r => some r
  | none => binarySearch arr (fun arg => !(arg.lt value))

/-- `UpperBoundImpl(float/double)` — binary_search.cc:122-134. -/
def upperBoundFltImpl (value : Flt α) (arr : List (Flt α)) : Option Nat :=
  if value.isnan then some arr.length
  else binarySearch arr (fun arg => !(arg.le value))

/-- `UpperBound<float/double>` — binary_search.h:118-126. -/
def upperBoundFlt (value : Flt α) (arr : List (Flt α)) : Option Nat := do
  match ← smallLinearSearch arr (fun arg => value.lt arg) with
  | some r => some r
  | none => upperBoundFltImpl value arr
end

/-- First loop of `GallopingLowerBound` — binary_search.h:183-186.  Returns `(i, d)`. -/
def gallopUp (arr : List α) (less : α → Bool) : Nat → Nat → Nat → Option (Nat × Nat)
  | 0, _, _ => none
  | fuel + 1, i, d =>
    if i + d < arr.length then do
      let a ← arr[i + d]?
      if less a then gallopUp arr less fuel (i + d) (2 * d) else some (i, d)
    else some (i, d)

/-- Second loop of `GallopingLowerBound` — binary_search.h:189-194. -/
def gallopDown (arr : List α) (less : α → Bool) : Nat → Nat → Nat → Option Nat
  | 0, _, _ => none
  | fuel + 1, i, d =>
    if d > 1 then
      let d := d / 2
      if i + d < arr.length then do
        let a ← arr[i + d]?
        gallopDown arr less fuel (if less a then i + d else i) d
      else gallopDown arr less fuel i d
    else some i

/-- `GallopingLowerBound(begin, end, value)` — binary_search.h:164-196, with `less a` standing for
`a < value`; the result is an offset from `begin`. -/
def gallopingLowerBound (arr : List α) (less : α → Bool) : Option Nat :=
  if arr.length = 0 then some 0
  else do
    let a ← arr[0]?
    if !less a then some 0
    else do
      let (i, d) ← gallopUp arr less (arr.length + 1) 0 1
      let i ← gallopDown arr less (d + 1) i d
      some (i + 1)

/-- `std::lower_bound(first, last, val, comp)` (standard library; modelled by its contract on
partitioned ranges: a forward scan). -/
def stdLowerBound (arr : List α) (comp : α → Bool) (first last : Nat) : Nat :=
  first + (((arr.drop first).take (last - first)).takeWhile comp).length

/-- State of the exponential loop of `exp_lower_bound`: `first`, `last`, `it` as positions. -/
structure ExpState where
  first : Nat
  last : Nat
  it : Nat

/-- `std::advance(it, step)` on a range with `len` elements.  With `strict` a position past the end
is `none` (undefined behaviour for every standard iterator category); without it the position is
just computed, as happens in practice for pointers. -/
def advance (strict : Bool) (len it step : Nat) : Option Nat :=
  if strict && decide (len < it + step) then none else some (it + step)

/-- Loop of `exp_lower_bound` — algorithms.h:41-53.  `comp a` stands for `comp(a, val)`. -/
def expLoop (strict : Bool) (arr : List α) (comp : α → Bool) :
    Nat → Int → Int → ExpState → Option ExpState
  | 0, _, _, _ => none
  | fuel + 1, count, step, s =>
    if step < count then do
      let a ← arr[s.it]?
      if comp a then do
        let it := s.it + 1
        let it' ← advance strict arr.length it step.toNat
        expLoop strict arr comp fuel (count - step) (step * 2) { s with first := it, it := it' }
      else some { s with last := s.it }
    else some s

/-- `exp_lower_bound` — algorithms.h:34-57.  The result is an offset from `first`. -/
def expLowerBound (strict : Bool) (arr : List α) (comp : α → Bool) : Option Nat := do
  let s ← expLoop strict arr comp (arr.length + 1) arr.length 1
    { first := 0, last := arr.length, it := 0 }
  some (stdLowerBound arr comp s.first s.last)

end Verif.Search
