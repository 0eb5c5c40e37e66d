import Verif.Dense.BitmapModel

/-!
# Model of `arolla/dense_array/dense_array.h`

`DArr α` is `DenseArray<T>`: a buffer of values, a presence bitmap (empty means "all present") and
the bit offset of the first element in the bitmap.  Undefined behaviour (reads outside of a buffer)
is `none`.
-/

namespace Verif.Dense
open Verif.Bits Verif.Bitmap

/-- `DenseArray<T>` — dense_array.h:52-63. -/
structure DArr (α : Type) where
  values : List α
  bitmap : List Word := []
  off : Nat := 0
  deriving DecidableEq

namespace DArr
variable {α : Type}

/-- `size` — dense_array.h:65. -/
def size (a : DArr α) : Nat := a.values.length

/-- Class invariant: comment dense_array.h:42-51 and `CheckBitmapMatchesValues` 224-228. -/
def Valid (a : DArr α) : Prop :=
  a.off < 32 ∧ (a.bitmap = [] ∨ a.bitmap.length = bitmapSize (a.size + a.off))

instance (a : DArr α) : Decidable a.Valid := by unfold Valid; infer_instance

/-- `PresentCount` — dense_array.h:70-72. -/
def presentCount (a : DArr α) : Option Nat := countBits a.bitmap a.off a.size

/-- `IsFull` — dense_array.h:68. -/
def isFull (a : DArr α) : Option Bool := do some ((← a.presentCount) = a.size)

/-- `IsAllMissing` — dense_array.h:74. -/
def isAllMissing (a : DArr α) : Option Bool := do some ((← a.presentCount) = 0)

/-- `IsAllPresent` — dense_array.h:75-77. -/
def isAllPresent (a : DArr α) : Option Bool :=
  if a.bitmap = [] then some true else do some ((← a.presentCount) = a.size)

/-- `present` — dense_array.h:80-85. -/
def present (a : DArr α) (i : Nat) : Option Bool := getBitB a.bitmap (i + a.off)

/-- `operator[]` — dense_array.h:88-95.  The outer `Option` is definedness. -/
def at? (a : DArr α) (i : Nat) : Option (Option α) := do
  if ← a.present i then do some (some (← a.values[i]?)) else some none

/-- `Slice` — dense_array.h:113-127. -/
def slice (a : DArr α) (start count : Nat) : Option (DArr α) := do
  let values ← bufSlice a.values start count
  if a.bitmap ≠ [] then do
    let off := (start + a.off) % 32
    let bitmap ← bufSlice a.bitmap ((start + a.off) / 32) (bitmapSize (off + count))
    some ⟨values, bitmap, off⟩
  else some ⟨values, [], 0⟩

/-- `ForceNoBitmapBitOffset` — dense_array.h:130-142.  The bitmap is rebuilt word by word. -/
def forceNoOffset (a : DArr α) : Option (DArr α) :=
  if a.off > 0 then do
    let bm ← (List.range (bitmapSize a.size)).mapM (fun i => getWordWithOffset a.bitmap i a.off)
    some ⟨a.values, bm, 0⟩
  else some a

/-- `ForEach` — dense_array.h:157-173: the calls `fn(id, presence, value)`, in order. -/
def forEach (a : DArr α) : Option (List (Nat × Bool × α)) :=
  if a.bitmap = [] then
    (List.range a.size).mapM (fun i => do some (i, true, ← a.values[i]?))
  else do
    (← iterateByGroups a.bitmap a.off a.size).mapM (fun (i, b) => do some (i, b, ← a.values[i]?))

/-- `ForEachPresent` — dense_array.h:178-188. -/
def forEachPresent (a : DArr α) : Option (List (Nat × α)) := do
  some ((← a.forEach).filterMap (fun (i, b, v) => if b then some (i, v) else none))

/-- `OptionalValue::operator==`, on top of the value comparison `eq`. -/
def optEq (eq : α → α → Bool) : Option α → Option α → Bool
  | some x, some y => eq x y
  | none, none => true
  | _, _ => false

/-- Comparison loop of `ArraysAreEquivalent` — dense_array.h:238-240. -/
def equivLoop (eq : α → α → Bool) (a b : DArr α) : Nat → Nat → Option Bool
  | _, 0 => some true
  | i, n + 1 => do
    if !optEq eq (← a.at? i) (← b.at? i) then some false else equivLoop eq a b (i + 1) n

/-- `ArraysAreEquivalent` — dense_array.h:232-242.  `eq` is `operator==` of the value type;
`Buffer::operator==` compares sizes and elements. -/
def equivalent (eq : α → α → Bool) (a b : DArr α) : Option Bool :=
  if a.bitmap = [] ∧ b.bitmap = [] then some (a.values.isEqv b.values eq)
  else if a.size ≠ b.size then some false
  else equivLoop eq a b 0 a.size

/-- Token of a fingerprint input: what `FingerprintHasher::Combine` consumes. -/
inductive Tok (α : Type) where
  | size (n : Nat)
  | flag (b : Bool)
  | val (v : α)
  deriving DecidableEq

/-- `OptionalValue::ArollaFingerprint` — memory/optional_value.h:140-147. -/
def optTokens : Option α → List (Tok α)
  | some v => [.flag true, .val v]
  | none => [.flag false]

/-- `FingerprintHasherTraits<DenseArray<T>>` — dense_array.h:434-442: the sequence of combined
tokens. -/
def fingerprintTokens (a : DArr α) : Option (List (Tok α)) := do
  let es ← (List.range a.size).mapM a.at?
  some (.size a.size :: es.flatMap optTokens)

end DArr

/-- Store `v` in a value buffer. -/
def wrV {α : Type} (vs : List α) (i : Nat) (v : α) : Option (List α) :=
  if i < vs.length then some (vs.set i v) else none

/-! ## DenseArrayBuilder -/

/-- `DenseArrayBuilder` — dense_array.h:260-335. -/
structure DBuilder (α : Type) where
  vals : List α
  bits : List Word

namespace DBuilder
variable {α : Type}

/-- Constructor — dense_array.h:265-272; `mem` is the uninitialised value buffer of `max_size`
elements. -/
def new (mem : List α) : DBuilder α := ⟨mem, List.replicate (bitmapSize mem.length) 0⟩

/-- `Set` (`Add`) — dense_array.h:277-293, 313-318. -/
def set (b : DBuilder α) (id : Nat) (v : Option α) : Option (DBuilder α) :=
  match v with
  | none => some b
  | some x => do some ⟨← wrV b.vals id x, ← setBit b.bits id⟩

/-- `SetNConst` of the value buffer: loop over `count` elements. -/
def fillN (vs : List α) (x : α) : Nat → Nat → Option (List α)
  | _, 0 => some vs
  | i, n + 1 => do fillN (← wrV vs i x) x (i + 1) n

/-- `SetNConst` — dense_array.h:295-311. -/
def setN (b : DBuilder α) (id count : Nat) (v : Option α) : Option (DBuilder α) :=
  match v with
  | none => some b
  | some x => do some ⟨← fillN b.vals x id count, ← setBitsInRange b.bits id (id + count)⟩

/-- One builder call. -/
inductive Op (α : Type) where
  | set (id : Nat) (v : Option α)
  | setN (id count : Nat) (v : Option α)

def apply (b : DBuilder α) : Op α → Option (DBuilder α)
  | .set id v => b.set id v
  | .setN id n v => b.setN id n v

def applyAll (b : DBuilder α) : List (Op α) → Option (DBuilder α)
  | [] => some b
  | o :: os => do (← b.apply o).applyAll os

/-- `Build()` — dense_array.h:320-322. -/
def build (b : DBuilder α) : DArr α := ⟨b.vals, b.bits, 0⟩

/-- `Build(size)` — dense_array.h:326-329 (`Buffer::Builder::Build(size)` keeps a prefix,
memory/simple_buffer.h:158-175). -/
def buildSize (b : DBuilder α) (size : Nat) : DArr α :=
  ⟨b.vals.take size, b.bits.take (bitmapSize size), 0⟩

end DBuilder

/-- `CreateDenseArray(span<OptionalValue>)` — dense_array.h:337-349.  `dflt` is the unspecified
value stored for missing elements, `mem` the uninitialised bitmap buffer. -/
def createDenseArray {α : Type} (mem : List Word) (dflt : α) (data : List (Option α)) :
    Option (DArr α) := do
  let b ← (Builder.new mem).addForEach (data.map Option.isSome)
  some ⟨data.map (fun o => o.getD dflt), b.build, 0⟩

/-- `CreateEmptyDenseArray` — dense_array.h:425-430 (values unspecified). -/
def createEmpty {α : Type} (values : List α) : DArr α :=
  ⟨values, createEmptyBitmap values.length, 0⟩

/-- `CreateConstDenseArray` — dense_array.h:416-423. -/
def createConst {α : Type} (size : Nat) (v : α) : DArr α := ⟨List.replicate size v, [], 0⟩

end Verif.Dense
