/-!
# Model of StringsBuffer

`arolla/memory/strings_buffer.{h,cc}`.  A buffer of characters is a list, `none` for a character that was not initialized.  Memory is
a value (no sharing, no ownership): `SimpleBuffer` is the list of its elements, and a copy is the same list.  Sizes are natural numbers
(`int64_t`/`size_t` do not overflow).  A read out of range, a read of a character that was not initialized and a loop that does not
end give `none`.
-/

namespace Verif.StrBuf

/-- `StringsBuffer::Offsets` — strings_buffer.h:55-59. -/
structure Offsets where
  start : Nat
  stop : Nat
  deriving DecidableEq

/-- `StringsBuffer` — strings_buffer.h:307-319. -/
structure Buf where
  offsets : List Offsets
  chars : List (Option Nat)
  base : Nat
  deriving DecidableEq

/-- The default constructor — strings_buffer.h:61. -/
def Buf.empty : Buf := ⟨[], [], 0⟩

/-- The characters of the `string_view` made by `operator[]` for the given offsets — strings_buffer.h:255-262.  An empty view reads no
character, whatever its pointer is. -/
def Buf.view (b : Buf) (o : Offsets) : Option (List Nat) :=
  if o.start = o.stop then some []
  else if b.base ≤ o.start ∧ o.start ≤ o.stop ∧ o.stop ≤ b.base + b.chars.length then
    ((b.chars.drop (o.start - b.base)).take (o.stop - o.start)).mapM id
  else none

/-- `operator[]` — strings_buffer.h:255-262. -/
def Buf.get (b : Buf) (i : Nat) : Option (List Nat) :=
  match b.offsets[i]? with
  | none => none
  | some o => b.view o

/-! ## Builder -/

/-- `StringsBuffer::Builder` — strings_buffer.h:154-158. -/
structure Builder where
  offsets : List Offsets
  chars : List (Option Nat)
  numChars : Nat

/-- The constructor with an initial size of the characters; the offsets are zeros — strings_buffer.cc:39-52. -/
def Builder.new (maxSize initialChars : Nat) : Builder := ⟨List.replicate maxSize ⟨0, 0⟩, List.replicate initialChars none, 0⟩

/-- The constructor without it — strings_buffer.cc:36-37. -/
def Builder.make (maxSize : Nat) : Builder := Builder.new maxSize (maxSize * 16)

/-- The loop that doubles the size; the first argument counts the iterations that may follow — strings_buffer.cc:96-98. -/
def doubleLoop (need : Nat) : Nat → Nat → Option Nat
  | 0, _ => none
  | fuel + 1, n => if need > n then doubleLoop need fuel (n * 2) else some n

/-- `std::clamp` -/
def clamp (v lo hi : Nat) : Nat := if v < lo then lo else if hi < v then hi else v

/-- `EstimateRequiredCharactersSize` — strings_buffer.cc:92-109. -/
def Builder.estimate (b : Builder) (sizeToAdd : Nat) : Option Nat :=
  match doubleLoop (sizeToAdd + b.numChars) (sizeToAdd + b.numChars + 1) (max (b.chars.length * 2) (b.offsets.length * 16)) with
  | none => none
  | some n => if n < 4 * 1024 * 1024 then some (clamp (sizeToAdd * b.offsets.length) n (4 * 1024 * 1024)) else some n

/-- `ResizeCharacters`: `ReallocRawBuffer` keeps the contents up to the smaller size — strings_buffer.cc:111-118. -/
def Builder.resize (b : Builder) (n : Nat) : Builder :=
  { b with chars := b.chars.take n ++ List.replicate (n - b.chars.length) none }

/-- `std::copy(v.begin(), v.end(), characters_.data() + at)` -/
def writeChars (chars : List (Option Nat)) (at_ : Nat) (v : List Nat) : Option (List (Option Nat)) :=
  if at_ + v.length ≤ chars.length then some (chars.take at_ ++ v.map some ++ chars.drop (at_ + v.length)) else none

/-- The second part of `Set` — strings_buffer.h:107-111. -/
def Builder.write (b : Builder) (i : Nat) (v : List Nat) : Option Builder :=
  if i < b.offsets.length then
    match writeChars b.chars b.numChars v with
    | none => none
    | some chars => some ⟨b.offsets.set i ⟨b.numChars, b.numChars + v.length⟩, chars, b.numChars + v.length⟩
  else none

/-- `Set` — strings_buffer.h:101-112. -/
def Builder.set (b : Builder) (i : Nat) (v : List Nat) : Option Builder :=
  if v.length + b.numChars > b.chars.length then
    match b.estimate v.length with
    | none => none
    | some n => (b.resize n).write i v
  else b.write i v

/-- `Copy` — strings_buffer.h:118-120. -/
def Builder.copy (b : Builder) (src dst : Nat) : Option Builder :=
  match b.offsets[src]? with
  | none => none
  | some o => if dst < b.offsets.length then some { b with offsets := b.offsets.set dst o } else none

/-- `SetN` with the values that `fn` gives — strings_buffer.h:122-127. -/
def Builder.setN (b : Builder) (first : Nat) : List (List Nat) → Option Builder
  | [] => some b
  | v :: vs =>
    match b.set first v with
    | none => none
    | some b => b.setN (first + 1) vs

/-- `std::fill(data + first, data + first + count, o)` -/
def fillOffsets (offsets : List Offsets) (first : Nat) : Nat → Offsets → Option (List Offsets)
  | 0, _ => some offsets
  | count + 1, o => if first < offsets.length then fillOffsets (offsets.set first o) (first + 1) count o else none

/-- `SetNConst` — strings_buffer.h:128-137. -/
def Builder.setNConst (b : Builder) (first count : Nat) (v : List Nat) : Option Builder :=
  match count with
  | 0 => some b
  | k + 1 =>
    match b.set first v with
    | none => none
    | some b =>
      match b.offsets[first]? with
      | none => none
      | some d => (fillOffsets b.offsets (first + 1) k d).map fun o => { b with offsets := o }

/-- `Build(size)` — strings_buffer.cc:81-90. -/
def Builder.build (b : Builder) (size : Nat) : Buf :=
  let b := if b.numChars ≠ b.chars.length then b.resize b.numChars else b
  ⟨b.offsets.take size, b.chars.take b.numChars, 0⟩

/-- `Create` — strings_buffer.h:218-232. -/
def create (values : List (List Nat)) : Option Buf :=
  match values with
  | [] => some Buf.empty
  | _ :: _ => ((Builder.make values.length).setN 0 values).map (·.build values.length)

/-- `CreateUninitialized` — strings_buffer.h:201-215. -/
def createUninitialized (size : Nat) : Buf := ⟨List.replicate size ⟨0, 0⟩, [], 0⟩

/-! ## Copies -/

/-- `SimpleBuffer::Slice` — simple_buffer.h:299-306, `RawSpan::subspan` — util/raw_span.h:90-93. -/
def sliceList {α : Type} (l : List α) (offset count : Nat) : Option (List α) :=
  if count = 0 then some [] else if offset + count ≤ l.length then some ((l.drop offset).take count) else none

/-- `Slice` — strings_buffer.cc:158-166. -/
def Buf.slice (b : Buf) (offset count : Nat) : Option Buf :=
  if count = 0 then some Buf.empty
  else (sliceList b.offsets offset count).map fun o => ⟨o, b.chars, b.base⟩

/-- `Slice(offset)` — strings_buffer.h:277-279; with an offset after the end the count is negative, hence huge. -/
def Buf.sliceFrom (b : Buf) (offset : Nat) : Option Buf :=
  if offset ≤ b.offsets.length then b.slice offset (b.offsets.length - offset) else none

/-- `ShallowCopy` — strings_buffer.cc:176-179. -/
def Buf.shallowCopy (b : Buf) : Buf := b

/-- `DeepCopy` — strings_buffer.cc:181-201; a negative position is out of range. -/
def Buf.deepCopy (b : Buf) : Option Buf :=
  match b.offsets with
  | [] => some Buf.empty
  | o :: os =>
    let lo := os.foldl (fun m p => min m p.start) o.start
    let hi := os.foldl (fun m p => max m p.stop) o.stop
    if hi ≤ lo then (if hi = lo then some ⟨o :: os, [], lo⟩ else none)
    else if b.base ≤ lo then (sliceList b.chars (lo - b.base) (hi - lo)).map fun c => ⟨o :: os, c, lo⟩
    else none

/-- `std::equal` over the values. -/
def equalLoop (a b : Buf) : List Offsets → List Offsets → Option Bool
  | o :: os, p :: ps =>
    match a.view o, b.view p with
    | some x, some y => if x = y then equalLoop a b os ps else some false
    | _, _ => none
  | _, _ => some true

/-- `operator==` of two objects that are not the same object — strings_buffer.cc:146-156. -/
def Buf.equal (a b : Buf) : Option Bool :=
  if a.offsets.length ≠ b.offsets.length then some false else equalLoop a b a.offsets b.offsets

/-- What is combined by `AbslHashValue` (strings_buffer.h:292-305) and by the fingerprint hasher (strings_buffer.cc:203-215). -/
def Buf.hashInput (b : Buf) : Nat × Option (List Offsets × List (Option Nat)) :=
  (b.offsets.length, if b.offsets = [] then none else some (b.offsets, b.chars))

/-! ## ReshuffleBuilder -/

/-- `ReshuffleBuilder` — strings_buffer.h:193-197; the offsets of the new buffer, none for those that were not initialized. -/
structure Reshuffle where
  offsets : List Offsets
  oldOffsets : List Offsets
  chars : List (Option Nat)
  base : Nat

/-- The constructor — strings_buffer.cc:54-79. -/
def Reshuffle.new (maxSize : Nat) (b : Buf) (default : Option (List Nat)) : Reshuffle :=
  match default with
  | some (c :: cs) =>
    ⟨List.replicate maxSize ⟨b.chars.length, (c :: cs).length + b.chars.length⟩, b.offsets, b.chars ++ (c :: cs).map some, b.base⟩
  | _ => ⟨List.replicate maxSize ⟨0, 0⟩, b.offsets, b.chars, b.base⟩

/-- `CopyValue` — strings_buffer.h:170-172. -/
def Reshuffle.copyValue (r : Reshuffle) (new old : Nat) : Option Reshuffle :=
  match r.oldOffsets[old]? with
  | none => none
  | some o => if new < r.offsets.length then some { r with offsets := r.offsets.set new o } else none

/-- `CopyValueToRange` — strings_buffer.h:174-179. -/
def Reshuffle.copyRange (r : Reshuffle) (lo hi old : Nat) : Option Reshuffle :=
  match r.oldOffsets[old]? with
  | none => none
  | some o => (fillOffsets r.offsets lo (hi - lo) o).map fun offs => { r with offsets := offs }

/-- `Build(size)` — strings_buffer.h:181-184; `Build()` is the case of the full size. -/
def Reshuffle.build (r : Reshuffle) (size : Nat) : Buf := ⟨r.offsets.take size, r.chars, r.base⟩

end Verif.StrBuf
