import Verif.Util.BitsModel

/-!
# Model of `arolla/dense_array/bitmap.{h,cc}`

A `Bitmap` (`Buffer<uint32_t>`) is a list of words.  Reads and writes outside of a buffer are
`none`.  `int64_t` sizes are natural numbers.
-/

namespace Verif.Bitmap
open Verif.Bits

/-- `kFullWord` — bitmap.h:43. -/
def fullWord : Word := ~~~0

/-- `BitmapSize` — bitmap.h:47-49. -/
def bitmapSize (bitCount : Nat) : Nat := (bitCount + 32 - 1) / 32

/-- `SimpleBuffer::Slice` — memory/simple_buffer.h:299-306 (`absl::Span::subspan` requires
`offset <= size` and clips the length). -/
def bufSlice {α : Type} (b : List α) (offset count : Nat) : Option (List α) :=
  if count = 0 then some []
  else if offset ≤ b.length then some ((b.drop offset).take count) else none

/-- `GetWord` — bitmap.h:51-57. -/
def getWord (bm : List Word) (index : Nat) : Word :=
  match bm[index]? with
  | none => fullWord
  | some w => w

/-- `GetWordWithOffset` — bitmap.h:59-68. -/
def getWordWithOffset (bm : List Word) (index offset : Nat) : Option Word :=
  if bm.length ≤ index then some fullWord
  else do
    let mask ← shr (← bm[index]?) offset
    if offset = 0 ∨ index + 1 = bm.length then some mask
    else do some (mask ||| (← shl (← bm[index + 1]?) (32 - offset)))

/-- Loop of `AreAllBitsSet` — bitmap.cc:28-37; `pos` is the position of the pointer `bitmap`. -/
def allSetLoop (bm : List Word) : Nat → Nat → Nat → Option Bool
  | 0, _, _ => none
  | fuel + 1, pos, bitCount =>
    if bitCount ≥ 32 then do
      let w ← bm[pos]?
      if w ≠ fullWord then some false else allSetLoop bm fuel (pos + 1) (bitCount - 32)
    else if bitCount > 0 then do
      let mask ← shr fullWord (32 - bitCount)
      let w ← bm[pos]?
      some ((w &&& mask) = mask)
    else some true

/-- `AreAllBitsSet` — bitmap.cc:27-38. -/
def areAllBitsSet (bm : List Word) (bitCount : Nat) : Option Bool :=
  allSetLoop bm (bitCount + 1) 0 bitCount

/-- Loop of `AreAllBitsUnset` — bitmap.h:75-77: are the `n` words from `pos` on zero? -/
def allUnsetLoop (bm : List Word) : Nat → Nat → Option Bool
  | _, 0 => some true
  | pos, n + 1 => do
    let w ← bm[pos]?
    if w ≠ 0 then some false else allUnsetLoop bm (pos + 1) n

/-- `AreAllBitsUnset` — bitmap.h:74-81. -/
def areAllBitsUnset (bm : List Word) (bitCount : Nat) : Option Bool := do
  if ← allUnsetLoop bm 0 (bitCount / 32) then
    let suffix := bitCount % 32
    if suffix = 0 then some true
    else do
      let w ← bm[bitCount / 32]?
      some ((← shl (← shr w suffix) suffix) = w)
  else some false

/-- `Intersect(a, b, result)` — bitmap.h:84-94.  `res` is the destination buffer. -/
def intersectSame (a b res : List Word) : Option (List Word) :=
  forRange 0 a.length (fun i res => do wr res i ((← a[i]?) &&& (← b[i]?))) res

/-- The part of `Intersect` with different offsets — bitmap.h:116-124. -/
def intersectShifted (first second : List Word) (offset : Nat) (res : List Word) :
    Option (List Word) := do
  let size1 := first.length
  let size2 := second.length
  let res ← forRange 0 (min size1 (size2 - 1)) (fun i res => do
    let s := (← shr (← second[i]?) offset) ||| (← shl (← second[i + 1]?) (32 - offset))
    wr res i ((← first[i]?) &&& s)) res
  if size2 > 0 ∧ size2 - 1 < size1 then
    wr res (size2 - 1) ((← first[size2 - 1]?) &&& (← shr (← second[size2 - 1]?) offset))
  else some res

/-- `Intersect(a, b, bit_offset_a, bit_offset_b, result)` — bitmap.h:98-126. -/
def intersect (a b : List Word) (offA offB : Nat) (res : List Word) : Option (List Word) :=
  if offA = offB then intersectSame a b res
  else if offA > offB then intersectShifted b a (offA - offB) res
  else intersectShifted a b (offB - offA) res

/-- `GetBit(const Bitmap&, bit_index)` — bitmap.h:136-143. -/
def getBitB (bm : List Word) (i : Nat) : Option Bool :=
  if bm = [] then some true else Bits.getBit bm i

/-- `UnsetBit` — bitmap.h:150-153. -/
def unsetBit (bm : List Word) (i : Nat) : Option (List Word) := do
  let w ← bm[i / 32]?
  wr bm (i / 32) (w &&& ~~~(← shl 1 (i % 32)))

/-- `IterateWord` — bitmap.h:157-163: the sequence of calls `fn(i, bit)`, shifted by `group`. -/
def iterateWord (group : Nat) (w : Word) (count : Nat) : List (Nat × Bool) :=
  (List.range count).map (fun i => (group + i, w.getLsbD i))

/-- Main loop of `IterateByGroups` — bitmap.h:187-193. -/
def iterateLoop (bm : List Word) (count : Nat) : Nat → Nat → Nat → Option (List (Nat × Bool))
  | 0, _, _ => none
  | fuel + 1, pos, group =>
    if group + 32 ≤ count then do
      let w ← bm[pos]?
      let rest ← iterateLoop bm count fuel (pos + 1) (group + 32)
      some (iterateWord group w 32 ++ rest)
    else if group ≠ count then do
      let w ← bm[pos]?
      some (iterateWord group w (count - group))
    else some []

/-- `IterateByGroups` — bitmap.h:175-194: all calls `init_group_fn(offset)(i, bit)` in order, as
pairs `(offset + i, bit)`. -/
def iterateByGroups (bm : List Word) (firstBit count : Nat) : Option (List (Nat × Bool)) :=
  let pos := firstBit / 32
  let bitOffset := firstBit % 32
  if bitOffset > 0 ∧ count > 0 then do
    let n := min count (32 - bitOffset)
    let w ← shr (← bm[pos]?) bitOffset
    let rest ← iterateLoop bm count (count + 1) (pos + 1) n
    some (iterateWord 0 w n ++ rest)
  else iterateLoop bm count (count + 1) pos 0

/-- `Iterate` — bitmap.h:198-208: the sequence of calls `fn(bit)`. -/
def iterate (bm : List Word) (firstBit count : Nat) : Option (List Bool) :=
  if bm = [] then some (List.replicate count true)
  else (iterateByGroups bm firstBit count).map (fun l => l.map (·.2))

/-- `CountBits` — bitmap.cc:40-48. -/
def countBits (bm : List Word) (offset size : Nat) : Option Nat := do
  let b := max 0 (min (bm.length * 32) offset)
  let e := max b (min (bm.length * 32) (offset + size))
  some (size - (e - b) + (← getOnesCountInRange bm b e))

/-- `CreateEmptyBitmap` — bitmap.h:218-230. -/
def createEmptyBitmap (bitCount : Nat) : List Word := List.replicate (bitmapSize bitCount) 0

/-! ## AlmostFullBuilder -/

/-- State of `AlmostFullBuilder` — bitmap.h:236-264; `bitmap = none` before the first missing id. -/
structure AlmostFull where
  bitCount : Nat
  bitmap : Option (List Word)

/-- `CreateFullBitmap` — bitmap.cc:50-61. -/
def createFullBitmap (bitCount : Nat) : Option (List Word) := do
  let span := List.replicate (bitmapSize bitCount) fullWord
  let lastBits := bitCount % 32
  if lastBits ≠ 0 then do
    let back ← span[span.length - 1]?
    wr span (span.length - 1) (back &&& ((← shl 1 lastBits) - 1))
  else some span

/-- `AddMissed` — bitmap.h:242-249. -/
def AlmostFull.addMissed (s : AlmostFull) (id : Nat) : Option AlmostFull := do
  let bm ← match s.bitmap with
    | none => createFullBitmap s.bitCount
    | some bm => some bm
  some { s with bitmap := some (← unsetBit bm id) }

/-- `Build()` — bitmap.h:251. -/
def AlmostFull.build (s : AlmostFull) : List Word := s.bitmap.getD []

/-- `Build(size)` — bitmap.h:252-254. -/
def AlmostFull.buildSize (s : AlmostFull) (size : Nat) : Option (List Word) :=
  bufSlice s.build 0 (bitmapSize size)

/-! ## Builder -/

/-- State of `bitmap::Builder` — bitmap.h:267-360.  The initial contents of `data` are arbitrary
(uninitialised memory). -/
structure Builder where
  data : List Word
  currentBit : Nat
  allPresent : Bool

/-- `Builder(bit_count)` with a given uninitialised buffer — bitmap.h:269-271. -/
def Builder.new (mem : List Word) : Builder := ⟨mem, 0, true⟩

/-- `Group` — bitmap.h:344-355: the word and the updated `all_present_`. -/
def groupLoop (f : Nat → Bool) : Nat → Nat → Word → Bool → Option (Word × Bool)
  | _, 0, res, ap => some (res, ap)
  | i, n + 1, res, ap => do
    if f i then groupLoop f (i + 1) n (res ||| (← shl 1 i)) ap
    else groupLoop f (i + 1) n res false

/-- `Group(count, fn)`. -/
def group (count : Nat) (f : Nat → Bool) (ap : Bool) : Option (Word × Bool) :=
  groupLoop f 0 count 0 ap

/-- Word loop of `AddByGroups`, shared by the aligned (bitmap.h:292-299) and the unaligned
(bitmap.h:301-314) branch; `add` stores a finished word. -/
def addLoop (add : Nat → Word → List Word → Option (List Word)) (count : Nat) (f : Nat → Bool) :
    Nat → Nat → List Word → Bool → Option (List Word × Bool)
  | 0, _, _, _ => none
  | fuel + 1, offset, data, ap =>
    if offset + 32 ≤ count then do
      let (w, ap) ← group 32 (fun i => f (offset + i)) ap
      let data ← add offset w data
      addLoop add count f fuel (offset + 32) data ap
    else if offset < count then do
      let (w, ap) ← group (count - offset) (fun i => f (offset + i)) ap
      let data ← add offset w data
      some (data, ap)
    else some (data, ap)

/-- `add_word_fn` — bitmap.h:302-308. -/
def addWordUnaligned (currentBit bitOffset offset : Nat) (w : Word) (data : List Word) :
    Option (List Word) := do
  let wordId := (currentBit + offset) / 32
  let d ← data[wordId]?
  let data ← wr data wordId (d ||| (← shl w bitOffset))
  if wordId + 1 < data.length then wr data (wordId + 1) (← shr w (32 - bitOffset)) else some data

/-- `AddByGroups` — bitmap.h:283-317; `f` is the composed generator: `f (offset + i)` is the result
of `init_group_fn(offset)(i)`. -/
def Builder.addByGroups (s : Builder) (count : Nat) (f : Nat → Bool) : Option Builder := do
  let bitOffset := s.currentBit % 32
  if bitOffset = 0 then do
    let (data, ap) ← addLoop (fun offset w data => wr data (s.currentBit / 32 + offset / 32) w)
      count f (count + 1) 0 s.data s.allPresent
    some ⟨data, s.currentBit + count, ap⟩
  else do
    let (data, ap) ← addLoop (addWordUnaligned s.currentBit bitOffset)
      count f (count + 1) 0 s.data s.allPresent
    some ⟨data, s.currentBit + count, ap⟩

/-- `Build` — bitmap.h:338-341. -/
def Builder.build (s : Builder) : List Word := if s.allPresent then [] else s.data

/-- `AddForEach(container, fn)` — bitmap.h:323-329, on the already computed booleans. -/
def Builder.addForEach (s : Builder) (bs : List Bool) : Option Builder :=
  s.addByGroups bs.length (fun i => bs.getD i false)

/-- `AddForEach` for a sequence of containers. -/
def Builder.addChunks (s : Builder) : List (List Bool) → Option Builder
  | [] => some s
  | c :: cs => do (← s.addForEach c).addChunks cs

/-- `AddMissed` for a sequence of ids. -/
def AlmostFull.addAll (s : AlmostFull) : List Nat → Option AlmostFull
  | [] => some s
  | id :: ids => do (← s.addMissed id).addAll ids

end Verif.Bitmap
