import Verif.Dense.DenseModel
import Verif.Edge.EdgeModel
import Verif.StrBuf.StrBufModel

/-!
# Model of the codec of dense arrays

`arolla/serialization_codecs/dense_array/encoders/dense_array_encoder.cc` ("enc") and
`arolla/serialization_codecs/dense_array/decoders/dense_array_decoder.cc` ("dec").  A proto message is a structure of its fields; an
`optional` field is an `Option`.  The wire format of protobuf is not modelled.  A read out of range, a signed overflow and a read of
an optional without a value are `none`; an error status is `Except.error` with a shortened message.  The bookkeeping of codec indices
and of the table of values is modelled in `Verif.Serial`.
-/

namespace Verif.Codec
open Verif.Bits Verif.Bitmap Verif.Dense

/-- `DenseArray{Boolean,Int32,Int64,UInt64,Float32,Float64}Proto` — dense_array_codec.proto. -/
structure DMsg (α : Type) where
  size : Option Int
  bitmap : List Word
  values : List α
  deriving DecidableEq

/-- `DenseArrayUnitProto`. -/
structure UMsg where
  size : Option Int
  bitmap : List Word
  deriving DecidableEq

/-- `bm::BitmapSize` on an `int64_t`: `bit_count + kWordBitCount` is computed first — dense_array/bitmap.h:47-49. -/
def bitmapSizeI (n : Int) : Option Nat := if n + 32 > Edge.maxI64 then none else some (bitmapSize n.toNat)

/-- `GenBitmapProto` — enc:65-79. -/
def genBitmap (bm : List Word) (off size : Nat) : Option (List Word) := do
  if (← countBits bm off size) = size then some []
  else do
    let n ← bitmapSizeI size
    let ws ← (List.range n).mapM (fun i => getWordWithOffset bm i off)
    let lastWordUsage := size % 32
    if lastWordUsage ≠ 0 then do
      let w ← ws[n - 1]?
      wr ws (n - 1) (w &&& ((← shl 1 lastWordUsage) - 1))
    else some ws

/-- `EncodeDenseArrayUnitValue` — enc:81-93. -/
def encodeUnit (a : DArr Unit) : Option UMsg := do
  some ⟨some a.size, ← genBitmap a.bitmap a.off a.size⟩

/-- `GEN_ENCODE_DENSE_ARRAY_VALUE` — enc:105-125. -/
def encodeDense {α : Type} (a : DArr α) : Option (DMsg α) := do
  let bitmap ← genBitmap a.bitmap a.off a.size
  let calls ← a.forEach
  some ⟨some a.size, bitmap, calls.filterMap (fun (_, present, v) => if present then some v else none)⟩

/-- `DECODE_DENSE_ARRAY_HEADER` — dec:76-92. -/
def header (size : Option Int) (bitmap : List Word) : Option (Except String (Nat × List Word)) :=
  match size with
  | none => some (.error "missing field size")
  | some n =>
    if n < 0 then some (.error "expected a non-negative value in size")
    else if bitmap ≠ [] then do
      let expected ← bitmapSizeI n
      if expected = bitmap.length then some (.ok (n.toNat, bitmap))
      else some (.error "expected items in bitmap")
    else some (.ok (n.toNat, []))

/-- `DecodeDenseArrayUnitValue` — dec:94-99. -/
def decodeUnit (m : UMsg) : Option (Except String (DArr Unit)) := do
  match ← header m.size m.bitmap with
  | .error e => some (.error e)
  | .ok (n, bitmap) => some (.ok ⟨List.replicate n (), bitmap, 0⟩)

/-- The calls of the lambda — dec:113-119; `i` is the position in the values, `j` the position in the message. -/
def fillLoop {α : Type} (vals : List α) : List Bool → Nat → Nat → List α → Option (List α)
  | [], _, _, data => some data
  | present :: bs, i, j, data =>
    if present then do fillLoop vals bs (i + 1) (j + 1) (← wrV data i (← vals[j]?))
    else fillLoop vals bs (i + 1) j data

/-- `GEN_DECODE_DENSE_ARRAY_VALUE` — dec:101-123; `mem` is the content of the values before they are written. -/
def decodeDense {α : Type} (mem : Nat → α) (m : DMsg α) : Option (Except String (DArr α)) := do
  match ← header m.size m.bitmap with
  | .error e => some (.error e)
  | .ok (n, bitmap) =>
    let count ← countBits bitmap 0 n
    if count ≠ m.values.length then some (.error "expected items in values")
    else do
      let values ← fillLoop m.values (← iterate bitmap 0 n) 0 0 ((List.range n).map mem)
      some (.ok ⟨values, bitmap, 0⟩)

/-! ## Strings -/

/-- `DenseArray<Text>`, `DenseArray<Bytes>`: the values are a `StringsBuffer` — dense_array.h:52-63. -/
structure SArr where
  buf : StrBuf.Buf
  bitmap : List Word
  off : Nat
  deriving DecidableEq

/-- `size` -/
def SArr.size (a : SArr) : Nat := a.buf.offsets.length

/-- `present` — dense_array.h:80-85. -/
def SArr.present (a : SArr) (i : Nat) : Option Bool := getBitB a.bitmap (i + a.off)

/-- `DenseArrayStringProto`; a character is `none` if it was not initialized. -/
structure SMsg where
  size : Option Int
  bitmap : List Word
  characters : Option (List (Option Nat))
  starts : List Int
  stops : List Int
  deriving DecidableEq

/-- The loop — enc:152-160; `n` rows remain. -/
def offsetsLoop (a : SArr) : Nat → Nat → Option (List (Int × Int))
  | _, 0 => some []
  | i, n + 1 => do
    if ← a.present i then do
      let o ← a.buf.offsets[i]?
      let rest ← offsetsLoop a (i + 1) n
      some (((o.start : Int) - a.buf.base, (o.stop : Int) - a.buf.base) :: rest)
    else offsetsLoop a (i + 1) n

/-- `GEN_ENCODE_DENSE_ARRAY_STRING_VALUE` — enc:136-163. -/
def encodeStrings (a : SArr) : Option SMsg := do
  let bitmap ← genBitmap a.bitmap a.off a.size
  let offs ← offsetsLoop a 0 a.size
  some ⟨some a.size, bitmap, some a.buf.chars, offs.map (·.1), offs.map (·.2)⟩

/-- `CheckStringsOffsets` — dec:134-159. -/
def checkOffsets (size : Int) : List Int → List Int → Except String Unit
  | s :: ss, e :: es =>
    if s < 0 then .error "expected non-negative items in value_offset_starts"
    else if s > e then .error "expected items in value_offset_starts to be less-or-equal than value_offset_ends"
    else if e > size then .error "expected items in value_offset_ends to be less-or-equal than .characters size"
    else checkOffsets size ss es
  | _, _ => .ok ()

/-- An `int64_t` offset; the model of the buffer has natural numbers only. -/
def toOffsets (s e : Int) : Option StrBuf.Offsets := if s < 0 ∨ e < 0 then none else some ⟨s.toNat, e.toNat⟩

/-- The calls of the lambda — dec:185-195. -/
def offsetsFill (starts stops : List Int) : List Bool → Nat → Nat → List StrBuf.Offsets → Option (List StrBuf.Offsets)
  | [], _, _, data => some data
  | present :: bs, i, j, data =>
    if present then do
      offsetsFill starts stops bs (i + 1) (j + 1) (← wrV data i (← toOffsets (← starts[j]?) (← stops[j]?)))
    else do offsetsFill starts stops bs (i + 1) j (← wrV data i ⟨0, 0⟩)

/-- `GEN_DECODE_DENSE_ARRAY_STRINGS_VALUE` — dec:161-203. -/
def decodeStrings (mem : Nat → StrBuf.Offsets) (m : SMsg) : Option (Except String SArr) := do
  match ← header m.size m.bitmap with
  | .error e => some (.error e)
  | .ok (n, bitmap) =>
    match m.characters with
    | none => some (.error "missing field characters")
    | some chars =>
      let count ← countBits bitmap 0 n
      if count ≠ m.starts.length then some (.error "expected items in value_offset_starts")
      else if count ≠ m.stops.length then some (.error "expected items in value_offset_ends")
      else
        match checkOffsets chars.length m.starts m.stops with
        | .error e => some (.error e)
        | .ok _ => do
          let offsets ← offsetsFill m.starts m.stops (← iterate bitmap 0 n) 0 0 ((List.range n).map mem)
          some (.ok ⟨⟨offsets, chars, 0⟩, bitmap, 0⟩)

end Verif.Codec
