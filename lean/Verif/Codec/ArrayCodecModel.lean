import Verif.Codec.DenseCodecModel
import Verif.Arr.ArrayModel

/-!
# Model of the codecs of arrays and edges

`arolla/serialization_codecs/array/encoders/array_encoder.cc` ("enc"),
`arolla/serialization_codecs/array/decoders/array_decoder.cc` ("dec"), the edges and shapes of
`arolla/serialization_codecs/dense_array/{encoders,decoders}` ("denc", "ddec") and the construction of array edges, `arolla/array/edge.{h,cc}`.
The conventions are those of `Verif.Codec.DenseCodecModel`.
-/

namespace Verif.Codec
open Verif.Bits Verif.Bitmap Verif.Dense Verif.Arr

/-- `ArrayProto` — array_codec.proto. -/
structure AMsg where
  size : Option Int
  ids : List Int
  deriving DecidableEq

/-- An input value of a message: a dense array of the right type, an optional of the right type, or a value of another type. -/
inductive TV (α : Type) where
  | dense (d : DArr α)
  | opt (v : Option α)
  | other

/-- `EncodeArrayValueImpl` — enc:58-86. -/
def encodeArray {α : Type} (a : Arr α) : AMsg × List (TV α) :=
  if a.size > 0 then
    if a.data.size = a.size then (⟨some a.size, []⟩, [.dense a.data])
    else (⟨some a.size, a.flt.ids.map (· - a.flt.off)⟩, [.dense a.data, .opt a.miss])
  else (⟨some a.size, []⟩, [])

/-- `std::adjacent_find(begin, end, std::greater_equal<>()) != end`. -/
def adjacentGe : List Int → Bool
  | x :: y :: t => decide (x ≥ y) || adjacentGe (y :: t)
  | _ => false

/-- `DecodeArrayIds` — dec:71-99. -/
def decodeIds (expectedSize : Nat) (limit : Nat) (ids : List Int) : Option (Except String (List Int)) :=
  if ids.length ≠ expectedSize then some (.error "expected items in ids")
  else if ids ≠ [] then
    if adjacentGe ids then some (.error "expected a strictly monotonic sequence in ids")
    else do
      if (← ids[0]?) < 0 then some (.error "expected ids[0] to be non-negative")
      else if (← ids[expectedSize - 1]?) ≥ limit then some (.error "expected ids[last] to be less-than size")
      else some (.ok ids)
  else some (.ok ids)

/-- `DecodeArraySize` — dec:57-69. -/
def decodeSize (size : Option Int) : Except String Nat :=
  match size with
  | none => .error "missing field size"
  | some n => if n < 0 then .error "expected non-negative size" else .ok n.toNat

/-- `DecodeArrayValue` — dec:101-169. -/
def decodeArray {α : Type} (m : AMsg) (inputs : List (TV α)) : Option (Except String (Arr α)) :=
  match decodeSize m.size with
  | .error e => some (.error e)
  | .ok size =>
    if size = 0 then
      if inputs.length ≠ 0 then some (.error "expected no input_values")
      else if m.ids ≠ [] then some (.error "expected no ids")
      else some (.ok (Arr.ofConst 0 none))
    else
      match inputs with
      | [] => some (.error "expected dense array in input_values[0], got no value")
      | .dense d :: rest =>
        if d.size > size then some (.error "expected size of input_values[0] to be less-or-equal")
        else if d.size = size then
          if rest ≠ [] then some (.error "expected 1 item in input_values")
          else if m.ids ≠ [] then some (.error "expected no ids")
          else some (.ok (Arr.ofDense d))
        else
          match rest with
          | [] => some (.error "expected optional in input_values[1], got no value")
          | .opt miss :: rest =>
            if rest ≠ [] then some (.error "expected 2 items in input_values")
            else do
              match ← decodeIds d.size size m.ids with
              | .error e => some (.error e)
              | .ok ids => some (.ok (Arr.make size (mkFilter size ids 0) d miss))
          | _ :: _ => some (.error "expected optional in input_values[1]")
      | _ :: _ => some (.error "expected dense array in input_values[0]")

/-! ## Edges -/

/-- The field `edge_type`: `none` if it is absent, else its value. -/
inductive ETag where
  | unspecified
  | mapping
  | splitPoints
  deriving DecidableEq

/-- `DenseArrayEdgeProto`, `ArrayEdgeProto`. -/
structure EMsg where
  edgeType : Option ETag
  parentSize : Option Int
  deriving DecidableEq

/-- The part of `EncodeDenseArrayEdgeValue` and `EncodeArrayEdgeValue` after the values are encoded — denc:192-203, enc:139-149. -/
def encodeEdge (typ : Edge.EType) (parentSize : Int) : EMsg :=
  match typ with
  | .mapping => ⟨some .mapping, some parentSize⟩
  | .splitPoints => ⟨some .splitPoints, none⟩

/-- `DecodeDenseArrayEdgeType` (ddec:211-228), `DecodeArrayEdgeType` (dec:171-187). -/
def decodeEdgeType (m : EMsg) : Except String Edge.EType :=
  match m.edgeType with
  | none => .error "missing field edge_type"
  | some .mapping => .ok .mapping
  | some .splitPoints => .ok .splitPoints
  | some .unspecified => .error "unsupported value in edge_type"

/-- `DecodeDenseArrayEdgeValue` — ddec:230-269. -/
def decodeDenseEdge (m : EMsg) (inputs : List (TV Int)) : Option (Except String Edge.Edge) :=
  match inputs with
  | [.dense d] =>
    match decodeEdgeType m with
    | .error e => some (.error e)
    | .ok .mapping =>
      match m.parentSize with
      | none => some (.error "missing field parent_size")
      | some n => Edge.fromMapping d n
    | .ok .splitPoints =>
      match m.parentSize with
      | some _ => some (.error "unexpected field parent_size")
      | none => Edge.fromSplitPoints d
  | [_] => some (.error "expected dense array in input_values[0]")
  | _ => some (.error "expected 1 item in input_values")

/-- `ArrayEdge` — array/edge.h:143-146. -/
structure AEdge where
  typ : Edge.EType
  parentSize : Int
  childSize : Int
  values : Arr Int

/-- What the models of `Array` are given: uninitialised memory and the comparison of pointers. -/
structure Env where
  mem : Nat → Int
  bmem : Nat → Word
  pe : List Int → List Int → Bool

/-- `ArrayEdge::FromSplitPoints` — array/edge.cc:35-58. -/
def arrayFromSplitPoints (env : Env) (sp : Arr Int) : Option (Except String AEdge) := do
  let sp ← sp.toDenseForm env.mem env.bmem env.pe
  if sp.size = 0 then some (.error "split points array should have at least 1 element")
  else if sp.size ≠ sp.data.size then some (.error "split points should be full")
  else if !(← sp.data.isFull) then some (.error "split points should be full")
  else if (← sp.data.values[0]?) ≠ 0 then some (.error "split points array should have first element equal to 0")
  else do
    let childSize ← sp.data.values.getLast?
    if !Edge.isSorted sp.data.values then some (.error "split points should be sorted")
    else some (.ok ⟨.splitPoints, sp.size - 1, childSize, sp⟩)

/-- The lambda of `ArrayEdge::FromMapping` — array/edge.cc:75-78, on the state `(max_value, negative)`. -/
def arrayMappingStep (s : Int × Bool) (x : Int × Option Int) : Int × Bool :=
  match x.2 with
  | some v => (max s.1 v, s.2 || decide (v < 0))
  | none => s

/-- `ArrayEdge::FromMapping` — array/edge.cc:68-87, 97-102.  `ForEachPresent(fn)` repeats `fn` for a range of rows — array.h:362-372. -/
def arrayFromMapping (m : Arr Int) (parentSize : Int) : Option (Except String AEdge) :=
  if parentSize < 0 then some (.error "parent_size can not be negative")
  else do
    let (maxValue, negative) := ((← m.forEachPresent).flatMap Arr.Call.expand).foldl arrayMappingStep (-1, false)
    if negative then some (.error "mapping can't contain negative values")
    else if maxValue ≥ parentSize then some (.error "parent id is used")
    else some (.ok ⟨.mapping, parentSize, m.size, m⟩)

/-- An input value of an array edge. -/
inductive AV where
  | array (a : Arr Int)
  | other

/-- `DecodeArrayEdgeValue` — dec:189-233. -/
def decodeArrayEdge (env : Env) (m : EMsg) (inputs : List AV) : Option (Except String AEdge) :=
  match decodeEdgeType m with
  | .error e => some (.error e)
  | .ok typ =>
    match inputs with
    | [.array a] =>
      match typ with
      | .mapping =>
        match m.parentSize with
        | none => some (.error "missing field parent_size")
        | some n => if n < 0 then some (.error "expected non-negative parent_size") else arrayFromMapping a n
      | .splitPoints => arrayFromSplitPoints env a
    | [_] => some (.error "expected array in input_values[0]")
    | _ => some (.error "expected 1 item in input_values")

/-- `Decode{DenseArray,Array}{ToScalarEdge,Shape}Value` — ddec:271-290, dec:235-253; the encoders write the size (denc:214-241,
enc:161-186). -/
def decodeCount (n : Int) : Except String Int := if n < 0 then .error "expected non-negative" else .ok n

end Verif.Codec
