/-!
# Reading protobuf messages by reflection

Model of `arolla/io/proto/reflection/reader.cc` and `arolla/io/proto/proto_input_loader.cc`.

The protobuf library is not part of the repository. Its reflection interface is modelled by a tree
of values; using a field descriptor with a message of another type, a singular accessor with a
repeated field, or a getter of another C++ type is a fatal usage error of the library. Such errors
and the dereferencing of a null pointer are the outcome `none` (or `crash`).
-/

namespace Verif.Proto

/-- `FieldDescriptor::Type` of the protobuf library (used in reader.cc:456-492). -/
inductive FType where
  | int32 | sint32 | sfixed32 | int64 | sint64 | sfixed64 | uint32 | fixed32 | uint64 | fixed64
  | double | float | bool | string | bytes | enum | group | message
  deriving DecidableEq, Repr

/-- `FieldDescriptor::CppType` of the protobuf library. -/
inductive CppType where
  | int32 | int64 | uint32 | uint64 | double | float | bool | string | enum | message
  deriving DecidableEq, Repr

/-- `FieldDescriptor::cpp_type()` of the protobuf library. -/
def FType.cppType : FType → CppType
  | .int32 | .sint32 | .sfixed32 => .int32
  | .int64 | .sint64 | .sfixed64 => .int64
  | .uint32 | .fixed32 => .uint32
  | .uint64 | .fixed64 => .uint64
  | .double => .double
  | .float => .float
  | .bool => .bool
  | .string | .bytes => .string
  | .enum => .enum
  | .group | .message => .message

/-- A field descriptor: `containing_type()`, `number()`, `is_repeated()`, `type()`,
`message_type()` (relevant for messages) and `is_extension()`. -/
structure Field where
  owner : Nat
  number : Nat
  repeated : Bool
  type : FType
  messageType : Nat := 0
  extension : Bool := false
  deriving DecidableEq, Repr

/-- A value of a field that is not a message. Floating point numbers are bit patterns. -/
inductive Val where
  | int (v : Int)
  | float (bits : Nat)
  | double (bits : Nat)
  | bool (b : Bool)
  | str (bytes : List Nat)
  deriving DecidableEq, Repr

/-- A message: its descriptor and the elements of every field; a singular field has no element if
it is unset. -/
inductive Node where
  | value (v : Val)
  | msg (descriptor : Nat) (fields : Nat → List Node)

/-- The elements of a field; a fatal error if the field belongs to another type of messages
(`USAGE_CHECK_MESSAGE_TYPE` of the protobuf library). -/
def elements (m : Node) (f : Field) : Option (List Node) :=
  match m with
  | .value _ => none
  | .msg d fs => if f.owner = d then some (fs f.number) else none

/-- `Reflection::HasField`. -/
def hasField (m : Node) (f : Field) : Option Bool :=
  if f.repeated then none else (elements m f).map fun l => !l.isEmpty

/-- `Reflection::FieldSize`. -/
def fieldSize (m : Node) (f : Field) : Option Nat :=
  if f.repeated then (elements m f).map List.length else none

/-- The element as a message. -/
def asMessage : Node → Option Node
  | .value _ => none
  | .msg d fs => some (.msg d fs)

/-- `Reflection::GetMessage` of a field that is set. -/
def getMessage (m : Node) (f : Field) : Option Node :=
  if f.repeated then none else (elements m f).bind fun l => l.head?.bind asMessage

/-- `Reflection::GetRepeatedMessage`. -/
def getRepeatedMessage (m : Node) (f : Field) (i : Nat) : Option Node :=
  if f.repeated then (elements m f).bind fun l => l[i]?.bind asMessage else none

/-- `Reflection::GetRepeatedFieldRef<Message>`. -/
def getRepeatedMessages (m : Node) (f : Field) : Option (List Node) :=
  if f.repeated then (elements m f).bind fun l => l.mapM asMessage else none

/-- A scalar element, read by a getter of the C++ type `g`; a fatal error if the field has another
C++ type. `GetEnumValue` is the getter of enums. -/
def getScalar (g : CppType) (f : Field) : Node → Option Val
  | .value v => if f.type.cppType = g then some v else none
  | .msg _ _ => none

/-- `GetSingular` (reader.cc:180-183) of a field that is set. -/
def getSingular (g : CppType) (m : Node) (f : Field) : Option Val :=
  if f.repeated then none else (elements m f).bind fun l => l.head?.bind (getScalar g f)

/-- `GetFromRepeated` (reader.cc:184-187). -/
def getFromRepeated (g : CppType) (m : Node) (f : Field) (i : Nat) : Option Val :=
  if f.repeated then (elements m f).bind fun l => l[i]?.bind (getScalar g f) else none

/-- `GetRepeated` (reader.cc:188-191). -/
def getRepeated (g : CppType) (m : Node) (f : Field) : Option (List Val) :=
  if f.repeated then (elements m f).bind fun l => l.mapM (getScalar g f) else none

/-- The types of values that the readers produce. -/
inductive ResType where
  | int32 | int64 | uint64 | double | float | bool | text | bytes
  deriving DecidableEq, Repr

/-- Reduction to the signed integers of `2 ^ n` values. -/
def wrapSigned (n : Nat) (v : Int) : Int := (v + 2 ^ (n - 1)) % 2 ^ n - 2 ^ (n - 1)

/-- `static_cast<T>` (reader.cc:90, 110, 134). Strings become `Text` or `Bytes` of the same bytes;
conversions that do not occur are the identity. -/
def castTo : ResType → Val → Val
  | .int32, .int v => .int (wrapSigned 32 v)
  | .int64, .int v => .int (wrapSigned 64 v)
  | .uint64, .int v => .int (v % 2 ^ 64)
  | _, v => v

/-- `StringFieldType` (io/proto_types/types.h). -/
inductive StringFieldType where
  | text | bytes
  deriving DecidableEq, Repr

/-- `SwitchByProtoType` (reader.cc:451-493): the result type and the getter that the callback is
called with; `none` is the error. -/
def switchByProtoType (t : FType) (s : StringFieldType) : Option (ResType × CppType) :=
  match t with
  | .int32 | .sint32 | .sfixed32 => some (.int32, .int32)
  | .int64 | .sint64 | .sfixed64 => some (.int64, .int64)
  | .uint32 | .fixed32 => some (.int64, .uint32)
  | .uint64 | .fixed64 => some (.uint64, .uint64)
  | .double => some (.double, .double)
  | .float => some (.float, .float)
  | .bool => some (.bool, .bool)
  | .string => match s with
    | .text => some (.text, .string)
    | .bytes => some (.bytes, .string)
  | .bytes => some (.bytes, .string)
  | .enum => some (.int32, .enum)
  | .group | .message => none

/-- `ProtoFieldAccessInfo` (reader.h:38-49). -/
inductive Access where
  | regular
  | index (idx : Nat)
  | repeated
  | size
  deriving DecidableEq, Repr

/-- `ByIndexReader` (reader.cc:83-100). -/
def byIndexReader (f : Field) (idx : Nat) (t : ResType) (g : CppType) (m : Node) :
    Option (Option Val) :=
  (fieldSize m f).bind fun n =>
    if idx < n then (getFromRepeated g m f idx).map fun v => some (castTo t v) else some none

/-- `FieldReader` (reader.cc:103-118). -/
def fieldReader (f : Field) (t : ResType) (g : CppType) (m : Node) : Option (Option Val) :=
  (hasField m f).bind fun h =>
    if h then (getSingular g m f).map fun v => some (castTo t v) else some none

/-- `ManyPushBackFn` (reader.cc:127-139). -/
def manyPushBack (f : Field) (t : ResType) (g : CppType) (m : Node) (res : List (Option Val)) :
    Option (List (Option Val)) :=
  (getRepeated g m f).map fun vs => res ++ vs.map fun v => some (castTo t v)

/-- `SizePushBackFn` (reader.cc:142-150). -/
def sizePushBack (f : Field) (m : Node) (res : List Nat) : Option (List Nat) :=
  (fieldSize m f).map fun n => res ++ [n]

/-- `SizeToShapeFn` (reader.cc:153-161). -/
def sizeToShape (f : Field) (m : Node) (_res : Nat) : Option Nat :=
  fieldSize m f

/-- `SinglePushBackFn` (reader.cc:164-173). -/
def singlePushBack (get : Node → Option (Option Val)) (m : Node) (res : List (Option Val)) :
    Option (List (Option Val)) :=
  (get m).map fun v => res ++ [v]

/-- `CheckAccessInfo` (reader.cc:207-234) for a descriptor that is not null. -/
def checkAccessInfo (f : Field) (info : Access) (allowRepeated isLast : Bool) : Bool :=
  if f.repeated then
    match info with
    | .index _ => true
    | .repeated => allowRepeated
    | .size => allowRepeated && isLast
    | .regular => false
  else
    match info with
    | .regular => true
    | _ => false

/-- The loop of `VerifyFieldsAndAccessInfos` (reader.cc:506-509). -/
def verifyLoop (allowRepeated : Bool) : List Field → List Access → Bool
  | [], _ => true
  | _, [] => true
  | f :: fs, a :: as => checkAccessInfo f a allowRepeated fs.isEmpty && verifyLoop allowRepeated fs as

/-- `VerifyFieldsAndAccessInfos` (reader.cc:495-511). -/
def verifyFieldsAndAccessInfos (fields : List Field) (infos : List Access) (allowRepeated : Bool) :
    Bool :=
  if fields.isEmpty then false
  else if fields.length ≠ infos.length then false
  else verifyLoop allowRepeated fields infos

/-- `Traverser::GetSubMessage` (reader.cc:301-321). The inner option is the pointer. -/
def getSubMessage (m : Node) (f : Field) (info : Access) : Option (Option Node) :=
  if f.repeated then
    match info with
    | .index idx => (fieldSize m f).bind fun n =>
        if idx < n then (getRepeatedMessage m f idx).map some else some none
    | _ => none
  else
    (hasField m f).bind fun h => if h then (getMessage m f).map some else some none

/-- `Traverser::GetLastSubMessage` (reader.cc:248-257). -/
def getLastSubMessage : List (Field × Access) → Node → Option (Option Node)
  | [], m => some (some m)
  | (f, a) :: steps, m =>
    match getSubMessage m f a with
    | none => none
    | some none => some none
    | some (some sub) => getLastSubMessage steps sub

/-- The result of a loop: more iterations are needed, a fatal error, or a value. -/
inductive Outcome (α : Type) where
  | more
  | crash
  | done (a : α)
  deriving DecidableEq, Repr

/-- The submessages that `TraverseSubmessages` pushes for one stack element (reader.cc:276-288).
They are read from the message `m` that it was called with, not from the element of the stack. -/
def pushed (m : Node) (s : Field × Access) : Option (List (Option Node)) :=
  match s.2 with
  | .repeated => (getRepeatedMessages m s.1).map fun l => l.map some
  | _ => (getSubMessage m s.1 s.2).map fun p => [p]

/-- The loop of `Traverser::TraverseSubmessages` (reader.cc:271-295). The head of the list is the
back of the stack, so the elements in their regular order are the ones that are added one by one and
reversed (reader.cc:291). The first argument bounds the number of iterations. -/
def traverseLoop {R : Type} (steps : List (Field × Access)) (m : Node)
    (callback : Node → R → Option R) : Nat → List (Option Node × Nat) → R → Outcome R
  | _, [], res => .done res
  | 0, _ :: _, _ => .more
  | n + 1, (current, i) :: stack, res =>
    match steps[i]? with
    | some s =>
      match pushed m s with
      | none => .crash
      | some subs => traverseLoop steps m callback n (subs.map (fun p => (p, i + 1)) ++ stack) res
    | none =>
      match current with
      | none => .crash
      | some c =>
        match callback c res with
        | none => .crash
        | some res' => traverseLoop steps m callback n stack res'

/-- `Traverser::TraverseSubmessages` (reader.cc:264-296). -/
def traverseSubmessages {R : Type} (steps : List (Field × Access)) (m : Node)
    (callback : Node → R → Option R) (res : R) (n : Nat) : Outcome R :=
  traverseLoop steps m callback n [(some m, 0)] res

/-- The types of the slots that are filled. -/
inductive QT where
  | optional (t : ResType)
  | denseArray (t : ResType)
  | sizeArray
  | shape
  deriving DecidableEq, Repr

/-- The values that are stored in the frame. -/
inductive FrameValue where
  | optional (v : Option Val)
  | array (l : List (Option Val))
  | sizes (l : List Nat)
  | shape (n : Nat)
  deriving DecidableEq, Repr

/-- `ProtoTypeReader` (reader.h:51-123): the type, and the bound function, which gets the bound on
the number of iterations as its last argument. -/
structure Reader where
  qtype : QT
  read : Node → Nat → Outcome FrameValue

/-- A fatal error or a value. -/
def Outcome.ofOption {α : Type} : Option α → Outcome α
  | none => .crash
  | some a => .done a

/-- Applies a function to the value. -/
def Outcome.map {α β : Type} (f : α → β) : Outcome α → Outcome β
  | .more => .more
  | .crash => .crash
  | .done a => .done (f a)

/-- The reader of the last field (reader.cc:530-540): `*std::get_if` is null unless the access is
by index. -/
def lastReader (f : Field) (a : Access) (t : ResType) (g : CppType) :
    Node → Option (Option Val) :=
  if f.repeated then
    match a with
    | .index idx => byIndexReader f idx t g
    | _ => fun _ => none
  else fieldReader f t g

/-- `OptionalReader` (reader.cc:332-345). -/
def optionalRead (steps : List (Field × Access)) (get : Node → Option (Option Val)) (m : Node) :
    Option FrameValue :=
  match getLastSubMessage steps m with
  | none => none
  | some none => some (.optional none)
  | some (some last) => (get last).map .optional

/-- `OptionalReaderCallback::operator()` (reader.cc:525-544). -/
def optionalCallback (steps : List (Field × Access)) (f : Field) (a : Access) (t : ResType)
    (g : CppType) : Reader :=
  ⟨.optional t, fun m _ => .ofOption (optionalRead steps (lastReader f a t g) m)⟩

/-- The pushback function of the last field (reader.cc:596-615). -/
def lastPushBack (f : Field) (a : Access) (t : ResType) (g : CppType) :
    Node → List (Option Val) → Option (List (Option Val)) :=
  match a with
  | .repeated => manyPushBack f t g
  | _ => singlePushBack (lastReader f a t g)

/-- `DenseArrayReaderCallback::operator()` (reader.cc:590-619) with `DenseArrayReader`
(reader.cc:422-434). -/
def denseArrayCallback (steps : List (Field × Access)) (f : Field) (a : Access) (t : ResType)
    (g : CppType) : Option Reader :=
  if a = .size then none
  else some ⟨.denseArray t, fun m n =>
    (traverseSubmessages steps m (lastPushBack f a t g) [] n).map .array⟩

/-- `DenseArrayReaderCallback::CreateSizeAccessor` (reader.cc:577-586) with `ArraySizeReader`
(reader.cc:363-375). -/
def arraySizeAccessor (steps : List (Field × Access)) (f : Field) (a : Access) : Option Reader :=
  if a = .size then
    some ⟨.sizeArray, fun m n => (traverseSubmessages steps m (sizePushBack f) [] n).map .sizes⟩
  else none

/-- `OptionalReaderCallback::CreateSizeAccessor` (reader.cc:547-556) with `ShapeSizeReader`
(reader.cc:393-403). -/
def shapeSizeAccessor (steps : List (Field × Access)) (f : Field) (a : Access) : Option Reader :=
  if a = .size then
    some ⟨.shape, fun m n => (traverseSubmessages steps m (sizeToShape f) 0 n).map .shape⟩
  else none

/-- The last field and its access. -/
def lastStep (fields : List Field) (infos : List Access) : Option (Field × Access) :=
  fields.getLast?.bind fun f => infos.getLast?.map fun a => (f, a)

/-- The intermediate fields and their accesses (reader.cc:520-522, 572-574). -/
def intermediate (fields : List Field) (infos : List Access) : List (Field × Access) :=
  fields.dropLast.zip infos.dropLast

/-- `ProtoTypeReader::CreateOptionalReader` (reader.cc:631-641). -/
def createOptionalReader (fields : List Field) (infos : List Access) (s : StringFieldType) :
    Option Reader :=
  if verifyFieldsAndAccessInfos fields infos false then
    (lastStep fields infos).bind fun (f, a) =>
      (switchByProtoType f.type s).map fun (t, g) =>
        optionalCallback (intermediate fields infos) f a t g
  else none

/-- `ProtoTypeReader::CreateDenseArrayShapeReader` (reader.cc:643-652). -/
def createDenseArrayShapeReader (fields : List Field) (infos : List Access) : Option Reader :=
  if verifyFieldsAndAccessInfos fields infos true then
    (lastStep fields infos).bind fun (f, a) => shapeSizeAccessor (intermediate fields infos) f a
  else none

/-- `ProtoTypeReader::CreateDenseArrayReader` (reader.cc:654-669). -/
def createDenseArrayReader (fields : List Field) (infos : List Access) (s : StringFieldType) :
    Option Reader :=
  if verifyFieldsAndAccessInfos fields infos true then
    (lastStep fields infos).bind fun (f, a) =>
      if a = .size then arraySizeAccessor (intermediate fields infos) f a
      else (switchByProtoType f.type s).bind fun (t, g) =>
        denseArrayCallback (intermediate fields infos) f a t g
  else none

/-- `CreateReaderWithStringType` (proto_input_loader.cc:54-77). -/
def createReaderWithStringType (fields : List Field) (infos : List Access) (s : StringFieldType) :
    Option Reader :=
  if .repeated ∈ infos then createDenseArrayReader fields infos s
  else if infos.getLast? = some .size then createDenseArrayShapeReader fields infos
  else createOptionalReader fields infos s

end Verif.Proto
