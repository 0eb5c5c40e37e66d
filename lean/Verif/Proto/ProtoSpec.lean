import Verif.Proto.ProtoModel

/-!
# What reading a path of fields means
-/

namespace Verif.Proto

/-- The elements of a field of a message. -/
def items (f : Field) : Node → List Node
  | .value _ => []
  | .msg _ fs => fs f.number

/-- The values that a field of this type can have. -/
def InRange : FType → Val → Prop
  | .int32, .int v | .sint32, .int v | .sfixed32, .int v | .enum, .int v =>
      -2 ^ 31 ≤ v ∧ v < 2 ^ 31
  | .int64, .int v | .sint64, .int v | .sfixed64, .int v => -2 ^ 63 ≤ v ∧ v < 2 ^ 63
  | .uint32, .int v | .fixed32, .int v => 0 ≤ v ∧ v < 2 ^ 32
  | .uint64, .int v | .fixed64, .int v => 0 ≤ v ∧ v < 2 ^ 64
  | .double, .double _ => True
  | .float, .float _ => True
  | .bool, .bool _ => True
  | .string, .str _ | .bytes, .str _ => True
  | _, _ => False

/-- The message has this descriptor. -/
def HasDescriptor (d : Nat) : Node → Prop
  | .value _ => False
  | .msg d' _ => d' = d

/-- The elements that a field can have. -/
structure ItemsOk (f : Field) (l : List Node) : Prop where
  singular : f.repeated = false → l.length ≤ 1
  messages : f.type.cppType = .message → ∀ x ∈ l, HasDescriptor f.messageType x
  values : f.type.cppType ≠ .message → ∀ x ∈ l, ∃ v, x = .value v ∧ InRange f.type v

/-- A message that respects the field descriptors of a schema. -/
inductive Valid (F : Field → Prop) : Node → Prop
  | msg (d : Nat) (fs : Nat → List Node)
      (ok : ∀ f, F f → f.owner = d → ItemsOk f (fs f.number))
      (sub : ∀ f, F f → f.owner = d → f.type.cppType = .message →
        ∀ x, x ∈ fs f.number → Valid F x) :
      Valid F (.msg d fs)

/-- The fields lead from the message type `d` through messages to the last field. -/
def PathOk (F : Field → Prop) : Nat → List (Field × Access) → Field → Prop
  | d, [], last => F last ∧ last.owner = d
  | d, (f, _) :: steps, last =>
    F f ∧ f.owner = d ∧ f.type.cppType = .message ∧ PathOk F f.messageType steps last

/-- The access fits a field that is not the last one: by index or to all elements exactly for
repeated fields. -/
def AccessOk (f : Field) (a : Access) : Prop :=
  (f.repeated = false ∧ a = .regular) ∨
  (f.repeated = true ∧ (a = .repeated ∨ ∃ i, a = .index i))

/-- The access selects one element. -/
def AccessOne (f : Field) (a : Access) : Prop :=
  (f.repeated = false ∧ a = .regular) ∨ (f.repeated = true ∧ ∃ i, a = .index i)

/-- One element of a field, if it exists. -/
def selectOne (f : Field) (a : Access) (m : Node) : Option Node :=
  match a with
  | .index i => (items f m)[i]?
  | _ => (items f m).head?

/-- The submessages that one step of a path leads to; a missing submessage has no elements in
its repeated fields and missing elements otherwise. -/
def select (s : Field × Access) (o : Option Node) : List (Option Node) :=
  match s.2 with
  | .repeated => match o with
    | none => []
    | some m => (items s.1 m).map some
  | _ => [o.bind (selectOne s.1 s.2)]

/-- The submessages that a path leads to, in their order. -/
def reach : List (Field × Access) → Option Node → List (Option Node)
  | [], o => [o]
  | s :: steps, o => (select s o).flatMap (reach steps)

/-- The scalar value of an element. -/
def toVal : Node → Option Val
  | .value v => some v
  | .msg _ _ => none

/-- The values of the last field: all elements, or one value that can be missing. -/
def lastValues (f : Field) (a : Access) (o : Option Node) : List (Option Val) :=
  match a with
  | .repeated => match o with
    | none => []
    | some m => (items f m).map toVal
  | _ => [o.bind fun m => (selectOne f a m).bind toVal]

/-- The size of the last field. -/
def lastSize (f : Field) (o : Option Node) : Nat :=
  match o with
  | none => 0
  | some m => (items f m).length

/-- The type of the values of a field. -/
def resType (t : FType) (s : StringFieldType) : Option ResType :=
  match t with
  | .int32 | .sint32 | .sfixed32 | .enum => some .int32
  | .int64 | .sint64 | .sfixed64 | .uint32 | .fixed32 => some .int64
  | .uint64 | .fixed64 => some .uint64
  | .double => some .double
  | .float => some .float
  | .bool => some .bool
  | .bytes => some .bytes
  | .string => if s = .text then some .text else some .bytes
  | .group | .message => none

/-- The fields of a path. -/
def pathFields (steps : List (Field × Access)) (f : Field) : List Field :=
  steps.map Prod.fst ++ [f]

/-- The accesses of a path. -/
def pathInfos (steps : List (Field × Access)) (a : Access) : List Access :=
  steps.map Prod.snd ++ [a]

end Verif.Proto
