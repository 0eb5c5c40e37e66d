import Mathlib.Order.Defs.LinearOrder
import Mathlib.Data.List.Basic

/-!
# Model of objects and of their operators

`arolla/objects/object_qtype.{h,cc}`, `arolla/objects/operators/qexpr_operators.cc`, `arolla/objects/operators/expr_operators.cc`.

`κ` is the type of the names of attributes, `T` the type of the types and `W` the type of the values without their type.  A hash map is the
list of its items in the order of its iteration, which is arbitrary; the keys are different.  `std::sort` is an arbitrary function `sort`,
about which the theorems assume that it sorts.  What a fingerprint combines is a list of tokens; the hash function is not modelled.  The text
of error messages is not modelled.
-/

namespace Verif.Objects

/-- `TypedValue`. -/
structure TypedValue (T W : Type) where
  type : T
  value : W
  deriving DecidableEq

/-- `Object` — object_qtype.h:49-100: without `impl_`, or with `attributes` and `prototype`. -/
inductive Object (κ V : Type)
  | null
  | impl (attributes : List (κ × V)) (prototype : Option (Object κ V))

variable {κ V : Type}

/-- `Object::attributes` — object_qtype.cc:46-48. -/
def Object.attributes : Object κ V → List (κ × V)
  | .null => []
  | .impl a _ => a

/-- `Object::prototype` — object_qtype.cc:50-52. -/
def Object.prototype : Object κ V → Option (Object κ V)
  | .null => none
  | .impl _ p => p

/-- `flat_hash_map::find`. -/
def find [DecidableEq κ] (k : κ) : List (κ × V) → Option V
  | [] => none
  | (k', v) :: m => if k' = k then some v else find k m

/-- `flat_hash_map::emplace`: an item whose key is present is not inserted. -/
def emplace [DecidableEq κ] (m : List (κ × V)) (k : κ) (v : V) : List (κ × V) :=
  match find k m with
  | some _ => m
  | none => m ++ [(k, v)]

/-- `Object::GetAttrOrNull` — object_qtype.cc:54-64. -/
def Object.getAttrOrNull [DecidableEq κ] (attr : κ) : Object κ V → Option V
  | .null => none
  | .impl a none => find attr a
  | .impl a (some p) =>
    match find attr a with
    | some v => some v
    | none => p.getAttrOrNull attr

/-- What `Combine` adds to a fingerprint. -/
inductive Token (κ F : Type)
  | string (s : κ)
  | fingerprint (f : F)
  deriving DecidableEq

/-- `Object::ArollaFingerprint` with `GetSortedAttributes` — object_qtype.cc:66-88; `tag` is the string `"::arolla::Object"`, `fp` the
fingerprint of a value. -/
def Object.fingerprint {F : Type} (tag : κ) (fp : V → F) (sort : List (κ × V) → List (κ × V)) : Object κ V → List (Token κ F)
  | .null => .string tag :: (sort []).flatMap fun x => [.string x.1, .fingerprint (fp x.2)]
  | .impl a none => .string tag :: (sort a).flatMap fun x => [.string x.1, .fingerprint (fp x.2)]
  | .impl a (some p) =>
    .string tag :: ((sort a).flatMap fun x => [.string x.1, .fingerprint (fp x.2)]) ++ p.fingerprint tag fp sort

/-! ## Operators -/

/-- `MakeObjectOperator` — qexpr_operators.cc:46-75: the named tuple is the list of its fields, `none` stands for an unspecified
prototype. -/
def makeObject [DecidableEq κ] (prototype : Option (Object κ V)) (namedtuple : List (κ × V)) : Object κ V :=
  .impl (namedtuple.foldl (fun m x => emplace m x.1 x.2) []) prototype

/-- Errors of the operators. -/
inductive Error
  | attributeNotFound | unexpectedType | notAnObject | notAText | notLiteral | notAQType
  deriving DecidableEq

variable {T W : Type}

/-- `GetObjectAttrOperator` — qexpr_operators.cc:77-110. -/
def getObjectAttr [DecidableEq κ] [DecidableEq T] (object : Object κ (TypedValue T W)) (attr : κ) (qtype : T) :
    Except Error (TypedValue T W) :=
  match object.getAttrOrNull attr with
  | none => .error .attributeNotFound
  | some result => if result.type ≠ qtype then .error .unexpectedType else .ok result

/-- `GetObjectAttrQTypeOp` — qexpr_operators.cc:150-157; `nothing` is `GetNothingQType()`. -/
def getObjectAttrQType [DecidableEq κ] (nothing : T) (object : Object κ (TypedValue T W)) (attr : κ) : T :=
  match object.getAttrOrNull attr with
  | some result => result.type
  | none => nothing

/-- What is known about an input of an operator: nothing, a type other than the expected one, the expected type, or its value. -/
inductive Known (A : Type)
  | unknown | other | type | literal (a : A)

/-- What is known about the result: `ExprAttributes` — expr/expr_attributes.h:42-123. -/
structure Attr (T W : Type) where
  qtype : Option T
  qvalue : Option (TypedValue T W)
  deriving DecidableEq

/-- `ObjectGetObjectAttrOperator::InferAttributes` — expr_operators.cc:59-103. -/
def inferGetObjectAttr [DecidableEq κ] [DecidableEq T] (object : Known (Object κ (TypedValue T W))) (attr : Known κ)
    (outputQType : Known T) : Except Error (Attr T W) :=
  match object with
  | .other => .error .notAnObject
  | _ =>
    match attr with
    | .other => .error .notAText
    | .type => .error .notLiteral
    | _ =>
      match outputQType with
      | .unknown => .ok ⟨none, none⟩
      | .other => .error .notAQType
      | .type => .error .notLiteral
      | .literal qtype =>
        match object, attr with
        | .literal o, .literal a =>
          match getObjectAttr o a qtype with
          | .error e => .error e
          | .ok v => .ok ⟨some v.type, some v⟩
        | _, _ => .ok ⟨some qtype, none⟩

/-- `ObjectGetObjectAttrQTypeOperator::InferAttributes` — expr_operators.cc:118-142; the value is the type that it holds. -/
def inferGetObjectAttrQType [DecidableEq κ] (nothing : T) (object : Known (Object κ (TypedValue T W))) (attr : Known κ) :
    Except Error (Option T) :=
  match object with
  | .other => .error .notAnObject
  | _ =>
    match attr with
    | .other => .error .notAText
    | _ =>
      match object, attr with
      | .literal o, .literal a => .ok (some (getObjectAttrQType nothing o a))
      | _, _ => .ok none

end Verif.Objects
