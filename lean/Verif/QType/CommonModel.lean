/-!
# Model of `arolla/qtype/standard_type_properties/common_qtype.cc` and `properties.cc`

A type is a plain type (scalar or not), an optional, an array of some kind (`DENSE_ARRAY`, `ARRAY`, …) or another type
with a `value_qtype` (like a sequence).  Which types exist is given by a `Registry`.  `nullptr` is `none`.
-/

namespace Verif.QType

/-- The types of elements; `other` stands for all types which are not numbers. -/
inductive Val where
  | weakFloat | f64 | f32 | i64 | i32
  | other (k : Nat)
  deriving DecidableEq, Repr

inductive QTy where
  | plain (v : Val)
  | optional (v : Val)
  | array (kind : Nat) (v : Val)
  | container (k : Nat) (value : QTy)
  deriving DecidableEq, Repr

/-- Which plain types are scalars (`IsScalarQType`), for which the optional type and arrays exist. -/
structure Registry where
  isScalar : Val → Bool
  hasOptional : Val → Bool
  hasArray : Nat → Val → Bool

inductive Shape where
  | scalar | optional
  | array (kind : Nat)
  deriving DecidableEq, Repr

/-- `GetScalarQTypeOrNull` — properties.cc:30-41. -/
def scalarOrNull (reg : Registry) : QTy → Option QTy
  | .plain v => if reg.isScalar v then some (.plain v) else none
  | .optional v => some (.plain v)
  | .array _ v => some (.plain v)
  | .container _ q => some q

/-- `GetShapeQTypeOrNull` — properties.cc:52-69. -/
def shapeOrNull (reg : Registry) : QTy → Option Shape
  | .plain v => if reg.isScalar v then some .scalar else none
  | .optional _ => some .optional
  | .array k _ => some (.array k)
  | .container _ _ => none

/-- The position in `numeric_types` — common_qtype.cc:56-60. -/
def numericIndex : QTy → Option Nat
  | .plain .f64 => some 0
  | .plain .f32 => some 1
  | .plain .i64 => some 2
  | .plain .i32 => some 3
  | _ => none

/-- `numeric_types[i]`. -/
def numericType : Nat → QTy
  | 0 => .plain .f64
  | 1 => .plain .f32
  | 2 => .plain .i64
  | _ => .plain .i32

/-- `CommonScalarQType` — common_qtype.cc:41-66. -/
def commonScalar (a b : QTy) : Option QTy :=
  if a = b then some a
  else
    let a := if a = .plain .weakFloat then .plain .f32 else a
    let b := if b = .plain .weakFloat then .plain .f32 else b
    match numericIndex a, numericIndex b with
    | some i, some j => some (numericType (min i j))
    | _, _ => none

/-- `IsArrayLikeShapeQType`. -/
def isArrayShape : Option Shape → Bool
  | some (.array _) => true
  | _ => false

/-- `CommonShapeQType` — common_qtype.cc:68-92. -/
def commonShape (a b : Option Shape) (broadcasting : Bool) : Option Shape :=
  if a = b then b
  else if !broadcasting && (isArrayShape a || isArrayShape b) then none
  else if a = some .scalar then b
  else if b = some .scalar then a
  else if a = some .optional then b
  else if b = some .optional then a
  else none

/-- `ShapeQType::WithValueQType` — shape_qtype.cc:35-42, 49-52, 64-67, array/qtype/types.cc:106-108, 115-119,
dense_array/qtype/types.cc:110-112, 121-125. -/
def withValue (reg : Registry) : Shape → QTy → Option QTy
  | .scalar, .plain v => if reg.isScalar v then some (.plain v) else none
  | .scalar, .optional v => some (.optional v)
  | .scalar, _ => none
  | .optional, .plain v => if reg.isScalar v && reg.hasOptional v then some (.optional v) else none
  | .optional, .optional v => some (.optional v)
  | .optional, _ => none
  | .array k, .plain v => if reg.hasArray k v then some (.array k v) else none
  | .array k, .optional v => if reg.hasArray k v then some (.array k v) else none
  | .array _, _ => none

/-- `CommonQType` of two types — common_qtype.cc:96-126. -/
def common (reg : Registry) (broadcasting : Bool) (a b : Option QTy) : Option QTy := do
  let a ← a
  let b ← b
  if a = b then some a
  else do
    let sa ← scalarOrNull reg a
    let sb ← scalarOrNull reg b
    let s ← commonScalar sa sb
    let sh ← commonShape (shapeOrNull reg a) (shapeOrNull reg b) broadcasting
    withValue reg sh s

/-- `CanCastImplicitly` — common_qtype.cc:128-132. -/
def canCast (reg : Registry) (broadcasting : Bool) (a b : Option QTy) : Bool :=
  b.isSome && common reg broadcasting a b == b

/-- `CommonQType` of a span — common_qtype.cc:134-144. -/
def commonSpan (reg : Registry) (broadcasting : Bool) : List (Option QTy) → Option QTy
  | [] => none
  | q :: rest => rest.foldl (common reg broadcasting) q

/-- `BroadcastQType` — common_qtype.cc:146-167. -/
def broadcast (reg : Registry) (targets : List (Option QTy)) (q : Option QTy) : Option QTy :=
  if targets.any Option.isNone then none
  else do
    let q ← q
    let sh ← targets.foldl (fun sh t => commonShape sh (t.bind (shapeOrNull reg)) true) (shapeOrNull reg q)
    let s ← scalarOrNull reg q
    withValue reg sh s

end Verif.QType
