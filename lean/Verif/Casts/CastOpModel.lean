import Verif.Casts.CastsModel

/-!
# Model of `core.cast` and `core.cast_values`

`arolla/expr/operators/bootstrap_operators.cc`.  The literals `qtype`, `implicit_only` and `scalar_qtype` are arguments; the validation of
the types of these literals and the case that a type is not known yet (bootstrap_operators.cc:153-176, 258-276) are not modelled.
-/

namespace Verif.Casts

open Verif.QType

variable {X : Type}

/-- Which element types are `bool`, `uint64_t` and `Unit`. -/
structure Consts where
  bool : Nat
  u64 : Nat
  unit : Nat

/-- `IsNumericScalarQType(q) || q == GetQType<bool>() || q == GetQType<uint64_t>()` — bootstrap_operators.cc:200-205, 286-291 and
qtype/base_types.cc:79-89. -/
def castable (c : Consts) : QTy → Bool
  | .plain .weakFloat => true
  | .plain .f64 => true
  | .plain .f32 => true
  | .plain .i64 => true
  | .plain .i32 => true
  | .plain (.other k) => decide (k = c.bool) || decide (k = c.u64)
  | _ => false

/-- `IsScalarQType` — qtype/base_types.cc:74-77. -/
def isScalarQType (reg : Registry) : QTy → Bool
  | .plain v => reg.isScalar v
  | _ => false

/-- `WithScalarQType` — qtype/standard_type_properties/properties.cc:89-103. -/
def withScalar (reg : Registry) (q e : QTy) : Option QTy :=
  if isScalarQType reg e then
    match shapeOrNull reg q with
    | some s => withValue reg s e
    | none => none
  else none

/-- `ToOptionalLikeQType` — qtype/standard_type_properties/properties.cc:119-130. -/
def toOptionalLike (reg : Registry) : QTy → Option QTy
  | .plain v => if reg.isScalar v && reg.hasOptional v then some (.optional v) else none
  | .optional v => some (.optional v)
  | .array k v => some (.array k v)
  | .container _ _ => none

/-- The compatibility of the shapes — bootstrap_operators.cc:209-221. -/
def shapesAllowed (reg : Registry) (c : Consts) (arg target : QTy) : Bool :=
  match withScalar reg arg (.plain (.other c.unit)), withScalar reg target (.plain (.other c.unit)) with
  | some x, some y => decide (x = y) || decide (toOptionalLike reg x = some y)
  | _, _ => false

/-- The explicit casts — bootstrap_operators.cc:193-221. -/
def castAllowed (reg : Registry) (c : Consts) (arg target : QTy) : Bool :=
  match scalarOrNull reg arg, scalarOrNull reg target with
  | some a, some b => (decide (a = b) || (castable c a && castable c b)) && shapesAllowed reg c arg target
  | _, _ => false

/-- `CastOp::InferAttributes` — bootstrap_operators.cc:177-228. -/
def castInfer (reg : Registry) (c : Consts) (arg target : QTy) (implicitOnly : Bool) : Option QTy :=
  if arg = target then some target
  else if implicitOnly then
    if canCast reg false (some arg) (some target) then some target else none
  else if castAllowed reg c arg target then some target
  else none

/-- `CastOp::ToLowerLevel` and `CastValuesOp::ToLowerLevel` for a node of the inferred type — bootstrap_operators.cc:139-148, 244-253. -/
def castLower (reg : Registry) (ops : CastOps X) (n : Node X) (q : QTy) : Option (Node X) :=
  getCast reg ops n q false none

/-- `CastValuesOp::InferAttributes` — bootstrap_operators.cc:268-300. -/
def castValuesInfer (reg : Registry) (c : Consts) (arg scalar : QTy) : Option QTy :=
  if !isScalarQType reg scalar then none
  else
    match scalarOrNull reg arg with
    | none => none
    | some t =>
      if scalar ≠ t ∧ (castable c scalar = false ∨ castable c t = false) then none
      else withScalar reg arg scalar

end Verif.Casts
