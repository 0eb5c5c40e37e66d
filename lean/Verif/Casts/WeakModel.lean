import Verif.Casts.CastOpModel

/-!
# Model of `core._to_weak_float`

`arolla/expr/operators/weak_qtype_operators.cc`, with the operators that it is lowered to: `core.to_float64` from
`py/arolla/operators/standard/core.py` and `DerivedQTypeDowncastOperator`.  A node is its type and its value, as in
`Casts/CastsModel.lean`; a type that is not known yet (expr/basic_expr_operator.cc:81-83) and the texts of the errors are not modelled.
-/

namespace Verif.Casts

open Verif.QType

variable {X : Type}

/-- `IsNumeric` — expr/operators/type_meta_eval_strategies.cc:64-66, with `IsNumericScalarQType` — qtype/base_types.cc:79-89. -/
def isNumeric (reg : Registry) (q : QTy) : Bool :=
  match scalarOrNull reg q with
  | some (.plain (.other _)) => false
  | some (.plain _) => true
  | _ => false

/-- `IsBoolean` — expr/operators/type_meta_eval_strategies.cc:68-70. -/
def isBoolean (reg : Registry) (c : Consts) (q : QTy) : Bool :=
  decide (scalarOrNull reg q = some (.plain (.other c.bool)))

/-- `CoreToWeakFloatOp::GetOutputQType` — weak_qtype_operators.cc:59-75. -/
def weakInfer (reg : Registry) (c : Consts) (q : QTy) : Option QTy :=
  match scalarOrNull reg q with
  | none => none
  | some t =>
    if !(isNumeric reg t || isBoolean reg c t || decide (t = .plain (.other c.u64))) then none
    else if isOptional q then some (.optional .weakFloat)
    else if isArray q then (shapeOrNull reg q).bind fun s => withValue reg s (.plain .weakFloat)
    else some (.plain .weakFloat)

/-- The constraints and the type of `core.to_float64` — core.py:126-139, 251-273: the argument is a scalar, an optional or an array
of numbers, booleans or unsigned numbers; arguments with elements `double` are returned.  The kernels for the other element types are
`conv`; a weak float is stored as a `double`. -/
def toFloat64 (reg : Registry) (c : Consts) (conv : Val → X → X) (n : Node X) : Option (Node X) :=
  match scalarOrNull reg n.ty, shapeOrNull reg n.ty with
  | some (.plain v), some s =>
    if !castable c (.plain v) then none
    else if v = .f64 then some n
    else (withValue reg s (.plain .f64)).map fun q =>
      ⟨q, n.val.map (if v = .weakFloat then id else conv v)⟩
  | _, _ => none

/-- `DecayDerivedQType` for the types of weak floats, which are derived from those of `double` —
qtype/weak_qtype.cc:37-44, 57-69, dense_array/qtype/types.cc:46-51, array/qtype/types.cc:45. -/
def decayWeak : QTy → QTy
  | .plain .weakFloat => .plain .f64
  | .optional .weakFloat => .optional .f64
  | .array k .weakFloat => .array k .f64
  | q => q

/-- `DerivedQTypeDowncastOperator` — expr/derived_qtype_cast_operator.cc:74-83: the value is kept. -/
def downcast (q : QTy) (n : Node X) : Option (Node X) :=
  if n.ty = decayWeak q then some ⟨q, n.val⟩ else none

/-- `CoreToWeakFloatOp::ToLowerLevel` for a node of type `q` with the argument `n` — weak_qtype_operators.cc:77-83. -/
def weakLower (reg : Registry) (c : Consts) (conv : Val → X → X) (q : QTy) (n : Node X) : Option (Node X) :=
  (toFloat64 reg c conv n).bind (downcast q)

end Verif.Casts
