import Verif.QType.CommonModel
import Verif.Overload.OverloadModel

/-!
# Model of the casts that the compiler inserts

`arolla/expr/operators/casting_registry.cc` and `arolla/expr/eval/casting.cc`; the types and `CanCastImplicitly` are those of
`QType/CommonModel.lean`.

An expression is its type and its value for the inputs at hand.  The operators `core.to_bool`, …, `core.to_uint64`, `core._to_weak_float`
work elementwise and keep the shape; which element types they accept is a parameter.  A node whose type is not known and the texts of the
errors are not modelled: a `StatusOr` is an `Option`.
-/

namespace Verif.Casts

open Verif.QType

/-- A value: a scalar, an optional or an array, with elements from `X`. -/
inductive V (X : Type)
  | scalar (x : X)
  | opt (x : Option X)
  | arr (xs : List (Option X))
  deriving DecidableEq

variable {X : Type}

/-- An elementwise operator. -/
def V.map (f : X → X) : V X → V X
  | .scalar x => .scalar (f x)
  | .opt x => .opt (x.map f)
  | .arr xs => .arr (xs.map (Option.map f))

/-- `ExprNode` -/
structure Node (X : Type) where
  ty : QTy
  val : V X
  deriving DecidableEq

/-- The operators of `cast_to_ops_` — casting_registry.cc:58-74: for which types there is one, what it accepts, what it computes. -/
structure CastOps (X : Type) where
  contains : Val → Bool
  accepts : Val → Val → Bool
  conv : Val → Val → X → X

/-- The type with other elements. -/
def withElem (w : Val) : QTy → QTy
  | .plain _ => .plain w
  | .optional _ => .optional w
  | .array k _ => .array k w
  | .container k q => .container k q

/-- The element type. -/
def elem? (reg : Registry) : QTy → Option Val
  | .plain v => if reg.isScalar v then some v else none
  | .optional v => some v
  | .array _ v => some v
  | .container _ _ => none

/-- `CallOp(cast_to_ops_.at(to), {node})` -/
def callCast (reg : Registry) (ops : CastOps X) (w : Val) (n : Node X) : Option (Node X) :=
  match elem? reg n.ty with
  | none => none
  | some v => if ops.accepts v w then some ⟨withElem w n.ty, n.val.map (ops.conv v w)⟩ else none

/-- `DerivedQTypeUpcastOperator(node->qtype())` for types with weak floats, which are stored as `double` — casting_registry.cc:102-104,
derived_qtype_cast_operator.cc:35-43. -/
def upcast (n : Node X) : Node X := ⟨withElem .f64 n.ty, n.val⟩

/-- `IsArrayLikeQType` -/
def isArray : QTy → Bool
  | .array _ _ => true
  | _ => false

/-- `IsOptionalQType` -/
def isOptional : QTy → Bool
  | .optional _ => true
  | _ => false

/-- The value or nothing. -/
def V.toOpt : V X → V X
  | .scalar x => .opt (some x)
  | v => v

/-- `size` times the value. -/
def V.repeat (size : Nat) : V X → V X
  | .scalar x => .arr (List.replicate size (some x))
  | .opt x => .arr (List.replicate size x)
  | .arr xs => .arr xs

/-- `core.const_with_shape` for a shape of arrays of a kind, and a scalar or optional value. -/
def constWithShape (reg : Registry) (shape : Nat × Nat) (n : Node X) : Option (Node X) :=
  match n.ty with
  | .plain v => if reg.hasArray shape.1 v then some ⟨.array shape.1 v, n.val.repeat shape.2⟩ else none
  | .optional v => if reg.hasArray shape.1 v then some ⟨.array shape.1 v, n.val.repeat shape.2⟩ else none
  | _ => none

/-- `core.to_optional`: arrays are kept. -/
def toOptional (reg : Registry) (n : Node X) : Option (Node X) :=
  match n.ty with
  | .plain v => if reg.isScalar v && reg.hasOptional v then some ⟨.optional v, n.val.toOpt⟩ else none
  | .array _ _ => some n
  | .optional _ => some n
  | .container _ _ => none

/-- Step 3 — casting_registry.cc:135-145. -/
def optionalStep (reg : Registry) (target : QTy) (n : Node X) : Option (Node X) :=
  match (if !isOptional n.ty && isOptional target then toOptional reg n else some n) with
  | none => none
  | some n => if n.ty = target then some n else none

/-- Step 2 — casting_registry.cc:120-133. -/
def arrayStep (reg : Registry) (target : QTy) (shape : Option (Nat × Nat)) (n : Node X) : Option (Node X) :=
  if !isArray n.ty && isArray target then
    match shape with
    | none => none
    | some shape =>
      match constWithShape reg shape n with
      | none => none
      | some n => if n.ty = target then some n else optionalStep reg target n
  else optionalStep reg target n

/-- The element type of the operators of `cast_to_ops_`. -/
def castTarget (ops : CastOps X) : QTy → Option Val
  | .plain w => if ops.contains w then some w else none
  | _ => none

/-- The call of the cast and the rest — casting_registry.cc:108-118. -/
def castStep (reg : Registry) (ops : CastOps X) (target : QTy) (shape : Option (Nat × Nat)) (n : Node X) (a b : QTy) : Option (Node X) :=
  if a ≠ b then
    match castTarget ops b with
    | none => none
    | some w =>
      match callCast reg ops w n with
      | none => none
      | some n => if n.ty = target then some n else arrayStep reg target shape n
  else arrayStep reg target shape n

/-- Step 1 — casting_registry.cc:96-118. -/
def scalarStep (reg : Registry) (ops : CastOps X) (target : QTy) (shape : Option (Nat × Nat)) (n : Node X) (a b : QTy) : Option (Node X) :=
  if a = .plain .weakFloat ∧ a ≠ b then castStep reg ops target shape (upcast n) (.plain .f64) b
  else castStep reg ops target shape n a b

/-- `CastingRegistry::GetCast` — casting_registry.cc:76-146; the shape is its kind of arrays and its size. -/
def getCast (reg : Registry) (ops : CastOps X) (n : Node X) (target : QTy) (implicitOnly : Bool) (shape : Option (Nat × Nat)) :
    Option (Node X) :=
  if n.ty = target then some n
  else if implicitOnly && !canCast reg shape.isSome (some n.ty) (some target) then none
  else
    match scalarOrNull reg n.ty, scalarOrNull reg target with
    | some a, some b => scalarStep reg ops target shape n a b
    | _, _ => none

/-! ## casting.cc -/

/-- The shape of an array. -/
def shapeOf (n : Node X) : Option (Nat × Nat) :=
  match n.ty, n.val with
  | .array k _, .arr xs => some (k, xs.length)
  | _, _ => none

/-- `GetShapeForBroadcasting` — casting.cc:68-81: the shape of the first array. -/
def shapeForBroadcasting : List (Node X) → Option (Nat × Nat)
  | [] => none
  | n :: ns => if isArray n.ty then shapeOf n else shapeForBroadcasting ns

/-- The loop of `BuildNodeDepsWithCasts` — casting.cc:91-107; `none` also if there are not enough required types. -/
def castLoop (reg : Registry) (ops : CastOps X) (shape : Option (Nat × Nat)) : List (Node X) → List QTy → Option (List (Node X))
  | [], _ => some []
  | _ :: _, [] => none
  | n :: ns, q :: qs =>
    match (if n.ty ≠ q then getCast reg ops n q true shape else some n) with
    | none => none
    | some m =>
      match castLoop reg ops shape ns qs with
      | none => none
      | some ms => some (m :: ms)

/-- `BuildNodeDepsWithCasts` — casting.cc:83-109. -/
def buildDepsWithCasts (reg : Registry) (ops : CastOps X) (deps : List (Node X)) (required : List QTy) : Option (List (Node X)) :=
  castLoop reg ops (shapeForBroadcasting deps) deps required

/-- A call of a backend operator: its arguments and type, and whether its value is downcast to this type. -/
structure Call (X : Type) where
  deps : List (Node X)
  ty : QTy
  downcast : Bool

/-- `is_derived_from` and `IsDerivedFrom` — qexpr/qexpr_operator_signature.cc:54-71; `decay` is `DecayDerivedQType`. -/
def isDerivedFrom (decay : QTy → QTy) (inputs : List QTy) (output : QTy) (sig : Overload.Sig QTy) : Bool :=
  decide (inputs.length = sig.inputs.length) && decide (output = sig.output ∨ decay output = sig.output) &&
    (inputs.zip sig.inputs).all fun p => decide (p.1 = p.2 ∨ decay p.1 = p.2)

/-- The arguments are replaced and the type is inferred anew — casting.cc:150-161. -/
def recast (reg : Registry) (ops : CastOps X) (decay : QTy → QTy) (infer : List QTy → Option QTy) (sig : Overload.Sig QTy)
    (deps : List (Node X)) (ty : QTy) : Option (List (Node X) × QTy) :=
  if sig.inputs ≠ deps.map (·.ty) then
    match buildDepsWithCasts reg ops deps sig.inputs with
    | none => none
    | some deps =>
      match infer (deps.map (·.ty)) with
      | none => none
      | some q => if q ≠ decay ty then none else some (deps, q)
  else some (deps, ty)

/-- `CastingTransformation` for a backend operator — casting.cc:113-176; `sigs` are the signatures of the operator, `infer` its
`InferAttributes`. -/
def castingTransformation (reg : Registry) (ops : CastOps X) (decay : QTy → QTy) (sigs : List (Overload.Sig QTy))
    (infer : List QTy → Option QTy) (deps : List (Node X)) (ty : QTy) : Option (Call X) :=
  match Overload.findMatching (fun a b => canCast reg true (some a) (some b)) decay (deps.map (·.ty)) ty sigs with
  | .ok sig =>
    if isDerivedFrom decay (deps.map (·.ty)) ty sig then some ⟨deps, ty, false⟩
    else
      match recast reg ops decay infer sig deps ty with
      | none => none
      | some (deps, q) =>
        if sig.output = ty then some ⟨deps, q, false⟩
        else if sig.output = decay ty then (if q = decay ty then some ⟨deps, ty, true⟩ else none)
        else none
  | _ => some ⟨deps, ty, false⟩

end Verif.Casts
