import Verif.Casts.CastsModel
import Verif.QType.CommonProps

/-!
# Specification of casts of values
-/

namespace Verif.Casts

open Verif.QType

variable {X : Type}

/-- The value has this shape. -/
inductive HasShape : Shape → V X → Prop
  | scalar (x) : HasShape .scalar (.scalar x)
  | opt (x) : HasShape .optional (.opt x)
  | arr (k xs) : HasShape (.array k) (.arr xs)

/-- `b` is `a` with converted elements: what is missing stays missing, a single value becomes an array of the given size. -/
inductive Casted (f : X → X) (size : Nat) : V X → V X → Prop
  | scalar (x) : Casted f size (.scalar x) (.scalar (f x))
  | opt (x) : Casted f size (.opt x) (.opt (x.map f))
  | arr (xs) : Casted f size (.arr xs) (.arr (xs.map (Option.map f)))
  | scalar_opt (x) : Casted f size (.scalar x) (.opt (some (f x)))
  | scalar_arr (x) : Casted f size (.scalar x) (.arr (List.replicate size (some (f x))))
  | opt_arr (x) : Casted f size (.opt x) (.arr (List.replicate size (x.map f)))

/-- The conversion of the elements; a weak float is a `double`. -/
def convert (ops : CastOps X) (v w : Val) : X → X :=
  if v = w then id
  else if v = .weakFloat then (if w = .f64 then id else ops.conv .f64 w)
  else ops.conv v w

/-- There is a conversion of the elements. -/
def ElemCast (ops : CastOps X) (v w : Val) : Prop :=
  v = w ∨ (v = .weakFloat ∧ (w = .f64 ∨ (ops.contains w = true ∧ ops.accepts .f64 w = true))) ∨
    (v ≠ .weakFloat ∧ ops.contains w = true ∧ ops.accepts v w = true)

/-- A value that is not an array is cast only to arrays of the kind of the given shape. -/
def KindOk (shape : Option (Nat × Nat)) (a b : QTy) : Prop :=
  ∀ k w, b = .array k w → isArray a = false → ∃ size, shape = some (k, size)

/-- The operators exist for all numbers and accept all implicit conversions and that of `double`. -/
def CastOps.Ok (ops : CastOps X) : Prop :=
  ∀ v w, v.Numeric → w.Numeric → v ≠ .weakFloat → w ≠ .weakFloat → ops.contains w = true ∧ ops.accepts v w = true

/-- The elements of optionals and arrays are scalars. -/
def _root_.Verif.QType.Registry.Scalars (reg : Registry) : Prop :=
  ∀ v, (reg.hasOptional v = true → reg.isScalar v = true) ∧ ∀ k, reg.hasArray k v = true → reg.isScalar v = true

end Verif.Casts
