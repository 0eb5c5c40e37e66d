import Verif.Slots.SlotSpec
import Verif.CoreMap.CoreMapModel

/-!
# Specification of `core.map`: the mapper is applied to every row
-/

namespace Verif.CoreMap

open Verif.Slots

variable {V E F P : Type}

/-- The argument for the row `row`: the element of an array, the scalar itself. -/
def Arg.at : Arg V → Nat → Option V
  | .array rows, row => rows[row]?
  | .scalar v, _ => some v

/-- The arguments have the given types: arrays are arrays. -/
inductive Typed : List Ty → List (Arg V) → Prop
  | nil : Typed [] []
  | array {q rows tys args} : q.isArray = true → Typed tys args → Typed (q :: tys) (.array rows :: args)
  | scalar {q v tys args} : q.isArray = false → Typed tys args → Typed (q :: tys) (.scalar v :: args)

/-- All arrays have `n` rows, and there is an array. -/
def Rows (n : Nat) (args : List (Arg V)) : Prop :=
  (∃ rows, Arg.array rows ∈ args) ∧ ∀ rows, Arg.array rows ∈ args → rows.length = n

/-- `env` holds the arguments of the mapper for a row. -/
def RowEnv (args : List (Arg V)) (row : Nat) (env : Nat → V) : Prop := ∀ k a, args[k]? = some a → a.at row = some (env k)

/-- The mapper evaluates to `r` on the arguments `env`. -/
def MapperIs (apply : F → List V → Except E V) (proj : P → V → V) (ns : List (Node Nat V F P Ty)) (env : Nat → V) : Except E V → Prop
  | .ok v => ∃ vs, values apply proj env ns [] = some (.ok vs) ∧ vs.getLast? = some v
  | .error e => values apply proj env ns [] = some (.error e)

/-- The result of `core.map` on `n` rows: the values of the mapper row by row, or the error of the first row that has one. -/
def MapSpec (apply : F → List V → Except E V) (proj : P → V → V) (ns : List (Node Nat V F P Ty)) (n : Nat) (env : Nat → Nat → V) :
    Except (MapError E) (List V) → Prop
  | .ok outs => outs.length = n ∧ ∀ i v, outs[i]? = some v → MapperIs apply proj ns (env i) (.ok v)
  | .error (.op e) => ∃ i, i < n ∧ MapperIs apply proj ns (env i) (.error e) ∧ ∀ j, j < i → ∃ v, MapperIs apply proj ns (env j) (.ok v)
  | .error _ => False

/-- The leaves of the compiled mapper are its arguments, with their types, and every leaf occurs once. -/
structure Leaves (ns : List (Node Nat V F P Ty)) (tys : List Ty) : Prop where
  ty : ∀ (o : Nat) (n : Node Nat V F P Ty) (k : Nat), ns[o]? = some n → n.kind = .leaf k → tys[k]? = some n.ty
  once : ∀ (o o' : Nat) (n n' : Node Nat V F P Ty) (k : Nat), ns[o]? = some n → ns[o']? = some n' → n.kind = .leaf k → n'.kind = .leaf k →
    o = o'

end Verif.CoreMap
