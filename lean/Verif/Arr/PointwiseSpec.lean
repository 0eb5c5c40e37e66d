import Verif.Arr.PointwiseModel
import Verif.Arr.ArraySpec
import Verif.Dense.OpsSpec

/-!
# Specification of pointwise operations on arrays: a function of the optional elements of a row
-/

namespace Verif.Arr

variable {V R E : Type}

/-- Result for one row: a missing required argument makes it missing. -/
def applyRow (fn : List (Option V) → Except E (Option R)) (row : List (Bool × Option V)) :
    Except E (Option R) :=
  if ∀ x ∈ row, x.1 = true ∨ x.2 ≠ none then fn (row.map (·.2)) else .ok none

/-- Row `i` of the arguments. -/
def rowAt (args : List (PArg V)) (i : Nat) : List (Bool × Option V) :=
  args.map (fun p => (p.optional, p.arr.elem i))

/-- The missing_id_values of the arguments as a row. -/
def missRow (args : List (PArg V)) : List (Bool × Option V) :=
  args.map (fun p => (p.optional, p.arr.miss))

/-- What is required of the operation on dense arrays with a functor whose arguments are optional
according to `opts`: element `i` of the result is the result for row
`i`, and it only fails with the error of some row. -/
def DenseOpOk (opts : List Bool) (fn : List (Option V) → Except E (Option R))
    (dop : List (Dense.Arg V) → Option (Except E (Dense.DArr R))) : Prop :=
  ∀ (args : List (Dense.Arg V)) (n : Nat), args.map (·.optional) = opts →
    (∀ a ∈ args, a.arr.Valid ∧ a.arr.values.length = n) →
    ∃ res, dop args = some res ∧
      (∀ d, res = .ok d → d.Valid ∧ d.values.length = n ∧ ∀ i, i < n →
        applyRow fn (args.map (fun a => (a.optional, Dense.elem a.arr i))) = .ok (Dense.elem d i)) ∧
      (∀ e, res = .error e → ∃ i, i < n ∧
        applyRow fn (args.map (fun a => (a.optional, Dense.elem a.arr i))) = .error e)

/-- The pointer comparisons are only true for equal contents. -/
def PMem.Ok (m : PMem V) : Prop :=
  (∀ k, PtrEq (m.peSame k)) ∧ PtrEq m.peMerge ∧ ∀ k, PtrEq (m.peIds k)

end Verif.Arr
