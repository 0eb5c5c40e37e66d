import Verif.Dense.DenseSpec

/-!
# Specification of the array operators: functions of sequences of optional values
-/

namespace Verif.DOps
open Verif.Dense

variable {α V R : Type}

/-- The positions of present values. -/
def positions (xs : List (Option α)) : List Nat :=
  (List.range xs.length).filter (fun i => (xs[i]?.join).isSome)

/-- The present values, in order. -/
def presents (xs : List (Option α)) : List α := xs.filterMap id

/-- The values selected by a mask. -/
def selected (xs : List (Option α)) (mask : List (Option Unit)) : List (Option α) :=
  (xs.zip mask).filterMap (fun p => if p.2.isSome then some p.1 else none)

/-- Application of a function to the values of a row if all of them are present. -/
def applyRow (fn : List V → R) (row : List (Option V)) : Option R :=
  if row.all Option.isSome then some (fn (row.filterMap id)) else none

/-- Every index is below the next one, the first is not negative and the last is below `size`. -/
def IncreasingBelow (size : Int) (ids : List Int) : Prop :=
  ids.Pairwise (· < ·) ∧ ∀ i ∈ ids, 0 ≤ i ∧ i < size

end Verif.DOps
