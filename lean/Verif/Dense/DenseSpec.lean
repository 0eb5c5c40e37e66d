import Verif.Dense.DenseModel
import Verif.Util.BitsSpec

/-!
# Specification of dense arrays: the sequence of optional elements they represent
-/

namespace Verif.Dense
open Verif.Bits

/-- Element `i` of a dense array: missing iff the bitmap is nonempty and its bit is unset. -/
def elem {α : Type} (a : DArr α) (i : Nat) : Option α :=
  if a.bitmap = [] ∨ bitAt a.bitmap (a.off + i) = true then a.values[i]? else none

/-- The sequence of optional values represented by the array. -/
def elems {α : Type} (a : DArr α) : List (Option α) := (List.range a.values.length).map (elem a)

variable {α : Type}

/-- Effect of one builder call on the sequence of optional values. -/
def opEffect (f : Nat → Option α) : DBuilder.Op α → Nat → Option α
  | .set id (some v), i => if i = id then some v else f i
  | .setN id n (some v), i => if id ≤ i ∧ i < id + n then some v else f i
  | _, i => f i

/-- The ids of the call are in range. -/
def opOk (n : Nat) : DBuilder.Op α → Prop
  | .set id _ => id < n
  | .setN id c _ => id + c ≤ n

end Verif.Dense
