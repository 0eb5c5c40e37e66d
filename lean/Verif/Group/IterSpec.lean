import Verif.Group.IterModel
import Verif.Arr.ArraySpec
import Verif.Dense.OpsSpec

/-!
# Specification of row iteration: the rows of several arrays, in order
-/

namespace Verif.Group
open Verif.Dense Verif.Arr

variable {V : Type}

/-- Row `i` of dense arrays: the elements, or `none` if a required element is missing. -/
def denseRow (args : List (Arg V)) (i : Nat) : Option (List (Option V)) :=
  if args.all (fun a => a.optional || (Dense.elem a.arr i).isSome) then
    some (args.map (fun a => Dense.elem a.arr i))
  else none

/-- Row `i` of arrays: the elements, or `none` if a required element is missing. -/
def row (args : List (AArg V)) (i : Nat) : Option (List (Option V)) :=
  if args.all (fun a => a.optional || (a.arr.elem i).isSome) then
    some (args.map (fun a => a.arr.elem i))
  else none

/-- What a call of `DenseOpsUtil` means: the arguments of an invalid row are not looked at. -/
def Row.meaning (r : Row V) : Nat × Option (List (Option V)) := (r.1, if r.2.1 then some r.2.2 else none)

/-- The rows a call of `ArrayOpsUtil` stands for. -/
def Call.expand : Call V → List (Int × Option (List (Option V)))
  | .fn id args => [(id, some args)]
  | .rep id count args => (List.range count.toNat).map (fun (k : Nat) => (id + k, some args))
  | .miss id count => (List.range count.toNat).map (fun (k : Nat) => (id + k, none))

/-- Rows reported in bulk are never empty. -/
def Call.nonempty : Call V → Prop
  | .fn _ _ => True
  | .rep _ count _ => 0 < count
  | .miss _ count => 0 < count

/-- Arguments for `size` rows. -/
def ArgsOk (size : Nat) (args : List (AArg V)) : Prop := ∀ a ∈ args, a.arr.Valid ∧ a.arr.size = size

end Verif.Group
