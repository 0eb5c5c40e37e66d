import Verif.Dense.OpsModel
import Verif.Dense.DenseSpec

/-!
# Specification of pointwise operations: a function of the optional elements of a row
-/

namespace Verif.Dense

variable {α β γ V R E : Type}

/-- Result of row `i` of a pointwise operation. -/
def rowRes (fn : List (Option V) → Except E (Option R)) (args : List (Arg V)) (i : Nat) :
    Except E (Option R) :=
  if args.all (fun a => a.optional || (elem a.arr i).isSome) then
    fn (args.map (fun a => elem a.arr i))
  else .ok none

/-- A binary function applied when both elements are present. -/
def bothPresent (fn : α → β → γ) : Option α → Option β → Option γ
  | some x, some y => some (fn x y)
  | _, _ => none

/-- `core.presence_and` on one element: the first argument if the second is present. -/
def andElem : Option α → Option Unit → Option α
  | x, some () => x
  | _, none => none

/-- `core.presence_or` on one element: the first argument if present, otherwise the second. -/
def orElem : Option α → Option α → Option α
  | some x, _ => some x
  | none, y => y

/-- `core.presence_not` on one element. -/
def notElem : Option α → Option Unit
  | some _ => none
  | none => some ()

end Verif.Dense
