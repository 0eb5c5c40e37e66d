import Verif.Io.StructModel
import Verif.Io.LoaderSpec

/-! # Specification: values of elements, and objects copied byte for byte -/

namespace Verif.Io

variable {Q V B : Type} [DecidableEq Q]

/-- The element in the place of the name, if the number of elements and the type of the element are as announced. -/
def refsValue (args : List (Name × Q)) (input : List (Q × V)) (name : Name) : Option V :=
  if input.length = args.length then
    (args.zip input).findSome? fun p => if p.1.1 = name ∧ p.1.2 = p.2.1 then some p.2.2 else none
  else none

/-- The element in the place of the name, if the number of elements is as announced. -/
def spanValue (names : List Name) (input : List V) (name : Name) : Option V :=
  if input.length = names.length then (names.zip input).findSome? fun p => if p.1 = name then some p.2 else none else none

/-- Two slots do not share bytes. -/
def Apart (size : Q → Nat) (a b : Name × Q × Nat) : Prop := a.2.2 + size a.2.1 ≤ b.2.2 ∨ b.2.2 + size b.2.1 ≤ a.2.2

/-- All bytes of the slots `to` in `dst'` are those of the slots of the same names in `src`, and all others are as in `dst`. -/
def CopiedBytes (size : Q → Nat) (source target : Slots Q) (src dst dst' : List B) : Prop :=
  dst'.length = dst.length ∧
  (∀ s ∈ source, ∀ t ∈ target, s.1 = t.1 → ∀ i, i < size t.2.1 → dst'[t.2.2 + i]? = src[s.2.2 + i]?) ∧
  ∀ a : Nat, (∀ t ∈ target, a < t.2.2 ∨ t.2.2 + size t.2.1 ≤ a) → dst'[a]? = dst[a]?

end Verif.Io
