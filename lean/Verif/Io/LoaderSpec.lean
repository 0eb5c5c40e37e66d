import Verif.Io.LoaderModel

/-! # Specification: what an input loader loads -/

namespace Verif.Io

variable {I Q V : Type}

/-- The slots are asked for by different names, with the types of the loader, and they are different slots. -/
def Fits (typeOf : Name → Option Q) (slots : Slots Q) : Prop :=
  (slots.map (·.1)).Nodup ∧ (slots.map (·.2.2)).Nodup ∧ ∀ s ∈ slots, typeOf s.1 = some s.2.1

/-- A bound loader writes the value of every name into its slot and nothing else; it fails only if one of the values is an error. -/
def LoadsInto (b : Bound I V) (value : I → Name → Option V) (slots : Slots Q) : Prop :=
  ∀ input frame,
    (∀ frame', b input frame = some frame' →
      (∀ s ∈ slots, value input s.1 = some (frame' s.2.2)) ∧ ∀ o, (∀ s ∈ slots, s.2.2 ≠ o) → frame' o = frame o) ∧
    (b input frame = none → ∃ s ∈ slots, value input s.1 = none)

/-- The contract of `BindImpl`: it accepts all slots that fit, and the bound loader writes `value`. -/
def Implements (l : Loader I Q V) (value : I → Name → Option V) : Prop :=
  ∀ slots, slots ≠ [] → Fits l.typeOf slots → ∃ b, l.bindImpl slots = some b ∧ LoadsInto b value slots

/-- The value of the first loader that has the name. -/
def chainValue : List (Loader I Q V × (I → Name → Option V)) → I → Name → Option V
  | [], _, _ => none
  | (l, value) :: ls, input, name => if (l.typeOf name).isSome then value input name else chainValue ls input name

/-- The value of the accessor of that name. -/
def accessorsValue (accessors : List (Name × Q × (I → V))) (input : I) (name : Name) : Option V :=
  (accessors.find? fun a => a.1 == name).map fun a => a.2.2 input

end Verif.Io
