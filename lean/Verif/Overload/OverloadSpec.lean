import Mathlib.Data.List.Forall2
import Verif.Overload.OverloadModel

/-!
# Specification of the lookup of QExpr operators
-/

namespace Verif.Overload

/-- Implicit casts form a partial order on the types in `E`. -/
structure CastOrder {T : Type} (cast : T → T → Bool) (E : T → Prop) : Prop where
  refl : ∀ a, E a → cast a a = true
  antisymm : ∀ a b, E a → E b → cast a b = true → cast b a = true → a = b
  trans : ∀ a b c, E a → E b → E c → cast a b = true → cast b c = true → cast a c = true

/-- Every type of the first list can be cast to the one at the same position of the second, which has the same length. -/
def Castable {T : Type} (cast : T → T → Bool) (a b : List T) : Prop := List.Forall₂ (fun x y => cast x y = true) a b

/-- The signature can be used for the requested types. -/
def Applicable {T : Type} (cast : T → T → Bool) (decay : T → T) (inputs : List T) (output : T) (s : Sig T) : Prop :=
  s.output = decay output ∧ Castable cast inputs s.inputs

/-- The result of the overload resolution among a set of signatures: the one with exactly the requested types, if there is one; else the
applicable one that can be cast to all applicable ones. -/
def Resolves {T : Type} (cast : T → T → Bool) (decay : T → T) (inputs : List T) (output : T) (S : Sig T → Prop) : Found (Sig T) → Prop
  | .ok s => S s ∧ (s = ⟨inputs.map decay, decay output⟩ ∨
      (¬ S ⟨inputs.map decay, decay output⟩ ∧ Applicable cast decay inputs output s ∧
        ∀ t, S t → Applicable cast decay inputs output t → Castable cast s.inputs t.inputs))
  | .notFound => ¬ S ⟨inputs.map decay, decay output⟩ ∧ ∀ t, S t → ¬ Applicable cast decay inputs output t
  | .ambiguous => ¬ S ⟨inputs.map decay, decay output⟩ ∧ (∃ t, S t ∧ Applicable cast decay inputs output t) ∧
      ¬ ∃ s, S s ∧ Applicable cast decay inputs output s ∧
        ∀ t, S t → Applicable cast decay inputs output t → Castable cast s.inputs t.inputs

/-- A call of `RegisterOperator` for one name. -/
structure Call (T : Type) where
  op : Op T
  priority : Nat

/-- The first operator registered with the input types and the priority. -/
def firstOp {T : Type} [DecidableEq T] (key : List T) (priority : Nat) (calls : List (Call T)) : Option (Op T) :=
  (calls.find? fun c => decide (c.op.sig.inputs = key ∧ c.priority = priority)).map (·.op)

/-- The operator that is in effect for the input types: the one with the higher priority. -/
def current {T : Type} [DecidableEq T] (key : List T) (calls : List (Call T)) : Option (Op T) :=
  match firstOp key 1 calls with
  | some o => some o
  | none => firstOp key 0 calls

/-- The signatures of the operators that are in effect. -/
def CurrentSig {T : Type} [DecidableEq T] (calls : List (Call T)) (s : Sig T) : Prop := ∃ o, current s.inputs calls = some o ∧ o.sig = s

/-- The status of a call after other calls. -/
def expectedStatus {T : Type} [DecidableEq T] (before : List (Call T)) (c : Call T) : Status :=
  if c.priority ≥ 2 then .badPriority
  else if firstOp c.op.sig.inputs c.priority before ≠ none then .alreadyExists
  else .ok

/-- Several calls on a family: all statuses and the family. -/
def runInserts {T : Type} [DecidableEq T] (f : Family T) : List (Call T) → Option (List Status × Family T)
  | [] => some ([], f)
  | c :: cs => match f.insert c.op c.priority with
    | none => none
    | some (s, f) => match runInserts f cs with
      | none => none
      | some (ss, f) => some (s :: ss, f)

end Verif.Overload
