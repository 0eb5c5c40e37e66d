import Verif.Io.ListenerModel

/-! # Specification: what a slot listener hears -/

namespace Verif.Io

variable {O D Q V : Type}

/-- The types and values under the names that are listened to. -/
abbrev Heard (Q V : Type) := Name → Option (Q × V)

/-- What a frame holds under the names of the slots. -/
def heardAt (slots : Slots Q) (frame : Frame V) : Heard Q V := fun name => (findSlot slots name).map fun s => (s.1, frame s.2)

/-- The slots have different names and the types that the listener accepts for them. -/
def Accepts (l : Listener O Q V) (slots : Slots Q) : Prop :=
  (slots.map (·.1)).Nodup ∧ ∀ s ∈ slots, l.typeOf s.1 (some s.2.1) = some s.2.1

/-- The contract of a listener: it accepts the slots of its types, and its effect on the output depends only on what the frame holds
under the names. -/
def Reports (l : Listener O Q V) (effect : Heard Q V → O → Option O) : Prop :=
  (∀ out, effect (fun _ => none) out = some out) ∧
  ∀ slots, slots ≠ [] → Accepts l slots → ∃ b, l.bindImpl slots = some b ∧ ∀ frame out, b frame out = effect (heardAt slots frame) out

/-- What remains for a listener: the names it knows. -/
def knownTo (l : Listener O Q V) (heard : Heard Q V) : Heard Q V := fun name =>
  match heard name with
  | none => none
  | some (t, v) => if (l.typeOf name (some t)).isSome then some (t, v) else none

/-- Every listener, in turn, hears what it knows. -/
def chainEffect : List (Listener O Q V × (Heard Q V → O → Option O)) → Heard Q V → O → Option O
  | [], _, out => some out
  | (l, effect) :: ls, heard, out => (effect (knownTo l heard) out).bind (chainEffect ls heard)

/-- Every accessor, in turn, hears the value of its name. -/
def accessorsEffect : List (Name × Q × (V → O → O)) → Heard Q V → O → Option O
  | [], _, out => some out
  | a :: as, heard, out =>
    match heard a.1 with
    | none => accessorsEffect as heard out
    | some (_, v) => accessorsEffect as heard (a.2.2 v out)

/-- The other listener hears the names after the prefix and has an effect on its part of the output. -/
def delegatingEffect (pre : Name) (get : O → D) (put : O → D → O) (effect : Heard Q V → D → Option D) : Heard Q V → O → Option O :=
  fun heard out => (effect (fun name => heard (pre ++ name)) (get out)).map (put out)

end Verif.Io
