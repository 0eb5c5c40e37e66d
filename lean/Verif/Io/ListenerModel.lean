import Verif.Io.LoaderModel

/-!
# Model of the slot listeners

`arolla/io/slot_listener.{h,cc}`, `chain_slot_listener.h`, `accessors_slot_listener.h`, `delegating_slot_listener.h`.

Slots and frames are those of `LoaderModel`.  An output that is written through a pointer is a state that is passed on; what it holds
after an error is not modelled.
-/

namespace Verif.Io

/-- `BoundSlotListener` — slot_listener.h:41-44. -/
abbrev BoundListener (V O : Type) := Frame V → O → Option O

/-- `SlotListener` — slot_listener.h:46-123: `GetQTypeOf` with the desired type, and `BindImpl`. -/
structure Listener (O Q V : Type) where
  typeOf : Name → Option Q → Option Q
  bindImpl : Slots Q → Option (BoundListener V O)

variable {O D Q V : Type} [DecidableEq Q]

/-- `ValidateSlotTypes` — slot_listener.cc:31-52. -/
def Listener.validate (l : Listener O Q V) (slots : Slots Q) : Bool :=
  match slots.mapM fun s => (l.typeOf s.1 (some s.2.1)).map fun t => (s.1, t) with
  | none => false
  | some types => verifySlotTypes types slots

/-- `Bind` — slot_listener.h:91-102. -/
def Listener.bind (l : Listener O Q V) (slots : Slots Q) : Option (BoundListener V O) :=
  if l.validate slots then
    if slots = [] then some fun _ out => some out
    else l.bindImpl slots
  else none

/-- `FindSupportedSlots` — slot_listener.cc:54-64. -/
def findSupportedSlots (l : Listener O Q V) (slots : Slots Q) : Slots Q :=
  slots.filter fun s => (l.typeOf s.1 (some s.2.1)).isSome

/-- `PartialBind` — slot_listener.h:106-114: an error, or perhaps a bound listener. -/
def Listener.partialBind (l : Listener O Q V) (slots : Slots Q) : Option (Option (BoundListener V O)) :=
  if findSupportedSlots l slots = [] then some none
  else (l.bind (findSupportedSlots l slots)).map some

/-- The loop that binds — chain_slot_listener.h:88-95. -/
def bindListeners (slots : Slots Q) : List (Listener O Q V) → Option (List (BoundListener V O))
  | [] => some []
  | l :: ls =>
    match l.partialBind slots with
    | none => none
    | some b =>
      match bindListeners slots ls with
      | none => none
      | some bs =>
        match b with
        | none => some bs
        | some b => some (b :: bs)

/-- The loop that listens — chain_slot_listener.h:106-109. -/
def runListeners : List (BoundListener V O) → BoundListener V O
  | [], _, out => some out
  | b :: bs, frame, out =>
    match b frame out with
    | none => none
    | some out' => runListeners bs frame out'

/-- `ChainSlotListener` — chain_slot_listener.h:38-114. -/
def chainListener (ls : List (Listener O Q V)) : Listener O Q V where
  typeOf name desired := ls.findSome? fun l => l.typeOf name desired
  bindImpl slots :=
    match bindListeners slots ls with
    | none => none
    | some [] => some fun _ out => some out
    | some [b] => some b
    | some bs => some (runListeners bs)

/-- The getters of a bound listener — accessors_slot_listener.h:70-74, 159. -/
def runGetters (frame : Frame V) : List (Option (Q × Nat) × (V → O → O)) → O → O
  | [], out => out
  | (none, _) :: gs, out => runGetters frame gs out
  | (some s, acc) :: gs, out => runGetters frame gs (acc (frame s.2) out)

/-- `AccessorsSlotListener` — accessors_slot_listener.h:84-165, on `StaticSlotListener` — slot_listener.h:127-177. -/
def accessorsListener (accessors : List (Name × Q × (V → O → O))) : Listener O Q V where
  typeOf name _ := (accessors.find? fun a => a.1 == name).map (·.2.1)
  bindImpl slots :=
    match maybeFindSlotsAndVerifyTypes (accessors.map fun a => (a.1, a.2.1)) slots with
    | none => none
    | some found => some fun frame out => some (runGetters frame (found.zip (accessors.map (·.2.2))) out)

/-- `AccessorsSlotListener::Build` — accessors_slot_listener.h:91-97. -/
def buildAccessorsListener (accessors : List (Name × Q × (V → O → O))) : Option (Listener O Q V) :=
  if duplicatedNames [] (accessors.map (·.1)) = [] then some (accessorsListener accessors) else none

/-- The loop of `DelegatingSlotListener::BindImpl` — delegating_slot_listener.h:96-101. -/
def strippedSlots (pre : Name) : Slots Q → Slots Q
  | [] => []
  | s :: slots =>
    match consumePrefix pre s.1 with
    | none => strippedSlots pre slots
    | some name => (name, s.2) :: strippedSlots pre slots

/-- `DelegatingSlotListener` — delegating_slot_listener.h:46-115.  The accessor gives a pointer to a part of the output: `get` reads and `put`
writes this part. -/
def delegatingListener (pre : Name) (get : O → D) (put : O → D → O) (l : Listener D Q V) : Listener O Q V where
  typeOf name desired :=
    match consumePrefix pre name with
    | none => none
    | some name' => l.typeOf name' desired
  bindImpl slots :=
    match l.bind (strippedSlots pre slots) with
    | none => none
    | some b => some fun frame out => (b frame (get out)).map (put out)

end Verif.Io
