import Verif.Io.LoaderModel

/-!
# Model of loaders of elements and of structs

`arolla/io/typed_refs_input_loader.cc`, `span_input_loader.h`, `tuple_input_loader.h`, `struct_io.{h,cc}`.
-/

namespace Verif.Io

variable {Q V B : Type} [DecidableEq Q]

/-! ## Elements -/

/-- The loop of `BindImpl`: indices of elements and their slots — typed_refs_input_loader.cc:57-63, span_input_loader.h:96-103. -/
def elementIds : Nat → List (Name × Q) → Slots Q → List (Nat × Q × Nat)
  | _, [], _ => []
  | i, a :: args, slots =>
    match findSlot slots a.1 with
    | none => elementIds (i + 1) args slots
    | some s => (i, s) :: elementIds (i + 1) args slots

/-- The loop of the bound loader with `TypedRef::CopyToSlot` — typed_refs_input_loader.cc:74-78, typed_ref.cc:30-38. -/
def copyRefs (input : List (Q × V)) : List (Nat × Q × Nat) → Frame V → Option (Frame V)
  | [], frame => some frame
  | e :: es, frame =>
    match input[e.1]? with
    | none => none
    | some (t, v) => if t = e.2.1 then copyRefs input es (frame.set e.2.2 v) else none

/-- `TypedRefsInputLoader` — typed_refs_input_loader.cc:43-82, on `StaticInputLoader` — input_loader.h:166-213: of several types of a name
the map keeps the first. -/
def typedRefsLoader (args : List (Name × Q)) : Loader (List (Q × V)) Q V where
  typeOf name := (args.find? fun a => a.1 == name).map (·.2)
  bindImpl slots :=
    let es := elementIds 0 args slots
    some fun input frame => if input.length ≠ args.length then none else copyRefs input es frame

/-- The loop of the bound loader — span_input_loader.h:114-118. -/
def copyElements (input : List V) : List (Nat × Q × Nat) → Frame V → Option (Frame V)
  | [], frame => some frame
  | e :: es, frame =>
    match input[e.1]? with
    | none => none
    | some v => copyElements input es (frame.set e.2.2 v)

/-- `SpanInputLoader` for elements of the type `t` — span_input_loader.h:65-122. -/
def spanLoader (t : Q) (names : List Name) : Loader (List V) Q V where
  typeOf name := (names.find? fun n => n == name).map fun _ => t
  bindImpl slots :=
    let es := elementIds 0 (names.map fun n => (n, t)) slots
    if es.all fun e => e.2.1 == t then
      some fun input frame => if input.length ≠ names.length then none else copyElements input es frame
    else none

/-- `TupleInputLoader::BindImpl`: the slots in order — tuple_input_loader.h:71-81. -/
def tupleSlots (args : List (Name × Q)) (slots : Slots Q) : Option (List (Q × Nat)) := args.mapM fun a => findSlot slots a.1

/-- `LoaderImpl` — tuple_input_loader.h:91-96; `none` is the undefined behaviour of `UnsafeToSlot` for a slot of another type. -/
def tupleLoad : List (Q × V) → List (Q × Nat) → Frame V → Option (Frame V)
  | e :: es, s :: ss, frame => if e.1 = s.1 then tupleLoad es ss (frame.set s.2 e.2) else none
  | _, _, frame => some frame

/-- `Bind` of a `TupleInputLoader` — input_loader.h:117-128, tuple_input_loader.h:68-89; with empty slots the bound loader does nothing. -/
def tupleBind (args : List (Name × Q)) (slots : Slots Q) : Option (List (Q × Nat)) :=
  let l : Loader Unit Q Unit := ⟨fun name => (args.find? fun a => a.1 == name).map (·.2), fun _ => none⟩
  if validateSlotTypes l slots then
    if slots = [] then some [] else tupleSlots args slots
  else none

/-! ## Structs -/

/-- The types that are copied by size — struct_io.cc:67-71. -/
inductive Kind
  | bool | bits32 | bits64 | other
  deriving DecidableEq

/-- `ValidateStructSlots` — struct_io.cc:51-62. -/
def validateStructSlots (size : Q → Nat) (slots : Slots Q) (structSize : Nat) : Bool :=
  slots.all fun s => !(decide (s.2.2 + size s.2.1 > structSize))

/-- `StructIO` — struct_io.h:41-57: pairs of an offset in the struct and an offset in the frame. -/
structure StructIO (Q : Type) where
  bools : List (Nat × Nat)
  bits32 : List (Nat × Nat)
  bits64 : List (Nat × Nat)
  other : List (Q × List (Nat × Nat))

/-- `offsets_other_[t].emplace_back(p)`. -/
def addOther (t : Q) (p : Nat × Nat) : List (Q × List (Nat × Nat)) → List (Q × List (Nat × Nat))
  | [] => [(t, [p])]
  | g :: gs => if g.1 = t then (t, g.2 ++ [p]) :: gs else g :: addOther t p gs

/-- The loop over the slots; `none` if a name is missing in the struct — struct_io.cc:76-91. -/
def structOffsets (kind : Q → Kind) (structSlots : Slots Q) : Slots Q → StructIO Q → Option (StructIO Q)
  | [], io => some io
  | s :: frameSlots, io =>
    match findSlot structSlots s.1 with
    | none => none
    | some f =>
      structOffsets kind structSlots frameSlots
        (match kind s.2.1 with
        | .bool => { io with bools := io.bools ++ [(f.2, s.2.2)] }
        | .bits32 => { io with bits32 := io.bits32 ++ [(f.2, s.2.2)] }
        | .bits64 => { io with bits64 := io.bits64 ++ [(f.2, s.2.2)] }
        | .other => { io with other := addOther s.2.1 (f.2, s.2.2) io.other })

/-- The constructor of `StructIO` — struct_io.cc:64-105; `sort` is `std::sort`. -/
def makeStructIO (kind : Q → Kind) (sort : List (Nat × Nat) → List (Nat × Nat)) (structSlots frameSlots : Slots Q) : Option (StructIO Q) :=
  match structOffsets kind structSlots frameSlots ⟨[], [], [], []⟩ with
  | none => none
  | some io => some ⟨sort io.bools, sort io.bits32, sort io.bits64, io.other.map fun g => (g.1, sort g.2)⟩

/-- `std::memcpy` of `n` bytes; `none` if bytes beyond the end of one of the objects are accessed. -/
def copyBytes (n : Nat) (src : List B) (s : Nat) (dst : List B) (d : Nat) : Option (List B) :=
  if s + n ≤ src.length ∧ d + n ≤ dst.length then some (dst.take d ++ (src.drop s).take n ++ dst.drop (d + n)) else none

/-- A loop over pairs of offsets. -/
def copyLoop (n : Nat) (src : List B) : List (Nat × Nat) → List B → Option (List B)
  | [], dst => some dst
  | p :: ps, dst =>
    match copyBytes n src p.1 dst p.2 with
    | none => none
    | some dst' => copyLoop n src ps dst'

/-- The loop over the other types with `UnsafeCopy`, which copies the representation of a value. -/
def copyOther (size : Q → Nat) (src : List B) : List (Q × List (Nat × Nat)) → List B → Option (List B)
  | [], dst => some dst
  | g :: gs, dst =>
    match copyLoop (size g.1) src g.2 dst with
    | none => none
    | some dst' => copyOther size src gs dst'

/-- `CopyStructToFrame` — struct_io.cc:107-123. -/
def copyStructToFrame (size : Q → Nat) (io : StructIO Q) (struct frame : List B) : Option (List B) :=
  match copyLoop 1 struct io.bools frame with
  | none => none
  | some f1 =>
    match copyLoop 4 struct io.bits32 f1 with
    | none => none
    | some f2 =>
      match copyLoop 8 struct io.bits64 f2 with
      | none => none
      | some f3 => copyOther size struct io.other f3

/-- `[dst, src]` in the loops of `CopyFrameToStruct`. -/
def swapPairs (ps : List (Nat × Nat)) : List (Nat × Nat) := ps.map fun p => (p.2, p.1)

/-- `CopyFrameToStruct` — struct_io.cc:125-141. -/
def copyFrameToStruct (size : Q → Nat) (io : StructIO Q) (frame struct : List B) : Option (List B) :=
  match copyLoop 1 frame (swapPairs io.bools) struct with
  | none => none
  | some s1 =>
    match copyLoop 4 frame (swapPairs io.bits32) s1 with
    | none => none
    | some s2 =>
      match copyLoop 8 frame (swapPairs io.bits64) s2 with
      | none => none
      | some s3 => copyOther size frame (io.other.map fun g => (g.1, swapPairs g.2)) s3

end Verif.Io
