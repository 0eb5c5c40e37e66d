import Verif.Edge.EdgeModel

/-!
# Model of `arolla/jagged_shape/jagged_shape.h` (with `DenseArrayEdge`)

A `JaggedShape` is the list of its edges.  Comparison of the `impl_` pointers is an oracle `same`; what is
assumed about it is that a shared implementation has the same edges.  `DCHECK`s are not modelled, but
dereferencing a failed `StatusOr` is undefined (`none`).
-/

namespace Verif.Jagged
open Verif.Dense Verif.Edge

/-- `JaggedShape` — jagged_shape.h:79-334. -/
abbrev Shape := List Edge

/-- Loop of `FromEdges` — jagged_shape.h:107-119. -/
def fromEdgesLoop (mem : Nat → Int) : Int → List Edge → Option (Except String Shape)
  | _, [] => some (.ok [])
  | childSize, e :: es =>
    if e.parentSize ≠ childSize then some (.error "incompatible dimensions")
    else do
      match ← (if e.typ ≠ .splitPoints then toSplitPointsEdge mem e else some (.ok e)) with
      | .error m => some (.error m)
      | .ok e' =>
        match ← fromEdgesLoop mem e'.childSize es with
        | .error m => some (.error m)
        | .ok r => some (.ok (e' :: r))

/-- `FromEdges` — jagged_shape.h:104-121. -/
def fromEdges (mem : Nat → Int) (edges : List Edge) : Option (Except String Shape) :=
  if edges = [] then some (.ok []) else fromEdgesLoop mem 1 edges

/-- `*std::move(status_or)`: undefined when it holds an error. -/
def deref {α : Type} : Except String α → Option α
  | .ok x => some x
  | .error _ => none

/-- `FlatFromSize` — jagged_shape.h:127-133. -/
def flatFromSize (size : Int) : Option Shape := do some [← deref (← fromUniformGroups 1 size)]

/-- `size` — jagged_shape.h:142-144. -/
def size (s : Shape) : Int :=
  match s.getLast? with
  | none => 1
  | some e => e.childSize

/-- `AddDims` — jagged_shape.h:154-160. -/
def addDims (mem : Nat → Int) (s : Shape) (edges : List Edge) : Option (Except String Shape) :=
  fromEdges mem (s ++ edges)

/-- `RemoveDims` — jagged_shape.h:164-169; an iterator past the end is undefined. -/
def removeDims (s : Shape) (frm : Nat) : Option Shape := if frm ≤ s.length then some (s.take frm) else none

/-- `parent_size` of the unit dimension — jagged_shape.h:197-198. -/
def unitParentSize (s : Shape) (frm : Nat) : Option Int :=
  if frm = 0 then some 1 else s[frm - 1]?.map Edge.childSize

/-- The edge replacing the flattened dimensions — jagged_shape.h:196-208. -/
def flatEdge (mem : Nat → Int) (s : Shape) (frm to : Nat) : Option Edge :=
  if frm = to then do deref (← fromUniformGroups (← unitParentSize s frm) 1)
  else do
    if frm ≤ to ∧ to ≤ s.length then deref (← composeEdges mem ((s.drop frm).take (to - frm))) else none

/-- `FlattenDims` — jagged_shape.h:184-212. -/
def flattenDims (mem : Nat → Int) (s : Shape) (frm to : Nat) : Option Shape :=
  if frm ≤ to ∧ to ≤ s.length then
    if to - frm = 1 then some s
    else if to - frm = s.length then flatFromSize (size s)
    else do some (s.take frm ++ [← flatEdge mem s frm to] ++ s.drop to)
  else none

/-- `JaggedShapeFastEquivalenceResult::Result` — jagged_shape.h:41. -/
inductive FastEq where
  | notEq
  | eq
  | sizesEq
  deriving DecidableEq

/-- Loop over the remaining edges, last first — jagged_shape.h:246-251. -/
def sizesLoop : List Edge → List Edge → FastEq
  | a :: as, b :: bs => if a.childSize ≠ b.childSize then .notEq else sizesLoop as bs
  | _, _ => .sizesEq

/-- `FastEquivalenceCheck` — jagged_shape.h:217-254. -/
def fastEquivalenceCheck (same : Bool) (s t : Shape) : FastEq :=
  if same then .eq
  else if s.length ≠ t.length then .notEq
  else
    match s.reverse, t.reverse with
    | a :: as, b :: bs =>
      if a.childSize ≠ b.childSize then .notEq
      else if s.length = 1 then .eq
      else sizesLoop as bs
    | _, _ => .eq

/-- The edge comparison loops — jagged_shape.h:262-264, 276-278. -/
def edgesLoop (mem : Nat → Int) : List Edge → List Edge → Option Bool
  | a :: as, b :: bs => do if !(← isEquivalentTo mem a b) then some false else edgesLoop mem as bs
  | [], _ => some true
  | _ :: _, [] => none

/-- `IsEquivalentTo` — jagged_shape.h:257-266. -/
def shapesEquivalent (mem : Nat → Int) (same : Bool) (s t : Shape) : Option Bool :=
  match fastEquivalenceCheck same s t with
  | .notEq => some false
  | .eq => some true
  | .sizesEq => edgesLoop mem (s.drop 1) (t.drop 1)

/-- `IsBroadcastableTo` — jagged_shape.h:273-280. -/
def isBroadcastableTo (mem : Nat → Int) (same : Bool) (s t : Shape) : Option Bool :=
  if same then some true
  else if t.length < s.length then some false
  else edgesLoop mem s t

/-- `GetBroadcastEdge` — jagged_shape.h:295-310. -/
def getBroadcastEdge (mem : Nat → Int) (s t : Shape) : Option Edge :=
  if s.length = t.length then do deref (← fromUniformGroups (size s) 1)
  else if s.length ≤ t.length then do deref (← composeEdges mem (t.drop s.length))
  else none

end Verif.Jagged
