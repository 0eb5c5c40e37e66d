/-!
# Model of `array._interleave_to_dense_array`

`arolla/qexpr/operators/dense_array/interleave.cc`.  The inputs are arrays of rows of any type; `FrameIterator` fails if their sizes differ (C72) and
otherwise visits the rows in order with one scalar for every input.  The counter is an `int` of 32 bits, whose overflow is undefined behaviour
(`none`), as is a write outside of the result.
-/

namespace Verif.Interleave

variable {V : Type}

/-- Largest `int`. -/
def maxInt : Nat := 2 ^ 31 - 1

/-- `res_bldr.Set(id++, …)` — interleave.cc:122: the new counter and the new result. -/
def setNext (id : Nat) (v : Option V) (out : List (Option V)) : Option (Nat × List (Option V)) :=
  if id < out.length then
    if id + 1 > maxInt then none else some (id + 1, out.set id v)
  else none

/-- The loop over the slots of one row — interleave.cc:121-123. -/
def rowLoop : List (Option V) → Nat → List (Option V) → Option (Nat × List (Option V))
  | [], id, out => some (id, out)
  | v :: rest, id, out =>
    match setNext id v out with
    | none => none
    | some (id', out') => rowLoop rest id' out'

/-- The scalars of row `i`. -/
def rowAt (inputs : List (List (Option V))) (i : Nat) : List (Option V) := inputs.map fun l => (l[i]?).join

/-- `ForEachFrame` — interleave.cc:120-124: `n` rows from `i` on. -/
def rowsLoop (inputs : List (List (Option V))) : Nat → Nat → Nat → List (Option V) → Option (Nat × List (Option V))
  | _, 0, id, out => some (id, out)
  | i, n + 1, id, out =>
    match rowLoop (rowAt inputs i) id out with
    | none => none
    | some (id', out') => rowsLoop inputs (i + 1) n id' out'

inductive Outcome (V : Type)
  | error
  | undefined
  | ok (out : List (Option V))
  deriving DecidableEq

/-- The operator — interleave.cc:107-126, and the check for an argument — 134-137. -/
def interleave (inputs : List (List (Option V))) : Outcome V :=
  match inputs with
  | [] => .error
  | first :: _ =>
    if inputs.any (fun l => l.length ≠ first.length) then .error
    else
      match rowsLoop inputs 0 first.length 0 (List.replicate (first.length * inputs.length) none) with
      | none => .undefined
      | some (_, out) => .ok out

end Verif.Interleave
