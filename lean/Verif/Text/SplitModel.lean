import Verif.Text.FindModel

/-!
# Model of strings.split and strings.join

`arolla/qexpr/operators/strings/split.h`, `join.cc`; `absl::StrSplit` and `absl::StrJoin` are modelled after the library: the
iterator looks for the next delimiter, an empty delimiter is found one past the position of a non-empty text, and a string view
whose `data()` is null has no parts at all.
-/

namespace Verif.Text

/-- A value of an array of strings: the bytes, and whether the string view has a null pointer. -/
structure View where
  bytes : List Nat
  null : Bool

/-- `absl::ByString::Find`: the distance of the next delimiter in the rest of the text and its length; the end of the text if there is
none.  An empty delimiter in a non-empty text is found after the next byte. -/
def delimFind (sep rest : List Nat) (textEmpty : Bool) : Nat × Nat :=
  if sep = [] ∧ textEmpty = false then (1, 0)
  else match svFind sep rest with
    | some i => (i, sep.length)
    | none => (rest.length, 0)

/-- The iteration of `absl::StrSplit` with the rest of the text — the last state is reached when the delimiter is found at the end of
the text. -/
def splitLoop (find : List Nat → Nat × Nat) : Nat → List Nat → Option (List (List Nat))
  | 0, _ => none
  | fuel + 1, rest =>
    if (find rest).1 = rest.length then some [rest]
    else (splitLoop find fuel (rest.drop ((find rest).1 + (find rest).2))).map (rest.take (find rest).1 :: ·)

/-- `absl::StrSplit(value, separator)`. -/
def strSplit (v : View) (sep : List Nat) : Option (List (List Nat)) :=
  if v.null then some [] else splitLoop (fun rest => delimFind sep rest (v.bytes = [])) (v.bytes.length + 1) v.bytes

/-- One of `" \t\v\f\r\n"`. -/
def splitSpace (c : Nat) : Bool := [32, 9, 11, 12, 13, 10].contains c

/-- `absl::ByAnyChar::Find` -/
def anyCharFind (rest : List Nat) : Nat × Nat :=
  match rest.findIdx? splitSpace with
  | some i => (i, 1)
  | none => (rest.length, 0)

/-- `absl::StrSplit(value, ByAnyChar, SkipEmpty)`. -/
def strSplitSpaces (v : View) : Option (List (List Nat)) :=
  if v.null then some [] else (splitLoop anyCharFind (v.bytes.length + 1) v.bytes).map (·.filter (· ≠ []))

/-- The parts of a present value — lines 54-62. -/
def newSplits (sep : Option (List Nat)) (v : View) : Option (List (List Nat)) :=
  match sep with
  | some s => strSplit v s
  | none => strSplitSpaces v

/-- The loop of `SplitOp`: the split points after the last one, and the parts — lines 50-69. -/
def splitRows (sep : Option (List Nat)) : Nat → List (Option View) → Option (List Nat × List (List Nat))
  | _, [] => some ([], [])
  | last, none :: rows => (splitRows sep last rows).map fun r => (last :: r.1, r.2)
  | last, some v :: rows =>
    match newSplits sep v with
    | none => none
    | some parts => (splitRows sep (last + parts.length) rows).map fun r => ((last + parts.length) :: r.1, parts ++ r.2)

/-- `SplitOp`: the split points of the edge and the parts — lines 38-79. -/
def splitOp (sep : Option (List Nat)) (rows : List (Option View)) : Option (List Nat × List (List Nat)) :=
  (splitRows sep 0 rows).map fun r => (0 :: r.1, r.2)

/-- `absl::StrJoin` -/
def strJoin (sep : List Nat) : List (List Nat) → List Nat
  | [] => []
  | [p] => p
  | p :: ps => p ++ sep ++ strJoin sep ps

/-- `JoinBoundOperator` below `WhereAllBoundOperator`: a part is a value, or an optional with a presence — join.cc:58-70, 85-123. -/
def joinOp (sep : List Nat) (parts : List (Option (List Nat))) : Option (List Nat) :=
  if parts.all Option.isSome then some (strJoin sep (parts.map (·.getD []))) else none

end Verif.Text
