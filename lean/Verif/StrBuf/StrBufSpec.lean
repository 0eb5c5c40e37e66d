import Verif.StrBuf.StrBufModel

/-!
# Specification: a StringsBuffer is a list of strings
-/

namespace Verif.StrBuf

/-- The buffer has the values `l`: as many, and each can be read. -/
def Holds (b : Buf) (l : List (List Nat)) : Prop := b.offsets.length = l.length ∧ ∀ i, b.get i = l[i]?

/-- What the constructor of a buffer requires, checked in debug builds (strings_buffer.cc:138-143): all offsets are in the range of the
characters; and all characters are initialized. -/
def Valid (b : Buf) : Prop :=
  (∀ o ∈ b.offsets, b.base ≤ o.start ∧ o.start ≤ o.stop ∧ o.stop ≤ b.base + b.chars.length) ∧ ∀ c ∈ b.chars, c ≠ none

/-- Replaces the values from `first` on; `none` if they are not all in range. -/
def overwrite (l : List (List Nat)) (first : Nat) (vs : List (List Nat)) : Option (List (List Nat)) :=
  if first + vs.length ≤ l.length then some (l.take first ++ vs ++ l.drop (first + vs.length)) else none

/-- The calls of a builder. -/
inductive Call
  | set (i : Nat) (v : List Nat)
  | copy (src dst : Nat)
  | setN (first : Nat) (vs : List (List Nat))
  | setNConst (first count : Nat) (v : List Nat)

/-- What a call does with the list of values; `none` if it is out of range. -/
def Call.effect (l : List (List Nat)) : Call → Option (List (List Nat))
  | .set i v => overwrite l i [v]
  | .copy src dst => match l[src]? with
    | none => none
    | some v => overwrite l dst [v]
  | .setN first vs => overwrite l first vs
  | .setNConst first count v => overwrite l first (List.replicate count v)

/-- The effect of several calls. -/
def effects (l : List (List Nat)) : List Call → Option (List (List Nat))
  | [] => some l
  | c :: cs => match c.effect l with
    | none => none
    | some l => effects l cs

/-- The call itself. -/
def Call.run (b : Builder) : Call → Option Builder
  | .set i v => b.set i v
  | .copy src dst => b.copy src dst
  | .setN first vs => b.setN first vs
  | .setNConst first count v => b.setNConst first count v

/-- Several calls. -/
def runCalls (b : Builder) : List Call → Option Builder
  | [] => some b
  | c :: cs => match c.run b with
    | none => none
    | some b => runCalls b cs

/-- The calls of a `ReshuffleBuilder`. -/
inductive Shuffle
  | copyValue (new old : Nat)
  | copyRange (lo hi old : Nat)

/-- Several calls. -/
def runShuffles (r : Reshuffle) : List Shuffle → Option Reshuffle
  | [] => some r
  | .copyValue new old :: cs => match r.copyValue new old with
    | none => none
    | some r => runShuffles r cs
  | .copyRange lo hi old :: cs => match r.copyRange lo hi old with
    | none => none
    | some r => runShuffles r cs

/-- Which value of the old buffer a position of the new one gets; `none` for the default.  The whole is `none` if a call is out of
range. -/
def shuffled (oldSize : Nat) (m : List (Option Nat)) : List Shuffle → Option (List (Option Nat))
  | [] => some m
  | .copyValue new old :: cs => if old < oldSize ∧ new < m.length then shuffled oldSize (m.set new (some old)) cs else none
  | .copyRange lo hi old :: cs =>
    if old < oldSize ∧ lo ≤ hi ∧ hi ≤ m.length then
      shuffled oldSize (m.take lo ++ List.replicate (hi - lo) (some old) ++ m.drop hi) cs
    else none

/-- The values after a reshuffle. -/
def reshuffled (l : List (List Nat)) (default : Option (List Nat)) (m : List (Option Nat)) : List (List Nat) :=
  m.map fun j => match j with
    | some j => l.getD j []
    | none => default.getD []

end Verif.StrBuf
