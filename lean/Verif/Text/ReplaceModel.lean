import Verif.Text.FindModel

/-!
# Model of strings.replace

`arolla/qexpr/operators/strings/strings.cc:89-126, 179-195`.
-/

namespace Verif.Text

/-- `count` — lines 95-98. -/
def replaceCount : Option Int → Nat
  | some v => if 0 ≤ v then v.toNat else 2 ^ 63 - 1
  | none => 2 ^ 63 - 1

/-- `res.append(s.begin() + offset, s.end())` — line 123. -/
def replaceTail (s : List Nat) (offset : Nat) : Option (List Nat) := if offset ≤ s.length then some (s.drop offset) else none

/-- The loop for a non-empty `old_sub`, and the tail: what is appended to the result.  `fuel` bounds the number of iterations —
lines 115-123. -/
def replaceLoop (s old new : List Nat) : Nat → Nat → Nat → Option (List Nat)
  | _, 0, offset => replaceTail s offset
  | 0, _ + 1, _ => none
  | fuel + 1, count + 1, offset =>
    match svFindFrom s old offset with
    | none => replaceTail s offset
    | some start =>
      match svSubstr s offset start, replaceLoop s old new fuel count (start + old.length) with
      | some x, some r => some (x ++ new ++ r)
      | _, _ => none

/-- The loop for an empty `old_sub`, and the tail — lines 106-113. -/
def spreadLoop (s new : List Nat) (len : List Nat → Nat) : Nat → Nat → Nat → Option (List Nat)
  | _, 0, offset => replaceTail s offset
  | 0, _ + 1, _ => none
  | fuel + 1, count + 1, offset =>
    if offset < s.length then
      match svSubstr s offset (offset + len (s.drop offset)), spreadLoop s new len fuel count (offset + len (s.drop offset)) with
      | some x, some r => some (x ++ new ++ r)
      | _, _ => none
    else replaceTail s offset

/-- `ReplaceImpl`; `len` is `codepoint_length` for the rest of the string — lines 88-125. -/
def replaceImpl (s old new : List Nat) (maxSubs : Option Int) (len : List Nat → Nat) : Option (List Nat) :=
  if old = [] then
    match replaceCount maxSubs with
    | 0 => replaceTail s 0
    | count + 1 => (spreadLoop s new len (s.length + 1) count 0).map (new ++ ·)
  else replaceLoop s old new (s.length + 1) (replaceCount maxSubs) 0

/-- `BytesReplaceOp` — lines 179-184. -/
def bytesReplace (s old new : List Nat) (maxSubs : Option Int) : Option (List Nat) := replaceImpl s old new maxSubs (fun _ => 1)

/-- `TextReplaceOp`; `U8_FWD_1` advances as `U8_NEXT` does — lines 186-195. -/
def textReplace (s old new : List Nat) (maxSubs : Option Int) : Option (List Nat) :=
  replaceImpl s old new maxSubs (fun r => (u8Next r).2)

end Verif.Text
