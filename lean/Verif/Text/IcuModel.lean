import Verif.Text.Utf8Spec

/-!
# Model of the library functions on UTF-8

ICU (`unicode/utf8.h`, `unistr.h`) and `utf8_range` are libraries used by `arolla/qexpr/operators/strings/strings.{h,cc}`; their
sources are not part of the repository.  They are modelled after their documentation: well-formed sequences are those of table 3-7
of The Unicode Standard, an ill-formed sequence is skipped up to its first byte that cannot continue it.
-/

namespace Verif.Text

/-- The bytes that may follow the lead byte `b1`: table 3-7. -/
def secondOk (b1 b2 : Nat) : Bool :=
  if b1 = 0xE0 then 0xA0 ≤ b2 && b2 < 0xC0
  else if b1 = 0xED then 0x80 ≤ b2 && b2 < 0xA0
  else if b1 = 0xF0 then 0x90 ≤ b2 && b2 < 0xC0
  else if b1 = 0xF4 then 0x80 ≤ b2 && b2 < 0x90
  else 0x80 ≤ b2 && b2 < 0xC0

/-- A continuation byte. -/
def contOk (b : Nat) : Bool := 0x80 ≤ b && b < 0xC0

/-- `U8_NEXT` at the beginning of the bytes: the code point (`none` if it is negative, i.e. the sequence is ill-formed) and the
advance of the index. -/
def u8Next : List Nat → Option Nat × Nat
  | [] => (none, 0)
  | b1 :: r =>
    if b1 < 0x80 then (some b1, 1)
    else if b1 < 0xC2 ∨ 0xF5 ≤ b1 then (none, 1)
    else match r with
      | [] => (none, 1)
      | b2 :: r =>
        if !secondOk b1 b2 then (none, 1)
        else if b1 < 0xE0 then (some ((b1 - 0xC0) * 64 + (b2 - 0x80)), 2)
        else match r with
          | [] => (none, 2)
          | b3 :: r =>
            if !contOk b3 then (none, 2)
            else if b1 < 0xF0 then (some ((b1 - 0xE0) * 4096 + (b2 - 0x80) * 64 + (b3 - 0x80)), 3)
            else match r with
              | [] => (none, 3)
              | b4 :: _ =>
                if !contOk b4 then (none, 3)
                else (some ((b1 - 0xF0) * 262144 + (b2 - 0x80) * 4096 + (b3 - 0x80) * 64 + (b4 - 0x80)), 4)

/-- The code points read by repeated `U8_NEXT`, each with the index after it; `fuel` bounds the number of steps. -/
def u8Scan : Nat → List Nat → List (Option Nat × Nat)
  | _, [] => []
  | 0, _ :: _ => []
  | fuel + 1, b :: s => u8Next (b :: s) :: u8Scan fuel ((b :: s).drop (u8Next (b :: s)).2)

/-- All code points of a string. -/
def u8All (s : List Nat) : List (Option Nat × Nat) := u8Scan s.length s

/-- `TextLengthOp`: `icu::UnicodeString::fromUTF8(s).countChar32()` — strings.h:249-252; an ill-formed sequence counts as one
replacement character. -/
def textLength (s : List Nat) : Nat := (u8All s).length

/-- `utf8_range::SpanStructurallyValid`: the length of the longest prefix of well-formed sequences. -/
def validSpan : Nat → List Nat → Nat
  | _, [] => 0
  | 0, _ :: _ => 0
  | fuel + 1, b :: s =>
    match u8Next (b :: s) with
    | (some _, n) => n + validSpan fuel ((b :: s).drop n)
    | (none, _) => 0

end Verif.Text
