import Verif.Text.IcuModel

/-!
# Model of strings.decode, strings.encode, parse_int32, parse_int64 and as_text of integers

`arolla/qexpr/operators/strings/strings.{h,cc}`.
-/

namespace Verif.Text

/-- The values of `errors`; `other` is any other string. -/
inductive Errors
  | strict | ignore | replace | other
  deriving DecidableEq

/-- What `decode` gives: a text, the error at a position, or the error for `errors`. -/
inductive DecodeResult
  | ok (text : List Nat)
  | invalid (position : Nat)
  | badErrors
  deriving DecidableEq

/-- `ParseUtf8`: what is appended to the result from the given bytes on — strings.cc:62-86. -/
def parseUtf8 (replace : Bool) : Nat → List Nat → Option (List Nat)
  | _, [] => some []
  | 0, _ :: _ => none
  | fuel + 1, b :: s =>
    let valid := validSpan (b :: s).length (b :: s)
    if valid ≠ (b :: s).length then
      let rest := (b :: s).drop valid
      let advance := (u8Next (rest.take 4)).2
      (parseUtf8 replace fuel (rest.drop advance)).map
        fun r => (b :: s).take valid ++ (if replace then [0xEF, 0xBF, 0xBD] else []) ++ r
    else some ((b :: s).take valid)

/-- `DecodeOp` — strings.cc:54-60, 163-177. -/
def decode (s : List Nat) (errors : Errors) : Option DecodeResult :=
  match errors with
  | .other => some .badErrors
  | .strict => if validSpan s.length s = s.length then some (.ok s) else some (.invalid (validSpan s.length s))
  | .ignore => (parseUtf8 false s.length s).map .ok
  | .replace => (parseUtf8 true s.length s).map .ok

/-- `EncodeOp` — strings.h:281-286. -/
def encode (s : List Nat) : List Nat := s

/-! ## Integers -/

/-- A decimal digit. -/
def isDigit (c : Nat) : Bool := 48 ≤ c && c ≤ 57

/-- The value of the digits at the beginning of the bytes, with the sign, and the rest of the bytes. -/
def fromDigits (lo hi : Int) (neg : Bool) (body : List Nat) : Option (Int × List Nat) :=
  if body.takeWhile isDigit = [] then none
  else
    let n : Int := ((body.takeWhile isDigit).foldl (fun (a c : Nat) => a * 10 + (c - 48)) 0 : Nat)
    let v := if neg then -n else n
    if lo ≤ v ∧ v ≤ hi then some (v, body.dropWhile isDigit) else none

/-- `std::from_chars` for a signed integer type with values from `lo` to `hi`, base 10: the value and the rest of the bytes, if there
is no error. -/
def fromChars (lo hi : Int) : List Nat → Option (Int × List Nat)
  | 45 :: body => fromDigits lo hi true body
  | s => fromDigits lo hi false s

/-- The part of `ParseIntT` after the sign was skipped — strings.h:428-430. -/
def parseIntRest (lo hi : Int) (s : List Nat) : Option Int :=
  match fromChars lo hi s with
  | some (v, []) => some v
  | _ => none

/-- `ParseIntT` — strings.h:419-431. -/
def parseInt (lo hi : Int) : List Nat → Option Int
  | 43 :: 45 :: _ => none
  | 43 :: s => parseIntRest lo hi s
  | s => parseIntRest lo hi s

/-- `parse_int32` — strings.h:475-494. -/
def parseInt32 (s : List Nat) : Option Int := parseInt (-2 ^ 31) (2 ^ 31 - 1) s
/-- `parse_int64` — strings.h:496-515. -/
def parseInt64 (s : List Nat) : Option Int := parseInt (-2 ^ 63) (2 ^ 63 - 1) s

/-- `SignedIntegerToText` — strings.cc:261-264: `%d`. -/
def intToText (x : Int) : List Nat :=
  if x < 0 then 45 :: (Nat.toDigits 10 x.natAbs).map Char.toNat else (Nat.toDigits 10 x.natAbs).map Char.toNat

end Verif.Text
