import Verif.Text.IcuModel

/-!
# Model of the operators that search in strings

`arolla/qexpr/operators/strings/find.cc` and `TextLengthOp` of `strings.h`.  A string is the list of its bytes (numbers below 256).
Sizes are below `2^63`, so that none of the sums of an index and a size overflows `int64_t`; indices are integers.
`absl::string_view::substr` and reads of a vector give `none` out of range.
-/

namespace Verif.Text

/-! ## `absl::string_view` -/

/-- `find(sub)`: the first position of `sub`. -/
def svFind (sub : List Nat) : List Nat → Option Nat
  | [] => if sub = [] then some 0 else none
  | c :: s => if sub.isPrefixOf (c :: s) then some 0 else (svFind sub s).map (· + 1)

/-- `find(sub, pos)`. -/
def svFindFrom (s sub : List Nat) (pos : Nat) : Option Nat :=
  if pos ≤ s.length then (svFind sub (s.drop pos)).map (· + pos) else none

/-- `rfind(sub)`: the last position of `sub`. -/
def svRFind (sub : List Nat) : List Nat → Option Nat
  | [] => if sub = [] then some 0 else none
  | c :: s =>
    match svRFind sub s with
    | some i => some (i + 1)
    | none => if sub.isPrefixOf (c :: s) then some 0 else none

/-- `substr(start, end - start)`; `start > size` is an exception, and a negative count is a huge one. -/
def svSubstr (s : List Nat) (start stop : Int) : Option (List Nat) :=
  if 0 ≤ start ∧ start ≤ s.length then
    if start ≤ stop then some ((s.drop start.toNat).take (stop - start).toNat) else some (s.drop start.toNat)
  else none

/-- `absl::StrContains` -/
def strContains (s sub : List Nat) : Bool := (svFind sub s).isSome

/-! ## find.cc -/

/-- The adjusted `start` — lines 41-45. -/
def adjustStart (ssize : Int) : Option Int → Int
  | none => 0
  | some v => if v < 0 then max (v + ssize) 0 else v

/-- The adjusted `end` — lines 47-53. -/
def adjustStop (ssize : Int) : Option Int → Int
  | none => ssize
  | some v => if v < 0 then v + ssize else min v ssize

/-- `AdjustIndexes`: the adjusted indices if it returns true — lines 39-57. -/
def adjustIndexes (ssize : Int) (start stop : Option Int) : Option (Int × Int) :=
  if adjustStart ssize start ≤ adjustStop ssize stop then some (adjustStart ssize start, adjustStop ssize stop) else none

/-- `UTF8CharLen` — lines 60-62. -/
def utf8CharLen (b : Nat) : Nat := [1, 1, 1, 1, 1, 1, 1, 1, 1, 1, 1, 1, 2, 2, 3, 4].getD (b % 256 / 16) 1

/-- The loop of `UTF8StringIndex`, with the offset and the bytes from there on; the first argument counts the iterations that may
follow — lines 75-78.  Returns the pushed offsets and the offset at the end. -/
def indexLoop : Nat → Nat → List Nat → Option (List Nat × Nat)
  | _, offset, [] => some ([], offset)
  | 0, _, _ :: _ => none
  | fuel + 1, offset, b :: rest =>
    match indexLoop fuel (offset + utf8CharLen b) ((b :: rest).drop (utf8CharLen b)) with
    | none => none
    | some (ix, final) => some (offset :: ix, final)

/-- `UTF8StringIndex` — lines 68-88. -/
def utf8StringIndex (str : List Nat) : Option (List Nat) :=
  match indexLoop str.length 0 str with
  | none => none
  | some (ix, offset) => some ((if offset > str.length then ix.dropLast else ix) ++ [str.length])

/-- `ContainsOp` — lines 92-95. -/
def containsOp (str substr : List Nat) : Bool := strContains str substr

/-- The loop of `BytesSubstringOccurrenceCountOp`; the first argument counts the iterations that may follow, `count` is an `int`
— lines 102-108. -/
def countLoop (str substr : List Nat) : Nat → Nat → Nat → Option Nat
  | 0, _, _ => none
  | fuel + 1, count, curr =>
    match svFindFrom str substr curr with
    | none => some count
    | some i => if count + 1 < 2 ^ 31 then countLoop str substr fuel (count + 1) (i + 1) else none

/-- `BytesSubstringOccurrenceCountOp` — lines 97-109. -/
def bytesCount (str substr : List Nat) : Option Nat :=
  if substr = [] then some (str.length + 1) else countLoop str substr (str.length + 2) 0 0

/-- `TextSubstringOccurrenceCountOp` — lines 111-120. -/
def textCount (str substr : List Nat) : Option Nat :=
  if substr = [] then some (textLength str + 1) else bytesCount str substr

/-- `FindSubstring` — lines 123-134. -/
def findSubstring (str substr : List Nat) (start stop : Int) : Option (Option Int) :=
  match svSubstr str start stop with
  | none => none
  | some x =>
    match svFind substr x with
    | some pos => some (some (pos + start))
    | none => if substr = [] then some (some start) else some none

/-- `FindLastSubstring` — lines 176-187. -/
def findLastSubstring (str substr : List Nat) (start stop : Int) : Option (Option Int) :=
  match svSubstr str start stop with
  | none => none
  | some x =>
    match svRFind substr x with
    | some pos => some (some (pos + start))
    | none => if substr = [] then some (some start) else some none

/-- `BytesFindSubstringOp` (lines 137-145) and `BytesFindLastSubstringOp` (lines 190-198) for the function `find`. -/
def bytesFind (find : List Nat → List Nat → Int → Int → Option (Option Int)) (str substr : List Nat) (start stop : Option Int) :
    Option (Option Int) :=
  match adjustIndexes str.length start stop with
  | none => some none
  | some (b, e) => find str substr b e

/-- `index[i]` -/
def readIndex (index : List Nat) (i : Int) : Option Int :=
  if 0 ≤ i then (index[i.toNat]?).map Int.ofNat else none

/-- `std::distance(begin, std::lower_bound(begin, end, v))` in a sorted vector. -/
def lowerBound (index : List Nat) (v : Int) : Nat := (index.takeWhile (fun (x : Nat) => (x : Int) < v)).length

/-- `TextFindSubstringOp` (lines 153-167) and `TextFindLastSubstringOp` (lines 206-220). -/
def textFind (find : List Nat → List Nat → Int → Int → Option (Option Int)) (str substr : List Nat) (start stop : Option Int) :
    Option (Option Int) :=
  match utf8StringIndex str with
  | none => none
  | some index =>
    match adjustIndexes ((index.length : Int) - 1) start stop with
    | none => some none
    | some (b, e) =>
      match readIndex index b, readIndex index e with
      | some b, some e =>
        match find str substr b e with
        | none => none
        | some none => some none
        | some (some v) => some (some (lowerBound index v))
      | _, _ => none

/-- `BytesSubstringOp` — lines 237-245. -/
def bytesSubstring (str : List Nat) (start stop : Option Int) : Option (List Nat) :=
  match adjustIndexes str.length start stop with
  | none => some []
  | some (b, e) => svSubstr str b e

/-- `TextSubstringOp` — lines 253-263. -/
def textSubstring (str : List Nat) (start stop : Option Int) : Option (List Nat) :=
  match utf8StringIndex str with
  | none => none
  | some index =>
    match adjustIndexes ((index.length : Int) - 1) start stop with
    | none => some []
    | some (b, e) =>
      match readIndex index b, readIndex index e with
      | some b, some e => svSubstr str b e
      | _, _ => none

end Verif.Text
