/-!
# Model of `arolla/util/string.{h,cc}`: identifiers, `Truncate`, `IsWithinOneTypo`

A string is the list of its bytes.  Characters 128…255 may be negative as `char`; neither reading is in any of
the ranges below.
-/

namespace Verif.Str

/-- `'_'` and `'.'`. -/
def underscore : Nat := 95
def dot : Nat := 46

/-- string.h:28-30. -/
def isAlpha (c : Nat) : Bool := (65 ≤ c && c ≤ 90) || (97 ≤ c && c ≤ 122)

/-- string.h:33. -/
def isDigit (c : Nat) : Bool := 48 ≤ c && c ≤ 57

/-- string.h:36. -/
def isAlnum (c : Nat) : Bool := isAlpha c || isDigit c

/-- The loop of `IsIdentifier` — string.h:46-50. -/
def identTail : List Nat → Bool
  | [] => true
  | c :: cs => if c ≠ underscore && !isAlnum c then false else identTail cs

/-- `IsIdentifier` — string.h:39-52. -/
def isIdentifier : List Nat → Bool
  | [] => false
  | c :: cs => if c ≠ underscore && !isAlpha c then false else identTail cs

/-- The loop of `IsQualifiedIdentifier` with its two flags — string.h:58-72. -/
def qualLoop : Bool → Bool → List Nat → Bool
  | fail, ends, [] => !fail && ends
  | fail, true, c :: cs =>
    if c = dot then qualLoop fail false cs
    else if c ≠ underscore && !isAlnum c then qualLoop true true cs
    else qualLoop fail true cs
  | fail, false, c :: cs =>
    if c ≠ underscore && !isAlpha c then qualLoop true true cs else qualLoop fail true cs

/-- `IsQualifiedIdentifier` — string.h:55-73; `IsOperatorName` — operator_name.h:23-25. -/
def isQualified (s : List Nat) : Bool := qualLoop false false s

/-- `Truncate` — string.cc:26-33. -/
def truncate (s : List Nat) (maxLength : Nat) : List Nat :=
  if s.length > maxLength then
    let s := s.take maxLength
    s.take (maxLength - 3) ++ [dot, dot, dot] ++ s.drop (maxLength - 3 + 3)
  else s

/-- `std::mismatch`: the length of the common prefix. -/
def mism : List Nat → List Nat → Nat
  | a :: as, b :: bs => if a = b then mism as bs + 1 else 0
  | _, _ => 0

/-- `IsWithinOneTypo` — string.cc:35-52.  The differences of `size_t` are taken in `Nat`; they do not wrap since
`l + r ≤ n, m`. -/
def isWithinOneTypo (lhs rhs : List Nat) : Bool :=
  let n := lhs.length
  let m := rhs.length
  let l := mism lhs rhs
  let r := mism (lhs.drop l).reverse (rhs.drop l).reverse
  if n - l - r ≤ 1 && m - l - r ≤ 1 then true
  else l + r + 2 = n && n = m && lhs[l]? = rhs[l + 1]? && lhs[l + 1]? = rhs[l]?

end Verif.Str
