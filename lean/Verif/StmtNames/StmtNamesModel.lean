import Verif.Util.StringModel

/-!
# Model of the names of statements in the text of an expression

`arolla/expr/expr_debug_string.cc`: `IsSafeStatementName` and `GenStatementNames`.

* Statement nodes are given by their name annotations in post-order; a node without one has the empty name.  Nodes have different fingerprints, so
  that the map from fingerprints to names is the list of names.
* Strings are lists of character codes.
-/

namespace Verif.StmtNames

open Verif.Str

/-- Strings. -/
abbrev Text := List Nat

/-- Decimal digits of a number, as `absl::StrCat` writes them. -/
def dec (n : Nat) : Text := if h : n < 10 then [48 + n] else dec (n / 10) ++ [48 + n % 10]
  termination_by n
  decreasing_by omega

/-- The name looks like `_number` — expr_debug_string.cc:89-90. -/
def looksNumbered : Text → Bool
  | c :: cs => !cs.isEmpty && c == underscore && cs.all isDigit
  | [] => false

/-- `IsSafeStatementName` — expr_debug_string.cc:87-91. -/
def isSafe (s : Text) : Bool := isQualified s && !looksNumbered s

/-- `name_counts` after the reset: 1 if the name is not unique — expr_debug_string.cc:104-114. -/
def initCounts (names : List Text) (s : Text) : Nat := if (names.filter isSafe).count s > 1 then 1 else 0

/-- The second loop — expr_debug_string.cc:119-133. -/
def genLoop (anonymous : Nat) (counts : Text → Nat) : List Text → List Text
  | [] => []
  | name :: rest =>
    if !isSafe name then (underscore :: dec anonymous) :: genLoop (anonymous + 1) counts rest
    else if counts name = 0 then name :: genLoop anonymous counts rest
    else (name ++ dot :: underscore :: dec (counts name)) ::
      genLoop anonymous (fun s => if s = name then counts s + 1 else counts s) rest

/-- `GenStatementNames` — expr_debug_string.cc:100-135. -/
def genNames (names : List Text) : List Text := genLoop 1 (initCounts names) names

end Verif.StmtNames
