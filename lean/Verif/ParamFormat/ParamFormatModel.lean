/-!
# Model of the formatting of error messages with the types of parameters

`arolla/expr/operator_loader/parameter_qtypes.cc`.

* Strings are lists of characters.  Positions are indices into the whole message; `none` is `npos`.
* A type has a name and is a named tuple, a tuple, or neither; the fields have the names of their types.
* The map of the types of the parameters is a function.
-/

namespace Verif.ParamFormat

abbrev Str := List Char

/-- What the formatting uses of a `QType`. -/
inductive Shape
  | plain
  | tuple (fields : List Str)
  | namedTuple (fields : List (Str × Str))

structure Ty where
  name : Str
  shape : Shape

/-- `string_view::find(c, pos)`; from `npos` nothing is found. -/
def find (s : Str) (c : Char) (pos : Nat) : Option Nat := ((s.drop pos).findIdx? (· == c)).map (· + pos)

/-- `string_view::rfind(c, pos)`: the last position that is at most `pos`. -/
def rfind (s : Str) (c : Char) : Nat → Option Nat
  | 0 => if s[0]? = some c then some 0 else none
  | pos + 1 => if s[pos + 1]? = some c then some (pos + 1) else rfind s c pos

/-- `NonFirstComma` between the elements. -/
def joinComma : List Str → Str
  | [] => []
  | [x] => x
  | x :: xs => x ++ [',', ' '] ++ joinComma xs

/-- `absl::StrSplit(spec, absl::MaxSplits('!', 1))` as a pair: without `!` the second part is empty — parameter_qtypes.cc:90-92. -/
def splitBang (spec : Str) : Str × Str :=
  match spec.findIdx? (· == '!') with
  | none => (spec, [])
  | some i => (spec.take i, spec.drop (i + 1))

/-- `FormatKwargsTo` — parameter_qtypes.cc:88-110. -/
def formatKwargs (params : Str → Option Ty) (spec : Str) : Str :=
  let p := splitBang spec
  match params p.1 with
  | some ⟨_, .namedTuple fields⟩ => joinComma ((fields.filter fun f => f.2 ≠ p.2).map fun f => f.1 ++ [':', ' '] ++ f.2)
  | _ => ['{', '*', '*'] ++ spec ++ ['}']

/-- `FormatArgsTo` — parameter_qtypes.cc:112-125. -/
def formatArgs (params : Str → Option Ty) (spec : Str) : Str :=
  match params spec with
  | some ⟨_, .tuple fields⟩ => joinComma fields
  | _ => ['{', '*'] ++ spec ++ ['}']

/-- `FormatArgTo` — parameter_qtypes.cc:127-135. -/
def formatArg (params : Str → Option Ty) (spec : Str) : Str :=
  match params spec with
  | some t => t.name
  | none => ['{'] ++ spec ++ ['}']

/-- The choice by the prefix — parameter_qtypes.cc:157-163. -/
def formatSpec (params : Str → Option Ty) : Str → Str
  | '*' :: '*' :: spec => formatKwargs params spec
  | '*' :: spec => formatArgs params spec
  | spec => formatArg params spec

/-- `substr(pos, n)`. -/
def substr (s : Str) (pos n : Nat) : Str := (s.drop pos).take n

/-- The loop of `FormatParameterQTypes`, with fuel; `none` if the fuel ends or a position is not there — parameter_qtypes.cc:143-164. -/
def formatLoop (params : Str → Option Ty) (message : Str) : Nat → Nat → Str → Option Str
  | 0, _, _ => none
  | fuel + 1, i, result =>
    if i < message.length then
      match (find message '{' i).bind (find message '}') with
      | none => some (result ++ message.drop i)
      | some close =>
        match rfind message '{' (close - 1) with
        | none => none
        | some opn =>
          formatLoop params message fuel (close + 1)
            (result ++ substr message i (opn - i) ++ formatSpec params (substr message (opn + 1) (close - opn - 1)))
    else some result

/-- `FormatParameterQTypes` — parameter_qtypes.cc:139-166. -/
def format (params : Str → Option Ty) (message : Str) : Option Str := formatLoop params message (message.length + 1) 0 []

end Verif.ParamFormat
