/-!
# Model of the text form of curves

`arolla/pwlcurve/curves.cc`.  Numbers are of any type `D`; `atod` stands for `absl::SimpleAtod` and `fmt` for
`DoubleToStringConverter::ToShortest`.  A position in the string is modelled by the rest of the string from there.  Simplified: strings
are shorter than `INT_MAX` (positions are `int`), no allowed separator is the byte 255 (-1 as a `char`), and the text of a point fits into
the buffer of 128 bytes.
-/

namespace Verif.Curve

/-- `CurveType` — curves.h:30-43. -/
inductive CurveType
  | pwl | log | log1p | symlog1p
  deriving DecidableEq

/-- `CurveType_Name` — curves.h:128-133. -/
def CurveType.name : CurveType → List Char
  | .pwl => "PWLCurve".toList
  | .log => "LogPWLCurve".toList
  | .log1p => "Log1pPWLCurve".toList
  | .symlog1p => "Symlog1pPWLCurve".toList

/-- `ParseType` with the legacy names — curves.cc:84-108. -/
def parseType (s : List Char) : Option CurveType :=
  if s = "PWLCurve".toList then some .pwl
  else if s = "LogPWLCurve".toList then some .log
  else if s = "Log1pPWLCurve".toList then some .log1p
  else if s = "Symlog1pPWLCurve".toList then some .symlog1p
  else if s = "LogP1PWLCurve".toList then some .log1p
  else if s = "SymmetricLogP1PWLCurve".toList then some .symlog1p
  else none

/-- The errors of the parser. -/
inductive PErr
  | invalidSeparator | missingOpenParen | unknownType | missingOpenCurlyList | missingOpenCurlyPoint | missingSeparator | missingCloseCurlyPoint
  | invalidDouble | missingCloseCurlyList | missingCloseParen | trailingJunk
  deriving DecidableEq

/-- `find(c)`: what is before the first occurrence and what is after it. -/
def findChar (c : Char) : List Char → Option (List Char × List Char)
  | [] => none
  | d :: s => if d = c then some ([], s) else (findChar c s).map fun r => (d :: r.1, r.2)

/-- `ParsePoint`: the coordinates and the rest — curves.cc:113-154. -/
def parsePoint {D : Type} (atod : List Char → Option D) (sep : Char) : List Char → Except PErr ((D × D) × List Char)
  | '{' :: s =>
    match findChar sep s with
    | none => .error .missingSeparator
    | some (xs, _) =>
      match findChar '}' s with
      | none => .error .missingCloseCurlyPoint
      | some (inside, rest) =>
        if inside.length < xs.length then .error .missingSeparator
        else
          match atod xs with
          | none => .error .invalidDouble
          | some x =>
            match atod ((inside.drop xs.length).drop 1) with
            | none => .error .invalidDouble
            | some y => .ok ((x, y), rest)
  | _ => .error .missingOpenCurlyPoint

/-- The loop over further points, with fuel — curves.cc:194-200. -/
def parseLoop {D : Type} (atod : List Char → Option D) (sep : Char) : Nat → List Char → List (D × D) → Except PErr (List (D × D) × List Char)
  | 0, s, acc => .ok (acc, s)
  | fuel + 1, s, acc =>
    match s with
    | [] => .ok (acc, [])
    | c :: s =>
      if c = sep then
        match parsePoint atod sep s with
        | .error e => .error e
        | .ok (p, s) => parseLoop atod sep fuel s (acc ++ [p])
      else .ok (acc, c :: s)

/-- The end of the string — curves.cc:201-211. -/
def parseEnd : List Char → Except PErr Unit
  | ['}', ')'] => .ok ()
  | '}' :: ')' :: _ => .error .trailingJunk
  | '}' :: _ => .error .missingCloseParen
  | _ => .error .missingCloseCurlyList

/-- `Parse` — curves.cc:157-212. -/
def parse {D : Type} (atod : List Char → Option D) (sep : Char) (curve : List Char) : Except PErr (CurveType × List (D × D)) :=
  if !(sep = ';' || sep = '|') then .error .invalidSeparator
  else
    match findChar '(' curve with
    | none => .error .missingOpenParen
    | some (name, s) =>
      match parseType name with
      | none => .error .unknownType
      | some type =>
        match s with
        | '{' :: s =>
          match parsePoint atod sep s with
          | .error e => .error e
          | .ok (p, s) =>
            match parseLoop atod sep s.length s [p] with
            | .error e => .error e
            | .ok (points, s) =>
              match parseEnd s with
              | .error e => .error e
              | .ok () => .ok (type, points)
        | _ => .error .missingOpenCurlyList

/-- `PointToString` — curves.cc:56-69. -/
def pointToString {D : Type} (fmt : D → List Char) (p : D × D) : List Char := '{' :: fmt p.1 ++ (';' :: fmt p.2 ++ ['}'])

/-- `absl::StrJoin` with one character. -/
def joinWith (sep : Char) : List (List Char) → List Char
  | [] => []
  | [a] => a
  | a :: b :: rest => a ++ sep :: joinWith sep (b :: rest)

/-- `Curve::ToString` — curves.cc:813-821. -/
def curveToString {D : Type} (fmt : D → List Char) (type : CurveType) (points : List (D × D)) : List Char :=
  type.name ++ ('(' :: '{' :: joinWith ';' (points.map (pointToString fmt)) ++ ['}', ')'])

/-- The loop of `FindSeparatorUsed`: `none` inside for two different ones — curves.cc:224-231. -/
def findSepLoop (curve : List Char) : List Char → Option Char → Option (Option Char)
  | [], used => some used
  | a :: allowed, used =>
    if a ∈ curve then
      match used with
      | none => findSepLoop curve allowed (some a)
      | some _ => none
    else findSepLoop curve allowed used

/-- `FindSeparatorUsed`; `none` for -1 — curves.cc:220-233. -/
def findSeparatorUsed (allowed curve : List Char) : Option Char :=
  match allowed with
  | [] => none
  | a :: _ => (findSepLoop curve allowed none).map fun used => used.getD a

/-- `NewCurveWithAllowedSeparators` up to the parser; `none` for several separators — curves.cc:802-810. -/
def parseAllowed {D : Type} (atod : List Char → Option D) (allowed curve : List Char) : Option (Except PErr (CurveType × List (D × D))) :=
  (findSeparatorUsed allowed curve).map fun sep => parse atod sep curve

end Verif.Curve
