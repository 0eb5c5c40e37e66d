import Verif.Text.SplitModel

/-!
# Model of strings.format

`arolla/qexpr/operators/strings/format.cc:252-483`.  The values are of any type `V`; the conversion of one value with its format
(`FormatTypeReference`, lines 363-428, with `absl::FormatUntyped`) is an oracle which gives `none` for an error status.  All errors
are identified.
-/

namespace Verif.Text

/-- `IsAlpha` — util/string.h. -/
def isAlpha (c : Nat) : Bool := (97 ≤ c && c ≤ 122) || (65 ≤ c && c ≤ 90)
/-- `IsAlnum` — util/string.h. -/
def isAlnum (c : Nat) : Bool := isAlpha c || (48 ≤ c && c ≤ 57)

/-- `IsIdentifier` — util/string.h:39-52. -/
def isIdentifier : List Nat → Bool
  | [] => false
  | c :: s => (c = 95 || isAlpha c) && s.all (fun d => d = 95 || isAlnum d)

/-- The first stage of `PyFormatParser::Parse`: the first regular text, and the args each with the regular text that follows it —
lines 274-302.  The first argument bounds the number of iterations. -/
def parseTexts : Nat → List Nat → Option (List Nat × List (List Nat × List Nat))
  | _, [] => some ([], [])
  | 0, _ :: _ => none
  | fuel + 1, 123 :: 123 :: spec => (parseTexts fuel spec).map fun r => (123 :: r.1, r.2)
  | fuel + 1, 123 :: spec =>
    match svFind [125] spec with
    | none => none
    | some n => (parseTexts fuel (spec.drop (n + 1))).map fun r => ([], (spec.take n, r.1) :: r.2)
  | fuel + 1, 125 :: 125 :: spec => (parseTexts fuel spec).map fun r => (125 :: r.1, r.2)
  | _ + 1, 125 :: _ => none
  | fuel + 1, c :: spec => (parseTexts fuel spec).map fun r => (c :: r.1, r.2)

/-- The second stage: the name and the format of an arg — lines 311-325. -/
def parseArg (arg : List Nat) : Option (List Nat × List Nat) :=
  let name := arg.takeWhile (· ≠ 58)
  if isIdentifier name then some (name, (arg.drop name.length).drop 1) else none

/-- `PyFormatParser::Parse` — lines 252-328. -/
def parseFormat (spec : List Nat) : Option (List Nat × List ((List Nat × List Nat) × List Nat)) :=
  match parseTexts spec.length spec with
  | none => none
  | some (t, args) =>
    match args.mapM (fun a => (parseArg a.1).map fun p => (p, a.2)) with
    | none => none
    | some l => some (t, l)

/-- The loop of `Process` — lines 335-350. -/
def processArgs {V : Type} (index : List Nat → Option Nat) (values : List V) (fmt : V → List Nat → Option (List Nat)) :
    List ((List Nat × List Nat) × List Nat) → Option (List Nat)
  | [] => some []
  | ((name, format), text) :: args =>
    match index name with
    | none => none
    | some i =>
      match values[i]? with
      | none => none
      | some v =>
        match fmt v format with
        | none => none
        | some txt => (processArgs index values fmt args).map fun r => txt ++ text ++ r

/-- `Process` of what was parsed — lines 329-352. -/
def processParsed {V : Type} (index : List Nat → Option Nat) (values : List V) (fmt : V → List Nat → Option (List Nat)) :
    Option (List Nat × List ((List Nat × List Nat) × List Nat)) → Option (List Nat)
  | none => none
  | some (t, args) => (processArgs index values fmt args).map (t ++ ·)

/-- The names, split at commas — lines 449-461. -/
def argNames (s : List Nat) : Option (List (List Nat)) := if s = [] then some [] else strSplit ⟨s, false⟩ [44]

/-- `FormatBoundOperator::Run` — lines 444-474. -/
def formatOp {V : Type} (fmt : V → List Nat → Option (List Nat)) (spec names : List Nat) (values : List V) : Option (List Nat) :=
  match argNames names with
  | none => none
  | some ns =>
    if ¬ ns.Nodup then none
    else if ns.length ≠ values.length then none
    else processParsed (fun n => ns.findIdx? (· = n)) values fmt (parseFormat spec)

end Verif.Text
