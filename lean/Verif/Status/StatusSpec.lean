import Verif.Status.StatusModel

/-!
# Specification for structured errors and for the first error

What a caller sees of a status: the code, the message, the source locations, the payloads of foreign urls, the payload and the cause.
-/

namespace Verif.Status

/-- No url occurs twice among the payloads; `absl::Status` keeps it so. -/
def Err.WF (e : Err) : Prop := (e.payloads.map Prod.fst).Nodup

/-- The status `r` has the code, the message, the source locations and the foreign payloads of `e`. -/
def SameBase (r e : Err) : Prop :=
  r.code = e.code ∧ r.message = e.message ∧ r.locations = e.locations ∧
  ∀ url, url ≠ "arolla/structured_error" → payloadAt (some r) url = payloadAt (some e) url

/-- Two errors differ at most by their source locations. -/
def SameError (r e : Err) : Prop := r.code = e.code ∧ r.message = e.message ∧ r.payloads = e.payloads

/-- The parts that are not empty, joined by `sep`. -/
def joinParts (sep : String) (parts : List String) : String :=
  match parts.filter (· ≠ "") with
  | [] => ""
  | x :: xs => xs.foldl (fun a b => a ++ sep ++ b) x

/-- The file, with the line if it is known and with the column if that is known as well. -/
def fileSpec (l : SourceLocation) : String :=
  if l.fileName = "" then ""
  else l.fileName ++ (if 0 < l.line then ":" ++ toString l.line ++ (if 0 < l.column then ":" ++ toString l.column else "") else "")

def functionSpec (l : SourceLocation) : String := if l.functionName = "" then "" else "in " ++ l.functionName

/-- The message of an error with a location: the old message, an empty line, `file:line:column, in function` and the line of the source. -/
def messageSpec (old : String) (l : SourceLocation) : String :=
  let t := joinParts "\n" [joinParts ", " [fileSpec l, functionSpec l], l.lineText]
  old ++ (if t = "" then "" else "\n\n" ++ t)

/-- The cause of the cause of the … of a status, `n` times. -/
def causeAt : Nat → Status → Status
  | 0, s => s
  | n + 1, s => causeAt n (getCause s)

/-- The error in an argument. -/
inductive Arg.HasError {V : Type} : Arg V → Err → Prop
  | statusOr (e) : HasError (.statusOr (.error e)) e
  | status (e) : HasError (.status (some e)) e

/-- What the delegate receives for an argument without an error. -/
inductive Arg.Passes {V : Type} : Arg V → V ⊕ Status → Prop
  | plain (v) : Passes (.plain v) (.inl v)
  | statusOr (v) : Passes (.statusOr (.ok v)) (.inl v)
  | status : Passes (.status none) (.inr none)

/-- No argument is an error. -/
inductive AllPass {V : Type} : List (Arg V) → List (V ⊕ Status) → Prop
  | nil : AllPass [] []
  | cons {a x args xs} : Arg.Passes a x → AllPass args xs → AllPass (a :: args) (x :: xs)

/-- `e` is the first error among the arguments. -/
def FirstError {V : Type} (args : List (Arg V)) (e : Err) : Prop :=
  ∃ pre a post, args = pre ++ a :: post ∧ a.HasError e ∧ ∀ b ∈ pre, ∃ x, b.Passes x

end Verif.Status
