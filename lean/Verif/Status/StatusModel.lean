/-!
# Model of structured errors and of the helpers for `absl::Status`

`arolla/util/status.h` and `arolla/util/status.cc`.

`absl::Status` itself is not part of the repository; it is modelled from its documented interface: an error has a code, a message, source
locations and payloads (cords keyed by type urls), `SetPayload` replaces the payload of an url or adds a new one and does nothing for
`OkStatus`, and `ForEachPayload` visits the payloads in an unspecified order.

Simplification: the token that `WrapStructuredErrorToCord` writes (status.cc:61-107) contains the address of its own buffer and a magic
number, and the cord keeps the error alive.  The model has two kinds of cords: one made by `WrapStructuredErrorToCord`, which carries the
error, and any other one, from which `UnwrapStructuredErrorFromCord` reads nothing.  `WrapStructuredErrorToCord` does not fail.
-/

namespace Verif.Status

/-- The codes of errors; `none` of `Option Code` is `absl::StatusCode::kOk`. -/
inductive Code
  | cancelled | unknown | invalidArgument | deadlineExceeded | notFound | alreadyExists | permissionDenied | resourceExhausted
  | failedPrecondition | aborted | outOfRange | unimplemented | internal | unavailable | dataLoss | unauthenticated
  deriving DecidableEq, Repr

/-- `SourceLocationPayload` — status.h:348-365. -/
structure SourceLocation where
  functionName : String
  fileName : String
  line : Int
  column : Int
  lineText : String
  deriving DecidableEq, Repr

/-- The non-empty values of `std::any`: the two payloads of status.h and any other type with a value of it. -/
inductive AnyVal
  | note (note : String)
  | location (loc : SourceLocation)
  | other (type : Nat) (value : Nat)
  deriving DecidableEq, Repr

mutual
/-- An `absl::Status` that is not `OkStatus`. -/
inductive Err
  | mk (code : Code) (message : String) (locations : List Nat) (payloads : List (String × Cord))
/-- The payload of a url: some text, or a `StructuredErrorPayload` (status.h:235-245); `none` as the payload is the empty `std::any`, `none`
as the cause is `OkStatus`. -/
inductive Cord
  | text (bytes : String)
  | token (payload : Option AnyVal) (cause : Option Err)
end

/-- `absl::Status`; `none` is `OkStatus`. -/
abbrev Status := Option Err

def Err.code : Err → Code | .mk c _ _ _ => c
def Err.message : Err → String | .mk _ m _ _ => m
def Err.locations : Err → List Nat | .mk _ _ l _ => l
def Err.payloads : Err → List (String × Cord) | .mk _ _ _ p => p

/-- `absl::Status::code()` and `absl::Status::message()`. -/
def code (s : Status) : Option Code := s.map Err.code
def message : Status → String
  | none => ""
  | some e => e.message

/-- `AbslStatusWithoutSourceLocations` — status.h:43-46; the constructor yields `OkStatus` for `kOk`. -/
def mkStatus (c : Option Code) (m : String) : Status := c.map fun c => .mk c m [] []

/-- The payload of a url in a list of payloads. -/
def lookup (url : String) : List (String × Cord) → Option Cord
  | [] => none
  | (u, c) :: rest => if u = url then some c else lookup url rest

/-- `absl::Status::GetPayload`. -/
def payloadAt (s : Status) (url : String) : Option Cord :=
  match s with
  | none => none
  | some e => lookup url e.payloads

def insert (url : String) (c : Cord) : List (String × Cord) → List (String × Cord)
  | [] => [(url, c)]
  | (u, d) :: rest => if u = url then (u, c) :: rest else (u, d) :: insert url c rest

/-- `absl::Status::SetPayload`. -/
def setPayload (s : Status) (url : String) (c : Cord) : Status :=
  s.map fun e => .mk e.code e.message e.locations (insert url c e.payloads)

/-- `absl::Status::AddSourceLocation`. -/
def addLocation (s : Status) (l : Nat) : Status :=
  s.map fun e => .mk e.code e.message (e.locations ++ [l]) e.payloads

/-- `kStructuredErrorPayloadUrl` — status.cc:51-52. -/
def structuredUrl : String := "arolla/structured_error"

/-- `AttachStructuredError` — status.cc:114-121. -/
def attach (s : Status) (payload : Option AnyVal) (cause : Status) : Status := setPayload s structuredUrl (.token payload cause)

/-- `ReadStructuredError` — status.cc:123-130 with `UnwrapStructuredErrorFromCord` (89-107). -/
def readStructured (s : Status) : Option (Option AnyVal × Status) :=
  match payloadAt s structuredUrl with
  | some (.token p c) => some (p, c)
  | _ => none

/-- `GetPayload` — status.cc:134-141; `none` is the null pointer. -/
def getPayload (s : Status) : Option AnyVal :=
  match readStructured s with
  | none => none
  | some (p, _) => p

/-- `GetPayload<NotePayload>`, `GetPayload<SourceLocationPayload>` — status.h:302-305. -/
def getNote (s : Status) : Option String :=
  match getPayload s with
  | some (.note n) => some n
  | _ => none
def getLocation (s : Status) : Option SourceLocation :=
  match getPayload s with
  | some (.location l) => some l
  | _ => none

/-- `WithPayloadAndCause` — status.cc:143-151. -/
def withPayloadAndCause (s : Status) (payload : Option AnyVal) (cause : Status) : Status := attach s payload cause

/-- `WithCause` — status.cc:153-164. -/
def withCause (s : Status) (cause : Status) : Status :=
  match readStructured s with
  | some (p, _) => attach s p cause
  | none => attach s none cause

/-- `WithPayload` — status.cc:166-177. -/
def withPayload (s : Status) (payload : Option AnyVal) : Status :=
  match readStructured s with
  | some (_, c) => attach s payload c
  | none => attach s payload none

/-- `GetCause` — status.cc:179-189; the outer `none` is the null pointer. -/
def getCause (s : Status) : Option Err :=
  match readStructured s with
  | none => none
  | some (_, none) => none
  | some (_, some e) => some e

/-- The loop over the source locations — status.cc:196-198. -/
def addLocations : Status → List Nat → Status
  | s, [] => s
  | s, l :: ls => addLocations (addLocation s l) ls

/-- The loop over the payloads — status.cc:199-202. -/
def setPayloads : Status → List (String × Cord) → Status
  | s, [] => s
  | s, (u, c) :: rest => setPayloads (setPayload s u c) rest

/-- `absl::Status::GetSourceLocations`. -/
def locations : Status → List Nat
  | none => []
  | some e => e.locations

/-- `WithUpdatedMessage` — status.cc:191-204; `visit` is the order in which `ForEachPayload` visits the payloads. -/
def withUpdatedMessage (visit : List (String × Cord) → List (String × Cord)) (s : Status) (m : String) : Status :=
  let r := mkStatus (code s) m
  let r := addLocations r (locations s)
  match s with
  | none => r
  | some e => setPayloads r (visit e.payloads)

/-- `WithNote` — status.cc:206-212. -/
def withNote (s : Status) (note : String) : Status :=
  let m := message s ++ "\n" ++ note
  withPayloadAndCause (mkStatus (code s) m) (some (.note note)) s

/-- The text of the location — status.cc:216-231. -/
def locationText (l : SourceLocation) : String :=
  let t := ""
  let t :=
    if l.fileName ≠ "" then
      let t := t ++ l.fileName
      if l.line > 0 then
        let t := t ++ ":" ++ toString l.line
        if l.column > 0 then t ++ ":" ++ toString l.column else t
      else t
    else t
  if l.functionName ≠ "" then
    let t := if l.fileName ≠ "" then t ++ ", " else t
    t ++ "in " ++ l.functionName
  else t

/-- The new message — status.cc:233-241. -/
def locationMessage (old : String) (l : SourceLocation) : String :=
  let t := locationText l
  if t ≠ "" then
    let m := old ++ "\n\n" ++ t
    if l.lineText ≠ "" then m ++ "\n" ++ l.lineText else m
  else if l.lineText ≠ "" then old ++ "\n\n" ++ l.lineText
  else old

/-- `WithSourceLocation` — status.cc:214-246. -/
def withSourceLocation (s : Status) (l : SourceLocation) : Status :=
  let m := locationMessage (message s) l
  withPayloadAndCause (mkStatus (code s) m) (some (.location l)) s

/-! ## The first error -/

/-- `absl::StatusOr<T>`; it never holds `OkStatus`. -/
abbrev StatusOr (T : Type) := Except Err T

/-- An argument of `CheckInputStatus`: a plain value, a `StatusOr` or a `Status`. -/
inductive Arg (V : Type)
  | plain (v : V)
  | statusOr (r : StatusOr V)
  | status (s : Status)

/-- `GetStatusOrOk` — status.h:50-59. -/
def getStatusOrOk {V : Type} : Arg V → Status
  | .plain _ => none
  | .statusOr (.ok _) => none
  | .statusOr (.error e) => some e
  | .status s => s

/-- `IsOkStatus` — status.h:61-70. -/
def isOkStatus {V : Type} : Arg V → Bool
  | .plain _ => true
  | .statusOr (.ok _) => true
  | .statusOr (.error _) => false
  | .status s => s.isNone

/-- `FirstErrorStatus` — status.h:220-226; `RETURN_IF_ERROR` adds the location `here` to the status that it returns. -/
def firstErrorStatus (here : Nat) : List Status → Status
  | [] => none
  | none :: rest => firstErrorStatus here rest
  | some e :: _ => addLocation (some e) here

/-- `CheckInputStatus` — status.h:74-81. -/
def checkInputStatus {V : Type} (here : Nat) (args : List (Arg V)) : Status := firstErrorStatus here (args.map getStatusOrOk)

/-- `UnStatus` — status.h:93-101; dereferencing a `StatusOr` without a value is undefined (`none`).  The delegate receives a plain value or a
`Status`. -/
def unStatus {V : Type} : Arg V → Option (V ⊕ Status)
  | .plain v => some (.inl v)
  | .statusOr (.ok v) => some (.inl v)
  | .statusOr (.error _) => none
  | .status s => some (.inr s)

def unStatusAll {V : Type} : List (Arg V) → Option (List (V ⊕ Status))
  | [] => some []
  | a :: rest =>
    match unStatus a, unStatusAll rest with
    | some x, some xs => some (x :: xs)
    | _, _ => none

/-- `return CheckInputStatus(...)` converted to a `StatusOr`: from `OkStatus` absl makes an internal error. -/
def statusToStatusOr {R : Type} : Status → StatusOr R
  | none => .error (.mk .internal "An OK status is not a valid constructor argument to StatusOr<T>" [] [])
  | some e => .error e

/-- `UnStatusCaller::operator()` — status.h:111-133; `none` is undefined behaviour.  `l1` is the location in `CheckInputStatus`, `l2` the one
in the caller. -/
def unStatusCaller {V R : Type} (l1 l2 : Nat) (fn : List (V ⊕ Status) → StatusOr R) (args : List (Arg V)) : Option (StatusOr R) :=
  if args.length ≤ 30 then
    if args.all isOkStatus then (unStatusAll args).map fn
    else some (statusToStatusOr (checkInputStatus l1 args))
  else
    match checkInputStatus l1 args with
    | some e => some (statusToStatusOr (addLocation (some e) l2))
    | none => (unStatusAll args).map fn

/-- `LiftStatusUp` of a vector and of a span — status.h:152-178. -/
def liftLoop {T : Type} : List (StatusOr T) → List T → StatusOr (List T)
  | [], acc => .ok acc
  | .error e :: _, _ => .error e
  | .ok v :: rest, acc => liftLoop rest (acc ++ [v])

def liftVector {T : Type} (xs : List (StatusOr T)) : StatusOr (List T) := liftLoop xs []

/-- `flat_hash_map::emplace`: nothing happens if the key is present.  The map is a list of entries. -/
def emplace {K V : Type} [DecidableEq K] (m : List (K × V)) (k : K) (v : V) : List (K × V) :=
  if m.any (fun e => decide (e.1 = k)) then m else m ++ [(k, v)]

/-- `LiftStatusUp` of a map — status.h:180-192; the argument lists the entries in the order in which the map is traversed. -/
def liftMapLoop {K V : Type} [DecidableEq K] : List (K × StatusOr V) → List (K × V) → StatusOr (List (K × V))
  | [], acc => .ok acc
  | (_, .error e) :: _, _ => .error e
  | (k, .ok v) :: rest, acc => liftMapLoop rest (emplace acc k v)

def liftMap {K V : Type} [DecidableEq K] (m : List (K × StatusOr V)) : StatusOr (List (K × V)) := liftMapLoop m []

/-- The map made from an initializer list — status.h:197. -/
def mapOfList {K V : Type} [DecidableEq K] : List (K × V) → List (K × V) → List (K × V)
  | [], acc => acc
  | (k, v) :: rest, acc => mapOfList rest (emplace acc k v)

/-- `LiftStatusUp` of an initializer list — status.h:194-198; `order` is the order in which the hash map is traversed. -/
def liftInit {K V : Type} [DecidableEq K] (order : List (K × StatusOr V) → List (K × StatusOr V)) (xs : List (K × StatusOr V)) :
    StatusOr (List (K × V)) := liftMap (order (mapOfList xs []))

/-- `LiftStatusUp` of an initializer list whose keys may be errors — status.h:200-216. -/
def liftPairsLoop {K V : Type} [DecidableEq K] : List (StatusOr K × StatusOr V) → List (K × V) → StatusOr (List (K × V))
  | [], acc => .ok acc
  | (.error e, _) :: _, _ => .error e
  | (.ok _, .error e) :: _, _ => .error e
  | (.ok k, .ok v) :: rest, acc => liftPairsLoop rest (emplace acc k v)

def liftPairs {K V : Type} [DecidableEq K] (xs : List (StatusOr K × StatusOr V)) : StatusOr (List (K × V)) := liftPairsLoop xs []

/-- `*std::move(status_or_ts)...`; dereferencing an error is undefined (`none`). -/
def derefAll {T : Type} : List (StatusOr T) → Option (List T)
  | [] => some []
  | .error _ :: _ => none
  | .ok v :: rest => (derefAll rest).map (v :: ·)

/-- `LiftStatusUp` of a pack — status.h:141-146; the values of the tuple are modelled as a list. -/
def liftTuple {T : Type} (l1 l2 : Nat) (xs : List (StatusOr T)) : Option (StatusOr (List T)) :=
  match checkInputStatus l1 (xs.map Arg.statusOr) with
  | some e => some (statusToStatusOr (addLocation (some e) l2))
  | none => (derefAll xs).map .ok

end Verif.Status
