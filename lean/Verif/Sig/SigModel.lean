import Verif.Util.StringModel

/-!
# Model of `arolla/expr/expr_operator_signature.{h,cc}`

A string is the list of its bytes.  `Parameter::Kind` is an `enum class`, so a value outside the two enumerators can
be stored in it; it is the constructor `other`.  The type `V` of default values and the type `E` of expression nodes
are parameters, `Literal(value)` is the function `lit : V → E`.  A `flat_hash_map<std::string, ExprNodePtr>` is the
list of its entries in iteration order; its keys are distinct.  Error values keep what their messages contain.
-/

namespace Verif.Sig
open Verif.Str

/-- `ExprOperatorSignature::Parameter::Kind` — expr_operator_signature.h:43-46. -/
inductive Kind where
  | positional | variadic | other (n : Nat)
deriving Repr, DecidableEq

/-- `ExprOperatorSignature::Parameter` — expr_operator_signature.h:42-50. -/
structure Param (V : Type) where
  name : List Nat
  dflt : Option V
  kind : Kind
deriving Repr, DecidableEq

/-- `ExprOperatorSignature` — expr_operator_signature.h:41-80. -/
structure Signature (V : Type) where
  params : List (Param V)
  auxName : List Nat
  auxOpts : List Nat
deriving Repr, DecidableEq

/-- The error statuses of this file. -/
inductive Err where
  /-- expr_operator_signature.cc:58 -/
  | illegalName (name : List Nat)
  /-- expr_operator_signature.cc:68 -/
  | nonUnique (name : List Nat)
  /-- expr_operator_signature.cc:80 -/
  | illegalKind (name : List Nat)
  /-- expr_operator_signature.cc:97 -/
  | noDefaultAfterDefault
  /-- expr_operator_signature.cc:113 -/
  | variadicNotLast
  /-- expr_operator_signature.cc:120 -/
  | variadicDefault
  /-- expr_operator_signature.cc:129 -/
  | auxColon
  /-- expr_operator_signature.cc:168 -/
  | multiple (name : List Nat)
  /-- expr_operator_signature.cc:173 -/
  | unexpectedKind
  /-- expr_operator_signature.cc:249 -/
  | tooMany (expected got : Nat)
  /-- expr_operator_signature.cc:178 -/
  | unexpected (names : List (List Nat))
  /-- expr_operator_signature.cc:192 -/
  | missing (names : List (List Nat))
  /-- expr_operator_signature.cc:213 -/
  | depsCount (expected got : Nat)
  /-- expr_operator_signature.cc:335 -/
  | noDefault (name : List Nat)
  /-- expr_operator_signature.cc:346 -/
  | unusedDefaults
deriving Repr, DecidableEq

/-! ## Validation -/

/-- First loop of `ValidateSignatureParameterNames` — expr_operator_signature.cc:56-62. -/
def checkNames {V : Type} : List (Param V) → Except Err Unit
  | [] => .ok ()
  | p :: ps => if isIdentifier p.name then checkNames ps else .error (.illegalName p.name)

/-- Second loop of `ValidateSignatureParameterNames`, with its hash set — expr_operator_signature.cc:64-71. -/
def checkUnique {V : Type} (seen : List (List Nat)) : List (Param V) → Except Err Unit
  | [] => .ok ()
  | p :: ps => if p.name ∈ seen then .error (.nonUnique p.name) else checkUnique (p.name :: seen) ps

/-- `ValidateSignatureParameterKinds` — expr_operator_signature.cc:75-86. -/
def checkKinds {V : Type} : List (Param V) → Except Err Unit
  | [] => .ok ()
  | p :: ps =>
    if p.kind ≠ .positional ∧ p.kind ≠ .variadic then .error (.illegalKind p.name) else checkKinds ps

/-- `ValidateSignaturePositionalOrKeywordParameters` — expr_operator_signature.cc:88-106. -/
def checkDefaults {V : Type} (had : Bool) : List (Param V) → Except Err Unit
  | [] => .ok ()
  | p :: ps =>
    if p.kind ≠ .positional then .ok ()
    else if p.dflt.isNone then
      if had then .error .noDefaultAfterDefault else checkDefaults had ps
    else checkDefaults true ps

/-- Loop of `ValidateSignatureVariadicParameters` over all parameters but the last —
expr_operator_signature.cc:111-115. -/
def checkVariadicLoop {V : Type} : List (Param V) → Except Err Unit
  | [] => .ok ()
  | [_] => .ok ()
  | p :: q :: ps => if p.kind = .variadic then .error .variadicNotLast else checkVariadicLoop (q :: ps)

/-- `ValidateSignatureVariadicParameters` — expr_operator_signature.cc:108-124. -/
def checkVariadic {V : Type} (ps : List (Param V)) : Except Err Unit :=
  match checkVariadicLoop ps with
  | .error e => .error e
  | .ok () =>
    match ps.getLast? with
    | some p => if p.kind = .variadic ∧ p.dflt.isSome then .error .variadicDefault else .ok ()
    | none => .ok ()

/-- `':'`, `'|'`, `','`, `'*'`, `'='`, `' '`. -/
def colon : Nat := 58
def bar : Nat := 124
def comma : Nat := 44
def star : Nat := 42
def equals : Nat := 61
def space : Nat := 32

/-- `ValidateSignatureAuxPolicyName` — expr_operator_signature.cc:126-134. -/
def checkAux (name : List Nat) : Except Err Unit :=
  if colon ∈ name then .error .auxColon else .ok ()

/-- `ValidateSignature` — expr_operator_signature.cc:138-145. -/
def validate {V : Type} (s : Signature V) : Except Err Unit := do
  checkNames s.params
  checkUnique [] s.params
  checkKinds s.params
  checkDefaults false s.params
  checkVariadic s.params
  checkAux s.auxName

/-- `HasVariadicParameter` — expr_operator_signature.cc:161-164. -/
def hasVariadic {V : Type} (s : Signature V) : Bool :=
  match s.params.getLast? with
  | some p => p.kind = .variadic
  | none => false

/-- `ValidateDepsCount` — expr_operator_signature.cc:205-220. -/
def validateDepsCount {V : Type} (s : Signature V) (n : Nat) : Except Err Unit :=
  let req := if hasVariadic s then s.params.length - 1 else s.params.length
  if n < req ∨ (hasVariadic s = false ∧ n > req) then .error (.depsCount req n) else .ok ()

/-! ## Binding of arguments -/

/-- `flat_hash_map::find`. -/
def find {E : Type} (kw : List (List Nat × E)) (name : List Nat) : Option E :=
  (kw.find? (fun e => e.1 = name)).map (·.2)

/-- First loop of `BindArguments`: consumes the positional arguments; returns the result so far, the remaining
parameters and the remaining arguments — expr_operator_signature.cc:231-247. -/
def bindPositional {V E : Type} (kw : List (List Nat × E)) :
    List (Param V) → List E → List E → Except Err (List E × List (Param V) × List E)
  | [], args, res => .ok (res, [], args)
  | ps, [], res => .ok (res, ps, [])
  | p :: ps, a :: as, res =>
    match p.kind with
    | .positional => if (find kw p.name).isSome then .error (.multiple p.name) else bindPositional kw ps as (res ++ [a])
    | .variadic => .ok (res ++ (a :: as), ps, [])
    | .other _ => .error .unexpectedKind

/-- Second loop of `BindArguments`: keyword arguments and default values; returns the result, the missing arguments
and the used keywords — expr_operator_signature.cc:253-270. -/
def bindKeyword {V E : Type} (lit : V → E) (kw : List (List Nat × E)) :
    List (Param V) → List E → List (List Nat) → List (List Nat) → Except Err (List E × List (List Nat) × List (List Nat))
  | [], res, miss, used => .ok (res, miss, used)
  | p :: ps, res, miss, used =>
    match p.kind with
    | .positional =>
      match find kw p.name with
      | some e => bindKeyword lit kw ps (res ++ [e]) miss (p.name :: used)
      | none =>
        match p.dflt with
        | some v => bindKeyword lit kw ps (res ++ [lit v]) miss used
        | none => bindKeyword lit kw ps res (miss ++ [p.name]) used
    | .variadic => bindKeyword lit kw ps res miss used
    | .other _ => .error .unexpectedKind

/-- `UnexpectedKeywordArgumentsError`: the names are sorted when there are several —
expr_operator_signature.cc:178-190. -/
def unexpectedError (names : List (List Nat)) : Err :=
  if names.length = 1 then .unexpected names else .unexpected (names.mergeSort (fun a b => decide (a ≤ b)))

/-- `BindArguments` — expr_operator_signature.cc:222-285. -/
def bindArguments {V E : Type} (lit : V → E) (s : Signature V) (args : List E) (kw : List (List Nat × E)) :
    Except Err (List E) := do
  let (res, ps, rest) ← bindPositional kw s.params args []
  if rest ≠ [] then throw (.tooMany res.length args.length)
  let (res, miss, used) ← bindKeyword lit kw ps res [] []
  let bad := (kw.map (·.1)).filter (fun k => k ∉ used)
  if bad ≠ [] then throw (unexpectedError bad)
  if miss ≠ [] then throw (.missing miss)
  return res

/-! ## Textual form -/

/-- `absl::ascii_isspace`. -/
def isSpace (c : Nat) : Bool := (9 ≤ c && c ≤ 13) || c = 32

/-- `absl::StripLeadingAsciiWhitespace`. -/
def stripLeading (s : List Nat) : List Nat := s.dropWhile isSpace

/-- `absl::StripTrailingAsciiWhitespace`. -/
def stripTrailing (s : List Nat) : List Nat := (s.reverse.dropWhile isSpace).reverse

/-- `absl::StripAsciiWhitespace`. -/
def strip (s : List Nat) : List Nat := stripTrailing (stripLeading s)

/-- `absl::StrSplit(s, c)`. -/
def split (c : Nat) : List Nat → List (List Nat)
  | [] => [[]]
  | x :: xs =>
    if x = c then [] :: split c xs
    else match split c xs with
      | y :: ys => (x :: y) :: ys
      | [] => [[x]]

/-- `GetAuxPolicyName` — expr_operator_signature.cc:391-393. -/
def auxPolicyName (aux : List Nat) : List Nat := strip (aux.takeWhile (· ≠ colon))

/-- `GetAuxPolicyOptions` — expr_operator_signature.cc:395-401. -/
def auxPolicyOptions (aux : List Nat) : List Nat :=
  if colon ∈ aux then strip ((aux.dropWhile (· ≠ colon)).drop 1) else []

/-- `GetAuxPolicy` — expr_operator_signature.cc:382-389. -/
def auxPolicy (name opts : List Nat) : List Nat := if opts ≠ [] then name ++ [colon] ++ opts else name

/-- One iteration of the loop of `Make`; `ds` are the default values not used yet —
expr_operator_signature.cc:322-344. -/
def parseParam {V : Type} (d : List Nat) (ds : List V) : Except Err (Param V × List V) :=
  let d := strip d
  let isVar := d.head? = some star
  let d := if isVar then stripLeading (d.drop 1) else d
  let kind := if isVar then Kind.variadic else Kind.positional
  if d.getLast? = some equals then
    let d := stripTrailing (d.take (d.length - 1))
    match ds with
    | [] => .error (.noDefault d)
    | v :: ds => .ok (⟨d, some v, kind⟩, ds)
  else .ok (⟨d, none, kind⟩, ds)

/-- Loop of `Make` — expr_operator_signature.cc:322-344. -/
def parseParams {V : Type} : List (List Nat) → List V → Except Err (List (Param V) × List V)
  | [], ds => .ok ([], ds)
  | d :: rest, ds =>
    match parseParam d ds with
    | .error e => .error e
    | .ok (p, ds) =>
      match parseParams rest ds with
      | .error e => .error e
      | .ok (ps, ds) => .ok (p :: ps, ds)

/-- `ExprOperatorSignature::Make` — expr_operator_signature.cc:305-351. -/
def make {V : Type} (spec : List Nat) (defaults : List V) : Except Err (Signature V) :=
  let aux := if bar ∈ spec then stripLeading ((spec.dropWhile (· ≠ bar)).drop 1) else []
  let auxN := if bar ∈ spec then auxPolicyName aux else []
  let auxO := if bar ∈ spec then auxPolicyOptions aux else []
  let body := strip (spec.takeWhile (· ≠ bar))
  let defs := if body ≠ [] then split comma body else []
  match parseParams defs defaults with
  | .error e => .error e
  | .ok (ps, ds) =>
    if ds ≠ [] then .error .unusedDefaults
    else
      match validate ⟨ps, auxN, auxO⟩ with
      | .error e => .error e
      | .ok () => .ok ⟨ps, auxN, auxO⟩

/-- One parameter in `GetExprOperatorSignatureSpec` (without the separator) — expr_operator_signature.cc:359-368. -/
def showParam {V : Type} (p : Param V) : List Nat :=
  (if p.kind = .variadic then [star] else []) ++ p.name ++ (if p.dflt.isSome then [equals] else [])

/-- Loop of `GetExprOperatorSignatureSpec`; `NonFirstComma` writes `", "` — expr_operator_signature.cc:356-369,
string.h:82-85. -/
def showParams {V : Type} : Bool → List (Param V) → List Nat
  | _, [] => []
  | first, p :: ps => (if first then [] else [comma, space]) ++ showParam p ++ showParams false ps

/-- `GetExprOperatorSignatureSpec` — expr_operator_signature.cc:353-376. -/
def showSpec {V : Type} (s : Signature V) : List Nat :=
  let aux := auxPolicy s.auxName s.auxOpts
  showParams true s.params ++ (if aux ≠ [] then [bar] ++ aux else [])

end Verif.Sig
