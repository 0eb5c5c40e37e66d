/-!
# Model of the selection of overloads by generic and dispatch operators

`arolla/expr/operator_loader/generic_operator.cc`, `dispatch_operator.cc`, `helper.cc` and the operator
`qtype._parse_input_qtype_sequence` (`arolla/qexpr/operators/bootstrap/qtype_operator.cc`).

* Types are of any type `T` with a type `nothing`; `tuple` makes a tuple type.  A type that is not known is `none`.
* A condition is a function of the values of its placeholders and of the leaf `input_qtype_sequence`; it can be evaluated for all types.
* Names of parameters are numbers.
-/

namespace Verif.Generic

/-- `ExprOperatorSignature::Parameter` without default value. -/
structure Param where
  name : Nat
  variadic : Bool

/-- Characters of a signature pattern. -/
inductive Pat
  | p | P | v | V
  deriving DecidableEq

/-- `MakeInputQTypeSequence`: `none` for the error — helper.cc:197-225. -/
def makeSeq {T : Type} [DecidableEq T] (nothing : T) : List (Option T) → Option (List T)
  | [] => some []
  | none :: rest => (makeSeq nothing rest).map (nothing :: ·)
  | some t :: rest => if t = nothing then none else (makeSeq nothing rest).map (t :: ·)

/-- The signature pattern — helper.cc:123-134. -/
def patternOf (uses : List Nat) : List Param → List Pat
  | [] => []
  | p :: ps => (if p.variadic then (if p.name ∈ uses then .V else .v) else (if p.name ∈ uses then .P else .p)) :: patternOf uses ps

/-- The loop over the pattern: `ok`, the rest of the inputs, and the outputs set — qtype_operator.cc:252-279. -/
def parseLoop {T : Type} [DecidableEq T] (nothing : T) (tuple : List T → T) : List Pat → List T → List T → Bool × List T × List T
  | [], inputs, outs => (true, inputs, outs)
  | .p :: pat, inputs, outs =>
    match inputs with
    | [] => (false, [], outs)
    | _ :: inputs => parseLoop nothing tuple pat inputs outs
  | .P :: pat, inputs, outs =>
    match inputs with
    | [] => (false, [], outs)
    | t :: inputs => if t = nothing then (false, t :: inputs, outs) else parseLoop nothing tuple pat inputs (outs ++ [t])
  | .v :: pat, _, outs => parseLoop nothing tuple pat [] outs
  | .V :: pat, inputs, outs =>
    if nothing ∈ inputs then (false, inputs, outs) else parseLoop nothing tuple pat [] (outs ++ [tuple inputs])

/-- The number of fields that are types — bootstrap_operators.cc:896-910. -/
def fieldCount (pat : List Pat) : Nat := (pat.filter fun c => c = .P ∨ c = .V).length

/-- `ParseInputQTypeSequenceOp`: the readiness and the types — qtype_operator.cc:250-290. -/
def parseOp {T : Type} [DecidableEq T] (nothing : T) (tuple : List T → T) (pat : List Pat) (inputs : List T) : Bool × List T :=
  let r := parseLoop nothing tuple pat inputs []
  if r.1 && r.2.1.isEmpty then (true, (r.2.2 ++ List.replicate (fieldCount pat - r.2.2.length) nothing).take (fieldCount pat))
  else (false, List.replicate (fieldCount pat) nothing)

/-- The index of the field that a placeholder is replaced with, counted from the first type — helper.cc:143-153. -/
def fieldOf (uses : List Nat) (name : Nat) : List Param → Option Nat
  | [] => none
  | p :: ps =>
    if p.name = name then (if p.name ∈ uses then some 0 else none)
    else (fieldOf uses name ps).map (· + if p.name ∈ uses then 1 else 0)

/-- The value of a placeholder in the resolved expression — helper.cc:154-172. -/
def envOf {T : Type} (nothing : T) (uses : List Nat) (sig : List Param) (fields : List T) (name : Nat) : T :=
  ((fieldOf uses name sig).bind fun j => fields[j]?).getD nothing

/-- `CheckExpr` for the placeholders — helper.cc:92-104. -/
def checkExpr (sig : List Param) (uses : List Nat) : Bool := uses.all fun n => (sig.map (·.name)).contains n

/-- An overload: its signature, the placeholders of its condition and the condition. -/
structure Overload (T : Type) where
  sig : List Param
  uses : List Nat
  cond : (Nat → T) → List T → Bool

/-- The readiness and the condition of an overload — generic_operator.cc:190-191. -/
def Overload.eval {T : Type} [DecidableEq T] (nothing : T) (tuple : List T → T) (o : Overload T) (seq : List T) : Bool × Bool :=
  let r := parseOp nothing tuple (patternOf o.uses o.sig) seq
  (r.1, o.cond (envOf nothing o.uses o.sig r.2) seq)

/-- What `GetOverload` gives. -/
inductive Choice
  | found (i : Nat)
  | undecided
  | ambiguous
  | noMatch
  | badInput
  deriving DecidableEq

/-- The first loop of `GetOverload`: the first match and whether all before it are ready, and the rest of the results — generic_operator.cc:233-245. -/
def firstLoop (i : Nat) (ready : Bool) : List (Bool × Bool) → Option Nat × Bool × List (Bool × Bool)
  | [] => (none, ready, [])
  | (r, c) :: rest => if r then (if c then (some i, ready, rest) else firstLoop (i + 1) ready rest) else firstLoop (i + 1) false rest

/-- The second loop: whether there are further matches, and whether all are ready — generic_operator.cc:246-256. -/
def secondLoop (more ready : Bool) : List (Bool × Bool) → Bool × Bool
  | [] => (more, ready)
  | (r, c) :: rest => if r then secondLoop (more || c) ready rest else secondLoop more false rest

/-- `GenericOperator::GetOverload` — generic_operator.cc:217-276. -/
def getOverload (results : List (Bool × Bool)) : Choice :=
  let r1 := firstLoop 0 true results
  let r2 := secondLoop false r1.2.1 r1.2.2
  if r2.1 then .ambiguous
  else if !r2.2 then .undecided
  else match r1.1 with
    | some i => .found i
    | none => .noMatch

/-- The choice of a generic operator — generic_operator.cc:96-111. -/
def genericChoice {T : Type} [DecidableEq T] (nothing : T) (tuple : List T → T) (overloads : List (Overload T)) (inputs : List (Option T)) :
    Choice :=
  match makeSeq nothing inputs with
  | none => .badInput
  | some seq => getOverload (overloads.map (·.eval nothing tuple seq))

/-! ## DispatchOperator -/

/-- The first loop of `DispatchOperator::GetOverload` — dispatch_operator.cc:232-239. -/
def firstCond (i : Nat) : List Bool → Option Nat × List Bool
  | [] => (none, [])
  | c :: rest => if c then (some i, rest) else firstCond (i + 1) rest

/-- `DispatchOperator::GetOverload`; `size` is that of `all_overloads_` — dispatch_operator.cc:225-260. -/
def dispatchOverload (size : Nat) (ready : Bool) (conds : List Bool) : Choice :=
  if !ready then .undecided
  else
    let r := firstCond 0 conds
    if r.2.any id then .ambiguous
    else
      let first := r.1.getD conds.length
      if first < size then .found first else .noMatch

/-- The choice of a dispatch operator, whose conditions share the signature and are resolved together — dispatch_operator.cc:71-104,
163-178. -/
def dispatchChoice {T : Type} [DecidableEq T] (nothing : T) (tuple : List T → T) (sig : List Param)
    (overloads : List (List Nat × ((Nat → T) → List T → Bool))) (hasDefault : Bool) (inputs : List (Option T)) : Choice :=
  match makeSeq nothing inputs with
  | none => .badInput
  | some seq =>
    let uses := overloads.flatMap (·.1)
    let r := parseOp nothing tuple (patternOf uses sig) seq
    dispatchOverload (overloads.length + if hasDefault then 1 else 0) r.1
      (overloads.map fun o => o.2 (envOf nothing uses sig r.2) seq)

end Verif.Generic
