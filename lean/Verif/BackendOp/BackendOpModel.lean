import Verif.Generic.DispatchModel

/-!
# Model of the type inference of backend operators and restricted lambda operators

`arolla/expr/operator_loader/qtype_inference.cc`, `parameter_qtypes.cc`, `backend_operator.cc`, `restricted_lambda_operator.cc`.

* Types, parameters, the sequence of the types of the inputs and `qtype._parse_input_qtype_sequence` are those of `DispatchModel`.
* A predicate and the inference expression are functions of the values of their placeholders and of the leaf `input_qtype_sequence`.  The executor
  evaluates all of them, also those whose arguments are not known; this succeeds in the model.
* The map of the types of the parameters is a list of pairs.  The text of an error message is not modelled, only which message and which types.
-/

namespace Verif.BackendOp

open Verif.Generic

/-- `QTypeConstraint`: the placeholders of the predicate, the predicate, and the error message — qtype_inference.h:33-45. -/
structure Constraint (T : Type) where
  uses : List Nat
  pred : (Nat → T) → List T → Bool
  message : Nat

/-- The inference expression: its placeholders and its value. -/
structure OutExpr (T : Type) where
  uses : List Nat
  value : (Nat → T) → List T → T

/-- What the inference gives: a type, no type yet, or one of the errors. -/
inductive Outcome (T : Type)
  | qtype (t : T)
  | unknown
  | violated (message : Nat) (params : List (Nat × T))
  | noOutput
  | badInput
  | badCount
  deriving DecidableEq

/-- `ExtractParameterQTypes`: the types of the parameters that are known; `none` for the errors — parameter_qtypes.cc:58-83. -/
def extract {T : Type} [DecidableEq T] (nothing : T) (tuple : List T → T) : List Param → List T → Option (List (Nat × T))
  | [], [] => some []
  | [], _ :: _ => none
  | ⟨n, true⟩ :: ps, inputs =>
    (extract nothing tuple ps []).map fun r => if inputs.any (fun t => t = nothing) then r else (n, tuple inputs) :: r
  | ⟨_, false⟩ :: _, [] => none
  | ⟨n, false⟩ :: ps, t :: inputs =>
    (extract nothing tuple ps inputs).map fun r => if t = nothing then r else (n, t) :: r

/-- The fields of the tuple of a resolved expression: the readiness and the value — qtype_inference.cc:62-71. -/
def Constraint.eval {T : Type} [DecidableEq T] (nothing : T) (tuple : List T → T) (sig : List Param) (c : Constraint T) (seq : List T) : Bool × Bool :=
  let r := parseOp nothing tuple (patternOf c.uses sig) seq
  (r.1, c.pred (envOf nothing c.uses sig r.2) seq)

/-- The same for the inference expression — qtype_inference.cc:72-81. -/
def OutExpr.eval {T : Type} [DecidableEq T] (nothing : T) (tuple : List T → T) (sig : List Param) (o : OutExpr T) (seq : List T) : Bool × T :=
  let r := parseOp nothing tuple (patternOf o.uses sig) seq
  (r.1, o.value (envOf nothing o.uses sig r.2) seq)

/-- The loop over the constraints: `inr` whether all are ready, or `inl` the message of the one that is not satisfied — qtype_inference.cc:111-128. -/
def constraintLoop (ready : Bool) : List (Nat × Bool × Bool) → Nat ⊕ Bool
  | [] => .inr ready
  | (m, r, c) :: rest =>
    if !r then constraintLoop false rest
    else if !c then .inl m
    else constraintLoop ready rest

/-- `MakeQTypeInferenceFn`: the function it returns — qtype_inference.cc:103-144. -/
def inferFn {T : Type} [DecidableEq T] (nothing : T) (tuple : List T → T) (sig : List Param) (cs : List (Constraint T)) (out : OutExpr T)
    (seq : List T) : Outcome T :=
  match constraintLoop true (cs.map fun c => (c.message, c.eval nothing tuple sig seq)) with
  | .inl m =>
    match extract nothing tuple sig seq with
    | none => .badCount
    | some params => .violated m params
  | .inr ready =>
    let o := out.eval nothing tuple sig seq
    if !(ready && o.1) then .unknown
    else if o.2 = nothing then .noOutput
    else .qtype o.2

/-- `ValidateDepsCount` — expr_operator_signature.cc:205-220. -/
def validCount (sig : List Param) (n : Nat) : Bool :=
  let variadic := (sig.getLast?.map (·.variadic)).getD false
  let required := if variadic then sig.length - 1 else sig.length
  !(n < required || (!variadic && n > required))

/-- `BackendOperator::InferAttributes` — backend_operator.cc:111-118. -/
def inferAttributes {T : Type} [DecidableEq T] (nothing : T) (tuple : List T → T) (sig : List Param) (cs : List (Constraint T)) (out : OutExpr T)
    (inputs : List (Option T)) : Outcome T :=
  if !validCount sig inputs.length then .badCount
  else match makeSeq nothing inputs with
    | none => .badInput
    | some seq => inferFn nothing tuple sig cs out seq

/-- `RestrictedLambdaOperator::InferAttributes`; `base` is that of the lambda operator, `unit` is the literal given as the inference expression —
restricted_lambda_operator.cc:123-138, 83-86. -/
def restrictedAttributes {T : Type} [DecidableEq T] (nothing unit : T) (tuple : List T → T) (sig : List Param) (cs : List (Constraint T))
    (base : List (Option T) → Outcome T) (inputs : List (Option T)) : Outcome T :=
  if !validCount sig inputs.length then .badCount
  else match makeSeq nothing inputs with
    | none => .badInput
    | some seq =>
      match inferFn nothing tuple sig cs ⟨[], fun _ _ => unit⟩ seq with
      | .qtype _ => base inputs
      | other => other

/-- The placeholders that are not parameters — backend_operator.cc:55-72. -/
def undefinedNames {T : Type} (sig : List Param) (cs : List (Constraint T)) (out : OutExpr T) : List Nat :=
  (cs.flatMap (·.uses) ++ out.uses).filter fun n => !(sig.map (·.name)).contains n

/-- `BackendOperator::Make` for a valid signature succeeds — backend_operator.cc:53-82. -/
def makeOk {T : Type} (sig : List Param) (cs : List (Constraint T)) (out : OutExpr T) : Bool := (undefinedNames sig cs out).isEmpty

end Verif.BackendOp
