/-!
# Model of the type inference of operators that take operators

`arolla/expr/seq_map_expr_operator.cc`, `arolla/expr/seq_reduce_expr_operator.cc`, `arolla/expr/operators/while_loop/while_loop.cc`,
`arolla/expr/operators/meta_operators.cc`, and of `expr_operator_signature.cc` what they call.

* An operator is the default values of its positional parameters, whether it has a variadic one, and its `InferAttributes`.
* `nullptr` that is dereferenced and an element of an empty span are the outcome `crash`.
* The text of an error is not modelled, only which error it is.
-/

namespace Verif.HigherOrder

variable {V E : Type}

/-- A type: `EXPR_OPERATOR`, `OPTIONAL_UNIT`, `SEQUENCE[t]`, or another. -/
inductive Ty
  | base (n : Nat)
  | operator
  | optionalUnit
  | seq (t : Ty)
  deriving DecidableEq

/-- `ExprAttributes`: nothing, a type, or a type and a value — expr_attributes.h:42-123. -/
inductive Attr (V : Type)
  | unknown
  | typed (t : Ty)
  | literal (t : Ty) (v : V)
  deriving DecidableEq

/-- `qtype()`; `nullptr` is `none`. -/
def Attr.ty : Attr V → Option Ty
  | .unknown => none
  | .typed t => some t
  | .literal t _ => some t

/-- `qvalue()`. -/
def Attr.value : Attr V → Option V
  | .literal _ v => some v
  | _ => none

/-- `ExprOperator`: the default values of the positional parameters, whether a variadic one follows, and `InferAttributes`. -/
structure Op (V E : Type) where
  params : List (Option (Ty × V))
  variadic : Bool
  infer : List (Attr V) → Except E (Attr V)

/-- The errors. -/
inductive Err (E : Type)
  | badCount
  | notOperator
  | notLiteral
  | notSequence (i : Nat)
  | notBinary
  | tooMany
  | missing
  | wrongCondition
  | wrongBody
  | wrongResult
  | inner (e : E)
  deriving DecidableEq

/-- What `InferAttributes` does. -/
inductive Outcome (V E : Type)
  | attr (a : Attr V)
  | err (e : Err E)
  | crash
  deriving DecidableEq

/-- `ValidateDepsCount` — expr_operator_signature.cc:205-220. -/
def acceptsCount (params : Nat) (variadic : Bool) (count : Nat) : Bool :=
  !(count < params || (!variadic && count > params))

/-- `BindArguments` without keyword arguments — expr_operator_signature.cc:222-285. -/
def bindArgs : List (Option (Ty × V)) → Bool → List (Attr V) → Except (Err E) (List (Attr V))
  | [], variadic, args => if args.isEmpty || variadic then .ok args else .error .tooMany
  | _ :: ps, variadic, a :: args =>
    match bindArgs ps variadic args with
    | .ok r => .ok (a :: r)
    | .error e => .error e
  | some d :: ps, variadic, [] =>
    match bindArgs ps variadic [] with
    | .ok r => .ok (.literal d.1 d.2 :: r)
    | .error e => .error e
  | none :: _, _, [] => .error .missing

/-- `CallOp`, `BindOp`, `MakeOpNode`: the attributes of the node — expr.cc:97-117, 178-191. -/
def callOp (o : Op V E) (args : List (Attr V)) : Except (Err E) (Attr V) :=
  match bindArgs o.params o.variadic args with
  | .error e => .error e
  | .ok deps =>
    match o.infer deps with
    | .error e => .error (.inner e)
    | .ok a => .ok a

/-- The loop over the sequences: the types of the elements; the number in an error counts from one and includes `op` —
seq_map_expr_operator.cc:80-89. -/
def elementTypes (i : Nat) : List (Attr V) → Except (Err E) (List Ty)
  | [] => .ok []
  | a :: rest =>
    match a.ty with
    | some (.seq t) =>
      match elementTypes (i + 1) rest with
      | .ok ts => .ok (t :: ts)
      | .error e => .error e
    | _ => .error (.notSequence (i + 1))

/-- `GetSequenceQType`; the constructor of the type takes the name of the type of the values — sequence_qtype.cc:39-41, 51-58. -/
def getSequenceQType : Option Ty → Outcome V E
  | none => .crash
  | some t => .attr (.typed (.seq t))

/-- `SeqMapOperator::InferAttributes` — seq_map_expr_operator.cc:65-104; the signature is `op, arg0, *args`, 56-60. -/
def seqMap (asOp : V → Op V E) (inputs : List (Attr V)) : Outcome V E :=
  if !acceptsCount 2 true inputs.length then .err .badCount
  else
  match inputs with
  | [] => .crash
  | op :: args =>
    if op.ty.isSome && op.ty ≠ some .operator then .err .notOperator
    else if op.ty.isSome && op.value.isNone then .err .notLiteral
    else if args.any (fun a => a.ty.isNone) then .attr .unknown
    else
      match elementTypes 1 args with
      | .error e => .err e
      | .ok ts =>
        if op.ty.isNone then .attr .unknown
        else
          match op.value with
          | none => .crash
          | some v =>
            match callOp (asOp v) (ts.map .typed) with
            | .error e => .err e
            | .ok a => getSequenceQType a.ty

/-- `SeqReduceOperator::InferAttributes` — seq_reduce_expr_operator.cc:52-92. -/
def seqReduce (asOp : V → Op V E) : List (Attr V) → Outcome V E
  | [op, seq, initial] =>
    if op.ty.isSome && op.ty ≠ some .operator then .err .notOperator
    else
      match op.ty, seq.ty, initial.ty with
      | _, some (.base _), _ => .err (.notSequence 2)
      | _, some .operator, _ => .err (.notSequence 2)
      | _, some .optionalUnit, _ => .err (.notSequence 2)
      | some _, some (.seq t), some s =>
        match op.value with
        | none => .err .notLiteral
        | some v =>
          if !acceptsCount (asOp v).params.length (asOp v).variadic 2 then .err .notBinary
          else
            match (asOp v).infer [.typed s, .typed t] with
            | .error e => .err (.inner e)
            | .ok a => if a.ty ≠ some s then .err .wrongResult else .attr (.typed s)
      | _, _, some s => .attr (.typed s)
      | _, _, none => .attr .unknown
  | _ => .err .badCount

/-- `WhileLoopOperator`: its signature, the condition and the body — while_loop.h:80-117. -/
structure Loop (V E : Type) where
  params : Nat
  variadic : Bool
  cond : Op V E
  body : Op V E

/-- `WhileLoopOperator::InferAttributes` — while_loop.cc:317-352. -/
def whileLoop (l : Loop V E) (inputs : List (Attr V)) : Outcome V E :=
  if !acceptsCount l.params l.variadic inputs.length then .err .badCount
  else
    match inputs with
    | [] => .crash
    | state :: rest =>
      match state.ty with
      | none => .attr .unknown
      | some t =>
        match l.cond.infer (.typed t :: rest) with
        | .error e => .err (.inner e)
        | .ok c =>
          if c.ty.isSome && c.ty ≠ some .optionalUnit then .err .wrongCondition
          else
            match l.body.infer (.typed t :: rest) with
            | .error e => .err (.inner e)
            | .ok b => if b.ty.isSome && b.ty ≠ some t then .err .wrongBody else .attr (.typed t)

/-- `CoreApplyOp::InferAttributes` — meta_operators.cc:139-158. -/
def coreApply (asOp : V → Op V E) : List (Attr V) → Outcome V E
  | [] => .err .badCount
  | op :: args =>
    match op.ty with
    | none => .attr .unknown
    | some t =>
      if t ≠ .operator then .err .notOperator
      else
        match op.value with
        | none => .err .notLiteral
        | some v =>
          match (asOp v).infer args with
          | .error e => .err (.inner e)
          | .ok a => .attr a

end Verif.HigherOrder
