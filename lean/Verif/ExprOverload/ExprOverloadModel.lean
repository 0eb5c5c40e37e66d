/-!
# Model of `OverloadedOperator`

`arolla/expr/overloaded_expr_operator.cc`.  Types, values and nodes are of any types; a base operator is a number and its `InferAttributes`.
-/

namespace Verif.ExprOverload

variable {Q V N : Type}

/-- `ExprAttributes`. -/
structure Attr (Q V : Type) where
  qtype : Option Q
  qvalue : Option V
  deriving DecidableEq

def Attr.empty : Attr Q V := ⟨none, none⟩

/-- A status that is not ok: whether it is `InvalidArgument`, and which it is. -/
inductive Err
  | invalidArgument
  | other (code : Nat)
  deriving DecidableEq

structure BaseOp (Q V : Type) where
  id : Nat
  infer : List (Attr Q V) → Except Err (Attr Q V)

/-- `OverloadedOperator::LookupImpl` — overloaded_expr_operator.cc:114-141. -/
def lookupImpl : List (BaseOp Q V) → List (Attr Q V) → Except Err (Option Nat × Attr Q V)
  | [], _ => .error .invalidArgument
  | op :: rest, inputs =>
    match op.infer inputs with
    | .error .invalidArgument => lookupImpl rest inputs
    | .error e => .error e
    | .ok attr =>
      match attr.qtype with
      | none => .ok (none, Attr.empty)
      | some _ => .ok (some op.id, attr)

/-- `LookupOp` — overloaded_expr_operator.cc:77-84. -/
def lookupOp (ops : List (BaseOp Q V)) (inputs : List (Attr Q V)) : Except Err (Option Nat) :=
  match lookupImpl ops inputs with
  | .error e => .error e
  | .ok (op, _) => .ok op

/-- `InferAttributes` — overloaded_expr_operator.cc:86-93. -/
def inferAttributes (ops : List (BaseOp Q V)) (inputs : List (Attr Q V)) : Except Err (Attr Q V) :=
  match lookupImpl ops inputs with
  | .error e => .error e
  | .ok (_, attr) => .ok attr

/-- A node that applies an operator: the operator (`none` is the overloaded operator itself), the dependencies with their attributes, and its
attributes. -/
structure Node (Q V N : Type) where
  op : Option Nat
  deps : List (N × Attr Q V)
  attr : Attr Q V

/-- `ToLowerLevel` — overloaded_expr_operator.cc:95-112. -/
def toLowerLevel (ops : List (BaseOp Q V)) (node : Node Q V N) : Except Err (Node Q V N) :=
  match lookupImpl ops (node.deps.map Prod.snd) with
  | .error e => .error e
  | .ok (none, _) => .ok node
  | .ok (some op, attr) => .ok ⟨some op, node.deps, attr⟩

end Verif.ExprOverload
