import Verif.Expr.ExprModel
import Verif.Text.DecodeModel

/-!
# Model of `ExtractLambda` — arolla/expr/eval/expr_utils.cc

The result of the predicate `is_in_lambda` is `none` if the call has undefined behaviour.  The recorder of stack traces is
not modelled.  The final construction of the lambda operator and of its call is modelled up to the operator: the result are
the parameter names, the arguments and the body that are passed to `MakeLambdaOperator` and `MakeOpNode`.
-/

namespace Verif.Where
open Verif.Expr

variable {O V A E : Type}

/-- `Task` — expr_utils.cc:42-47. -/
inductive Task (O V A : Type) where
  | pre (n : Expr O V A)
  | post (n : Expr O V A)

/-- Local variables: `previsited`, `new_nodes`, `lambda_args`, the names in `lambda_signature`, `next_placeholder` —
expr_utils.cc:48-56. -/
structure St (O V A : Type) where
  prev : List (Expr O V A)
  new : List (Expr O V A × Expr O V A)
  args : List (Expr O V A)
  params : List (List Nat)
  next : Nat

/-- `absl::StrCat("_", i)` — expr_utils.cc:84. -/
def phKey (i : Nat) : List Nat := 95 :: Text.intToText i

section
variable [DecidableEq O] [DecidableEq V] [DecidableEq A]

/-- `new_nodes.at(dep->fingerprint())` for all dependencies — expr_utils.cc:92-96; `at` throws for a missing key. -/
def newDeps (m : List (Expr O V A × Expr O V A)) : List (Expr O V A) → Option (List (Expr O V A))
  | [] => some []
  | d :: ds =>
    match lookup m d with
    | none => none
    | some x => (newDeps m ds).map (x :: ·)

/-- A node that stays outside of the lambda — expr_utils.cc:82-90. -/
def outside (G : Lang O V A E) (n : Expr O V A) (s : St O V A) : St O V A :=
  if (lookup s.new n).isSome then s
  else { s with
    new := emplace s.new n (.mk (.placeholder (phKey s.next)) G.noAttr [])
    next := s.next + 1
    args := s.args ++ [n]
    params := s.params ++ [phKey s.next] }

/-- The loop over the tasks — expr_utils.cc:58-104.  The C++ loop has no bound; `extract_spec` shows that the bound used in
`extractLambda` is never reached. -/
def extractLoop (G : Lang O V A E) (keep : Expr O V A → Option (Except E Bool)) :
    Nat → List (Task O V A) → St O V A → Option (Except E (St O V A))
  | _, [], s => some (.ok s)
  | 0, _ :: _, _ => none
  | fuel + 1, .pre n :: ts, s =>
    if n ∈ s.prev then extractLoop G keep fuel ts s
    else match keep n with
      | none => none
      | some (.error e) => some (.error e)
      | some (.ok true) =>
        extractLoop G keep fuel (n.deps.map Task.pre ++ Task.post n :: ts) { s with prev := n :: s.prev }
      | some (.ok false) => extractLoop G keep fuel ts (outside G n { s with prev := n :: s.prev })
  | fuel + 1, .post n :: ts, s =>
    match newDeps s.new n.deps with
    | none => none
    | some ds =>
      match G.withNewDeps n ds with
      | .error e => some (.error e)
      | .ok m => extractLoop G keep fuel ts { s with new := emplace s.new n m }

/-- What is passed to `MakeLambdaOperator` (parameter names, body) and to `MakeOpNode` (arguments). -/
structure Extracted (O V A : Type) where
  params : List (List Nat)
  args : List (Expr O V A)
  body : Expr O V A

/-- `ExtractLambda` — expr_utils.cc:38-115. -/
def extractLambda (G : Lang O V A E) (root : Expr O V A) (keep : Expr O V A → Option (Except E Bool)) :
    Option (Except E (Extracted O V A)) :=
  match extractLoop G keep (2 * root.size) [.pre root] ⟨[], [], [], [], 0⟩ with
  | none => none
  | some (.error e) => some (.error e)
  | some (.ok s) =>
    match lookup s.new root with
    | none => none
    | some body => some (.ok ⟨s.params, s.args, body⟩)

end
end Verif.Where
