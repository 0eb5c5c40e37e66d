import Verif.Expr.ExprSpec
import Verif.Lambda.LambdaModel

/-!
# Specification of lambda operators: simultaneous substitution
-/

namespace Verif.Lambda
open Verif.Expr
variable {O V Q E T : Type}

/-- The argument bound to a parameter; a variadic last parameter gets the tuple of the remaining arguments. -/
def argOf (params : List (List Nat)) (variadic : Bool) (tuple : List T → T) (args : List T) (key : List Nat) : Option T :=
  if key ∉ params then none
  else if variadic = true ∧ params.idxOf key + 1 = params.length then some (tuple (args.drop (params.length - 1)))
  else args[params.idxOf key]?

/-- The number of arguments fits the parameters. -/
def Fits (params : List (List Nat)) (variadic : Bool) (count : Nat) : Prop :=
  if variadic then params.length ≤ count + 1 else count = params.length

/-- Replace the placeholders bound by `σ`, rebuilding operator nodes with `MakeOpNode`, dependencies first. -/
def substVisitor (G : Lang O V (Attr Q V) E) (σ : List Nat → Option (Node O V Q)) (n : Node O V Q)
    (deps : List (Node O V Q)) : Except E (Node O V Q) :=
  match n.label with
  | .placeholder k => .ok ((σ k).getD n)
  | .op o => G.mkOp o deps
  | _ => .ok n

/-- The body with the placeholders replaced. -/
def subst (G : Lang O V (Attr Q V) E) (σ : List Nat → Option (Node O V Q)) (body : Node O V Q) : Except E (Node O V Q) :=
  fold (substVisitor G σ) body

/-- `b` is known more precisely than `a`. -/
def Refines (a b : Attr Q V) : Prop :=
  (∀ q, a.qtype = some q → b.qtype = some q) ∧ ∀ w, a.qvalue = some w → b.qvalue = some w

/-- What `InferAttributes` of operators is required to satisfy: placeholders have no attributes, literals have a value, tuples can
always be made, and more knowledge about the arguments gives more knowledge about the result and keeps a known result. -/
structure Laws (G : Lang O V (Attr Q V) E) (tupleOp : O) (tupleAttr : List (Attr Q V) → Attr Q V) : Prop where
  noAttr : G.noAttr = ⟨none, none⟩
  lit : ∀ v, (G.litAttr v).qvalue.isSome = true
  tuple : ∀ as, G.infer tupleOp as = .ok (tupleAttr as)
  mono : ∀ o as as' a a', List.Forall₂ Refines as as' → G.infer o as = .ok a → G.infer o as' = .ok a' → Refines a a'
  stable : ∀ o as as' a, List.Forall₂ Refines as as' → G.infer o as = .ok a → a.qvalue.isSome = true →
    G.infer o as' = .ok a

mutual
/-- The value of an expression: `I` are the operators, `leaf` and `ph` the values of leaves and placeholders. -/
def eval (I : O → List T → T) (lit : V → T) (leaf ph : List Nat → T) : Node O V Q → T
  | .mk (.leaf k) _ _ => leaf k
  | .mk (.placeholder k) _ _ => ph k
  | .mk (.literal v) _ _ => lit v
  | .mk (.op o) _ ds => I o (evals I lit leaf ph ds)
/-- The same for lists. -/
def evals (I : O → List T → T) (lit : V → T) (leaf ph : List Nat → T) : List (Node O V Q) → List T
  | [] => []
  | d :: ds => eval I lit leaf ph d :: evals I lit leaf ph ds
end

end Verif.Lambda
