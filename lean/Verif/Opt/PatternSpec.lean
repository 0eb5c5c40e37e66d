import Verif.Opt.PatternModel
import Verif.Expr.ExprSpec

/-!
# What it means to match a pattern
-/

namespace Verif.Opt
open Verif.Expr
variable {O V A E N : Type}

/-- `φ` sends every subexpression of the pattern to the subexpression it stands for: a literal to itself, an operator node to
an operator node of the same display name whose arguments are the images of the arguments. -/
def Instance (name : O → N) (src : Expr O V A) (φ : Expr O V A → Expr O V A) : Prop :=
  ∀ s, Sub s src →
    match s.label with
    | .literal _ => φ s = s
    | .op o => ∃ o', (φ s).label = .op o' ∧ name o' = name o ∧ (φ s).deps = s.deps.map φ
    | _ => True

/-- The nodes standing for placeholders satisfy the matchers. -/
def MatchersOk (src : Expr O V A) (m : List Nat → Option (Expr O V A → Bool)) (φ : Expr O V A → Expr O V A) : Prop :=
  ∀ s k p, Sub s src → s.label = .placeholder k → m k = some p → p (φ s) = true

/-- `root` is an instance of the pattern. -/
def Matches (name : O → N) (m : List Nat → Option (Expr O V A → Bool)) (src root : Expr O V A)
    (φ : Expr O V A → Expr O V A) : Prop :=
  Instance name src φ ∧ MatchersOk src m φ ∧ φ src = root

/-- Whether a node is a placeholder. -/
def isPlaceholder : Label O V → Bool
  | .placeholder _ => true
  | _ => false

mutual
/-- Whether a placeholder occurs. -/
def hasPlaceholder : Expr O V A → Bool
  | .mk l _ ds => isPlaceholder l || hasPlaceholders ds
/-- The same for lists. -/
def hasPlaceholders : List (Expr O V A) → Bool
  | [] => false
  | d :: ds => hasPlaceholder d || hasPlaceholders ds
end

/-- The node of the right-hand side of a rule with the placeholders replaced, from those of the dependencies: nodes without
placeholders are kept, the others are constructed anew. -/
def instNode (G : Lang O V A E) (σ : List Nat → Expr O V A) (n : Expr O V A) (args : List (Expr O V A)) : Except E (Expr O V A) :=
  match n.label with
  | .placeholder k => .ok (σ k)
  | .op o => if hasPlaceholder n then G.mkOp o args else .ok n
  | _ => .ok n

/-- The right-hand side of the rule with the placeholders replaced. -/
def instTo (G : Lang O V A E) (σ : List Nat → Expr O V A) (t : Expr O V A) : Except E (Expr O V A) :=
  fold (instNode G σ) t

/-- A node with its operator replaced, if it is a reference to a registered operator. -/
def resolved (G : Lang O V A E) (resolve : O → Option O) (n : Expr O V A) : Expr O V A :=
  match n.label with
  | .op o => (resolve o).elim n (fun o' => .mk (.op o') G.noAttr n.deps)
  | _ => n

/-- References to registered operators become registered operators; the other nodes are rebuilt if an argument changed. -/
def resolveRefs [DecidableEq O] [DecidableEq V] [DecidableEq A] (G : Lang O V A E) (resolve : O → Option O) (t : Expr O V A) :
    Except E (Expr O V A) :=
  fold (transformNode G (fun n => .ok (resolved G resolve n))) t

end Verif.Opt
