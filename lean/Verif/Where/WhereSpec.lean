import Verif.Where.WhereModel
import Verif.Expr.ExprSpec

/-! # Spec: which nodes are only used by a branch -/

namespace Verif.Where
open Verif.Expr

variable {O V A : Type}

/-- `Walk root n l`: going from the root to a dependency again and again leads to `n`; `l` are the nodes on the way, `n`
first. -/
inductive Walk (root : Expr O V A) : Expr O V A → List (Expr O V A) → Prop
  | root : Walk root root [root]
  | step {m d : Expr O V A} {l : List (Expr O V A)} : Walk root m l → d ∈ m.deps → Walk root d (d :: l)

/-- Every use of `n` in the expression is inside of `b` (or `n` is `b`). -/
def OnlyIn (root b n : Expr O V A) : Prop := ∀ l, Walk root n l → b ∈ l

/-- The node `w` uses `b` once, and no other node uses it. -/
def UsedOnceBy [DecidableEq O] [DecidableEq V] [DecidableEq A] (root b w : Expr O V A) : Prop :=
  Sub w root ∧ w.deps.count b = 1 ∧ ∀ m, Sub m root → b ∈ m.deps → m = w

/-- An operator (or placeholder) that is not an annotation: what can be taken into a lambda. -/
def Plain [DecidableEq O] [DecidableEq V] [DecidableEq A] {E : Type} (anno : O → Except E Bool) (n : Expr O V A) : Prop :=
  isAnnotation anno n = .ok false ∧ (∀ k, n.label ≠ .leaf k) ∧ ∀ v, n.label ≠ .literal v

/-- Different nodes are transformed to different nodes, and no node is transformed to another node of the original
expression. -/
def NoMerge [DecidableEq O] [DecidableEq V] [DecidableEq A] (nodes results : List (Expr O V A)) : Prop :=
  ∀ (j k : Nat) r, results[j]? = some r → results[k]? = some r ∨ nodes[k]? = some r → j = k

end Verif.Where
