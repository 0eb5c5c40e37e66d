import Verif.Where.ExtractModel

/-! # What extraction means, without the traversal -/

namespace Verif.Where
open Verif.Expr

variable {O V A E : Type}

/-- The nodes the extraction looks at: the root, and the dependencies of the nodes that go into the lambda. -/
inductive Reached (keep : Expr O V A → Option (Except E Bool)) (root : Expr O V A) : Expr O V A → Prop
  | root : Reached keep root root
  | dep {n d : Expr O V A} : Reached keep root n → keep n = some (.ok true) → d ∈ n.deps → Reached keep root d

/-- `Rep G keep args n m`: the node `m` of the body stands for the node `n`.  A node outside of the lambda is the placeholder
of its argument; a node inside is rebuilt with what stands for its dependencies. -/
inductive Rep [DecidableEq O] [DecidableEq V] [DecidableEq A] (G : Lang O V A E)
    (keep : Expr O V A → Option (Except E Bool)) (args : List (Expr O V A)) : Expr O V A → Expr O V A → Prop
  | arg {n : Expr O V A} {i : Nat} : keep n = some (.ok false) → args[i]? = some n →
      Rep G keep args n (.mk (.placeholder (phKey i)) G.noAttr [])
  | node {n m : Expr O V A} {ds : List (Expr O V A)} : keep n = some (.ok true) → ds.length = n.deps.length →
      (∀ (i : Nat) (d x : Expr O V A), n.deps[i]? = some d → ds[i]? = some x → Rep G keep args d x) →
      G.withNewDeps n ds = .ok m → Rep G keep args n m

/-- The errors of an extraction: of the predicate on a reached node, or of attribute inference for a rebuilt node. -/
def ErrorOf [DecidableEq O] [DecidableEq V] [DecidableEq A] (G : Lang O V A E)
    (keep : Expr O V A → Option (Except E Bool)) (root : Expr O V A) (e : E) : Prop :=
  (∃ n, Reached keep root n ∧ keep n = some (.error e)) ∨
  (∃ n ds args, Reached keep root n ∧ keep n = some (.ok true) ∧ ds.length = n.deps.length ∧
    (∀ (i : Nat) (d x : Expr O V A), n.deps[i]? = some d → ds[i]? = some x → Rep G keep args d x) ∧
    G.withNewDeps n ds = .error e)

end Verif.Where
