import Verif.Expr.ExprModel

/-!
# What traversals mean, on trees
-/

namespace Verif.Expr
variable {O V A E T : Type}

/-- `Sub m n`: `m` is `n` or occurs in it. -/
inductive Sub : Expr O V A → Expr O V A → Prop
  | refl (n : Expr O V A) : Sub n n
  | dep {m d n : Expr O V A} : Sub m d → d ∈ n.deps → Sub m n

/-- Nodes as they are constructed by the factory functions of `ExprNode` and `MakeOpNode`. -/
inductive WF (G : Lang O V A E) : Expr O V A → Prop
  | leaf (k : List Nat) : WF G (.mk (.leaf k) G.noAttr [])
  | placeholder (k : List Nat) : WF G (.mk (.placeholder k) G.noAttr [])
  | literal (v : V) : WF G (.mk (.literal v) (G.litAttr v) [])
  | op (o : O) (a : A) (ds : List (Expr O V A)) : (∀ d ∈ ds, WF G d) → G.infer o (ds.map Expr.attr) = .ok a →
      WF G (.mk (.op o) a ds)

mutual
/-- The recursive definition of a bottom-up computation: the dependencies from left to right, then the node. -/
def fold (visitor : Expr O V A → List T → Except E T) : Expr O V A → Except E T
  | .mk l a ds => do
    let args ← folds visitor ds
    visitor (.mk l a ds) args
/-- The same for lists. -/
def folds (visitor : Expr O V A → List T → Except E T) : List (Expr O V A) → Except E (List T)
  | [] => .ok []
  | d :: ds => do
    let x ← fold visitor d
    let xs ← folds visitor ds
    .ok (x :: xs)
end

/-- The recursive definition of `Transform`: transform the dependencies, rebuild the node if they changed, apply `fn`. -/
def transformNode [DecidableEq O] [DecidableEq V] [DecidableEq A] (G : Lang O V A E)
    (fn : Expr O V A → Except E (Expr O V A)) (n : Expr O V A) (ds : List (Expr O V A)) : Except E (Expr O V A) :=
  match n.label with
  | .op o => if ds = n.deps then fn n else (G.mkOp o ds).bind fn
  | _ => fn n

end Verif.Expr
