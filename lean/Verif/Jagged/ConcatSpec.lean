import Verif.Jagged.ConcatModel
import Verif.Jagged.ShapeSpec
import Verif.Dense.DenseSpec
import Verif.Arr.ArraySpec

/-!
# Specification of concatenation and stacking

A jagged array of rank `k` is a tree of depth `k`: the shape cuts the flat sequence of values into rows,
rows of rows and so on.  `concatAt` and `stackAt` define the operations on trees.
-/

namespace Verif.Jagged
open Verif.Dense Verif.Edge

/-- Nested lists. -/
inductive Tree (β : Type) where
  | leaf (x : β)
  | node (ts : List (Tree β))

/-- The rows of a tree. -/
def Tree.children {β : Type} : Tree β → List (Tree β)
  | .leaf _ => []
  | .node ts => ts

/-- Cut a list into consecutive pieces of the given lengths. -/
def chunk {β : Type} : List Nat → List β → List (List β)
  | [], _ => []
  | n :: ns, xs => xs.take n :: chunk ns (xs.drop n)

/-- Sizes of the rows of an edge given by split points. -/
def sizes (e : Edge) : List Nat :=
  List.zipWith (fun a b => (b - a).toNat) e.values.values e.values.values.tail

/-- The rows of the outermost dimension: values cut by the innermost sizes, the results cut by the next
ones and so on. -/
def forest {β : Type} : List (List Nat) → List β → List (Tree β)
  | [], xs => xs.map .leaf
  | l :: ls, xs => (chunk l (forest ls xs)).map .node

/-- The jagged array with shape `s` and values `xs`. -/
def tree {β : Type} (s : Shape) (xs : List β) : Tree β := (forest (s.map sizes) xs).headD (.node [])

/-- Apply `f` to the `i`-th elements of all lists, for every `i`. -/
def zipRows {β γ : Type} (f : List β → γ) (ls : List (List β)) : List γ :=
  (List.range (ls.headD []).length).map (fun i => f (ls.filterMap (·[i]?)))

/-- Concatenation along dimension `d`. -/
def concatAt {β : Type} : Nat → List (Tree β) → Tree β
  | 0, ts => .node (ts.flatMap Tree.children)
  | d + 1, ts => .node (zipRows (concatAt d) (ts.map Tree.children))

/-- Stacking along a new dimension `d`. -/
def stackAt {β : Type} : Nat → List (Tree β) → Tree β
  | 0, ts => .node ts
  | d + 1, ts => .node (zipRows (stackAt d) (ts.map Tree.children))

/-- The inputs can be combined along dimension `dim`: the dimension exists, all ranks are equal, and all
shapes agree on the dimensions before it. -/
def Combinable (insert : Bool) (shapes : List Shape) (dim : Int) : Prop :=
  ∃ first rest, shapes = first :: rest ∧ 0 ≤ dim ∧
    dim < (first.length : Int) + (if insert then 1 else 0) ∧
    ∀ s ∈ rest, s.length = first.length ∧ SameShape (first.take dim.toNat) (s.take dim.toNat)

/-- All sizes of the result fit into 64 bits. -/
def SizesFit (insert : Bool) (shapes : List Shape) (dim : Nat) : Prop :=
  (∀ k, dim ≤ k → (shapes.map (fun s => rows s (k + 1))).sum ≤ maxI64) ∧
  (insert = true → ∀ s ∈ shapes, rows s dim < maxI64 ∧ rows s dim * shapes.length ≤ maxI64)

end Verif.Jagged
