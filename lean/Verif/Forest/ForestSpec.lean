import Verif.Forest.ForestModel

/-!
# Specification of decision trees

Independent of the evaluation functions: following the conditions to a leaf (`Path`), what it means to be acyclic or a
proper tree, the finite binary tree described by a list of split nodes (`Denotes`).
-/

namespace Verif.Forest

/-- Following the split conditions from `r` one ends at the adjustment `i`. -/
inductive Path {C A : Type} (ev : C → Bool) (t : Tree C A) : Ref → Nat → Prop
  | leaf (i : Nat) : Path ev t (.leaf i) i
  | yes {k : Nat} {n : SplitNode C} {i : Nat} :
      t.splits[k]? = some n → ev n.cond = true → Path ev t n.ifTrue i → Path ev t (.split k) i
  | no {k : Nat} {n : SplitNode C} {i : Nat} :
      t.splits[k]? = some n → ev n.cond = false → Path ev t n.ifFalse i → Path ev t (.split k) i

/-- Split node `j` is a child of split node `k`. -/
def Child {C A : Type} (t : Tree C A) (k j : Nat) : Prop :=
  ∃ n, t.splits[k]? = some n ∧ (n.ifFalse = .split j ∨ n.ifTrue = .split j)

/-- Split node `j` is a descendant of split node `k` (at least one step). -/
inductive Below {C A : Type} (t : Tree C A) : Nat → Nat → Prop
  | child {k j : Nat} : Child t k j → Below t k j
  | step {k j l : Nat} : Below t k j → Child t j l → Below t k l

/-- No split node which is the root or a descendant of the root is its own descendant. -/
def Acyclic {C A : Type} (t : Tree C A) : Prop :=
  ¬ Below t 0 0 ∧ ∀ k, Below t 0 k → ¬ Below t k k

/-- What `FromTrees` has to check for one tree. -/
structure WellFormed {C A : Type} (t : Tree C A) : Prop where
  submodel : 0 ≤ t.tag.submodel
  step : 0 ≤ t.tag.step
  regions : t.adjustments.length = t.splits.length + 1
  leaf : ∀ n ∈ t.splits, ∀ i, (n.ifFalse = .leaf i ∨ n.ifTrue = .leaf i) → i < t.adjustments.length
  split : ∀ n ∈ t.splits, ∀ i, (n.ifFalse = .split i ∨ n.ifTrue = .split i) → i < t.splits.length

/-- Input `id` is used with type `q` somewhere in the trees. -/
def Uses {C A Q : Type} (sig : C → List (Nat × Q)) (trees : List (Tree C A)) (id : Nat) (q : Q) : Prop :=
  ∃ t ∈ trees, ∃ n ∈ t.splits, (id, q) ∈ sig n.cond

/-- Which trees a filter selects. -/
def Filter.Selects (f : Filter) (tag : Tag) : Prop :=
  f.stepFrom ≤ tag.step ∧ (f.stepTo = -1 ∨ tag.step < f.stepTo) ∧ (f.submodels = [] ∨ tag.submodel ∈ f.submodels)

/-- `res` is the accumulated sum of the adjustments selected by the conditions in the trees which the filter selects, in
the order of the trees. -/
inductive Sums {C A M : Type} (add : M → A → A → M) (ev : C → Bool) (filter : Filter) :
    List (Tree C A) → M → M → Prop
  | nil (acc : M) : Sums add ev filter [] acc acc
  | skip {t : Tree C A} {rest : List (Tree C A)} {acc res : M} :
      ¬ filter.Selects t.tag → Sums add ev filter rest acc res → Sums add ev filter (t :: rest) acc res
  | take {t : Tree C A} {rest : List (Tree C A)} {acc res : M} {i : Nat} {a : A} :
      filter.Selects t.tag → Path ev t t.root i → t.adjustments[i]? = some a →
      Sums add ev filter rest (add acc a t.weight) res → Sums add ev filter (t :: rest) acc res

/-- A finite binary tree with conditions in the inner nodes. -/
inductive BT (C A : Type) where
  | leaf (a : A)
  | node (c : C) (ifFalse ifTrue : BT C A)

/-- The leaf chosen by the conditions. -/
def BT.eval {C A : Type} (ev : C → Bool) : BT C A → A
  | .leaf a => a
  | .node c f t => if ev c then t.eval ev else f.eval ev

/-- The leaves from left (false) to right (true). -/
def BT.leaves {C A : Type} : BT C A → List A
  | .leaf a => [a]
  | .node _ f t => f.leaves ++ t.leaves

/-- The conditions of a tree. -/
def BT.conds {C A : Type} : BT C A → List C
  | .leaf _ => []
  | .node c f t => c :: (f.conds ++ t.conds)

/-- The part of `t` below `r` is the finite binary tree `b`. -/
inductive Denotes {C A : Type} (t : Tree C A) : Ref → BT C A → Prop
  | leaf {i : Nat} {a : A} : t.adjustments[i]? = some a → Denotes t (.leaf i) (.leaf a)
  | node {k : Nat} {n : SplitNode C} {f g : BT C A} :
      t.splits[k]? = some n → Denotes t n.ifFalse f → Denotes t n.ifTrue g →
      Denotes t (.split k) (.node n.cond f g)

/-- All references to children in a tree. -/
def Tree.childRefs {C A : Type} (t : Tree C A) : List Ref := t.splits.flatMap fun n => [n.ifTrue, n.ifFalse]

/-- A proper tree: every node is the child of at most one node (and only once), the root of none. -/
structure Proper {C A : Type} (t : Tree C A) : Prop extends WellFormed t where
  once : t.childRefs.Nodup
  root : t.root ∉ t.childRefs

end Verif.Forest
