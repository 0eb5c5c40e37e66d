import Verif.Cfg.CfgModel

/-! # Specification: paths, dominators, ancestors in a tree -/

namespace Verif.Cfg

/-- `b` is a dependency of `a`. -/
def Edge (g : Cfg) (a b : Nat) : Prop := ∃ ds, g.deps[a]? = some ds ∧ b ∈ ds

/-- `l` lists the nodes of a path from the entry `0` to `b`, last node first. -/
inductive Path (g : Cfg) : Nat → List Nat → Prop
  | start : Path g 0 [0]
  | step {a b : Nat} {l : List Nat} : Path g a l → Edge g a b → Path g b (b :: l)

/-- `b` can be reached from `a`. -/
inductive Reach (g : Cfg) (a : Nat) : Nat → Prop
  | refl : Reach g a a
  | step {b c : Nat} : Reach g a b → Edge g b c → Reach g a c

/-- `a` dominates `b`: it lies on every path from the entry to `b`. -/
def Dom (g : Cfg) (a b : Nat) : Prop := ∀ l, Path g b l → a ∈ l

/-- `p` is the immediate dominator of `b`: the strict dominator dominated by all the others. -/
def IDom (g : Cfg) (p b : Nat) : Prop :=
  p ≠ b ∧ Dom g p b ∧ ∀ a, Dom g a b → a ≠ b → Dom g a p

/-- `a` is `b` or one of its ancestors in the tree. -/
inductive Anc (t : DTree) (a : Nat) : Nat → Prop
  | refl : Anc t a a
  | up {b p : Nat} : b ≠ 0 → t.parent[b]? = some p → Anc t a p → Anc t a b

/-- Graphs which `Create` is meant to accept. -/
def WellFormed (deps : List (List Int)) : Prop :=
  deps ≠ [] ∧
  (∀ (i : Nat) ds d, deps[i]? = some ds → d ∈ ds → (i : Int) < d ∧ d < deps.length) ∧
  (∀ j : Nat, 0 < j → j < deps.length → ∃ (i : Nat) (ds : List Int), deps[i]? = some ds ∧ (j : Int) ∈ ds)

end Verif.Cfg
