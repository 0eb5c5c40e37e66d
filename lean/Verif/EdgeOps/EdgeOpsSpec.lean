import Verif.Edge.EdgeSpec

/-!
# Specification of the edge operators

Groups are described by the list of their sizes; no split points appear here.
-/

namespace Verif.EdgeOps
open Verif.Dense Verif.Edge

/-- The parents of the children, in order, when group `i + k` has `ns[k]` children. -/
def ownersFrom : Nat → List Nat → List Nat
  | _, [] => []
  | i, n :: ns => List.replicate n i ++ ownersFrom (i + 1) ns

/-- The parents of the children for groups of sizes `ns`. -/
def owners (ns : List Nat) : List Nat := ownersFrom 0 ns

/-- The children of every group, numbered from `b`. -/
def groupsFrom : Nat → List Nat → List (List Nat)
  | _, [] => []
  | b, n :: ns => List.range' b n :: groupsFrom (b + n) ns

/-- The pairs of children of the same group, in lexicographic order. -/
def pairs (ns : List Nat) : List (Nat × Nat) :=
  (groupsFrom 0 ns).flatMap (fun g => g.flatMap (fun x => g.map (fun y => (x, y))))

/-- The array holds exactly the natural numbers `ns`. -/
def Holds (a : DArr Int) (ns : List Nat) : Prop := elems a = ns.map (fun (n : Nat) => some (n : Int))

/-- `n` rows of `e` belong to row `p`. -/
def HasChildren (e : Edge) (p n : Nat) : Prop :=
  ∃ cs : List Nat, cs.Nodup ∧ (∀ c, c ∈ cs ↔ Rel e c p) ∧ cs.length = n

/-- Sum of the squares. -/
def squares (ns : List Nat) : Nat := (ns.map (fun n => n * n)).sum

/-- Row `old` of the old child space has position `new` after resizing the groups of `e` to the
sizes `ns` with the given offsets. -/
def Moved (e : Edge) (ns : List Nat) (offsets : DArr Int) (new old : Nat) : Prop :=
  ∃ g o n : Nat, Rel e old g ∧ elem offsets old = some (o : Int) ∧ ns[g]? = some n ∧ o < n ∧
    new = (ns.take g).sum + o

/-- The offsets are usable: not negative, and different rows get different positions. -/
def OffsetsOk (e : Edge) (ns : List Nat) (offsets : DArr Int) : Prop :=
  (∀ i v, elem offsets i = some v → 0 ≤ v) ∧
  ∀ new old old', Moved e ns offsets new old → Moved e ns offsets new old' → old = old'

end Verif.EdgeOps
