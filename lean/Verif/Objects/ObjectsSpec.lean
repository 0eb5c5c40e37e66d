import Verif.Objects.ObjectsModel

/-!
# What objects are

The attributes of an object and of its prototypes.
-/

namespace Verif.Objects

variable {κ V : Type}

/-- The items of the attributes of the object, of its prototype, of the prototype of that, and so on. -/
def Object.chain : Object κ V → List (List (κ × V))
  | .null => [[]]
  | .impl a none => [a]
  | .impl a (some p) => a :: p.chain

/-- The attributes as relations: `levels[i] (k, v)` if `v` is the attribute `k` of the `i`-th object of the chain. -/
def Object.levels (o : Object κ V) : List (κ × V → Prop) := o.chain.map fun a x => x ∈ a

/-- The names of the attributes of each object of the chain are different. -/
def Object.Valid (o : Object κ V) : Prop := ∀ a ∈ o.chain, (a.map (·.1)).Nodup

/-- `sort` sorts items by their keys. -/
def Sorts [LinearOrder κ] (sort : List (κ × V) → List (κ × V)) : Prop :=
  ∀ l, (sort l).Perm l ∧ (sort l).Pairwise fun a b => a.1 ≤ b.1

end Verif.Objects
