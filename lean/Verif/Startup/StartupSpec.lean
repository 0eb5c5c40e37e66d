import Verif.Startup.StartupModel
import Mathlib.Logic.Relation

/-!
# Specification of the order of initializers
-/

namespace Verif.Startup
open Relation

/-- Initializer `i` has to be executed before initializer `j`: `j` names it as a dependency, or it names
`j` as a reverse dependency, or both mention a common (phony) name. -/
def Before (inits : List Init) (i j : Nat) : Prop :=
  ∃ x y, inits[i]? = some x ∧ inits[j]? = some y ∧
    ((x.name ≠ "" ∧ x.name ∈ y.deps) ∨ (y.name ≠ "" ∧ y.name ∈ x.rdeps) ∨
      ∃ p, p ≠ "" ∧ p ∈ y.deps ∧ p ∈ x.rdeps)

/-- The names of the initializers are unique and not phony, nothing has to be executed before an
initializer of an earlier run, all dependencies are defined, and the order is not circular. -/
structure Acceptable (completed : List String) (inits : List Init) : Prop where
  notPhony : ∀ x ∈ inits, isPhony x.name = false
  isNew : ∀ x ∈ inits, x.name ∉ completed
  unique : ∀ (i j : Nat) (x y : Init), inits[i]? = some x → inits[j]? = some y → x.name = y.name →
    x.name ≠ "" → i = j
  reverse : ∀ x ∈ inits, ∀ r ∈ x.rdeps, r ∉ completed
  defined : ∀ x ∈ inits, ∀ d ∈ x.deps, d ∈ completed ∨ isPhony d = true ∨
    (d ≠ "" ∧ ∃ y ∈ inits, y.name = d)
  acyclic : ∀ i, ¬ TransGen (Before inits) i i

/-- What holds of `previously_completed_`. -/
def CompletedOk (completed : List String) : Prop := "" ∉ completed ∧ ∀ n ∈ completed, isPhony n = false

end Verif.Startup
