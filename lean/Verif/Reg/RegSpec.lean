import Verif.Reg.RegModel

/-! # Specification of the registry: namespaces and histories -/

namespace Verif.Reg

/-- `m` is the name `n`, the root or a namespace containing `n`: `n = m.…` -/
def InNs (m n : Name) : Prop := m = n ∨ m = [] ∨ ∃ t, n = m ++ 46 :: t

instance (m n : Name) : Decidable (InNs m n) :=
  if h1 : m = n then isTrue (Or.inl h1)
  else if h2 : m = [] then isTrue (Or.inr (Or.inl h2))
  else if h3 : n = m ++ 46 :: n.drop (m.length + 1) then isTrue (Or.inr (Or.inr ⟨_, h3⟩))
  else isFalse (by
    rintro (h | h | ⟨t, h⟩)
    · exact h1 h
    · exact h2 h
    · refine h3 ?_
      rw [h]
      simp)

/-- The changes of the implementation of `n`, latest first. -/
def stores (n : Name) : List Event → List (Option Nat)
  | [] => []
  | .stored m x :: es => if m = n then x :: stores n es else stores n es
  | _ :: es => stores n es

/-- The number of changes in namespace `m`. -/
def storesIn (m : Name) : List Event → Nat
  | [] => 0
  | .stored n _ :: es => (if InNs m n then 1 else 0) + storesIn m es
  | _ :: es => storesIn m es

/-- Every change (latest first) adds an operator which was not there or removes one which was. -/
def Alternating : List (Option Nat) → Prop
  | [] => True
  | x :: xs => x.isSome ≠ (xs.head?.join).isSome ∧ Alternating xs

/-- Reachable states; `excl`: calls about one name do not overlap. -/
def Reachable (excl : Bool) (s : St) : Prop := ∃ acts, runFrom excl St.init acts = some s

def Later (excl : Bool) (s s' : St) : Prop := ∃ acts, runFrom excl s acts = some s'

end Verif.Reg
