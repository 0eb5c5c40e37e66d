/-!
# What stripping means
-/

namespace Verif.Text

/-- `r` is `s` without the longest prefix of elements with the property `P`. -/
def LStripped {α : Type} (P : α → Prop) (s r : List α) : Prop :=
  ∃ a, s = a ++ r ∧ (∀ c ∈ a, P c) ∧ ∀ c, r.head? = some c → ¬ P c

/-- `r` is `s` without the longest suffix of elements with the property `P`. -/
def RStripped {α : Type} (P : α → Prop) (s r : List α) : Prop :=
  ∃ b, s = r ++ b ∧ (∀ c ∈ b, P c) ∧ ∀ c, r.getLast? = some c → ¬ P c

/-- Both. -/
def Stripped {α : Type} (P : α → Prop) (s r : List α) : Prop :=
  ∃ a b, s = a ++ r ++ b ∧ (∀ c ∈ a, P c) ∧ (∀ c ∈ b, P c) ∧ (∀ c, r.head? = some c → ¬ P c) ∧ ∀ c, r.getLast? = some c → ¬ P c

end Verif.Text
