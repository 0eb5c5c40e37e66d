import Verif.Naming.NamingModel

/-!
# Specification of paths and their texts
-/

namespace Verif.Naming

/-- The text of one segment: a slash, the name, and `[:]` for an index. -/
def segText (s : Segment) : List Char := ['/'] ++ s.name ++ (if s.isIndex then ['[', ':', ']'] else [])

/-- The text of a path. -/
def pathText (p : List Segment) : List Char := p.flatMap segText

/-- The names have no slashes, and only index segments may have names ending with the index marker. -/
def PlainNames (p : List Segment) : Prop :=
  ∀ s ∈ p, '/' ∉ s.name ∧ (s.isIndex = false → ¬ ['[', ':', ']'] <:+ s.name)

/-- `q` is empty or ends with an index segment. -/
def EndsWithIndex (q : List Segment) : Prop := q = [] ∨ ∃ r s, q = r ++ [s] ∧ s.isIndex = true

/-- `q` is the longest of the beginnings of `p` with the given property that are empty or end with an index. -/
def IsParentIndex (proper : List Segment → Prop) (p q : List Segment) : Prop :=
  q <+: p ∧ proper q ∧ EndsWithIndex q ∧
    ∀ q', q' <+: p → proper q' → EndsWithIndex q' → q'.length ≤ q.length

/-- The names of two paths are the same; index flags may differ. -/
def SameNames (p q : List Segment) : Prop := p.map Segment.name = q.map Segment.name

/-- The segment is a field of an extension. -/
def IsExt (s : Segment) : Prop := ['E', 'x', 't', ':', ':'] <+: s.name

/-- Two adjacent underscores occur in the name. -/
def HasDouble (name : List Char) : Prop := ∃ a b, name = a ++ ['_', '_'] ++ b

/-- Names for the `googlesql` policy: not empty; a plain field has no dot and does not begin with a parenthesis; an extension
has no closing parenthesis. -/
def SqlName (s : Segment) : Prop :=
  s.name ≠ [] ∧ (IsExt s → ')' ∉ s.name) ∧ (¬ IsExt s → '.' ∉ s.name ∧ s.name.head? ≠ some '(')

end Verif.Naming
