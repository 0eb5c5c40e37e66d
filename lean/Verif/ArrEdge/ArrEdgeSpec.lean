import Verif.ArrEdge.ArrEdgeModel
import Verif.Codec.ArrayCodecSpec

/-!
# Specification of conversions of array edges
-/

namespace Verif.ArrEdge
open Verif.Codec

/-- Composition of the relations of a list of edges; the first edge is the topmost one. -/
def RelComp : List AEdge → Nat → Nat → Prop
  | [], c, p => c = p
  | e :: es, c, p => ∃ m, RelComp es c m ∧ e.Rel m p

/-- Consecutive edges fit together. -/
def Compatible : List AEdge → Prop
  | e :: f :: es => e.childSize = f.parentSize ∧ Compatible (f :: es)
  | _ => True

/-- Every child has a parent, and parents are non-decreasing. -/
def TotalMono (e : AEdge) : Prop :=
  (∀ c : Nat, (c : Int) < e.childSize → ∃ p, e.Rel c p) ∧
  ∀ c c' p p', c ≤ c' → e.Rel c p → e.Rel c' p' → p ≤ p'

/-- The edges have the same sizes and relate the same rows. -/
def Same (a b : AEdge) : Prop :=
  a.parentSize = b.parentSize ∧ a.childSize = b.childSize ∧ ∀ c p, a.Rel c p ↔ b.Rel c p

end Verif.ArrEdge
