import Verif.Jagged.ShapeModel
import Verif.Edge.EdgeSpec
import Mathlib.Data.List.Forall2

/-!
# Specification of jagged shapes
-/

namespace Verif.Jagged
open Verif.Dense Verif.Edge

/-- Both edges describe the same assignment of child rows to parent rows. -/
def SameEdge (a b : Edge) : Prop :=
  a.parentSize = b.parentSize ∧ a.childSize = b.childSize ∧ ∀ c p, Rel a c p ↔ Rel b c p

/-- The parent size of each edge is the child size of the previous one (`n` for the first). -/
def Linked : Int → List Edge → Prop
  | _, [] => True
  | n, e :: es => e.parentSize = n ∧ Linked e.childSize es

/-- Well-formed shape: well-formed split-point edges which fit together, starting with one row. -/
def ShapeOk (s : Shape) : Prop := Linked 1 s ∧ ∀ e ∈ s, WF e ∧ e.typ = .splitPoints

/-- Number of rows of dimension `k` (dimension 0 is the single root row). -/
def rows (s : Shape) (k : Nat) : Int :=
  match k with
  | 0 => 1
  | k + 1 => (s[k]?.map Edge.childSize).getD 0

/-- The edges of `s` and `t` are pairwise the same. -/
def SameShape (s t : Shape) : Prop := List.Forall₂ SameEdge s t

/-- Dimensions of `s` form a prefix of those of `t`. -/
def PrefixOf (s t : Shape) : Prop := s.length ≤ t.length ∧ SameShape s (t.take s.length)

end Verif.Jagged
