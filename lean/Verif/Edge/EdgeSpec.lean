import Verif.Edge.EdgeModel
import Verif.Dense.DenseSpec

/-!
# Specification of edges: a partial function from child rows to parent rows
-/

namespace Verif.Edge
open Verif.Dense

/-- Row `p` is the parent of row `c`. -/
def Rel (e : Edge) (c p : Nat) : Prop :=
  match e.typ with
  | .mapping => elem e.values c = some (p : Int)
  | .splitPoints =>
    ∃ a b : Int, elem e.values p = some a ∧ elem e.values (p + 1) = some b ∧ a ≤ c ∧ (c : Int) < b

/-- `xs` are well-formed split points: full, starting with 0 and non-decreasing. -/
def SplitOk (xs : List (Option Int)) : Prop :=
  ∃ sp : List Int, xs = sp.map some ∧ sp.head? = some 0 ∧ sp.Pairwise (· ≤ ·)

/-- `xs` is a well-formed mapping to `n` parents. -/
def MapOk (xs : List (Option Int)) (n : Int) : Prop := ∀ v, some v ∈ xs → 0 ≤ v ∧ v < n

/-- Well-formed edge. -/
def WF (e : Edge) : Prop :=
  e.values.Valid ∧
  match e.typ with
  | .mapping =>
    0 ≤ e.parentSize ∧ e.childSize = (elems e.values).length ∧ MapOk (elems e.values) e.parentSize
  | .splitPoints =>
    SplitOk (elems e.values) ∧ e.parentSize + 1 = (elems e.values).length ∧
      (elems e.values).getLast? = some (some e.childSize)

/-- Composition of the relations of a list of edges; the first edge is the topmost one. -/
def RelComp : List Edge → Nat → Nat → Prop
  | [], c, p => c = p
  | e :: es, c, p => ∃ m, RelComp es c m ∧ Rel e m p

/-- Consecutive edges fit together. -/
def Compatible : List Edge → Prop
  | e :: f :: es => e.childSize = f.parentSize ∧ Compatible (f :: es)
  | _ => True

/-- Every child has a parent, and parents are non-decreasing. -/
def TotalMono (e : Edge) : Prop :=
  (∀ c : Nat, (c : Int) < e.childSize → ∃ p, Rel e c p) ∧
  ∀ c c' p p', c ≤ c' → Rel e c p → Rel e c' p' → p ≤ p'

end Verif.Edge
