import Verif.Arr.ArrayModel
import Verif.Dense.DenseSpec

/-!
# Specification of id filters and arrays
-/

namespace Verif.Arr
open Verif.Dense

/-- What is assumed of pointer comparison: the same memory has the same content. -/
def PtrEq (pe : List Int → List Int → Bool) : Prop := ∀ a b, pe a b = true → a = b

/-- The zero-based ids of a filter. -/
def Filter.zids (f : Filter) : List Int := f.ids.map (· - f.off)

/-- Row `i` is stored. -/
def Filter.Has (f : Filter) (i : Nat) : Prop :=
  match f.typ with
  | .empty => False
  | .full => True
  | .partial' => (i : Int) ∈ f.zids

/-- Well-formed filter for `n` rows — comments id_filter.h:34-63. -/
def Filter.Valid (n : Nat) (f : Filter) : Prop :=
  match f.typ with
  | .partial' => f.ids ≠ [] ∧ f.ids.length < n ∧ f.zids.Pairwise (· < ·) ∧
      ∀ x ∈ f.zids, 0 ≤ x ∧ x < n
  | _ => f.ids = [] ∧ f.off = 0

namespace Arr
variable {α : Type}

/-- Well-formed array — comment array.h:81-85. -/
def Valid (a : Arr α) : Prop :=
  a.data.Valid ∧ a.flt.Valid a.size ∧
  match a.flt.typ with
  | .empty => a.data.values = []
  | .partial' => a.data.values.length = a.flt.ids.length
  | .full => a.data.values.length = a.size ∧ a.miss = none

/-- The element at row `i`. -/
def elem (a : Arr α) (i : Nat) : Option α :=
  match a.flt.typ with
  | .empty => a.miss
  | .full => Dense.elem a.data i
  | .partial' =>
    match a.flt.zids.idxOf? (i : Int) with
    | some o => Dense.elem a.data o
    | none => a.miss

/-- The array as a list of optional values. -/
def elems (a : Arr α) : List (Option α) := (List.range a.size).map a.elem

end Arr

/-- The ids added by a sequence of `SparseArrayBuilder` calls, in order. -/
def sIds {α : Type} (ops : List (SOp α)) : List Nat :=
  ops.filterMap (fun
    | .add id _ => some id
    | .addId id => some id
    | .setByOffset _ _ => none)

/-- The value at each offset after a sequence of `SparseArrayBuilder` calls, where `k` ids are already
added: the last present value given for that offset. -/
def sVals {α : Type} : Nat → (Nat → Option α) → List (SOp α) → Nat → Option α
  | _, f, [] => f
  | k, f, .add _ v :: os => sVals (k + 1) (fun o => if o = k ∧ v.isSome then v else f o) os
  | k, f, .addId _ :: os => sVals (k + 1) f os
  | k, f, .setByOffset j v :: os => sVals k (fun o => if o = j ∧ v.isSome then v else f o) os

end Verif.Arr
