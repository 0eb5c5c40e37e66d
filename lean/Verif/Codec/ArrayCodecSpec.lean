import Verif.Codec.ArrayCodecModel
import Verif.Codec.CodecSpec
import Verif.Arr.ArraySpec
import Verif.Edge.EdgeSpec

/-!
# Specification of the codecs of arrays and edges
-/

namespace Verif.Codec
open Verif.Bits Verif.Dense Verif.Arr

/-- The message, with its input values, says that the rows are `rows`. -/
inductive AMsg.Says {α : Type} : AMsg → List (TV α) → List (Option α) → Prop
  | empty : Says ⟨some 0, []⟩ [] []
  | dense (d : DArr α) (h : 0 < d.size) : Says ⟨some (d.size : Int), []⟩ [.dense d] (elems d)
  | sparse (n : Nat) (ids : List Int) (d : DArr α) (miss : Option α) (h : d.size < n) (hl : ids.length = d.size)
      (hi : ids.Pairwise (· < ·)) (hr : ∀ x ∈ ids, 0 ≤ x ∧ x < n) :
      Says ⟨some (n : Int), ids⟩ [.dense d, .opt miss]
        ((List.range n).map fun (i : Nat) => match ids.idxOf? (i : Int) with
          | some o => elem d o
          | none => miss)

/-- The dense arrays among the input values are valid. -/
def InputsOk {α : Type} (inputs : List (TV α)) : Prop := ∀ d, TV.dense d ∈ inputs → d.Valid

/-- An input value is encoded and decoded; an optional is kept. -/
def send {α : Type} (mem : Nat → α) : TV α → Option (TV α)
  | .dense d => match encodeDense d with
    | none => none
    | some m => match decodeDense mem m with
      | some (.ok d) => some (.dense d)
      | _ => none
  | .opt v => some (.opt v)
  | .other => none

/-- An array is encoded and decoded, with its input values. -/
def sendArray {α : Type} (mem : Nat → α) (a : Arr α) : Option (Arr α) :=
  match (encodeArray a).2.mapM (send mem) with
  | none => none
  | some inputs => match decodeArray (encodeArray a).1 inputs with
    | some (.ok b) => some b
    | _ => none

/-! ## Edges -/

/-- Row `p` is the parent of row `c`. -/
def AEdge.Rel (e : AEdge) (c p : Nat) : Prop :=
  match e.typ with
  | .mapping => e.values.elems[c]? = some (some (p : Int))
  | .splitPoints => ∃ a b : Int, e.values.elems[p]? = some (some a) ∧ e.values.elems[p + 1]? = some (some b) ∧
      a ≤ c ∧ (c : Int) < b

/-- A well-formed array edge. -/
def AEdge.WF (e : AEdge) : Prop :=
  e.values.Valid ∧
  match e.typ with
  | .mapping => 0 ≤ e.parentSize ∧ e.childSize = e.values.elems.length ∧ Edge.MapOk e.values.elems e.parentSize
  | .splitPoints => Edge.SplitOk e.values.elems ∧ e.parentSize + 1 = e.values.elems.length ∧
      e.values.elems.getLast? = some (some e.childSize)

/-- The message, with an array of the given rows, describes an edge of dense arrays. -/
def EMsg.OkDense (m : EMsg) (rows : List (Option Int)) : Prop :=
  (m.edgeType = some .mapping ∧ ∃ n, m.parentSize = some n ∧ 0 ≤ n ∧ Edge.MapOk rows n) ∨
  (m.edgeType = some .splitPoints ∧ m.parentSize = none ∧ Edge.SplitOk rows)

/-- The message, with an array of the given rows, describes an edge of arrays; the size of a split points edge is ignored. -/
def EMsg.OkArray (m : EMsg) (rows : List (Option Int)) : Prop :=
  (m.edgeType = some .mapping ∧ ∃ n, m.parentSize = some n ∧ 0 ≤ n ∧ Edge.MapOk rows n) ∨
  (m.edgeType = some .splitPoints ∧ Edge.SplitOk rows)

end Verif.Codec
