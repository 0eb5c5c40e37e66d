import Verif.Frames.IterModel
import Verif.Arr.ArraySpec

/-!
# Specification of the frame iterator: arrays as sequences of optional values
-/

namespace Verif.Frames
open Verif.Dense Verif.Arr

variable {V : Type}

/-- What is observable in a cell of an optional or of a non-optional slot. -/
def look (opt : Bool) (c : Bool × V) : Option V :=
  if opt then (if c.1 then some c.2 else none) else some c.2

/-- The class invariant of the array. -/
def In.Valid (a : In V) : Prop :=
  match a.arr with
  | .dense d => d.Valid
  | .sparse x => x.Valid

/-- The array as a sequence of optional values. -/
def In.elems (a : In V) : List (Option V) :=
  match a.arr with
  | .dense d => Dense.elems d
  | .sparse x => x.elems

/-- A `DenseArray`, or an `Array` which wraps one (`IsFullForm` or `IsDenseForm`). -/
def In.Wraps (a : In V) (d : DArr V) : Prop :=
  match a.arr with
  | .dense x => x = d
  | .sparse x => x = Arr.ofDense d

/-- What the slot receives for row `i`: the element, or — in a non-optional slot — the stored value,
whether it is present or not ("bitmap is ignored", dense_array/qtype/copier.h:44). -/
def In.rowVal (a : In V) (opt : Bool) (i : Nat) : Option V :=
  match a.arr with
  | .dense d => if opt then Dense.elem d i else d.values[i]?
  | .sparse x => x.elem i

/-- The frame holds row `i` of the inputs, and the constants of `base` in the slots of `K`. -/
def IsRow (ins : List (In V × Scalar)) (K : Nat → Prop) (base : Frame V) (i : Nat) (f : Frame V) :
    Prop :=
  (∀ m ∈ ins, look m.2.opt (f m.2.id) = m.1.rowVal m.2.opt i) ∧ ∀ t, K t → f t = base t

/-- `fn` keeps the constant slots, and what it leaves in the output slots depends only on the values
in the input slots and on the constants. -/
structure Respects (ins outs : List Scalar) (K : Nat → Prop) (fn : Frame V → Frame V) : Prop where
  keeps : ∀ f t, K t → fn f t = f t
  depends : ∀ f g, (∀ s ∈ ins, look s.opt (f s.id) = look s.opt (g s.id)) →
    (∀ t, K t → f t = g t) → ∀ s ∈ outs, look s.opt (fn f s.id) = look s.opt (fn g s.id)

/-- The iteration order of a hash map from array types to copiers: every type once. -/
def KeysOk {β : Type} (key : β → Key) (ms : List β) (keys : List Key) : Prop :=
  keys.Nodup ∧ ∀ k, k ∈ keys ↔ ∃ m ∈ ms, key m = k

end Verif.Frames
