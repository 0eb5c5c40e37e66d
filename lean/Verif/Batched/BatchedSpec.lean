import Verif.Batched.BatchedModel
import Verif.Frames.IterSpec
import Verif.Forest.EvaluatorSpec

/-!
# Specification of batched evaluation: the inputs of a row, valid batches
-/

namespace Verif.Batched
open Verif.Forest (Cond Tree Filter QT Fl Env Ctx)
open Verif.Frames (Frame In Scalar OutSlot KeysOk)

variable {M : Type}

/-- The value of input `id`, of type `q`, in row `i`. -/
def rowRead (c : BCtx M) (arrays : Arrays M) (inputSlots : List Nat) (i : Nat) (q : QT) (id : Nat) : Option (Val M) :=
  (inputSlots[id]?).bind fun s => (arrays s).rowVal (c.opt q) i

/-- The inputs of the conditions in row `i`. -/
def rowEnv (c : BCtx M) (arrays : Arrays M) (inputSlots : List Nat) (i : Nat) : Env where
  f id := (rowRead c arrays inputSlots i .f32 id).bind c.asF32
  i id := (rowRead c arrays inputSlots i .i64 id).bind Val.asI64
  o k := c.custom k ((c.ctx.osig k).map fun s => rowRead c arrays inputSlots i s.2 s.1)

/-- The arrays of a batch with `n` rows are valid and fit the forest and the output slots. -/
structure BatchOk (c : BCtx M) (required : List (Nat × QT)) (groups : List Filter) (arrays : Arrays M)
    (inputSlots : List Nat) (outputs : List OutSlot) (rowCount : Option Nat) (n : Nat) : Prop where
  /-- the inputs used by the forest have the right types and size -/
  inputs : ∀ r ∈ required, ∃ s, inputSlots[r.1]? = some s ∧ (arrays s).Valid ∧ (arrays s).arr.size = n ∧
    (arrays s).accepts ⟨0, tyOf r.2, c.opt r.2⟩ = true
  /-- the number of rows is given, or else there is an input to take it from -/
  rows : rowCount = some n ∨ rowCount = none ∧
    (required ≠ [] ∨ ∃ s, inputSlots[0]? = some s ∧ (arrays s).arr.size = n)
  groups_length : outputs.length = groups.length
  /-- the output slots are arrays of `float` -/
  types : ∀ o ∈ outputs, o.ty = 0
  nodup : (outputs.map OutSlot.id).Nodup

/-- No output slot is the slot of a used input. -/
def NotInPlace (required : List (Nat × QT)) (inputSlots : List Nat) (outputs : List OutSlot) : Prop :=
  ∀ r ∈ required, ∀ s, inputSlots[r.1]? = some s → ∀ o ∈ outputs, o.id ≠ s

/-- What is assumed about one run of the iterator: the hash maps contain every type of arrays once, memory has the
requested size. -/
structure OracleOk (c : BCtx M) (required : List (Nat × QT)) (arrays : Arrays M) (inputSlots : List Nat)
    (outputs : List OutSlot) (n : Nat) (ora : RunOracle M) : Prop where
  in_keys : ora.inKeys.Nodup ∧ ∀ k, k ∈ ora.inKeys ↔ ∃ r ∈ required, ∃ s, inputSlots[r.1]? = some s ∧ (arrays s).key = k
  out_keys : ora.outKeys.Nodup ∧ ∀ k, k ∈ ora.outKeys ↔ ∃ o ∈ outputs, o.key = k
  mem : ∀ k, k < outputs.length → (ora.mem.vals k).length = n ∧ (ora.mem.bits k).length = Bitmap.bitmapSize n
  init : ora.init.length = min n 64

end Verif.Batched
