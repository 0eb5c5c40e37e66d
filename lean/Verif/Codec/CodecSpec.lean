import Verif.Codec.DenseCodecModel
import Verif.Dense.DenseSpec
import Verif.StrBuf.StrBufSpec

/-!
# Specification of the codec of dense arrays: what a message says
-/

namespace Verif.Codec
open Verif.Bits Verif.Dense

/-- The presence of `n` rows in a bitmap; an empty bitmap says that all are present. -/
def bitsOf (bm : List Word) (n : Nat) : List Bool := (List.range n).map (fun i => decide (bm = []) || bitAt bm i)

/-- Puts the values, in order, in the rows that are present. -/
def scatter {α : Type} : List Bool → List α → List (Option α)
  | [], _ => []
  | true :: bs, v :: vs => some v :: scatter bs vs
  | true :: bs, [] => none :: scatter bs []
  | false :: bs, vs => none :: scatter bs vs

/-- The size is a number of rows, and the bitmap is empty or has as many words as rows need. -/
def HeadOk (size : Option Int) (bitmap : List Word) (n : Nat) : Prop :=
  size = some (n : Int) ∧ (bitmap = [] ∨ 32 * bitmap.length < n + 32 ∧ n ≤ 32 * bitmap.length)

/-- The message says that the rows are `rows`. -/
def DMsg.Says {α : Type} (m : DMsg α) (rows : List (Option α)) : Prop :=
  ∃ n, HeadOk m.size m.bitmap n ∧ (bitsOf m.bitmap n).count true = m.values.length ∧
    rows = scatter (bitsOf m.bitmap n) m.values

/-- A message of units. -/
def UMsg.Says (m : UMsg) (rows : List (Option Unit)) : Prop :=
  ∃ n, HeadOk m.size m.bitmap n ∧ rows = (bitsOf m.bitmap n).map (fun b => if b then some () else none)

/-- The only bitmap that an encoder writes for the given presence: nothing if all are present, else the bits followed by zeros. -/
def Packs (ws : List Word) (ps : List Bool) : Prop :=
  if ps.all id then ws = []
  else 32 * ws.length < ps.length + 32 ∧ ps.length ≤ 32 * ws.length ∧ ∀ i, bitAt ws i = ps.getD i false

/-- The size of the message does not overflow in `BitmapSize`. -/
def NoOverflow (size : Option Int) (bitmap : List Word) : Prop := bitmap = [] ∨ ∀ n, size = some n → n + 32 ≤ Edge.maxI64

/-! ## Strings -/

/-- The class invariant of the bitmap, and the rows that are present have offsets in the range of the characters. -/
def SArr.Ok (a : SArr) : Prop :=
  (a.off < 32 ∧ (a.bitmap = [] ∨ a.bitmap.length = Bitmap.bitmapSize (a.size + a.off))) ∧
  ∀ i o, a.buf.offsets[i]? = some o → (a.bitmap = [] ∨ bitAt a.bitmap (a.off + i) = true) →
    a.buf.base ≤ o.start ∧ o.start ≤ o.stop ∧ o.stop ≤ a.buf.base + a.buf.chars.length

/-- The rows of an array of strings are `rows`. -/
def SArr.Holds (a : SArr) (rows : List (Option (List Nat))) : Prop :=
  a.size = rows.length ∧ ∀ i r, rows[i]? = some r →
    if a.bitmap = [] ∨ bitAt a.bitmap (a.off + i) = true then r ≠ none ∧ a.buf.get i = r else r = none

/-- The characters between two offsets. -/
def cut (chars : List (Option Nat)) (s e : Int) : Option (List Nat) :=
  ((chars.drop s.toNat).take (e.toNat - s.toNat)).mapM id

/-- The message of strings is well-formed: for `n` rows, with these characters. -/
def SMsg.Ok (m : SMsg) (n : Nat) (chars : List (Option Nat)) : Prop :=
  HeadOk m.size m.bitmap n ∧ m.characters = some chars ∧
  (bitsOf m.bitmap n).count true = m.starts.length ∧ m.starts.length = m.stops.length ∧
  ∀ (j : Nat) (s e : Int), m.starts[j]? = some s → m.stops[j]? = some e → 0 ≤ s ∧ s ≤ e ∧ e ≤ chars.length

/-- The message of strings says that the rows are `rows`. -/
def SMsg.Says (m : SMsg) (rows : List (Option (List Nat))) : Prop :=
  ∃ n chars strs, m.Ok n chars ∧ (m.starts.zip m.stops).mapM (fun (s, e) => cut chars s e) = some strs ∧
    rows = scatter (bitsOf m.bitmap n) strs

end Verif.Codec
