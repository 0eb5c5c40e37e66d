import Verif.Dense.OpsLemmas
import Verif.Dense.LogicLemmas

/-!
# Properties of pointwise operations on dense arrays: C54, C55
-/

namespace Verif.Dense
open Verif.Bits Verif.Bitmap

variable {α β γ V R E : Type}

/-! ## C54 -/

/-- C54 (one argument): a total function is applied to the present elements; missing elements stay
missing. -/
theorem unary_elements (fn : α → β) (a : DArr α) (h : a.Valid) :
    (unaryOp fn a).Valid ∧ elems (unaryOp fn a) = (elems a).map (Option.map fn) := unaryOp_spec fn h

/-- C54 (two arguments): for arrays of the same size with arbitrary bitmap offsets, and a result
bitmap buffer with arbitrary contents, element `i` of the result is `fn x y` if both elements are
present and missing otherwise. -/
theorem binary_elements (fn : α → β → γ) (a : DArr α) (b : DArr β) (bmem : List Word)
    (ha : a.Valid) (hb : b.Valid) (hs : (elems a).length = (elems b).length)
    (hm : min a.bitmap.length b.bitmap.length ≤ bmem.length) :
    ∃ r, binaryOp fn bmem a b = some r ∧ r.Valid ∧
      elems r = List.zipWith (bothPresent fn) (elems a) (elems b) :=
  binaryOp_spec fn ha hb (by simpa [elems_length] using hs) hm

example : (binaryOp (· + ·) [7, 7, 7] ⟨[1, 2, 3], [0b1011], 1⟩ ⟨[10, 20, 30], [0b1100], 1⟩).map elems =
    some [none, none, some 33] ∧
    (⟨[1, 2, 3], [0b1011], 1⟩ : DArr Nat).Valid := by
  refine ⟨by decide +kernel, ?_⟩
  exact ⟨by decide, Or.inr (by decide)⟩

/-- C54 (generic): any number of arguments, each required or optional, a functor that may fail or
return a missing value, arbitrary contents of the result buffer.  `rowRes fn args i` is the
functor applied to the optional elements of row `i` when all required ones are present, and missing
otherwise.  If some row fails the first error is returned, otherwise the result array has exactly
the row results.  Bitmap offsets are allowed unless the operation was created with
`kNoBitmapOffset` (`ao = false`).  When the functor is also run on missing rows (`skip = false`) it
does not fail (in the code it then does not return `StatusOr`). -/
theorem universal_elements (ao : Bool) (fn : List (Option V) → Except E (Option R)) (skip : Bool)
    (args : List (Arg V)) (N : Nat) (mem : List R)
    (hargs : ∀ a ∈ args, a.arr.Valid ∧ (ao = true ∨ a.arr.off = 0) ∧ (elems a.arr).length = N)
    (hskip : skip = false → ∀ x, ∃ o, fn x = .ok o) (hmem : mem.length = N) :
    match (List.range N).mapM (rowRes fn args) with
    | .error e => universalOp ao fn skip args mem = some (.error e)
    | .ok l => ∃ r, universalOp ao fn skip args mem = some (.ok r) ∧ r.Valid ∧ elems r = l := by
  have key := universalOp_spec (ao := ao) (fn := fn) (skip := skip) (args := args) (N := N)
    (fun a ha => ⟨(hargs a ha).1, (hargs a ha).2.1, by
      have := (hargs a ha).2.2; rwa [elems_length] at this⟩) hskip mem hmem
  revert key
  cases (List.range N).mapM (rowRes fn args) with
  | error e => exact id
  | ok l =>
    rintro ⟨r, h1, h2, _, h4⟩
    exact ⟨r, h1, h2, h4⟩

/-- Division by the second argument, an error when it is zero, missing when the result is odd. -/
def exFn : List (Option Nat) → Except String (Option Nat)
  | [some x, some y] =>
    if y = 0 then .error "zero" else .ok (if (x / y) % 2 = 1 then none else some (x / y))
  | [some x, none] => .ok (some x)
  | _ => .ok none

example : (universalOp true exFn true
      [⟨false, ⟨[4, 6, 8, 9], [0b10110], 1⟩⟩, ⟨true, ⟨[1, 2, 0, 0], [0b0011], 0⟩⟩] [7, 7, 7, 7]).map
      (Except.map elems) = some (.ok [some 4, none, none, some 9]) ∧
    (universalOp true exFn true [⟨false, ⟨[4, 6], [], 0⟩⟩, ⟨false, ⟨[1, 0], [], 0⟩⟩] [7, 7]).map
      (Except.map elems) = some (.error "zero") := ⟨by rfl, by rfl⟩

/-! ## C55 -/

/-- C55 (`core.has`). -/
theorem has_elements (a : DArr α) (h : a.Valid) :
    (hasOp a).Valid ∧ elems (hasOp a) = (elems a).map (Option.map (fun _ => ())) := hasOp_spec h

/-- C55 (`core.presence_not`). -/
theorem presence_not_elements (a : DArr α) (h : a.Valid) :
    (presenceNot a).Valid ∧ elems (presenceNot a) = (elems a).map notElem := presenceNot_spec h

example : elems (presenceNot (⟨List.replicate 40 1, [0, 0x80], 2⟩ : DArr Nat)) =
    List.replicate 37 (some ()) ++ [none, some (), some ()] := by decide +kernel

/-- C55 (`core.presence_and`), sizes differ: an error. -/
theorem presence_and_size_mismatch (bmem : List Word) (l : DArr α) (r : DArr Unit)
    (h : (elems l).length ≠ (elems r).length) : presenceAnd bmem l r = some (.error ()) := by
  rw [elems_length, elems_length] at h
  simp [presenceAnd, DArr.size, h]

/-- C55 (`core.presence_and`), partial: missing is the case where both arguments have a bitmap and
the intersected bitmap needs more than `BitmapSize(size)` words because of bitmap offsets — see the
counterexample below.  Zero offsets satisfy the hypothesis. -/
theorem presence_and_elements_partial (bmem : List Word) (l : DArr α) (r : DArr Unit)
    (hl : l.Valid) (hr : r.Valid) (hs : (elems l).length = (elems r).length)
    (hm : bitmapSize (elems l).length ≤ bmem.length)
    (ho : l.bitmap ≠ [] → r.bitmap ≠ [] →
      bitmapSize ((elems l).length + min l.off r.off) = bitmapSize (elems l).length) :
    ∃ x, presenceAnd bmem l r = some (.ok x) ∧ x.Valid ∧
      elems x = List.zipWith andElem (elems l) (elems r) := by
  rw [elems_length] at hm ho
  rw [elems_length, elems_length] at hs
  exact presenceAnd_spec hl hr hs hm ho

example : (presenceAnd [9] ⟨[1, 2, 3], [0b1100], 1⟩ ⟨[(), (), ()], [0b1010], 1⟩).map
      (Except.map elems) = some (.ok [none, none, some 3]) := by rfl

/-- C55 (`core.presence_and`) fails in general: for any two arrays of 32 elements whose bitmaps
start at bit 1 — e.g. slices — the operation writes outside of the result bitmap. -/
theorem presence_and_offset_counterexample (bmem : List Word) (l : DArr α) (r : DArr Unit)
    (hl : l.Valid) (hr : r.Valid) (hsl : (elems l).length = 32) (hsr : (elems r).length = 32)
    (hol : l.off = 1) (hor : r.off = 1) (hbl : l.bitmap ≠ []) (hbr : r.bitmap ≠ []) :
    presenceAnd bmem l r = none := by
  rw [elems_length] at hsl hsr
  exact presenceAnd_oob hl hr hsl hsr hol hor hbl hbr

/-- Such arrays arise by slicing valid arrays. -/
example : let a : DArr Nat := (⟨List.replicate 33 5, [0xFFFFFFFE, 1], 0⟩ : DArr Nat)
    a.Valid ∧ (a.slice 1 32).map (fun s => (s.off, s.bitmap, s.values.length)) =
      some (1, [0xFFFFFFFE, 1], 32) := by
  refine ⟨⟨by decide, Or.inr (by decide)⟩, by decide +kernel⟩

/-- C55 (`core.presence_or`), partial: both bitmaps start at bit 0 (the code creates the operation
with `kNoBitmapOffset`); a full first argument may have any offset. -/
theorem presence_or_elements_partial (mem : List α) (l r : DArr α) (hl : l.Valid) (hr : r.Valid)
    (hs : (elems l).length = (elems r).length) (hm : mem.length = (elems l).length)
    (ho : l.bitmap ≠ [] → l.off = 0 ∧ r.off = 0) :
    ∃ x, presenceOr mem l r = some (.ok x) ∧ x.Valid ∧
      elems x = List.zipWith orElem (elems l) (elems r) := by
  rw [elems_length] at hm
  rw [elems_length, elems_length] at hs
  exact presenceOr_spec hl hr hs hm ho

example : (presenceOr [7, 7, 7] ⟨[1, 2, 3], [0b100], 0⟩ ⟨[4, 5, 6], [0b010], 0⟩).map
      (Except.map elems) = some (.ok [none, some 5, some 3]) := by rfl

/-- C55 (`core.presence_or` with a constant), partial: the bitmap starts at bit 0. -/
theorem presence_or_const_elements_partial (mem : List α) (l : DArr α) (r : Option α) (hl : l.Valid)
    (hm : mem.length = (elems l).length) (ho : l.bitmap ≠ [] → l.off = 0) :
    ∃ x, presenceOrConst mem l r = some (.ok x) ∧ x.Valid ∧
      elems x = (elems l).map (fun e => orElem e r) := by
  rw [elems_length] at hm
  exact presenceOrConst_spec hl hm ho

/-- C55 (`core.presence_or`) fails for arrays with bitmap offsets: the present first element of `l`
is dropped. -/
theorem presence_or_offset_counterexample : ∃ l r : DArr Nat, l.Valid ∧ r.Valid ∧
    (elems l).length = (elems r).length ∧
    ∃ x, presenceOr [7] l r = some (.ok x) ∧ elems x ≠ List.zipWith orElem (elems l) (elems r) := by
  refine ⟨⟨[1], [0b10], 1⟩, ⟨[2], [], 0⟩, ⟨by decide, Or.inr (by decide)⟩, ⟨by decide, Or.inl rfl⟩,
    by decide, ⟨[2], [], 0⟩, by rfl, by decide +kernel⟩

end Verif.Dense
