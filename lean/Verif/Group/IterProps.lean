import Verif.Group.UtilLemmas

/-!
# C67: row iteration over several arrays
-/

namespace Verif.Group
open Verif.Bits Verif.Bitmap Verif.Dense Verif.Arr

variable {V : Type}

/-- C67: `DenseOpsUtil::Iterate` calls back for exactly the rows of the range, in order, with the validity
and (for valid rows) the elements, reading nothing outside of the arrays. -/
theorem dense_iterate {n : Nat} {args : List (Arg V)}
    (h : ∀ a ∈ args, a.arr.Valid ∧ a.arr.values.length = n) {fr en : Nat} (h1 : fr ≤ en) (h2 : en ≤ n) :
    ∃ rs, denseIterate args fr en = some rs ∧
      rs.map Row.meaning = (List.range' fr (en - fr)).map (fun i => (i, denseRow args i)) :=
  denseIterate_spec h h1 h2

/-- C67: `IterateFromZero` does the same for a prefix. -/
theorem dense_iterate_from_zero {n : Nat} {args : List (Arg V)}
    (h : ∀ a ∈ args, a.arr.Valid ∧ a.arr.values.length = n) {en : Nat} (h2 : en ≤ n) :
    ∃ rs, denseIterateFromZero args en = some rs ∧
      rs.map Row.meaning = (List.range' 0 en).map (fun i => (i, denseRow args i)) :=
  denseIterateFromZero_spec h h2

/-- C67: whatever the forms (dense, sparse, constant, with or without a value for missing ids) of the
arguments, `ArrayOpsUtil::Iterate(from, to)` reports exactly the rows of the range, in order, once each,
with the right validity and elements; rows reported in bulk are never empty. -/
theorem array_iterate (mem : Nat → V) (bmem : Nat → Word) {pe : List Int → List Int → Bool} (hpe : PtrEq pe)
    {size : Nat} {first : AArg V} {rest : List (AArg V)} (h : ArgsOk size (first :: rest)) :
    ∃ u, Util.make mem bmem pe size first rest = some u ∧
      ∀ fr en : Nat, fr ≤ en → en ≤ size →
        ∃ calls, u.iterate fr en = some calls ∧ (∀ c ∈ calls, c.nonempty) ∧
          calls.flatMap Call.expand = (List.range' fr (en - fr)).map
            (fun (i : Nat) => ((i : Int), row (first :: rest) i)) := by
  obtain ⟨u, e1, e2⟩ := make_ok mem bmem hpe h
  refine ⟨u, e1, fun fr en h1 h2 => ?_⟩
  obtain ⟨calls, f1, f2, f3⟩ := iterate_ok e2 h1 h2
  exact ⟨calls, f1, f3, by rw [f2, irows_cast]⟩

/-- C67: the same after conversion to dense arrays (`ConvertToDense`). -/
theorem array_iterate_dense (mem : Nat → V) (bmem : Nat → Word) {pe : List Int → List Int → Bool}
    (hpe : PtrEq pe) {size : Nat} {args : List (AArg V)} (h : ArgsOk size args) (garbage : Bool) :
    ∃ u, Util.makeDense mem bmem pe size args garbage = some u ∧
      ∀ fr en : Nat, fr ≤ en → en ≤ size →
        ∃ calls, u.iterate fr en = some calls ∧ (∀ c ∈ calls, c.nonempty) ∧
          calls.flatMap Call.expand = (List.range' fr (en - fr)).map
            (fun (i : Nat) => ((i : Int), row args i)) := by
  obtain ⟨u, e1, e2⟩ := makeDense_ok mem bmem hpe h garbage
  refine ⟨u, e1, fun fr en h1 h2 => ?_⟩
  obtain ⟨calls, f1, f2, f3⟩ := iterate_ok e2 h1 h2
  exact ⟨calls, f1, f3, by rw [f2, irows_cast]⟩

/-- C67: `IterateSimple` / `ArraysIterate` calls back for exactly the valid rows, in order. -/
theorem array_iterate_simple (mem : Nat → V) (bmem : Nat → Word) {pe : List Int → List Int → Bool}
    (hpe : PtrEq pe) {size : Nat} {first : AArg V} {rest : List (AArg V)}
    (h : ArgsOk size (first :: rest)) :
    ∃ u, Util.make mem bmem pe size first rest = some u ∧
      u.iterateSimple = some ((List.range size).filterMap
        (fun (i : Nat) => (row (first :: rest) i).map (fun x => ((i : Int), x)))) := by
  obtain ⟨u, e1, e2⟩ := make_ok mem bmem hpe h
  refine ⟨u, e1, ?_⟩
  rw [iterateSimple_ok e2]
  have := irows_cast (first :: rest) 0 size
  rw [show ((0 : Nat) : Int) = 0 from rfl] at this
  rw [this]
  unfold onlyValid
  rw [List.filterMap_map, List.range_eq_range', Nat.sub_zero]
  rfl

/-- C67: `PresentCountUpperEstimate` is between the number of valid rows and the size. -/
theorem array_estimate (mem : Nat → V) (bmem : Nat → Word) {pe : List Int → List Int → Bool}
    (hpe : PtrEq pe) {size : Nat} {first : AArg V} {rest : List (AArg V)}
    (h : ArgsOk size (first :: rest)) :
    ∃ u, Util.make mem bmem pe size first rest = some u ∧
      ((List.range size).filter (fun i => (row (first :: rest) i).isSome)).length ≤ u.estimate ∧
      u.estimate ≤ size := by
  obtain ⟨u, e1, e2⟩ := make_ok mem bmem hpe h
  exact ⟨u, e1, estimate_ok e2⟩

/-- A sparse array with a value for missing ids, a sparse array without, a dense one. -/
def exA : AArg Nat := ⟨false, ⟨6, ⟨.partial', [1, 4], 0⟩, ⟨[7, 9], [0b01#32], 0⟩, some 3⟩⟩
def exB : AArg Nat := ⟨false, ⟨6, ⟨.partial', [11, 12, 15], 10⟩, ⟨[5, 6, 8], [], 0⟩, none⟩⟩
def exC : AArg Nat := ⟨true, ⟨6, .fullF, ⟨[0, 1, 2, 3, 4, 5], [0b101011#32], 0⟩, none⟩⟩

theorem ex_ok : ArgsOk 6 [exA, exB, exC] := by
  intro a ha
  simp only [List.mem_cons, List.not_mem_nil, or_false] at ha
  rcases ha with rfl | rfl | rfl
  · exact ⟨⟨⟨by decide, Or.inr (by decide)⟩, ⟨by decide, by decide, by decide, by decide⟩, rfl⟩, rfl⟩
  · exact ⟨⟨⟨by decide, Or.inl rfl⟩, ⟨by decide, by decide, by decide, by decide⟩, rfl⟩, rfl⟩
  · exact ⟨⟨⟨by decide, Or.inr (by decide)⟩, ⟨rfl, rfl⟩, ⟨rfl, rfl⟩⟩, rfl⟩

example : ((Util.make (fun _ => 0) (fun _ => 0) (fun _ _ => false) 6 exA [exB, exC]).bind
    (fun u => u.iterate 1 6)) =
    some [.fn 1 [some 7, some 5, some 1], .fn 2 [some 3, some 6, none], .miss 3 2,
      .fn 5 [some 3, some 8, some 5]] := by decide +kernel
example : ((Util.make (fun _ => 0) (fun _ => 0) (fun _ _ => false) 6 exA []).bind
    (fun u => u.iterate 0 6)) =
    some [.rep 0 1 [some 3], .fn 1 [some 7], .rep 2 2 [some 3], .miss 4 1, .rep 5 1 [some 3]] := by
  decide +kernel
example : ((Util.make (fun _ => 0) (fun _ => 0) (fun _ _ => false) 6 exA [exB]).map Util.estimate) =
    some 3 := by decide +kernel

end Verif.Group
