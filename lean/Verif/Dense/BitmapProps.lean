import Verif.Dense.BuilderLemmas

/-!
# C08–C10, C52: bitmap counting, intersection, builders, iteration

Bits are stated with `Bits.bitAt` (bit `i` of a word array).
-/

namespace Verif.Bitmap
open Verif.Bits

/-! ## C08 -/

/-- C08: `CountBits` counts, for every bitmap, offset and size, the positions of
`[offset, offset+size)` that are set; positions beyond the bitmap count as set (so an empty bitmap
means "all present"). -/
theorem count_bits (bm : List Word) (offset size : Nat) :
    countBits bm offset size = some ((List.range size).countP
      (fun i => decide (32 * bm.length ≤ offset + i) || bitAt bm (offset + i))) := by
  rw [countBits_spec, countRange_shift]

/-- C08: `AreAllBitsSet`. -/
theorem are_all_bits_set (bm : List Word) (n : Nat) (h : n ≤ 32 * bm.length) :
    ∃ b, areAllBitsSet bm n = some b ∧ (b = true ↔ ∀ i, i < n → bitAt bm i = true) := by
  obtain ⟨b, e, hb⟩ := allSetLoop_spec (bm := bm) (n + 1) 0 n (by omega) (by omega)
  refine ⟨b, e, hb.trans ?_⟩
  constructor
  · intro H i hi; exact H i (by omega) (by omega)
  · intro H i _ hi; exact H i (by omega)

/-- C08: `AreAllBitsUnset`. -/
theorem are_all_bits_unset (bm : List Word) (n : Nat) (h : n ≤ 32 * bm.length) :
    ∃ b, areAllBitsUnset bm n = some b ∧ (b = true ↔ ∀ i, i < n → bitAt bm i = false) :=
  areAllBitsUnset_spec h

example : countBits [0xFF, 1] 4 60 = some 5 ∧ countBits [] 7 9 = some 9 ∧
    countBits [0, 0] 60 10 = some 6 ∧
    areAllBitsSet [0xFFFFFFFF, 0x1F] 37 = some true ∧ areAllBitsSet [0xFFFFFFFF, 0x1F] 38 = some false ∧
    areAllBitsUnset [0, 0x10] 36 = some true ∧ areAllBitsUnset [0, 0x10] 37 = some false := by
  decide +kernel

/-! ## C09 -/

/-- C09: `Intersect` of two bitmaps with arbitrary bit offsets: bit `min(offA, offB) + i` of the
result is the conjunction of bit `offA + i` of `a` and bit `offB + i` of `b`, and nothing outside of
the arrays is accessed. -/
theorem intersect_bits (a b res : List Word) (offA offB : Nat) (hA : offA < 32) (hB : offB < 32)
    (hl : res.length = min a.length b.length) (he : offA = offB → a.length = b.length) :
    ∃ r, intersect a b offA offB res = some r ∧ r.length = res.length ∧
      ∀ i, min offA offB + i < 32 * res.length →
        bitAt r (min offA offB + i) = (bitAt a (offA + i) && bitAt b (offB + i)) :=
  intersect_spec hA hB hl he

/-- C09 for two bitmaps that cover `n` elements: the result covers `n` elements, and element `i` is
present iff it is present in both. -/
theorem intersect_elements (n : Nat) (a b res : List Word) (offA offB : Nat) (hA : offA < 32)
    (hB : offB < 32) (ha : a.length = bitmapSize (n + offA)) (hb : b.length = bitmapSize (n + offB))
    (hl : res.length = min a.length b.length) :
    ∃ r, intersect a b offA offB res = some r ∧ r.length = bitmapSize (n + min offA offB) ∧
      ∀ i, i < n → bitAt r (min offA offB + i) = (bitAt a (offA + i) && bitAt b (offB + i)) :=
  intersect_elems_spec hA hB ha hb hl

example : intersect [0xFFFFFFF0, 0xFF] [0xFFFFFFFF, 3] 3 1 [7, 7] = some [0xFFFFFFFC, 0x3] ∧
    intersect [0xFFFFFFF0] [0xFFFF, 3] 3 31 [7] = some [0x30] := by decide +kernel

/-! ## C10 -/

/-- C10: bits appended to `bitmap::Builder` in arbitrary chunks, over an arbitrary uninitialised
buffer with room for them, come out unchanged; the built bitmap is empty exactly when all of
them are set. -/
theorem builder_bits (mem : List Word) (cs : List (List Bool))
    (h : cs.flatten.length ≤ 32 * mem.length) :
    ∃ s, (Builder.new mem).addChunks cs = some s ∧
      (s.build = [] ↔ (∀ b ∈ cs.flatten, b = true) ∨ mem = []) ∧
      (s.build ≠ [] → s.build.length = mem.length ∧
        ∀ i (hi : i < cs.flatten.length), bitAt s.build i = cs.flatten[i]) := by
  obtain ⟨s, e1, e2, ⟨a1, a2, a3⟩, a4⟩ := addChunks_inv (g := fun i => cs.flatten.getD i false) cs
    (Builder.new mem) (builder_new_inv mem _) (by simpa [Builder.new] using h) (by
      intro i hi; simp [Builder.new])
  have e2' : s.currentBit = cs.flatten.length := by simpa [Builder.new] using e2
  have hall : s.allPresent = true ↔ ∀ b ∈ cs.flatten, b = true := by
    rw [a4, List.all_eq_true, e2']
    constructor
    · intro H b hb
      obtain ⟨i, hi, rfl⟩ := List.mem_iff_getElem.1 hb
      have := H i (List.mem_range.2 hi)
      rwa [getD_lt hi] at this
    · intro H i hi
      rw [getD_lt (List.mem_range.1 hi)]
      exact H _ (List.getElem_mem _)
  refine ⟨s, e1, ?_, ?_⟩
  · unfold Builder.build
    by_cases hp : s.allPresent = true
    · simp only [hp, if_true, true_iff]; exact Or.inl (hall.1 hp)
    · rw [if_neg hp]
      rw [hall] at hp
      constructor
      · intro hd
        right
        rw [hd] at a1
        exact List.eq_nil_of_length_eq_zero (by simpa using a1.symm)
      · rintro (hx | hx)
        · exact absurd hx hp
        · subst hx
          exact List.eq_nil_of_length_eq_zero (by simpa using a1)
  · intro hne
    unfold Builder.build at hne ⊢
    by_cases hp : s.allPresent = true
    · rw [if_pos hp] at hne; exact absurd rfl hne
    · rw [if_neg hp]
      refine ⟨a1, ?_⟩
      intro i hi
      rw [a2 i (by omega)]; exact getD_lt hi

/-- C10: `AlmostFullBuilder` with missing ids added in any order (and with repetitions): the built
bitmap is empty exactly when no id was added, otherwise it covers all elements, and exactly the
added ids are missing. -/
theorem almost_full_builder (n : Nat) (ids : List Nat) (h : ∀ id ∈ ids, id < n) :
    ∃ s, AlmostFull.addAll ⟨n, none⟩ ids = some s ∧ (s.build = [] ↔ ids = []) ∧
      (ids ≠ [] → s.build.length = bitmapSize n ∧
        ∀ i, i < n → (bitAt s.build i = true ↔ i ∉ ids)) := by
  obtain ⟨s, e1, e2⟩ := almostFull_addAll (n := n) ids [] ⟨n, none⟩ rfl h (Or.inl ⟨rfl, rfl⟩)
  simp only [List.nil_append] at e2
  refine ⟨s, e1, ?_⟩
  rcases e2 with ⟨e2, e3⟩ | ⟨bm, e2, e3, e4, e5⟩
  · simp [AlmostFull.build, e2, e3]
  · simp only [AlmostFull.build, e2, Option.getD_some]
    refine ⟨?_, ?_⟩
    · constructor
      · intro hb
        exfalso
        obtain ⟨id, hid⟩ := List.exists_mem_of_ne_nil _ e3
        have := h id hid
        rw [hb] at e4
        rw [bitmapSize_eq] at e4
        simp only [List.length_nil] at e4
        omega
      · intro hb; exact absurd hb e3
    · intro _
      refine ⟨e4, ?_⟩
      intro i hi
      rw [e5, decide_eq_true_eq]
      simp [hi]

/-- C10: `AlmostFullBuilder::Build(size)` for a prefix of the elements. -/
theorem almost_full_builder_prefix (n size : Nat) (ids : List Nat) (h : ∀ id ∈ ids, id < n)
    (hs : size ≤ n) :
    ∃ s r, AlmostFull.addAll ⟨n, none⟩ ids = some s ∧ s.buildSize size = some r ∧
      (ids = [] → r = []) ∧ (ids ≠ [] → r.length = bitmapSize size ∧
        ∀ i, i < size → (bitAt r i = true ↔ i ∉ ids)) := by
  obtain ⟨s, e1, e2, e3⟩ := almost_full_builder n ids h
  unfold AlmostFull.buildSize bufSlice
  by_cases h0 : bitmapSize size = 0
  · refine ⟨s, [], e1, by simp [h0], fun _ => rfl, fun _ => ⟨by simp [h0], ?_⟩⟩
    intro i hi
    rw [bitmapSize_eq] at h0; omega
  · refine ⟨s, s.build.take (bitmapSize size), e1, by simp [h0], ?_, ?_⟩
    · intro hx; rw [e2.2 hx]; simp
    · intro hx
      obtain ⟨e4, e5⟩ := e3 hx
      rw [bitmapSize_eq] at e4
      refine ⟨by simp only [List.length_take, bitmapSize_eq]; omega, ?_⟩
      intro i hi
      rw [← e5 i (by omega)]
      unfold bitAt wd
      rw [List.getElem?_take, if_pos (by rw [bitmapSize_eq]; omega)]

example : ((Builder.new [0xDEADBEEF, 0x12345678]).addChunks
      [[true, false, true], List.replicate 34 true, [false]]).map Builder.build =
    some [0xFFFFFFFD, 0x1F] ∧
    ((Builder.new [0xDEADBEEF]).addChunks [[true], [true]]).map Builder.build = some [] ∧
    (AlmostFull.addAll ⟨37, none⟩ [3, 36, 3]).map AlmostFull.build = some [0xFFFFFFF7, 0xF] := by
  decide +kernel

/-! ## C52 -/

/-- C52: `IterateByGroups` visits every position of the range exactly once, in order, with its
bit, reading only words of the bitmap. -/
theorem iterate_by_groups (bm : List Word) (first count : Nat)
    (h : first + count ≤ 32 * bm.length) :
    iterateByGroups bm first count =
      some ((List.range count).map (fun i => (i, bitAt bm (first + i)))) :=
  iterateByGroups_spec h

/-- C52: `Iterate`; an empty bitmap is "all present". -/
theorem iterate_all (bm : List Word) (first count : Nat)
    (h : bm = [] ∨ first + count ≤ 32 * bm.length) :
    iterate bm first count =
      some ((List.range count).map (fun i => decide (bm = []) || bitAt bm (first + i))) :=
  iterate_spec h

example : iterate [0xA0000000, 0x5] 29 6 = some [true, false, true, true, false, true] ∧
    iterate [] 3 2 = some [true, true] := by decide +kernel

end Verif.Bitmap
