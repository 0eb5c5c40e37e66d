import Verif.Dense.DenseLemmas

/-!
# C11–C13, C53: dense arrays

All statements are about `elems a`, the sequence of optional values represented by the array.
-/

namespace Verif.Dense
open Verif.Bits Verif.Bitmap

variable {α : Type}

/-! ## C11 -/

/-- C11: element access returns the represented element and never leaves the buffers. -/
theorem element_access (a : DArr α) (hv : a.Valid) (i : Nat) (hi : i < a.size) :
    a.at? i = (elems a)[i]? := by
  rw [at_eq hv hi, elems_get?, if_pos (show i < a.values.length from hi)]

/-- C11: `Slice` is the sub-sequence, and preserves the class invariant. -/
theorem slice_elements (a : DArr α) (hv : a.Valid) (start count : Nat)
    (h : start + count ≤ a.size) :
    ∃ r, a.slice start count = some r ∧ r.Valid ∧ elems r = ((elems a).drop start).take count :=
  slice_spec hv h

/-- C11: slicing a slice is slicing. -/
theorem slice_slice (a : DArr α) (hv : a.Valid) (s1 c1 s2 c2 : Nat) (h1 : s1 + c1 ≤ a.size)
    (h2 : s2 + c2 ≤ c1) :
    ∃ r1 r2 r3, a.slice s1 c1 = some r1 ∧ r1.slice s2 c2 = some r2 ∧
      a.slice (s1 + s2) c2 = some r3 ∧ elems r2 = elems r3 := by
  obtain ⟨r1, e1, v1, x1⟩ := slice_spec hv (start := s1) (count := c1) h1
  have hl : r1.values.length = c1 := by
    rw [← elems_length, x1, List.length_take, List.length_drop, elems_length]
    unfold DArr.size at h1; omega
  obtain ⟨r2, e2, v2, x2⟩ := slice_spec v1 (start := s2) (count := c2) (by omega)
  obtain ⟨r3, e3, v3, x3⟩ := slice_spec hv (start := s1 + s2) (count := c2)
    (by unfold DArr.size at h1; omega)
  refine ⟨r1, r2, r3, e1, e2, e3, ?_⟩
  rw [x2, x1, x3, List.drop_take, List.take_take, List.drop_drop, Nat.min_eq_left (by omega)]

/-- C11: `ForceNoBitmapBitOffset` changes the representation only. -/
theorem force_no_offset_elements (a : DArr α) (hv : a.Valid) :
    ∃ r, a.forceNoOffset = some r ∧ r.Valid ∧ r.off = 0 ∧ elems r = elems a :=
  forceNoOffset_spec hv

/-- C11: `PresentCount` counts the present elements. -/
theorem present_count (a : DArr α) (hv : a.Valid) :
    a.presentCount = some ((elems a).countP Option.isSome) := presentCount_spec hv

/-- C11: `IsFull`, `IsAllMissing`, `IsAllPresent`. -/
theorem presence_queries (a : DArr α) (hv : a.Valid) :
    (∃ b, a.isFull = some b ∧ (b = true ↔ ∀ x ∈ elems a, x.isSome = true)) ∧
    (∃ b, a.isAllPresent = some b ∧ (b = true ↔ ∀ x ∈ elems a, x.isSome = true)) ∧
    (∃ b, a.isAllMissing = some b ∧ (b = true ↔ ∀ x ∈ elems a, x = none)) := by
  have hfull : ((elems a).countP Option.isSome = a.size) ↔ ∀ x ∈ elems a, x.isSome = true := by
    rw [show a.size = (elems a).length from (elems_length a).symm]
    exact List.countP_eq_length
  refine ⟨⟨_, by rw [DArr.isFull, present_count a hv]; rfl, ?_⟩, ?_, ⟨_, by
    rw [DArr.isAllMissing, present_count a hv]; rfl, ?_⟩⟩
  · rw [decide_eq_true_eq, hfull]
  · unfold DArr.isAllPresent
    by_cases hb : a.bitmap = []
    · rw [if_pos hb]
      refine ⟨true, rfl, ?_⟩
      simp only [true_iff]
      intro x hx
      unfold elems at hx
      rw [List.mem_map] at hx
      obtain ⟨i, hi, rfl⟩ := hx
      simp [elem, hb, List.mem_range.1 hi]
    · rw [if_neg hb, present_count a hv]
      refine ⟨_, rfl, ?_⟩
      rw [decide_eq_true_eq, hfull]
  · rw [decide_eq_true_eq, List.countP_eq_zero]
    simp

/-- C53: `ForEach` visits every element exactly once, in order; the presence flag and the value
(when present) are those of the element. -/
theorem for_each_visits (a : DArr α) (hv : a.Valid) :
    ∃ l, a.forEach = some l ∧
      l.map (fun x => (x.1, if x.2.1 then some x.2.2 else none)) =
        (List.range a.size).map (fun i => (i, ((elems a)[i]?).join)) := by
  refine ⟨_, forEach_visits hv, ?_⟩
  rw [visits_elems]
  apply List.map_congr_left
  intro i hi
  rw [elems_get?, if_pos (List.mem_range.1 hi)]; rfl

/-- C53: `ForEachPresent` visits exactly the present elements, in order. -/
theorem for_each_present_visits (a : DArr α) (hv : a.Valid) :
    a.forEachPresent = some ((List.range a.size).filterMap
      (fun i => ((elems a)[i]?).join.map (fun v => (i, v)))) := by
  unfold DArr.forEachPresent
  obtain ⟨l, e1, e2⟩ := for_each_visits a hv
  rw [e1]
  simp only [Option.bind_eq_bind, Option.bind_some]
  congr 1
  have := congrArg (List.filterMap (fun x : Nat × Option α => x.2.map (fun v => (x.1, v)))) e2
  rw [List.filterMap_map, List.filterMap_map] at this
  rw [show (fun (x : Nat × Bool × α) => match x with
      | (i, b, v) => if b = true then some (i, v) else none) =
      ((fun x : Nat × Option α => x.2.map (fun v => (x.1, v))) ∘
        fun x => (x.1, if x.2.1 then some x.2.2 else none)) from ?_]
  · exact this
  · funext ⟨i, b, v⟩
    cases b <;> rfl

/-- Array used in the examples: bitmap with offset 30, elements 0..3, elements 1 and 2 missing. -/
def exArr : DArr Nat := ⟨[10, 11, 12, 13], [0x40000000, 0x2], 30⟩

example : exArr.Valid ∧ elems exArr = [some 10, none, none, some 13] ∧
    (exArr.slice 1 3).map elems = some [none, none, some 13] ∧
    exArr.forceNoOffset = some ⟨[10, 11, 12, 13], [0x9], 0⟩ ∧ exArr.presentCount = some 2 ∧
    exArr.forEachPresent = some [(0, 10), (3, 13)] := by decide +kernel

/-! ## C12 -/

/-- C12: after any sequence of `Set`/`SetNConst` calls in range, over an arbitrary uninitialised
value buffer, `Build` returns the array whose element `i` is the last present value written to
`i`, or missing if none was. -/
theorem builder_elements (mem : List α) (ops : List (DBuilder.Op α))
    (h : ∀ o ∈ ops, opOk mem.length o) :
    ∃ b, (DBuilder.new mem).applyAll ops = some b ∧ b.build.Valid ∧
      elems b.build = (List.range mem.length).map (ops.foldl opEffect (fun _ => none)) := by
  obtain ⟨b, e1, e2⟩ := applyAll_inv ops _ _ (new_inv mem) h
  exact ⟨b, e1, elems_of_inv e2⟩

/-- C12: `Build(size)` returns the prefix. -/
theorem builder_prefix (mem : List α) (ops : List (DBuilder.Op α))
    (h : ∀ o ∈ ops, opOk mem.length o) (size : Nat) (hs : size ≤ mem.length) :
    ∃ b, (DBuilder.new mem).applyAll ops = some b ∧ (b.buildSize size).Valid ∧
      elems (b.buildSize size) = (List.range size).map (ops.foldl opEffect (fun _ => none)) := by
  obtain ⟨b, e1, e2⟩ := applyAll_inv ops _ _ (new_inv mem) h
  exact ⟨b, e1, elems_of_inv_prefix e2 hs⟩

/-- C12: `CreateDenseArray` represents exactly the given optional values, whatever the
uninitialised memory and the values stored for missing elements are. -/
theorem create_elements (mem : List Word) (dflt : α) (data : List (Option α))
    (hm : mem.length = bitmapSize data.length) :
    ∃ r, createDenseArray mem dflt data = some r ∧ r.Valid ∧ elems r = data :=
  createDenseArray_spec mem dflt data hm

example : ((DBuilder.new [7, 7, 7, 7, 7]).applyAll
      [.set 3 (some 1), .setN 1 3 (some 2), .set 1 none, .set 0 none, .set 2 (some 5)]).map
        (fun b => (elems b.build, elems (b.buildSize 2))) =
    some ([none, some 2, some 5, some 2, none], [none, some 2]) ∧
    (createDenseArray [0xAAAA5555] 0 [some 1, none, some 3]).map elems =
      some [some 1, none, some 3] := by decide +kernel

/-! ## C13 -/

/-- C13: `ArraysAreEquivalent` holds iff the arrays have the same size and pairwise equal optional
values (`eq` is `operator==` of the value type, not assumed reflexive), independently of the
representation. -/
theorem equivalent_iff (eq : α → α → Bool) (a b : DArr α) (ha : a.Valid) (hb : b.Valid) :
    ∃ r, DArr.equivalent eq a b = some r ∧
      (r = true ↔ (elems a).length = (elems b).length ∧
        ∀ x ∈ (elems a).zip (elems b), DArr.optEq eq x.1 x.2 = true) := by
  obtain ⟨r, e1, e2⟩ := equivalent_spec (eq := eq) ha hb
  refine ⟨r, e1, e2.trans ?_⟩
  rw [elems_length, elems_length]
  constructor
  · rintro ⟨h1, h2⟩
    refine ⟨h1, ?_⟩
    intro x hx
    obtain ⟨i, hi, rfl⟩ := List.mem_iff_getElem.1 hx
    have hi2 : i < a.values.length := by simp [elems_length] at hi; omega
    have := h2 i hi2
    simpa [elems] using this
  · rintro ⟨h1, h2⟩
    refine ⟨h1, ?_⟩
    intro i hi
    have := h2 ((elem a i), (elem b i)) (by
      rw [List.mem_iff_getElem]
      exact ⟨i, by simp [elems_length]; omega, by simp [elems]⟩)
    exact this

/-- C13: for a lawful equality, equivalence is equality of the represented sequences. -/
theorem equivalent_iff_eq [DecidableEq α] (a b : DArr α) (ha : a.Valid) (hb : b.Valid) :
    ∃ r, DArr.equivalent (fun x y => decide (x = y)) a b = some r ∧
      (r = true ↔ elems a = elems b) := by
  obtain ⟨r, e1, e2⟩ := equivalent_iff (fun x y => decide (x = y)) a b ha hb
  refine ⟨r, e1, e2.trans ?_⟩
  have hopt : ∀ x y : Option α, DArr.optEq (fun x y => decide (x = y)) x y = true ↔ x = y := by
    intro x y; cases x <;> cases y <;> simp [DArr.optEq]
  constructor
  · rintro ⟨h1, h2⟩
    apply List.ext_getElem h1
    intro i hi1 hi2
    have := h2 ((elems a)[i], (elems b)[i]) (by
      rw [List.mem_iff_getElem]
      exact ⟨i, by simp; omega, by simp⟩)
    exact (hopt _ _).1 this
  · intro h
    rw [h]
    refine ⟨rfl, ?_⟩
    intro x hx
    rw [hopt]
    obtain ⟨i, hi, rfl⟩ := List.mem_iff_getElem.1 hx
    simp

/-- C13: the fingerprint input is determined by, and determines, the represented sequence (so for
a collision-free hash the fingerprints are equal iff the elements are). -/
theorem fingerprint_iff (a b : DArr α) (ha : a.Valid) (hb : b.Valid) :
    (∃ t, a.fingerprintTokens = some t) ∧
    (a.fingerprintTokens = b.fingerprintTokens ↔ elems a = elems b) := by
  rw [fingerprint_eq ha, fingerprint_eq hb]
  refine ⟨⟨_, rfl⟩, ?_⟩
  constructor
  · intro h
    simp only [Option.some.injEq, List.cons.injEq, DArr.Tok.size.injEq] at h
    exact optTokens_inj h.2 (by rw [elems_length, elems_length]; exact h.1)
  · intro h
    have hl : a.values.length = b.values.length := by rw [← elems_length, h, elems_length]
    rw [h, hl]

example : DArr.equivalent (fun x y => decide (x = y)) exArr ⟨[10, 5, 6, 13], [9], 0⟩ = some true ∧
    DArr.equivalent (fun x y => decide (x = y)) exArr ⟨[10, 5, 6, 13], [], 0⟩ = some false := by
  decide +kernel

end Verif.Dense
