import Verif.Arr.BuildLemmas

/-!
# Properties of id filters and arrays (C17–C23, C56)
-/

namespace Verif.Arr
open Verif.Bits Verif.Bitmap Verif.Dense
variable {α : Type}

/-! Example arrays: `[_, 7, _, _, 9]` stored sparsely with ids offset 10, `[_, 7, _, _, 9]` stored
densely, `[3, 7, 3, 3, _]` stored with missing_id_value 3. -/

def exSparse : Arr Nat := ⟨5, ⟨.partial', [11, 14], 10⟩, ⟨[7, 9], [], 0⟩, none⟩
def exDense : Arr Nat := ⟨5, .fullF, ⟨[0, 7, 0, 0, 9], [0b10010#32], 0⟩, none⟩
def exMissVal : Arr Nat := ⟨5, ⟨.partial', [1, 4], 0⟩, ⟨[7, 9], [0b01#32], 0⟩, some 3⟩

theorem exSparse_valid : exSparse.Valid := by
  refine ⟨⟨by decide, Or.inl rfl⟩, ⟨by decide, by decide, by decide, by decide⟩, rfl⟩
theorem exDense_valid : exDense.Valid := by
  refine ⟨⟨by decide, Or.inr (by decide)⟩, ⟨rfl, rfl⟩, rfl, rfl⟩
theorem exMissVal_valid : exMissVal.Valid := by
  refine ⟨⟨by decide, Or.inr (by decide)⟩, ⟨by decide, by decide, by decide, by decide⟩, rfl⟩

example : exSparse.elems = [none, some 7, none, none, some 9] := by decide
example : exDense.elems = [none, some 7, none, none, some 9] := by decide
example : exMissVal.elems = [some 3, some 7, some 3, some 3, none] := by decide

/-! ## C17 -/

/-- C17: in a valid filter `IdToOffset(id) = o` exactly if `id` is the `o`-th id. -/
theorem id_to_offset {n : Nat} {f : Filter} (h : f.Valid n) (ht : f.typ = .partial') (id o : Nat) :
    f.idToOffset id = some o ↔ f.zids[o]? = some (id : Int) := idToOffset_iff h ht

/-- C17: `IdToOffset` is missing exactly if the id is not in the filter. -/
theorem id_to_offset_missing {n : Nat} {f : Filter} (h : f.Valid n) (id : Nat) :
    f.idToOffset id = none ↔ ¬ f.Has id := by
  cases ht : f.typ with
  | empty => simp [Filter.idToOffset, Filter.Has, ht]
  | full => simp [Filter.idToOffset, Filter.Has, ht]
  | partial' =>
    unfold Filter.Has
    rw [ht]
    dsimp only
    constructor
    · intro hn hm
      obtain ⟨o, ho⟩ := List.mem_iff_getElem?.1 hm
      rw [(idToOffset_iff h ht).2 ho] at hn
      simp at hn
    · intro hm
      cases he : f.idToOffset id with
      | none => rfl
      | some o => exact absurd (List.mem_of_getElem? ((idToOffset_iff h ht).1 he)) hm

/-- C17: full and empty filters are the identity and constantly missing. -/
theorem id_to_offset_full_empty (id : Nat) :
    Filter.fullF.idToOffset id = some id ∧ Filter.emptyF.idToOffset id = none := ⟨rfl, rfl⟩

/-- C17: the constructor gives a valid filter of exactly the given ids. -/
theorem make_filter {n : Nat} {ids : List Int} {off : Int} (hinc : ids.Pairwise (· < ·))
    (hb : ∀ x ∈ ids, off ≤ x ∧ x < off + n) :
    (mkFilter n ids off).Valid n ∧
    (∀ i, i < n → ((mkFilter n ids off).Has i ↔ (i : Int) + off ∈ ids)) ∧
    (∀ o i : Nat, ids[o]? = some ((i : Int) + off) → (mkFilter n ids off).idToOffset i = some o) :=
  mkFilter_spec hinc hb

/-- C17: reading an element of an array. -/
theorem array_get {a : Arr α} (h : a.Valid) {i : Nat} (hi : i < a.size) : a.at? i = some (a.elem i) :=
  at_spec h hi

example : exSparse.flt.Valid 5 ∧ exSparse.flt.idToOffset 4 = some 1 ∧ exSparse.flt.idToOffset 3 = none :=
  ⟨exSparse_valid.2.1, by decide, by decide⟩
example : (mkFilter 5 [11, 14] 10).idToOffset 1 = some 0 := by decide
example : exMissVal.at? 4 = some none ∧ exMissVal.at? 0 = some (some 3) := by decide

/-! ## C18 -/

/-- C18: `WithIds(ids, m)` keeps the elements with an id in `ids` and gives `m` at all others. -/
theorem with_ids (mem : Nat → α) (bmem : Nat → Word) {pe : List Int → List Int → Bool} (hpe : PtrEq pe)
    {a : Arr α} (h : a.Valid) {ids : Filter} (hids : ids.Valid a.size) (m : Option α) :
    ∃ r, a.withIds mem bmem pe ids m = some r ∧ r.Valid ∧ r.size = a.size ∧
      (0 < a.size → r.flt = ids) ∧
      ∀ i, i < a.size → (ids.Has i → r.elem i = a.elem i) ∧ (¬ ids.Has i → r.elem i = m) := by
  obtain ⟨r, e1, e2, e3, e4, _, e6⟩ := withIds_spec mem bmem hpe h hids m
  exact ⟨r, e1, e2, e3, e4, e6⟩

/-- C18: `ToDenseForm` keeps all elements, and the result is stored densely. -/
theorem to_dense_form (mem : Nat → α) (bmem : Nat → Word) {pe : List Int → List Int → Bool} (hpe : PtrEq pe)
    {a : Arr α} (h : a.Valid) :
    ∃ r, a.toDenseForm mem bmem pe = some r ∧ r.Valid ∧ r.elems = a.elems ∧
      (0 < a.size → r.flt.typ = .full) := by
  obtain ⟨r, e1, e2, e3, e4, _, e6⟩ := withIds_spec mem bmem hpe h (ids := .fullF) ⟨rfl, rfl⟩ none
  refine ⟨r, e1, e2, aelems_ext e3 (fun i hi => (e6 i (by omega)).1 trivial), fun hs => by rw [e4 hs]; rfl⟩

/-- C18: `ToSparseForm(m)` keeps all elements and stores exactly those different from `m`. -/
theorem to_sparse_form [DecidableEq α] (mem : Nat → α) (bmem : Nat → Word)
    {pe : List Int → List Int → Bool} (hpe : PtrEq pe) {a : Arr α} (h : a.Valid) (m : Option α) :
    ∃ r, a.toSparseForm mem bmem pe m = some r ∧ r.Valid ∧ r.elems = a.elems ∧
      ∀ i, i < a.size → (r.flt.Has i ↔ a.elem i ≠ m) := by
  obtain ⟨r, e1, e2, e3, e4⟩ := toSparseForm_spec mem bmem hpe h m
  exact ⟨r, e1, e2, aelems_ext e3 (fun i hi => (e4 i (by omega)).1), fun i hi => (e4 i hi).2⟩

example : PtrEq (fun _ _ => false) := by simp [PtrEq]
example : PtrEq (fun x y => decide (x = y)) := by simp [PtrEq]
example : (exMissVal.toSparseForm (fun _ => 0) (fun _ => 0) (fun _ _ => false) none).map
    (fun r => (r.elems, r.flt.ids)) = some ([some 3, some 7, some 3, some 3, none], [0, 1, 2, 3]) := by
  decide +kernel
example : (exDense.toSparseForm (fun _ => 0) (fun _ => 0) (fun _ _ => false) (some 7)).map
    (fun r => (r.elems, r.flt.ids)) = some ([none, some 7, none, none, some 9], [0, 2, 3, 4]) := by
  decide +kernel
example : (exSparse.withIds (fun _ => 0) (fun _ => 0) (fun _ _ => false) ⟨.partial', [1, 2], 0⟩ (some 5)).map
    Arr.elems = some [some 5, some 7, none, some 5, some 5] := by decide +kernel

/-! ## C19 -/

/-- C19: `Slice(start, count)` is the given part of the element sequence. -/
theorem array_slice {a : Arr α} (h : a.Valid) {start count : Nat} (hc : start + count ≤ a.size) :
    ∃ r, a.slice start count = some r ∧ r.Valid ∧ r.elems = (a.elems.drop start).take count := by
  obtain ⟨r, e1, e2, e3, e4⟩ := slice_arr_spec h hc
  refine ⟨r, e1, e2, ?_⟩
  apply List.ext_getElem?
  intro i
  rw [List.getElem?_take, List.getElem?_drop]
  by_cases hi : i < count
  · rw [if_pos hi, aelems_get (by omega), aelems_get (by omega), e4 i hi]
  · rw [if_neg hi, List.getElem?_eq_none_iff.2 (by rw [aelems_length]; omega)]

/-- C19: `PresentCount` is the number of present elements. -/
theorem array_present_count {a : Arr α} (h : a.Valid) :
    a.presentCount = some (a.elems.countP Option.isSome) := presentCount_arr_spec h

example : (exSparse.slice 1 3).map Arr.elems = some [some 7, none, none] := by decide +kernel
example : ((exMissVal.slice 1 4).bind (fun r => r.slice 2 2)).map Arr.elems = some [some 3, none] := by
  decide +kernel
example : exMissVal.presentCount = some 4 := by decide +kernel

/-! ## C20 -/

/-- C20 (what holds): the full claim is that `ArraysAreEquivalent` is true exactly if the sizes and all
elements agree.  It is false for empty arrays with different missing_id_value, see
`array_equivalence_counterexample`; for all others it holds. -/
theorem array_equivalence_partial [DecidableEq α] (mem : Nat → α) (bmem : Nat → Word)
    {pe pe1 pe2 : List Int → List Int → Bool} (hpe : PtrEq pe) (hpe1 : PtrEq pe1) (hpe2 : PtrEq pe2)
    {a b : Arr α} (ha : a.Valid) (hb : b.Valid) (hs : 0 < a.size ∨ a.miss = b.miss) :
    ∃ r, Arr.equivalent mem bmem pe pe1 pe2 a b = some r ∧ (r = true ↔ a.elems = b.elems) := by
  obtain ⟨r, e1, e2⟩ := equivalent_arr_spec mem bmem hpe hpe1 hpe2 ha hb
  refine ⟨r, e1, e2.trans ?_⟩
  constructor
  · rintro ⟨h1, h2, _⟩; exact aelems_ext h1 h2
  · intro h
    have hs' : a.size = b.size := by rw [← aelems_length, h, aelems_length]
    refine ⟨hs', ?_, ?_⟩
    · intro i hi
      have := congrArg (·[i]?) h
      simp only [aelems_get hi, aelems_get (show i < b.size by omega)] at this
      simpa using this
    · intro h0
      rcases hs with hs | hs
      · omega
      · exact hs

/-- C20: exactly which arrays are reported as equivalent. -/
theorem array_equivalence_exact [DecidableEq α] (mem : Nat → α) (bmem : Nat → Word)
    {pe pe1 pe2 : List Int → List Int → Bool} (hpe : PtrEq pe) (hpe1 : PtrEq pe1) (hpe2 : PtrEq pe2)
    {a b : Arr α} (ha : a.Valid) (hb : b.Valid) :
    ∃ r, Arr.equivalent mem bmem pe pe1 pe2 a b = some r ∧
      (r = true ↔ a.size = b.size ∧ (∀ i, i < a.size → a.elem i = b.elem i) ∧
        (a.size = 0 → a.miss = b.miss)) := equivalent_arr_spec mem bmem hpe hpe1 hpe2 ha hb

/-- C20 (finding): two empty arrays are not equivalent if their missing_id_value differs. -/
theorem array_equivalence_counterexample :
    ∃ a b : Arr Nat, a.Valid ∧ b.Valid ∧ a.elems = b.elems ∧
      Arr.equivalent (fun _ => 0) (fun _ => 0) (fun _ _ => false) (fun _ _ => false) (fun _ _ => false) a b =
        some false :=
  ⟨.ofConst 0 none, .ofConst 0 (some 1), ofConst_valid _ _, ofConst_valid _ _, by decide, by decide +kernel⟩

example : Arr.equivalent (fun _ => 0) (fun _ => 0) (fun _ _ => false) (fun _ _ => false) (fun _ _ => false)
    exSparse exDense = some true := by decide +kernel
example : Arr.equivalent (fun _ => 0) (fun _ => 0) (fun _ _ => false) (fun _ _ => false) (fun _ _ => false)
    exSparse exMissVal = some false := by decide +kernel

/-! ## C21 -/

/-- C21 (what holds): arrays whose ids are stored with the same offset and which feed the same data to the
hasher have the same elements.  The full claim has no condition on the offset; it is false, see
`array_fingerprint_counterexample`. -/
theorem array_fingerprint_partial {a b : Arr α} (ha : a.Valid) (hb : b.Valid) (ho : a.flt.off = b.flt.off)
    (h : a.fingerprintTokens = b.fingerprintTokens) : a.elems = b.elems := by
  obtain ⟨h1, h2, h3, h4, h5⟩ := fingerprint_arr_inj ha hb h
  exact aelems_ext h1 (fun i hi => elem_of_same ha hb h2 h3 h4 h5 ho i h1 hi)

/-- C21: the fingerprint of a valid array is always defined. -/
theorem array_fingerprint_defined {a : Arr α} (ha : a.Valid) : ∃ t, a.fingerprintTokens = some t :=
  ⟨_, fingerprint_arr_eq ha⟩

/-- C21 (finding): slices of one array which differ in an element have the same fingerprint. -/
theorem array_fingerprint_counterexample :
    ∃ a b c : Arr Nat, a.Valid ∧ a.slice 4 4 = some b ∧ a.slice 5 4 = some c ∧ b.Valid ∧ c.Valid ∧
      b.elems ≠ c.elems ∧ b.fingerprintTokens = c.fingerprintTokens := by
  refine ⟨⟨10, ⟨.partial', [5, 7], 0⟩, ⟨[1, 2], [], 0⟩, none⟩, ⟨4, ⟨.partial', [5, 7], 4⟩, ⟨[1, 2], [], 0⟩, none⟩,
    ⟨4, ⟨.partial', [5, 7], 5⟩, ⟨[1, 2], [], 0⟩, none⟩, ?_, by decide +kernel, by decide +kernel, ?_, ?_,
    by decide, by decide +kernel⟩
  · refine ⟨⟨by decide, Or.inl rfl⟩, ⟨by decide, by decide, by decide, by decide⟩, rfl⟩
  · refine ⟨⟨by decide, Or.inl rfl⟩, ⟨by decide, by decide, by decide, by decide⟩, rfl⟩
  · refine ⟨⟨by decide, Or.inl rfl⟩, ⟨by decide, by decide, by decide, by decide⟩, rfl⟩

example : exMissVal.fingerprintTokens ≠ exDense.fingerprintTokens := by decide +kernel

/-! ## C22 -/

/-- C22: `UpperBoundMerge` gives a valid filter containing all ids of all given filters. -/
theorem filter_merge {pe : List Int → List Int → Bool} (hpe : PtrEq pe) {n : Nat} {f : Filter}
    {fs : List Filter} (hf : f.Valid n) (hfs : ∀ g ∈ fs, g.Valid n) :
    ∃ r, merge pe n f fs = some r ∧ r.Valid n ∧ ∀ i, i < n → (∃ g ∈ f :: fs, g.Has i) → r.Has i :=
  merge_spec hpe fs f hf hfs

/-- C22: `UpperBoundIntersect` gives one of the filters, and it contains all ids common to all. -/
theorem filter_intersect {n : Nat} {f : Filter} {fs : List Filter} (hf : f.Valid n)
    (hfs : ∀ g ∈ fs, g.Valid n) :
    (intersect f fs).Valid n ∧ (∀ i, (∀ g ∈ f :: fs, g.Has i) → (intersect f fs).Has i) ∧
    (∃ g ∈ f :: fs, intersect f fs = g) := intersect_spec fs f hf hfs

/-- C22: `ForEachCommonId` visits exactly the common ids, increasingly and with their offsets. -/
theorem for_each_common_id {n m : Nat} {f g : Filter} (hf : f.Valid n) (hg : g.Valid m)
    (htf : f.typ = .partial') (htg : g.typ = .partial') :
    ∃ out, forEachCommonId f.ids f.off g.ids g.off = some out ∧
      (∀ id o1 o2, (id, o1, o2) ∈ out ↔ f.zids[o1]? = some id ∧ g.zids[o2]? = some id) ∧
      out.Pairwise (fun c d => c.1 < d.1) :=
  forEachCommonId_spec (hf.inc htf) (hg.inc htg) (fvalid_partial hf htf).1 (fvalid_partial hg htg).1

example : merge (fun _ _ => false) 20 ⟨.partial', [1, 4], 0⟩ [⟨.partial', [12, 14], 10⟩, .emptyF] =
    some ⟨.partial', [1, 2, 4], 0⟩ := by decide +kernel
example : intersect ⟨.partial', [1, 4], 0⟩ [⟨.partial', [12], 10⟩, .fullF] = ⟨.partial', [12], 10⟩ := by
  decide +kernel
example : forEachCommonId [1, 4, 6] 0 [12, 14, 16] 10 = some [(4, 1, 1), (6, 2, 2)] := by decide +kernel

/-! ## C23 -/

/-- C23: `CreateArray(data)` has exactly the given elements. -/
theorem create_array (bmem : List Word) (dflt : α) (data : List (Option α))
    (hm : bmem.length = bitmapSize data.length) :
    ∃ r, createArray bmem dflt data = some r ∧ r.Valid ∧ r.elems = data := by
  unfold createArray
  obtain ⟨d, e1, e2, e3⟩ := Dense.createDenseArray_spec bmem dflt data hm
  rw [e1]
  refine ⟨_, rfl, ofDense_valid e2, ?_⟩
  unfold Arr.elems
  rw [← e3]
  exact List.map_congr_left (fun i _ => ofDense_elem _ _)

/-- C23: `CreateArray(size, ids, values)` has the given values at the given ids, whichever form is
chosen. -/
theorem create_array_ids (mem : Nat → α) {size : Nat} {ids : List Nat} {values : List (Option α)}
    (hl : ids.length = values.length) (hinc : ids.Pairwise (· < ·)) (hb : ∀ i ∈ ids, i < size) :
    ∃ r, createArrayIds mem size ids values = some r ∧ r.Valid ∧ r.size = size ∧
      (∀ o i : Nat, ids[o]? = some i → some (r.elem i) = values[o]?) ∧
      (∀ i, i < size → i ∉ ids → r.elem i = none) := createArrayIds_spec mem hl hinc hb

/-- C23: `SparseArrayBuilder`: the array has, at the `o`-th added id, the last value given for offset
`o`, and no other elements. -/
theorem sparse_array_builder {size : Nat} (mem : List α) (idmem : List Int)
    (hm : idmem.length = mem.length) {ops : List (SOp α)} (hcnt : (sIds ops).length ≤ mem.length)
    (hset : ∀ o v, SOp.setByOffset o v ∈ ops → o < mem.length)
    (hinc : (sIds ops).Pairwise (· < ·)) (hb : ∀ i ∈ sIds ops, i < size) :
    ∃ b, (SBuilder.new size mem idmem).applyAll ops = some b ∧ b.build.Valid ∧ b.build.size = size ∧
      (∀ o i : Nat, (sIds ops)[o]? = some i → b.build.elem i = sVals 0 (fun _ => none) ops o) ∧
      (∀ i, i < size → i ∉ sIds ops → b.build.elem i = none) :=
  sbuilder_spec mem idmem hm hcnt hset hinc hb

example : (createArrayIds (fun _ => 0) 9 [2, 7] [some 5, none]).map Arr.elems =
    some [none, none, some 5, none, none, none, none, none, none] := by decide +kernel
example : (createArrayIds (fun _ => 0) 4 [1, 2] [some 5, some 6]).map Arr.elems =
    some [none, some 5, some 6, none] := by decide +kernel
example : ((SBuilder.new 6 [0, 0, 0] [0, 0, 0]).applyAll
    [.add 1 (some 4), .addId 3, .add 5 none, .setByOffset 1 (some 8)]).map (fun b => b.build.elems) =
    some [none, some 4, none, some 8, none, none] := by decide +kernel

/-! ## C56 -/

/-- C56: the calls of `ForEach` cover each element exactly once, in order. -/
theorem array_for_each {a : Arr α} (h : a.Valid) :
    ∃ calls, a.forEach = some calls ∧
      calls.flatMap Arr.Call.expand = (List.range a.size).map (fun (i : Nat) => ((i : Int), a.elem i)) :=
  forEach_arr_spec h

/-- C56: the calls of `ForEachPresent` cover exactly the present elements, in order. -/
theorem array_for_each_present {a : Arr α} (h : a.Valid) :
    ∃ calls, a.forEachPresent = some calls ∧
      calls.flatMap Arr.Call.expand =
        ((List.range a.size).map (fun (i : Nat) => ((i : Int), a.elem i))).filter (fun p => p.2.isSome) :=
  forEachPresent_arr_spec h

example : exMissVal.forEach = some [.rep 0 1 (some 3), .one 1 (some 7), .rep 2 2 (some 3), .one 4 none] := by
  decide +kernel
example : exMissVal.forEachPresent = some [.rep 0 1 (some 3), .one 1 (some 7), .rep 2 2 (some 3)] := by
  decide +kernel
example : exSparse.forEachPresent = some [.one 1 (some 7), .one 4 (some 9)] := by decide +kernel

end Verif.Arr
