import Verif.DOps.FactLemmas
import Verif.EdgeOps.OpsLemmas

/-! Properties C123–C126: array operators on dense arrays. -/

namespace Verif.DOps
open Verif.Bits Verif.Bitmap Verif.Dense

variable {α β V R : Type}

/-! ## C123: access, slices, concatenation -/

/-- C123: `array.at` gives element `id` for `0 ≤ id < size` and the error that names `id` for every
other index. -/
theorem at_element (a : DArr α) (hv : a.Valid) (id : Int) :
    (0 ≤ id → id < (elems a).length → ∃ x, (elems a)[id.toNat]? = some x ∧ atOp a id = some (.ok x)) ∧
    (id < 0 ∨ (elems a).length ≤ id → atOp a id = some (.error id)) ∧
    atOptOp a (some id) = atOp a id ∧ atOptOp a none = some (.ok none) := by
  refine ⟨?_, ?_, rfl, rfl⟩
  · intro h1 h2
    have h3 : id.toNat < (elems a).length := by omega
    refine ⟨(elems a)[id.toNat], List.getElem?_eq_getElem h3, ?_⟩
    rw [atOp_spec hv, if_pos ⟨h1, h2⟩, List.getElem?_eq_getElem h3]
    rfl
  · intro h
    rw [atOp_spec hv, if_neg (by omega)]

/-- C123: `array.at` with a list of indices: if all present indices are in range, the result has one
element per index, missing for a missing index and the element of the array otherwise. -/
theorem at_list (mem : Nat → α) (a : DArr α) (hv : a.Valid) (ids : DArr Int) (hi : ids.Valid) (ho : ids.off = 0)
    (hr : ∀ id, some id ∈ elems ids → 0 ≤ id ∧ id < (elems a).length) :
    ∃ r, atListOp mem a ids = some (.ok r) ∧ r.Valid ∧ r.off = 0 ∧
      elems r = (elems ids).map (fun x => x.bind (fun id => (elems a)[id.toNat]?.join)) := by
  have key := atListOp_spec mem hv hi ho
  have : ∀ (l : List (Option Int)), (∀ id, some id ∈ l → 0 ≤ id ∧ id < (elems a).length) →
      l.mapM (atSpec (elems a)) = .ok (l.map (fun x => x.bind (fun id => (elems a)[id.toNat]?.join))) := by
    intro l
    induction l with
    | nil => intro _; rfl
    | cons x xs ih =>
      intro h
      rw [List.mapM_cons, ih (fun id hid => h id (by simp [hid]))]
      cases x with
      | none => rfl
      | some id =>
        unfold atSpec
        dsimp only
        rw [if_pos (h id (by simp))]
        rfl
  rw [this _ hr] at key
  exact key

/-- C123: an index out of range makes the evaluation fail, with the first such index in the error. -/
theorem at_list_error (mem : Nat → α) (a : DArr α) (hv : a.Valid) (ids : DArr Int) (hi : ids.Valid)
    (ho : ids.off = 0) (pre post : List (Option Int)) (bad : Int) (he : elems ids = pre ++ some bad :: post)
    (hp : ∀ id, some id ∈ pre → 0 ≤ id ∧ id < (elems a).length)
    (hb : bad < 0 ∨ (elems a).length ≤ bad) :
    atListOp mem a ids = some (.error bad) := by
  have key := atListOp_spec mem hv hi ho
  have : ∀ (l : List (Option Int)), (∀ id, some id ∈ l → 0 ≤ id ∧ id < (elems a).length) →
      (l ++ some bad :: post).mapM (atSpec (elems a)) = .error bad := by
    intro l
    induction l with
    | nil =>
      intro _
      rw [List.nil_append, List.mapM_cons]
      unfold atSpec
      dsimp only
      rw [if_neg (by omega)]; rfl
    | cons x xs ih =>
      intro h
      rw [List.cons_append, List.mapM_cons, ih (fun id hid => h id (by simp [hid]))]
      cases x with
      | none => rfl
      | some id =>
        unfold atSpec
        dsimp only
        rw [if_pos (h id (by simp))]
        rfl
  rw [he, this pre hp] at key
  exact key

/-- C123: `array.slice` succeeds exactly when `0 ≤ offset ≤ n` and `-1 ≤ size ≤ n - offset`, and then
gives `size` elements from `offset` on (all remaining ones for `-1`). -/
theorem slice_operator (a : DArr α) (hv : a.Valid) (offset size : Int) :
    (0 ≤ offset ∧ offset ≤ (elems a).length ∧ -1 ≤ size ∧ offset + size ≤ (elems a).length →
      ∃ r, sliceOp a offset size = some (.ok r) ∧ r.Valid ∧ r.off = 0 ∧
        elems r = if size = -1 then (elems a).drop offset.toNat
          else ((elems a).drop offset.toNat).take size.toNat) ∧
    (¬(0 ≤ offset ∧ offset ≤ (elems a).length ∧ -1 ≤ size ∧ offset + size ≤ (elems a).length) →
      ∃ e, sliceOp a offset size = some (.error e)) := by
  constructor
  · rintro ⟨h1, h2, h3, h4⟩
    obtain ⟨r, e1, e2, e3, e4⟩ := sliceOp_spec hv offset size ⟨h1, h2⟩ ⟨h3, by omega⟩
    refine ⟨r, e1, e2, e3, ?_⟩
    rw [e4]
    by_cases hs : size = -1
    · rw [if_pos hs, if_pos hs, List.take_of_length_le (by rw [List.length_drop])]
    · rw [if_neg hs, if_neg hs]
  · intro h
    exact sliceOp_error offset size (by omega)

/-- C123: `array.concat` is concatenation of the sequences, whatever the memory holds, and its result
can be used by operators that do not support bit offsets. -/
theorem concat_operator (mem : Nat → α) (a b : DArr α) (ha : a.Valid) (hb : b.Valid) :
    ∃ r, concatOp mem a b = some r ∧ r.Valid ∧ r.off = 0 ∧ elems r = elems a ++ elems b :=
  concatOp_spec mem ha hb

/-- C123: cutting an array in two and concatenating the parts gives the array. -/
theorem concat_slices (mem : Nat → α) (a : DArr α) (hv : a.Valid) (k : Nat) (hk : k ≤ (elems a).length) :
    ∃ x y r, sliceOp a 0 k = some (.ok x) ∧ sliceOp a k (-1) = some (.ok y) ∧ concatOp mem x y = some r ∧
      elems r = elems a := by
  obtain ⟨x, e1, e2, _, e4⟩ := (slice_operator a hv 0 k).1 (by omega)
  obtain ⟨y, f1, f2, _, f4⟩ := (slice_operator a hv k (-1)).1 (by omega)
  obtain ⟨r, g1, _, _, g4⟩ := concat_operator mem x y e2 f2
  refine ⟨x, y, r, e1, f1, g1, ?_⟩
  rw [g4, e4, f4, if_neg (by omega), if_pos rfl]
  simp

/-- C123: the parts of a concatenation are the arguments. -/
theorem slices_of_concat (mem : Nat → α) (a b : DArr α) (ha : a.Valid) (hb : b.Valid) :
    ∃ r x y, concatOp mem a b = some r ∧ sliceOp r 0 (elems a).length = some (.ok x) ∧
      sliceOp r (elems a).length (-1) = some (.ok y) ∧ elems x = elems a ∧ elems y = elems b := by
  obtain ⟨r, g1, g2, _, g4⟩ := concat_operator mem a b ha hb
  have hl : (elems r).length = (elems a).length + (elems b).length := by rw [g4, List.length_append]
  obtain ⟨x, e1, _, _, e4⟩ := (slice_operator r g2 0 (elems a).length).1 (by omega)
  obtain ⟨y, f1, _, _, f4⟩ := (slice_operator r g2 (elems a).length (-1)).1 (by omega)
  refine ⟨r, x, y, g1, e1, f1, ?_, ?_⟩
  · rw [e4, if_neg (by omega), g4]; simp
  · rw [f4, if_pos rfl, g4]; simp

example : (atOp (⟨[4, 5, 6], [5#32], 0⟩ : DArr Nat) 2, atOp (⟨[4, 5, 6], [5#32], 0⟩ : DArr Nat) 1) =
    (some (.ok (some 6)), some (.ok none)) := by rfl

example : ((concatOp (fun _ => 9) (⟨[4, 5, 6], [10#32], 1⟩ : DArr Nat) ⟨[7, 8], [], 0⟩).map elems) =
    some [some 4, none, some 6, some 7, some 8] := by decide +kernel

/-! ## C124: present indices and values -/

/-- C124: `array._present_indices` gives the positions of present elements in increasing order, and
`array.present_values` the values at these positions. -/
theorem present_indices_values (mem : Nat → Int) (mem' : Nat → α) (m : DArr Unit) (hm : m.Valid)
    (a : DArr α) (ha : a.Valid) :
    (∃ r, presentIndices mem m = some r ∧ r.Valid ∧ r.off = 0 ∧ ∃ is : List Nat,
      elems r = is.map (fun (n : Nat) => some (n : Int)) ∧ is.Pairwise (· < ·) ∧
      ∀ i, i ∈ is ↔ (elems m)[i]? = some (some ())) ∧
    (∃ r, presentValues mem' a = some r ∧ r.Valid ∧ r.off = 0 ∧
      elems r = (elems a).filter Option.isSome) := by
  constructor
  · refine ⟨_, presentIndices_spec mem hm, valid_full _, rfl, positions (elems m), ?_, ?_, ?_⟩
    · rw [elems_full, List.map_map]; rfl
    · exact List.Pairwise.filter _ List.pairwise_lt_range
    · intro i
      unfold positions
      rw [List.mem_filter, List.mem_range]
      constructor
      · rintro ⟨h1, h2⟩
        rw [List.getElem?_eq_getElem h1] at h2 ⊢
        congr 1
        cases h : (elems m)[i] with
        | none => rw [h] at h2; cases h2
        | some u => rfl
      · intro h
        rw [h]
        refine ⟨?_, rfl⟩
        by_contra hc
        rw [List.getElem?_eq_none (by omega)] at h
        cases h
  · refine ⟨_, presentValues_spec mem' ha, valid_full _, rfl, ?_⟩
    rw [elems_full]
    unfold presents
    induction elems a with
    | nil => rfl
    | cons x xs ih =>
      cases x with
      | none => rw [List.filterMap_cons_none rfl, List.filter_cons_of_neg (by simp)]; exact ih
      | some v =>
        rw [List.filterMap_cons_some (f := id) (a := some v) rfl, List.filter_cons_of_pos rfl,
          List.map_cons, ih]

/-- C124: `array.from_indices_and_values` accepts exactly: as many indices as values, a size that is not
negative, all indices present, strictly increasing and in `[0, size)`. -/
theorem from_indices_accepts (mem : Nat → α) (ids : DArr Int) (vals : DArr α) (hi : ids.Valid) (hv : vals.Valid)
    (size : Int) :
    ((∃ r, fromIndicesAndValues mem ids vals size = some (.ok r)) ↔
      (elems ids).length = (elems vals).length ∧ 0 ≤ size ∧
        ∃ is : List Int, elems ids = is.map some ∧ is.Pairwise (· < ·) ∧ ∀ i ∈ is, 0 ≤ i ∧ i < size) ∧
    ((∃ r, fromIndicesAndValues mem ids vals size = some (.ok r)) ∨
      ∃ e, fromIndicesAndValues mem ids vals size = some (.error e)) := by
  obtain ⟨s, e1, e2⟩ := validateInputs_spec hi vals.values.length size
  have hiff : ((elems ids).length = (elems vals).length ∧ 0 ≤ size ∧
        ∃ is : List Int, elems ids = is.map some ∧ is.Pairwise (· < ·) ∧ ∀ i ∈ is, 0 ≤ i ∧ i < size) ↔ s = .ok () := by
    rw [e2, elems_length, elems_length]
    constructor
    · rintro ⟨h1, h2, is, h3, h4, h5⟩
      have hfull : elems ids = ids.values.map some := full_elems (by rw [h3]; simp)
      have : is = ids.values := by
        rw [hfull] at h3
        exact (List.map_injective_iff.2 (fun _ _ h => Option.some.inj h) h3).symm
      subst this
      exact ⟨h1, h2, hfull, h4, h5⟩
    · rintro ⟨h1, h2, h3, h4, h5⟩
      exact ⟨h1, h2, ids.values, h3, h4, h5⟩
  rw [hiff]
  cases s with
  | error e =>
    have he : fromIndicesAndValues mem ids vals size = some (.error e) := by
      unfold fromIndicesAndValues DArr.size
      rw [e1]; rfl
    refine ⟨⟨?_, fun h => by cases h⟩, Or.inr ⟨_, he⟩⟩
    rintro ⟨r, h⟩
    rw [he] at h
    cases h
  | ok u =>
    obtain ⟨h1, h2, h3, h4⟩ := e2.1 rfl
    obtain ⟨r, g1, _⟩ := fiv_spec mem hi hv (n := size.toNat) h1 h3
      (by rw [Int.toNat_of_nonneg h2]; exact h4)
    rw [Int.toNat_of_nonneg h2] at g1
    exact ⟨⟨fun _ => rfl, fun _ => ⟨r, g1⟩⟩, Or.inl ⟨r, g1⟩⟩

/-- C124: the result has `size` elements; element `j` is `v` exactly when index `j` was given with the
value `v`. -/
theorem from_indices_elements (mem : Nat → α) (ids : DArr Int) (vals : DArr α) (hi : ids.Valid) (hv : vals.Valid)
    (size : Int) (r : DArr α) (h : fromIndicesAndValues mem ids vals size = some (.ok r)) :
    r.Valid ∧ r.off = 0 ∧ (elems r).length = size.toNat ∧
      ∀ (j : Nat) (v : α), (elems r)[j]? = some (some v) ↔
        ∃ k : Nat, (elems ids)[k]? = some (some (j : Int)) ∧ (elems vals)[k]? = some (some v) := by
  obtain ⟨h1, h2, is, h3, h4, h5⟩ := (from_indices_accepts mem ids vals hi hv size).1.1 ⟨r, h⟩
  have hfull : elems ids = ids.values.map some := full_elems (by rw [h3]; simp)
  have his : is = ids.values := by
    rw [hfull] at h3
    exact (List.map_injective_iff.2 (fun _ _ h => Option.some.inj h) h3).symm
  subst his
  rw [elems_length, elems_length] at h1
  obtain ⟨r', g1, g2, g3, g4, g5⟩ := fiv_spec mem hi hv (n := size.toNat) h1 hfull
    (by rw [Int.toNat_of_nonneg h2]; exact ⟨h4, h5⟩)
  rw [Int.toNat_of_nonneg h2, h] at g1
  have hr : r = r' := by
    have := Option.some.inj g1
    exact Except.ok.inj this
  subst hr
  refine ⟨g2, g3, g4, ?_⟩
  intro j v
  rw [g5, hfull]
  constructor
  · rintro ⟨k, h6, h7⟩
    exact ⟨k, by rw [List.getElem?_map, h6]; rfl, h7⟩
  · rintro ⟨k, h6, h7⟩
    refine ⟨k, ?_, h7⟩
    rw [List.getElem?_map, Option.map_eq_some_iff] at h6
    obtain ⟨w, h8, h9⟩ := h6
    rw [h8, Option.some.inj h9]

/-- C124: an array is rebuilt from its present indices and present values. -/
theorem from_indices_round_trip (mem : Nat → Int) (mem' mem'' : Nat → α) (a : DArr α) (ha : a.Valid)
    (m : DArr Unit) (hm : m.Valid) (hma : elems m = (elems a).map (Option.map (fun _ => ()))) :
    ∃ is vs r, presentIndices mem m = some is ∧ presentValues mem' a = some vs ∧
      fromIndicesAndValues mem'' is vs (elems a).length = some (.ok r) ∧ elems r = elems a := by
  refine ⟨⟨(positions (elems m)).map (fun (n : Nat) => (n : Int)), [], 0⟩, ⟨presents (elems a), [], 0⟩, ?_⟩
  have hpos : positions (elems m) = positions (elems a) := by rw [hma, positions_map]
  obtain ⟨r, e1, _, _, e4, e5⟩ := fiv_spec mem''
    (ids := ⟨(positions (elems m)).map (fun (n : Nat) => (n : Int)), [], 0⟩)
    (vals := ⟨presents (elems a), [], 0⟩) (n := (elems a).length) (valid_full _) (valid_full _)
    (by dsimp only; rw [List.length_map, hpos, positions_length, presents_length])
    (by rw [elems_full]) (by dsimp only; rw [hpos]; exact positions_increasing _)
  refine ⟨r, presentIndices_spec mem hm, presentValues_spec mem' ha, e1, ?_⟩
  apply getElem?_ext_some e4
  intro i v
  rw [e5, ← mem_pairs_iff, elems_full]
  dsimp only
  rw [hpos]
  constructor
  · rintro ⟨k, h1, h2⟩
    rw [List.getElem?_map, Option.map_eq_some_iff] at h1 h2
    obtain ⟨w, h3, h4⟩ := h1
    obtain ⟨x, h5, h6⟩ := h2
    refine ⟨k, ?_, ?_⟩
    · rw [h3]; congr 1; omega
    · rw [h5]; exact h6
  · rintro ⟨k, h1, h2⟩
    exact ⟨k, by rw [List.getElem?_map, h1]; rfl, by rw [List.getElem?_map, h2]; rfl⟩

example : (match fromIndicesAndValues (fun _ => 9) (⟨[1, 3, 4], [], 0⟩ : DArr Int)
      (⟨[7, 8, 5], [5#32], 0⟩ : DArr Nat) 6 with
    | some (.ok r) => elems r
    | _ => []) = [none, some 7, none, none, some 5, none] := by decide +kernel

/-! ## C125: unique and select -/

/-- C125: `array.unique`, for any comparison of values: the result has no missing values and is a
subsequence of the present values, no value equals an earlier one, and every present value is kept or
equals a value that was kept. -/
theorem unique_general (eq : α → α → Bool) (mem : Nat → α) (a : DArr α) (hv : a.Valid) :
    ∃ (r : DArr α) (us : List α), uniqueOp eq mem a = some r ∧ r.Valid ∧ r.off = 0 ∧ elems r = us.map some ∧
      us.Sublist ((elems a).filterMap id) ∧ us.Pairwise (fun x y => eq x y = false) ∧
      ∀ v, some v ∈ elems a → v ∈ us ∨ ∃ u ∈ us, eq u v = true := by
  refine ⟨_, _, uniqueOp_spec eq mem hv, valid_full _, rfl, elems_full _, ?_, ?_, ?_⟩
  · obtain ⟨t, h1, h2⟩ := keep_prefix eq (presents (elems a)) []
    rw [h1]
    exact h2
  · exact keep_pairwise eq _ _ List.Pairwise.nil
  · intro v hv'
    exact keep_covers eq _ _ v (List.mem_filterMap.2 ⟨some v, hv', rfl⟩)

/-- C125: for a comparison that is equality, the result holds every present value once, in order of
first occurrence. -/
theorem unique_values [DecidableEq α] (mem : Nat → α) (a : DArr α) (hv : a.Valid) :
    ∃ (r : DArr α) (us : List α), uniqueOp (fun x y => decide (x = y)) mem a = some r ∧ elems r = us.map some ∧ us.Nodup ∧
      (∀ v, v ∈ us ↔ some v ∈ elems a) ∧
      us.Pairwise (fun x y => List.idxOf (some x) (elems a) < List.idxOf (some y) (elems a)) := by
  obtain ⟨h1, h2⟩ := keep_order (presents (elems a)) [] List.nodup_nil
  have hmem : ∀ v, v ∈ presents (elems a) ↔ some v ∈ elems a := by
    intro v
    unfold presents
    rw [List.mem_filterMap]
    constructor
    · rintro ⟨x, h3, h4⟩
      have h4 : x = some v := h4
      rw [← h4]; exact h3
    · intro h; exact ⟨_, h, rfl⟩
  refine ⟨_, _, uniqueOp_spec _ mem hv, elems_full _, ?_, ?_, ?_⟩
  · exact (keep_pairwise _ (presents (elems a)) [] List.Pairwise.nil).imp (fun h => by simpa using h)
  · intro v
    rw [← hmem]
    constructor
    · intro h
      rcases h1 v h with h | h
      · cases h
      · exact h
    · intro h
      rcases keep_covers (fun x y => decide (x = y)) (presents (elems a)) [] v h with h | ⟨u, h3, h4⟩
      · exact h
      · have h4 : u = v := by simpa using h4
        rw [← h4]; exact h3
  · rw [List.nil_append] at h2
    have key : ∀ (xs : List (Option α)) (v w : α), v ∈ presents xs → w ∈ presents xs →
        List.idxOf v (presents xs) < List.idxOf w (presents xs) →
        List.idxOf (some v) xs < List.idxOf (some w) xs := by
      intro xs
      induction xs with
      | nil => intro v w hv'; cases hv'
      | cons x xs ih =>
        intro v w hv' hw' h
        cases x with
        | none =>
          have hp : presents (none :: xs) = presents xs := List.filterMap_cons_none rfl
          rw [hp] at hv' hw' h
          rw [List.idxOf_cons_ne _ (by simp), List.idxOf_cons_ne _ (by simp)]
          have := ih v w hv' hw' h
          omega
        | some y =>
          have hp : presents (some y :: xs) = y :: presents xs :=
            List.filterMap_cons_some (f := id) (a := some y) rfl
          rw [hp] at hv' hw' h
          by_cases hyw : y = w
          · subst hyw
            rw [List.idxOf_cons_self] at h
            omega
          · by_cases hyv : y = v
            · subst hyv
              rw [List.idxOf_cons_self, List.idxOf_cons_ne _ (by simpa using hyw)]
              omega
            · rw [List.idxOf_cons_ne _ hyv, List.idxOf_cons_ne _ hyw] at h
              rw [List.idxOf_cons_ne _ (by simpa using hyv), List.idxOf_cons_ne _ (by simpa using hyw)]
              have := ih v w ((List.mem_cons.1 hv').resolve_left (Ne.symm hyv))
                ((List.mem_cons.1 hw').resolve_left (Ne.symm hyw)) (by omega)
              omega
    exact h2.imp_of_mem (fun {v w} hv' hw' h => key (elems a) v w
      ((h1 v hv').resolve_left (by simp)) ((h1 w hw').resolve_left (by simp)) h)

/-- C125: `array.select` keeps the elements, missing ones included, at the positions where the mask is
present; arrays of different sizes are rejected. -/
theorem select_operator (mem : Nat → α) (a : DArr α) (f : DArr Unit) (ha : a.Valid) (hf : f.Valid) :
    ((elems a).length = (elems f).length → ∃ r, selectOp mem a f = some (.ok r) ∧ r.Valid ∧
      (a.off = 0 → r.off = 0) ∧
      elems r = ((elems a).zip (elems f)).filterMap (fun p => if p.2.isSome then some p.1 else none)) ∧
    ((elems a).length ≠ (elems f).length → ∃ e, selectOp mem a f = some (.error e)) := by
  rw [elems_length, elems_length]
  constructor
  · intro h; exact selectOp_spec mem ha hf h
  · intro h
    unfold selectOp DArr.size
    rw [if_pos h]; exact ⟨_, rfl⟩

/-- C125: selecting by the presence of the array itself gives `array.present_values`. -/
theorem select_present (mem mem' : Nat → α) (a : DArr α) (ha : a.Valid) (m : DArr Unit) (hm : m.Valid)
    (hma : elems m = (elems a).map (Option.map (fun _ => ()))) :
    ∃ r s, selectOp mem a m = some (.ok r) ∧ presentValues mem' a = some s ∧ elems r = elems s := by
  obtain ⟨r, e1, _, _, e4⟩ := (select_operator mem a m ha hm).1 (by rw [hma, List.length_map])
  obtain ⟨s, f1, _, _, f4⟩ := (present_indices_values (fun _ => 0) mem' m hm a ha).2
  refine ⟨r, s, e1, f1, ?_⟩
  rw [e4, f4, hma]
  induction elems a with
  | nil => rfl
  | cons x xs ih =>
    cases x with
    | none =>
      rw [List.map_cons, List.zip_cons_cons, List.filterMap_cons_none rfl, List.filter_cons_of_neg (by simp)]
      exact ih
    | some v =>
      rw [List.map_cons, List.zip_cons_cons, List.filter_cons_of_pos rfl, ← ih]
      rfl

example : ((uniqueOp (fun x y => decide (x = y)) (fun _ => 9)
    (⟨[4, 7, 5, 4, 5], [29#32], 0⟩ : DArr Nat)).map elems) = some [some 4, some 5] := by decide +kernel

example : (match selectOp (fun _ => 9) (⟨[4, 7, 5, 4, 5], [29#32], 0⟩ : DArr Nat)
      (⟨[(), (), (), (), ()], [14#32], 0⟩ : DArr Unit) with
    | some (.ok r) => elems r
    | _ => []) = [none, some 5, some 4] := by decide +kernel

/-! ## C126: construction and pointwise operations -/

/-- C126: a pointwise operation with any number of arguments: row `i` is the function of the values if
all of them are present and missing otherwise; arguments of different sizes are rejected. -/
theorem simple_op_elements (fn : List V → R) (bmem : Nat → Word) (first : DArr V) (rest : List (DArr V))
    (hv : ∀ a ∈ first :: rest, a.Valid ∧ a.off = 0) :
    ((∀ a ∈ rest, (elems a).length = (elems first).length) → ∃ r,
      simpleOpChecked fn bmem first rest = some (.ok r) ∧ r.Valid ∧ r.off = 0 ∧
        (elems r).length = (elems first).length ∧
        ∀ i, i < (elems first).length →
          (elems r)[i]? = some (applyRow fn ((first :: rest).map (fun a => (elems a)[i]?.join)))) ∧
    ((∃ a ∈ rest, (elems a).length ≠ (elems first).length) →
      ∃ e, simpleOpChecked fn bmem first rest = some (.error e)) := by
  unfold simpleOpChecked
  constructor
  · intro h
    simp only [elems_length] at h
    rw [if_pos (by
      rw [List.all_eq_true]
      intro a ha
      simpa [DArr.size] using h a ha)]
    have hok : ∀ a ∈ first :: rest, ArgOk first.values.length a := by
      intro a ha
      refine ⟨(hv a ha).1, (hv a ha).2, ?_⟩
      rcases List.mem_cons.1 ha with rfl | ha
      · rfl
      · exact h a ha
    obtain ⟨r, e1, e2, e3, e4⟩ := simpleOp_spec fn bmem hok
    rw [e1]
    refine ⟨r, rfl, e2, e3, by rw [e4, elems_length]; simp, ?_⟩
    intro i hi
    rw [elems_length] at hi
    rw [e4, List.getElem?_map, List.getElem?_range hi]
    show some (applyRow fn _) = some (applyRow fn _)
    congr 2
    apply List.map_congr_left
    intro a ha
    rw [elems_get?, if_pos (by rw [(hok a ha).2.2]; exact hi)]
    rfl
  · rintro ⟨a, ha, h⟩
    rw [if_neg]
    · exact ⟨_, rfl⟩
    · intro hc
      rw [List.all_eq_true] at hc
      have := hc a ha
      rw [elems_length, elems_length] at h
      exact h (by simpa [DArr.size] using this)

/-- C126: `array.make_dense_array` gives its arguments, `array._iota` the numbers from zero, and
`const_with_shape` the same value everywhere — whatever the memory holds. -/
theorem factories (mem : Nat → α) (args : List (Option α)) (imem : Nat → Int) (n : Nat) (v : Option α) :
    (∃ r, makeDense mem args = some r ∧ r.Valid ∧ r.off = 0 ∧ elems r = args) ∧
    (∃ r, iota imem n = some r ∧ r.Valid ∧ r.off = 0 ∧
      elems r = (List.range n).map (fun (i : Nat) => some (i : Int))) ∧
    ((constWithShape mem n v).Valid ∧ (constWithShape mem n v).off = 0 ∧
      elems (constWithShape mem n v) = List.replicate n v) := by
  refine ⟨?_, ?_, ?_⟩
  · unfold makeDense
    obtain ⟨b, e1, e2, e3, e4⟩ := setAll_new (fresh mem args.length) args (by rw [fresh_length])
    rw [e1]
    exact ⟨_, rfl, e2, e3, e4⟩
  · refine ⟨_, iota_spec imem n, valid_full _, rfl, ?_⟩
    rw [elems_full, List.map_map]; rfl
  · cases v with
    | some x =>
      unfold constWithShape createConst
      refine ⟨valid_full _, rfl, ?_⟩
      rw [elems_full, List.map_replicate]
    | none =>
      obtain ⟨h1, h2⟩ := EdgeOps.createEmpty_elems n mem
      exact ⟨h1, rfl, h2⟩

/-- C126: a shape can be resized to any size that is not negative, and to no other. -/
theorem resize_shape (size : Int) :
    (0 ≤ size → resizeShape size = .ok size) ∧ (size < 0 → ∃ e, resizeShape size = .error e) := by
  unfold resizeShape
  constructor
  · intro h; rw [if_neg (by omega)]
  · intro h; rw [if_pos h]; exact ⟨_, rfl⟩

example : ((simpleOp (fun l : List Nat => l.sum) (fun _ => 0) ⟨[1, 2, 3], [], 0⟩
    [⟨[10, 20, 30], [6#32], 0⟩, ⟨[100, 200, 300], [3#32], 0⟩]).map elems) =
    some [none, some 222, none] := by decide +kernel

example : (makeDense (fun _ => 9) [some 1, none, some 3]).map elems = some [some 1, none, some 3] := by
  decide +kernel

end Verif.DOps
