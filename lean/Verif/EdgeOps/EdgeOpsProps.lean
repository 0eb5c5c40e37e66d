import Verif.EdgeOps.OpsLemmas

/-!
# C118-C122: edge operators on dense arrays
-/

namespace Verif.EdgeOps
open Verif.Bits Verif.Bitmap Verif.Dense Verif.Edge

/-! Sizes 2, 0 and 3 are used in the examples; uninitialised memory holds 77. -/

/-- A full array. -/
def arr (l : List Int) : DArr Int := ⟨l, [], 0⟩

theorem arr_valid (l : List Int) : (arr l).Valid := valid_nobitmap l

theorem arr_holds (ns : List Nat) : Holds (arr (ns.map (fun n : Nat => (n : Int)))) ns := by
  unfold Holds arr
  rw [elems_nobitmap, List.map_map]
  rfl

/-! ## C118: edge.from_sizes and edge.sizes -/

/-- C118: `edge.from_sizes` accepts exactly full arrays of non-negative sizes whose sum is an int64, and builds the edge in which
the children of the groups follow each other. -/
theorem from_sizes_builds (mem : Nat → Int) (sizes : DArr Int) (hv : sizes.Valid) :
    (∀ ns : List Nat, Holds sizes ns → (ns.sum : Int) ≤ maxI64 →
      ∃ e, fromSizes mem sizes = some (.ok e) ∧ WF e ∧ e.typ = .splitPoints ∧ e.parentSize = ns.length ∧
        e.childSize = ns.sum ∧ ∀ c p, Rel e c p ↔ (owners ns)[c]? = some p) ∧
    ((¬ ∃ ns : List Nat, Holds sizes ns ∧ (ns.sum : Int) ≤ maxI64) →
      ∃ m, fromSizes mem sizes = some (.error m)) := by
  obtain ⟨h1, h2⟩ := fromSizes_spec mem hv
  refine ⟨?_, h2⟩
  intro ns hns hs
  obtain ⟨e, e1, e2, e3, _, e4, e5, e6⟩ := fromSplitPoints_sums ns
  exact ⟨e, (h1 ns hns hs).trans e1, e2, e3, e4, e5, e6⟩

example : ∃ e, fromSizes (fun _ => 77) (arr [2, 0, 3]) = some (.ok e) ∧ Rel e 1 0 ∧ Rel e 2 2 ∧ ¬ Rel e 5 2 := by
  obtain ⟨e, h1, _, _, _, _, h2⟩ := (from_sizes_builds (fun _ => 77) (arr [2, 0, 3]) (arr_valid _)).1 [2, 0, 3]
    (arr_holds [2, 0, 3]) (by decide)
  exact ⟨e, h1, (h2 1 0).2 rfl, (h2 2 2).2 rfl, fun h => by have := (h2 5 2).1 h; simp [owners, ownersFrom] at this⟩

example : fromSizes (fun _ => 77) (arr [maxI64, 1]) = some (.error "integer overflow") := rfl

/-- C118: `edge.sizes` returns the number of children of every parent. -/
theorem sizes_counts (mem : Nat → Int) (e : Edge) (hw : WF e) (hm : e.childSize ≤ maxI64) :
    ∃ r, edgeSizes mem e = some r ∧ r.Valid ∧ (r.size : Int) = e.parentSize ∧
      ∀ p : Nat, (p : Int) < e.parentSize → ∃ n : Nat, elem r p = some (n : Int) ∧ HasChildren e p n := by
  have hps := (wf_sizes hw).1
  cases ht : e.typ with
  | splitPoints =>
    obtain ⟨w1, w2, w3, w4, w5⟩ := (wf_split_iff ht).1 hw
    obtain ⟨v, vs, h1, h2, h3⟩ := edgeSizes_split mem hw ht hm
    have hdl : (diffs v vs).length = vs.length := diffs_length vs v
    have hl : e.values.values.length = vs.length + 1 := by rw [h1]; rfl
    refine ⟨_, h3, valid_nobitmap _, ?_, ?_⟩
    · show ((diffs v vs).length : Int) = _
      omega
    · intro p hp
      obtain ⟨a, ha⟩ : ∃ a, e.values.values[p]? = some a := ⟨_, List.getElem?_eq_getElem (by omega)⟩
      obtain ⟨b, hb⟩ : ∃ b, e.values.values[p + 1]? = some b := ⟨_, List.getElem?_eq_getElem (by omega)⟩
      have hmono := w3.mono (Nat.le_succ p) ha hb
      refine ⟨(b - a).toNat, ?_, hasChildren_split hw ht ha hb⟩
      rw [elem_nobitmap, Int.toNat_of_nonneg (by omega)]
      rw [h1] at ha hb
      exact diffs_get vs v p a b ha hb
  | mapping =>
    obtain ⟨r, h1, h2, h3⟩ := edgeSizes_map mem hw ht hm
    refine ⟨_, h1, valid_nobitmap _, h2, ?_⟩
    intro p hp
    refine ⟨_, ?_, hasChildren_map ht p⟩
    rw [elem_nobitmap]
    exact h3 p hp

/-- A mapping of five children, one of them without a parent. -/
def exMap : Edge := ⟨.mapping, 3, 5, ⟨[2, 0, 1, 2, 0], [0b11011], 0⟩⟩

theorem exMap_wf : WF exMap := by
  have he : elems exMap.values = [some 2, some 0, none, some 2, some 0] := by decide +kernel
  refine ⟨⟨by decide, Or.inr (by decide)⟩, ?_⟩
  refine ⟨by decide, by rw [he]; rfl, ?_⟩
  rw [he]
  intro v hv
  have h3 : exMap.parentSize = 3 := rfl
  simp at hv
  omega

example : edgeSizes (fun _ => 77) exMap = some (arr [2, 0, 2]) := by decide +kernel

example : HasChildren exMap 0 2 := by
  obtain ⟨r, h1, _, _, h2⟩ := sizes_counts (fun _ => 77) exMap exMap_wf (by decide)
  obtain ⟨n, h3, h4⟩ := h2 0 (by decide)
  have hr : r = arr [2, 0, 2] := by
    have : edgeSizes (fun _ => 77) exMap = some (arr [2, 0, 2]) := by decide +kernel
    rw [this] at h1; simpa using h1.symm
  subst hr
  have : elem (arr [2, 0, 2]) 0 = some 2 := by decide +kernel
  rw [this] at h3
  have : n = 2 := by simp at h3; omega
  exact this ▸ h4

/-- C118: the sizes of an edge made by `edge.from_sizes` are the given ones. -/
theorem sizes_of_from_sizes (mem mem' : Nat → Int) (sizes : DArr Int) (hv : sizes.Valid) (e : Edge)
    (h : fromSizes mem sizes = some (.ok e)) :
    ∃ r, edgeSizes mem' e = some r ∧ elems r = elems sizes := by
  obtain ⟨h1, h2⟩ := fromSizes_spec mem hv
  by_cases hex : ∃ ns : List Nat, Holds sizes ns ∧ (ns.sum : Int) ≤ maxI64
  · obtain ⟨ns, hns, hs⟩ := hex
    obtain ⟨e', e1, e2, e3, e3', e4, e5, e6⟩ := fromSplitPoints_sums ns
    rw [h1 ns hns hs, e1] at h
    simp only [Option.some.injEq, Except.ok.injEq] at h
    subst h
    obtain ⟨v, vs, k1, k2, k3⟩ := edgeSizes_split mem' e2 e3 (by omega)
    refine ⟨_, k3, ?_⟩
    rw [elems_nobitmap, hns]
    rw [e3'] at k1
    have hd : diffs v vs = ns.map (fun n : Nat => (n : Int)) := by
      have hgen : ∀ (ns : List Nat) (c : Nat) (v : Int) (vs : List Int), sums c ns = v :: vs →
          diffs v vs = ns.map (fun n : Nat => (n : Int)) := by
        intro ns
        induction ns with
        | nil => intro c v vs hk; simp only [sums, List.cons.injEq] at hk; rw [← hk.2]; rfl
        | cons n ns ih =>
          intro c v vs hk
          simp only [sums, List.cons.injEq] at hk
          obtain ⟨rfl, hk⟩ := hk
          cases vs with
          | nil => have := congrArg List.length hk; rw [sums_length] at this; simp at this
          | cons w ws =>
            have hw : w = ((c + n : Nat) : Int) := by
              cases ns <;> simp only [sums, List.cons.injEq] at hk <;> exact hk.1.symm
            rw [diffs, ih _ _ _ hk, List.map_cons, hw]
            congr 1
            push_cast; omega
      exact hgen ns 0 v vs k1
    rw [hd, List.map_map]
    rfl
  · obtain ⟨m, hm⟩ := h2 hex
    rw [hm] at h; simp at h

example : ∃ e, fromSizes (fun _ => 77) (arr [2, 0, 3]) = some (.ok e) ∧ edgeSizes (fun _ => 5) e = some (arr [2, 0, 3]) :=
  ⟨⟨.splitPoints, 3, 5, arr [0, 2, 2, 5]⟩, rfl, rfl⟩

/-- C118: building an edge from the sizes of a split point edge gives the same split points. -/
theorem from_sizes_of_sizes (mem mem' : Nat → Int) (e : Edge) (hw : WF e) (ht : e.typ = .splitPoints)
    (hm : e.childSize ≤ maxI64) :
    ∃ r e', edgeSizes mem e = some r ∧ fromSizes mem' r = some (.ok e') ∧ e'.typ = .splitPoints ∧
      elems e'.values = elems e.values ∧ e'.parentSize = e.parentSize ∧ e'.childSize = e.childSize := by
  obtain ⟨w1, w2, w3, w4, w5⟩ := (wf_split_iff ht).1 hw
  obtain ⟨v, vs, k1, k2, k3⟩ := edgeSizes_split mem hw ht hm
  subst k2
  rw [k1] at w3 w4 w5
  obtain ⟨ns, hns⟩ := nat_list (diffs 0 vs) (diffs_nonneg vs 0 w3.2)
  have hsums : sums 0 ns = 0 :: vs := by
    have h1 := isums_diffs vs 0
    rw [hns] at h1
    have h2 := isums_nat ns 0
    rw [← h1]
    exact h2.symm
  have hsum : (ns.sum : Int) = e.childSize := by
    have := sums_last ns 0
    rw [hsums, w5] at this
    simpa using this.symm
  have hh : Holds ⟨diffs 0 vs, [], 0⟩ ns := by
    unfold Holds
    rw [elems_nobitmap, hns, List.map_map]
    rfl
  obtain ⟨e', e1, e2, e3, e3', e4, e5, _⟩ := fromSplitPoints_sums ns
  refine ⟨_, e', k3, ((fromSizes_spec mem' (valid_nobitmap _)).1 ns hh (by omega)).trans e1, e3, ?_, ?_, by omega⟩
  · obtain ⟨_, w2', _⟩ := (wf_split_iff e3).1 e2
    rw [w2', w2, e3', k1, hsums]
  · have := congrArg List.length hsums
    rw [sums_length] at this
    omega

/-- Two children, none, three. -/
def exSplit : Edge := ⟨.splitPoints, 3, 5, arr [0, 2, 2, 5]⟩

theorem exSplit_wf : WF exSplit :=
  ⟨arr_valid _, ⟨[0, 2, 2, 5], by decide +kernel, rfl, by decide⟩, by decide +kernel, by decide +kernel⟩

example : ∃ r e', edgeSizes (fun _ => 5) exSplit = some r ∧ fromSizes (fun _ => 77) r = some (.ok e') ∧
    elems e'.values = [some 0, some 2, some 2, some 5] := by
  obtain ⟨r, e', h1, h2, _, h3, _⟩ := from_sizes_of_sizes (fun _ => 5) (fun _ => 77) exSplit exSplit_wf rfl (by decide)
  exact ⟨r, e', h1, h2, by rw [h3]; decide +kernel⟩

/-! ## C119: edge.pair_left and edge.pair_right -/

/-- C119: the pairs of the specification are exactly the pairs of children of one group, in strictly increasing
lexicographic order. -/
theorem pairs_are_pairs (ns : List Nat) :
    (∀ x y, (x, y) ∈ pairs ns ↔ ∃ p, (owners ns)[x]? = some p ∧ (owners ns)[y]? = some p) ∧
    (pairs ns).Pairwise (fun a b => a.1 < b.1 ∨ a.1 = b.1 ∧ a.2 < b.2) ∧ (pairs ns).length = squares ns :=
  ⟨mem_pairs ns, pairs_sorted ns, pairs_length ns⟩

example : pairs [2, 0, 1] = [(0, 0), (0, 1), (1, 0), (1, 1), (2, 2)] := rfl

/-- C119: `edge.pair_left` and `edge.pair_right` map pair number `q` to the first and the second member of the `q`-th pair of
children of the same group; too many pairs are an error. Missing: negative sizes, and sizes whose sum is not less than the
largest int64. -/
theorem pair_edges_partial (mem : Nat → Int) (sizes : DArr Int) (hv : sizes.Valid) (ns : List Nat)
    (hns : Holds sizes ns) (hs : (ns.sum : Int) < maxI64) :
    ((squares ns : Int) ≤ maxI64 → ∃ l r, pairLeft mem sizes = some (.ok l) ∧ pairRight mem sizes = some (.ok r) ∧
      WF l ∧ WF r ∧ l.parentSize = ns.sum ∧ r.parentSize = ns.sum ∧ l.childSize = squares ns ∧
      r.childSize = squares ns ∧
      ∀ q x y, (Rel l q x ∧ Rel r q y) ↔ (pairs ns)[q]? = some (x, y)) ∧
    (¬ (squares ns : Int) ≤ maxI64 → (∃ m, pairLeft mem sizes = some (.error m)) ∧
      ∃ m, pairRight mem sizes = some (.error m)) := by
  obtain ⟨l1, l2⟩ := pairLeft_spec mem hv hns hs
  obtain ⟨r1, r2⟩ := pairRight_spec mem hv hns (by omega)
  refine ⟨?_, fun h => ⟨l2 h, r2 h⟩⟩
  intro hq
  obtain ⟨l, e1, e2, e3, _, e4, e5, e6⟩ := fromSplitPoints_sums (leftSizes ns)
  have hlen : ((pairs ns).map Prod.snd).length = squares ns := by rw [List.length_map, pairs_length]
  obtain ⟨r, f1, f2, f3, f4, f5⟩ := (fromMapping_spec
    (valid_nobitmap (((pairs ns).map Prod.snd).map (fun x : Nat => (x : Int)))) (ns.sum : Int)).1 ⟨by omega, by
      intro v hm
      rw [elems_nobitmap, List.mem_map] at hm
      obtain ⟨w, hw, hwv⟩ := hm
      simp only [Option.some.injEq] at hwv
      subst hwv
      rw [List.mem_map] at hw
      obtain ⟨x, hx, rfl⟩ := hw
      rw [← rightVals_eq] at hx
      have := rightVals_lt _ _ _ hx
      omega⟩
  refine ⟨l, r, (l1 hq).trans e1, (r1 hq).trans f1, e2, f5, ?_, f4, ?_, ?_, ?_⟩
  · rw [e4, leftSizes_length]
  · rw [e5, leftSizes_sum]
  · obtain ⟨_, _, k3, _⟩ := (wf_map_iff f2).1 f5
    rw [k3, f3, List.length_map, hlen]
  · intro q x y
    rw [e6, owners_left, rel_map_iff f2, f3, elem_nobitmap, List.getElem?_map, List.getElem?_map, List.getElem?_map]
    cases (pairs ns)[q]? with
    | none => simp
    | some z =>
      obtain ⟨a, b⟩ := z
      simp only [Option.map_some, Option.some.injEq, Prod.mk.injEq]
      omega

example : ∃ l r, pairLeft (fun _ => 77) (arr [2, 0, 1]) = some (.ok l) ∧ pairRight (fun _ => 77) (arr [2, 0, 1]) =
    some (.ok r) ∧ Rel l 2 1 ∧ Rel r 2 0 := by
  obtain ⟨l, r, h1, h2, _, _, _, _, _, _, h3⟩ := (pair_edges_partial (fun _ => 77) (arr [2, 0, 1]) (arr_valid _) [2, 0, 1]
    (arr_holds [2, 0, 1]) (by decide)).1 (by decide)
  have := (h3 2 1 0).2 rfl
  exact ⟨l, r, h1, h2, this.1, this.2⟩

example : pairLeft (fun _ => 77) (arr [2 ^ 32]) = some (.error "integer overflow") := rfl

/-- C119: a missing size is an error. -/
theorem pair_missing_size (mem : Nat → Int) (sizes : DArr Int) (hv : sizes.Valid) (h : none ∈ elems sizes) :
    (∃ m, pairLeft mem sizes = some (.error m)) ∧ ∃ m, pairRight mem sizes = some (.error m) := by
  have hf : sizes.isFull = some false := by
    rcases isFull_cases hv with ⟨_, hel⟩ | ⟨hf, _⟩
    · rw [hel] at h; simp at h
    · exact hf
  unfold pairLeft pairRight
  rw [hf]
  exact ⟨⟨_, rfl⟩, _, rfl⟩

example : pairRight (fun _ => 77) ⟨[1, 2], [0b01], 0⟩ = some (.error "expects no missing size values") := rfl

/-- C119: with a negative size, `edge.pair_left` inserts more values than its buffer can hold. -/
theorem pair_left_counterexample (mem : Nat → Int) : pairLeft mem (arr [-1, 3]) = none := rfl

/-- C119: with sizes whose sum is not an int64, the sum overflows before the number of pairs is tested. -/
theorem pair_sum_counterexample (mem : Nat → Int) :
    pairLeft mem (arr [2 ^ 62, 2 ^ 62]) = none ∧ pairRight mem (arr [2 ^ 62, 2 ^ 62]) = none := ⟨rfl, rfl⟩

/-- C119: with a negative size, `edge.pair_right` returns an edge holding uninitialised memory. -/
theorem pair_right_counterexample : ∃ e e', pairRight (fun _ => 0) (arr [2, -1, 1]) = some (.ok e) ∧
    pairRight (fun _ => 1) (arr [2, -1, 1]) = some (.ok e') ∧ e.values ≠ e'.values :=
  ⟨⟨.mapping, 2, 6, arr [0, 1, 0, 1, 1, 0]⟩, ⟨.mapping, 2, 6, arr [0, 1, 0, 1, 1, 1]⟩,
    rfl, rfl, by decide⟩

/-! ## C120: array.expand -/

/-- C120: `array.expand` gives every child the value of its parent, and nothing to a child without a parent. -/
theorem expand_values {α : Type} (mem : Nat → α) (a : DArr α) (hv : a.Valid) (e : Edge) (hw : WF e) :
    (e.parentSize = a.size → ∃ r, expand mem a e = some (.ok r) ∧ r.Valid ∧ (r.size : Int) = e.childSize ∧
      (∀ c p, Rel e c p → elem r c = elem a p) ∧ ∀ c, (∀ p, ¬ Rel e c p) → elem r c = none) ∧
    (e.parentSize ≠ a.size → ∃ m, expand mem a e = some (.error m)) := by
  refine ⟨expand_spec mem hv hw, ?_⟩
  intro h
  unfold expand
  rw [if_pos h]
  exact ⟨_, rfl⟩

example : (expand (fun _ => 77) (⟨[10, 20, 30], [0b101], 0⟩ : DArr Int) exSplit).map (fun r => r.toOption.map elems) =
    some (some [some 10, some 10, some 30, some 30, some 30]) := by decide +kernel

example : (expand (fun _ => 77) (⟨[10, 20, 30], [0b101], 0⟩ : DArr Int) exMap).map (fun r => r.toOption.map elems) =
    some (some [some 30, some 10, none, some 30, some 10]) := by decide +kernel

/-- C120: expanding a scalar repeats it. -/
theorem expand_scalar_values {α : Type} (mem : Nat → α) (x : Option α) (n : Nat) :
    (expandScalar mem x n).Valid ∧ elems (expandScalar mem x n) = List.replicate n x := by
  cases x with
  | some v =>
    refine ⟨⟨by simp [expandScalar, createConst], Or.inl rfl⟩, ?_⟩
    apply List.ext_getElem?
    intro i
    rw [elems_get?, List.getElem?_replicate]
    simp only [expandScalar, createConst, List.length_replicate, elem_eq, pres, decide_true, Bool.true_or, if_true]
    by_cases hi : i < n
    · rw [if_pos hi, if_pos hi, List.getElem?_replicate, if_pos hi]
    · rw [if_neg hi, if_neg hi]
  | none => exact createEmpty_elems n mem

example : elems (expandScalar (fun _ => 77) (none : Option Int) 3) = [none, none, none] := by decide +kernel

/-! ## C121: edge.resize_groups_child_side -/

/-- C121: with one size for all groups, the new edge maps position `o` of a resized group to the old row with offset `o`;
negative offsets and equal offsets below the new size in one group are errors. Missing: a size whose product with the
number of groups is not an int64. -/
theorem resize_child_side_partial (mem : Nat → Int) (e : Edge) (hw : WF e) (ht : e.typ = .splitPoints) (n : Nat)
    (hm : e.parentSize * n ≤ maxI64) (offsets : DArr Int) (hv : offsets.Valid) (hs : (offsets.size : Int) = e.childSize) :
    (OffsetsOk e (List.replicate e.parentSize.toNat n) offsets → ∃ r, resizeChild mem e n offsets = some (.ok r) ∧ WF r ∧
      r.parentSize = e.childSize ∧ r.childSize = e.parentSize * n ∧
      ∀ new old, Rel r new old ↔ Moved e (List.replicate e.parentSize.toNat n) offsets new old) ∧
    (¬ OffsetsOk e (List.replicate e.parentSize.toNat n) offsets → ∃ m, resizeChild mem e n offsets = some (.error m)) := by
  have hps := (wf_sizes hw).1
  have hsum : ((List.replicate e.parentSize.toNat n).sum : Int) = e.parentSize * n := by
    rw [List.sum_replicate_nat]; push_cast; rw [Int.toNat_of_nonneg hps]
  have hnn : 0 ≤ e.parentSize * n := Int.mul_nonneg hps (by omega)
  have hkey : resizeChild mem e n offsets = resizeChildCore mem e.values.values (fun _ => some (n : Int))
      ((List.replicate e.parentSize.toNat n).sum : Nat) offsets := by
    unfold resizeChild
    rw [if_neg (by rw [ht]; simp), if_neg (by simpa using hs), Int.mul_comm, chk_ok (by omega) hm, hsum]
    rfl
  rw [hkey]
  have := resizeChildCore_spec mem hw ht (ctx_replicate hw ht hm) hv hs
  rw [hsum] at this ⊢
  exact this

/-- Offsets for the five children of `exSplit`; the fourth one is dropped. -/
def exOff : DArr Int := ⟨[1, 0, 2, 9, 0], [0b10111], 0⟩

theorem exOff_valid : exOff.Valid := ⟨by decide, Or.inr (by decide)⟩

example : (resizeChild (fun _ => 77) exSplit 3 exOff).map (fun r => r.toOption.map (fun e => elems e.values)) =
    some (some [some 1, some 0, none, none, none, none, some 4, none, some 2]) := by decide +kernel

example : Moved exSplit [3, 3, 3] exOff 6 4 :=
  ⟨2, 0, 3, ⟨2, 5, by decide +kernel, by decide +kernel, by decide, by decide⟩, by decide +kernel, rfl, by decide, rfl⟩

example : resizeChild (fun _ => 77) exSplit 3 (arr [1, 1, 0, 1, 2]) = some (.error "duplicate offsets in the same group") ∧
    resizeChild (fun _ => 77) exSplit 3 (arr [1, -1, 0, 1, 2]) = some (.error "got a negative offset") := ⟨rfl, rfl⟩

/-- C121: a negative size is an error if there are groups. -/
theorem resize_child_side_negative (mem : Nat → Int) (e : Edge) (hw : WF e) (n : Int) (hn : n < 0)
    (hp : 0 < e.parentSize) (hm : -2 ^ 63 ≤ n * e.parentSize) (offsets : DArr Int) :
    ∃ m, resizeChild mem e n offsets = some (.error m) := by
  unfold resizeChild
  by_cases ht : e.typ = .splitPoints
  · rw [if_neg (by rw [ht]; simp)]
    by_cases hs : (offsets.size : Int) = e.childSize
    · have hneg : n * e.parentSize < 0 := Int.mul_neg_of_neg_of_pos hn hp
      obtain ⟨w1, w2, w3, w4, w5⟩ := (wf_split_iff ht).1 hw
      rw [if_neg (by simpa using hs), chk_ok hm (by unfold maxI64; omega)]
      unfold resizeChildCore
      rw [w5]
      simp only [Option.bind_eq_bind, Option.bind_some]
      rw [if_pos hneg]
      exact ⟨_, rfl⟩
    · rw [if_pos (by simpa using hs)]; exact ⟨_, rfl⟩
  · rw [if_pos ht]; exact ⟨_, rfl⟩

example : resizeChild (fun _ => 77) exSplit (-1) exOff = some (.error "got a negative size value") := rfl

/-- C121: the same for one size per group. Missing: negative sizes, and sizes whose sum is not an int64. -/
theorem resize_child_side_sizes_partial (mem : Nat → Int) (e : Edge) (hw : WF e) (ht : e.typ = .splitPoints)
    (sizes : DArr Int) (hvs : sizes.Valid) (ns : List Nat) (hns : Holds sizes ns) (hl : (sizes.size : Int) = e.parentSize)
    (hm : (ns.sum : Int) ≤ maxI64) (offsets : DArr Int) (hv : offsets.Valid) (hs : (offsets.size : Int) = e.childSize) :
    (OffsetsOk e ns offsets → ∃ r, resizeChildSizes mem e sizes offsets = some (.ok r) ∧ WF r ∧
      r.parentSize = e.childSize ∧ r.childSize = ns.sum ∧ ∀ new old, Rel r new old ↔ Moved e ns offsets new old) ∧
    (¬ OffsetsOk e ns offsets → ∃ m, resizeChildSizes mem e sizes offsets = some (.error m)) := by
  obtain ⟨w1, w2, w3, w4, w5⟩ := (wf_split_iff ht).1 hw
  obtain ⟨h1, h2⟩ := holds_iff.1 hns
  have hl' : sizes.size + 1 = e.values.size := by
    have : e.values.size = e.values.values.length := rfl
    omega
  have hkey : resizeChildSizes mem e sizes offsets = resizeChildCore mem e.values.values (fun i => sizes.values[i]?)
      (ns.sum : Nat) offsets := by
    unfold resizeChildSizes
    rw [if_neg (by rw [ht]; simp), isFull_of hvs h1]
    simp only [Option.bind_eq_bind, Option.bind_some, Bool.not_true, Bool.false_eq_true, if_false]
    rw [if_neg (by simpa using hl'), if_neg (by simpa using hs), h2]
    have := totalSize_nat ns 0 (by rw [Nat.zero_add]; exact hm)
    rw [Nat.zero_add] at this
    rw [show totalSize (ns.map (fun n : Nat => (n : Int))) 0 = some ((ns.sum : Nat) : Int) from this]
    rfl
  rw [hkey]
  exact resizeChildCore_spec mem hw ht (ctx_sizes hw ht hns hl' hm) hv hs

example : (resizeChildSizes (fun _ => 77) exSplit (arr [1, 1, 3]) exOff).map
    (fun r => r.toOption.map (fun e => elems e.values)) =
    some (some [some 1, none, some 4, none, some 2]) := by decide +kernel

example : Holds (arr [1, 1, 3]) [1, 1, 3] := arr_holds [1, 1, 3]

/-- C121: a mapping edge, sizes of a wrong number or with missing values, and offsets of a wrong number are errors. -/
theorem resize_child_side_errors (mem : Nat → Int) (e : Edge) (n : Int) (sizes offsets : DArr Int) (hvs : sizes.Valid) :
    (e.typ = .mapping ∨ (offsets.size : Int) ≠ e.childSize → ∃ m, resizeChild mem e n offsets = some (.error m)) ∧
    (e.typ = .mapping ∨ none ∈ elems sizes ∨ sizes.size + 1 ≠ e.values.size ∨ (offsets.size : Int) ≠ e.childSize →
      ∃ m, resizeChildSizes mem e sizes offsets = some (.error m)) := by
  by_cases ht : e.typ = .splitPoints
  · constructor
    · unfold resizeChild
      rw [if_neg (by rw [ht]; simp)]
      rintro (h | h)
      · rw [ht] at h; simp at h
      · rw [if_pos h]; exact ⟨_, rfl⟩
    · unfold resizeChildSizes
      rw [if_neg (by rw [ht]; simp)]
      rcases isFull_cases hvs with ⟨hf, hel⟩ | ⟨hf, hel⟩
      · rw [hf]
        simp only [Option.bind_eq_bind, Option.bind_some, Bool.not_true, Bool.false_eq_true, if_false]
        by_cases hl : sizes.size + 1 = e.values.size
        · rw [if_neg (by simpa using hl)]
          rintro (h | h | h | h)
          · rw [ht] at h; simp at h
          · rw [hel] at h; simp at h
          · exact absurd hl h
          · rw [if_pos h]; exact ⟨_, rfl⟩
        · rw [if_pos hl]; exact fun _ => ⟨_, rfl⟩
      · rw [hf]; exact fun _ => ⟨_, rfl⟩
  · constructor
    · unfold resizeChild
      rw [if_pos ht]; exact fun _ => ⟨_, rfl⟩
    · unfold resizeChildSizes
      rw [if_pos ht]; exact fun _ => ⟨_, rfl⟩

example : resizeChildSizes (fun _ => 77) exSplit (arr [1, 1]) exOff = some (.error "number of new sizes should match") := rfl

/-- The edge of a group of `n` children. -/
def single (n : Nat) : Edge := ⟨.splitPoints, 1, n, arr [0, n]⟩

theorem single_wf (n : Nat) : WF (single n) :=
  (wf_split_iff rfl).2 ⟨arr_valid _, elems_nobitmap _, ⟨rfl, by simp [single, arr]⟩, rfl, rfl⟩

/-- C121: with an edge to a scalar there is one group, so position `new` holds the row of offset `new`. -/
theorem resize_child_side_scalar (mem : Nat → Int) (childSize newSize : Nat) (hm : (newSize : Int) ≤ maxI64)
    (offsets : DArr Int) (hv : offsets.Valid) :
    (offsets.size = childSize →
      (((∀ i v, elem offsets i = some v → 0 ≤ v) ∧
        ∀ i j v, elem offsets i = some v → elem offsets j = some v → v < newSize → i = j) →
        ∃ r, resizeChildScalar mem childSize newSize offsets = some (.ok r) ∧ WF r ∧ r.parentSize = childSize ∧
          r.childSize = newSize ∧ ∀ new old, Rel r new old ↔ elem offsets old = some (new : Int) ∧ new < newSize) ∧
      (¬ ((∀ i v, elem offsets i = some v → 0 ≤ v) ∧
        ∀ i j v, elem offsets i = some v → elem offsets j = some v → v < newSize → i = j) →
        ∃ m, resizeChildScalar mem childSize newSize offsets = some (.error m))) ∧
    (offsets.size ≠ childSize → ∃ m, resizeChildScalar mem childSize newSize offsets = some (.error m)) := by
  refine ⟨?_, ?_⟩
  · intro hs
    have hsz : offsets.size = offsets.values.length := rfl
    have hrel : ∀ c p, Rel (single childSize) c p ↔ c < childSize ∧ p = 0 := by
      intro c p
      rw [rel_split_iff rfl (elems_nobitmap _)]
      constructor
      · rintro ⟨a, b, r1, r2, r3, r4⟩
        cases p with
        | zero =>
          have h2 : (childSize : Int) = b := by simpa [single, arr] using r2
          exact ⟨by omega, rfl⟩
        | succ p => simp [single, arr] at r2
      · rintro ⟨h, rfl⟩
        exact ⟨0, childSize, rfl, rfl, by omega, by omega⟩
    have hlt : ∀ i v, elem offsets i = some v → i < childSize := by
      intro i v h
      rw [elem_eq] at h
      split at h
      · have := (List.getElem?_eq_some_iff.1 h).1; omega
      · simp at h
    have hmv : ∀ new old, Moved (single childSize) [newSize] offsets new old ↔
        elem offsets old = some (new : Int) ∧ new < newSize := by
      intro new old
      constructor
      · rintro ⟨g, o, n, m1, m2, m3, m4, m5⟩
        obtain ⟨_, rfl⟩ := (hrel _ _).1 m1
        have : newSize = n := by simpa using m3
        subst this
        have : new = o := by simpa using m5
        subst this
        exact ⟨m2, m4⟩
      · rintro ⟨m1, m2⟩
        exact ⟨0, new, newSize, (hrel _ _).2 ⟨hlt _ _ m1, rfl⟩, m1, rfl, m2, by simp⟩
    have hok : OffsetsOk (single childSize) [newSize] offsets ↔
        ((∀ i v, elem offsets i = some v → 0 ≤ v) ∧
        ∀ i j v, elem offsets i = some v → elem offsets j = some v → v < newSize → i = j) := by
      unfold OffsetsOk
      constructor
      · rintro ⟨h1, h2⟩
        refine ⟨h1, ?_⟩
        intro i j v hi hj hv'
        have h0 := h1 i v hi
        have hvv : ((v.toNat : Nat) : Int) = v := Int.toNat_of_nonneg h0
        exact h2 v.toNat i j ((hmv _ _).2 ⟨by rw [hvv]; exact hi, by omega⟩)
          ((hmv _ _).2 ⟨by rw [hvv]; exact hj, by omega⟩)
      · rintro ⟨h1, h2⟩
        refine ⟨h1, ?_⟩
        intro new i j m1 m2
        rw [hmv] at m1 m2
        exact h2 i j new m1.1 m2.1 (by omega)
    have hc : Ctx (single childSize).values.values [newSize] (fun _ => some (newSize : Int)) := by
      obtain ⟨_, _, w3, _⟩ := (wf_split_iff rfl).1 (single_wf childSize)
      refine ⟨w3, rfl, ?_, by simpa using hm⟩
      intro i n h
      cases i with
      | zero => simp at h; rw [h]
      | succ i => simp at h
    have hkey : resizeChildScalar mem childSize newSize offsets = resizeChildCore mem (single childSize).values.values
        (fun _ => some (newSize : Int)) ((([newSize] : List Nat).sum : Nat) : Int) offsets := by
      unfold resizeChildScalar
      rw [if_neg (by rw [hs]; simp)]
      simp [single, arr]
    have := resizeChildCore_spec mem (single_wf childSize) rfl hc hv (by rw [hs]; rfl)
    rw [← hkey, hok] at this
    refine ⟨fun h => ?_, this.2⟩
    obtain ⟨r, r1, r2, r3, r4, r5⟩ := this.1 h
    exact ⟨r, r1, r2, r3, by simpa using r4, fun new old => (r5 new old).trans (hmv new old)⟩
  · intro hs
    unfold resizeChildScalar
    rw [if_pos (by omega)]
    exact ⟨_, rfl⟩

example : (resizeChildScalar (fun _ => 77) 5 3 (arr [0, 7, 2, 9, 1])).map (fun r => r.toOption.map (fun e => elems e.values)) =
    some (some [some 0, some 4, some 2]) := by decide +kernel

/-- C121: a negative size beside larger ones makes the operator write outside of its buffer. -/
theorem resize_child_side_counterexample (mem : Nat → Int) :
    resizeChildSizes mem ⟨.splitPoints, 2, 4, arr [0, 1, 4]⟩ (arr [-1, 3]) (arr [0, 0, 1, 2]) =
      none ∧
    resizeChildSizes mem ⟨.splitPoints, 2, 4, arr [0, 3, 4]⟩ (arr [3, -1]) (arr [0, 1, 2, 0]) = none :=
  ⟨rfl, by with_unfolding_all rfl⟩

/-- C121: the total size can overflow. -/
theorem resize_child_side_overflow_counterexample (mem : Nat → Int) :
    resizeChild mem exSplit (2 ^ 62) exOff = none := rfl

/-! ## C122: edge.resize_groups_parent_side -/

/-- C122: with one size for all groups, the new edge has that many children in every group. Missing: sizes whose product with
the number of groups is not an int64. -/
theorem resize_parent_side_partial (mem : Nat → Int) (e : Edge) (hw : WF e) (ht : e.typ = .splitPoints) (n : Nat)
    (hp : e.parentSize < maxI64) (hm : e.parentSize * n ≤ maxI64) :
    ∃ r, resizeParent mem e n = some (.ok r) ∧ WF r ∧ r.typ = .splitPoints ∧ r.parentSize = e.parentSize ∧
      r.childSize = e.parentSize * n ∧
      ∀ c p : Nat, Rel r c p ↔ (p : Int) < e.parentSize ∧ p * n ≤ c ∧ c < p * n + n := by
  have hps := (wf_sizes hw).1
  obtain ⟨k, hk⟩ : ∃ k : Nat, e.parentSize = k := ⟨_, (Int.toNat_of_nonneg hps).symm⟩
  rw [hk] at hp hm ⊢
  obtain ⟨r, e1, e2, e3, e3', e4, e5, e6⟩ := fromSplitPoints_sums (List.replicate k n)
  rw [List.length_replicate] at e4
  rw [List.sum_replicate_nat] at e5
  refine ⟨r, ?_, e2, e3, e4, by rw [e5]; push_cast; rfl, ?_⟩
  · unfold resizeParent
    rw [if_neg (by rw [ht]; simp), if_neg (by omega), hk, chk_ok (by omega) (by omega)]
    simp only [Option.bind_eq_bind, Option.bind_some]
    rw [show ((k : Int) + 1) = ((k + 1 : Nat) : Int) by push_cast; rfl, newBuffer_ok]
    simp only [Option.bind_some]
    rw [wrV_spec (by simp [uninit])]
    simp only [Option.bind_some]
    have := uniformLoop_spec n k 0 ((uninit mem (k + 1)).set 0 0) 0 (by simp [uninit]; omega)
      (List.getElem?_set_self (by simp [uninit])) (by rw [Nat.zero_add]; push_cast; exact hm)
    rw [show (((k + 1 : Nat) : Int) - 1).toNat = k by omega, this]
    simpa using e1
  · intro c p
    obtain ⟨_, w2, w3, w4, w5⟩ := (wf_split_iff e3).1 e2
    rw [rel_split_iff e3 w2, e3']
    have hget : ∀ (k i b : Nat), (sums b (List.replicate k n))[i]? = if i ≤ k then some ((b + i * n : Nat) : Int) else none := by
      intro k
      induction k with
      | zero =>
        intro i b
        cases i with
        | zero => simp [sums]
        | succ i => simp [sums]
      | succ k ih =>
        intro i b
        rw [List.replicate_succ, sums]
        cases i with
        | zero => simp
        | succ i =>
          rw [List.getElem?_cons_succ, ih]
          by_cases h : i ≤ k
          · rw [if_pos h, if_pos (by omega), Nat.succ_mul]
            congr 2; omega
          · rw [if_neg h, if_neg (by omega)]
    unfold SRel
    rw [hget, hget]
    simp only [Nat.zero_add]
    have hsm : (p + 1) * n = p * n + n := Nat.succ_mul p n
    constructor
    · rintro ⟨a, b, r1, r2, r3, r4⟩
      split at r2
      · rename_i hle
        rw [if_pos (by omega)] at r1
        simp only [Option.some.injEq] at r1 r2
        rw [hsm] at r2
        exact ⟨by omega, by omega, by omega⟩
      · simp at r2
    · rintro ⟨h1, h2, h3⟩
      refine ⟨_, _, if_pos (by omega), if_pos (by omega), by omega, by rw [hsm]; omega⟩

example : resizeParent (fun _ => 77) exSplit 2 = some (.ok ⟨.splitPoints, 3, 6, arr [0, 2, 4, 6]⟩) := rfl

example : exSplit.parentSize * (2 : Nat) ≤ maxI64 := by decide

/-- C122: mapping edges and negative sizes are errors. -/
theorem resize_parent_side_errors (mem : Nat → Int) (e : Edge) (n : Int) (h : e.typ = .mapping ∨ n < 0) :
    ∃ m, resizeParent mem e n = some (.error m) := by
  unfold resizeParent
  by_cases ht : e.typ = .splitPoints
  · rw [if_neg (by rw [ht]; simp)]
    rcases h with h | h
    · rw [ht] at h; simp at h
    · rw [if_pos h]; exact ⟨_, rfl⟩
  · rw [if_pos ht]; exact ⟨_, rfl⟩

example : resizeParent (fun _ => 77) exSplit (-2) = some (.error "`size` should be a non-negative integer") := rfl

/-- C122: the split points can overflow. -/
theorem resize_parent_side_counterexample (mem : Nat → Int) : resizeParent mem exSplit (2 ^ 62) = none := rfl

/-- C122: with one size per group, the new edge has these sizes; everything else is an error. -/
theorem resize_parent_side_sizes (mem : Nat → Int) (e : Edge) (sizes : DArr Int) (hv : sizes.Valid) :
    (∀ ns : List Nat, e.typ = .splitPoints → (sizes.size : Int) = e.parentSize → Holds sizes ns → (ns.sum : Int) ≤ maxI64 →
      ∃ r, resizeParentSizes mem e sizes = some (.ok r) ∧ WF r ∧ r.typ = .splitPoints ∧ r.parentSize = e.parentSize ∧
        r.childSize = ns.sum ∧ ∀ c p, Rel r c p ↔ (owners ns)[c]? = some p) ∧
    (¬ (e.typ = .splitPoints ∧ (sizes.size : Int) = e.parentSize ∧ ∃ ns : List Nat, Holds sizes ns ∧ (ns.sum : Int) ≤ maxI64) →
      ∃ m, resizeParentSizes mem e sizes = some (.error m)) := by
  obtain ⟨f1, f2⟩ := from_sizes_builds mem sizes hv
  unfold resizeParentSizes
  constructor
  · intro ns ht hs hns hm
    rw [if_neg (by rw [ht]; simp), if_neg (by simpa using hs)]
    obtain ⟨r, r1, r2, r3, r4, r5, r6⟩ := f1 ns hns hm
    have hl := congrArg List.length (holds_iff.1 hns).2
    rw [List.length_map] at hl
    have hsz : sizes.size = sizes.values.length := rfl
    exact ⟨r, r1, r2, r3, by omega, r5, r6⟩
  · intro h
    by_cases ht : e.typ = .splitPoints
    · rw [if_neg (by rw [ht]; simp)]
      by_cases hs : (sizes.size : Int) = e.parentSize
      · rw [if_neg (by simpa using hs)]
        exact f2 (fun hex => h ⟨ht, hs, hex⟩)
      · rw [if_pos hs]; exact ⟨_, rfl⟩
    · rw [if_pos ht]; exact ⟨_, rfl⟩

example : ∃ r, resizeParentSizes (fun _ => 77) exSplit (arr [1, 1, 0]) = some (.ok r) ∧ Rel r 1 1 := by
  obtain ⟨r, h1, _, _, _, _, h2⟩ := (resize_parent_side_sizes (fun _ => 77) exSplit (arr [1, 1, 0]) (arr_valid _)).1 [1, 1, 0]
    rfl rfl (arr_holds [1, 1, 0]) (by decide)
  exact ⟨r, h1, (h2 1 1).2 rfl⟩

end Verif.EdgeOps
