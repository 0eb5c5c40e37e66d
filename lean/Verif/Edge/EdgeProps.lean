import Verif.Edge.CompLemmas

/-!
# Properties of edges (C14, C15, C16)
-/

namespace Verif.Edge
open Verif.Bitmap Verif.Dense

/-! ## C14: what the factories accept -/

/-- C14: `FromSplitPoints` accepts exactly the full, non-decreasing arrays starting with 0, and then
row `p` owns the children in `[sp[p], sp[p+1])` (by `Rel`). -/
theorem from_split_points_accepts (sp : DArr Int) (hv : sp.Valid) :
    (SplitOk (elems sp) → ∃ e, fromSplitPoints sp = some (.ok e) ∧ e.typ = .splitPoints ∧
      e.values = sp ∧ WF e) ∧
    (¬ SplitOk (elems sp) → ∃ m, fromSplitPoints sp = some (.error m)) :=
  fromSplitPoints_spec hv

example : ∃ e, fromSplitPoints ⟨[0, 2, 2, 5], [], 0⟩ = some (.ok e) ∧ WF e := by
  obtain ⟨e, h1, _, _, h2⟩ := (from_split_points_accepts ⟨[0, 2, 2, 5], [], 0⟩
    (valid_nobitmap _)).1 ⟨[0, 2, 2, 5], by decide +kernel, rfl, by decide⟩
  exact ⟨e, h1, h2⟩

example : ∃ m, fromSplitPoints ⟨[0, 3, 2], [], 0⟩ = some (.error m) := ⟨_, rfl⟩

/-- C14: `FromMapping` accepts exactly the arrays whose present values are in `[0, parent_size)`. -/
theorem from_mapping_accepts (m : DArr Int) (hv : m.Valid) (n : Int) :
    (0 ≤ n ∧ MapOk (elems m) n → ∃ e, fromMapping m n = some (.ok e) ∧ e.typ = .mapping ∧
      e.values = m ∧ e.parentSize = n ∧ WF e) ∧
    (¬ (0 ≤ n ∧ MapOk (elems m) n) → ∃ msg, fromMapping m n = some (.error msg)) :=
  fromMapping_spec hv n

/-- The second element is missing; its stored value is out of range and is ignored. -/
example : ∃ e, fromMapping ⟨[2, 77, 0], [5], 0⟩ 3 = some (.ok e) := by
  obtain ⟨e, h, _⟩ := (from_mapping_accepts ⟨[2, 77, 0], [5], 0⟩ ⟨by decide, Or.inr (by decide)⟩ 3).1
    ⟨by decide, by
      have : elems (⟨[2, 77, 0], [5], 0⟩ : DArr Int) = [some 2, none, some 0] := by decide +kernel
      rw [this]
      intro v hv
      simp at hv
      omega⟩
  exact ⟨e, h⟩

example : ∃ m, fromMapping ⟨[2, 3, 0], [], 0⟩ 3 = some (.error m) := ⟨_, rfl⟩

/-- C14: `FromUniformGroups` accepts exactly the non-negative sizes whose product fits `int64_t`; every
parent then has `group_size` consecutive children. -/
theorem from_uniform_groups_accepts (n g : Int) (hn : n < maxI64) :
    (0 ≤ n ∧ 0 ≤ g ∧ n * g ≤ maxI64 → ∃ e, fromUniformGroups n g = some (.ok e) ∧
      e.typ = .splitPoints ∧ e.parentSize = n ∧ e.childSize = n * g ∧ WF e ∧
      ∀ c p, Rel e c p ↔ ((p : Int) < n ∧ p * g ≤ c ∧ (c : Int) < p * g + g)) ∧
    (¬ (0 ≤ n ∧ 0 ≤ g ∧ n * g ≤ maxI64) → ∃ m, fromUniformGroups n g = some (.error m)) :=
  fromUniformGroups_spec hn

example : ∃ e, fromUniformGroups 3 2 = some (.ok e) ∧ e.childSize = 6 := by
  obtain ⟨e, h1, _, _, h2, _⟩ := (from_uniform_groups_accepts 3 2 (by decide)).1 (by decide)
  exact ⟨e, h1, h2⟩

example : ∃ m, fromUniformGroups (2 ^ 40) (2 ^ 40) = some (.error m) :=
  (from_uniform_groups_accepts (2 ^ 40) (2 ^ 40) (by decide)).2 (by decide)

/-- C14: the bound of `from_uniform_groups_accepts` is needed: for `parent_size = 2^63-1` and groups of
size 0 or 1 the sizes are accepted, but `parent_size + 1` overflows. -/
theorem from_uniform_groups_overflow : fromUniformGroups maxI64 0 = none ∧
    fromUniformGroups maxI64 1 = none := ⟨rfl, rfl⟩

/-- C14: an edge is a partial function between the row ranges given by its sizes. -/
theorem edge_is_partial_function (e : Edge) (h : WF e) :
    (∀ c p, Rel e c p → (c : Int) < e.childSize ∧ (p : Int) < e.parentSize) ∧
    (∀ c p q, Rel e c p → Rel e c q → p = q) ∧
    (e.typ = .splitPoints → ∀ c : Nat, (c : Int) < e.childSize → ∃ p, Rel e c p) :=
  ⟨fun _ _ hr => rel_bounds h hr, fun _ _ _ h1 h2 => rel_unique h h1 h2,
    fun ht c hc => (totalMono_split ht h).1 c hc⟩

/-! Sample edges: split points `[0,2,2,5]`, mappings `[0,2,-,2]` and `[0,0,2,2,2]`. -/

/-- A split-points edge. -/
def exSplit : Edge := ⟨.splitPoints, 3, 5, ⟨[0, 2, 2, 5], [], 0⟩⟩
/-- A partial mapping edge with a bit offset. -/
def exMap : Edge := ⟨.mapping, 3, 4, ⟨[0, 2, 9, 2], [22], 1⟩⟩
/-- A full sorted mapping edge. -/
def exSorted : Edge := ⟨.mapping, 3, 5, ⟨[0, 0, 2, 2, 2], [], 0⟩⟩
/-- A split-points edge below `exSplit`. -/
def exSplit2 : Edge := ⟨.splitPoints, 5, 6, ⟨[0, 1, 1, 4, 4, 6], [], 0⟩⟩
/-- A mapping edge below `exSplit2`. -/
def exMap2 : Edge := ⟨.mapping, 6, 3, ⟨[5, 1, 0], [5], 0⟩⟩

theorem exSplit_wf : WF exSplit :=
  ⟨valid_nobitmap _, ⟨[0, 2, 2, 5], by decide +kernel, rfl, by decide⟩, by decide +kernel, by decide +kernel⟩
theorem exSplit2_wf : WF exSplit2 :=
  ⟨valid_nobitmap _, ⟨[0, 1, 1, 4, 4, 6], by decide +kernel, rfl, by decide⟩, by decide +kernel,
    by decide +kernel⟩
theorem exMap_wf : WF exMap := by
  refine ⟨⟨by decide, Or.inr (by decide)⟩, by decide, by decide +kernel, ?_⟩
  have : elems exMap.values = [some 0, some 2, none, some 2] := by decide +kernel
  rw [this]
  intro v hv
  have h3 : exMap.parentSize = 3 := rfl
  simp at hv
  omega
theorem exSorted_wf : WF exSorted := by
  refine ⟨valid_nobitmap _, by decide, by decide +kernel, ?_⟩
  have : elems exSorted.values = [some 0, some 0, some 2, some 2, some 2] := by decide +kernel
  rw [this]
  intro v hv
  have h3 : exSorted.parentSize = 3 := rfl
  simp at hv
  omega
theorem exMap2_wf : WF exMap2 := by
  refine ⟨⟨by decide, Or.inr (by decide)⟩, by decide, by decide +kernel, ?_⟩
  have : elems exMap2.values = [some 5, none, some 0] := by decide +kernel
  rw [this]
  intro v hv
  have h3 : exMap2.parentSize = 6 := rfl
  simp at hv
  omega

/-! ## C15: conversions and equivalence -/

/-- C15: `ToMappingEdge` keeps the sizes and the parent of every child, whatever the freshly allocated
buffer contains. -/
theorem to_mapping_same_relation (mem : Nat → Int) (e : Edge) (h : WF e) :
    ∃ r, toMappingEdge mem e = some r ∧ r.typ = .mapping ∧ WF r ∧ r.parentSize = e.parentSize ∧
      r.childSize = e.childSize ∧ ∀ c p, Rel r c p ↔ Rel e c p :=
  toMapping_spec mem h

example : (toMappingEdge (fun _ => 7) exSplit).map (fun r => elems r.values) =
    some [some 0, some 0, some 2, some 2, some 2] := by decide +kernel

/-- C15: `ToSplitPointsEdge` succeeds exactly if every child has a parent and parents are
non-decreasing, and then keeps sizes and relation. -/
theorem to_split_points_same_relation (mem : Nat → Int) (e : Edge) (h : WF e) :
    (TotalMono e → ∃ r, toSplitPointsEdge mem e = some (.ok r) ∧ r.typ = .splitPoints ∧ WF r ∧
      r.parentSize = e.parentSize ∧ r.childSize = e.childSize ∧ ∀ c p, Rel r c p ↔ Rel e c p) ∧
    (¬ TotalMono e → ∃ m, toSplitPointsEdge mem e = some (.error m)) :=
  toSplit_spec mem h

example : ∃ r, toSplitPointsEdge (fun _ => 7) exSorted = some (.ok r) ∧
    r.values.values = [0, 2, 2, 5] := ⟨_, rfl, rfl⟩
example : TotalMono exSorted := (totalMono_map rfl exSorted_wf).2 ⟨by decide +kernel, by decide⟩
example : ∃ m, toSplitPointsEdge (fun _ => 7) exMap = some (.error m) := ⟨_, rfl⟩

/-- C15: `IsEquivalentTo` decides equality of sizes and relation, across representations. -/
theorem is_equivalent_iff_same_relation (mem : Nat → Int) (a b : Edge) (ha : WF a) (hb : WF b) :
    ∃ r, isEquivalentTo mem a b = some r ∧
      (r = true ↔ a.parentSize = b.parentSize ∧ a.childSize = b.childSize ∧
        ∀ c p, Rel a c p ↔ Rel b c p) :=
  isEquivalentTo_spec mem ha hb

example : isEquivalentTo (fun _ => 7) exSplit exSorted = some true := by decide +kernel
example : isEquivalentTo (fun _ => 7) exSplit { exSorted with values := ⟨[0, 1, 2, 2, 2], [], 0⟩ } =
    some false := by decide +kernel

/-- C15: `IsEquivalentTo` is symmetric on well-formed edges. -/
theorem is_equivalent_symm (mem : Nat → Int) (a b : Edge) (ha : WF a) (hb : WF b) :
    isEquivalentTo mem a b = isEquivalentTo mem b a := by
  obtain ⟨r, h1, h2⟩ := isEquivalentTo_spec mem ha hb
  obtain ⟨s, h3, h4⟩ := isEquivalentTo_spec mem hb ha
  rw [h1, h3]
  congr 1
  rw [Bool.eq_iff_iff, h2, h4]
  constructor
  · rintro ⟨x, y, z⟩; exact ⟨x.symm, y.symm, fun c p => (z c p).symm⟩
  · rintro ⟨x, y, z⟩; exact ⟨x.symm, y.symm, fun c p => (z c p).symm⟩

/-! ## C16: composition -/

/-- C16: composing compatible edges yields an edge between the outer sizes whose relation is the
composition of all relations; it is a split-points edge iff all inputs are.  Incompatible sizes are an
error. -/
theorem compose_edges_composes (mem : Nat → Int) (e : Edge) (es : List Edge)
    (hw : ∀ x ∈ e :: es, WF x) :
    (Compatible (e :: es) → ∃ r, composeEdges mem (e :: es) = some (.ok r) ∧ WF r ∧
      r.parentSize = e.parentSize ∧ r.childSize = ((e :: es).getLast (by simp)).childSize ∧
      (∀ c p, Rel r c p ↔ RelComp (e :: es) c p) ∧
      (r.typ = .splitPoints ↔ ∀ x ∈ e :: es, x.typ = .splitPoints)) ∧
    (¬ Compatible (e :: es) → ∃ m, composeEdges mem (e :: es) = some (.error m)) :=
  composeEdges_spec mem e es hw

/-- C16: no edges is an error. -/
theorem compose_edges_empty (mem : Nat → Int) : ∃ m, composeEdges mem [] = some (.error m) :=
  ⟨_, rfl⟩

example : ∃ r, composeEdges (fun _ => 7) [exSplit, exSplit2, exMap2] = some (.ok r) ∧
    (∀ c p, Rel r c p ↔ RelComp [exSplit, exSplit2, exMap2] c p) := by
  obtain ⟨r, h1, _, _, _, h2, _⟩ := (compose_edges_composes (fun _ => 7) exSplit [exSplit2, exMap2] (by
    intro x hx
    simp at hx
    rcases hx with rfl | rfl | rfl
    · exact exSplit_wf
    · exact exSplit2_wf
    · exact exMap2_wf)).1 ⟨rfl, rfl, trivial⟩
  exact ⟨r, h1, h2⟩

example : ∃ r, composeEdges (fun _ => 7) [exSplit, exSplit2] = some (.ok r) ∧
    r.values.values = [0, 1, 1, 6] := ⟨_, rfl, rfl⟩

end Verif.Edge
