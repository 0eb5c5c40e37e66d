import Verif.Jagged.ConcatArrLemmas
import Verif.Jagged.ShapeProps

/-! # C27: concatenation and stacking of jagged arrays -/

namespace Verif.Jagged
open Verif.Dense Verif.Edge

variable {α : Type}

/-- The combined jagged array as a tree. -/
def combined {β : Type} (insert : Bool) (dim : Nat) (ts : List (Tree β)) : Tree β :=
  if insert then stackAt dim ts else concatAt dim ts

/-- Shapes `s₁ = [[.], [.], [.]]` … used by the examples: `1 → 2 → 3` with rows `[2, 1]`. -/
def exA : Shape := [⟨.splitPoints, 1, 2, ⟨[0, 2], [], 0⟩⟩, ⟨.splitPoints, 2, 3, ⟨[0, 2, 3], [], 0⟩⟩]
/-- `1 → 2 → 3` with rows `[0, 3]`. -/
def exB : Shape := [⟨.splitPoints, 1, 2, ⟨[0, 2], [], 0⟩⟩, ⟨.splitPoints, 2, 3, ⟨[0, 0, 3], [], 0⟩⟩]

theorem exA_ok : ShapeOk exA := by
  refine ⟨⟨rfl, rfl, trivial⟩, ?_⟩
  intro e he
  simp only [exA, List.mem_cons, List.not_mem_nil, or_false] at he
  rcases he with rfl | rfl
  · exact ⟨⟨valid_nobitmap _, ⟨[0, 2], by decide +kernel, rfl, by decide⟩, by decide +kernel, by decide +kernel⟩, rfl⟩
  · exact ⟨⟨valid_nobitmap _, ⟨[0, 2, 3], by decide +kernel, rfl, by decide⟩, by decide +kernel, by decide +kernel⟩, rfl⟩

theorem exB_ok : ShapeOk exB := by
  refine ⟨⟨rfl, rfl, trivial⟩, ?_⟩
  intro e he
  simp only [exB, List.mem_cons, List.not_mem_nil, or_false] at he
  rcases he with rfl | rfl
  · exact ⟨⟨valid_nobitmap _, ⟨[0, 2], by decide +kernel, rfl, by decide⟩, by decide +kernel, by decide +kernel⟩, rfl⟩
  · exact ⟨⟨valid_nobitmap _, ⟨[0, 0, 3], by decide +kernel, rfl, by decide⟩, by decide +kernel, by decide +kernel⟩, rfl⟩

theorem exAB_combinable : Combinable false [exA, exB] 1 ∧ SizesFit false [exA, exB] 1 := by
  refine ⟨⟨exA, [exB], rfl, by decide, by decide, ?_⟩, ?_, by simp⟩
  · intro s hs
    simp only [List.mem_singleton] at hs
    subst hs
    exact ⟨rfl, sameShape_refl _⟩
  · intro k hk
    match k, hk with
    | 1, _ => decide +kernel
    | k + 2, _ =>
      have h1 : rows exA (k + 2 + 1) = 0 ∨ rows exA (k + 2 + 1) = 3 := by cases k <;> simp [rows, exA]
      have h2 : rows exB (k + 2 + 1) = 0 ∨ rows exB (k + 2 + 1) = 3 := by cases k <;> simp [rows, exB]
      simp only [List.map_cons, List.map_nil, List.sum_cons, List.sum_nil]
      unfold maxI64
      omega

/-- C27 (dense arrays): whenever the inputs agree on the dimensions before `dim`, concatenation (`insert`
false) or stacking (`insert` true) succeeds, and the result, read as nested lists, is the nested
concatenation or stacking of the inputs; presence is kept per element. -/
theorem concat_dense_correct (mem : Nat → Int) (vmem : Nat → α) {arrays : List (DArr α)} {shapes : List Shape}
    {dim : Int} {insert : Bool} (ha : ∀ a ∈ arrays, a.Valid) (hs : ∀ s ∈ shapes, ShapeOk s)
    (hsz : List.Forall₂ (fun a s => (a.size : Int) = size s) arrays shapes)
    (hc : Combinable insert shapes dim) (hfit : SizesFit insert shapes dim.toNat) :
    ∃ r shape, concatDense mem vmem arrays shapes dim insert = some (.ok (r, shape)) ∧ r.Valid ∧ ShapeOk shape ∧
      (∀ s ∈ shapes, shape.length = s.length + (if insert then 1 else 0)) ∧ (r.size : Int) = size shape ∧
      tree shape (elems r) =
        combined insert dim.toNat (List.zipWith (fun s a => tree s (elems a)) shapes arrays) := by
  obtain ⟨r, shape, h1, h2, h3, h4, h5, h6⟩ := concatArrays_ok (denseType vmem) mem ha hs
    (hsz.imp (fun a s h => by rw [elems_length]; exact h)) hc hfit
  refine ⟨r, shape, h1, h2, h3, h4, by rw [elems_length] at h5; exact h5, ?_⟩
  unfold tree
  rw [h6]
  cases insert <;> rfl

/-- C27 (arrays in any representation: constant, dense, sparse). -/
theorem concat_array_correct (mem : Nat → Int) (vmem : Nat → α) (imem : Nat → Int) {arrays : List (Arr.Arr α)}
    {shapes : List Shape} {dim : Int} {insert : Bool} (ha : ∀ a ∈ arrays, a.Valid) (hs : ∀ s ∈ shapes, ShapeOk s)
    (hsz : List.Forall₂ (fun a s => (a.size : Int) = size s) arrays shapes)
    (hc : Combinable insert shapes dim) (hfit : SizesFit insert shapes dim.toNat) :
    ∃ r shape, concatArr mem vmem imem arrays shapes dim insert = some (.ok (r, shape)) ∧ r.Valid ∧ ShapeOk shape ∧
      (∀ s ∈ shapes, shape.length = s.length + (if insert then 1 else 0)) ∧ (r.size : Int) = size shape ∧
      tree shape r.elems =
        combined insert dim.toNat (List.zipWith (fun s a => tree s a.elems) shapes arrays) := by
  obtain ⟨r, shape, h1, h2, h3, h4, h5, h6⟩ := concatArrays_ok (sparseType vmem imem) mem ha hs
    (hsz.imp (fun a s h => by rw [Arr.aelems_length]; exact h)) hc hfit
  refine ⟨r, shape, h1, h2, h3, h4, by rw [Arr.aelems_length] at h5; exact h5, ?_⟩
  unfold tree
  rw [h6]
  cases insert <;> rfl

/-- The hypotheses of both theorems hold for a non-trivial input with missing values. -/
example (mem : Nat → Int) (vmem : Nat → Nat) : ∃ r shape,
    concatDense mem vmem [⟨[1, 2, 3], [5#32], 0⟩, ⟨[4, 5, 6], [], 0⟩] [exA, exB] 1 false = some (.ok (r, shape)) ∧
    tree shape (elems r) = concatAt 1 [tree exA [some 1, none, some 3], tree exB [some 4, some 5, some 6]] := by
  obtain ⟨r, shape, h1, _, _, _, _, h2⟩ := concat_dense_correct mem vmem
    (arrays := [⟨[1, 2, 3], [5#32], 0⟩, ⟨[4, 5, 6], [], 0⟩]) (shapes := [exA, exB]) (dim := 1) (insert := false)
    (by
      intro a h
      simp only [List.mem_cons, List.not_mem_nil, or_false] at h
      rcases h with rfl | rfl <;> decide)
    (by
      intro s h
      simp only [List.mem_cons, List.not_mem_nil, or_false] at h
      rcases h with rfl | rfl
      · exact exA_ok
      · exact exB_ok)
    (.cons rfl (.cons rfl .nil)) exAB_combinable.1 exAB_combinable.2
  exact ⟨r, shape, h1, h2.trans (by rfl)⟩

/-- The trees of the example and their concatenation along both dimensions, and stacking. -/
example : tree exA [1, 2, 3] = .node [.node [.leaf 1, .leaf 2], .node [.leaf 3]] := rfl
example : tree exB [4, 5, 6] = .node [.node [], .node [.leaf 4, .leaf 5, .leaf 6]] := rfl
example : concatAt 1 [tree exA [1, 2, 3], tree exB [4, 5, 6]] =
    .node [.node [.leaf 1, .leaf 2], .node [.leaf 3, .leaf 4, .leaf 5, .leaf 6]] := rfl
example : concatAt 0 [tree exA [1, 2, 3], tree exB [4, 5, 6]] =
    .node [.node [.leaf 1, .leaf 2], .node [.leaf 3], .node [], .node [.leaf 4, .leaf 5, .leaf 6]] := rfl
example : stackAt 2 [tree exA [1, 2, 3], tree exA [4, 5, 6]] =
    .node [.node [.node [.leaf 1, .leaf 4], .node [.leaf 2, .leaf 5]], .node [.node [.leaf 3, .leaf 6]]] := rfl

/-- C27: inputs which cannot be combined are reported as errors: no input at all, different numbers of
arrays and shapes, a dimension out of range, different ranks, different leading dimensions, or — when there
is not exactly one array — a size which does not match its shape. -/
theorem concat_dense_error_partial (mem : Nat → Int) (vmem : Nat → α) {arrays : List (DArr α)} {shapes : List Shape}
    {dim : Int} {insert : Bool} (hs : ∀ s ∈ shapes, ShapeOk s)
    (hbad : arrays.length ≠ shapes.length ∨ ¬ Combinable insert shapes dim ∨
      (arrays.length ≠ 1 ∧ ¬ List.Forall₂ (fun a s => (a.size : Int) = size s) arrays shapes ∧
        SizesFit insert shapes dim.toNat)) :
    ∃ m, concatDense mem vmem arrays shapes dim insert = some (.error m) := by
  refine concatArrays_error (denseType vmem) mem hs (hbad.imp id (Or.imp id ?_))
  rintro ⟨h1, h2, h3⟩
  exact ⟨h1, fun h => h2 (h.imp (fun a s h => by rw [elems_length] at h; exact h)), h3⟩

/-- C27, the same for arrays in any representation. -/
theorem concat_array_error_partial (mem : Nat → Int) (vmem : Nat → α) (imem : Nat → Int) {arrays : List (Arr.Arr α)}
    {shapes : List Shape} {dim : Int} {insert : Bool} (hs : ∀ s ∈ shapes, ShapeOk s)
    (hbad : arrays.length ≠ shapes.length ∨ ¬ Combinable insert shapes dim ∨
      (arrays.length ≠ 1 ∧ ¬ List.Forall₂ (fun a s => (a.size : Int) = size s) arrays shapes ∧
        SizesFit insert shapes dim.toNat)) :
    ∃ m, concatArr mem vmem imem arrays shapes dim insert = some (.error m) := by
  refine concatArrays_error (sparseType vmem imem) mem hs (hbad.imp id (Or.imp id ?_))
  rintro ⟨h1, h2, h3⟩
  exact ⟨h1, fun h => h2 (h.imp (fun a s h => by rw [Arr.aelems_length] at h; exact h)), h3⟩

example (mem : Nat → Int) (vmem : Nat → Nat) : ∃ m, concatDense mem vmem [] [] 0 false = some (.error m) :=
  concat_dense_error_partial mem vmem (by simp) (Or.inr (Or.inl (by rintro ⟨f, r, h, _⟩; simp at h)))
example (mem : Nat → Int) (vmem : Nat → Nat) : ∃ m,
    concatDense mem vmem [⟨[1, 2], [], 0⟩, ⟨[4, 5, 6], [], 0⟩] [exA, exB] 1 false = some (.error m) :=
  concat_dense_error_partial mem vmem (by
      intro s h
      simp only [List.mem_cons, List.not_mem_nil, or_false] at h
      rcases h with rfl | rfl
      · exact exA_ok
      · exact exB_ok)
    (Or.inr (Or.inr ⟨by decide, by
      intro h
      cases h with | cons h1 _ => exact absurd h1 (by decide), exAB_combinable.2⟩))

/-- C27: with exactly one array the size check is skipped: an array of a size which does not match its
shape is accepted and returned together with the shape. -/
theorem concat_single_size_counterexample (mem : Nat → Int) (vmem : Nat → Nat) :
    ∃ shape, concatDense mem vmem [⟨[1, 2], [], 0⟩] [exA] 0 false =
        some (.ok (⟨[1, 2], [], 0⟩, shape)) ∧ size shape = 3 := ⟨_, rfl, rfl⟩

/-- C27: concatenating shapes alone. -/
theorem concat_shapes_correct (mem : Nat → Int) {β : Type} {shapes : List Shape} {values : List (List β)} {dim : Int}
    {insert : Bool} (hs : ∀ s ∈ shapes, ShapeOk s)
    (hsz : List.Forall₂ (fun v s => (v.length : Int) = size s) values shapes) :
    (Combinable insert shapes dim → SizesFit insert shapes dim.toNat →
      ∃ shape gs xs, concatShapes mem shapes dim insert = some (.ok (shape, gs)) ∧ ShapeOk shape ∧
        (xs.length : Int) = size shape ∧ (xs.length : Int) = (shapes.map size).sum ∧
        tree shape xs = combined insert dim.toNat (List.zipWith tree shapes values)) ∧
    (¬ Combinable insert shapes dim → ∃ m, concatShapes mem shapes dim insert = some (.error m)) := by
  have hlen := hsz.length_eq
  obtain ⟨z1, z2⟩ := zip_maps (id : List β → List β) values shapes hlen
  rw [List.map_id] at z1 z2
  have hall : (∀ z ∈ shapes.zip values, ShapeOk z.1 ∧ (z.2.length : Int) = size z.1) ∧
      (shapes.zip values).map (fun z => tree z.1 z.2) = List.zipWith tree shapes values ∧
      (((values.map List.length).sum : Nat) : Int) = (shapes.map size).sum := by
    clear z1 z2 hlen
    induction hsz with
    | nil => exact ⟨by simp, rfl, rfl⟩
    | @cons v s vs ss h1 _ ih =>
      obtain ⟨i1, i2, i3⟩ := ih (fun x hx => hs x (by simp [hx]))
      refine ⟨?_, ?_, ?_⟩
      · intro z hz
        rw [List.zip_cons_cons] at hz
        rcases List.mem_cons.1 hz with rfl | hz
        · exact ⟨hs s (by simp), h1⟩
        · exact i1 z hz
      · rw [List.zip_cons_cons, List.map_cons, List.zipWith_cons_cons, i2]
      · rw [List.map_cons, List.map_cons, List.sum_cons, List.sum_cons, Int.natCast_add, i3, h1]
  obtain ⟨k1, k2⟩ := concatShapes_spec mem (dim := dim) (insert := insert) hall.1
  rw [z1] at k1 k2
  refine ⟨?_, k2⟩
  intro hc hfit
  obtain ⟨shape, Gf, g1, g2, _, g4, _, g6, g7⟩ := k1 hc hfit
  rw [z1] at g1
  rw [z2] at g4 g7
  have hil := inter_length _ _ g4
  refine ⟨shape, _, inter Gf values, g1, g2, by rw [hil.1, g6], by rw [hil.2]; exact hall.2.2, ?_⟩
  unfold tree
  rw [g7, hall.2.1]
  cases insert <;> rfl

/-- A flat shape with `2^62` elements. -/
def exHuge : Shape := [⟨.splitPoints, 1, 2 ^ 62, ⟨[0, 2 ^ 62], [], 0⟩⟩]

/-- C27: the hypothesis on the sizes is needed: for two well formed flat shapes with `2^62` elements each
the accumulated split point does not fit into 64 bits (signed overflow). -/
theorem concat_overflow_counterexample (mem : Nat → Int) :
    ShapeOk exHuge ∧ Combinable false [exHuge, exHuge] 0 ∧ concatShapes mem [exHuge, exHuge] 0 false = none := by
  refine ⟨⟨⟨rfl, trivial⟩, ?_⟩, ⟨exHuge, [exHuge], rfl, by decide, by decide, ?_⟩, rfl⟩
  · intro e he
    simp only [exHuge, List.mem_singleton] at he
    subst he
    exact ⟨⟨valid_nobitmap _, ⟨[0, 2 ^ 62], by decide +kernel, rfl, by decide⟩, by decide +kernel, by decide +kernel⟩, rfl⟩
  · intro s hs
    simp only [List.mem_singleton] at hs
    subst hs
    exact ⟨rfl, sameShape_refl _⟩

end Verif.Jagged
