import Verif.Edge.EdgeModel

/-!
# Model of the edge operators of `arolla/qexpr/operators/dense_array/edge_ops.h`

`Option`: definedness (`none` = access outside of a buffer, signed overflow, or an allocation of a
negative size); `Except String` = `absl::StatusOr` (messages shortened).  Uninitialised buffers are
filled from an arbitrary function `mem`.  The evaluation context only supplies the buffer factory
and is left out.
-/

namespace Verif.EdgeOps
open Verif.Bits Verif.Bitmap Verif.Dense Verif.Edge

/-! ## Overflow helpers -/

/-- Two's complement wrap-around to 64 bits: the result stored by `__builtin_add_overflow` and
`__builtin_mul_overflow`. -/
def wrap64 (x : Int) : Int := (x + 2 ^ 63) % 2 ^ 64 - 2 ^ 63

/-- The return value of `__builtin_*_overflow` for the exact result `x`. -/
def outOfRange (x : Int) : Bool := !decide (-2 ^ 63 ≤ x ∧ x ≤ maxI64)

/-- `safe_add` — util/overflow.h:41-46; the result and the new value of the flag. -/
def safeAdd (x y : Int) (overflow : Bool) : Int × Bool :=
  (wrap64 (x + y), overflow || outOfRange (x + y))

/-- `safe_mul` — util/overflow.h:49-54. -/
def safeMul (x y : Int) (overflow : Bool) : Int × Bool :=
  (wrap64 (x * y), overflow || outOfRange (x * y))

/-- `Buffer<int64_t>::Builder(max_size)` — memory/simple_buffer.h:96-120: an uninitialised buffer; a
negative size is not a valid allocation. -/
def newBuffer (mem : Nat → Int) (n : Int) : Option (List Int) :=
  if n < 0 then none else some (uninit mem n.toNat)

/-! ## edge.from_sizes -/

/-- Loop of `DenseArrayEdgeFromSizesOp` — edge_ops.h:109-112 over the remaining sizes. -/
def fromSizesLoop : List Int → Nat → List Int → Bool → Option (List Int × Bool)
  | [], _, sp, overflow => some (sp, overflow)
  | s :: ss, i, sp, overflow => do
    let r := safeAdd (← sp[i]?) s overflow
    fromSizesLoop ss (i + 1) (← wrV sp (i + 1) r.1) r.2

/-- `DenseArrayEdgeFromSizesOp` — edge_ops.h:98-119. -/
def fromSizes (mem : Nat → Int) (sizes : DArr Int) : Option (Except String Edge) := do
  if !(← sizes.isFull) then some (.error "expects no missing size values")
  else do
    let buf ← newBuffer mem (sizes.size + 1)
    let sp ← wrV buf 0 0
    let (sp, overflow) ← fromSizesLoop sizes.values 0 sp false
    if overflow then some (.error "integer overflow")
    else fromSplitPoints ⟨sp, [], 0⟩

/-! ## edge.pair_left and edge.pair_right -/

/-- The counting loop — edge_ops.h:144-147 and 191-194, on `(child_count, pair_count, overflow)`.
`child_count += s` is a plain signed addition. -/
def pairCounts : List Int → Int → Int → Bool → Option (Int × Int × Bool)
  | [], childCount, pairCount, overflow => some (childCount, pairCount, overflow)
  | s :: ss, childCount, pairCount, overflow => do
    let childCount ← chk (childCount + s)
    let m := safeMul s s overflow
    let r := safeAdd pairCount m.1 m.2
    pairCounts ss childCount r.1 r.2

/-- Inner loop of `DenseArrayEdgePairLeftOp` — edge_ops.h:157-161; `n` rounds remain. -/
def leftGroup (s : Int) : Nat → (List Int × Nat) × Int → Option ((List Int × Nat) × Int)
  | 0, st => some st
  | n + 1, (b, offset) => do leftGroup s n (← ins b offset, ← chk (offset + s))

/-- Outer loop — edge_ops.h:156-162. -/
def leftLoop : List Int → (List Int × Nat) × Int → Option ((List Int × Nat) × Int)
  | [], st => some st
  | s :: ss, st => do leftLoop ss (← leftGroup s s.toNat st)

/-- `DenseArrayEdgePairLeftOp` — edge_ops.h:132-168. -/
def pairLeft (mem : Nat → Int) (sizes : DArr Int) : Option (Except String Edge) := do
  if !(← sizes.isFull) then some (.error "expects no missing size values")
  else do
    let ss := (← sizes.forEachPresent).map Prod.snd
    let (childCount, _, overflow) ← pairCounts ss 0 0 false
    if overflow then some (.error "integer overflow")
    else do
      let buf ← newBuffer mem (← chk (childCount + 1))
      let (b, offset) ← leftLoop ss ((buf, 0), 0)
      let b ← ins b offset
      fromSplitPoints ⟨b.1, [], 0⟩

/-- Innermost loop of `DenseArrayEdgePairRightOp` — edge_ops.h:205-207; `n` rounds remain. -/
def rightRow (offset : Int) : Nat → Int → List Int × Nat → Option (List Int × Nat)
  | 0, _, b => some b
  | n + 1, j, b => do rightRow offset n (j + 1) (← ins b (← chk (offset + j)))

/-- Middle loop — edge_ops.h:204-208; `n` rounds remain. -/
def rightGroup (s offset : Int) : Nat → List Int × Nat → Option (List Int × Nat)
  | 0, b => some b
  | n + 1, b => do rightGroup s offset n (← rightRow offset s.toNat 0 b)

/-- Outer loop — edge_ops.h:203-211. -/
def rightLoop : List Int → Int → List Int × Nat → Option (List Int × Nat)
  | [], _, b => some b
  | s :: ss, offset, b => do
    let b ← rightGroup s offset s.toNat b
    rightLoop ss (← chk (offset + s)) b

/-- `DenseArrayEdgePairRightOp` — edge_ops.h:181-216. -/
def pairRight (mem : Nat → Int) (sizes : DArr Int) : Option (Except String Edge) := do
  if !(← sizes.isFull) then some (.error "expects no missing size values")
  else do
    let ss := (← sizes.forEachPresent).map Prod.snd
    let (childCount, pairCount, overflow) ← pairCounts ss 0 0 false
    if overflow then some (.error "integer overflow")
    else do
      let buf ← newBuffer mem pairCount
      let b ← rightLoop ss 0 (buf, 0)
      fromMapping ⟨b.1, [], 0⟩ childCount

/-! ## edge.sizes -/

/-- Loop over split points — edge_ops.h:333-335; `prev` is `values[i - 1]`. -/
def diffLoop : Int → List Int → List Int × Nat → Option (List Int × Nat)
  | _, [], b => some b
  | prev, v :: vs, b => do diffLoop v vs (← ins b (← chk (v - prev)))

/-- Callback of the loop over a mapping — edge_ops.h:339-343. -/
def countStep (sizes : List Int) (x : Nat × Bool × Int) : Option (List Int) :=
  if x.2.1 then do
    if x.2.2 < 0 then none
    else do wrV sizes x.2.2.toNat (← chk ((← sizes[x.2.2.toNat]?) + 1))
  else some sizes

/-- `DenseArrayEdgeSizesOp` — edge_ops.h:324-346. -/
def edgeSizes (mem : Nat → Int) (e : Edge) : Option (DArr Int) :=
  match e.typ with
  | .splitPoints => do
    let buf ← newBuffer mem e.parentSize
    match e.values.values with
    | [] => some ⟨buf, [], 0⟩
    | v :: vs => do
      let b ← diffLoop v vs (buf, 0)
      some ⟨b.1, [], 0⟩
  | .mapping => do
    if e.parentSize < 0 then none
    else do
      let sizes := List.replicate e.parentSize.toNat 0
      let sizes ← (← e.values.forEach).foldlM countStep sizes
      some ⟨sizes, [], 0⟩

/-! ## array.expand -/

variable {α : Type}

/-- `ReshuffleBuilder::CopyValueToRange` — memory/simple_buffer.h:211-215. -/
def copyRange (old new : List α) (lo hi : Int) (i : Nat) : Option (List α) := do
  let x ← old[i]?
  if 0 ≤ lo ∧ lo ≤ hi then DBuilder.fillN new x lo.toNat (hi - lo).toNat else none

/-- Loop over parents without a bitmap — edge_ops.h:256-258; `n` parents remain. -/
def expandFull (a : DArr α) (sp : List Int) : Nat → Nat → List α → Option (List α)
  | 0, _, vals => some vals
  | n + 1, i, vals => do
    let vals ← copyRange a.values vals (← sp[i]?) (← sp[i + 1]?) i
    expandFull a sp n (i + 1) vals

/-- Loop over parents with a bitmap — edge_ops.h:265-271. -/
def expandBits (a : DArr α) (sp : List Int) : Nat → Nat → List α → List Word →
    Option (List α × List Word)
  | 0, _, vals, bits => some (vals, bits)
  | n + 1, i, vals, bits => do
    if ← a.present i then do
      let lo ← sp[i]?
      let hi ← sp[i + 1]?
      let vals ← copyRange a.values vals lo hi i
      let bits ← setBitsInRange bits lo.toNat hi.toNat
      expandBits a sp n (i + 1) vals bits
    else expandBits a sp n (i + 1) vals bits

/-- The condition `present && parent_array.present(parent_id)` — edge_ops.h:282. -/
def copyCond (a : DArr α) (x : Nat × Bool × Int) : Option Bool :=
  if x.2.1 then (if x.2.2 < 0 then none else a.present x.2.2.toNat) else some false

/-- Callback of the loop over a mapping — edge_ops.h:281-287. -/
def expandStep (a : DArr α) (st : List α × AlmostFull) (x : Nat × Bool × Int) :
    Option (List α × AlmostFull) := do
  if ← copyCond a x then do some (← wrV st.1 x.1 (← a.values[x.2.2.toNat]?), st.2)
  else do some (st.1, ← st.2.addMissed x.1)

/-- `DenseArrayExpandOp` — edge_ops.h:242-291; `mem` is the uninitialised value buffer. -/
def expand (mem : Nat → α) (a : DArr α) (e : Edge) : Option (Except String (DArr α)) :=
  if e.parentSize ≠ a.size then some (.error "argument sizes mismatch")
  else
    match e.typ with
    | .splitPoints => do
      let back ← e.values.values.getLast?
      if back < 0 then none
      else
        let vals := (List.range back.toNat).map mem
        if a.bitmap = [] then do
          some (.ok ⟨← expandFull a e.values.values a.size 0 vals, [], 0⟩)
        else do
          let bits := List.replicate (bitmapSize back.toNat) 0
          let r ← expandBits a e.values.values a.size 0 vals bits
          some (.ok ⟨r.1, r.2, 0⟩)
    | .mapping => do
      if e.childSize < 0 then none
      else do
        let vals := (List.range e.childSize.toNat).map mem
        let r ← (← e.values.forEach).foldlM (expandStep a) (vals, ⟨e.childSize.toNat, none⟩)
        some (.ok ⟨r.1, r.2.build, 0⟩)

/-- `DenseArrayExpandOp` for an edge to a scalar — edge_ops.h:293-304; `childSize` is
`edge.child_size()`. -/
def expandScalar (mem : Nat → α) (x : Option α) (childSize : Nat) : DArr α :=
  match x with
  | some v => createConst childSize v
  | none => createEmpty ((List.range childSize).map mem)

/-! ## edge.resize_groups_child_side -/

/-- Locals of `FromSplitPoints` — edge_ops.h:377-386. -/
structure RS where
  idx : Nat
  base : Int
  size : Int
  b : DBuilder Int
  seen : List Bool
  neg : Bool
  dup : Bool

/-- `while` loop — edge_ops.h:388-392, with fuel; `new_size_getter` is `getter`. -/
def advance (sp : List Int) (getter : Nat → Option Int) (old : Nat) : Nat → RS → Option RS
  | 0, _ => none
  | fuel + 1, s => do
    if (old : Int) ≥ (← sp[s.idx]?) then do
      advance sp getter old fuel
        { s with base := ← chk (s.base + s.size), idx := s.idx + 1, size := ← getter s.idx }
    else some s

/-- Callback — edge_ops.h:387-404. -/
def resizeStep (sp : List Int) (getter : Nat → Option Int) (s : RS) (x : Nat × Int) :
    Option RS := do
  let s ← advance sp getter x.1 (sp.length + 1) s
  if x.2 < 0 then some { s with neg := true }
  else if x.2 < s.size then do
    let newId ← chk (s.base + x.2)
    if newId < 0 then none
    else do
      let b ← s.b.set newId.toNat (some (x.1 : Int))
      if ← s.seen[newId.toNat]? then some { s with b := b, dup := true }
      else do some { s with b := b, seen := ← wrV s.seen newId.toNat true }
  else some s

/-- `DenseArrayEdgeResizeGroupsChildSide::FromSplitPoints` — edge_ops.h:366-418. -/
def resizeChildCore (mem : Nat → Int) (sp : List Int) (getter : Nat → Option Int) (total : Int)
    (offsets : DArr Int) : Option (Except String Edge) := do
  let childSize ← sp.getLast?
  if total < 0 then some (.error "got a negative size value")
  else if sp.length < 2 then some (.ok ⟨.mapping, 0, 0, ⟨[], [], 0⟩⟩)
  else do
    let s : RS := ⟨1, 0, ← getter 0, DBuilder.new (uninit mem total.toNat),
      List.replicate total.toNat false, false, false⟩
    let s ← (← offsets.forEachPresent).foldlM (resizeStep sp getter) s
    if s.neg then some (.error "got a negative offset")
    else if s.dup then some (.error "duplicate offsets in the same group")
    else fromMapping s.b.build childSize

/-- `operator()` with one size for every group — edge_ops.h:456-466. -/
def resizeChild (mem : Nat → Int) (e : Edge) (newSize : Int) (offsets : DArr Int) :
    Option (Except String Edge) :=
  if e.typ ≠ .splitPoints then some (.error "only supported for SPLIT_POINTS edges")
  else if (offsets.size : Int) ≠ e.childSize then some (.error "`new_offsets` size mismatch")
  else do
    resizeChildCore mem e.values.values (fun _ => some newSize) (← chk (newSize * e.parentSize))
      offsets

/-- `operator()` for an edge to a scalar — edge_ops.h:468-475. -/
def resizeChildScalar (mem : Nat → Int) (childSize : Int) (newSize : Int) (offsets : DArr Int) :
    Option (Except String Edge) :=
  if (offsets.size : Int) ≠ childSize then some (.error "`new_offsets` size mismatch")
  else resizeChildCore mem [0, childSize] (fun _ => some newSize) newSize offsets

/-- `total_size` — edge_ops.h:486-489. -/
def totalSize : List Int → Int → Option Int
  | [], t => some t
  | s :: ss, t => do totalSize ss (← chk (t + s))

/-- `operator()` with a size per group — edge_ops.h:477-496. -/
def resizeChildSizes (mem : Nat → Int) (e : Edge) (newSizes offsets : DArr Int) :
    Option (Except String Edge) :=
  if e.typ ≠ .splitPoints then some (.error "only supported for SPLIT_POINTS edges")
  else do
    if !(← newSizes.isFull) then some (.error "`new_sizes` should be a full array")
    else if newSizes.size + 1 ≠ e.values.size then some (.error "number of new sizes should match")
    else if (offsets.size : Int) ≠ e.childSize then some (.error "`new_offsets` size mismatch")
    else do
      resizeChildCore mem e.values.values (fun i => newSizes.values[i]?)
        (← totalSize newSizes.values 0) offsets

/-! ## edge.resize_groups_parent_side -/

/-- Loop — edge_ops.h:522-524; `n` rounds remain. -/
def uniformLoop (newSize : Int) : Nat → Nat → List Int → Option (List Int)
  | 0, _, sp => some sp
  | n + 1, i, sp => do
    uniformLoop newSize n (i + 1) (← wrV sp i (← chk ((← sp[i - 1]?) + newSize)))

/-- `operator()` with one size for every group — edge_ops.h:503-526. -/
def resizeParent (mem : Nat → Int) (e : Edge) (newSize : Int) : Option (Except String Edge) :=
  if e.typ ≠ .splitPoints then some (.error "only supported for SPLIT_POINTS edges")
  else if newSize < 0 then some (.error "`size` should be a non-negative integer")
  else do
    let n ← chk (e.parentSize + 1)
    let sp ← wrV (← newBuffer mem n) 0 0
    let sp ← uniformLoop newSize (n - 1).toNat 1 sp
    fromSplitPoints ⟨sp, [], 0⟩

/-- `operator()` with a size per group — edge_ops.h:540-554. -/
def resizeParentSizes (mem : Nat → Int) (e : Edge) (newSizes : DArr Int) :
    Option (Except String Edge) :=
  if e.typ ≠ .splitPoints then some (.error "only supported for SPLIT_POINTS edges")
  else if (newSizes.size : Int) ≠ e.parentSize then some (.error "number of new sizes should match")
  else fromSizes mem newSizes

end Verif.EdgeOps
