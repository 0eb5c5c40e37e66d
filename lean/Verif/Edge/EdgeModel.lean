import Verif.Dense.DenseModel

/-!
# Model of `arolla/dense_array/edge.{h,cc}`

`Option`: definedness (`none` = access outside of a buffer or another undefined behaviour);
`Except String` = `absl::StatusOr` (messages shortened).  `int64_t` is `Int` with explicit range
checks where the code can overflow.  Uninitialised buffers are filled from an arbitrary function
`mem`.
-/

namespace Verif.Edge
open Verif.Bitmap Verif.Dense

/-- `EdgeType` — edge.h:78-87. -/
inductive EType where
  | mapping
  | splitPoints
  deriving DecidableEq

/-- `DenseArrayEdge` — edge.h:33-137. -/
structure Edge where
  typ : EType
  parentSize : Int
  childSize : Int
  values : DArr Int
  deriving DecidableEq

/-- An uninitialised buffer of `n` elements. -/
def uninit (mem : Nat → Int) (n : Nat) : List Int := (List.range n).map mem

/-- `values[i]` with an `int64_t` index. -/
def getI (xs : List Int) (i : Int) : Option Int := if i < 0 then none else xs[i.toNat]?

/-- `std::is_sorted`. -/
def isSorted : List Int → Bool
  | a :: b :: t => !decide (b < a) && isSorted (b :: t)
  | _ => true

/-- `UnsafeFromMapping` — edge.cc:136-141. -/
def unsafeFromMapping (m : DArr Int) (parentSize : Int) : Edge :=
  ⟨.mapping, parentSize, m.size, m⟩

/-- `UnsafeFromSplitPoints` — edge.cc:143-149; `values.back()` of an empty buffer is undefined. -/
def unsafeFromSplitPoints (sp : DArr Int) : Option Edge := do
  let childSize ← sp.values.getLast?
  some ⟨.splitPoints, sp.size - 1, childSize, sp⟩

/-- `FromSplitPoints` — edge.cc:76-96. -/
def fromSplitPoints (sp : DArr Int) : Option (Except String Edge) := do
  if !(← sp.isFull) then some (.error "split points must be full")
  else if sp.size = 0 then some (.error "split points array must have at least 1 element")
  else do
    let first ← sp.values[0]?
    if first ≠ 0 then some (.error "split points array must have first element equal to 0")
    else do
      let childSize ← sp.values.getLast?
      if !isSorted sp.values then some (.error "split points must be sorted")
      else some (.ok ⟨.splitPoints, sp.size - 1, childSize, sp⟩)

/-- The callback of `FromMapping` — edge.cc:105-110, on the state `(max_value, negative)`. -/
def mappingStep (s : Int × Bool) (x : Nat × Bool × Int) : Int × Bool :=
  if x.2.1 then (max s.1 x.2.2, s.2 || decide (x.2.2 < 0)) else s

/-- `FromMapping` — edge.cc:98-119. -/
def fromMapping (m : DArr Int) (parentSize : Int) : Option (Except String Edge) :=
  if parentSize < 0 then some (.error "parent_size can not be negative")
  else do
    let (maxValue, negative) := (← m.forEach).foldl mappingStep (-1, false)
    if negative then some (.error "mapping can't contain negative values")
    else if maxValue ≥ parentSize then some (.error "parent id is used")
    else some (.ok (unsafeFromMapping m parentSize))

/-- Largest `int64_t`. -/
def maxI64 : Int := 2 ^ 63 - 1

/-- Signed 64-bit addition and multiplication: overflow is undefined. -/
def chk (x : Int) : Option Int := if -2 ^ 63 ≤ x ∧ x ≤ maxI64 then some x else none

/-- `SafeMul` — util/overflow.h:73-81: `true` if the product is not representable. -/
def mulOverflows (x y : Int) : Bool := !decide (-2 ^ 63 ≤ x * y ∧ x * y ≤ maxI64)

/-- `FromUniformGroups` — edge.cc:121-134. -/
def fromUniformGroups (parentSize groupSize : Int) : Option (Except String Edge) :=
  if parentSize < 0 ∨ groupSize < 0 then
    some (.error "parent_size and group_size cannot be negative")
  else if mulOverflows parentSize groupSize then some (.error "integer overflow")
  else do
    let n ← chk (parentSize + 1)
    let sp ← (List.range n.toNat).mapM (fun (i : Nat) => chk (i * groupSize))
    let e ← unsafeFromSplitPoints ⟨sp, [], 0⟩
    some (.ok e)

/-- `std::fill(buf + lo, buf + hi, v)`. -/
def fill (buf : List Int) (lo hi v : Int) : Option (List Int) :=
  if 0 ≤ lo ∧ lo ≤ hi ∧ hi ≤ buf.length then
    some (buf.take lo.toNat ++ List.replicate (hi - lo).toNat v ++ buf.drop hi.toNat)
  else none

/-- Loop of `ToMappingEdge` — edge.cc:160-163; `n` parents remain. -/
def fillLoop (splits : List Int) : Nat → Nat → List Int → Option (List Int)
  | _, 0, buf => some buf
  | p, n + 1, buf => do
    let buf ← fill buf (← splits[p]?) (← splits[p + 1]?) p
    fillLoop splits (p + 1) n buf

/-- `ToMappingEdge` — edge.cc:151-169. -/
def toMappingEdge (mem : Nat → Int) (e : Edge) : Option Edge :=
  match e.typ with
  | .mapping => some e
  | .splitPoints => do
    let buf ← fillLoop e.values.values 0 e.parentSize.toNat (uninit mem e.childSize.toNat)
    some (unsafeFromMapping ⟨buf, [], 0⟩ e.parentSize)

/-- `inserter.Add(v)` on a buffer with `pos` elements already added — memory/simple_buffer.h. -/
def ins (s : List Int × Nat) (v : Int) : Option (List Int × Nat) := do
  some (← wrV s.1 s.2 v, s.2 + 1)

/-- `n` consecutive `inserter.Add(v)`. -/
def insN (v : Int) : Nat → List Int × Nat → Option (List Int × Nat)
  | 0, s => some s
  | n + 1, s => do insN v n (← ins s v)

/-- Loop of `ToSplitPointsEdge` — edge.cc:183-191 over the remaining `values`; `i` is the position,
`bin` is `current_bin`. -/
def splitLoop : List Int → Nat → Int → List Int × Nat →
    Option (Except String (Int × List Int × Nat))
  | [], _, bin, s => some (.ok (bin, s))
  | v :: vs, i, bin, s =>
    if v < bin then some (.error "expected a sorted mapping")
    else do
      let s ← insN i (v - bin).toNat s
      splitLoop vs (i + 1) (bin + (v - bin).toNat) s

/-- `ToSplitPointsEdge` — edge.cc:171-197. -/
def toSplitPointsEdge (mem : Nat → Int) (e : Edge) : Option (Except String Edge) :=
  if e.typ = .splitPoints then some (.ok e)
  else do
    if !(← e.values.isFull) then some (.error "expected a full mapping")
    else do
      let s ← ins (uninit mem (e.parentSize + 1).toNat, 0) 0
      match ← splitLoop e.values.values 0 0 s with
      | .error m => some (.error m)
      | .ok (bin, s) => do
        let s ← insN e.values.size (e.parentSize - bin).toNat s
        let r ← unsafeFromSplitPoints ⟨s.1, [], 0⟩
        some (.ok r)

/-- `ArraysAreEquivalent` on `DenseArray<int64_t>`. -/
def arraysEq (a b : DArr Int) : Option Bool := DArr.equivalent (fun x y => decide (x = y)) a b

/-- `IsEquivalentTo` — edge.cc:199-215. -/
def isEquivalentTo (mem : Nat → Int) (a b : Edge) : Option Bool :=
  if a.parentSize ≠ b.parentSize ∨ a.childSize ≠ b.childSize then some false
  else if a.typ = b.typ then arraysEq a.values b.values
  else do
    match ← toSplitPointsEdge mem a with
    | .error _ => some false
    | .ok a' =>
      match ← toSplitPointsEdge mem b with
      | .error _ => some false
      | .ok b' => arraysEq a'.values b'.values

/-- One round of `ComposeMappingEdge` — edge.cc:46-51: `me` is `mapping_edge.edge_values()`, `n` is
`edges.back().child_size()`. -/
def mapStep (mem : Nat → Int) (n : Nat) (me : DArr Int) (mapping : DArr Int) :
    Option (DArr Int) := do
  let calls ← (← mapping.forEachPresent).mapM (fun (id, v) => do
    if v < 0 then none else some (DBuilder.Op.set id (← me.at? v.toNat)))
  let b ← (DBuilder.new (uninit mem n)).applyAll calls
  some b.build

/-- Loop of `ComposeMappingEdge` — edge.cc:45-52; the argument lists the remaining edges, last
first. -/
def mapLoop (mem : Nat → Int) (n : Nat) : List Edge → DArr Int → Option (DArr Int)
  | [], m => some m
  | e :: es, m => do
    let me ← toMappingEdge mem e
    mapLoop mem n es (← mapStep mem n me.values m)

/-- `ComposeMappingEdge` — edge.cc:40-55. -/
def composeMapping (mem : Nat → Int) (edges : List Edge) : Option Edge := do
  let front ← edges.head?
  let back ← edges.getLast?
  let m ← toMappingEdge mem back
  let m ← mapLoop mem back.childSize.toNat edges.dropLast.reverse m.values
  some (unsafeFromMapping m front.parentSize)

/-- Loop of `ComposeSplitPointsEdge` — edge.cc:64-70.  The output span is also the input of the next
round; element `j` of a round only depends on element `j` before the round. -/
def splitCompLoop : List Edge → List Int → Option (List Int)
  | [], prev => some prev
  | e :: es, prev => do
    let cur ← prev.mapM (getI e.values.values)
    splitCompLoop es cur

/-- `ComposeSplitPointsEdge` — edge.cc:57-72. -/
def composeSplit (edges : List Edge) : Option Edge :=
  match edges with
  | [] => none
  | e :: es => do
    let cur ← splitCompLoop es (e.values.values.take e.values.size)
    unsafeFromSplitPoints ⟨cur, [], 0⟩

/-- Compatibility check — edge.cc:223-232. -/
def chainOk : Int → List Edge → Bool
  | _, [] => true
  | prior, e :: es => decide (e.parentSize = prior) && chainOk e.childSize es

/-- Grouping loop of `ComposeEdges` — edge.cc:237-260; the argument is `edges[i..]`. -/
def groupRuns : Nat → List Edge → Option (List Edge)
  | 0, _ => none
  | _ + 1, [] => some []
  | fuel + 1, e :: es => do
    let run := (e :: es).takeWhile (fun x => x.typ = .splitPoints)
    if run.length ≥ 2 then do
      let c ← composeSplit run
      let rest ← groupRuns fuel ((e :: es).drop run.length)
      some (c :: rest)
    else do
      let rest ← groupRuns fuel es
      some (e :: rest)

/-- `ComposeEdges` — edge.cc:217-266. -/
def composeEdges (mem : Nat → Int) (edges : List Edge) : Option (Except String Edge) :=
  match edges with
  | [] => some (.error "at least one edge must be present")
  | [e] => some (.ok e)
  | e :: es =>
    if !chainOk e.parentSize (e :: es) then some (.error "incompatible edges")
    else do
      let t ← groupRuns (es.length + 2) (e :: es)
      match t with
      | [x] => some (.ok x)
      | t => do some (.ok (← composeMapping mem t))

end Verif.Edge
