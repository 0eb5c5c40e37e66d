import Verif.Jagged.ShapeModel
import Verif.Dense.DenseModel
import Verif.Arr.ArrayModel

/-!
# Model of `arolla/jagged_shape/util/concat.h`

The strided `group_sizes` vector is a list which both loops consume from the front; the writes "in place"
become a new list.  `shape_i_split` and `array_offsets` are kept next to the edge or array they belong to.
`edge_last_split` is a checked 64 bit sum (overflow is undefined); `num_groups_per_input * shapes.size()`
and the size of the result array are not checked, since vectors and arrays of these sizes are allocated.
-/

namespace Verif.Jagged
open Verif.Dense Verif.Edge

/-- `split_size` — dense_array/edge.h:105-110. -/
def splitSize (e : Edge) (i : Nat) : Option Int := do
  some ((← e.values.values[i + 1]?) - (← e.values.values[i]?))

/-- The inner loop of `BuildSuffixEdge` — concat.h:231-244: the sizes of `n` consecutive splits. -/
def takeSplits (e : Edge) : Nat → Nat → Option (List Int)
  | _, 0 => some []
  | pos, n + 1 => do
    let x ← splitSize e pos
    some (x :: (← takeSplits e (pos + 1) n))

/-- The loop over the shapes — concat.h:217-251: split sizes met, new group sizes, updated positions and
the group sizes not yet consumed. -/
def shapeLoop : List (Edge × Nat) → List Int → Option (List Int × List Int × List (Edge × Nat) × List Int)
  | [], gs => some ([], [], [], gs)
  | (e, pos) :: rest, g :: gs => do
    let ss ← takeSplits e pos g.toNat
    let (o, ngs, st, gs') ← shapeLoop rest gs
    some (ss ++ o, ss.sum :: ngs, (e, pos + g.toNat) :: st, gs')
  | _ :: _, [] => none

/-- The loop over the groups — concat.h:214-257: sizes of the result splits and new group sizes. -/
def groupLoop (isConcat : Bool) : Nat → List (Edge × Nat) → List Int → Option (List Int × List Int)
  | 0, _, gs => some ([], gs)
  | n + 1, st, gs => do
    let (o, ngs, st', gs') ← shapeLoop st gs
    let (os, nn) ← groupLoop isConcat n st' gs'
    some ((if isConcat then [ngs.sum] else o) ++ os, ngs ++ nn)

/-- `edge_last_split += split_size; edge_splits[++id] = edge_last_split` — concat.h:202-206. -/
def splitsFrom (acc : Int) : List Int → Option (List Int)
  | [] => some []
  | x :: xs => if acc + x ≤ maxI64 then do some ((acc + x) :: (← splitsFrom (acc + x) xs)) else none

/-- `BuildSuffixEdge` — concat.h:177-263.  The split buffer has `parent_size + 1` elements: more splits
are out of bounds, fewer leave it uninitialised. -/
def buildSuffixEdge (shapes : List Shape) (dim : Nat) (gs : List Int) (numGroups : Nat) (parentSize : Int)
    (isConcat : Bool) : Option (Edge × List Int) := do
  let es ← shapes.mapM (fun s => s[dim]?)
  let (outs, gs') ← groupLoop isConcat numGroups (es.map (fun e => (e, 0))) gs
  if (outs.length : Int) ≠ parentSize then none
  else do some (← unsafeFromSplitPoints ⟨0 :: (← splitsFrom 0 outs), [], 0⟩, gs')

/-- Loop over the suffix dimensions — concat.h:331-346: `n` dimensions from `d` on. -/
def suffixLoop (shapes : List Shape) (numGroups : Nat) (insert : Bool) (dim : Nat) :
    Nat → Nat → List Edge → List Int → Option (List Edge × List Int)
  | 0, _, es, gs => some (es, gs)
  | n + 1, d, es, gs => do
    let (e, gs') ← buildSuffixEdge shapes d gs numGroups (size es) (!insert && d == dim)
    suffixLoop shapes numGroups insert dim n (d + 1) (es ++ [e]) gs'

/-- The prefix check — concat.h:294-300. -/
def samePrefix (mem : Nat → Int) (dim : Nat) (s t : Shape) : Option Bool :=
  edgesLoop mem (s.take dim) t

/-- The checks on every shape — concat.h:286-301. -/
def checkShapes (mem : Nat → Int) (first : Shape) (dim : Nat) : List Shape → Option (Except String Unit)
  | [] => some (.ok ())
  | s :: ss => do
    if s.length ≠ first.length then some (.error "same rank")
    else if !(← samePrefix mem dim first s) then some (.error "same shape prefix")
    else checkShapes mem first dim ss

/-- The new dimension of `stack` — concat.h:316-320. -/
def concatPrefix (insert : Bool) (pre : List Edge) (numGroups : Int) (m : Nat) :
    Option (Except String (List Edge)) :=
  if insert then do
    match ← fromUniformGroups numGroups m with
    | .error e => some (.error e)
    | .ok e => some (.ok (pre ++ [e]))
  else some (.ok pre)

/-- The part of `ConcatJaggedShapesAlongDimension` after the checks — concat.h:303-350. -/
def concatBody (mem : Nat → Int) (first : Shape) (shapes : List Shape) (dim : Nat) (insert : Bool) :
    Option (Except String (Shape × List Int)) := do
  let pre := first.take dim
  let numGroups := size pre
  match ← concatPrefix insert pre numGroups shapes.length with
  | .error m => some (.error m)
  | .ok es => do
    let (es', gs) ← suffixLoop shapes numGroups.toNat insert dim (first.length - dim) dim es
      (List.replicate (numGroups.toNat * shapes.length) 1)
    match ← fromEdges mem es' with
    | .error m => some (.error m)
    | .ok r => some (.ok (r, gs))

/-- `ConcatJaggedShapesAlongDimension` — concat.h:267-351. -/
def concatShapes (mem : Nat → Int) (shapes : List Shape) (dim : Int) (insert : Bool) :
    Option (Except String (Shape × List Int)) :=
  match shapes with
  | [] => some (.error "nonzero number of inputs")
  | first :: rest =>
    let resultRank : Int := if insert then (first.length : Int) + 1 else first.length
    if resultRank = 0 then some (.error "rank zero")
    else if dim < 0 ∨ dim ≥ resultRank then some (.error "invalid dim")
    else do
      match ← checkShapes mem first dim.toNat (first :: rest) with
      | .error m => some (.error m)
      | .ok () => concatBody mem first (first :: rest) dim.toNat insert

section Arrays
variable {A α : Type}

/-- The loop over the arrays — concat.h:423-434: the `Add` calls, the updated offsets, the group sizes not
yet consumed and the result offset.  `slice` and `visit` are `Slice` and `ForEachPresent` of the array
type. -/
def arrayLoop (slice : A → Nat → Nat → Option A) (visit : A → Option (List (Nat × α))) :
    List (A × Nat) → List Int → Nat → Option (List (Nat × α) × List (A × Nat) × List Int × Nat)
  | [], gs, off => some ([], [], gs, off)
  | (a, pos) :: rest, g :: gs, off => do
    let g ← if g < 0 then none else some g.toNat
    let vs ← visit (← slice a pos g)
    let (o, st, gs', off') ← arrayLoop slice visit rest gs (off + g)
    some (vs.map (fun (i, v) => (off + i, v)) ++ o, (a, pos + g) :: st, gs', off')
  | _ :: _, [], _ => none

/-- The loop over the groups — concat.h:419-435. -/
def arrayGroups (slice : A → Nat → Nat → Option A) (visit : A → Option (List (Nat × α))) :
    Nat → List (A × Nat) → List Int → Nat → Option (List (Nat × α))
  | 0, _, _, _ => some []
  | n + 1, st, gs, off => do
    let (o, st', gs', off') ← arrayLoop slice visit st gs off
    some (o ++ (← arrayGroups slice visit n st' gs' off'))

/-- `ConcatJaggedArraysAlongDimension` — concat.h:372-439; `build` makes the result array from the `Add`
calls. -/
def concatArrays (mem : Nat → Int) (asize : A → Nat) (slice : A → Nat → Nat → Option A)
    (visit : A → Option (List (Nat × α))) (build : List A → List (Nat × α) → Option A)
    (arrays : List A) (shapes : List Shape) (dim : Int) (insert : Bool) :
    Option (Except String (A × Shape)) :=
  if arrays.length ≠ shapes.length then some (.error "expects 1:1")
  else do
    match ← concatShapes mem shapes dim insert with
    | .error m => some (.error m)
    | .ok (shape, gs) =>
      match arrays with
      | [a] => some (.ok (a, shape))
      | arrays =>
        if (arrays.zip shapes).any (fun (a, s) => decide ((asize a : Int) ≠ size s)) then
          some (.error "same size")
        else do
          let e ← shape[dim.toNat]?
          let adds ← arrayGroups slice visit e.parentSize.toNat (arrays.map (fun a => (a, 0))) gs 0
          some (.ok (← build arrays adds, shape))

/-- The builder for dense arrays — dense_array/util/concat.h:30-38. -/
def buildDense (vmem : Nat → α) (arrays : List (DArr α)) (adds : List (Nat × α)) : Option (DArr α) := do
  let n := (arrays.map DArr.size).sum
  let b ← (DBuilder.new ((List.range n).map vmem)).applyAll (adds.map (fun (i, v) => .set i (some v)))
  some b.build

/-- Concatenation of dense arrays. -/
def concatDense (mem : Nat → Int) (vmem : Nat → α) (arrays : List (DArr α)) (shapes : List Shape) (dim : Int)
    (insert : Bool) : Option (Except String (DArr α × Shape)) :=
  concatArrays mem DArr.size DArr.slice DArr.forEachPresent (buildDense vmem) arrays shapes dim insert

/-- `ForEachPresent(fn)` of an array with the default repeated function — array.h:362-372. -/
def visitArr (a : Arr.Arr α) : Option (List (Nat × α)) := do
  ((← a.forEachPresent).flatMap Arr.Arr.Call.expand).mapM (fun (i, v) => do some (← Arr.Arr.toIdx i, ← v))

/-- The builder for arrays — array/util/concat.h:30-40. -/
def buildSparse (vmem : Nat → α) (imem : Nat → Int) (arrays : List (Arr.Arr α)) (adds : List (Nat × α)) :
    Option (Arr.Arr α) := do
  let n := (arrays.map Arr.Arr.size).sum
  let cnt := (← arrays.mapM Arr.Arr.presentCount).sum
  let b ← (Arr.SBuilder.new n ((List.range cnt).map vmem) ((List.range cnt).map imem)).applyAll
    (adds.map (fun (i, v) => .add i (some v)))
  some b.build

/-- Concatenation of arrays; the shapes are those of `DenseArrayEdge` also here. -/
def concatArr (mem : Nat → Int) (vmem : Nat → α) (imem : Nat → Int) (arrays : List (Arr.Arr α))
    (shapes : List Shape) (dim : Int) (insert : Bool) : Option (Except String (Arr.Arr α × Shape)) :=
  concatArrays mem Arr.Arr.size Arr.Arr.slice visitArr (buildSparse vmem imem) arrays shapes dim insert

end Arrays
end Verif.Jagged
