import Verif.Arr.ArrayModel

/-!
# Model of `FrameIterator` and of the array ↔ frame copiers

`arolla/qtype/array_like/frame_iter.{h,cc}`, `arolla/dense_array/qtype/copier.h`,
`arolla/array/qtype/copier.h`, `arolla/qtype/array_like/array_like_qtype.h:51-121`.

* A frame (`FramePtr`) maps slot numbers to cells.  A cell is `(present, value)`; the flag of a
  non-optional slot has no meaning.  All value types share one Lean type `V`; a value type is a
  number, used only for the checks in `AddMapping`.
* A write to a frame outside of the span, and a read outside of a buffer, is `none`.
* `flat_hash_map` iteration over the copiers is an oracle: the order `keys` of the array types.
* Sizes are natural numbers (a negative `options.row_count` is not modelled), and one value buffer
  entry holds one value (`SimpleBuffer`; the builder of string buffers is not modelled).
* `Start` / "finalize can be called only once" are not modelled: the iterator calls them in order.
-/

namespace Verif.Frames
open Verif.Bits Verif.Bitmap Verif.Dense Verif.Arr

variable {V : Type}

/-- Contents of a frame: slot ↦ cell. -/
abbrev Frame (V : Type) := Nat → Bool × V

/-- `FramePtr::Set`. -/
def Frame.set (f : Frame V) (s : Nat) (c : Bool × V) : Frame V := fun t => if t = s then c else f t

/-- An input array: `DenseArray<T>` or `Array<T>`. -/
inductive InArr (V : Type) where
  | dense (a : DArr V)
  | sparse (a : Arr V)

/-- `size()` of an input array. -/
def InArr.size : InArr V → Nat
  | .dense a => a.size
  | .sparse a => a.size

/-- A `TypedRef` to an array: the value type and the array. -/
structure In (V : Type) where
  ty : Nat
  arr : InArr V

/-- A `TypedSlot` of the scalar frame: slot number, value type, is it `OptionalValue<T>`. -/
structure Scalar where
  id : Nat
  ty : Nat
  opt : Bool
  deriving DecidableEq

/-- A `TypedSlot` for an output array: slot number, value type, `Array<T>` or `DenseArray<T>`. -/
structure OutSlot where
  id : Nat
  ty : Nat
  sparse : Bool
  deriving DecidableEq

/-- The array type of an input: the key of the `flat_hash_map` of copiers. -/
abbrev Key := Bool × Nat

/-- `input_arrays[i].GetType()`. -/
def In.key (a : In V) : Key :=
  match a.arr with
  | .dense _ => (false, a.ty)
  | .sparse _ => (true, a.ty)

/-- `output_array_slots[i].GetType()`. -/
def OutSlot.key (o : OutSlot) : Key := (o.sparse, o.ty)

/-! ## Copying from arrays to frames -/

/-- `frames[i].Set(slot, c)` for a possibly invalid index `i`. -/
def setAt (fs : List (Frame V)) (i : Int) (s : Nat) (c : Bool × V) : Option (List (Frame V)) :=
  if 0 ≤ i then
    match fs[i.toNat]? with
    | none => none
    | some f => some (fs.set i.toNat (f.set s c))
  else none

/-- A sequence of such writes. -/
def setAll (s : Nat) : List (Int × (Bool × V)) → List (Frame V) → Option (List (Frame V))
  | [], fs => some fs
  | w :: ws, fs => (setAt fs w.1 s w.2).bind (setAll s ws)

/-- The loop `for i: frames[i].Set(slot, {true, iter[i]})` — dense_array/qtype/copier.h:73-75, 83-85
and array/qtype/copier.h:71-73; `start` is the position of `iter`. -/
def copyFull (values : List V) (start s : Nat) (fs : List (Frame V)) : Option (List (Frame V)) :=
  ((List.range fs.length).mapM (fun i => (values[start + i]?).map (fun v => ((i : Int), (true, v))))).bind
    (fun ws => setAll s ws fs)

/-- The `IterateByGroups` loop — dense_array/qtype/copier.h:87-96, array/qtype/copier.h:75-84. -/
def copyBits (bm : List Word) (values : List V) (firstBit start s : Nat) (fs : List (Frame V)) :
    Option (List (Frame V)) :=
  (iterateByGroups bm firstBit fs.length).bind (fun bits =>
    (bits.mapM (fun p => (values[start + p.1]?).map (fun v => ((p.1 : Int), (p.2, v))))).bind
      (fun ws => setAll s ws fs))

/-- One mapping of `DenseArray2FramesCopier::CopyNextBatch` — dense_array/qtype/copier.h:65-102.
A non-optional slot ignores the bitmap. -/
def copyDense (a : DArr V) (slot : Scalar) (cur : Nat) (fs : List (Frame V)) :
    Option (List (Frame V)) :=
  if slot.opt = false then copyFull a.values cur slot.id fs
  else if a.bitmap = [] then copyFull a.values cur slot.id fs
  else copyBits a.bitmap a.values (cur + a.off) cur slot.id fs

/-- The cell for `missing_id_value()`; `junk` is the value stored in an absent `OptionalValue`. -/
def missCell (junk : V) : Option V → Bool × V
  | some v => (true, v)
  | none => (false, junk)

/-- The writes of the sparse branch — array/qtype/copier.h:98-117: `count` stored ids from offset
`fromOff` on; `frames` is `output_buffers.begin() - ids_offset - current_row_id_`. -/
def sparseWrites (a : Arr V) (cur fromOff count : Nat) : Option (List (Int × (Bool × V))) :=
  if a.data.bitmap = [] then
    (List.range count).mapM (fun i =>
      (a.flt.ids[fromOff + i]?).bind (fun id =>
        (a.data.values[fromOff + i]?).map (fun v => (id - a.flt.off - (cur : Int), (true, v)))))
  else
    (iterateByGroups a.data.bitmap (fromOff + a.data.off) count).bind (fun bits =>
      bits.mapM (fun p =>
        (a.flt.ids[fromOff + p.1]?).bind (fun id =>
          (a.data.values[fromOff + p.1]?).map (fun v => (id - a.flt.off - (cur : Int), (p.2, v))))))

/-- One mapping of `ArrayToFramesCopier::CopyNextBatch` — array/qtype/copier.h:64-121. -/
def copySparse (junk : V) (a : Arr V) (s cur : Nat) (fs : List (Frame V)) :
    Option (List (Frame V)) :=
  if a.flt.typ = .full ∧ a.data.bitmap = [] then copyFull a.data.values cur s fs
  else if a.flt.typ = .full then
    copyBits a.data.bitmap a.data.values (cur + a.data.off) cur s fs
  else
    let fs := fs.map (fun f => f.set s (missCell junk a.miss))
    let fromOff := lb a.flt.ids ((cur : Int) + a.flt.off)
    let toOff := lb a.flt.ids ((cur : Int) + (fs.length : Int) + a.flt.off)
    (sparseWrites a cur fromOff (toOff - fromOff)).bind (fun ws => setAll s ws fs)

/-- `CopyNextBatch` for one mapping. -/
def copyIn (junk : V) (a : In V) (slot : Scalar) (cur : Nat) (fs : List (Frame V)) :
    Option (List (Frame V)) :=
  match a.arr with
  | .dense d => copyDense d slot cur fs
  | .sparse x => copySparse junk x slot.id cur fs

/-- `PreloadFrames` — frame_iter.cc:184-188: all mappings of all copiers. -/
def preload (junk : V) (cur : Nat) : List (In V × Scalar) → List (Frame V) → Option (List (Frame V))
  | [], fs => some fs
  | m :: ms, fs => (copyIn junk m.1 m.2 cur fs).bind (preload junk cur ms)

/-! ## Copying from frames to arrays -/

/-- Builders of an output mapping — dense_array/qtype/copier.h:203-209. -/
structure OutB (V : Type) where
  vals : List V
  bits : Option Builder

/-- `SetArraySize` — dense_array/qtype/copier.h:211-219, array/qtype/copier.h:229-237.  `mem` and
`bmem` are the uninitialised buffers. -/
def OutB.start (mem : List V) (bmem : List Word) (slot : Scalar) : OutB V :=
  ⟨mem, if slot.opt then some (Builder.new bmem) else none⟩

/-- `SetN` / `Inserter::Add` from position `pos` on — memory/simple_buffer.h:62-66, 135-142. -/
def writeVals (mem : List V) (pos : Nat) : List V → Option (List V)
  | [] => some mem
  | x :: xs => (wrV mem pos x).bind (fun mem => writeVals mem (pos + 1) xs)

/-- One mapping of `Frames2DenseArrayCopier::CopyNextBatch` — dense_array/qtype/copier.h:141-179 — and
of `ArrayFromFramesCopier::CopyNextBatch` — array/qtype/copier.h:159-197. -/
def copyOut (slot : Scalar) (cur : Nat) (fs : List (Frame V)) (b : OutB V) : Option (OutB V) :=
  match b.bits with
  | none => (writeVals b.vals cur (fs.map (fun f => (f slot.id).2))).map (fun vs => ⟨vs, none⟩)
  | some bb =>
    (bb.addForEach (fs.map (fun f => (f slot.id).1))).bind (fun bb =>
      (writeVals b.vals cur (fs.map (fun f => (f slot.id).2))).map (fun vs => ⟨vs, some bb⟩))

/-- `SaveOutputsOfProcessedFrames` — frame_iter.cc:190-198. -/
def saveOutputs (cur : Nat) (fs : List (Frame V)) :
    List (OutSlot × Scalar) → List (OutB V) → Option (List (OutB V))
  | o :: os, b :: bs =>
    (copyOut o.2 cur fs b).bind (fun b => (saveOutputs cur fs os bs).map (fun bs => b :: bs))
  | _, _ => some []

/-- The array made by `Finalize` — dense_array/qtype/copier.h:181-196, array/qtype/copier.h:199-214. -/
def OutB.finalize (o : OutSlot) (b : OutB V) : In V :=
  let d : DArr V := ⟨b.vals, match b.bits with | none => [] | some bb => bb.build, 0⟩
  ⟨o.ty, if o.sparse then .sparse (Arr.ofDense d) else .dense d⟩

/-! ## `FrameIterator` -/

/-- The error statuses of `FrameIterator::Create`. -/
inductive Err where
  | inputCount
  | arraySize
  | inputSlotType
  | outputCount
  | outputSlotType
  | differentSizes
  | noRowCount
  | rowCountMismatch
  deriving DecidableEq

/-- Does the slot accept the values of the array?  `ToSlot<…>` in `AddMapping` —
dense_array/qtype/copier.h:56-61, array/qtype/copier.h:59-60. -/
def In.accepts (a : In V) (s : Scalar) : Bool :=
  decide (s.ty = a.ty) && (match a.arr with | .dense _ => true | .sparse _ => s.opt)

/-- Row counts of the copiers, by array type. -/
abbrev Counts := List (Key × Nat)

/-- The loop of `CreateInputCopiers` — frame_iter.cc:55-63 — with `AddMapping` and `SetRowCount`
(array_like_qtype.h:73-81). -/
def addInputs : List (In V × Scalar) → Counts → Except Err Counts
  | [], cs => .ok cs
  | m :: ms, cs =>
    match cs.lookup m.1.key with
    | some n =>
      if n ≠ m.1.arr.size then .error .arraySize
      else if m.1.accepts m.2 then addInputs ms cs else .error .inputSlotType
    | none =>
      if m.1.accepts m.2 then addInputs ms (cs ++ [(m.1.key, m.1.arr.size)])
      else .error .inputSlotType

/-- The loop of `CreateOutputCopiers` — frame_iter.cc:85-93; `AddMapping` accepts `T` and
`OptionalValue<T>`. -/
def addOutputs : List (OutSlot × Scalar) → Except Err Unit
  | [] => .ok ()
  | o :: os => if o.2.ty = o.1.ty then addOutputs os else .error .outputSlotType

/-- The loop over the copiers in `Create` — frame_iter.cc:120-129. -/
def commonCount : List Nat → Option Nat → Except Err (Option Nat)
  | [], r => .ok r
  | n :: ns, r =>
    match r with
    | none => commonCount ns (some n)
    | some k => if k ≠ n then .error .differentSizes else commonCount ns (some n)

/-- The state of a created `FrameIterator`: mappings in copier order, `row_count_` and
`frames_.size()`. -/
structure Iter (V : Type) where
  ins : List (In V × Scalar)
  outs : List (OutSlot × Scalar)
  rowCount : Nat
  frames : Nat

/-- `FrameIterator::Options`. -/
structure Options where
  rowCount : Option Nat := none
  frameBufferCount : Nat := 64

/-- Mappings in the order of the copiers: by array type in the order `keys` of the hash map, each
copier in the order of `AddMapping`. -/
def byKey {β : Type} (key : β → Key) (keys : List Key) (ms : List β) : List β :=
  keys.flatMap (fun k => ms.filter (fun m => decide (key m = k)))

/-- `FrameIterator::Create` — frame_iter.cc:104-145 — and the constructor 147-169.  `inKeys` and
`outKeys` are the iteration orders of the two hash maps. -/
def create (inKeys outKeys : List Key) (inputs : List (In V)) (inSlots : List Scalar)
    (outputs : List OutSlot) (outSlots : List Scalar) (options : Options) : Except Err (Iter V) :=
  if inputs.length ≠ inSlots.length then .error .inputCount
  else
    match addInputs (inputs.zip inSlots) [] with
    | .error e => .error e
    | .ok counts =>
      if outputs.length ≠ outSlots.length then .error .outputCount
      else
        match addOutputs (outputs.zip outSlots) with
        | .error e => .error e
        | .ok () =>
          match commonCount (inKeys.filterMap (fun k => counts.lookup k)) none with
          | .error e => .error e
          | .ok none =>
            match options.rowCount with
            | none => .error .noRowCount
            | some n => .ok (mk n)
          | .ok (some n) =>
            match options.rowCount with
            | none => .ok (mk n)
            | some k => if k ≠ n then .error .rowCountMismatch else .ok (mk n)
where
  /-- The constructor — frame_iter.cc:147-169. -/
  mk (n : Nat) : Iter V :=
    ⟨byKey (fun m => m.1.key) inKeys (inputs.zip inSlots),
     byKey (fun m => m.1.key) outKeys (outputs.zip outSlots), n, min n options.frameBufferCount⟩

/-- State of the loop of `ForEachFrame`: `current_row_id_` of the copiers, the frame buffers, the
output builders and the frames `fn` was called on, in order. -/
structure LoopSt (V : Type) where
  cur : Nat
  frames : List (Frame V)
  outs : List (OutB V)
  calls : List (Frame V)

/-- One iteration of `ForEachFrame` — frame_iter.h:103-108 — for `count` frames. -/
def block (junk : V) (it : Iter V) (fn : Frame V → Frame V) (count : Nat) (st : LoopSt V) :
    Option (LoopSt V) :=
  (preload junk st.cur it.ins (st.frames.take count)).bind (fun loaded =>
    let done := loaded.map fn
    (saveOutputs st.cur done it.outs st.outs).map (fun outs =>
      ⟨st.cur + count, done ++ st.frames.drop count, outs, st.calls ++ loaded⟩))

/-- The loop of `ForEachFrame(fn)` — frame_iter.h:100-110. -/
def forEachFrame (junk : V) (it : Iter V) (fn : Frame V → Frame V) :
    Nat → Nat → LoopSt V → Option (LoopSt V)
  | 0, _, _ => none
  | fuel + 1, offset, st =>
    if offset < it.rowCount then
      (block junk it fn (min it.frames (it.rowCount - offset)) st).bind
        (forEachFrame junk it fn fuel (offset + it.frames))
    else some st

/-- `StoreOutput` — frame_iter.cc:177-182: the assignments to the slots of the output frame. -/
def storeOutput (it : Iter V) (outs : List (OutB V)) : List (Nat × In V) :=
  List.zipWith (fun o b => (o.1.id, b.finalize o.1)) it.outs outs

/-- Uninitialised memory for the output builders: for every output, `row_count` values and the words
of the bitmap builder. -/
structure Mem (V : Type) where
  vals : Nat → List V
  bits : Nat → List Word

/-- The builders after `Start(row_count)`. -/
def startOuts (mem : Mem V) (it : Iter V) : List (OutB V) :=
  it.outs.zipIdx.map (fun o => OutB.start (mem.vals o.2) (mem.bits o.2) o.1.2)

/-- `ForEachFrame(fn)` followed by `StoreOutput` on a fresh iterator, whose frame buffers contain
`init` (after `InitializeAlignedAlloc` and `CustomFrameInitialization`). -/
def run (junk : V) (mem : Mem V) (it : Iter V) (fn : Frame V → Frame V) (init : List (Frame V))
    (fuel : Nat) : Option (List (Nat × In V) × List (Frame V)) :=
  (forEachFrame junk it fn fuel 0 ⟨0, init, startOuts mem it, []⟩).map (fun st =>
    (storeOutput it st.outs, st.calls))

end Verif.Frames
