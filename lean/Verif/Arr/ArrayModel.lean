import Verif.Arr.FilterModel

/-!
# Model of `arolla/array/array.h`

Freshly allocated value buffers are filled from an arbitrary function `mem`.  `operator==` of the value
type is decidable equality (the model does not cover `float` values with `-0.0 == 0.0` and `NaN`).
-/

namespace Verif.Arr
open Verif.Bits Verif.Bitmap Verif.Dense

/-- `Array<T>` — array.h:50-393. -/
structure Arr (α : Type) where
  size : Nat
  flt : Filter
  data : DArr α
  miss : Option α
  deriving DecidableEq

namespace Arr
variable {α : Type}

/-- `Array(size, ids, data, missing_id_value)` — array.h:86-109. -/
def make (size : Nat) (flt : Filter) (data : DArr α) (miss : Option α) : Arr α :=
  ⟨size, flt, data, if flt.typ = .full then none else miss⟩

/-- `Array(DenseArray)` — array.h:64-69. -/
def ofDense (d : DArr α) : Arr α := ⟨d.size, .fullF, d, none⟩

/-- `Array(size, value)` — array.h:55-61. -/
def ofConst (size : Nat) (v : Option α) : Arr α := ⟨size, .emptyF, ⟨[], [], 0⟩, v⟩

/-- `operator[]` — array.h:118-128. -/
def at? (a : Arr α) (i : Nat) : Option (Option α) :=
  match a.flt.idToOffset i with
  | some o => a.data.at? o
  | none => some a.miss

/-- `HasMissingIdValue` — array.h:162-164. -/
def hasMissing (a : Arr α) : Bool := decide (a.flt.typ ≠ .full) && a.miss.isSome && decide (0 < a.size)

/-- `Slice` — array.h:220-245. -/
def slice (a : Arr α) (start count : Nat) : Option (Arr α) :=
  match a.flt.typ with
  | .empty => some (ofConst count a.miss)
  | .partial' => do
    let newOff := a.flt.off + start
    let s := lb a.flt.ids newOff
    let e := lb a.flt.ids (newOff + count)
    let ids ← bufSlice a.flt.ids s (e - s)
    some (make count (mkFilter count ids newOff) (← a.data.slice s (e - s)) a.miss)
  | .full => do some (make count .fullF (← a.data.slice start count) a.miss)

/-- `PresentCount` — array.h:247-252. -/
def presentCount (a : Arr α) : Option Nat := do
  let res ← countBits a.data.bitmap a.data.off a.data.size
  some (if a.hasMissing then res + (a.size - a.data.size) else res)

/-- A callback call: `fn(id, present, value)` or `repeated_fn(first, count, present, value)`.  The value
of a missing element is unspecified, hence `Option`. -/
inductive Call (α : Type) where
  | one (id : Int) (v : Option α)
  | rep (first : Int) (count : Int) (v : Option α)
  deriving DecidableEq

/-- The gaps and elements of the sparse loop — array.h:291-298, 345-350. -/
def sparseCalls (f : Filter) (miss : Option α) : List (Nat × Bool × α) → Int →
    Option (List (Call α) × Int)
  | [], id => some ([], id)
  | (offset, present, v) :: rest, id => do
    let newId ← f.idsOffsetToId offset
    let (calls, last) ← sparseCalls f miss rest (newId + 1)
    some ((if id < newId then [.rep id (newId - id) miss] else []) ++
      .one newId (if present then some v else none) :: calls, last)

/-- `ForEach(fn, repeated_fn)` — array.h:272-303. -/
def forEach (a : Arr α) : Option (List (Call α)) :=
  match a.flt.typ with
  | .empty => some [.rep 0 a.size a.miss]
  | .full => do
    some ((← a.data.forEach).map (fun (i, b, v) => .one i (if b then some v else none)))
  | .partial' => do
    let (calls, id) ← sparseCalls a.flt a.miss (← a.data.forEach) 0
    some (calls ++ if id < a.size then [.rep id (a.size - id) a.miss] else [])

/-- The default `repeated_fn` — array.h:307-315: every call stands for a list of `fn` calls. -/
def Call.expand : Call α → List (Int × Option α)
  | .one id v => [(id, v)]
  | .rep first count v => (List.range count.toNat).map (fun (i : Nat) => (first + i, v))

/-- The calls of `ForEachPresent(fn, repeated_fn)` — array.h:322-360. -/
def forEachPresent (a : Arr α) : Option (List (Call α)) :=
  if a.flt.typ = .empty ∧ a.miss = none then some []
  else if a.flt.typ = .empty then some [.rep 0 a.size a.miss]
  else if a.flt.typ = .full then do
    some ((← a.data.forEach).filterMap (fun (i, b, v) => if b then some (.one i (some v)) else none))
  else if a.hasMissing then do
    let (calls, id) ← sparseCalls a.flt a.miss (← a.data.forEach) 0
    let calls := calls ++ if id < a.size then [.rep id (a.size - id) a.miss] else []
    some (calls.filter (fun c => match c with | .one _ none => false | _ => true))
  else do
    let l ← (← a.data.forEach).mapM (fun (o, b, v) => do
      some ((← a.flt.idsOffsetToId o), b, v))
    some (l.filterMap (fun (id, b, v) => if b then some (.one id (some v)) else none))

/-! ## WithIds -/

/-- `ReshuffleBuilder::CopyValue` — memory/simple_buffer.h:205-207. -/
def copyValue (dst src : List α) (new old : Nat) : Option (List α) := do wrV dst new (← src[old]?)

/-- Callback of `IntersectPartial_ForEach` — array.h:510-517. -/
def stepCommon (d : DArr α) (s : DBuilder α) (c : Int × Nat × Nat) : Option (DBuilder α) := do
  if ← d.present c.2.1 then do
    some ⟨← copyValue s.vals d.values c.2.2 c.2.1, ← setBit s.bits c.2.2⟩
  else do some ⟨s.vals, ← unsetBit s.bits c.2.2⟩

/-- An `int64_t` used as an index. -/
def toIdx (i : Int) : Option Nat := if i < 0 then none else some i.toNat

/-- Callback with a present missing value — array.h:522-529. -/
def stepMiss (f : Filter) (d : DArr α) (s : DBuilder α) (c : Nat × Bool × α) :
    Option (DBuilder α) := do
  let new ← toIdx (← f.idsOffsetToId c.1)
  if c.2.1 then do some ⟨← copyValue s.vals d.values new c.1, s.bits⟩
  else do some ⟨s.vals, ← unsetBit s.bits new⟩

/-- Callback without a missing value — array.h:533-539. -/
def stepNoMiss (f : Filter) (d : DArr α) (s : DBuilder α) (c : Nat × Bool × α) :
    Option (DBuilder α) := do
  let new ← toIdx (← f.idsOffsetToId c.1)
  if c.2.1 then do some ⟨← copyValue s.vals d.values new c.1, ← setBit s.bits new⟩
  else some s

/-- The buffers at the start of `WithIdsFromSparse` — array.h:498-505. -/
def initSparse (mem : Nat → α) (n : Nat) (miss : Option α) : DBuilder α :=
  match miss with
  | some v => ⟨List.replicate n v, List.replicate (bitmapSize n) fullWord⟩
  | none => ⟨(List.range n).map mem, List.replicate (bitmapSize n) 0⟩

/-- The filling part of `WithIdsFromSparse` — array.h:507-540. -/
def fillSparse (mem : Nat → α) (a : Arr α) (ids : Filter) (n : Nat) : Option (DBuilder α) :=
  if ids.typ = .partial' then do
    (← forEachCommonId a.flt.ids a.flt.off ids.ids ids.off).foldlM (stepCommon a.data)
      (initSparse mem n a.miss)
  else if a.miss.isSome then do
    (← a.data.forEach).foldlM (stepMiss a.flt a.data) (initSparse mem n a.miss)
  else do
    (← a.data.forEach).foldlM (stepNoMiss a.flt a.data) (initSparse mem n a.miss)

/-- `WithIdsFromSparse` — array.h:493-547. -/
def withIdsFromSparse (mem : Nat → α) (a : Arr α) (ids : Filter) : Option (DArr α) := do
  let n := if ids.typ = .partial' then ids.ids.length else a.size
  let b ← fillSparse mem a ids n
  if ← areAllBitsSet b.bits n then some ⟨b.vals, [], 0⟩ else some ⟨b.vals, b.bits, 0⟩

/-- `values_bldr.CopyValue(index++, id - ids_offset)` over all ids — array.h:562-564, 571. -/
def copyIds (src : List α) (off : Int) : List Int → Nat → List α → Option (List α)
  | [], _, dst => some dst
  | id :: ids, index, dst => do
    copyIds src off ids (index + 1) (← copyValue dst src index (← toIdx (id - off)))

/-- `WithIdsDenseToSparse` — array.h:552-576; `bmem` is the uninitialised bitmap buffer. -/
def withIdsDenseToSparse (mem : Nat → α) (bmem : Nat → Word) (a : Arr α) (ids : Filter) :
    Option (DArr α) := do
  let n := ids.ids.length
  let vals ← copyIds a.data.values ids.off ids.ids 0 ((List.range n).map mem)
  if a.data.bitmap = [] then some ⟨vals, [], 0⟩
  else do
    let ps ← ids.ids.mapM (fun id => do a.data.present (← toIdx (id - ids.off)))
    let b ← (Builder.new ((List.range (bitmapSize n)).map bmem)).addForEach ps
    some ⟨vals, b.build, 0⟩

/-- The `switch` of `WithIds` — array.h:468-486. -/
def newData (mem : Nat → α) (bmem : Nat → Word) (a : Arr α) (ids : Filter) : Option (DArr α) :=
  match a.flt.typ with
  | .empty =>
    let n := if ids.typ = .partial' then ids.ids.length else a.size
    match a.miss with
    | some v => some (createConst n v)
    | none => some (createEmpty ((List.range n).map mem))
  | .partial' => withIdsFromSparse mem a ids
  | .full => withIdsDenseToSparse mem bmem a ids

/-- `WithIds` — array.h:458-488. -/
def withIds (mem : Nat → α) (bmem : Nat → Word) (pe : List Int → List Int → Bool) (a : Arr α)
    (ids : Filter) (miss : Option α) : Option (Arr α) :=
  if ids.typ = .empty ∨ a.size = 0 then some (ofConst a.size miss)
  else if a.flt.isSame pe ids then some (make a.size ids a.data miss)
  else do some (make a.size ids (← newData mem bmem a ids) miss)

/-- `ToDenseForm` — array.h:178-181. -/
def toDenseForm (mem : Nat → α) (bmem : Nat → Word) (pe : List Int → List Int → Bool) (a : Arr α) :
    Option (Arr α) := a.withIds mem bmem pe .fullF none

/-! ## ToSparseForm -/
section
variable [DecidableEq α]

/-- `while (next_id < id) inserter.Add(next_id++)` — array.h:603, 611: the added ids. -/
def gap (next id : Int) : List Int := (List.range (id - next).toNat).map (fun (i : Nat) => next + i)

/-- Loop of `ToSparseFormWithChangedMissedIdValue` — array.h:600-610: the ids added and `next_id`. -/
def changedLoop (f : Filter) (m : Option α) : List (Nat × Bool × α) → Int → Option (List Int × Int)
  | [], next => some ([], next)
  | (offset, present, v) :: rest, next => do
    let id ← f.idsOffsetToId offset
    let (out, last) ← changedLoop f m rest (id + 1)
    some (gap next id ++ (if present ≠ m.isSome ∨ (present ∧ m ≠ some v) then [id] else []) ++ out, last)

/-- `ToSparseFormWithChangedMissedIdValue` — array.h:591-615. -/
def toSparseChanged (mem : Nat → α) (bmem : Nat → Word) (pe : List Int → List Int → Bool) (a : Arr α)
    (m : Option α) : Option (Arr α) := do
  let (ids, next) ← changedLoop a.flt m (← a.data.forEach) 0
  let ids := ids ++ gap next a.size
  if ids.length ≤ a.size then a.withIds mem bmem pe (mkFilter a.size ids 0) m else none

/-- `bitmap_bldr.AddMissed` etc. of the last branch — array.h:667-676: per visited element that is kept,
its id and the offset to copy from (`none` for a missing element). -/
def keptSparse (f : Filter) (v : α) : List (Nat × Bool × α) → Option (List (Int × Option Nat))
  | [] => some []
  | (offset, present, x) :: rest =>
    if present ∧ x = v then keptSparse f v rest
    else do
      let id ← f.idsOffsetToId offset
      some ((id, if present then some offset else none) :: (← keptSparse f v rest))

/-- `values_bldr.CopyValue(new_offset++, offset)` for the kept elements. -/
def copyKept (src : List α) : List (Option Nat) → Nat → List α → Option (List α)
  | [], _, dst => some dst
  | some o :: os, new, dst => do copyKept src os (new + 1) (← copyValue dst src new o)
  | none :: os, new, dst => copyKept src os (new + 1) dst

/-- Positions of the kept missing elements, for `AddMissed`. -/
def missedAt : List (Option Nat) → Nat → List Nat
  | [], _ => []
  | some _ :: os, new => missedAt os (new + 1)
  | none :: os, new => new :: missedAt os (new + 1)

/-- `ToSparseFormWithMissedIdValue` — array.h:618-684. -/
def toSparseMissed (mem : Nat → α) (bmem : Nat → Word) (pe : List Int → List Int → Bool) (a : Arr α)
    (v : α) : Option (Arr α) :=
  if a.flt.typ = .full ∧ a.data.bitmap ≠ [] then do
    let ids := (← a.data.forEach).filterMap (fun (o, b, x) =>
      if b = false ∨ x ≠ v then some (o : Int) else none)
    a.withIds mem bmem pe (mkFilter a.size ids 0) (some v)
  else if a.data.bitmap = [] then do
    let os := (List.range a.data.size).filter (fun o => decide (a.data.values[o]? ≠ some v))
    let ids ← os.mapM (fun (o : Nat) => if a.flt.typ = .full then some (o : Int) else a.flt.idsOffsetToId o)
    let vals ← copyKept a.data.values (os.map some) 0 ((List.range a.data.size).map mem)
    some (make a.size (mkFilter a.size ids 0) ⟨vals.take os.length, [], 0⟩ (some v))
  else do
    let kept ← keptSparse a.flt v (← a.data.forEach)
    let vals ← copyKept a.data.values (kept.map Prod.snd) 0 ((List.range a.data.size).map mem)
    let bb ← (AlmostFull.mk a.data.size none).addAll (missedAt (kept.map Prod.snd) 0)
    let bitmap ← bb.buildSize kept.length
    some (make a.size (mkFilter a.size (kept.map Prod.fst) 0) ⟨vals.take kept.length, bitmap, 0⟩ (some v))

/-- `ToSparseFormWithoutMissedIdValue` — array.h:687-721. -/
def toSparseNoMissed (mem : Nat → α) (a : Arr α) : Option (Arr α) :=
  if a.data.bitmap = [] then some a
  else do
    let os := (← a.data.forEach).filterMap (fun (o, b, _) => if b then some o else none)
    let ids ← os.mapM (fun (o : Nat) => if a.flt.typ = .full then some (o : Int) else a.flt.idsOffsetToId o)
    let vals ← copyKept a.data.values (os.map some) 0 ((List.range a.data.size).map mem)
    some (make a.size (mkFilter a.size ids 0) ⟨vals.take os.length, [], 0⟩ none)

/-- `ToSparseForm` — array.h:579-588. -/
def toSparseForm (mem : Nat → α) (bmem : Nat → Word) (pe : List Int → List Int → Bool) (a : Arr α)
    (m : Option α) : Option (Arr α) :=
  if a.flt.typ ≠ .full ∧ m ≠ a.miss then a.toSparseChanged mem bmem pe m
  else match m with
    | some v => a.toSparseMissed mem bmem pe v
    | none => a.toSparseNoMissed mem

/-- `ArraysAreEquivalent` — array.h:397-410; the three oracles are for the three `IsSame` tests. -/
def equivalent (mem : Nat → α) (bmem : Nat → Word) (pe pe1 pe2 : List Int → List Int → Bool)
    (a b : Arr α) : Option Bool :=
  if a.size ≠ b.size then some false
  else if a.flt.typ = .full ∧ b.flt.typ = .full then
    DArr.equivalent (fun x y => decide (x = y)) a.data b.data
  else do
    let u ← mergeImpl pe a.size a.flt b.flt
    let a' ← a.withIds mem bmem pe1 u a.miss
    let b' ← b.withIds mem bmem pe2 u b.miss
    if a'.miss = b'.miss then DArr.equivalent (fun x y => decide (x = y)) a'.data b'.data
    else some false

end

/-- Token of an `Array` fingerprint. -/
inductive ATok (α : Type) where
  | size (n : Nat)
  | dense (t : DArr.Tok α)
  | typ (t : FType)
  | ids (l : List Int)
  deriving DecidableEq

/-- `FingerprintHasherTraits<Array>` — array.h:734-739 with that of `IdFilter`, id_filter.cc:59-65. -/
def fingerprintTokens (a : Arr α) : Option (List (ATok α)) := do
  let d ← a.data.fingerprintTokens
  some (.size a.size :: (d.map .dense ++ ((DArr.optTokens a.miss).map .dense ++
    (.typ a.flt.typ :: if a.flt.typ ≠ .full then [.ids a.flt.ids] else []))))

end Arr

/-! ## Builders -/
variable {α : Type}

/-- `CreateArray(span<OptionalValue>)` — array.h:412-415. -/
def createArray (bmem : List Word) (dflt : α) (data : List (Option α)) : Option (Arr α) := do
  some (.ofDense (← createDenseArray bmem dflt data))

/-- `CreateArray(size, ids, values)` — array.h:420-441; `ids` are indices (`Nat`). -/
def createArrayIds (mem : Nat → α) (size : Nat) (ids : List Nat) (values : List (Option α)) :
    Option (Arr α) :=
  if 4 * values.length > size then do
    let b ← (DBuilder.new ((List.range size).map mem)).applyAll
      ((ids.zip values).map (fun (i, v) => .set i v))
    some (.ofDense b.build)
  else do
    let b ← (DBuilder.new ((List.range values.length).map mem)).applyAll
      (values.zipIdx.map (fun (v, i) => .set i v))
    some (.make size (mkFilter size (ids.map (fun (i : Nat) => (i : Int))) 0) b.build none)

/-- `SparseArrayBuilder` — array.h:744-790. -/
structure SBuilder (α : Type) where
  size : Nat
  offset : Nat
  dense : DBuilder α
  ids : List Int

/-- Constructor — array.h:746-751; `mem` has `max_present_count` elements. -/
def SBuilder.new (size : Nat) (mem : List α) (idmem : List Int) : SBuilder α :=
  ⟨size, 0, DBuilder.new mem, idmem⟩

/-- A call of the builder. -/
inductive SOp (α : Type) where
  | add (id : Nat) (v : Option α)
  | addId (id : Nat)
  | setByOffset (offset : Nat) (v : Option α)

/-- `AddId` — array.h:763-767. -/
def SBuilder.addId (b : SBuilder α) (id : Nat) : Option (SBuilder α) := do
  some { b with ids := ← wrV b.ids b.offset id, offset := b.offset + 1 }

/-- `Add`, `AddId`, `SetByOffset` — array.h:755-777. -/
def SBuilder.apply (b : SBuilder α) : SOp α → Option (SBuilder α)
  | .add id v => do
    let d ← b.dense.set b.offset v
    { b with dense := d }.addId id
  | .addId id => b.addId id
  | .setByOffset o v => do some { b with dense := ← b.dense.set o v }

/-- A sequence of calls. -/
def SBuilder.applyAll (b : SBuilder α) : List (SOp α) → Option (SBuilder α)
  | [] => some b
  | o :: os => do (← b.apply o).applyAll os

/-- `Build` — array.h:779-783. -/
def SBuilder.build (b : SBuilder α) : Arr α :=
  .make b.size (mkFilter b.size (b.ids.take b.offset) 0) (b.dense.buildSize b.offset) none

end Verif.Arr
