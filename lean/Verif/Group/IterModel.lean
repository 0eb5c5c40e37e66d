import Verif.Dense.OpsModel
import Verif.Arr.ArrayModel

/-!
# Model of the row iteration shared by group and pointwise operations

`DenseOpsUtil` (`arolla/dense_array/ops/util.h`) and `ArrayOpsUtil` (`arolla/array/ops_util.h`).

The callbacks are modelled by the list of their calls.  All arguments have the same value type `V`; an
argument is `none` only if the functor takes it as `OptionalValue` and it is missing.  The values passed
with `valid = false` are unspecified in the code; here they are whatever is stored.
-/

namespace Verif.Group
open Verif.Bits Verif.Bitmap Verif.Dense Verif.Arr

variable {V : Type}

/-! ## util.h -/

/-- A call `fn(id, valid, args...)` of `DenseOpsUtil`. -/
abbrev Row (V : Type) := Nat × Bool × List (Option V)

/-- `CreateGetters` — util.h:104-108: reads the bitmap word of every optional argument. -/
def createGetters (wordId : Nat) (args : List (Arg V)) : Option (List Word) :=
  args.mapM (fun a => if a.optional then getMask true a.arr wordId else some fullWord)

/-- `group_fn` — util.h:132-140. -/
def groupFn (args : List (Arg V)) (wordId localFrom localTo : Nat) : Option (List (Row V)) := do
  let mask ← intersectMasks true wordId args
  let _ ← createGetters wordId args
  (List.range' localFrom (localTo - localFrom)).mapM (fun i => do
    some (wordId * 32 + i, mask.getLsbD i, ← args.mapM (getArg true wordId i)))

/-- The loop over complete words — util.h:151-153; `n` words remain. -/
def wordsLoop (args : List (Arg V)) : Nat → Nat → Option (List (Row V))
  | _, 0 => some []
  | wordId, n + 1 => do
    let g ← groupFn args wordId 0 32
    some (g ++ (← wordsLoop args (wordId + 1) n))

/-- The first, incomplete word — util.h:142-150: the calls and the next word. -/
def firstWord (args : List (Arg V)) (fr to : Nat) : Option (List (Row V) × Nat) :=
  if fr % 32 > 0 then do
    some (← groupFn args (fr / 32) (fr % 32) (min (to - fr + fr % 32) 32), fr / 32 + 1)
  else some ([], fr / 32)

/-- The last, incomplete word — util.h:154-158.  `local_to` is negative if `from` and `to` are in the
same word. -/
def lastWord (args : List (Arg V)) (to wordId : Nat) : Option (List (Row V)) :=
  if (to : Int) - wordId * 32 > 0 then groupFn args wordId 0 (to - wordId * 32) else some []

/-- `DenseOpsUtil::Iterate` — util.h:130-159. -/
def denseIterate (args : List (Arg V)) (fr to : Nat) : Option (List (Row V)) := do
  let (r1, w) ← firstWord args fr to
  let r2 ← wordsLoop args w (to / 32 - w)
  let r3 ← lastWord args to (w + (to / 32 - w))
  some (r1 ++ r2 ++ r3)

/-- `DenseOpsUtil::IterateFromZero` — util.h:162-175, from the word at `offset`; `fuel` is chosen by
`denseIterateFromZero`. -/
def fromZeroLoop (args : List (Arg V)) (to : Nat) : Nat → Nat → Option (List (Row V))
  | 0, _ => none
  | fuel + 1, offset =>
    if offset < to then do
      let g ← groupFn args (offset / 32) 0 (min 32 (to - offset))
      some (g ++ (← fromZeroLoop args to fuel (offset + 32)))
    else some []

/-- `DenseOpsUtil::IterateFromZero` — util.h:162-175. -/
def denseIterateFromZero (args : List (Arg V)) (to : Nat) : Option (List (Row V)) :=
  fromZeroLoop args to (to + 1) 0

/-! ## ops_util.h -/

/-- An argument: whether it is taken as `OptionalValue`, and the array. -/
structure AArg (V : Type) where
  optional : Bool
  arr : Arr V

/-- Members of `ArrayOpsUtil` — ops_util.h:263-272. -/
structure Util (V : Type) where
  size : Nat
  ids : Filter
  dense : List (Arg V)
  defaultValid : Bool
  defaults : List (Option V)

/-- Callback calls of `ArrayOpsUtil::Iterate`. -/
inductive Call (V : Type) where
  | fn (id : Int) (args : List (Option V))
  | rep (id count : Int) (args : List (Option V))
  | miss (id count : Int)
  deriving DecidableEq

/-- `BoundsValidIds` — ops_util.h:238-241. -/
def AArg.bounds (a : AArg V) : Bool := !a.optional && !a.arr.hasMissing

/-- `IsSameIdFilter` — ops_util.h:243-246. -/
def sameFilters (pe : List Int → List Int → Bool) (first : AArg V) (rest : List (AArg V)) : Bool :=
  rest.all (fun a => first.arr.flt.isSame pe a.arr.flt)

/-- The choice of `ids_` for arguments with different filters — ops_util.h:75-88. -/
def chooseIds (pe : List Int → List Int → Bool) (size : Nat) (first : AArg V) (rest : List (AArg V)) :
    Option Filter :=
  let f (a : AArg V) : Filter := if a.bounds then a.arr.flt else .fullF
  if (first :: rest).any AArg.bounds then some (Verif.Arr.intersect (f first) (rest.map f))
  else merge pe size first.arr.flt (rest.map (fun a => a.arr.flt))

/-- Constructor with `ConvertToDense = true` — ops_util.h:63-64.  `default_valid_` is not initialised
and never read. -/
def Util.makeDense (mem : Nat → V) (bmem : Nat → Word) (pe : List Int → List Int → Bool) (size : Nat)
    (args : List (AArg V)) (garbage : Bool) : Option (Util V) := do
  let dense ← args.mapM (fun a => do
    some (⟨a.optional, (← a.arr.toDenseForm mem bmem pe).data⟩ : Arg V))
  some ⟨size, .fullF, dense, garbage, []⟩

/-- Constructor with `ConvertToDense = false` — ops_util.h:65-93.  `MaybeUnwrapOptional` (253-261) of a
required argument is its `missing_id_value`, present because `default_valid_` holds. -/
def Util.make (mem : Nat → V) (bmem : Nat → Word) (pe : List Int → List Int → Bool) (size : Nat)
    (first : AArg V) (rest : List (AArg V)) : Option (Util V) := do
  let args := first :: rest
  let dv := !(args.any AArg.bounds)
  let defaults := if dv then args.map (fun a => a.arr.miss) else []
  if sameFilters pe first rest then
    some ⟨size, first.arr.flt, args.map (fun a => ⟨a.optional, a.arr.data⟩), dv, defaults⟩
  else do
    let ids ← chooseIds pe first.arr.size first rest
    let dense ← args.mapM (fun a => do
      some (⟨a.optional, (← a.arr.withIds mem bmem pe ids a.arr.miss).data⟩ : Arg V))
    some ⟨size, ids, dense, dv, defaults⟩

/-- `PresentCountUpperEstimate` — ops_util.h:140-146. -/
def Util.estimate (u : Util V) : Nat :=
  if u.ids.typ = .full ∨ u.defaultValid then u.size else u.ids.ids.length

/-- The call for one row — ops_util.h:159-163, 189-193. -/
def rowCall (id : Int) (valid : Bool) (args : List (Option V)) : Call V :=
  if valid then .fn id args else .miss id 1

/-- `defaultFn` — ops_util.h:170-176. -/
def Util.defaultFn (u : Util V) (id count : Int) : Call V :=
  if u.defaultValid then .rep id count u.defaults else .miss id count

/-- The callback given to `DenseUtil::Iterate` — ops_util.h:186-195. -/
def Util.sparseLoop (u : Util V) : List (Row V) → Int → Option (List (Call V) × Int)
  | [], id => some ([], id)
  | (offset, valid, args) :: rest, id => do
    let newId ← u.ids.idsOffsetToId offset
    let (calls, last) ← u.sparseLoop rest (newId + 1)
    some ((if id < newId then [u.defaultFn id (newId - id)] else []) ++
      rowCall newId valid args :: calls, last)

/-- `Iterate(fn, repeated_fn, missing_fn, from, to)` — ops_util.h:151-199. -/
def Util.iterate (u : Util V) (fr to : Nat) : Option (List (Call V)) :=
  if u.ids.typ = .full then do
    some ((← denseIterate u.dense fr to).map (fun (id, valid, args) => rowCall id valid args))
  else do
    let offsetFrom := lb u.ids.ids (fr + u.ids.off)
    let offsetTo := lb u.ids.ids (to + u.ids.off)
    let (calls, id) ← u.sparseLoop (← denseIterate u.dense offsetFrom offsetTo) fr
    some (calls ++ if id < to then [u.defaultFn id (to - id)] else [])

/-- The callback given to `IterateFromZero` — ops_util.h:216-225: the calls `fn(id, args...)`. -/
def Util.simpleLoop (u : Util V) : List (Row V) → Int →
    Option (List (Int × List (Option V)) × Int)
  | [], id => some ([], id)
  | (offset, valid, args) :: rest, id => do
    let newId ← u.ids.idsOffsetToId offset
    let (calls, last) ← u.simpleLoop rest (newId + 1)
    some ((if u.defaultValid then (Arr.gap id newId).map (fun i => (i, u.defaults)) else []) ++
      (if valid then [(newId, args)] else []) ++ calls, last)

/-- `IterateSimple` — ops_util.h:201-233; also the body of `ArraysIterate` (329-345). -/
def Util.iterateSimple (u : Util V) : Option (List (Int × List (Option V))) :=
  if u.ids.typ = .full then do
    some ((← denseIterateFromZero u.dense u.size).filterMap (fun (id, valid, args) =>
      if valid then some ((id : Int), args) else none))
  else do
    let (calls, id) ← u.simpleLoop (← denseIterateFromZero u.dense u.ids.ids.length) 0
    some (calls ++ if u.defaultValid then (Arr.gap id u.size).map (fun i => (i, u.defaults)) else [])

/-- `ArrayOpsUtil<…, type_list<>>::Iterate` with `repeated_fn` — ops_util.h:281-285 (the count may be
zero). -/
def iterateNoArgs (fr to : Nat) : List (Call V) := [.rep fr ((to : Int) - fr) []]

end Verif.Group
