import Verif.Arr.ArrayModel
import Verif.Dense.OpsModel

/-!
# Model of `arolla/array/pointwise_op.h` and of `core.presence_or` on arrays

All arguments have one value type `V` (use a sum type for different ones).  A functor takes the list of
its arguments; a required argument is passed as `some value`.
-/

namespace Verif.Arr
open Verif.Bits Verif.Bitmap Verif.Dense

variable {V R E : Type}

/-- An argument of the operation: whether the functor takes it as `OptionalValue`, and the array. -/
structure PArg (V : Type) where
  optional : Bool
  arr : Arr V

/-- The memory the operation runs in: contents of the fresh buffers of `WithIds` for argument `k`, and
the answers of the pointer comparisons. -/
structure PMem (V : Type) where
  mem : Nat → Nat → V
  bmem : Nat → Nat → Word
  peSame : Nat → List Int → List Int → Bool
  peMerge : List Int → List Int → Bool
  peIds : Nat → List Int → List Int → Bool

/-- `OptionalFn::operator()` (`WrapFnToAcceptOptionalArgs`) — memory/optional_value.h:371-383. -/
def optionalFn (fn : List (Option V) → Except E (Option R)) (optional : List Bool)
    (vals : List (Option V)) : Except E (Option R) :=
  if (List.zipWith (fun o v => o || v.isSome) optional vals).all id then fn vals else .ok none

/-- `IsConstForm` — array.h:143. -/
def Arr.isConst {α : Type} (a : Arr α) : Bool := decide (a.flt.typ = .empty)
/-- `IsAllMissingForm` — array.h:152-154. -/
def Arr.isAllMissing {α : Type} (a : Arr α) : Bool := a.isConst && a.miss.isNone
/-- `IsFullForm` — array.h:157-159. -/
def Arr.isFullForm {α : Type} (a : Arr α) : Bool := decide (a.flt.typ = .full) && a.data.bitmap.isEmpty

/-- `CanBeIntersected` — pointwise_op.h:92-95. -/
def canIntersect (p : PArg V) : Bool := !p.optional && !p.arr.hasMissing

/-- `IsSameIdFilter` — pointwise_op.h:106-109; the comparisons with the arguments after the first. -/
def sameFilter (pe : Nat → List Int → List Int → Bool) (f : Filter) : Nat → List (PArg V) → Bool
  | _, [] => true
  | k, p :: ps => f.isSame (pe k) p.arr.flt && sameFilter pe f (k + 1) ps

/-- `args.WithIds(id_filter, args.missing_id_value()).dense_data()` of all arguments —
pointwise_op.h:75-76. -/
def withIdsAll (m : PMem V) (ids : Filter) : Nat → List (PArg V) → Option (List (Dense.Arg V))
  | _, [] => some []
  | k, p :: ps => do
    let r ← p.arr.withIds (m.mem k) (m.bmem k) (m.peIds k) ids p.arr.miss
    some (⟨p.optional, r.data⟩ :: (← withIdsAll m ids (k + 1) ps))

/-- The id filter of the result if the filters differ — pointwise_op.h:67-74. -/
def resultFilter (m : PMem V) (size : Nat) (p : PArg V) (ps : List (PArg V)) : Option Filter :=
  if (p :: ps).any canIntersect then
    let sel := fun q : PArg V => if canIntersect q then q.arr.flt else .fullF
    some (intersect (sel p) (ps.map sel))
  else merge m.peMerge size p.arr.flt (ps.map (fun q => q.arr.flt))

/-- Errors of the operation. -/
inductive PErr (E : Type) where
  | sizeMismatch
  | fn (e : E)
  deriving DecidableEq

/-- The id filter and the dense data of the result — pointwise_op.h:58-77. -/
def pointwiseData (m : PMem V) (dop : List (Dense.Arg V) → Option (Except E (DArr R)))
    (p : PArg V) (ps : List (PArg V)) : Option (Filter × Except E (DArr R)) :=
  if sameFilter m.peSame p.arr.flt 0 ps then
    if p.arr.flt.typ ≠ .empty then
      (dop ((p :: ps).map (fun q => ⟨q.optional, q.arr.data⟩))).map (fun d => (p.arr.flt, d))
    else some (p.arr.flt, .ok ⟨[], [], 0⟩)
  else do
    let ids ← resultFilter m p.arr.size p ps
    let args ← withIdsAll m ids 0 (p :: ps)
    (dop args).map (fun d => (ids, d))

/-- `ArrayPointwiseOp::operator()` — pointwise_op.h:50-84, with at least one argument. -/
def pointwiseOp (m : PMem V) (dop : List (Dense.Arg V) → Option (Except E (DArr R)))
    (pfn : List (Option V) → Except E (Option R)) (p : PArg V) (ps : List (PArg V)) :
    Option (Except (PErr E) (Arr R)) :=
  if ¬ ps.all (fun q => p.arr.size == q.arr.size) then some (.error .sizeMismatch)
  else if (p :: ps).any (fun q => !q.optional && q.arr.isAllMissing) then
    some (.ok (.ofConst p.arr.size none))
  else
    match pointwiseData m dop p ps with
    | none => none
    | some (_, .error e) => some (.error (.fn e))
    | some (ids, .ok data) =>
      match pfn ((p :: ps).map (fun q => q.arr.miss)) with
      | .error e => some (.error (.fn e))
      | .ok v => some (.ok (.make p.arr.size ids data v))

/-- `CreateArrayOp` — pointwise_op.h:132-148: the generic dense operation with the flags
`kNoSizeValidation` and possibly `kRunOnMissing` (`skip = false`); the fresh value buffer has the size of
the first argument. -/
def arrayOp (m : PMem V) (rmem : Nat → R) (fn : List (Option V) → Except E (Option R)) (skip : Bool)
    (p : PArg V) (ps : List (PArg V)) : Option (Except (PErr E) (Arr R)) :=
  pointwiseOp m
    (fun args => universalOp true fn skip args
      ((List.range ((args.head?.map (fun a => a.arr.size)).getD 0)).map rmem))
    (optionalFn fn ((p :: ps).map (·.optional))) p ps

/-! ## qexpr/operators/array/logic_ops.h -/

/-- The functor of `core.presence_or` — logic_ops.h:54-60. -/
def orFn : List (Option V) → Except E (Option V)
  | [some x, _] => .ok (some x)
  | [none, y] => .ok y
  | _ => .ok none

/-- `ArrayPresenceOrOp(lhs, T rhs)` — logic_ops.h:70-92.  The inserter of a group
writes the values in the order of the elements, like `ForEach`. -/
def aPresenceOrConst (lhs : Arr V) (rhs : V) : Option (Arr V) :=
  if lhs.data.bitmap = [] then some (.make lhs.size lhs.flt lhs.data (some (lhs.miss.getD rhs)))
  else do
    let calls ← lhs.data.forEach
    some (.make lhs.size lhs.flt ⟨calls.map (fun c => if c.2.1 then c.2.2 else rhs), [], 0⟩
      (some (lhs.miss.getD rhs)))

/-- `ArrayPresenceOrOp(lhs, rhs)` — logic_ops.h:38-68.  The dense operation is the generic one with
`kRunOnMissing`; it validates the sizes, which are equal. -/
def aPresenceOr (m : PMem V) (rmem : Nat → V) (lhs rhs : Arr V) :
    Option (Except (PErr E) (Arr V)) :=
  if lhs.size ≠ rhs.size then some (.error .sizeMismatch)
  else if lhs.isAllMissing then some (.ok rhs)
  else if lhs.isConst || lhs.isFullForm || rhs.isAllMissing then some (.ok lhs)
  else if rhs.isConst then
    match rhs.miss with
    | some v => (aPresenceOrConst lhs v).map .ok
    | none => none
  else
    pointwiseOp m
      (fun args => universalOp true orFn false args
        ((List.range ((args.head?.map (fun a => a.arr.size)).getD 0)).map rmem))
      orFn ⟨true, lhs⟩ [⟨true, rhs⟩]

end Verif.Arr
