import Mathlib.Tactic.Ring

/-!
# Model of sequences and of the operators on them

`arolla/sequence/sequence.h`, `arolla/sequence/mutable_sequence.{h,cc}`, `arolla/qexpr/operators/seq/sequence_operators.h`,
`arolla/qexpr/operators/bootstrap/sequence_operators.{h,cc}`, `arolla/expr/eval/extensions/seq_map_operator.cc`,
`arolla/expr/eval/extensions/seq_reduce_operator.cc`, `py/arolla/operators/standard/seq.py`.

A sequence points into a block of values that it may share with others.  Reading or writing outside of a sequence, and overflow of
signed integers, is `none`.  The slots of operators are their arguments (C43).
-/

namespace Verif.Seq

variable {Q V E : Type}

/-- `Sequence`: `data` is the allocated block and `off` the position of `data_` in it — sequence.h:78-80. -/
structure Seq (Q V : Type) where
  qtype : Q
  size : Nat
  data : List V
  off : Nat

/-- `GetRef`, `RawAt` — sequence.h:89-96, 106-111. -/
def Seq.getRef (s : Seq Q V) (i : Nat) : Option V := if i < s.size then s.data[s.off + i]? else none

/-- `subsequence` — sequence.h:113-125. -/
def Seq.subsequence (s : Seq Q V) (offset count : Nat) : Option (Seq Q V) :=
  if offset > s.size then none
  else
    let count := min count (s.size - offset)
    if count = 0 then some ⟨s.qtype, 0, [], 0⟩ else some ⟨s.qtype, count, s.data, s.off + offset⟩

/-- The loop of the fingerprint — sequence.cc:33-36. -/
def Seq.refs (s : Seq Q V) : Nat → Nat → Option (List V)
  | 0, _ => some []
  | n + 1, i =>
    match s.getRef i, s.refs n (i + 1) with
    | some v, some vs => some (v :: vs)
    | _, _ => none

/-- What is combined to the fingerprint — sequence.cc:28-37. -/
def Seq.fingerprint (s : Seq Q V) : Option (Q × Nat × List V) := (s.refs s.size 0).map fun vs => (s.qtype, s.size, vs)

/-- `MutableSequence` — mutable_sequence.h:78-80. -/
structure MSeq (Q V : Type) where
  qtype : Q
  size : Nat
  data : List V

/-- The memory: size and initial value of the elements of a type, and whether an allocation of so many bytes succeeds. -/
structure Mem (Q V : Type) where
  allocSize : Q → Nat
  dflt : Q → V
  alloc : Nat → Bool

/-- Errors. -/
inductive Err (E : Type)
  | overflow | alloc | zeroStep | outOfRange | sizes | op (e : E)
  deriving DecidableEq

/-- `MutableSequence::Make` — mutable_sequence.cc:33-65. -/
def make (M : Mem Q V) (q : Q) (size : Nat) : Except (Err E) (MSeq Q V) :=
  if size = 0 then .ok ⟨q, 0, []⟩
  else if M.allocSize q * size ≥ 2 ^ 64 then .error .overflow
  else if !M.alloc (M.allocSize q * size) then .error .alloc
  else .ok ⟨q, size, List.replicate size (M.dflt q)⟩

/-- `UnsafeSetRef` — mutable_sequence.h:113-121. -/
def MSeq.setRef (s : MSeq Q V) (i : Nat) (v : V) : Option (MSeq Q V) :=
  if i < s.size then some { s with data := s.data.set i v } else none

/-- `Finish` — mutable_sequence.h:123-125. -/
def MSeq.finish (s : MSeq Q V) : Seq Q V := ⟨s.qtype, s.size, s.data, 0⟩

/-! ## seq.range -/

/-- `static_cast<uint64_t>` and arithmetic of `uint64_t`. -/
def u64 (x : Int) : Int := x % 18446744073709551616

/-- `seq_size` — sequence_operators.h:53-67. -/
def rangeSize (start stop step : Int) : Nat :=
  if step > 0 then
    if start < stop then (u64 (u64 (u64 (u64 stop - u64 start) + u64 step) - 1) / u64 step).toNat else 0
  else if stop < start then
    (u64 (u64 (u64 (u64 (-u64 stop) - u64 (-u64 start)) + u64 (-u64 step)) - 1) / u64 (-u64 step)).toNat
  else 0

/-- `y += step`; overflow is undefined. -/
def addInt64 (x y : Int) : Option Int :=
  if -9223372036854775808 ≤ x + y ∧ x + y ≤ 9223372036854775807 then some (x + y) else none

/-- The loop — sequence_operators.h:73-77. -/
def rangeFill (step : Int) : Nat → Int → Option (List Int)
  | 0, _ => some []
  | n + 1, y =>
    match addInt64 y step with
    | none => none
    | some y' => (rangeFill step n y').map (y :: ·)

/-- `MakeRange`; `int64` is the qtype — sequence_operators.h:48-79. -/
def makeRange (M : Mem Q Int) (int64 : Q) (start stop step : Int) : Option (Except (Err E) (Seq Q Int)) :=
  if step = 0 then some (.error .zeroStep)
  else
    let seqSize := rangeSize start stop step
    if seqSize = 0 then some (.ok ⟨int64, 0, [], 0⟩)
    else match make M int64 seqSize with
      | .error e => some (.error e)
      | .ok m => (rangeFill step m.size start).map fun l => .ok (MSeq.finish { m with data := l })

/-- `SequenceRangeOp` — sequence_operators.h:109-119. -/
def rangeOp (M : Mem Q Int) (int64 : Q) (arg1 : Int) (arg2 : Option Int) (step : Int) : Option (Except (Err E) (Seq Q Int)) :=
  match arg2 with
  | some stop => makeRange M int64 arg1 stop step
  | none => makeRange M int64 0 arg1 step

/-! ## Construction -/

/-- A loop that sets the elements from `i` on. -/
def setAll : List V → Nat → MSeq Q V → Option (MSeq Q V)
  | [], _, m => some m
  | v :: vs, i, m =>
    match m.setRef i v with
    | none => none
    | some m => setAll vs (i + 1) m

/-- `SequenceRepeatOp` — sequence_operators.h:153-161. -/
def repeatOp (M : Mem Q V) (q : Q) (value : V) (n : Int) : Option (Except (Err E) (Seq Q V)) :=
  let n := (max n 0).toNat
  match make M q n with
  | .error e => some (.error e)
  | .ok m => (setAll (List.replicate n value) 0 m).map fun m => .ok m.finish

/-- `SequenceMakeOp` — sequence_operators.h:196-206. -/
def makeOp (M : Mem Q V) (q : Q) (values : List V) : Option (Except (Err E) (Seq Q V)) :=
  match make M q values.length with
  | .error e => some (.error e)
  | .ok m => (setAll values 0 m).map fun m => .ok m.finish

/-! ## Access -/

/-- `SequenceAtOp` — bootstrap/sequence_operators.h:75-85. -/
def atOp (s : Seq Q V) (index : Int) : Option (Except (Err E) V) :=
  if 0 ≤ index ∧ index.toNat < s.size then (s.getRef index.toNat).map .ok else some (.error .outOfRange)

/-- `SequenceSliceOp` — bootstrap/sequence_operators.cc:88-102. -/
def sliceOp (s : Seq Q V) (start stop : Int) : Option (Seq Q V) :=
  let start := if start < 0 then s.size + start else start
  let stop := if stop < 0 then s.size + stop else stop
  let start := min (max 0 start) s.size
  let stop := min (max start stop) s.size
  s.subsequence start.toNat (stop - start).toNat

/-- `SizeOfSequences` — bootstrap/sequence_operators.cc:57-70. -/
def sizeOfSequences (n : Nat) (rest : List (Seq Q V)) : Except (Err E) Nat :=
  if rest.all (fun s => s.size = n) then .ok n else .error .sizes

/-- The inner loop: element `i` of all sequences — bootstrap/sequence_operators.cc:138-142. -/
def rowAt (ss : List (Seq Q V)) (i : Nat) : Option (List V) :=
  match ss with
  | [] => some []
  | s :: rest =>
    match s.getRef i, rowAt rest i with
    | some v, some vs => some (v :: vs)
    | _, _ => none

/-- The outer loop of `seq.zip`; the first argument is the number of rows left — bootstrap/sequence_operators.cc:136-145. -/
def zipLoop (tuple : List V → V) (ss : List (Seq Q V)) : Nat → Nat → MSeq Q V → Option (MSeq Q V)
  | 0, _, m => some m
  | n + 1, i, m =>
    match rowAt ss i with
    | none => none
    | some row =>
      match m.setRef i (tuple row) with
      | none => none
      | some m => zipLoop tuple ss n (i + 1) m

/-- `SequenceZipOp`; `tuple` makes a tuple and `tupleQType` its type — bootstrap/sequence_operators.cc:119-146. -/
def zipOp (M : Mem Q V) (tupleQType : List Q → Q) (tuple : List V → V) (ss : List (Seq Q V)) : Option (Except (Err E) (Seq Q V)) :=
  match ss with
  | [] => none
  | s :: rest =>
    match sizeOfSequences s.size rest with
    | .error e => some (.error e)
    | .ok n =>
      match make M (tupleQType (ss.map (·.qtype))) n with
      | .error e => some (.error e)
      | .ok m => (zipLoop tuple ss n 0 m).map fun m => .ok m.finish

/-! ## seq.map and seq.reduce -/

/-- The loop over the sizes — seq_map_operator.cc:172-183. -/
def mapSizes : List (Seq Q V) → Option Nat → Except (Err E) (Option Nat)
  | [], n => .ok n
  | s :: rest, n => if n.isSome && n != some s.size then .error .sizes else mapSizes rest (some s.size)

/-- The loop of `seq.map`: `Execute` sets the status on error, and the loop ends — seq_map_operator.cc:192-204. -/
def mapLoop (f : List V → Except E V) (ss : List (Seq Q V)) : Nat → Nat → MSeq Q V → Option (Except (Err E) (MSeq Q V))
  | 0, _, m => some (.ok m)
  | n + 1, i, m =>
    match rowAt ss i with
    | none => none
    | some row =>
      match f row with
      | .error e => some (.error (.op e))
      | .ok v =>
        match m.setRef i v with
        | none => none
        | some m => mapLoop f ss n (i + 1) m

/-- The evaluation of `seq.map` — seq_map_operator.cc:172-206. -/
def mapOp (M : Mem Q V) (outQType : Q) (f : List V → Except E V) (ss : List (Seq Q V)) : Option (Except (Err E) (Seq Q V)) :=
  match mapSizes ss none with
  | .error e => some (.error e)
  | .ok none => none
  | .ok (some n) =>
    match make M outQType n with
    | .error e => some (.error e)
    | .ok m =>
      match mapLoop f ss n 0 m with
      | none => none
      | some (.error e) => some (.error e)
      | some (.ok m) => some (.ok m.finish)

/-- The loop of `seq.reduce` — seq_reduce_operator.cc:173-179. -/
def reduceLoop (f : V → V → Except E V) (s : Seq Q V) : Nat → Nat → V → Option (Except E V)
  | 0, _, output => some (.ok output)
  | n + 1, i, output =>
    match s.getRef i with
    | none => none
    | some x =>
      match f output x with
      | .error e => some (.error e)
      | .ok output => reduceLoop f s n (i + 1) output

/-- The evaluation of `seq.reduce` — seq_reduce_operator.cc:168-179. -/
def reduceOp (f : V → V → Except E V) (s : Seq Q V) (initial : V) : Option (Except E V) := reduceLoop f s s.size 0 initial

/-! ## seq.all_equal -/

/-- Values of two types: optional scalars and optional units. -/
inductive Val (T : Type)
  | opt (x : Option T) | unit (present : Bool)

/-- `core.equal` on optional scalars. -/
def equal {T : Type} [DecidableEq T] : List (Val T) → Except Unit (Val T)
  | [.opt x, .opt y] => .ok (.unit (x.isSome && x == y))
  | _ => .error ()

/-- `core.presence_and` on optional units. -/
def presenceAnd {T : Type} : Val T → Val T → Except Unit (Val T)
  | .unit a, .unit b => .ok (.unit (a && b))
  | _, _ => .error ()

/-- `core.presence_or` on optional units. -/
def presenceOr {T : Type} : Val T → Val T → Except Unit (Val T)
  | .unit a, .unit b => .ok (.unit (a || b))
  | _, _ => .error ()

/-- `seq.all` — seq.py:119-121. -/
def allOp {T : Type} (s : Seq Q (Val T)) : Option (Except Unit (Val T)) := reduceOp presenceAnd s (.unit true)

/-- `seq.any` — seq.py:135-137. -/
def anyOp {T : Type} (s : Seq Q (Val T)) : Option (Except Unit (Val T)) := reduceOp presenceOr s (.unit false)

/-- `seq.all_equal` of optional scalars; `unit` is the type of optional units — seq.py:156-165. -/
def allEqual {T : Type} [DecidableEq T] (M : Mem Q (Val T)) (unit : Q) (s : Seq Q (Val T)) :
    Option (Except (Err Unit) (Val T)) :=
  match sliceOp s 0 (-1), sliceOp s 1 s.size with
  | some a, some b =>
    match mapOp M unit equal [a, b] with
    | none => none
    | some (.error e) => some (.error e)
    | some (.ok r) =>
      match allOp r with
      | none => none
      | some (.error e) => some (.error (.op e))
      | some (.ok v) => some (.ok v)
  | _, _ => none

end Verif.Seq
