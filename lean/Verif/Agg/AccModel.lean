/-!
# Model of `arolla/qexpr/operators/aggregation/group_op_accumulators.h`

An accumulator is a state with the functions of `Accumulator` (arolla/qexpr/aggregation_ops_interface.h:106-162).
Floating point rounding is not modelled: `MeanAccumulator`, `WeightedAverageAccumulator` and `WeightedCDFAccumulator` are
left out, and sums are those of integers.  Counters and indices are unbounded.  `std::sort`, `std::partition` and
`std::nth_element` are arbitrary functions with the properties which the standard guarantees.
-/

namespace Verif.Agg

/-- `Accumulator` — aggregation_ops_interface.h:106-162.  `S` is the state, `P` the parent arguments, `A` the child
arguments, `R` the result and `E` the error of the accumulator. -/
structure Acc (P A R E S : Type) where
  reset : P → S → S
  add : A → S → S
  addN : Nat → A → S → S
  finalize : S → S := id
  get : S → R × S
  status : S → Option E := fun _ => none

/-- The default `AddN` — aggregation_ops_interface.h:125-129. -/
def repeatAdd (add : A → S → S) : Nat → A → S → S
  | 0, _, s => s
  | n + 1, a, s => repeatAdd add n a (add a s)

/-- `SimpleCountAccumulator` — group_op_accumulators.h:53-62. -/
def count : Acc Unit Unit Int Empty Int where
  reset _ _ := 0
  add _ s := s + 1
  addN n _ s := s + n
  get s := (s, s)

/-- `AnyAccumulator` — :70-78. -/
def any : Acc Unit Unit Bool Empty Bool where
  reset _ _ := false
  add _ _ := true
  addN _ _ _ := true
  get s := (s, s)

/-- `AllAccumulator` — :83-96. -/
def all : Acc Unit Bool Bool Empty Bool where
  reset _ _ := true
  add v s := s && v
  addN _ v s := s && v
  get s := (s, s)

structure LogicalState where
  decided : Bool
  missing : Bool

/-- `LogicalAllAccumulator` — :105-119. -/
def logicalAll : Acc Unit (Option Bool) (Option Bool) Empty LogicalState where
  reset _ _ := ⟨false, false⟩
  add v s := ⟨s.decided || (v.isSome && !v.getD false), s.missing || !v.isSome⟩
  addN _ v s := ⟨s.decided || (v.isSome && !v.getD false), s.missing || !v.isSome⟩
  get s := (if s.decided || !s.missing then some (!s.decided) else none, s)

/-- `LogicalAnyAccumulator` — :128-143. -/
def logicalAny : Acc Unit (Option Bool) (Option Bool) Empty LogicalState where
  reset _ _ := ⟨false, false⟩
  add v s := ⟨s.decided || (v.isSome && v.getD false), s.missing || !v.isSome⟩
  addN _ v s := ⟨s.decided || (v.isSome && v.getD false), s.missing || !v.isSome⟩
  get s := (if s.decided || !s.missing then some s.decided else none, s)

/-- An `OptionalValue`, whose value exists also if it is not present. -/
structure Opt (T : Type) where
  present : Bool
  value : T

def Opt.toOption (o : Opt T) : Option T := if o.present then some o.value else none

/-- `SumAccumulator<ValueT>` for a `w`-bit integer type — :171-200; `initial` is the argument of the constructor. -/
def sum (w : Nat) (initial : Option (BitVec w)) : Acc Unit (BitVec w) (Option (BitVec w)) Empty (Opt (BitVec w)) where
  reset _ _ := ⟨initial.isSome, initial.getD 0⟩
  add v s := ⟨true, s.value + v⟩
  addN n v s := ⟨true, s.value + v * BitVec.ofNat w n⟩
  get s := (s.toOption, s)

/-- `FunctorAccumulator` — :251-292; `ignoreRepeating` as in :279-285. -/
def functor (f : T → T → T) (ignoreRepeating : Bool) (initial : Opt T) : Acc Unit T (Option T) Empty (Opt T) where
  reset _ _ := initial
  add v s := if s.present then ⟨true, f s.value v⟩ else ⟨true, v⟩
  addN n v s :=
    let add v s := if s.present then ⟨true, f s.value v⟩ else ⟨true, v⟩
    if ignoreRepeating then add v s else repeatAdd add n v s
  get s := (s.toOption, s)

/-- The comparisons of a value type; `nan` is constantly false for types without NaN. -/
structure Cmp (T : Type) where
  nan : T → Bool := fun _ => false
  eq : T → T → Bool
  lt : T → T → Bool

/-- `MinOp` — arolla/qexpr/operators/math/arithmetic.h:255-261; `<=` is false if an argument is NaN. -/
def minOp (c : Cmp T) (l r : T) : T :=
  if c.nan l || (!c.nan r && !c.lt r l) then l else r

/-- `MaxOp` — arithmetic.h:246-252. -/
def maxOp (c : Cmp T) (l r : T) : T :=
  if c.nan l || (!c.nan r && !c.lt l r) then l else r

structure CollapseState (T : Type) where
  value : T
  present : Bool
  allEqual : Bool
  isNan : Bool

/-- `CollapseAccumulator::Add` — :376-396 (both branches of `if constexpr`, as `nan` is false without NaN). -/
def collapseAdd (c : Cmp T) (v : T) (s : CollapseState T) : CollapseState T :=
  if !s.present then ⟨v, true, true, c.nan v⟩
  else { s with allEqual := s.allEqual && ((s.isNan && c.nan v) || (!s.isNan && c.eq v s.value)) }

/-- `CollapseAccumulator` — :369-412. -/
def collapse (c : Cmp T) : Acc Unit T (Option T) Empty (CollapseState T) where
  reset _ s := { s with present := false }
  add := collapseAdd c
  addN _ := collapseAdd c
  get s := (if s.present && s.allEqual then some s.value else none, s)

structure InverseState where
  returnId : Nat
  perm : List (Option Int)
  inv : List (Option Nat)
  error : Option String

/-- The loop of `InverseMappingAccumulator::FinalizeFullGroup` — :430-448. -/
def inverseLoop (size : Nat) : Nat → List (Option Int) → List (Option Nat) → Option String → List (Option Nat) × Option String
  | _, [], inv, e => (inv, e)
  | i, none :: rest, inv, e => inverseLoop size (i + 1) rest inv e
  | i, some v :: rest, inv, e =>
    if v < 0 ∨ v ≥ size then (inv, some "not a valid element")
    else if (inv[v.toNat]?.getD none).isSome then (inv, some "appears twice")
    else inverseLoop size (i + 1) rest (inv.set v.toNat (some i)) e

/-- `InverseMappingAccumulator` — :416-461.  `GetResult` out of range is undefined behaviour: `none`. -/
def inverseMapping : Acc Unit (Option Int) (Option (Option Nat)) String InverseState where
  reset _ s := { s with perm := [] }
  add v s := { s with perm := s.perm ++ [v] }
  addN := repeatAdd fun v s => { s with perm := s.perm ++ [v] }
  finalize s :=
    let (inv, error) := inverseLoop s.perm.length 0 s.perm (List.replicate s.perm.length none) s.error
    { s with inv, error, returnId := 0 }
  get s := (s.inv[s.returnId]?, { s with returnId := s.returnId + 1 })
  status s := s.error

structure JoinState where
  present : Bool
  text : List UInt8

/-- `StringJoinAggregator` — :463-499. -/
def stringJoin (sep : List UInt8) : Acc Unit (List UInt8) (Option (List UInt8)) Empty JoinState where
  reset _ _ := ⟨false, []⟩
  add v s := if !s.present then ⟨true, s.text ++ v⟩ else ⟨s.present, s.text ++ sep ++ v⟩
  addN := repeatAdd fun v s => if !s.present then ⟨true, s.text ++ v⟩ else ⟨s.present, s.text ++ sep ++ v⟩
  get s := (if s.present then some s.text else none, s)

structure GroupByState (T : Type) where
  index : List (T × Int)
  counter : Int
  next : Int
  error : Option String

/-- `GroupByAccumulator::Add` — :517-529.  The hash map is an association list; `counter` is shared by all accumulators
of the operation. -/
def groupByAdd (c : Cmp T) (v : T) (s : GroupByState T) : GroupByState T :=
  if c.nan v then { s with error := some "NaN key is not allowed" }
  else match s.index.find? fun e => c.eq e.1 v with
    | some e => { s with next := e.2 }
    | none => { s with index := s.index ++ [(v, s.counter)], counter := s.counter + 1, next := s.counter }

/-- `GroupByAccumulator` — :502-539. -/
def groupBy (c : Cmp T) : Acc Unit T Int String (GroupByState T) where
  reset _ s := { s with index := [] }
  add := groupByAdd c
  addN := repeatAdd (groupByAdd c)
  get s := (s.next, s)
  status s := s.error

structure TakeState (T : Type) where
  returnId : Nat
  values : List (Option T)
  offsets : List (Opt Int)
  error : Option String

/-- The body of the loop of `ArrayTakeOverAccumulator::FinalizeFullGroup` — :566-579. -/
def takeOffset (size numValues : Nat) (o : Opt Int) (e : Option String) : Opt Int × Option String :=
  let bad := o.present && (decide (o.value < 0) || decide (o.value ≥ size))
  let e := if bad then some "invalid offsets" else e
  let o := if bad then { o with value := numValues } else o
  (if !o.present then { o with value := numValues } else o, e)

def takeLoop (size numValues : Nat) : List (Opt Int) → Option String → List (Opt Int) × Option String
  | [], e => ([], e)
  | o :: rest, e =>
    let (o, e) := takeOffset size numValues o e
    let (rest, e) := takeLoop size numValues rest e
    (o :: rest, e)

/-- `ArrayTakeOverAccumulator` — :542-595. -/
def takeOver (T : Type) : Acc Unit (Option T × Opt Int) (Option (Option T)) String (TakeState T) where
  reset _ s := { s with values := [], offsets := [], returnId := 0 }
  add v s := { s with values := s.values ++ [v.1], offsets := s.offsets ++ [v.2] }
  addN := repeatAdd fun v s => { s with values := s.values ++ [v.1], offsets := s.offsets ++ [v.2] }
  finalize s :=
    let (offsets, error) := takeLoop s.offsets.length s.values.length s.offsets s.error
    { s with offsets, error, values := s.values ++ [none] }
  get s := ((s.offsets[s.returnId]?).bind fun o => if o.value < 0 then none else s.values[o.value.toNat]?,
    { s with returnId := s.returnId + 1 })
  status s := s.error

/-- An element of `OrdinalRankAccumulator` — :814-818. -/
structure Elem (T : Type) where
  value : T
  tie : Int
  pos : Nat

/-- `<` of `std::tie(a.value, a.tie_breaker, a.position)` — :820-825, or the descending order — :843-846. -/
def Elem.less (c : Cmp T) (descending : Bool) (a b : Elem T) : Bool :=
  let (x, y) := if descending then (b.value, a.value) else (a.value, b.value)
  c.lt x y || (!c.lt y x && (decide (a.tie < b.tie) || (!decide (b.tie < a.tie) && decide (a.pos < b.pos))))

structure RankState (X : Type) where
  returnId : Nat
  elems : List X
  ranks : List Nat

/-- The loop which stores the ranks — :805-808. -/
def storeRanks : Nat → List Nat → List Nat → List Nat
  | _, [], ranks => ranks
  | k, pos :: rest, ranks => storeRanks (k + 1) rest (ranks.set pos k)

/-- `std::vector::resize`. -/
def resize (n : Nat) (l : List Nat) : List Nat := (l ++ List.replicate n 0).take n

/-- `OrdinalRankAccumulator` — :770-853; `sort` is `std::sort`. -/
def ordinalRank (c : Cmp T) (descending : Bool) (sort : List (Elem T) → List (Elem T)) :
    Acc Unit (T × Int) (Option Nat) Empty (RankState (Elem T)) where
  reset _ s := { s with elems := [], returnId := 0 }
  add v s := { s with elems := s.elems ++ [⟨v.1, v.2, s.elems.length⟩] }
  addN := repeatAdd fun v s => { s with elems := s.elems ++ [⟨v.1, v.2, s.elems.length⟩] }
  finalize s :=
    -- std::stable_partition
    let front := s.elems.filter fun e => !c.nan e.value
    let back := s.elems.filter fun e => c.nan e.value
    let elems := sort front ++ back
    { s with elems, ranks := storeRanks 0 (elems.map Elem.pos) (resize s.elems.length s.ranks) }
  get s := (s.ranks[s.returnId]?, { s with returnId := s.returnId + 1 })

/-- The loop of `DenseRankAccumulator::FinalizeFullGroup` — :895-901. -/
def denseLoop (c : Cmp T) : T → Nat → List (T × Nat) → List Nat → List Nat
  | _, _, [], ranks => ranks
  | prev, rank, (v, pos) :: rest, ranks =>
    let rank := if !c.eq v prev then rank + 1 else rank
    denseLoop c v rank rest (ranks.set pos rank)

/-- `DenseRankAccumulator` — :855-912, without cancellation; `partition` is `std::partition` followed by `std::sort` of the
first part: both parts are returned. -/
def denseRank (c : Cmp T) (partition : List (T × Nat) → List (T × Nat) × List (T × Nat)) :
    Acc Unit T (Option Nat) Empty (RankState (T × Nat)) where
  reset _ s := { s with elems := [], returnId := 0 }
  add v s := { s with elems := s.elems ++ [(v, s.elems.length)] }
  addN := repeatAdd fun v s => { s with elems := s.elems ++ [(v, s.elems.length)] }
  finalize s :=
    let ranks := resize s.elems.length s.ranks
    let (front, back) := partition s.elems
    let elems := front ++ back
    match elems with
    | [] => { s with elems, ranks }
    | (v, pos) :: rest => { s with elems, ranks := denseLoop c v 0 rest (ranks.set pos 0) }
  get s := (s.ranks[s.returnId]?, { s with returnId := s.returnId + 1 })

/-- `MedianAggregator` — :914-942; `nth k` is `std::nth_element` for the position `k`.  An access out of range would be
`none`. -/
def median (c : Cmp T) (nth : Nat → List T → List T) : Acc Unit T (Option (Option T)) Empty (List T) where
  reset _ _ := []
  add v s := s ++ [v]
  addN := repeatAdd fun v s => s ++ [v]
  get s :=
    if s.isEmpty then (some none, s)
    else match s.find? c.nan with
      | some x => (some (some x), s)
      | none =>
        let offset := (s.length - 1) / 2
        let s := nth offset s
        (s[offset]?.map some, s)

/-- `InverseCdfAccumulator` for a valid argument — :315-367; `rank n` is `ceil(cdf * n) - 1`, a floating point
computation. -/
def inverseCdf (c : Cmp T) (rank : Nat → Int) (nth : Nat → List T → List T) :
    Acc Unit T (Option (Option T)) Empty (List T) where
  reset _ _ := []
  add v s := s ++ [v]
  addN := repeatAdd fun v s => s ++ [v]
  get s :=
    match s.find? c.nan with
    | some x => (some (some x), s)
    | none =>
      if s.isEmpty then (some none, s)
      else
        let offset := (max 0 (min (rank s.length) ((s.length : Int) - 1))).toNat
        let s := nth offset s
        (s[offset]?.map some, s)

structure ArgState (T : Type) where
  index : Int
  best : T
  arg : Option Int

/-- `ArgMinAggregator::Add` — :954-962; `ArgMaxAggregator::Add` — :987-995 with the opposite comparison. -/
def argAdd (c : Cmp T) (v : Option T) (s : ArgState T) : ArgState T :=
  let s := match v with
    | some v =>
      if !s.arg.isSome || (!c.nan s.best && (c.nan v || c.lt v s.best)) then { s with best := v, arg := some s.index } else s
    | none => s
  { s with index := s.index + 1 }

/-- `ArgMinAggregator` — :944-975. -/
def argMin (c : Cmp T) : Acc Unit (Option T) (Option Int) Empty (ArgState T) where
  reset _ s := { s with index := 0, arg := none }
  add := argAdd c
  addN n v s := let s := argAdd c v s; { s with index := s.index + ((n : Int) - 1) }
  get s := (s.arg, s)

/-- `ArgMaxAggregator` — :977-1008. -/
def argMax (c : Cmp T) : Acc Unit (Option T) (Option Int) Empty (ArgState T) :=
  argMin { c with lt := fun a b => c.lt b a }

end Verif.Agg
