import Verif.Group.GroupModel
import Verif.Group.IterSpec
import Verif.Agg.AccSpec

/-!
# Specification of the group operations

Every group is processed on its own, by a fresh accumulator, in the order of its child rows.
-/

namespace Verif.Group
open Verif.Dense Verif.Arr Verif.Agg

variable {V P A R E S β : Type}

/-- A status which is not OK. -/
def err (acc : Acc P A R E S) (s : S) : Bool := (acc.status s).isSome

/-- State of a partial accumulator after all results. -/
def partialEnd (acc : Acc P A R E S) (xs : List A) (s : S) : S := xs.foldl (fun s a => (acc.get (acc.add a s)).2) s

/-- State of a full accumulator after `n` results. -/
def fullEnd (acc : Acc P A R E S) : Nat → S → S
  | 0, s => s
  | n + 1, s => fullEnd acc n (acc.get s).2

/-- What the comments of `Accumulator` (aggregation_ops_interface.h:112-160) require, for an accumulator created in the state
`op.empty`.  `rel` relates states before `FinalizeFullGroup` which differ in nothing but the status and data which is not used
any more. -/
structure Lawful (op : GroupOp V P A R E S β) (rel : S → S → Prop) : Prop where
  refl : ∀ s, rel s s
  /-- `Reset` forgets the previous group, except for the status. -/
  reset : ∀ p s s', rel (op.acc.reset p s) (op.acc.reset p s')
  add : ∀ a s s', rel s s' → rel (op.acc.add a s) (op.acc.add a s')
  /-- `AddN` is `N` times `Add`. -/
  addN : ∀ n a s s', 0 < n → rel s s' → rel (op.acc.addN n a s) (repeatAdd op.acc.add n a s')
  get : op.kind ≠ .full → ∀ s s', rel s s' →
    (op.acc.get s).1 = (op.acc.get s').1 ∧ rel (op.acc.get s).2 (op.acc.get s').2
  full : op.kind = .full → ∀ s s' n, rel s s' →
    op.acc.fullResults n (op.acc.finalize s) = op.acc.fullResults n (op.acc.finalize s')
  fresh : err op.acc op.empty = false
  /-- `Reset` does not clean the status. -/
  reset_err : ∀ p s, err op.acc (op.acc.reset p s) = err op.acc s
  add_err : ∀ a s s', rel s s' → err op.acc s = err op.acc s' → err op.acc (op.acc.add a s) = err op.acc (op.acc.add a s')
  addN_err : ∀ n a s s', 0 < n → rel s s' → err op.acc s = err op.acc s' →
    err op.acc (op.acc.addN n a s) = err op.acc (repeatAdd op.acc.add n a s')
  get_err : op.kind ≠ .full → ∀ s s', rel s s' → err op.acc s = err op.acc s' →
    err op.acc (op.acc.get s).2 = err op.acc (op.acc.get s').2
  full_err : op.kind = .full → ∀ s s' n, rel s s' → err op.acc s = err op.acc s' →
    err op.acc (fullEnd op.acc n (op.acc.finalize s)) = err op.acc (fullEnd op.acc n (op.acc.finalize s'))
  /-- An error is kept. -/
  add_keep : ∀ a s, err op.acc s = true → err op.acc (op.acc.add a s) = true
  finalize_keep : ∀ s, err op.acc s = true → err op.acc (op.acc.finalize s) = true
  get_keep : ∀ s, err op.acc s = true → err op.acc (op.acc.get s).2 = true

/-- What is added for a child row. -/
def GroupOp.child (op : GroupOp V P A R E S β) (x : Nat × List (Option V)) : A :=
  op.carg (if op.forward then some (x.1 : Int) else none) x.2

/-- The results of group `i`, whose valid rows are `rows`: one for the group, or one for each row. -/
def GroupOp.groupOut (op : GroupOp V P A R E S β) (i : Nat) (p : P) (rows : List (Nat × List (Option V))) (s : S) :
    List (Nat × R) :=
  match op.kind with
  | .aggregator => [(i, op.acc.aggregate p (rows.map op.child) s)]
  | .partial' => (rows.map Prod.fst).zip (op.acc.partialResults (rows.map op.child) (op.acc.reset p s))
  | .full => (rows.map Prod.fst).zip
      (op.acc.fullResults rows.length (op.acc.finalize (op.acc.after p (rows.map op.child) s)))

/-- The state after all results of a group. -/
def GroupOp.groupState (op : GroupOp V P A R E S β) (p : P) (rows : List (Nat × List (Option V))) (s : S) : S :=
  match op.kind with
  | .aggregator => (op.acc.get (op.acc.after p (rows.map op.child) s)).2
  | .partial' => partialEnd op.acc (rows.map op.child) (op.acc.reset p s)
  | .full => fullEnd op.acc rows.length (op.acc.finalize (op.acc.after p (rows.map op.child) s))

/-- The group has an error. -/
def GroupOp.fails (op : GroupOp V P A R E S β) (p : P) (rows : List (Nat × List (Option V))) : Bool :=
  err op.acc (op.groupState p rows op.empty)

/-- The rows of a group operation: parent and child rows (`none` if a required value is missing), and the parent of each
child. -/
structure Rows (V : Type) where
  np : Nat
  nc : Nat
  prow : Nat → Option (List (Option V))
  crow : Nat → Option (List (Option V))
  parentOf : Nat → Option Nat

/-- The valid rows of group `i`, in order. -/
def Rows.kids (d : Rows V) (i : Nat) : List (Nat × List (Option V)) :=
  (List.range d.nc).filterMap fun c => if d.parentOf c = some i then (d.crow c).map fun a => (c, a) else none

/-- The expected element: of the group (aggregator) or of the child row. -/
def GroupOp.expected (op : GroupOp V P A R E S β) (d : Rows V) (c : Nat) : Option β :=
  (if op.kind = .aggregator then some c else d.parentOf c).bind fun i =>
    (d.prow i).bind fun a => ((op.groupOut i (op.parg a) (d.kids i) op.empty).lookup c).bind op.opt

/-- Some valid group has an error. -/
def GroupOp.anyFails (op : GroupOp V P A R E S β) (d : Rows V) : Prop :=
  ∃ i a, i < d.np ∧ d.prow i = some a ∧ op.fails (op.parg a) (d.kids i) = true

/-- Number of elements of the result. -/
def GroupOp.outSize (op : GroupOp V P A R E S β) (d : Rows V) : Nat := if op.kind = .aggregator then d.np else d.nc

/-- The outcome required: an error of the accumulator iff some valid group has one, otherwise the array of expected
elements. -/
def GroupOp.Correct (op : GroupOp V P A R E S β) (d : Rows V) (good : α → List (Option β) → Prop)
    (r : Option (Except (GErr E) α)) : Prop :=
  (op.anyFails d → ∃ e, r = some (.error (.acc e))) ∧
  (¬ op.anyFails d → ∃ x, r = some (.ok x) ∧ good x ((List.range (op.outSize d)).map (op.expected d)))

/-- A well-formed dense array with these elements. -/
def goodDense (x : DArr β) (l : List (Option β)) : Prop := x.Valid ∧ Dense.elems x = l

/-- A well-formed array with these elements. -/
def goodArr (x : Arr β) (l : List (Option β)) : Prop := x.Valid ∧ x.elems = l

/-! ## Edges -/

/-- The `i`-th split point. -/
def pt (idOf : V → Int) (el : Nat → Option V) (i : Nat) : Int := ((el i).map idOf).getD 0

/-- The parent of a child row, given the elements of the edge. -/
def edgeParent (idOf : V → Int) (e : GEdge X) (el : Nat → Option V) (c : Nat) : Option Nat :=
  if e.isSplit then (List.range e.parentSize).find? fun i => decide (pt idOf el i ≤ c ∧ (c : Int) < pt idOf el (i + 1))
  else (el c).map fun v => (idOf v).toNat

/-- What the constructors of edges check (edge.cc): split points are present, start with 0, increase and end with the number
of children; ids of a mapping are those of parents. -/
def EdgeOk (idOf : V → Int) (e : GEdge X) (el : Nat → Option V) (size : Nat) : Prop :=
  if e.isSplit then size = e.parentSize + 1 ∧ (∀ i, i ≤ e.parentSize → (el i).isSome) ∧ pt idOf el 0 = 0 ∧
    (∀ i, i < e.parentSize → pt idOf el i ≤ pt idOf el (i + 1)) ∧ pt idOf el e.parentSize = e.childSize
  else size = e.childSize ∧ ∀ c, c < e.childSize → ∀ v, el c = some v → 0 ≤ idOf v ∧ idOf v < e.parentSize

/-- The rows of a dense group operation. -/
def denseData (idOf : V → Int) (e : GEdge (DArr V)) (pargs cargs : List (Arg V)) : Rows V :=
  ⟨e.parentSize, e.childSize, denseRow pargs, denseRow cargs, edgeParent idOf e (Dense.elem e.values)⟩

/-- The rows of a group operation over arrays. -/
def arrData (idOf : V → Int) (e : GEdge (Arr V)) (pargs cargs : List (AArg V)) : Rows V :=
  ⟨e.parentSize, e.childSize, row pargs, row cargs, edgeParent idOf e e.values.elem⟩

/-- Dense arguments for `size` rows. -/
def DArgs (size : Nat) (args : List (Arg V)) : Prop := ∀ a ∈ args, a.arr.Valid ∧ a.arr.values.length = size

/-! ## One group -/

/-- All valid rows, in order. -/
def allRows (crow : Nat → Option (List (Option V))) (nc : Nat) : List (Nat × List (Option V)) :=
  (List.range nc).filterMap fun c => (crow c).map fun a => (c, a)

/-- The result for all rows: the one of an aggregator, or an array of results. -/
def GroupOp.OneResult (op : GroupOp V P A R E S β) (nc : Nat) (p : P) (crow : Nat → Option (List (Option V)))
    (good : α → List (Option β) → Prop) : ScalarRes R α → Prop
  | .value r => op.kind = .aggregator ∧ r = op.acc.aggregate p ((allRows crow nc).map op.child) op.empty
  | .array x => op.kind ≠ .aggregator ∧
    good x ((List.range nc).map fun c => ((op.groupOut 0 p (allRows crow nc) op.empty).lookup c).bind op.opt)

/-- The outcome required if all rows are one group. -/
def GroupOp.OneGroup (op : GroupOp V P A R E S β) (nc : Nat) (p : P) (crow : Nat → Option (List (Option V)))
    (good : α → List (Option β) → Prop) (r : Option (Except (GErr E) (ScalarRes R α))) : Prop :=
  (op.fails p (allRows crow nc) = true → ∃ e, r = some (.error (.acc e))) ∧
  (op.fails p (allRows crow nc) = false → ∃ x, r = some (.ok x) ∧ op.OneResult nc p crow good x)

end Verif.Group
