import Verif.Util.StringModel

/-!
# Model of `arolla/expr/registered_expr_operator.cc`: `ExprOperatorRegistry`

An interleaving model: an operation in progress is a program counter; an action starts an operation or advances one
by one atomic step.  Atomic steps are: a section under the mutex `mx_`, a load or store of an operator implementation
(`ThreadSafeSharedPtr`), an increment of a revision id (`std::atomic`).

* A record is identified by its name; records are never removed.  `registry_.find` is a function on names.
* An operator implementation is a number.  Revision ids are `Nat`: 2^63 changes would overflow the `int64_t`.
* `registered_operator` of a record is determined by the name.
-/

namespace Verif.Reg

abbrev Name := List Nat

/-- `Record` — registered_expr_operator.h:148-161. -/
structure Rec where
  parent : Option Name
  rev : Nat
  impl : Option Nat

abbrev Recs := Name → Option Rec

def setRec (r : Recs) (n : Name) (x : Rec) : Recs := fun m => if m = n then some x else r m

/-- `name.rfind('.')`. -/
def rfindDot : Name → Option Nat
  | [] => none
  | c :: cs =>
    match rfindDot cs with
    | some i => some (i + 1)
    | none => if c = Str.dot then some 0 else none

/-- The name of the parent — registered_expr_operator.cc:374-375. -/
def parentName (n : Name) : Name := n.take ((rfindDot n).getD 0)

/-- The loop of `LookupOrCreateRecordSingleton`: `child` is in the registry — registered_expr_operator.cc:372-388. -/
def linkParents : Nat → Recs → Name → Option Recs
  | 0, _, _ => none
  | f + 1, r, child =>
    let p := parentName child
    match r p with
    | some _ => some (fun m => if m = child then (r m).map (fun x => { x with parent := some p }) else r m)
    | none =>
      let r := setRec r p ⟨none, 0, none⟩
      linkParents f (fun m => if m = child then (r m).map (fun x => { x with parent := some p }) else r m) p

/-- `LookupOrCreateRecordSingleton` — registered_expr_operator.cc:356-389: the registry afterwards and the record
(`none`: the stub). -/
def lookupOrCreate (r : Recs) (n : Name) : Option (Recs × Option Name) :=
  if (r n).isSome then some (r, some n)
  else if !Str.isQualified n then some (r, none)
  else do some (← linkParents (n.length + 1) (setRec r n ⟨none, 0, none⟩) n, some n)

/-- Program counters of `Register` and `UnsafeUnregister`. -/
inductive Pc where
  /-- `Register` before the name check — registered_expr_operator.cc:289. -/
  | reg0 (n : Name) (op : Nat)
  /-- before the test — registered_expr_operator.cc:295. -/
  | reg1 (n : Name) (op : Nat)
  /-- before the store — registered_expr_operator.cc:299. -/
  | reg2 (n : Name) (op : Nat)
  /-- in `UpdateRevisionIds`, before the increment of `cur` — registered_expr_operator.cc:402-406. -/
  | reg3 (n : Name) (op : Nat) (cur : Option Name)
  /-- `UnsafeUnregister` before the lookup — registered_expr_operator.cc:309. -/
  | unreg0 (n : Name)
  /-- before the test — registered_expr_operator.cc:311. -/
  | unreg1 (n : Name)
  /-- before the store — registered_expr_operator.cc:314. -/
  | unreg2 (n : Name)
  /-- in `UpdateRevisionIds`. -/
  | unreg3 (n : Name) (cur : Option Name)

/-- The name an operation is about. -/
def Pc.name : Pc → Name
  | .reg0 n _ | .reg1 n _ | .reg2 n _ | .reg3 n _ _ | .unreg0 n | .unreg1 n | .unreg2 n | .unreg3 n _ => n

/-- Outcomes of calls; `stored` is the moment at which the implementation changes. -/
inductive Event where
  | regOk (n : Name) (op : Nat)
  | regExists (n : Name)
  | regInvalid (n : Name)
  | unregRet (n : Name)
  | stored (n : Name) (op : Option Nat)
  deriving DecidableEq

structure St where
  recs : Recs
  listing : List Name
  ops : List Pc
  log : List Event

/-- The constructor creates the root record — registered_expr_operator.cc:280-284. -/
def St.init : St := ⟨setRec (fun _ => none) [] ⟨none, 0, none⟩, [], [], []⟩

structure Out where
  st : St
  pc : Option Pc

/-- `record.operator_implementation.store(x)`. -/
def storeImpl (s : St) (n : Name) (x : Option Nat) : Option St := do
  let r ← s.recs n
  some { s with recs := setRec s.recs n { r with impl := x }, log := .stored n x :: s.log }

/-- `++record.revision_id`, returning the parent. -/
def bump (s : St) (n : Name) : Option (St × Option Name) := do
  let r ← s.recs n
  some ({ s with recs := setRec s.recs n { r with rev := r.rev + 1 } }, r.parent)

/-- One atomic step. -/
def stepPc (s : St) : Pc → Option Out
  | .reg0 n op =>
    if !Str.isQualified n then some ⟨{ s with log := .regInvalid n :: s.log }, none⟩
    else do
      let x ← lookupOrCreate s.recs n
      match x.2 with
      | none => none
      | some n' => some ⟨{ s with recs := x.1 }, some (.reg1 n' op)⟩
  | .reg1 n op => do
    let r ← s.recs n
    if r.impl.isSome then some ⟨{ s with log := .regExists n :: s.log }, none⟩ else some ⟨s, some (.reg2 n op)⟩
  | .reg2 n op => do some ⟨← storeImpl s n (some op), some (.reg3 n op (some n))⟩
  | .reg3 n op (some c) => do
    let x ← bump s c
    some ⟨x.1, some (.reg3 n op x.2)⟩
  | .reg3 n op none => some ⟨{ s with listing := s.listing ++ [n], log := .regOk n op :: s.log }, none⟩
  | .unreg0 n =>
    if (s.recs n).isSome then some ⟨s, some (.unreg1 n)⟩ else some ⟨{ s with log := .unregRet n :: s.log }, none⟩
  | .unreg1 n => do
    let r ← s.recs n
    if r.impl.isSome then some ⟨s, some (.unreg2 n)⟩ else some ⟨{ s with log := .unregRet n :: s.log }, none⟩
  | .unreg2 n => do some ⟨← storeImpl s n none, some (.unreg3 n (some n))⟩
  | .unreg3 n (some c) => do
    let x ← bump s c
    some ⟨x.1, some (.unreg3 n x.2)⟩
  | .unreg3 n none =>
    some ⟨{ s with listing := s.listing.filter (fun m => m ≠ n), log := .unregRet n :: s.log }, none⟩

/-- Actions. -/
inductive Act where
  | startRegister (n : Name) (op : Nat)
  | startUnregister (n : Name)
  /-- `AcquireRevisionIdFn`, `AcquireOperatorImplementationFn` — registered_expr_operator.cc:340-348. -/
  | acquire (n : Name)
  | advance (k : Nat)

def advance (s : St) (k : Nat) : Option St :=
  match s.ops[k]? with
  | none => some s
  | some pc =>
    match stepPc s pc with
    | none => none
    | some ⟨s', some pc'⟩ => some { s' with ops := s.ops.set k pc' }
    | some ⟨s', none⟩ => some { s' with ops := s.ops.eraseIdx k }

/-- `excl`: calls about a name do not start while another one about this name is in progress. -/
def act (excl : Bool) (s : St) : Act → Option St
  | .startRegister n op =>
    if excl && s.ops.any (fun pc => pc.name == n) then some s else some { s with ops := s.ops ++ [.reg0 n op] }
  | .startUnregister n =>
    if excl && s.ops.any (fun pc => pc.name == n) then some s else some { s with ops := s.ops ++ [.unreg0 n] }
  | .acquire n => do some { s with recs := (← lookupOrCreate s.recs n).1 }
  | .advance k => advance s k

def runFrom (excl : Bool) (s : St) : List Act → Option St
  | [] => some s
  | a :: as => do runFrom excl (← act excl s a) as

/-- `LookupOperatorOrNull` followed by `GetImplementation` — registered_expr_operator.cc:324-332, 197-205. -/
def lookup (s : St) (n : Name) : Option Nat := (s.recs n).bind (·.impl)

/-- The value of the revision id functor for a namespace; a record which does not exist would be created with 0. -/
def revision (s : St) (n : Name) : Nat := ((s.recs n).map (·.rev)).getD 0

end Verif.Reg
