/-!
# Model of the stack traces of expressions

`arolla/expr/eval/expr_stack_trace.cc`: for a node that came out of transformations of an expression, the name of the operator it came from and the
source locations of the nodes it came from.

Fingerprints are of any type `F` (collision-free), source locations of any type `L`.  A node is its fingerprint, whether it applies an operator,
the display name of the operator, and, if it is a source location annotation, the fingerprint of the annotated node and the location
(`ReadSourceLocationAnnotation`).  Hash maps are lists of pairs, the newest first.  A status is the list of what was added to it.
-/

namespace Verif.Trace

variable {F L : Type} [DecidableEq F]

structure Node (F L : Type) where
  fp : F
  isOp : Bool
  displayName : String
  location : Option (F × L)

/-- `flat_hash_map::find`. -/
def find {V : Type} (m : List (F × V)) (k : F) : Option V :=
  match m with
  | [] => none
  | (k', v) :: rest => if k' = k then some v else find rest k

/-- `flat_hash_map::emplace`: does nothing if the key is present. -/
def emplace {V : Type} (m : List (F × V)) (k : F) (v : V) : List (F × V) :=
  match find m k with
  | some _ => m
  | none => (k, v) :: m

/-- The members of `DetailedExprStackTrace` (and of its `LightweightExprStackTrace`): `original_node_op_name_`, `original_nodes_`, `traceback`,
`source_locations` — expr_stack_trace.h. -/
structure State (F L : Type) where
  names : List (F × String)
  originals : List F
  traceback : List (F × F)
  locations : List (F × L)

def State.init : State F L := ⟨[], [], [], []⟩

/-- `LightweightExprStackTrace::InitNode` — expr_stack_trace.cc:56-66. -/
def lightInit (names : List (F × String)) (node : Node F L) : List (F × String) :=
  if !node.isOp then names
  else if node.displayName.startsWith "anonymous." then names
  else emplace names node.fp node.displayName

/-- `LightweightExprStackTrace::AddTrace` — expr_stack_trace.cc:39-54. -/
def lightAdd (names : List (F × String)) (transformed original : Node F L) : List (F × String) :=
  if !transformed.isOp || !original.isOp then names
  else if transformed.fp = original.fp then names
  else
    match find names original.fp with
    | some s => emplace names transformed.fp s
    | none => lightInit names transformed

/-- `DetailedExprStackTrace::InitNode` — expr_stack_trace.cc:171-186. -/
def initNode (s : State F L) (node : Node F L) : State F L :=
  let s := { s with names := lightInit s.names node }
  match node.location with
  | some (dep, loc) => { s with locations := emplace s.locations dep loc }
  | none => s

/-- `DetailedExprStackTrace::AddTrace` — expr_stack_trace.cc:152-169. -/
def addTrace (s : State F L) (transformed original : Node F L) : State F L :=
  let s := { s with names := lightAdd s.names transformed original }
  if !transformed.isOp then s
  else if transformed.fp = original.fp then s
  else if transformed.fp ∈ s.originals then s
  else { s with originals := original.fp :: s.originals, traceback := emplace s.traceback transformed.fp original.fp }

/-- `AnnotateWithNodeSourceLocationsImpl` — expr_stack_trace.cc:123-141; `none` if the loop did not stop within `fuel` steps. -/
def annotate (traceback : List (F × F)) (locations : List (F × L)) : Nat → List L → F → Option (List L)
  | 0, _, _ => none
  | fuel + 1, status, fp =>
    let status := match find locations fp with
      | some loc => status ++ [loc]
      | none => status
    match find traceback fp with
    | none => some status
    | some fp' => annotate traceback locations fuel status fp'

/-- The members of the bound stack traces — expr_stack_trace.cc:116-121, 224-231. -/
structure Bound (F : Type) where
  opNames : List (Nat × String)
  numOperators : Nat
  ipToFp : List (Nat × F)

def Bound.init : Bound F := ⟨[], 0, []⟩

/-- `RegisterIp` — expr_stack_trace.cc:86-93, 202-205. -/
def registerIp (names : List (F × String)) (b : Bound F) (ip : Nat) (node : Node F L) : Bound F :=
  let name := match find names node.fp with
    | some s => s
    | none => node.displayName
  ⟨emplace b.opNames ip name, max b.numOperators (ip + 1), emplace b.ipToFp ip node.fp⟩

/-- The array of display names made by `Finalize` — expr_stack_trace.cc:97-102; a missing value has an empty text. -/
def displayNames (b : Bound F) : List String :=
  (List.range b.numOperators).map fun i => (find b.opNames i).getD ""

/-- The annotation of an error — expr_stack_trace.cc:103-113, 207-222: the name of the operator and the locations added. -/
def annotateError (s : State F L) (b : Bound F) (fuel ip : Nat) : Option (String × List L) :=
  let name := if ip < (displayNames b).length then (displayNames b)[ip]? else some ""
  match name with
  | none => none
  | some name =>
    match find b.ipToFp ip with
    | none => some (name, [])
    | some fp => (annotate s.traceback s.locations fuel [] fp).map fun locs => (name, locs)

end Verif.Trace
