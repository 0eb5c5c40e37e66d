/-!
# Model of `arolla/algorithm/control_flow_graph.{h,cc}`

Node ids are `int64_t`.  The input of `Create` uses `Int`; the ids of an accepted graph have been checked to
be in range and are `Nat` from then on.  Reading an element which does not exist, and running out of fuel in a
`while` loop, is `none`.
-/

namespace Verif.Cfg

/-- `AcyclicCFG` — control_flow_graph.h:34-65. -/
structure Cfg where
  deps : List (List Nat)
  rdeps : List (List Nat)

/-- `num_nodes` — control_flow_graph.h:46. -/
def Cfg.numNodes (g : Cfg) : Nat := g.deps.length

/-- `vs[i].push_back(x)`. -/
def push (vs : List (List Nat)) (i x : Nat) : List (List Nat) := vs.modify i (· ++ [x])

/-- Loop over the dependencies of one node — control_flow_graph.cc:41-52. -/
def createDeps (n node : Nat) : List Int → List (List Nat) → Except String (List (List Nat))
  | [], rev => .ok rev
  | d :: ds, rev =>
    if d ≤ node then .error "all edges must be directed to the larger index"
    else if d ≥ n then .error "vertex id is out of range"
    else createDeps n node ds (push rev d.toNat node)

/-- Loop over the nodes — control_flow_graph.cc:40-53. -/
def createNodes (n : Nat) : Nat → List (List Int) → List (List Nat) → Except String (List (List Nat))
  | _, [], rev => .ok rev
  | node, ds :: rest, rev =>
    match createDeps n node ds rev with
    | .error m => .error m
    | .ok rev' => createNodes n (node + 1) rest rev'

/-- `AcyclicCFG::Create` — control_flow_graph.cc:33-63. -/
def create (deps : List (List Int)) : Except String Cfg :=
  if deps.length = 0 then .error "at least one node is expected"
  else
    match createNodes deps.length 0 deps (List.replicate deps.length []) with
    | .error m => .error m
    | .ok rev =>
      if (rev.drop 1).any List.isEmpty then .error "all vertices must be reachable from root"
      else .ok ⟨deps.map (·.map Int.toNat), rev⟩

/-- `DominatorTree` — control_flow_graph.h:69-112, one list per field of `Info`.  While the tree is built,
`parent` and `depth` hold the nodes computed so far, so that reading a later node is `none`. -/
structure DTree where
  parent : List Nat
  depth : List Nat
  children : List (List Nat)

/-- `while (depth(a) > depth(b)) a = parent(a)` — control_flow_graph.cc:83-85. -/
def lcaUp (t : DTree) : Nat → Nat → Nat → Option Nat
  | 0, _, _ => none
  | f + 1, a, b => do
    if (← t.depth[a]?) > (← t.depth[b]?) then lcaUp t f (← t.parent[a]?) b else some a

/-- `while (a != b) …` — control_flow_graph.cc:86-89. -/
def lcaMeet (t : DTree) : Nat → Nat → Nat → Option Nat
  | 0, _, _ => none
  | f + 1, a, b => if a = b then some a else do lcaMeet t f (← t.parent[a]?) (← t.parent[b]?)

/-- The loops of `Lca`, after the swap — control_flow_graph.cc:83-90. -/
def lcaLoops (t : DTree) (a b : Nat) : Option Nat := do
  lcaMeet t (t.depth.length + 1) (← lcaUp t (t.depth.length + 1) a b) b

/-- `Lca(a, b)` — control_flow_graph.cc:78-91. -/
def lca (t : DTree) (a b : Nat) : Option Nat := do
  if (← t.depth[a]?) < (← t.depth[b]?) then lcaLoops t b a else lcaLoops t a b

/-- The loop of `Lca(nodes)` — control_flow_graph.cc:95-97. -/
def lcaFold (t : DTree) : Nat → List Nat → Option Nat
  | res, [] => some res
  | res, x :: xs => do lcaFold t (← lca t res x) xs

/-- `Lca(nodes)` — control_flow_graph.cc:93-99. -/
def lcaSpan (t : DTree) (nodes : List Nat) : Option Nat := do lcaFold t (← nodes[0]?) nodes

/-- The loop of the constructor — control_flow_graph.cc:70-75; `k` nodes remain, `node` is the next. -/
def domLoop (g : Cfg) : Nat → Nat → DTree → Option DTree
  | 0, _, t => some t
  | k + 1, node, t => do
    let p ← lcaSpan t (← g.rdeps[node]?)
    let d ← t.depth[p]?
    domLoop g k (node + 1) ⟨t.parent ++ [p], t.depth ++ [d + 1], push t.children p node⟩

/-- `DominatorTree::DominatorTree` — control_flow_graph.cc:65-76. -/
def dominatorTree (g : Cfg) : Option DTree :=
  domLoop g (g.numNodes - 1) 1 ⟨[0], [0], List.replicate g.numNodes []⟩

/-- `if (global_nodes.contains(node_id) && node_id != 0) …` — control_flow_graph.cc:107-109. -/
def extPush (t : DTree) (glob : Nat → Bool) (node : Nat) (deps : List (List Nat)) : Option (List (List Nat)) :=
  if glob node && node != 0 then do some (push deps (← t.parent[node]?) node) else some deps

/-- The loop of `ExternalizeNodes` — control_flow_graph.cc:106-116. -/
def extLoop (g : Cfg) (t : DTree) (glob : Nat → Bool) : Nat → Nat → List (List Nat) → Option (List (List Nat))
  | 0, _, deps => some deps
  | k + 1, node, deps => do
    let deps ← extPush t glob node deps
    let ds ← g.deps[node]?
    extLoop g t glob k (node + 1) (deps.modify node (· ++ ds.filter (fun d => !glob d)))

/-- `ExternalizeNodes` — control_flow_graph.cc:101-118. -/
def externalizeNodes (g : Cfg) (t : DTree) (glob : Nat → Bool) : Option (Except String Cfg) := do
  let deps ← extLoop g t glob g.numNodes 0 (List.replicate g.numNodes [])
  some (create (deps.map (·.map Int.ofNat)))

/-- Minimum over the dependencies — control_flow_graph.cc:128-134. -/
def minDeps (t : DTree) (mins : List Int) : List Nat → Int → Option Int
  | [], m => some m
  | d :: ds, m => do
    minDeps t mins ds (min m (min (← mins[d]?) (((← t.depth[d]?) : Nat) - 1)))

/-- Loop over the nodes, from the last one down — control_flow_graph.cc:127-137; the next node is `k - 1`. -/
def frontierLoop (g : Cfg) (t : DTree) : Nat → List Int → List Bool → Option (List Bool)
  | 0, _, e => some e
  | k + 1, mins, e => do
    let dk ← t.depth[k]?
    let m ← minDeps t mins (← g.deps[k]?) dk
    frontierLoop g t k (mins.set k m) (e.set k (m == dk))

/-- `FindVerticesWithEmptyDominanceFrontier` — control_flow_graph.cc:120-139. -/
def emptyFrontier (g : Cfg) (t : DTree) : Option (List Bool) :=
  frontierLoop g t g.numNodes (List.replicate g.numNodes 0) (List.replicate g.numNodes false)

end Verif.Cfg
