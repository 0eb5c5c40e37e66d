import Verif.Expr.ExprModel

/-!
# Model of `arolla/expr/optimization/pattern_based_optimization.cc`

Expressions are those of `Verif.Expr`: fingerprints are collision-free, so a comparison of fingerprints is a comparison of
nodes.  `N` are the display names of operators, `name` is `display_name()`.  The check of tags in debug builds
(pattern_based_optimization.cc:156-166) is left out.
-/

namespace Verif.Opt
open Verif.Expr
variable {O V A E N : Type} [DecidableEq O] [DecidableEq V] [DecidableEq A] [DecidableEq N]

/-- `PatternPlan` — pattern_based_optimization.h:78-107; an unfold action is `(mem_index, expected_arity, expected_op_name)`,
an expected fingerprint is the node. -/
structure Plan (O V A N : Type) where
  capacity : Nat
  unfold : List (Nat × Nat × N)
  fixed : List (Nat × Expr O V A)
  same : List (Nat × Nat)
  preds : List (Nat × (Expr O V A → Bool))

/-- `placeholder_matchers`. -/
abbrev Matchers (O V A : Type) := List (List Nat × (Expr O V A → Bool))

/-- `placeholder_matchers.find(key)`. -/
def findMatcher (ms : Matchers O V A) (k : List Nat) : Option (Expr O V A → Bool) :=
  (ms.find? (fun m => m.1 = k)).map (·.2)

/-- Errors of `CreatePatternBasedOptimization`. -/
inductive PatternErr (E : Type) where
  | fromIsPlaceholder
  | leaves
  | unknownToKeys (ks : List (List Nat))
  | unknownMatcherKeys (ks : List (List Nat))
  | unknownPlaceholder (k : List Nat)
  | other (e : E)

/-- `VerifyPattern` — pattern_based_optimization.cc:197-241. -/
def verifyPattern (src dst : Expr O V A) (ms : Matchers O V A) : Option (Except (PatternErr E) Unit) :=
  match placeholderKey src with
  | some _ => some (.error .fromIsPlaceholder)
  | none =>
    match exprKeys leafKey src, exprKeys leafKey dst, exprKeys placeholderKey src, exprKeys placeholderKey dst with
    | some lf, some lt, some pf, some pt =>
      if lf ≠ [] ∨ lt ≠ [] then some (.error .leaves)
      else if pt.filter (fun k => k ∉ pf) ≠ [] then some (.error (.unknownToKeys (pt.filter (fun k => k ∉ pf))))
      else if (ms.map (·.1)).filter (fun k => k ∉ pf) ≠ [] then
        some (.error (.unknownMatcherKeys ((ms.map (·.1)).filter (fun k => k ∉ pf))))
      else some (.ok ())
    | _, _, _, _ => none

/-- Local variables of `CompilePattern`: `memory`, `fingerprint_to_mem_index`, `result.pattern_plan`. -/
structure Comp (O V A N : Type) where
  memory : List (Expr O V A)
  seen : List (Expr O V A × Nat)
  plan : Plan O V A N

/-- One iteration of the loop — pattern_based_optimization.cc:259-304. -/
def compileStep (name : O → N) (ms : Matchers O V A) (i : Nat) (node : Expr O V A) (c : Comp O V A N) :
    Except (PatternErr E) (Comp O V A N) :=
  match lookup c.seen node with
  | some j => .ok { c with plan := { c.plan with same := c.plan.same ++ [(i, j)] } }
  | none =>
    let c := { c with seen := c.seen ++ [(node, i)] }
    match node.label with
    | .literal _ => .ok { c with plan := { c.plan with fixed := c.plan.fixed ++ [(i, node)] } }
    | .placeholder k =>
      match findMatcher ms k with
      | some p => .ok { c with plan := { c.plan with preds := c.plan.preds ++ [(i, p)] } }
      | none => .ok c
    | .op o => .ok { c with
        memory := c.memory ++ node.deps
        plan := { c.plan with unfold := c.plan.unfold ++ [(i, node.deps.length, name o)] } }
    | .leaf _ => .error .leaves

/-- The loop of `CompilePattern` — pattern_based_optimization.cc:259-304.  The C++ loop has no bound; `create_rule` shows
that the bound used here is never reached. -/
def compileLoop (name : O → N) (ms : Matchers O V A) : Nat → Nat → Comp O V A N →
    Option (Except (PatternErr E) (Comp O V A N))
  | fuel, i, c =>
    match c.memory[i]? with
    | none => some (.ok c)
    | some node =>
      match fuel with
      | 0 => none
      | fuel + 1 =>
        match compileStep (E := E) name ms i node c with
        | .error e => some (.error e)
        | .ok c => compileLoop name ms fuel (i + 1) c

/-- The function of `ResolveReferenceToRegisteredOperators` — peephole_optimizer.cc:81-95.  `resolve o` is the registered
operator if `o` is a `ReferenceToRegisteredOperator`. -/
def resolveNode (G : Lang O V A E) (resolve : O → Option O) (n : Expr O V A) : Except E (Expr O V A) :=
  match n.label with
  | .op o =>
    match resolve o with
    | some o' => .ok (.mk (.op o') G.noAttr n.deps)
    | none => .ok n
  | _ => .ok n

/-- The loop filling `to_post_order_mem_mapping` — pattern_based_optimization.cc:309-320. -/
def memMapping (seen : List (Expr O V A × Nat)) : Nat → List (Expr O V A) → Except (PatternErr E) (List (Nat × Nat))
  | _, [] => .ok []
  | i, n :: ns =>
    match n.label with
    | .placeholder k =>
      match lookup seen n with
      | none => .error (.unknownPlaceholder k)
      | some j =>
        match memMapping seen (i + 1) ns with
        | .error e => .error e
        | .ok m => .ok ((i, j) :: m)
    | _ => memMapping seen (i + 1) ns

/-- `CompilePatternResult`. -/
structure Compiled (O V A N : Type) where
  plan : Plan O V A N
  po : PostOrder O V A
  mapping : List (Nat × Nat)

/-- `CompilePattern` — pattern_based_optimization.cc:245-324. -/
def compilePattern (G : Lang O V A E) (name : O → N) (resolve : O → Option O) (src dst : Expr O V A)
    (ms : Matchers O V A) : Option (Except (PatternErr E) (Compiled O V A N)) :=
  match verifyPattern (E := E) src dst ms with
  | none => none
  | some (.error e) => some (.error e)
  | some (.ok ()) =>
    match compileLoop (E := E) name ms (src.size + 1) 0 ⟨[src], [], ⟨0, [], [], [], []⟩⟩ with
    | none => none
    | some (.error e) => some (.error e)
    | some (.ok c) =>
      match transform G dst (resolveNode G resolve) with
      | none => none
      | some (.error e) => some (.error (.other e))
      | some (.ok (dst, _)) =>
        match postOrder dst with
        | none => none
        | some po =>
          match memMapping c.seen 0 po.nodes with
          | .error e => some (.error e)
          | .ok mapping => some (.ok ⟨{ c.plan with capacity := c.memory.length }, po, mapping⟩)

/-! ## Matching -/

/-- `memory[index + i] = node_deps[i].get()`; a write out of range is undefined behaviour. -/
def writeDeps : List (Expr O V A) → Nat → List (Option (Expr O V A)) → Option (List (Option (Expr O V A)))
  | [], _, mem => some mem
  | d :: ds, i, mem => if i < mem.length then writeDeps ds (i + 1) (mem.set i (some d)) else none

/-- The unfold actions — pattern_based_optimization.cc:148-171.  `none`: a read of memory that is not set. -/
def unfoldLoop (name : O → N) : List (Nat × Nat × N) → Nat → List (Option (Expr O V A)) →
    Option (Option (List (Option (Expr O V A))))
  | [], _, mem => some (some mem)
  | (mi, arity, nm) :: acts, next, mem =>
    match mem[mi]? with
    | some (some node) =>
      match node.label with
      | .op o =>
        if node.deps.length ≠ arity ∨ name o ≠ nm then some none
        else
          match writeDeps node.deps next mem with
          | none => none
          | some mem => unfoldLoop name acts (next + node.deps.length) mem
      | _ => some none
    | _ => none

/-- `*memory[i]`. -/
def readMem (mem : List (Option (Expr O V A))) (i : Nat) : Option (Expr O V A) := (mem[i]?).join

/-- A loop of checks. -/
def checkAll {α : Type} (check : α → Option Bool) : List α → Option Bool
  | [] => some true
  | a :: as =>
    match check a with
    | none => none
    | some false => some false
    | some true => checkAll check as

/-- `MatchPattern`: the memory if it matched — pattern_based_optimization.cc:138-192. -/
def matchPattern (name : O → N) (plan : Plan O V A N) (root : Expr O V A) :
    Option (Option (List (Option (Expr O V A)))) :=
  match writeDeps [root] 0 (List.replicate plan.capacity none) with
  | none => none
  | some mem =>
    match unfoldLoop name plan.unfold 1 mem with
    | none => none
    | some none => some none
    | some (some mem) =>
      match checkAll (fun a => (readMem mem a.1).map (fun n => decide (n = a.2))) plan.fixed with
      | none => none
      | some false => some none
      | some true =>
        match checkAll (fun a => (readMem mem a.1).bind (fun n => (readMem mem a.2).map (fun m => decide (n = m)))) plan.same with
        | none => none
        | some false => some none
        | some true =>
          match checkAll (fun a => (readMem mem a.1).map a.2) plan.preds with
          | none => none
          | some false => some none
          | some true => some (some mem)

/-! ## Substitution -/

/-- The first loop of `SubstituteNodes` — pattern_based_optimization.cc:106-108. -/
def presetLoop (mem : List (Option (Expr O V A))) : List (Nat × Nat) → List (Option (Expr O V A)) →
    Option (List (Option (Expr O V A)))
  | [], results => some results
  | (ti, mi) :: ms, results =>
    match readMem mem mi with
    | none => none
    | some n => if ti < results.length then presetLoop mem ms (results.set ti (some n)) else none

/-- The second loop of `SubstituteNodes` — pattern_based_optimization.cc:109-131.  `none` for a missing node or for `op()` of
a node that is not an operator. -/
def substLoop (G : Lang O V A E) (po : PostOrder O V A) : Nat → Nat → List (Option (Expr O V A)) →
    Option (Except E (List (Option (Expr O V A))))
  | 0, _, results => some (.ok results)
  | m + 1, i, results =>
    match results[i]? with
    | none => none
    | some (some _) => substLoop G po m (i + 1) results
    | some none =>
      match po.nodes[i]?, po.depIndices i with
      | some n, some ix =>
        match gather results ix with
        | none => none
        | some rs =>
          if rs.any Option.isSome then
            match n.label with
            | .op o =>
              match pickDeps results ix n.deps with
              | none => none
              | some ds =>
                match G.mkOp o ds with
                | .error e => some (.error e)
                | .ok r => substLoop G po m (i + 1) (results.set i (some r))
            | _ => none
          else substLoop G po m (i + 1) results
      | _, _ => none

/-- `SubstituteNodes` — pattern_based_optimization.cc:101-136. -/
def substituteNodes (G : Lang O V A E) (po : PostOrder O V A) (mapping : List (Nat × Nat))
    (mem : List (Option (Expr O V A))) : Option (Except E (Expr O V A)) :=
  match presetLoop mem mapping (List.replicate po.nodes.length none) with
  | none => none
  | some results =>
    match substLoop G po po.nodes.length 0 results with
    | none => none
    | some (.error e) => some (.error e)
    | some (.ok results) =>
      match results.getLast?, po.nodes.getLast? with
      | some (some r), _ => some (.ok r)
      | some none, some n => some (.ok n)
      | _, _ => none

/-- `CompiledPatternOptimization::ApplyToRoot` — pattern_based_optimization.cc:62-71. -/
def applyToRoot (G : Lang O V A E) (name : O → N) (c : Compiled O V A N) (root : Expr O V A) :
    Option (Except E (Expr O V A)) :=
  match matchPattern name c.plan root with
  | none => none
  | some none => some (.ok root)
  | some (some mem) => substituteNodes G c.po c.mapping mem

end Verif.Opt
