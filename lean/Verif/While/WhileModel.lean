import Mathlib.Data.Nat.Digits.Defs
import Verif.Lambda.LambdaModel

/-!
# Model of the construction of while loops

`arolla/expr/operators/while_loop/while_loop.cc`, `arolla/expr/operators/while_loop/while_loop_impl.cc`.

A `NamedExpressions` (hash map) is the list of its entries in the order of iteration, with different keys.  Strings are lists of
bytes.  Error messages are not modelled.
-/

namespace Verif.While
open Verif.Expr Verif.Lambda

/-- A string. -/
abbrev Key := List Nat

/-- `NamedExpressions` — while_loop.h:37. -/
abbrev Named (O V Q : Type) := List (Key × Node O V Q)

variable {O V Q E : Type}

/-- `find`. -/
def find {T : Type} (m : List (Key × T)) (k : Key) : Option T := (m.find? (fun e => e.1 = k)).map (·.2)

/-- `emplace`: keeps an existing entry. -/
def emplace {T : Type} (m : List (Key × T)) (k : Key) (t : T) : List (Key × T) := if (find m k).isSome then m else m ++ [(k, t)]

/-- `m.merge(other)`. -/
def merge {T : Type} (m : List (Key × T)) : List (Key × T) → List (Key × T)
  | [] => m
  | e :: rest => merge (emplace m e.1 e.2) rest

/-- `m[k] = t`. -/
def assign {T : Type} (m : List (Key × T)) (k : Key) (t : T) : List (Key × T) :=
  if (find m k).isSome then m.map (fun e => if e.1 = k then (k, t) else e) else m ++ [(k, t)]

/-! ## Immutable parts -/

/-- `kImmutableNamePrefix`, `_while_loop_immutable` — while_loop.cc:141. -/
def kPrefix : Key := [95, 119, 104, 105, 108, 101, 95, 108, 111, 111, 112, 95, 105, 109, 109, 117, 116, 97, 98, 108, 101]

/-- `%d`. -/
def decimal (n : Nat) : Key := if n = 0 then [48] else ((Nat.digits 10 n).reverse.map (· + 48))

/-- `StrFormat("%s_%d", kImmutableNamePrefix, i)` — while_loop.cc:156-157. -/
def immName (i : Nat) : Key := kPrefix ++ (95 :: decimal i)

/-- `Placeholder(key)`. -/
def placeholder (G : Lang O V (Attr Q V) E) (k : Key) : Node O V Q := .mk (.placeholder k) G.noAttr []

/-- `Literal(value)`. -/
def literal (G : Lang O V (Attr Q V) E) (v : V) : Node O V Q := .mk (.literal v) (G.litAttr v) []

/-- `Visit` — while_loop_impl.cc:43-47. -/
structure Visit (O V Q : Type) where
  expr : Node O V Q
  hasPh : Bool
  hasLeaf : Bool

/-- The state of the traversal: the nodes named so far (the number in the name is the position) and `immutables`. -/
structure St (O V Q : Type) where
  names : List (Node O V Q)
  imms : Named O V Q

section
variable [DecidableEq O] [DecidableEq V] [DecidableEq Q]

/-- `immutable_naming_function` — while_loop.cc:151-160. -/
def nameOf (node : Node O V Q) (names : List (Node O V Q)) : Nat × List (Node O V Q) :=
  match names.findIdx? (fun n => n = node) with
  | some i => (i, names)
  | none => (names.length, names ++ [node])

/-- The loop building `new_deps` — while_loop_impl.cc:77-87. -/
def depLoop (G : Lang O V (Attr Q V) E) : List (Visit O V Q) → St O V Q → List (Node O V Q) × St O V Q
  | [], st => ([], st)
  | v :: vs, st =>
    if v.hasPh || !v.hasLeaf then
      let r := depLoop G vs st
      (v.expr :: r.1, r.2)
    else
      let nm := nameOf v.expr st.names
      let r := depLoop G vs ⟨nm.2, emplace st.imms (immName nm.1) v.expr⟩
      (placeholder G (immName nm.1) :: r.1, r.2)

/-- The visitor — while_loop_impl.cc:52-93. -/
def extractVisit (G : Lang O V (Attr Q V) E) (n : Node O V Q) (visits : List (Visit O V Q)) (st : St O V Q) :
    Except E (Visit O V Q × St O V Q) :=
  if isPlaceholder n then .ok (⟨n, true, false⟩, st)
  else if isLeaf n then .ok (⟨n, false, true⟩, st)
  else
    let hasPh := visits.any (fun v => v.hasPh)
    let hasLeaf := visits.any (fun v => v.hasLeaf)
    if !hasPh then .ok (⟨n, false, hasLeaf⟩, st)
    else
      let r := depLoop G visits st
      match G.withNewDeps n r.1 with
      | .error e => .error e
      | .ok new => .ok (⟨new, true, hasLeaf⟩, r.2)

/-- The loop of `PostOrderTraverse` with the state of the visitor — expr_visitor.h:193-208; the first argument is the number of
nodes left. -/
def extractLoop (G : Lang O V (Attr Q V) E) (po : PostOrder O V (Attr Q V)) :
    Nat → Nat → List (Visit O V Q) → St O V Q → Option (Except E (Visit O V Q × St O V Q))
  | 0, _, results, st => results.getLast?.map (fun v => .ok (v, st))
  | m + 1, i, results, st =>
    match po.nodes[i]?, po.depIndices i with
    | some n, some ix =>
      match gather results ix with
      | none => none
      | some args =>
        match extractVisit G n args st with
        | .error e => some (.error e)
        | .ok r => extractLoop G po m (i + 1) (results ++ [r.1]) r.2
    | _, _ => none

/-- `ExtractImmutables` with the nodes named so far: the new expression, the immutables, the named nodes —
while_loop_impl.cc:39-105. -/
def extractImmutables (G : Lang O V (Attr Q V) E) (expr : Node O V Q) (names : List (Node O V Q)) :
    Option (Except E (Node O V Q × St O V Q)) :=
  match postOrder expr with
  | none => none
  | some po =>
    match extractLoop G po po.nodes.length 0 [] ⟨names, []⟩ with
    | none => none
    | some (.error e) => some (.error e)
    | some (.ok (v, st)) =>
      if v.hasPh then some (.ok (v.expr, st))
      else
        let nm := nameOf v.expr st.names
        some (.ok (placeholder G (immName nm.1), ⟨nm.2, emplace st.imms (immName nm.1) v.expr⟩))

/-- Errors. -/
inductive Err (E : Type)
  | reservedName | notInitialized | notSpecified | lambda (e : Lambda.Err E) | op (e : E)

/-- The loop over the body in `MoveImmutablesIntoInitialState` — while_loop.cc:162-168: the names, the initial state and the
new body. -/
def moveLoop (G : Lang O V (Attr Q V) E) : Named O V Q → List (Node O V Q) → Named O V Q →
    Option (Except (Err E) (List (Node O V Q) × Named O V Q × Named O V Q))
  | [], names, init => some (.ok (names, init, []))
  | (k, e) :: rest, names, init =>
    match extractImmutables G e names with
    | none => none
    | some (.error x) => some (.error (.op x))
    | some (.ok (new, st)) =>
      match moveLoop G rest st.names (merge init st.imms) with
      | none => none
      | some (.error x) => some (.error x)
      | some (.ok (names, init, body)) => some (.ok (names, init, (k, new) :: body))

/-- `MoveImmutablesIntoInitialState`: the initial state, the condition and the body — while_loop.cc:138-175. -/
def moveImmutables (G : Lang O V (Attr Q V) E) (init : Named O V Q) (condition : Node O V Q) (body : Named O V Q) :
    Option (Except (Err E) (Named O V Q × Node O V Q × Named O V Q)) :=
  if body.any (fun e => kPrefix.isPrefixOf e.1) then some (.error .reservedName)
  else match moveLoop G body [] init with
    | none => none
    | some (.error x) => some (.error x)
    | some (.ok (names, init, body)) =>
      match extractImmutables G condition names with
      | none => none
      | some (.error x) => some (.error (.op x))
      | some (.ok (new, st)) => some (.ok (merge init st.imms, new, body))

/-! ## The loop -/

/-- The operators and literals used. -/
structure Ops (O V : Type) where
  namedtupleMake : O
  getNth : O
  cast : O
  qtypeOf : O
  /-- `Literal(Text(StrJoin(names, ",")))` -/
  fieldNames : List Key → V
  /-- `Literal<int64_t>(i)` -/
  int : Nat → V
  /-- `Literal(true)` -/
  true_ : V

/-- `ExpressionNames` — while_loop.cc:75-84. -/
def expressionNames {T : Type} (m : List (Key × T)) : List Key := sortKeys (m.map (·.1))

/-- `CheckAllStateFieldsAreInitialized` — while_loop.cc:179-191. -/
def allInitialized (all requested : List Key) : Bool := requested.all (fun k => all.contains k)

/-- Wrap the error of an operator. -/
def lift {T : Type} : Except E T → Except (Err E) T
  | .error e => .error (.op e)
  | .ok t => .ok t

/-- The loop in `AddImplicitCastsToInitialState`; `noValue` is the error of `SubstitutePlaceholders` — while_loop.cc:121-130. -/
def castLoop (G : Lang O V (Attr Q V) E) (P : Ops O V) (noValue : Key → E) (init : Named O V Q) :
    Named O V Q → Named O V Q → Option (Except (Err E) (Named O V Q))
  | [], new => some (.ok new)
  | (k, e) :: rest, new =>
    match substitutePlaceholders G noValue e (find init) true with
    | none => none
    | some (.error x) => some (.error (.op x))
    | some (.ok after) =>
      match find init k with
      | none => none
      | some first =>
        match G.mkOp P.qtypeOf [after] with
        | .error x => some (.error (.op x))
        | .ok q =>
          match G.mkOp P.cast [first, q, literal G P.true_] with
          | .error x => some (.error (.op x))
          | .ok c => castLoop G P noValue init rest (assign new k c)

/-- The loop of `WrapAsTuple` — while_loop.cc:107-113. -/
def wrapLoop (m : Named O V Q) : List Key → Except (Err E) (List (Node O V Q))
  | [] => .ok []
  | k :: ks =>
    match find m k with
    | none => .error .notSpecified
    | some e =>
      match wrapLoop m ks with
      | .error x => .error x
      | .ok es => .ok (e :: es)

/-- `WrapAsTuple` — while_loop.cc:101-115. -/
def wrapAsTuple (G : Lang O V (Attr Q V) E) (P : Ops O V) (m : Named O V Q) (names : List Key) : Except (Err E) (Node O V Q) :=
  match wrapLoop m names with
  | .error x => .error x
  | .ok es => lift (G.mkOp P.namedtupleMake (literal G (P.fieldNames names) :: es))

/-- `MakeNamedAccessors`, from field `i` on — while_loop.cc:87-98. -/
def accessors (G : Lang O V (Attr Q V) E) (P : Ops O V) (tuple : Node O V Q) : List Key → Nat → Except (Err E) (Named O V Q)
  | [], _ => .ok []
  | k :: ks, i =>
    match G.mkOp P.getNth [tuple, literal G (P.int i)] with
    | .error x => .error (.op x)
    | .ok f =>
      match accessors G P tuple ks (i + 1) with
      | .error x => .error x
      | .ok rest => .ok ((k, f) :: rest)

/-- `kLoopStatePlaceholderName`, `loop_state` — while_loop.cc:72. -/
def kLoopState : Key := [108, 111, 111, 112, 95, 115, 116, 97, 116, 101]

/-- The loop that is made: the parameters of the condition and the body, their expressions, and the arguments. -/
structure Loop (O V Q : Type) where
  params : List Key
  condition : Node O V Q
  body : Node O V Q
  deps : List (Node O V Q)

/-- `find` for all names; `none` throws — while_loop.cc:237-243. -/
def pick (m : Named O V Q) : List Key → Option (List (Node O V Q))
  | [] => some []
  | k :: ks =>
    match find m k, pick m ks with
    | some e, some es => some (e :: es)
    | _, _ => none

/-- The names checked for the expressions of the body — while_loop.cc:210-213. -/
def bodyInitialized (all : List Key) : Named O V Q → Option Bool
  | [] => some true
  | e :: rest =>
    match exprKeys placeholderKey e.2, bodyInitialized all rest with
    | some ks, some b => some (allInitialized all ks && b)
    | _, _ => none

/-- `MakeLambdaOperator(…, SubstitutePlaceholders(expr, state_fields, false))` — while_loop.cc:251-260: the body of the lambda. -/
def makeLambda (G : Lang O V (Attr Q V) E) (noValue : Key → E) (params : List Key) (e : Node O V Q) (fields : Named O V Q) :
    Option (Except (Err E) (Node O V Q)) :=
  match substitutePlaceholders G noValue e (find fields) false with
  | none => none
  | some (.error x) => some (.error (.op x))
  | some (.ok r) =>
    match Lambda.make (E := E) params false r with
    | none => none
    | some (.error x) => some (.error (.lambda x))
    | some (.ok _) => some (.ok r)

/-- `MakeWhileLoop` from the casts on — while_loop.cc:215-260; `c_set_difference` of sorted lists without repetitions is a
filter.  The node is made from the result with the attributes inferred by `WhileLoopOperator`, which is not modelled. -/
def finish (G : Lang O V (Attr Q V) E) (P : Ops O V) (noValue : Key → E) (init : Named O V Q) (condition : Node O V Q)
    (body : Named O V Q) : Option (Except (Err E) (Loop O V Q)) :=
  match castLoop G P noValue init body init with
  | none => none
  | some (.error x) => some (.error x)
  | some (.ok init') =>
    let mutables := expressionNames body
    let immutables := (expressionNames init).filter (fun k => !mutables.contains k)
    match wrapAsTuple G P init' mutables with
    | .error x => some (.error x)
    | .ok initTuple =>
      match wrapAsTuple G P body mutables with
      | .error x => some (.error x)
      | .ok bodyTuple =>
        match pick init' immutables with
        | none => none
        | some deps =>
          match accessors G P (placeholder G kLoopState) mutables 0 with
          | .error x => some (.error x)
          | .ok fields =>
            match makeLambda G noValue (kLoopState :: immutables) condition fields with
            | none => none
            | some (.error x) => some (.error x)
            | some (.ok c) =>
              match makeLambda G noValue (kLoopState :: immutables) bodyTuple fields with
              | none => none
              | some (.error x) => some (.error x)
              | some (.ok b) => some (.ok ⟨kLoopState :: immutables, c, b, initTuple :: deps⟩)

/-- `MakeWhileLoop` — while_loop.cc:195-267. -/
def makeWhileLoop (G : Lang O V (Attr Q V) E) (P : Ops O V) (noValue : Key → E) (init : Named O V Q) (condition : Node O V Q)
    (body : Named O V Q) : Option (Except (Err E) (Loop O V Q)) :=
  match moveImmutables G init condition body with
  | none => none
  | some (.error x) => some (.error x)
  | some (.ok (init, condition, body)) =>
    let all := expressionNames init
    match exprKeys placeholderKey condition, bodyInitialized all body with
    | some ks, some b =>
      if allInitialized all (expressionNames body) && allInitialized all ks && b then finish G P noValue init condition body
      else some (.error .notInitialized)
    | _, _ => none

end

end Verif.While
