import Verif.Serial.SerialModel
import Verif.Expr.ExprSpec

/-!
# What a sequence of decoding steps means

A reference interpreter with a write-once store: no usage counts, no hints, nothing is ever removed.  A step that refers to a
cell that does not hold a result of the requested kind has no meaning.
-/

namespace Verif.Serial
open Verif.Expr
variable {V A X E : Type}

/-- The store: for each index the value or expression and the codec written there; the codecs in order of appearance; the
outputs. -/
structure Store (V A X E : Type) where
  cells : List (Option (VoE V A) × Option (Codec V A X E))
  codecs : List (Codec V A X E)
  values : List V
  exprs : List (Ex V A)

/-- The empty store. -/
def Store.init : Store V A X E := ⟨[], [], [], []⟩

/-- The value at an index. -/
def Store.value? (s : Store V A X E) (i : Nat) : Option V :=
  match s.cells[i]? with
  | some (some (.val v), _) => some v
  | _ => none

/-- The expression at an index. -/
def Store.expr? (s : Store V A X E) (i : Nat) : Option (Ex V A) :=
  match s.cells[i]? with
  | some (some (.expr e), _) => some e
  | _ => none

/-- The codec at an index. -/
def Store.codec? (s : Store V A X E) (i : Nat) : Option (Codec V A X E) :=
  match s.cells[i]? with
  | some (_, c) => c
  | none => none

/-- Writing to an empty cell. -/
def Store.write (s : Store V A X E) (i : Nat) (x : VoE V A) : Option (Store V A X E) :=
  match s.cells[i]? with
  | some (none, c) => some { s with cells := s.cells.set i (some x, c) }
  | _ => none

/-- Writing a codec to a cell without one. -/
def Store.writeCodec (s : Store V A X E) (i : Nat) (c : Codec V A X E) : Option (Store V A X E) :=
  match s.cells[i]? with
  | some (x, none) => some { s with cells := s.cells.set i (x, some c), codecs := s.codecs ++ [c] }
  | _ => none

/-- The answer of the first codec that recognises the extension. -/
def firstExt : List (Except E (Option V)) → Option V
  | [] => none
  | .ok none :: rest => firstExt rest
  | .ok (some v) :: _ => some v
  | .error _ :: _ => none

/-- The node built by a decoder for an operator and its dependencies. -/
def opNode (o : Opts V A X E) (w : V) (ds : List (Ex V A)) : Option (Ex V A) :=
  if o.infer then
    match o.lang.infer w (ds.map Expr.attr) with
    | .ok a => some (.mk (.op w) a ds)
    | .error _ => none
  else some (.mk (.op w) o.lang.noAttr ds)

/-- The meaning of the type-specific part of a step. -/
def Store.apply (o : Opts V A X E) (s : Store V A X E) (i : Nat) : Kind X → Option (Store V A X E)
  | .literal (some j) => do s.write i (.expr (.mk (.literal (← s.value? j)) (o.lang.litAttr (← s.value? j)) []))
  | .leaf (some k) => s.write i (.expr (.mk (.leaf k) o.lang.noAttr []))
  | .placeholder (some k) => s.write i (.expr (.mk (.placeholder k) o.lang.noAttr []))
  | .op (some j) inputs => do
    let w ← s.value? j
    if o.isOp w then s.write i (.expr (← opNode o w (← inputs.mapM s.expr?))) else none
  | .value p => do
    let vs ← p.inputValues.mapM s.value?
    let es ← p.inputExprs.mapM s.expr?
    match p.codec with
    | some j => do s.write i (.val (← firstExt [(← s.codec? j).dec p vs es]))
    | none => do s.write i (.val (← firstExt (s.codecs.map (fun c => c.dec p vs es))))
  | .codec name => do
    match (← o.provider) name with
    | .ok dec => s.writeCodec i ⟨name, dec⟩
    | .error _ => none
  | .outValue j => do some { s with values := s.values ++ [← s.value? j] }
  | .outExpr j => do some { s with exprs := s.exprs ++ [← s.expr? j] }
  | .unset => some s
  | .literal none => none
  | .leaf none => none
  | .placeholder none => none
  | .op none _ => none

/-- The meaning of a step at an index: indices may repeat but not skip. -/
def Store.step (o : Opts V A X E) (s : Store V A X E) (i : Nat) (k : Kind X) : Option (Store V A X E) :=
  if i < s.cells.length then s.apply o i k
  else if i = s.cells.length then Store.apply o { s with cells := s.cells ++ [(none, none)] } i k
  else none

/-- The meaning of a sequence of steps. -/
def Store.run (o : Opts V A X E) (s : Store V A X E) : List (Nat × Kind X) → Option (Store V A X E)
  | [] => some s
  | (i, k) :: rest => do (← s.step o i k).run o rest

/-- Steps without their hints. -/
def kinds (evs : List (Nat × Step X)) : List (Nat × Kind X) := evs.map (fun e => (e.1, e.2.kind))

/-- The non-empty hints in a sequence of steps. -/
def hintsOf (evs : List (Nat × Step X)) : List (List Nat) :=
  evs.filterMap (fun e => e.2.hints.filter (fun c => c ≠ []))

/-! ## Encoding -/

/-- The value that a node refers to. -/
def Uses (n : Ex V A) (w : V) : Prop := n.label = .literal w ∨ n.label = .op w

/-- Expressions as they are built by the expression library: the attributes are inferred, operators are operators. -/
def Valid (o : Opts V A X E) (e : Ex V A) : Prop :=
  WF o.lang e ∧ ∀ n w, Sub n e → n.label = .op w → o.isOp w = true

/-- The values among the parts. -/
def valuesOf (ps : List (Item V A)) : List V := ps.filterMap (fun p => match p with | .value v => some v | _ => none)

/-- The expressions among the parts. -/
def exprsOf (ps : List (Item V A)) : List (Ex V A) := ps.filterMap (fun p => match p with | .expr e => e | _ => none)

/-- The value decoders invert the value encoders, one value at a time: from the extension payload and the parts of a value, the
decoder found under the codec name of the encoder rebuilds the value.  The expressions in values are valid. -/
structure Lawful (o : Opts V A X E) (plan : V → Plan V A X E) : Prop where
  inverse : ∀ v name, (plan v).codec = .ok name → ∃ f dec, o.provider = some f ∧ f name = .ok dec ∧
    ∀ p : VProto X, (plan v).ext = .ok p.ext → dec p (valuesOf (plan v).parts) (exprsOf (plan v).parts) = .ok (some v)
  valid : ∀ v e, .expr (some e) ∈ (plan v).parts → Valid o e

/-- Values are finite: the parts of a value are simpler than the value. -/
structure Finite (plan : V → Plan V A X E) (rank : V → Nat) : Prop where
  value : ∀ v w, .value w ∈ (plan v).parts → rank w < rank v
  expr : ∀ v e n w, .expr (some e) ∈ (plan v).parts → Sub n e → Uses n w → rank w < rank v

/-- All values that a call has to encode have rank below `R`. -/
def Below (rank : V → Nat) (R : Nat) : Item V A → Prop
  | .value v => rank v < R
  | .expr (some e) => ∀ n w, Sub n e → Uses n w → rank w < R
  | .expr none => True

/-- `S` is a set of values that can be encoded, closed under taking parts. -/
structure Closed (plan : V → Plan V A X E) (S : V → Prop) : Prop where
  codec : ∀ v, S v → ∃ name, (plan v).codec = .ok name
  ext : ∀ v, S v → ∃ x, (plan v).ext = .ok x
  value : ∀ v w, S v → .value w ∈ (plan v).parts → S w
  null : ∀ v, S v → .expr none ∉ (plan v).parts
  expr : ∀ v e n w, S v → .expr (some e) ∈ (plan v).parts → Sub n e → Uses n w → S w

/-- All values that a call has to encode are in `S`. -/
def Within (S : V → Prop) : Item V A → Prop
  | .value v => S v
  | .expr (some e) => ∀ n w, Sub n e → Uses n w → S w
  | .expr none => False

/-- The values that were encoded by successful calls, in order. -/
def encodedValues {T : Type} (calls : List (Item V A)) (rs : List (Except T Nat)) : List V :=
  (calls.zip rs).filterMap (fun p => match p with | (.value v, .ok _) => some v | _ => none)

/-- The expressions that were encoded by successful calls, in order. -/
def encodedExprs {T : Type} (calls : List (Item V A)) (rs : List (Except T Nat)) : List (Ex V A) :=
  (calls.zip rs).filterMap (fun p => match p with | (.expr e, .ok _) => e | _ => none)

end Verif.Serial
