import Verif.Expr.ExprModel

/-!
# Model of `arolla/serialization_base`: steps, containers, decoder, encoder

`V` are the typed values (operators are values as well), `A` the attributes of expression nodes, `X` the extension payload
of a `ValueProto`, `E` the errors of codecs and of `InferAttributes`.  Expressions are those of `Verif.Expr`, with values
as operators and as literals.  Fingerprints are collision-free.  Strings are lists of bytes.  The text of error messages
is left out.
-/

namespace Verif.Serial
open Verif.Expr

/-- Expression nodes. -/
abbrev Ex (V A : Type) := Expr V V A

/-- `ValueProto` — proto/serialization_base.proto. -/
structure VProto (X : Type) where
  inputValues : List Nat
  inputExprs : List Nat
  codec : Option Nat
  ext : X

/-- The `oneof type` of `DecodingStepProto`, with the fields of the messages in it. -/
inductive Kind (X : Type) where
  | literal (index : Option Nat)
  | leaf (key : Option (List Nat))
  | placeholder (key : Option (List Nat))
  | op (index : Option Nat) (inputs : List Nat)
  | value (p : VProto X)
  | codec (name : List Nat)
  | outValue (index : Nat)
  | outExpr (index : Nat)
  | unset

/-- `DecodingStepProto`; `hints` is `decoding_step_result_usage_counts` if `has_decoder_hints()`. -/
structure Step (X : Type) where
  hints : Option (List Nat)
  kind : Kind X

/-- `ContainerProto`. -/
structure Container (X : Type) where
  version : Option Int
  codecs : List (List Nat)
  steps : List (Step X)
  outValues : List Nat
  outExprs : List Nat

/-! ## Decoder -/

/-- `ValueDecoder`; `none` is `NoExtensionFound` — decoder.h. -/
abbrev VDec (V A X E : Type) := VProto X → List V → List (Ex V A) → Except E (Option V)

/-- `Decoder::Codec`. -/
structure Codec (V A X E : Type) where
  name : List Nat
  dec : VDec V A X E

/-- `Decoder::ValueOrExpr` other than `std::monostate`. -/
inductive VoE (V A : Type) where
  | val (v : V)
  | expr (e : Ex V A)

/-- `Decoder::DecodingStepResult`; `voe = none` is `std::monostate`, `codec = none` the null pointer.  `codec` points into a
deque whose elements do not move or change, so the codec itself is stored. -/
structure Cell (V A X E : Type) where
  voe : Option (VoE V A)
  codec : Option (Codec V A X E)
  usage : Nat

/-- Errors of the decoder.  `ub` is the undefined behaviour of an index beyond `decoding_step_results_`. -/
inductive Err (E : Type) where
  | ub
  | version | duplicateHints | exceeded | unused | missingStep | missingField | notOperator
  | codecRange | noCodec | noExtension | unknownCodec | noProvider | collision | codecCollision
  | range | noValue | noExpr
  | other (e : E)

/-- `Decoder::Options`, and what the decoder needs of the expression library: the type test
`GetType() == GetQType<ExprOperatorPtr>()` and `InferAttributes`. -/
structure Opts (V A X E : Type) where
  infer : Bool
  provider : Option (List Nat → Except E (VDec V A X E))
  isOp : V → Bool
  lang : Lang V V A E

/-- The fields of `Decoder`. -/
structure Dec (V A X E : Type) where
  expected : List Nat
  cells : List (Cell V A X E)
  codecs : List (Codec V A X E)
  values : List V
  exprs : List (Ex V A)

variable {V A X E : Type}

/-- `Decoder::Decoder`. -/
def Dec.init : Dec V A X E := ⟨[], [], [], [], []⟩

/-- `Decoder::CheckUsageCount` — decoder.cc:118-139. -/
def check (d : Dec V A X E) (i : Nat) : Except (Err E) (Dec V A X E) :=
  match d.expected[i]? with
  | none => .ok d
  | some k =>
    match d.cells[i]? with
    | none => .error .ub
    | some c =>
      if c.usage > k then .error .exceeded
      else if c.voe.isSome ∧ k < 1 then .error .unused
      else if c.usage = k then .ok { d with cells := d.cells.set i { c with voe := none } }
      else .ok d

/-- `CheckUsageCount(i)` for each of the given indices — decoder.cc:112-114. -/
def checks (d : Dec V A X E) : List Nat → Except (Err E) (Dec V A X E)
  | [] => .ok d
  | i :: is => do checks (← check d i) is

/-- `Decoder::ProcessDecoderHints` — decoder.cc:101-116. -/
def processHints (d : Dec V A X E) (counts : List Nat) : Except (Err E) (Dec V A X E) :=
  if counts = [] then .ok d
  else if d.expected ≠ [] then .error .duplicateHints
  else checks { d with expected := counts } (List.range (min counts.length d.cells.length))

/-- `Decoder::LoadDecodedValueOrExpr` — decoder.cc:382-392. -/
def load (d : Dec V A X E) (i : Nat) : Except (Err E) (Dec V A X E × Option (VoE V A)) :=
  match d.cells[i]? with
  | none => .error .range
  | some c => do
    let d ← check { d with cells := d.cells.set i { c with usage := c.usage + 1 } } i
    .ok (d, c.voe)

/-- `Decoder::LoadDecodedValue` — decoder.cc:394-403. -/
def loadValue (d : Dec V A X E) (i : Nat) : Except (Err E) (Dec V A X E × V) := do
  let (d, r) ← load d i
  match r with
  | some (.val v) => .ok (d, v)
  | _ => .error .noValue

/-- `Decoder::LoadDecodedExpr` — decoder.cc:405-414. -/
def loadExpr (d : Dec V A X E) (i : Nat) : Except (Err E) (Dec V A X E × Ex V A) := do
  let (d, r) ← load d i
  match r with
  | some (.expr e) => .ok (d, e)
  | _ => .error .noExpr

/-- The loop over `input_value_indices` — decoder.cc:277-280. -/
def loadValues (d : Dec V A X E) : List Nat → Except (Err E) (Dec V A X E × List V)
  | [] => .ok (d, [])
  | i :: is => do
    let (d, v) ← loadValue d i
    let (d, vs) ← loadValues d is
    .ok (d, v :: vs)

/-- The loop over `input_expr_indices` — decoder.cc:262-265, 282-285. -/
def loadExprs (d : Dec V A X E) : List Nat → Except (Err E) (Dec V A X E × List (Ex V A))
  | [] => .ok (d, [])
  | i :: is => do
    let (d, e) ← loadExpr d i
    let (d, es) ← loadExprs d is
    .ok (d, e :: es)

/-- Errors of other modules. -/
def lift {T : Type} : Except E T → Except (Err E) T
  | .ok t => .ok t
  | .error e => .error (.other e)

/-- `Literal(value)` — expr.h. -/
def mkLiteral (o : Opts V A X E) (v : V) : Ex V A := .mk (.literal v) (o.lang.litAttr v) []

/-- `Leaf(key)` — expr.h. -/
def mkLeaf (o : Opts V A X E) (k : List Nat) : Ex V A := .mk (.leaf k) o.lang.noAttr []

/-- `Placeholder(key)` — expr.h. -/
def mkPlaceholder (o : Opts V A X E) (k : List Nat) : Ex V A := .mk (.placeholder k) o.lang.noAttr []

/-- The end of `DecodeOperatorNode`: `MakeOpNode` or `UnsafeMakeOperatorNode` with empty attributes — decoder.cc:266-271. -/
def mkOpNode (o : Opts V A X E) (op : V) (deps : List (Ex V A)) : Except (Err E) (Ex V A) :=
  if o.infer then lift (o.lang.mkOp op deps) else .ok (.mk (.op op) o.lang.noAttr deps)

/-- `Decoder::DecodeLiteralNode` — decoder.cc:219-228. -/
def decodeLiteral (o : Opts V A X E) (d : Dec V A X E) (index : Option Nat) : Except (Err E) (Dec V A X E × Ex V A) :=
  match index with
  | none => .error .missingField
  | some i => do
    let (d, v) ← loadValue d i
    .ok (d, mkLiteral o v)

/-- `Decoder::DecodeOperatorNode` — decoder.cc:247-272. -/
def decodeOp (o : Opts V A X E) (d : Dec V A X E) (index : Option Nat) (inputs : List Nat) :
    Except (Err E) (Dec V A X E × Ex V A) :=
  match index with
  | none => .error .missingField
  | some i => do
    let (d, v) ← loadValue d i
    if !o.isOp v then .error .notOperator
    else do
      let (d, es) ← loadExprs d inputs
      let e ← mkOpNode o v es
      .ok (d, e)

/-- `Decoder::DecodeValueWithKnownCodec` — decoder.cc:293-314. -/
def decodeKnown (d : Dec V A X E) (p : VProto X) (i : Nat) (vs : List V) (es : List (Ex V A)) : Except (Err E) V :=
  match d.cells[i]? with
  | none => .error .codecRange
  | some c =>
    match c.codec with
    | none => .error .noCodec
    | some codec => do
      match ← lift (codec.dec p vs es) with
      | some v => .ok v
      | none => .error .noExtension

/-- `Decoder::DecodeValueWithUnknownCodec` — decoder.cc:316-332. -/
def decodeUnknown (p : VProto X) (vs : List V) (es : List (Ex V A)) : List (Codec V A X E) → Except (Err E) V
  | [] => .error .unknownCodec
  | codec :: rest => do
    match ← lift (codec.dec p vs es) with
    | some v => .ok v
    | none => decodeUnknown p vs es rest

/-- `Decoder::DecodeValue` — decoder.cc:274-291. -/
def decodeValue (d : Dec V A X E) (p : VProto X) : Except (Err E) (Dec V A X E × V) := do
  let (d, vs) ← loadValues d p.inputValues
  let (d, es) ← loadExprs d p.inputExprs
  match p.codec with
  | some i => do
    let v ← decodeKnown d p i vs es
    .ok (d, v)
  | none => do
    let v ← decodeUnknown p vs es d.codecs
    .ok (d, v)

/-- `Decoder::DecodeCodec` — decoder.cc:334-343. -/
def decodeCodec (o : Opts V A X E) (name : List Nat) : Except (Err E) (Codec V A X E) :=
  match o.provider with
  | none => .error .noProvider
  | some f => do
    let dec ← lift (f name)
    .ok ⟨name, dec⟩

/-- `Decoder::StoreDecodedValueOrExpr` — decoder.cc:345-355. -/
def store (d : Dec V A X E) (i : Nat) (x : VoE V A) : Except (Err E) (Dec V A X E) :=
  match d.cells[i]? with
  | none => .error .ub
  | some c =>
    if c.voe.isSome ∨ c.usage > 0 then .error .collision
    else check { d with cells := d.cells.set i { c with voe := some x } } i

/-- `Decoder::StoreDecodedCodec` — decoder.cc:371-380. -/
def storeCodec (d : Dec V A X E) (i : Nat) (codec : Codec V A X E) : Except (Err E) (Dec V A X E) :=
  match d.cells[i]? with
  | none => .error .ub
  | some c =>
    if c.codec.isSome then .error .codecCollision
    else .ok { d with cells := d.cells.set i { c with codec := some codec }, codecs := d.codecs ++ [codec] }

/-- The `switch` of `OnDecodingStep` — decoder.cc:158-214. -/
def onKind (o : Opts V A X E) (d : Dec V A X E) (i : Nat) : Kind X → Except (Err E) (Dec V A X E)
  | .literal index => do
    let (d, e) ← decodeLiteral o d index
    store d i (.expr e)
  | .leaf none => .error .missingField
  | .leaf (some k) => store d i (.expr (mkLeaf o k))
  | .placeholder none => .error .missingField
  | .placeholder (some k) => store d i (.expr (mkPlaceholder o k))
  | .op index inputs => do
    let (d, e) ← decodeOp o d index inputs
    store d i (.expr e)
  | .value p => do
    let (d, v) ← decodeValue d p
    store d i (.val v)
  | .codec name => do
    let c ← decodeCodec o name
    storeCodec d i c
  | .outValue j => do
    let (d, v) ← loadValue d j
    .ok { d with values := d.values ++ [v] }
  | .outExpr j => do
    let (d, e) ← loadExpr d j
    .ok { d with exprs := d.exprs ++ [e] }
  | .unset => .ok d

/-- `decoding_step_results_.emplace_back()` for a new index — decoder.cc:150-152. -/
def grow (d : Dec V A X E) (i : Nat) : Dec V A X E :=
  if i = d.cells.length then { d with cells := d.cells ++ [⟨none, none, 0⟩] } else d

/-- `ProcessDecoderHints` if `has_decoder_hints()` — decoder.cc:154-156. -/
def onHints (d : Dec V A X E) : Option (List Nat) → Except (Err E) (Dec V A X E)
  | none => .ok d
  | some counts => processHints d counts

/-- `Decoder::OnDecodingStep` — decoder.cc:141-215. -/
def onStep (o : Opts V A X E) (d : Dec V A X E) (i : Nat) (s : Step X) : Except (Err E) (Dec V A X E) :=
  if i > d.cells.length then .error .missingStep
  else do
    let d ← onHints (grow d i) s.hints
    onKind o d i s.kind

/-- Calls of `OnDecodingStep`, up to the first error. -/
def onSteps (o : Opts V A X E) (d : Dec V A X E) : List (Nat × Step X) → Except (Err E) (Dec V A X E)
  | [] => .ok d
  | (i, s) :: rest => do onSteps o (← onStep o d i s) rest

/-- The calls made by `ProcessContainerProto` after the check of the version — container_proto.cc:55-84. -/
def Container.events (c : Container X) : List (Nat × Step X) :=
  (c.codecs.zipIdx.map (fun e => (e.2, ⟨none, .codec e.1⟩))) ++ (c.steps.zipIdx.map (fun e => (e.2, e.1))) ++
  c.outValues.map (fun i => (0, ⟨none, .outValue i⟩)) ++ c.outExprs.map (fun i => (0, ⟨none, .outExpr i⟩))

/-- `ProcessContainerProto` with a new `Decoder`, followed by `Finish` — container_proto.cc:40-86, decode.cc:33-41. -/
def decodeContainer (o : Opts V A X E) (c : Container X) : Except (Err E) (List V × List (Ex V A)) :=
  match c.version with
  | none => .error .version
  | some n =>
    if n ≠ 1 ∧ n ≠ 2 then .error .version
    else do
      let d ← onSteps o Dec.init c.events
      .ok (d.values, d.exprs)

/-! ## Encoder -/

/-- An argument of `EncodeValue` or `EncodeExpr`; `expr none` is the null pointer. -/
inductive Item (V A : Type) where
  | value (v : V)
  | expr (e : Option (Ex V A))

/-- What the `ValueEncoder` does for a value: it finds an encoder, which calls `EncodeCodec` once, then encodes the parts of
the value in some order, appending the indices to the `ValueProto`, and fills in the extension.  This is the form of all
functions in serialization_codecs/generic/encoders.  The search (registry.cc) and the encoder can fail. -/
structure Plan (V A X E : Type) where
  codec : Except E (List Nat)
  parts : List (Item V A)
  ext : Except E X

/-- Errors of the encoder: `expr is nullptr`, `node dependencies must to be pre-serialized`, errors of value encoders. -/
inductive EncErr (E : Type) where
  | null
  | notPreSerialized
  | other (e : E)

/-- The fields of `Encoder` and the steps stored in `ContainerProtoBuilder`. -/
structure Enc (V A X : Type) where
  steps : List (Step X)
  nesting : Nat
  codecs : List (List Nat × Nat)
  values : List (V × Nat)
  exprs : List (Ex V A × Nat)

/-- A new encoder. -/
def Enc.init : Enc V A X := ⟨[], 0, [], [], []⟩

/-- `find` in a hash map; the entry added last counts. -/
def assoc {K : Type} [DecidableEq K] (m : List (K × Nat)) (k : K) : Option Nat := (m.find? (fun e => e.1 = k)).map (·.2)

/-- `container_builder_.Add(step)`: the index of the step is `steps.length` before the call — container_proto.cc:29-33. -/
def Enc.add (s : Enc V A X) (k : Kind X) : Enc V A X := { s with steps := s.steps ++ [⟨none, k⟩] }

/-- The result of a method of the encoder: `none` is undefined behaviour or a stack overflow; the state is kept after an
error. -/
abbrev Res (V A X E T : Type) := Option (Enc V A X × Except (EncErr E) T)

/-- `Encoder::EncodeCodec` — encoder.cc:70-80. -/
def encodeCodec (s : Enc V A X) (name : List Nat) : Enc V A X × Nat :=
  match assoc s.codecs name with
  | some i => (s, i)
  | none => ({ s.add (.codec name) with codecs := (name, s.steps.length) :: s.codecs }, s.steps.length)

section
variable [DecidableEq V] [DecidableEq A]

/-- The calls of `EncodeValue` and `EncodeExpr` of a value encoder and the indices it collects.  `rec` are the two methods. -/
def encodeParts (rec : Item V A → Enc V A X → Res V A X E Nat) :
    List (Item V A) → Enc V A X → Res V A X E (List Nat × List Nat)
  | [], s => some (s, .ok ([], []))
  | p :: ps, s =>
    match rec p s with
    | none => none
    | some (s, .error e) => some (s, .error e)
    | some (s, .ok i) =>
      match encodeParts rec ps s with
      | none => none
      | some (s, .error e) => some (s, .error e)
      | some (s, .ok (vs, es)) =>
        match p with
        | .value _ => some (s, .ok (i :: vs, es))
        | .expr _ => some (s, .ok (vs, i :: es))

/-- `value_encoder_(value, *this)`. -/
def runPlan (plan : V → Plan V A X E) (rec : Item V A → Enc V A X → Res V A X E Nat) (v : V) (s : Enc V A X) :
    Res V A X E (VProto X) :=
  match (plan v).codec with
  | .error e => some (s, .error (.other e))
  | .ok name =>
    let (s, c) := encodeCodec s name
    match encodeParts rec (plan v).parts s with
    | none => none
    | some (s, .error e) => some (s, .error e)
    | some (s, .ok (vs, es)) =>
      match (plan v).ext with
      | .error e => some (s, .error (.other e))
      | .ok x => some (s, .ok ⟨vs, es, some c, x⟩)

/-- The first part of `EncodeValue`, with the changes of `nesting_` — encoder.cc:46-60. -/
def valueIndex (plan : V → Plan V A X E) (rec : Item V A → Enc V A X → Res V A X E Nat) (v : V) (s : Enc V A X) :
    Res V A X E Nat :=
  match assoc s.values v with
  | some i => some (s, .ok i)
  | none =>
    match runPlan plan rec v { s with nesting := s.nesting + 1 } with
    | none => none
    | some (s, .error e) => some ({ s with nesting := s.nesting - 1 }, .error e)
    | some (s, .ok p) =>
      let i := s.steps.length
      let s := s.add (.value p)
      some ({ s with values := (v, i) :: s.values, nesting := s.nesting - 1 }, .ok i)

/-- `known_exprs_[node.fingerprint()] = container_builder_.Add(step)` — encoder.cc:130-131. -/
def addExpr (s : Enc V A X) (n : Ex V A) (k : Kind X) : Enc V A X :=
  { s.add k with exprs := (n, s.steps.length) :: s.exprs }

/-- The loop over the dependencies of an operator node — encoder.cc:158-165. -/
def depIndices (s : Enc V A X) : List (Ex V A) → Option (List Nat)
  | [] => some []
  | d :: ds =>
    match assoc s.exprs d with
    | none => none
    | some i => (depIndices s ds).map (i :: ·)

/-- `Encoder::EncodeExprNode` — encoder.cc:107-169. -/
def encodeNode (rec : Item V A → Enc V A X → Res V A X E Nat) (n : Ex V A) (s : Enc V A X) : Res V A X E Unit :=
  if (assoc s.exprs n).isSome then some (s, .ok ())
  else
    match n.label with
    | .literal v =>
      match rec (.value v) s with
      | none => none
      | some (s, .error e) => some (s, .error e)
      | some (s, .ok i) => some (addExpr s n (.literal (some i)), .ok ())
    | .leaf k => some (addExpr s n (.leaf (some k)), .ok ())
    | .placeholder k => some (addExpr s n (.placeholder (some k)), .ok ())
    | .op o =>
      match rec (.value o) s with
      | none => none
      | some (s, .error e) => some (s, .error e)
      | some (s, .ok i) =>
        match depIndices s n.deps with
        | none => some (s, .error .notPreSerialized)
        | some ds => some (addExpr s n (.op (some i) ds), .ok ())

/-- The loop over the nodes in `EncodeExpr` — encoder.cc:93-95. -/
def encodeNodes (rec : Item V A → Enc V A X → Res V A X E Nat) : List (Ex V A) → Enc V A X → Res V A X E Unit
  | [], s => some (s, .ok ())
  | n :: ns, s =>
    match encodeNode rec n s with
    | none => none
    | some (s, .error e) => some (s, .error e)
    | some (s, .ok _) => encodeNodes rec ns s

/-- The first part of `EncodeExpr`, with the changes of `nesting_` — encoder.cc:83-97; `none` when `known_exprs_.at` fails. -/
def exprIndex (rec : Item V A → Enc V A X → Res V A X E Nat) (e : Ex V A) (s : Enc V A X) : Res V A X E Nat :=
  match assoc s.exprs e with
  | some i => some (s, .ok i)
  | none =>
    match visitorOrder e with
    | none => none
    | some nodes =>
      match encodeNodes rec nodes { s with nesting := s.nesting + 1 } with
      | none => none
      | some (s, .error err) => some ({ s with nesting := s.nesting - 1 }, .error err)
      | some (s, .ok _) =>
        match assoc s.exprs e with
        | none => none
        | some i => some ({ s with nesting := s.nesting - 1 }, .ok i)

/-- `Encoder::EncodeValue` (encoder.cc:46-68) and `Encoder::EncodeExpr` (encoder.cc:82-105), which call each other through the
value encoders.  `fuel` bounds the depth of the recursion. -/
def encode (plan : V → Plan V A X E) : Nat → Item V A → Enc V A X → Res V A X E Nat
  | 0, _, _ => none
  | fuel + 1, .value v, s =>
    match valueIndex plan (encode plan fuel) v s with
    | none => none
    | some (s, .error e) => some (s, .error e)
    | some (s, .ok i) => some (if s.nesting = 0 then s.add (.outValue i) else s, .ok i)
  | _ + 1, .expr none, s => some (s, .error .null)
  | fuel + 1, .expr (some e), s =>
    match exprIndex (encode plan fuel) e s with
    | none => none
    | some (s, .error err) => some (s, .error err)
    | some (s, .ok i) => some (if s.nesting = 0 then s.add (.outExpr i) else s, .ok i)

/-- A history of calls on one encoder; a failing call does not stop it.  The second component are the results. -/
def encodeAll (plan : V → Plan V A X E) (fuel : Nat) :
    List (Item V A) → Enc V A X → Option (Enc V A X × List (Except (EncErr E) Nat))
  | [], s => some (s, [])
  | x :: xs, s =>
    match encode plan fuel x s with
    | none => none
    | some (s, r) => (encodeAll plan fuel xs s).map (fun p => (p.1, r :: p.2))

/-- `ContainerProtoBuilder::Finish` — container_proto.cc:35-38. -/
def Enc.finish (s : Enc V A X) : Container X := ⟨some 2, [], s.steps, [], []⟩

end

end Verif.Serial
