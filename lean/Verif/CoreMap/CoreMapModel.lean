import Verif.Slots.SlotModel

/-!
# Model of `core.map`

* the inference — `arolla/expr/operators/map_operator.cc`,
* the preparation — `arolla/expr/eval/extensions/prepare_core_map_operator.cc`,
* the compilation and the evaluation — `arolla/expr/eval/extensions/compile_core_map_operator.cc`, with the loop of `FrameIterator`
  (`arolla/qtype/array_like/frame_iter.h`).

The mapper is a compiled expression bound by `BindToExecutableBuilder`; its program is the one of `Verif.Slots` (C43).

Simplifications: types are scalars, optionals and arrays of numbered element types, and others.  An array is the list of its elements as
values of the optional type; the copying between arrays and frames is the subject of C72 and here just reads and writes elements.  The branch
for mappers with arguments that are not optional (compile_core_map_operator.cc:120-141, 218-237) is not modelled; `compileLoop` yields `none`
for it.  The frame of a row whose evaluation failed is left as it was before the evaluation; it is not read afterwards.
-/

namespace Verif.CoreMap

open Verif.Slots

/-- A `QType`. -/
inductive Ty
  | scalar (n : Nat)
  | optional (n : Nat)
  | array (shape : Nat) (n : Nat)
  | op
  | other (n : Nat)
  deriving DecidableEq, Repr

/-- `IsArrayLikeQType` — qtype/array_like/array_like_qtype.h. -/
def Ty.isArray : Ty → Bool
  | .array _ _ => true
  | _ => false

/-- `IsOptionalQType` — qtype/optional_qtype.cc. -/
def Ty.isOptional : Ty → Bool
  | .optional _ => true
  | _ => false

/-- `IsArrayLikeQType(q) ? ToOptionalQType(q->value_qtype()) : q` — map_operator.cc:121-127, prepare_core_map_operator.cc:163-166.  Elements of
arrays have optional types. -/
def elementTy : Ty → Ty
  | .array _ n => .optional n
  | q => q

/-- `ArrayLikeShapeQType::WithValueQType` — dense_array/qtype/types.cc:110-125; `arr n` says that there are arrays of elements `n`. -/
def withValueTy (arr : Nat → Bool) (shape : Nat) : Ty → Option Ty
  | .scalar n => if arr n then some (.array shape n) else none
  | .optional n => if arr n then some (.array shape n) else none
  | _ => none

/-- `ExprAttributes`. -/
structure Attr (V : Type) where
  ty : Option Ty
  value : Option V

/-- `DeduceResultingArrayShape` — map_operator.cc:51-76; the types are known. -/
def deduceShapeLoop : List Ty → Option Nat → Option (Option Nat)
  | [], found => some found
  | .array s _ :: rest, none => deduceShapeLoop rest (some s)
  | .array s _ :: rest, some f => if s ≠ f then none else deduceShapeLoop rest (some f)
  | _ :: rest, found => deduceShapeLoop rest found

def deduceShape (tys : List Ty) : Option Nat :=
  match deduceShapeLoop tys none with
  | none => none
  | some found => found

/-- The attributes passed to the inference of the mapper — map_operator.cc:116-128. -/
def mapperAttrs {V : Type} : List (Ty × Option V) → List (Attr V)
  | [] => []
  | (q, v) :: rest => (if q.isArray then ⟨some (elementTy q), none⟩ else ⟨some q, v⟩) :: mapperAttrs rest

/-- All types, or `none` if one of them is missing — `HasAllAttrQTypes`. -/
def allTypes {V : Type} : List (Attr V) → Option (List (Ty × Option V))
  | [] => some []
  | a :: rest =>
    match a.ty, allTypes rest with
    | some q, some qs => some ((q, a.value) :: qs)
    | _, _ => none

/-- `MapOperator::InferAttributes` — map_operator.cc:98-138.  The outer `none` is an error; `ofOp` reads an operator from a value, `infer` is the
inference of an operator (`none` is an error). -/
def inferMap {V O : Type} (arr : Nat → Bool) (ofOp : V → O) (infer : O → List (Attr V) → Option (Option Ty)) (inputs : List (Attr V)) :
    Option (Option Ty) :=
  if inputs.length < 2 then none
  else
    match allTypes inputs with
    | none => some none
    | some [] => none
    | some ((q0, v0) :: rest) =>
      if q0 ≠ .op then none
      else
        match v0 with
        | none => none
        | some v =>
          match deduceShape (rest.map Prod.fst) with
          | none => none
          | some shape =>
            match infer (ofOp v) (mapperAttrs rest) with
            | none => none
            | some none => some none
            | some (some out) =>
              match withValueTy arr shape out with
              | none => none
              | some r => some (some r)

/-! ## Preparation -/

/-- A data dependency of the node: its type and its literal value. -/
structure Dep (V : Type) where
  ty : Ty
  value : Option V

/-- `can_be_embedded` — prepare_core_map_operator.cc:58-60. -/
def Dep.canBeEmbedded {V : Type} (d : Dep V) : Bool := d.value.isSome && !d.ty.isArray

/-- An argument of the wrapped operator: a literal or `param_i`. -/
inductive Wrapped (V : Type)
  | literal (v : V)
  | param (i : Nat)
  deriving DecidableEq, Repr

/-- The loop over the dependencies — prepare_core_map_operator.cc:75-86: the arguments of the operator, the number of parameters so far, the
remaining dependencies. -/
def moveLoop {V : Type} : List (Dep V) → List (Wrapped V) → List (Dep V) → List (Wrapped V) × List (Dep V)
  | [], args, deps => (args, deps)
  | d :: rest, args, deps =>
    match d.canBeEmbedded, d.value with
    | true, some v => moveLoop rest (args ++ [.literal v]) deps
    | _, _ => moveLoop rest (args ++ [.param deps.length]) (deps ++ [d])

/-- `MoveNonArrayLiteralArgumentsIntoOp` — prepare_core_map_operator.cc:52-98: nothing is wrapped if no argument can be embedded (61-65). -/
def moveLiterals {V : Type} (deps : List (Dep V)) : List (Wrapped V) × List (Dep V) :=
  if deps.countP Dep.canBeEmbedded = 0 then ((List.range deps.length).map .param, deps) else moveLoop deps [] []

/-- The value of an argument of the wrapped operator given the values of the parameters; `none` is an unbound parameter. -/
def Wrapped.eval {V : Type} (ps : List V) : Wrapped V → Option V
  | .literal v => some v
  | .param i => ps[i]?

/-- `mapper_input_qtypes` — prepare_core_map_operator.cc:156-171. -/
def mapperTypes {V : Type} (deps : List (Dep V)) : List Ty := deps.map fun d => elementTy d.ty

/-! ## Compilation -/

/-- The local variables of `CompilePackedCoreMapOperator` — compile_core_map_operator.cc:199-207. -/
structure Slots where
  layout : List Ty
  optionalScalar : List Nat
  mapper : List Nat
  broadcast : List Nat

/-- The loop over the arguments — compile_core_map_operator.cc:208-238: types of the arguments of the mapper, types of the input slots. -/
def compileLoop : List Ty → List Ty → Nat → Slots → Option Slots
  | [], _, _, s => some s
  | _ :: _, [], _, _ => none
  | t :: ts, q :: qs, i, s =>
    if t = q then
      compileLoop ts qs (i + 1)
        { s with broadcast := s.broadcast ++ [i], layout := s.layout ++ [t], mapper := s.mapper ++ [s.layout.length] }
    else if t.isOptional then
      compileLoop ts qs (i + 1)
        { s with layout := s.layout ++ [t], optionalScalar := s.optionalScalar ++ [s.layout.length], mapper := s.mapper ++ [s.layout.length] }
    else none

/-- The slots and the slot of the output — compile_core_map_operator.cc:191-248. -/
def compileSlots (mapperTys inputTys : List Ty) (out : Ty) : Option (Slots × Nat) :=
  if mapperTys.length ≠ inputTys.length then none
  else
    match compileLoop mapperTys inputTys 0 ⟨[], [], [], []⟩ with
    | none => none
    | some s => some ({ s with layout := s.layout ++ [out] }, s.layout.length)

/-- The arguments of `BindToExecutableBuilder` for the mapper — compile_core_map_operator.cc:250-258 with
dynamic_compiled_operator.cc:93-108; leaf `_i` is the key `i`.  `allowOverride` is the option of the model: the options of the mapper are a
copy (prepare_core_map_operator.cc:173-178). -/
def mapperConfig (s : Slots) (out : Nat) (allowOverride : Bool) : Config Nat :=
  ⟨fun k => s.mapper[k]?, out, 0, 0, allowOverride⟩

/-! ## Evaluation -/

variable {V E : Type}

/-- An argument in the frame of the caller. -/
inductive Arg (V : Type)
  | array (rows : List V)
  | scalar (v : V)
  deriving DecidableEq, Repr

/-- The errors of `MapBoundOperator::Run`. -/
inductive MapError (E : Type)
  | notArray
  | noArrays
  | sizes
  | op (e : E)
  deriving DecidableEq, Repr

/-- `input_arrays` — compile_core_map_operator.cc:77-87: all arguments whose index is not the next one to broadcast. -/
def inputArrays : List (Arg V) → Nat → List Nat → List (Arg V)
  | [], _, _ => []
  | a :: rest, i, [] => a :: inputArrays rest (i + 1) []
  | a :: rest, i, b :: bs => if b = i then inputArrays rest (i + 1) bs else a :: inputArrays rest (i + 1) (b :: bs)

/-- The rows of the arrays; not an array: no copier. -/
def rowsOf : List (Arg V) → Option (List (List V))
  | [] => some []
  | .array r :: rest => (rowsOf rest).map (r :: ·)
  | .scalar _ :: _ => none

/-- The number of rows — frame_iter.cc:120-135. -/
def rowCount : List (List V) → Except (MapError E) Nat
  | [] => .error .noArrays
  | r :: rest => if rest.all (fun x => decide (x.length = r.length)) then .ok r.length else .error .sizes

/-- The scalar arguments are copied to a frame — compile_core_map_operator.cc:102-107; `none` is an index out of range. -/
def copyScalars (args : List (Arg V)) (mapper : List Nat) : List Nat → Frame V → Option (Frame V)
  | [], f => some f
  | id :: rest, f =>
    match args[id]?, mapper[id]? with
    | some (.scalar v), some slot => copyScalars args mapper rest (setAt f slot v)
    | _, _ => none

/-- The elements of one row are copied to a frame — frame_iter.cc:184-188. -/
def loadRow (row : Nat) : List (List V) → List Nat → Frame V → Option (Frame V)
  | [], [], f => some f
  | a :: as, s :: ss, f =>
    match a[row]? with
    | some v => loadRow row as ss (setAt f s v)
    | none => none
  | _, _, _ => none

/-- `PreloadFrames` — frame_iter.cc:184-188, for the rows from `row` on. -/
def loadFrames (arrays : List (List V)) (slots : List Nat) : Nat → List (Frame V) → Option (List (Frame V))
  | _, [] => some []
  | row, f :: fs =>
    match loadRow row arrays slots f, loadFrames arrays slots (row + 1) fs with
    | some f, some fs => some (f :: fs)
    | _, _ => none

/-- The calls of the function passed to `ForEachFrame` — compile_core_map_operator.cc:115-119; the status is that of the context. -/
def execFrames (exec : Frame V → Except E (Frame V)) : Option E → List (Frame V) → List (Frame V) × Option E
  | st, [] => ([], st)
  | some e, f :: fs =>
    let r := execFrames exec (some e) fs
    (f :: r.1, r.2)
  | none, f :: fs =>
    match exec f with
    | .error e =>
      let r := execFrames exec (some e) fs
      (f :: r.1, r.2)
    | .ok f' =>
      let r := execFrames exec none fs
      (f' :: r.1, r.2)

/-- `FrameIterator::ForEachFrame` — frame_iter.h:100-110.  The result: the saved outputs and the status. -/
def forEachFrame (exec : Frame V → Except E (Frame V)) (arrays : List (List V)) (slots : List Nat) (out rows : Nat) :
    Nat → Nat → List (Frame V) → Option E → List V → Option (List V × Option E)
  | 0, offset, _, st, acc => if offset < rows then none else some (acc, st)
  | fuel + 1, offset, frames, st, acc =>
    if offset < rows then
      let count := min frames.length (rows - offset)
      match loadFrames arrays slots offset (frames.take count) with
      | none => none
      | some fs =>
        let r := execFrames exec st fs
        forEachFrame exec arrays slots out rows fuel (offset + frames.length) (r.1 ++ frames.drop count) r.2 (acc ++ r.1.map (· out))
    else some (acc, st)

/-- `frame_buffer_count` — frame_iter.h:68. -/
def frameBufferCount : Nat := 64

/-- `MapBoundOperator::Run` — compile_core_map_operator.cc:75-145.  `init` is the initial contents of a frame, `lits` the literals of the
mapper, `exec` its program.  `none` is undefined behaviour. -/
def runMap (exec : Frame V → Except E (Frame V)) (lits : List (Nat × V)) (init : Frame V) (s : Slots) (out : Nat) (args : List (Arg V)) :
    Option (Except (MapError E) (List V)) :=
  match rowsOf (inputArrays args 0 s.broadcast) with
  | none => some (.error .notArray)
  | some arrays =>
    match rowCount arrays with
    | .error e => some (.error e)
    | .ok rows =>
      match copyScalars args s.mapper s.broadcast (initLiterals lits init) with
      | none => none
      | some f =>
        match forEachFrame exec arrays s.optionalScalar out rows rows 0 (List.replicate (min rows frameBufferCount) f) none [] with
        | none => none
        | some (_, some e) => some (.error (.op e))
        | some (outs, none) => some (.ok outs)

end Verif.CoreMap
