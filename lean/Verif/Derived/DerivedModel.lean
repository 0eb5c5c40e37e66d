/-!
# Model of derived types

* `arolla/qtype/derived_qtype.cc`,
* `arolla/expr/derived_qtype_cast_operator.cc`, `arolla/expr/operators/derived_qtype_operators.cc`, `HandleDerivedQTypeCast` of
  `arolla/expr/eval/dynamic_compiled_expr.cc`,
* `arolla/derived_qtype/labeled_qtype.cc`.

A type is a number, the address of the `QType`; `info` is what is stored there.  Nullable pointers are `Option`.  Simplification: the locks of
the registries make their methods atomic, so a run is a sequence of calls.
-/

namespace Verif.Derived

/-- The members of a `QType`.  `base` is `none` if the type does not implement `DerivedQTypeInterface`, and otherwise `GetBaseQType()`; `label` is
the label of a `LabeledQType`. -/
structure Info (L : Type) where
  typeInfo : Nat
  size : Nat
  align : Nat
  fields : List (Nat × Nat)
  value : Option Nat
  base : Option (Option Nat)
  label : Option L
  deriving DecidableEq, Repr

variable {L : Type}

/-- `DecayDerivedQType` — qtype/derived_qtype.cc:63-69. -/
def decay (info : Nat → Info L) : Option Nat → Option Nat
  | none => none
  | some t =>
    match (info t).base with
    | some b => b
    | none => some t

/-- The errors of `VerifyDerivedQType`. -/
inductive VerifyError
  | notDerived | noBase | baseDerived | typeInfo | layout | fields | value
  deriving DecidableEq, Repr

/-- The loop over the fields — qtype/derived_qtype.cc:107-116. -/
def fieldsLoop (info : Nat → Info L) : List (Nat × Nat) → List (Nat × Nat) → Bool
  | (o, t) :: ds, (o', t') :: bs => (o == o' && decay info (some t) == decay info (some t')) && fieldsLoop info ds bs
  | _, _ => true

/-- `type_fields_ok` — qtype/derived_qtype.cc:104-116. -/
def fieldsOk (info : Nat → Info L) (d b : Info L) : Bool :=
  (d.fields.isEmpty || d.fields.length == b.fields.length) && fieldsLoop info d.fields b.fields

/-- `type_layout_ok` — qtype/derived_qtype.cc:95-98. -/
def layoutOk (d b : Info L) : Bool := d.size == b.size && d.align == b.align

/-- `value_qtype_ok` — qtype/derived_qtype.cc:126-130. -/
def valueOk (info : Nat → Info L) (d b : Info L) : Bool :=
  d.value.isNone || b.value.isNone || decay info d.value == decay info b.value

/-- `VerifyDerivedQType` — qtype/derived_qtype.cc:71-137.  Line 117 tests `type_layout_ok`, not `type_fields_ok`. -/
def verify (info : Nat → Info L) (t : Nat) : Except VerifyError Unit :=
  match (info t).base with
  | none => .error .notDerived
  | some none => .error .noBase
  | some (some b) =>
    if (info b).base.isSome then .error .baseDerived
    else if (info t).typeInfo ≠ (info b).typeInfo then .error .typeInfo
    else if !layoutOk (info t) (info b) then .error .layout
    else
      let _fields := fieldsOk info (info t) (info b)
      if !layoutOk (info t) (info b) then .error .fields
      else if !valueOk info (info t) (info b) then .error .value
      else .ok ()

/-- The members that `BasicDerivedQType` sets — qtype/derived_qtype.cc:33-44. -/
def basicDerived (info : Nat → Info L) (b : Nat) (value : Option Nat) (label : Option L) : Info L :=
  ⟨(info b).typeInfo, (info b).size, (info b).align, (info b).fields, value, some (some b), label⟩

/-! ## Casts -/

/-- `DerivedQTypeUpcastOperator::GetOutputQType` — expr/derived_qtype_cast_operator.cc:34-43; the outer `none` is the error. -/
def upcastOutput (info : Nat → Info L) (derived value : Nat) : Option (Option Nat) :=
  if value = derived then some (decay info (some derived)) else none

/-- `DerivedQTypeDowncastOperator::GetOutputQType` — expr/derived_qtype_cast_operator.cc:74-83. -/
def downcastOutput (info : Nat → Info L) (derived value : Nat) : Option (Option Nat) :=
  if some value = decay info (some derived) then some (some derived) else none

/-- `InferAttributes` of the operators with a fixed type — expr/derived_qtype_cast_operator.cc:58-68, 98-108; `none` as a type is unknown. -/
def inferFixed (output : Nat → Nat → Option (Option Nat)) (derived : Nat) : Option Nat → Option (Option Nat)
  | none => some none
  | some v => output derived v

/-- Attributes of an argument that is a `QTYPE`: its type and its value. -/
structure Attr where
  ty : Option Nat
  value : Option Nat

/-- `InferAttributes` of `derived_qtype.upcast` and `derived_qtype.downcast` — expr/operators/derived_qtype_operators.cc:55-76, 102-123; `qtype`
is the type `QTYPE`. -/
def inferCast (output : Nat → Nat → Option (Option Nat)) (qtype : Nat) (a : Attr) (value : Option Nat) : Option (Option Nat) :=
  if a.ty.isSome ∧ a.ty ≠ some qtype then none
  else if a.ty.isSome ∧ a.value.isNone then none
  else
    match a.value, value with
    | some d, some v => output d v
    | _, _ => some none

/-- `ToLowerLevel` of both — expr/operators/derived_qtype_operators.cc:78-88, 125-135: the type of the fixed operator, or `none` if the node
stays.  The outer `none` is a missing value that is dereferenced. -/
def lowerCast (a : Attr) : Option Nat → Option (Option Nat)
  | none => some none
  | some _ =>
    match a.value with
    | some d => some (some d)
    | none => none

/-- A value: its type and the memory.  `HandleDerivedQTypeCast` — expr/eval/dynamic_compiled_expr.cc:340-358 — and `DecayDerivedQValue`,
`UnsafeDowncastDerivedQValue` — qtype/derived_qtype.cc:139-162 — keep the memory. -/
def castValue {V : Type} (output : Nat → Nat → Option (Option Nat)) (derived : Nat) (v : Nat × V) : Option (Nat × V) :=
  match output derived v.1 with
  | some (some t) => some (t, v.2)
  | _ => none

/-! ## Labels -/

/-- The types that exist, and the registry of the labelled ones — derived_qtype/labeled_qtype.cc:121-147. -/
structure State (L : Type) where
  info : Nat → Info L
  next : Nat
  reg : List ((Nat × L) × Nat)

/-- `registry_.find` — derived_qtype/labeled_qtype.cc:127. -/
def findReg [DecidableEq L] (key : Nat × L) : List ((Nat × L) × Nat) → Option Nat
  | [] => none
  | (k, t) :: rest => if k = key then some t else findReg key rest

/-- A new type at a fresh address. -/
def State.add (s : State L) (i : Info L) : State L :=
  { s with info := fun t => if t = s.next then i else s.info t, next := s.next + 1 }

/-- `LabeledQTypesRegistry::Get` — derived_qtype/labeled_qtype.cc:123-137, with the constructor of `LabeledQType` (90-98). -/
def registryGet [DecidableEq L] (s : State L) (b : Nat) (l : L) : Nat × State L :=
  match findReg (b, l) s.reg with
  | some t => (t, s)
  | none =>
    let s' := s.add (basicDerived s.info b none (some l))
    (s.next, { s' with reg := ((b, l), s.next) :: s.reg })

/-- `GetLabeledQType` — derived_qtype/labeled_qtype.cc:155-163; `empty` is the empty label.  `none` is a type without base. -/
def getLabeled [DecidableEq L] (empty : L) (s : State L) (t : Nat) (l : L) : Option (Nat × State L) :=
  match decay s.info (some t) with
  | none => none
  | some b => if l = empty then some (b, s) else some (registryGet s b l)

/-- `GetQTypeLabel` — derived_qtype/labeled_qtype.cc:165-170. -/
def getLabel (empty : L) (s : State L) (t : Nat) : L := (s.info t).label.getD empty

/-! ## Representation of labelled values -/

/-- The registry of functions: a record may be missing, and a function may be null — derived_qtype/labeled_qtype.cc:49-77. -/
abbrev ReprReg (L R : Type) := L → Option (Option R)

/-- `Set` — derived_qtype/labeled_qtype.cc:51-62; the Boolean is success. -/
def setRepr {R : Type} [DecidableEq L] (reg : ReprReg L R) (l : L) (fn : Option R) (override : Bool) : Bool × ReprReg L R :=
  match reg l with
  | some (some _) =>
    if override then (true, fun k => if k = l then some fn else reg k) else (false, reg)
  | _ => (true, fun k => if k = l then some fn else reg k)

/-- `LabeledQType::UnsafeReprToken` — derived_qtype/labeled_qtype.cc:102-113: `fallback` is the representation as `name{base}`. -/
def reprToken {R S : Type} (reg : ReprReg L R) (run : R → Option S) (l : L) (fallback : S) : S :=
  match reg l with
  | some (some fn) =>
    match run fn with
    | some r => r
    | none => fallback
  | _ => fallback

end Verif.Derived
