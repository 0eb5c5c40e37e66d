/-!
# Model of the tuple operators

`arolla/expr/operators/tuple_bootstrap_operators.cc`, `arolla/expr/tuple_expr_operator.cc`, `MakeNamedTupleQType` and the index of the field
names of `arolla/qtype/tuple_qtype.cc`, `arolla/expr/derived_qtype_cast_operator.cc`:74-108.

A `StatusOr` is an `Option` without the error.  An expression is what is inferred for it (`attr`) and its value, a function of the inputs
(`E`) that returns nothing if the evaluation fails.  `ToLowerLevel` returns an error (`none`), the node itself (`some none`: not ready) or
another expression (`some (some n)`).  `core.get_nth` with a literal index is `GetNthOperator`, to which it is lowered.  Sizes fit into 64
bits.  The counts of inputs of operators with a fixed number of them are not modelled.
-/

namespace Verif.Tuple

/-! ## Types and values -/

/-- `QType`: tuples, named tuples, and other types, which may have fields. -/
inductive Ty
  | tuple (fields : List Ty)
  | named (names : List String) (fields : List Ty)
  | other (n : Nat) (fields : List Ty)

mutual

/-- Types are singletons that are compared as pointers. -/
def Ty.decEq : (a b : Ty) → Decidable (a = b)
  | .tuple x, .tuple y =>
    match decEqs x y with
    | isTrue h => isTrue (by rw [h])
    | isFalse h => isFalse fun e => h (by injection e)
  | .named n x, .named m y =>
    if hn : n = m then
      match decEqs x y with
      | isTrue h => isTrue (by rw [hn, h])
      | isFalse h => isFalse fun e => h (by injection e)
    else isFalse fun e => hn (by injection e)
  | .other n x, .other m y =>
    if hn : n = m then
      match decEqs x y with
      | isTrue h => isTrue (by rw [hn, h])
      | isFalse h => isFalse fun e => h (by injection e)
    else isFalse fun e => hn (by injection e)
  | .tuple _, .named _ _ | .tuple _, .other _ _ | .named _ _, .tuple _ | .named _ _, .other _ _ | .other _ _, .tuple _
  | .other _ _, .named _ _ => isFalse nofun

/-- Equality of lists of types. -/
def decEqs : (a b : List Ty) → Decidable (a = b)
  | [], [] => isTrue rfl
  | [], _ :: _ | _ :: _, [] => isFalse nofun
  | x :: a, y :: b =>
    match Ty.decEq x y with
    | isFalse h => isFalse fun e => h (by injection e)
    | isTrue h =>
      match decEqs a b with
      | isTrue h' => isTrue (by rw [h, h'])
      | isFalse h' => isFalse fun e => h' (by injection e)

end

instance : DecidableEq Ty := Ty.decEq

/-- `QType::type_fields`. -/
def Ty.fields : Ty → List Ty
  | .tuple fs => fs
  | .named _ fs => fs
  | .other _ fs => fs

/-- `IsTupleQType` — tuple_qtype.cc:328-330. -/
def Ty.isTuple : Ty → Bool
  | .tuple _ => true
  | _ => false

/-- `IsNamedTupleQType` — tuple_qtype.cc:368-370. -/
def Ty.isNamed : Ty → Bool
  | .named _ _ => true
  | _ => false

/-- `GetFieldNames` — qtype/named_field_qtype.cc:31-38. -/
def Ty.names : Ty → List String
  | .named ns _ => ns
  | _ => []

/-- `TypedValue`. -/
inductive Val
  | tuple (fields : List Val)
  | named (names : List String) (fields : List Val)
  | other (n : Nat) (x : Nat) (fields : List Val)

/-- `TypedValue::GetField` for all fields. -/
def Val.fields : Val → List Val
  | .tuple vs => vs
  | .named _ vs => vs
  | .other _ _ vs => vs

mutual

/-- `TypedValue::GetType`. -/
def Val.ty : Val → Ty
  | .tuple vs => .tuple (tys vs)
  | .named ns vs => .named ns (tys vs)
  | .other n _ vs => .other n (tys vs)

/-- The types of the fields. -/
def tys : List Val → List Ty
  | [] => []
  | v :: vs => v.ty :: tys vs

end

/-! ## Expressions -/

/-- `ExprAttributes` — expr/expr_attributes.h:42-123. -/
structure Attr where
  qtype : Option Ty
  qvalue : Option Val

/-- `ExprAttributes{}`. -/
def Attr.empty : Attr := ⟨none, none⟩

/-- `ExprAttributes(qtype)`. -/
def Attr.ofType (t : Ty) : Attr := ⟨some t, none⟩

/-- `ExprAttributes(qvalue)`. -/
def Attr.ofValue (v : Val) : Attr := ⟨some v.ty, some v⟩

/-- `HasAllAttrQTypes` — expr/qtype_utils.cc:198-205. -/
def hasAllQTypes (attrs : List Attr) : Bool := attrs.all fun a => a.qtype.isSome

/-- `GetAttrQTypes`, if all are known. -/
def qtypes (attrs : List Attr) : List Ty := attrs.filterMap fun a => a.qtype

/-- `ExprOperator`: `InferAttributes` and the evaluation. -/
structure Op where
  infer : List Attr → Option Attr
  eval : List Val → Option Val

/-- `ExprNode`. -/
structure Node (E : Type) where
  attr : Attr
  run : E → Option Val

variable {E : Type}

/-- The values of a list of results, if none failed. -/
def collect {α : Type} : List (Option α) → Option (List α)
  | [] => some []
  | none :: _ => none
  | some a :: l =>
    match collect l with
    | none => none
    | some r => some (a :: r)

/-- `MakeOpNode` — expr/expr.cc:97-108: the attributes are inferred; the value is that of the operator for the values of the arguments. -/
def makeOpNode (op : Op) (args : List (Node E)) : Option (Node E) :=
  match op.infer (args.map (·.attr)) with
  | none => none
  | some attr =>
    some ⟨attr, fun e =>
      match collect (args.map fun n => n.run e) with
      | none => none
      | some vs => op.eval vs⟩

/-- `GetNthOperator::StaticInferAttributes` — tuple_expr_operator.cc:105-124. -/
def getNthInfer (index : Int) (input : Attr) : Option Attr :=
  match input.qtype with
  | none => some .empty
  | some t =>
    if t.fields.isEmpty && !t.isTuple then none
    else if index < 0 ∨ index.toNat ≥ t.fields.length then none
    else
      match input.qvalue with
      | none => t.fields[index.toNat]?.map .ofType
      | some v => v.fields[index.toNat]?.map .ofValue

/-- `GetNthOperator` — tuple_expr_operator.cc:69-76, 95-130; the evaluation takes the slot of the field, eval/dynamic_compiled_expr.cc:
319-338. -/
def getNth (index : Int) : Op where
  infer
    | [a] => getNthInfer index a
    | _ => none
  eval
    | [v] => if index < 0 then none else v.fields[index.toNat]?
    | _ => none

/-- `MakeTupleOperator` — tuple_expr_operator.cc:55-67. -/
def makeTuple : Op where
  infer attrs := some (if hasAllQTypes attrs then .ofType (.tuple (qtypes attrs)) else .empty)
  eval vs := some (.tuple vs)

/-- `DerivedQTypeDowncastOperator` to a named tuple type — derived_qtype_cast_operator.cc:74-108. -/
def downcast (names : List String) (fields : List Ty) : Op where
  infer
    | [a] =>
      match a.qtype with
      | none => some .empty
      | some t => if t = .tuple fields then some (.ofType (.named names fields)) else none
    | _ => none
  eval
    | [.tuple vs] => some (.named names vs)
    | _ => none

/-- The nodes `get_nth(tuple, 0)`, `get_nth(tuple, 1)`, … of `n` fields starting at `offset`. -/
def fieldNodes (tuple : Node E) (offset n : Nat) : Option (List (Node E)) :=
  collect ((List.range n).map fun i => makeOpNode (getNth ((offset + i : Nat) : Int)) [tuple])

/-! ## Literal arguments -/

/-- What is known about an integer argument: nothing; that it is not literal, not an integer, or missing; its value. -/
inductive IntArg
  | unknown | notLiteral | notInteger | missing | literal (n : Int)

/-- `UnwrapLiteralInteger` — tuple_bootstrap_operators.cc:78-107. -/
def unwrapInt : IntArg → Option Int
  | .literal n => some n
  | _ => none

/-- What is known about an operator argument: nothing; that it is not an operator or not literal; the operator, and whether it can be
called with two arguments. -/
inductive OpArg
  | unknown | notOperator | notLiteral | literal (op : Op) (binary : Bool)

/-! ## core.get_nth -/

/-- `CoreGetNthOp::InferAttributes` — tuple_bootstrap_operators.cc:244-258. -/
def coreGetNthInfer (value : Attr) : IntArg → Option Attr
  | .unknown => some .empty
  | arg =>
    match unwrapInt arg with
    | none => none
    | some n => if n < 0 then none else getNthInfer n value

/-- `CoreGetNthOp::ToLowerLevel` — tuple_bootstrap_operators.cc:260-270. -/
def coreGetNthLower (value : Node E) : IntArg → Option (Option (Node E))
  | .unknown | .notLiteral => some none
  | arg =>
    match unwrapInt arg with
    | none => none
    | some n => (makeOpNode (getNth n) [value]).map some

/-! ## core.apply_varargs -/

/-- `CoreApplyVarargsOperator::InferAttributes` — tuple_bootstrap_operators.cc:135-167; `rest` are the inputs but the operator. -/
def applyVarargsInfer (op : OpArg) (rest : List Attr) : Option Attr :=
  match rest.getLast? with
  | none => none
  | some tuple =>
    match op with
    | .notOperator => none
    | _ =>
      if tuple.qtype.any fun t => !t.isTuple then none
      else
        match op with
        | .literal op _ =>
          if !hasAllQTypes rest then some .empty
          else
            match tuple.qtype with
            | none => some .empty
            | some t => op.infer (rest.dropLast ++ t.fields.map .ofType)
        | .unknown => some .empty
        | _ => none

/-- `CoreApplyVarargsOperator::ToLowerLevel` — tuple_bootstrap_operators.cc:169-200; `attr` are the attributes of the node. -/
def applyVarargsLower (attr : Attr) (op : OpArg) (rest : List (Node E)) : Option (Option (Node E)) :=
  match rest.getLast? with
  | none => none
  | some tuple =>
    match attr.qtype, op, tuple.attr.qtype with
    | some _, .literal op _, some t =>
      match fieldNodes tuple 0 t.fields.length with
      | none => none
      | some fs => (makeOpNode op (rest.dropLast ++ fs)).map some
    | _, _, _ => some none

/-! ## core.zip -/

/-- `CheckHasSubfieldsOrIsTuple` — tuple_bootstrap_operators.cc:217-224. -/
def hasSubfieldsOrIsTuple (t : Ty) : Bool := !t.fields.isEmpty || t.isTuple

/-- `CoreZipOp::GetOutputQType` with `UnwrapFieldQType` — tuple_bootstrap_operators.cc:203-215, 327-363. -/
def zipOutputQType : List Ty → Option Ty
  | [] => some (.tuple [])
  | t :: ts =>
    let innerSize := t.fields.length
    if (t :: ts).all hasSubfieldsOrIsTuple then
      if ts.all fun u => u.fields.length = innerSize then
        match collect ((List.range innerSize).map fun (j : Nat) =>
            (collect ((t :: ts).map fun u => u.fields[j]?)).map .tuple) with
        | none => none
        | some fs => some (.tuple fs)
      else none
    else none

/-- `BasicExprOperator::InferAttributes` — expr/basic_expr_operator.cc:75-90. -/
def basicInfer (output : List Ty → Option Ty) (attrs : List Attr) : Option Attr :=
  if !hasAllQTypes attrs then some .empty else (output (qtypes attrs)).map .ofType

/-- The loop that compares the sizes — tuple_bootstrap_operators.cc:226-233, 295-309. -/
def zipCheck (innerSize : Nat) : List (Node E) → Option Bool
  | [] => some true
  | n :: ns =>
    match n.attr.qtype with
    | none => some false
    | some t => if !hasSubfieldsOrIsTuple t then none else if t.fields.length ≠ innerSize then none else zipCheck innerSize ns

/-- The tuple of the `j`-th fields — tuple_bootstrap_operators.cc:315-322. -/
def zipInner (deps : List (Node E)) (j : Nat) : Option (Node E) :=
  match collect (deps.map fun m => makeOpNode (getNth (j : Int)) [m]) with
  | none => none
  | some inner => makeOpNode makeTuple inner

/-- `CoreZipOp::ToLowerLevel` — tuple_bootstrap_operators.cc:284-325. -/
def zipLower (deps : List (Node E)) : Option (Option (Node E)) :=
  match deps with
  | [] => some (some ⟨.ofValue (.tuple []), fun _ => some (.tuple [])⟩)
  | n :: ns =>
    match n.attr.qtype with
    | none => some none
    | some t =>
      if !hasSubfieldsOrIsTuple t then none
      else
        match zipCheck t.fields.length ns with
        | none => none
        | some false => some none
        | some true =>
          match collect ((List.range t.fields.length).map (zipInner (n :: ns))) with
          | none => none
          | some fs => (makeOpNode makeTuple fs).map some

/-! ## core.reduce_tuple -/

/-- `CoreReduceTupleOperator::CheckArgs` — tuple_bootstrap_operators.cc:388-419. -/
def reduceCheck (op : OpArg) (tuple : Attr) : Bool :=
  (match op with
    | .unknown => true
    | .literal _ binary => binary
    | _ => false) &&
  match tuple.qtype with
  | none => true
  | some t => !t.fields.isEmpty

/-- The loop over the types of the fields — tuple_bootstrap_operators.cc:436-441. -/
def reduceInferLoop (op : Op) (result : Attr) : List Ty → Option Attr
  | [] => some result
  | t :: ts =>
    match op.infer [result, .ofType t] with
    | none => none
    | some result => reduceInferLoop op result ts

/-- `CoreReduceTupleOperator::InferAttributes` — tuple_bootstrap_operators.cc:421-443. -/
def reduceInfer (op : OpArg) (tuple : Attr) : Option Attr :=
  if !reduceCheck op tuple then none
  else
    match op, tuple.qtype with
    | .literal op _, some t =>
      match t.fields with
      | [] => none
      | f :: fs => reduceInferLoop op (.ofType f) fs
    | _, _ => some .empty

/-- The loop over the nodes of the fields — tuple_bootstrap_operators.cc:465-467. -/
def reduceLowerLoop (op : Op) (result : Node E) : List (Node E) → Option (Node E)
  | [] => some result
  | n :: ns =>
    match makeOpNode op [result, n] with
    | none => none
    | some result => reduceLowerLoop op result ns

/-- `CoreReduceTupleOperator::ToLowerLevel` — tuple_bootstrap_operators.cc:445-469. -/
def reduceLower (attr : Attr) (op : OpArg) (tuple : Node E) : Option (Option (Node E)) :=
  match attr.qtype, op, tuple.attr.qtype with
  | some _, .literal op _, some t =>
    match fieldNodes tuple 0 t.fields.length with
    | none => none
    | some [] => none
    | some (n :: ns) => (reduceLowerLoop op n ns).map some
  | _, _, _ => some none

/-! ## core.concat_tuples -/

/-- `CoreConcatTuplesOperator::GetOutputQType` — tuple_bootstrap_operators.cc:482-498. -/
def concatOutputQType : List Ty → Option Ty
  | [] => some (.tuple [])
  | t :: ts =>
    if !t.isTuple then none
    else
      match concatOutputQType ts with
      | some (.tuple fs) => some (.tuple (t.fields ++ fs))
      | _ => none

/-- The arguments that `CoreConcatTuplesOperator::ToLowerLevel` collects, tuple_bootstrap_operators.cc:503-512; `some none`: the type of a
tuple is not known. -/
def concatArgs : List (Node E) → Option (Option (List (Node E)))
  | [] => some (some [])
  | n :: ns =>
    match n.attr.qtype with
    | none => some none
    | some t =>
      match fieldNodes n 0 t.fields.length with
      | none => none
      | some fs =>
        match concatArgs ns with
        | some (some gs) => some (some (fs ++ gs))
        | r => r

/-- `CoreConcatTuplesOperator::ToLowerLevel` — tuple_bootstrap_operators.cc:500-514. -/
def concatLower (deps : List (Node E)) : Option (Option (Node E)) :=
  match concatArgs deps with
  | none => none
  | some none => some none
  | some (some args) => (makeOpNode makeTuple args).map some

/-! ## core.slice_tuple -/

/-- A literal integer argument; the default if nothing is known about it — tuple_bootstrap_operators.cc:551-560. -/
def intOr (default : Int) : IntArg → Option Int
  | .unknown => some default
  | arg => unwrapInt arg

/-- Whether the type of the argument is known. -/
def IntArg.known : IntArg → Bool
  | .unknown => false
  | _ => true

/-- `CoreSliceTupleOperator::InferAttributes` — tuple_bootstrap_operators.cc:548-586. -/
def sliceInfer (tuple : Attr) (offset size : IntArg) : Option Attr :=
  match intOr 0 offset, intOr (-1) size with
  | some o, some s =>
    match tuple.qtype with
    | none => some .empty
    | some t =>
      if !(offset.known && size.known) then some .empty
      else if !t.isTuple && !t.isNamed then none
      else
        let tupleSize : Int := t.fields.length
        if o < 0 ∨ o > tupleSize ∨ s < -1 ∨ s > tupleSize - o then none
        else
          let s := if s = -1 then tupleSize - o else s
          match collect ((List.range s.toNat).map fun (i : Nat) => t.fields[o.toNat + i]?) with
          | none => none
          | some fs => some (.ofType (.tuple fs))
  | _, _ => none

/-- `CoreSliceTupleOperator::ToLowerLevel` — tuple_bootstrap_operators.cc:588-611. -/
def sliceLower (attr : Attr) (tuple : Node E) (offset size : IntArg) : Option (Option (Node E)) :=
  match attr.qtype, tuple.attr.qtype with
  | some _, some t =>
    match unwrapInt offset, unwrapInt size with
    | some o, some s =>
      let s := if s = -1 then (t.fields.length : Int) - o else s
      match fieldNodes tuple o.toNat s.toNat with
      | none => none
      | some fs => (makeOpNode makeTuple fs).map some
    | _, _ => none
  | _, _ => some none

/-! ## core.map_tuple -/

/-- The loop over the types of the fields — tuple_bootstrap_operators.cc:672-684. -/
def mapInferLoop (op : Op) (extra : List Attr) : List Ty → Option (List Ty)
  | [] => some []
  | t :: ts =>
    match op.infer (.ofType t :: extra) with
    | none => none
    | some a =>
      match a.qtype with
      | none => none
      | some u =>
        match mapInferLoop op extra ts with
        | none => none
        | some us => some (u :: us)

/-- `CoreMapTupleOperator::InferAttributes` — tuple_bootstrap_operators.cc:643-686. -/
def mapInfer (op : OpArg) (tuple : Attr) (extra : List Attr) : Option Attr :=
  match op with
  | .notOperator | .notLiteral => none
  | _ =>
    if tuple.qtype.any fun t => !t.isTuple then none
    else
      match op, tuple.qtype with
      | .literal op _, some t =>
        if !hasAllQTypes extra then some .empty else (mapInferLoop op extra t.fields).map fun us => .ofType (.tuple us)
      | _, _ => some .empty

/-- `CoreMapTupleOperator::ToLowerLevel` — tuple_bootstrap_operators.cc:688-716. -/
def mapLower (attr : Attr) (op : OpArg) (tuple : Node E) (extra : List (Node E)) : Option (Option (Node E)) :=
  match attr.qtype, op, tuple.attr.qtype with
  | some _, .literal op _, some t =>
    match fieldNodes tuple 0 t.fields.length with
    | none => none
    | some fs =>
      match collect (fs.map fun f => makeOpNode op (f :: extra)) with
      | none => none
      | some ds => (makeOpNode makeTuple ds).map some
  | _, _, _ => some none

/-! ## Named tuples -/

/-- `MakeNamedTupleQType` — tuple_qtype.cc:372-393. -/
def makeNamedTupleQType (names : List String) (t : Ty) : Option Ty :=
  match t with
  | .tuple fs => if names.length ≠ fs.length then none else if names.Nodup then some (.named names fs) else none
  | _ => none

/-- `GetFieldIndexByName` — named_field_qtype.cc:40-48, tuple_qtype.cc:262-281: the index of the first field of this name. -/
def Ty.fieldIndex (t : Ty) (name : String) : Option Nat := t.names.findIdx? (· = name)

/-- What is known about an argument that is a name or a list of names: nothing; that it is not literal or of another type; its value. -/
inductive NameArg (A : Type)
  | unknown | notLiteral | otherType | literal (a : A)

/-- `MakeNamedTupleOperator::InferAttributes` — tuple_bootstrap_operators.cc:805-824. -/
def namedMakeInfer (names : NameArg (List String)) (tuple : Attr) : Option Attr :=
  match names with
  | .unknown => some .empty
  | .literal names =>
    match tuple.qtype with
    | none => some .empty
    | some t => (makeNamedTupleQType names t).map .ofType
  | _ => none

/-- `DerivedQTypeDowncastOperator` to the type of the node. -/
def downcastTo (t : Ty) (n : Node E) : Option (Option (Node E)) :=
  match t with
  | .named names fs => (makeOpNode (downcast names fs) [n]).map some
  | _ => none

/-- `MakeNamedTupleOperator::ToLowerLevel` — tuple_bootstrap_operators.cc:787-803. -/
def namedMakeLower (attr : Attr) (tuple : Node E) : Option (Option (Node E)) :=
  match attr.qtype with
  | none => some none
  | some t => downcastTo t tuple

/-- `GetNamedTupleFieldOperator::InferAttributes` — tuple_bootstrap_operators.cc:837-857, named_field_qtype.cc:61-68. -/
def getFieldInfer (value : Attr) (name : NameArg String) : Option Attr :=
  match value.qtype, name with
  | none, _ => some .empty
  | _, .unknown => some .empty
  | some t, .literal name =>
    match t.fieldIndex name with
    | none => none
    | some i => t.fields[i]?.map .ofType
  | _, _ => none

/-- `GetNamedTupleFieldOperator::ToLowerLevel` — tuple_bootstrap_operators.cc:859-894. -/
def getFieldLower (attr : Attr) (value : Node E) (name : NameArg String) : Option (Option (Node E)) :=
  match attr.qtype, value.attr.qtype, name with
  | none, _, _ => some none
  | _, none, _ => some none
  | _, _, .unknown => some none
  | some _, some t, .literal name =>
    match t.fieldIndex name with
    | none => none
    | some i => (makeOpNode (getNth (i : Int)) [value]).map some
  | _, _, _ => none

/-- `UnionNamedTupleFieldDescriptor` — tuple_bootstrap_operators.cc:897-901. -/
structure Descriptor where
  name : String
  comesFrom : Nat
  index : Nat
  deriving DecidableEq

/-- `flat_hash_map::find`. -/
def lookupName (name : String) : List (String × Nat) → Option Nat
  | [] => none
  | (k, i) :: m => if k = name then some i else lookupName name m

/-- `add_field` — tuple_bootstrap_operators.cc:918-926; the state is `fields` and `field_name_to_index`. -/
def addField (st : List Descriptor × List (String × Nat)) (d : Descriptor) : List Descriptor × List (String × Nat) :=
  match lookupName d.name st.2 with
  | none => (st.1 ++ [d], (d.name, st.1.length) :: st.2)
  | some i => (st.1.set i d, st.2)

/-- The descriptors of the fields of one of the two named tuples. -/
def descriptors (comesFrom : Nat) (names : List String) : List Descriptor := names.zipIdx.map fun x => ⟨x.1, comesFrom, x.2⟩

/-- `GetUnionNamedTupleFields` — tuple_bootstrap_operators.cc:903-937. -/
def unionFields (first second : Ty) : Option (List Descriptor) :=
  if !first.isNamed then none
  else if !second.isNamed then none
  else some (((descriptors 1 second.names).foldl addField ((descriptors 0 first.names).foldl addField ([], []))).1)

/-- `UnionNamedTupleOperator::InferAttributes` — tuple_bootstrap_operators.cc:989-1016. -/
def unionInfer (first second : Attr) : Option Attr :=
  match first.qtype, second.qtype with
  | some t, some u =>
    match unionFields t u with
    | none => none
    | some ds =>
      match collect (ds.map fun d => (if d.comesFrom = 0 then t else u).fields[d.index]?) with
      | none => none
      | some fs => (makeNamedTupleQType (ds.map (·.name)) (.tuple fs)).map .ofType
  | _, _ => some .empty

/-- `UnionNamedTupleOperator::ToLowerLevel` — tuple_bootstrap_operators.cc:952-987. -/
def unionLower (attr : Attr) (first second : Node E) : Option (Option (Node E)) :=
  match attr.qtype with
  | none => some none
  | some q =>
    match first.attr.qtype, second.attr.qtype with
    | some t, some u =>
      match unionFields t u with
      | none => none
      | some ds =>
        match collect (ds.map fun d => makeOpNode (getNth (d.index : Int)) [if d.comesFrom = 0 then first else second]) with
        | none => none
        | some fs =>
          match makeOpNode makeTuple fs with
          | none => none
          | some tuple => downcastTo q tuple
    | _, _ => some none

end Verif.Tuple
