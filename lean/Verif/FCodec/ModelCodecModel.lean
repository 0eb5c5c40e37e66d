/-!
# Model of `arolla/decision_forest/s11n/codec.cc`: forest models

* Names are represented by their positions in the order of strings, so `SubmodelIds` (a `std::map`) is a list sorted by
  the name.
* Forests and expressions are arbitrary types: they are encoded by other codecs (C116) and appear here as the input
  values and input expressions of the message.
* The result of decoding is the argument given to `ForestModel::Create`.
* `none` is an access outside of `input_exprs`.
-/

namespace Verif.FCodec

/-- `ForestModel::ConstructorArgs` — forest_model.h:74-102. -/
structure ModelArgs (Fo E : Type) where
  forest : Fo
  submodels : List (Nat × List Int)
  inputs : List (Nat × Option E)
  expression : E
  oobFilters : Option (List E) := none
  truncationStep : Option Nat := none
  deriving DecidableEq, Repr

/-- `DecisionForestV1Proto.ForestModel.Arg`. -/
structure PArg where
  name : Option Nat
  hasPreprocessing : Bool
  deriving DecidableEq, Repr

/-- `DecisionForestV1Proto.ForestModel.SubmodelGroup`. -/
structure PGroup where
  name : Option Nat
  ids : List Int
  deriving DecidableEq, Repr

/-- An input value of a message: a forest or something else. -/
inductive Val (Fo : Type) where
  | forest (f : Fo)
  | other
  deriving DecidableEq, Repr

/-- The message with its input values and expressions. -/
structure PModel (Fo E : Type) where
  args : List PArg
  groups : List PGroup
  values : List (Val Fo)
  exprs : List E
  deriving DecidableEq, Repr

inductive MErr where
  | values | exprs | notForest | groupName | duplicateGroup | inputName | oobFilters | truncated
  deriving DecidableEq, Repr

variable {Fo E : Type}

/-- The loop over the inputs in `EncodeForestModel` — codec.cc:140-149: the arguments and the added expressions. -/
def encodeInputs : List (Nat × Option E) → List PArg × List E
  | [] => ([], [])
  | (name, none) :: rest => (⟨some name, false⟩ :: (encodeInputs rest).1, (encodeInputs rest).2)
  | (name, some e) :: rest => (⟨some name, true⟩ :: (encodeInputs rest).1, e :: (encodeInputs rest).2)

/-- `EncodeForestModel` — codec.cc:120-158. -/
def encodeModel (m : ModelArgs Fo E) : Except MErr (PModel Fo E) :=
  if m.oobFilters.isSome then .error .oobFilters
  else if m.truncationStep.isSome then .error .truncated
  else .ok {
    args := (encodeInputs m.inputs).1
    groups := m.submodels.map fun g => ⟨some g.1, g.2⟩
    values := [.forest m.forest]
    exprs := m.expression :: (encodeInputs m.inputs).2 }

/-- The number of expected expressions — codec.cc:247-250. -/
def expectedExprs : List PArg → Nat → Nat
  | [], n => n
  | a :: rest, n => expectedExprs rest (if a.hasPreprocessing then n + 1 else n)

/-- `std::map::emplace`; `none` if the key is there already. -/
def emplace (k : Nat) (v : List Int) : List (Nat × List Int) → Option (List (Nat × List Int))
  | [] => some [(k, v)]
  | e :: rest =>
    if k < e.1 then some ((k, v) :: e :: rest)
    else if k = e.1 then none
    else (emplace k v rest).map (e :: ·)

/-- The loop over the submodel groups — codec.cc:260-273. -/
def decodeGroups : List PGroup → List (Nat × List Int) → Except MErr (List (Nat × List Int))
  | [], acc => .ok acc
  | g :: rest, acc =>
    match g.name with
    | none => .error .groupName
    | some k =>
      match emplace k g.ids acc with
      | none => .error .duplicateGroup
      | some acc => decodeGroups rest acc

/-- The loop over the inputs — codec.cc:275-287. -/
def decodeInputs (exprs : List E) : List PArg → Nat → Option (Except MErr (List (Nat × Option E)))
  | [], _ => some (.ok [])
  | a :: rest, i =>
    match a.name with
    | none => some (.error .inputName)
    | some name =>
      if a.hasPreprocessing then
        match exprs[i]? with
        | none => none
        | some e =>
          match decodeInputs exprs rest (i + 1) with
          | some (.ok l) => some (.ok ((name, some e) :: l))
          | r => r
      else
        match decodeInputs exprs rest i with
        | some (.ok l) => some (.ok ((name, none) :: l))
        | r => r

/-- `DecodeForestModel` — codec.cc:239-295, up to the call of `ForestModel::Create`. -/
def decodeModel (p : PModel Fo E) : Option (Except MErr (ModelArgs Fo E)) :=
  match p.values with
  | [v] =>
    if p.exprs.length ≠ expectedExprs p.args 1 then some (.error .exprs)
    else match v with
      | .other => some (.error .notForest)
      | .forest f =>
        match decodeGroups p.groups [] with
        | .error e => some (.error e)
        | .ok submodels =>
          match decodeInputs p.exprs p.args 1 with
          | none => none
          | some (.error e) => some (.error e)
          | some (.ok inputs) =>
            match p.exprs[0]? with
            | none => none
            | some e => some (.ok { forest := f, submodels := submodels, inputs := inputs, expression := e })
  | _ => some (.error .values)

end Verif.FCodec
