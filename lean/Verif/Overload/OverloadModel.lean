/-!
# Model of the lookup of QExpr operators

`arolla/qexpr/casting.cc` and `arolla/qexpr/operators.cc`.  Types are of any type `T`; `cast` stands for `CanCastImplicitly` with
broadcasting (modelled for itself in `QType/CommonModel.lean`) and `decay` for `DecayDerivedQType`.  Signatures are interned, so that
pointers are equal iff the signatures are.  A null pointer that is followed and an exception give `none`.
-/

namespace Verif.Overload

/-- `QExprOperatorSignature` -/
structure Sig (T : Type) where
  inputs : List T
  output : T
  deriving DecidableEq

/-- What a lookup gives. -/
inductive Found (α : Type)
  | ok (a : α)
  | notFound
  | ambiguous
  deriving DecidableEq

/-- `CanCastImplicitly` for spans — casting.cc:37-51. -/
def canCastAll {T : Type} (cast : T → T → Bool) : List T → List T → Bool
  | [], [] => true
  | a :: as, b :: bs => if cast a b then canCastAll cast as bs else false
  | _, _ => false

/-- The loop over the frontier: what is kept, `dominates` and `dominated` — casting.cc:87-101. -/
def sweep {T : Type} (cast : T → T → Bool) (candidate : Sig T) : List (Sig T) → Bool → List (Sig T) × Bool × Bool
  | [], dominates => ([], dominates, false)
  | previous :: rest, dominates =>
    if canCastAll cast candidate.inputs previous.inputs then sweep cast candidate rest true
    else if dominates || !canCastAll cast previous.inputs candidate.inputs then
      let r := sweep cast candidate rest dominates
      (previous :: r.1, r.2)
    else ([], dominates, true)

/-- The new frontier — casting.cc:84-107. -/
def frontierStep {T : Type} (cast : T → T → Bool) (frontier : List (Sig T)) (candidate : Sig T) : List (Sig T) :=
  let r := sweep cast candidate frontier false
  let kept := if r.2.1 then r.1 else frontier
  if r.2.2 then kept else kept ++ [candidate]

/-- The loop over the signatures: an exact match, or the frontier — casting.cc:70-108. -/
def searchLoop {T : Type} [DecidableEq T] (cast : T → T → Bool) (decay : T → T) (inputs : List T) (output : T) :
    List (Sig T) → List (Sig T) → Sum (Sig T) (List (Sig T))
  | [], frontier => .inr frontier
  | candidate :: rest, frontier =>
    if decay output ≠ candidate.output then searchLoop cast decay inputs output rest frontier
    else if inputs.map decay = candidate.inputs then .inl candidate
    else if !canCastAll cast inputs candidate.inputs then searchLoop cast decay inputs output rest frontier
    else searchLoop cast decay inputs output rest (frontierStep cast frontier candidate)

/-- `FindMatchingSignature` — casting.cc:62-124. -/
def findMatching {T : Type} [DecidableEq T] (cast : T → T → Bool) (decay : T → T) (inputs : List T) (output : T)
    (sigs : List (Sig T)) : Found (Sig T) :=
  match searchLoop cast decay inputs output sigs [] with
  | .inl s => .ok s
  | .inr [] => .notFound
  | .inr [s] => .ok s
  | .inr (_ :: _ :: _) => .ambiguous

/-! ## operators.cc -/

/-- A QExpr operator: an identity and its signature. -/
structure Op (T : Type) where
  id : Nat
  sig : Sig T
  deriving DecidableEq

/-- `CombinedOperatorFamily::Record`; the mask as the list of its bits — operators.cc:114-117. -/
structure Record (T : Type) where
  op : Option (Op T)
  mask : List Nat

/-- `CombinedOperatorFamily` — operators.cc:52-126. -/
structure Family (T : Type) where
  records : List (List T × Record T)
  supported : List (Sig T)

/-- A new family. -/
def Family.empty {T : Type} : Family T := ⟨[], []⟩

/-- `operators_.find` -/
def lookupRec {T : Type} [DecidableEq T] (key : List T) : List (List T × Record T) → Option (Record T)
  | [] => none
  | (k, r) :: rest => if k = key then some r else lookupRec key rest

/-- `operators_[key] = r` -/
def storeRec {T : Type} [DecidableEq T] (key : List T) (r : Record T) : List (List T × Record T) → List (List T × Record T)
  | [] => [(key, r)]
  | (k, s) :: rest => if k = key then (k, r) :: rest else (k, s) :: storeRec key r rest

/-- `*std::find(begin, end, old) = new`; the end is not written. -/
def replaceSig {T : Type} [DecidableEq T] (old new : Sig T) : List (Sig T) → Option (List (Sig T))
  | [] => none
  | s :: rest => if s = old then some (new :: rest) else (replaceSig old new rest).map (s :: ·)

/-- The status of a registration. -/
inductive Status
  | ok | badPriority | alreadyExists | badName
  deriving DecidableEq

/-- `CombinedOperatorFamily::Insert`; the record is created in any case — operators.cc:70-111. -/
def Family.insert {T : Type} [DecidableEq T] (f : Family T) (op : Op T) (priority : Nat) : Option (Status × Family T) :=
  let key := op.sig.inputs
  let record := (lookupRec key f.records).getD ⟨none, []⟩
  if priority ≥ 2 then some (.badPriority, ⟨storeRec key record f.records, f.supported⟩)
  else if priority ∈ record.mask then some (.alreadyExists, f)
  else if record.mask.any (fun p => priority < p) then
    some (.ok, ⟨storeRec key ⟨record.op, priority :: record.mask⟩ f.records, f.supported⟩)
  else match record.op with
    | some o => match replaceSig o.sig op.sig f.supported with
      | none => none
      | some supported => some (.ok, ⟨storeRec key ⟨some op, priority :: record.mask⟩ f.records, supported⟩)
    | none => some (.ok, ⟨storeRec key ⟨some op, priority :: record.mask⟩ f.records, f.supported ++ [op.sig]⟩)

/-- The part of `DoGetOperator` after the exact lookup — operators.cc:64-67; `at` throws if there is no record. -/
def Family.resolve {T : Type} [DecidableEq T] (f : Family T) (cast : T → T → Bool) (decay : T → T) (inputs : List T) (output : T) :
    Option (Found (Op T)) :=
  match findMatching cast decay inputs output f.supported with
  | .notFound => some .notFound
  | .ambiguous => some .ambiguous
  | .ok s => match lookupRec s.inputs f.records with
    | none => none
    | some r => r.op.map .ok

/-- `CombinedOperatorFamily::DoGetOperator` — operators.cc:56-68; the pointer of a record without operator is followed. -/
def Family.getOperator {T : Type} [DecidableEq T] (f : Family T) (cast : T → T → Bool) (decay : T → T) (inputs : List T) (output : T) :
    Option (Found (Op T)) :=
  match lookupRec inputs f.records with
  | some ⟨none, _⟩ => none
  | some ⟨some o, _⟩ => if o.sig.output = output then some (.ok o) else f.resolve cast decay inputs output
  | none => f.resolve cast decay inputs output

/-- The families of the registry: a combined one, or another one with an identity. -/
inductive AnyFamily (T : Type)
  | combined (f : Family T)
  | other (id : Nat)

/-- `OperatorRegistry::families_`. -/
abbrev Families (T : Type) := List (Nat × AnyFamily T)

/-- `families_.find` -/
def lookupFam {T : Type} (name : Nat) : Families T → Option (AnyFamily T)
  | [] => none
  | (k, f) :: rest => if k = name then some f else lookupFam name rest

/-- `families_[name] = f` -/
def storeFam {T : Type} (name : Nat) (f : AnyFamily T) : Families T → Families T
  | [] => [(name, f)]
  | (k, g) :: rest => if k = name then (k, f) :: rest else (k, g) :: storeFam name f rest

/-- `RegisterOperatorFamily`; names are numbers, `isName` is `IsOperatorName` — operators.cc:130-148. -/
def registerFamily {T : Type} (isName : Nat → Bool) (fs : Families T) (name id : Nat) : Status × Families T :=
  if !isName name then (.badName, fs)
  else match lookupFam name fs with
    | some _ => (.alreadyExists, fs)
    | none => (.ok, storeFam name (.other id) fs)

/-- `RegisterOperator` — operators.cc:150-170. -/
def registerOperator {T : Type} [DecidableEq T] (isName : Nat → Bool) (fs : Families T) (name : Nat) (op : Op T) (priority : Nat) :
    Option (Status × Families T) :=
  if !isName name then some (.badName, fs)
  else match lookupFam name fs with
    | some (.other _) => some (.alreadyExists, fs)
    | some (.combined f) => (f.insert op priority).map fun r => (r.1, storeFam name (.combined r.2) fs)
    | none => (Family.empty.insert op priority).map fun r => (r.1, storeFam name (.combined r.2) fs)

/-- `LookupOperator` for combined families: `none` inside for a name that is not known — operators.cc:183-201. -/
def lookupOperator {T : Type} [DecidableEq T] (cast : T → T → Bool) (decay : T → T) (fs : Families T) (name : Nat) (inputs : List T)
    (output : T) : Option (Found (Op T)) :=
  match lookupFam name fs with
  | none => some .notFound
  | some (.combined f) => f.getOperator cast decay inputs output
  | some (.other _) => none

end Verif.Overload
