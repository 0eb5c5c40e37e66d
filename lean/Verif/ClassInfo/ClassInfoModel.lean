/-!
# Model of `ClassInfo`

`arolla/util/class_info.h` and `arolla/util/class_info.cc`: runtime type identification by arrays of ancestors.

C++ types are of any type `T`.  A `ClassInfo` is the array it points to; the arrays are never changed and the last element is unique, so that
pointers are equal exactly if the arrays are.  The lock makes `RegisterClass` atomic.  `LOG(FATAL)` and reads outside of an array give `none`.
-/

namespace Verif.ClassInfo

variable {T : Type} [DecidableEq T]

/-- The members of `ClassRegistry` — class_info.cc:124-131; an id of 0 is a missing entry. -/
structure Registry (T : Type) where
  ids : T → Nat
  records : List (Option T × List Nat)

/-- The constructor — class_info.cc:64. -/
def Registry.init : Registry T := ⟨fun _ => 0, [(none, [])]⟩

/-- `kMaxDepth`, `kMaxId` — class_info.cc:46-47. -/
def maxDepth : Nat := 8
def maxId : Nat := 32767

/-- `ClassRegistry::RegisterClass` — class_info.cc:66-113. -/
def registerClass (r : Registry T) (type : T) (ancestors : List Nat) : Option (List Nat × Registry T) :=
  if r.ids type = 0 then
    if r.records.length > maxId then none
    else if ancestors.length > maxDepth then none
    else
      let id := r.records.length
      let lineage := (ancestors.length + 1) :: (ancestors ++ [id])
      some (lineage, ⟨fun t => if t = type then id else r.ids t, r.records ++ [(some type, lineage)]⟩)
  else
    match r.records[r.ids type]? with
    | none => none
    | some (_, lineage) =>
      match ancestors.getLast? with
      | none => if lineage.length > 2 then none else some (lineage, r)
      | some parent =>
        if lineage.length ≤ 2 then none
        else if lineage.length ≠ ancestors.length + 2 ∨ lineage[lineage.length - 2]? ≠ some parent then none
        else some (lineage, r)

/-- `RegisterRootClass` — class_info.cc:143-145. -/
def registerRoot (r : Registry T) (type : T) : Option (List Nat × Registry T) := registerClass r type []

/-- `RegisterSubclass` — class_info.cc:147-153. -/
def registerSubclass (r : Registry T) (type : T) (parent : List Nat) : Option (List Nat × Registry T) :=
  match parent with
  | [] => none
  | depth :: rest => if rest.length < depth then none else registerClass r type (rest.take depth)

/-- `ClassInfo::is_subclass_of` — class_info.h:58-62. -/
def isSubclassOf (self other : List Nat) : Option Bool :=
  match self[0]?, other[0]? with
  | some depth, some otherDepth =>
    if depth ≥ otherDepth then
      match self[otherDepth]?, other[otherDepth]? with
      | some a, some b => some (decide (a = b))
      | _, _ => none
    else some false
  | _, _ => none

/-- `ClassInfo::name` — class_info.cc:135-137, 115-122: the type. -/
def nameOf (r : Registry T) (info : List Nat) : Option T :=
  match info[0]? with
  | none => none
  | some depth =>
    match info[depth]? with
    | none => none
    | some id =>
      match r.records[id]? with
      | some (some t, _) => some t
      | _ => none

end Verif.ClassInfo
