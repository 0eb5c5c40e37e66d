/-!
# Model of the input loaders

`arolla/io/input_loader.{h,cc}`, `accessors_input_loader.h`, `delegating_input_loader.h`, `wildcard_input_loader.{h,cc}`,
`arolla/qtype/typed_slot.cc`.

A map from names to slots is a list without repeated names; the order in which a hash map is traversed is the order of the list or an
oracle.  A slot is a type and an offset; a frame is a function from offsets to values.  An error is `none`; the contents of a frame
after an error are not modelled.  The buffer factory is not modelled.
-/

namespace Verif.Io

abbrev Name := List Char

/-- `flat_hash_map<std::string, TypedSlot>`: names, types and offsets. -/
abbrev Slots (Q : Type) := List (Name × Q × Nat)

abbrev Frame (V : Type) := Nat → V

/-- `FramePtr::Set`. -/
def Frame.set {V : Type} (f : Frame V) (o : Nat) (v : V) : Frame V := fun x => if x = o then v else f x

/-- `BoundInputLoader` — input_loader.h:66-72. -/
abbrev Bound (I V : Type) := I → Frame V → Option (Frame V)

/-- `InputLoader` — input_loader.h:79-145: `GetQTypeOf` and `BindImpl`. -/
structure Loader (I Q V : Type) where
  typeOf : Name → Option Q
  bindImpl : Slots Q → Option (Bound I V)

variable {I J Q V : Type} [DecidableEq Q]

/-- `slots.find(name)`. -/
def findSlot (slots : Slots Q) (name : Name) : Option (Q × Nat) := (slots.find? fun s => s.1 == name).map (·.2)

/-- `VerifySlotTypes` with `verify_unwanted_slots` and without `verify_missed_slots` — typed_slot.cc:206-235. -/
def verifySlotTypes (types : List (Name × Q)) (slots : Slots Q) : Bool :=
  (types.all fun t =>
    match findSlot slots t.1 with
    | none => true
    | some s => s.1 == t.2) &&
  slots.all fun s => types.any fun t => t.1 == s.1

/-- `GetInputLoaderQTypes` — input_loader.cc:58-93. -/
def getInputLoaderQTypes (l : Loader I Q V) (names : List Name) : Option (List (Name × Q)) :=
  names.mapM fun name => (l.typeOf name).map fun t => (name, t)

/-- `ValidateSlotTypes` — input_loader.cc:95-106. -/
def validateSlotTypes (l : Loader I Q V) (slots : Slots Q) : Bool :=
  match getInputLoaderQTypes l (slots.map (·.1)) with
  | none => false
  | some types => verifySlotTypes types slots

/-- `Bind` — input_loader.h:117-128. -/
def bind (l : Loader I Q V) (slots : Slots Q) : Option (Bound I V) :=
  if validateSlotTypes l slots then
    if slots = [] then some fun _ frame => some frame
    else l.bindImpl slots
  else none

/-- `ExtractSupportedSlots` — input_loader.cc:108-122: the supported slots, and the slots that remain. -/
def extractSupportedSlots (l : Loader I Q V) (slots : Slots Q) : Slots Q × Slots Q :=
  let supported := slots.filter fun s => (l.typeOf s.1).isSome
  (supported, slots.filter fun s => !(supported.any fun t => t.1 == s.1))

/-- The loop of `BindInputLoaderList` with `PartialBind` — input_loader.h:132-135, 373-381. -/
def bindInputLoaderLoop : List (Loader I Q V) → Slots Q → Option (List (Bound I V) × Slots Q)
  | [], slots => some ([], slots)
  | l :: ls, slots =>
    let e := extractSupportedSlots l slots
    match bind l e.1 with
    | none => none
    | some b =>
      match bindInputLoaderLoop ls e.2 with
      | none => none
      | some (bs, rest) => some (if slots.length ≠ e.2.length then b :: bs else bs, rest)

/-- `BindInputLoaderList` — input_loader.h:366-386. -/
def bindInputLoaderList (ls : List (Loader I Q V)) (slots : Slots Q) : Option (List (Bound I V)) :=
  match bindInputLoaderLoop ls slots with
  | none => none
  | some (bs, rest) => if rest = [] then some bs else none

/-- `InvokeBoundLoaders` — input_loader.h:416-423. -/
def invokeBoundLoaders : List (Bound I V) → Bound I V
  | [], _, frame => some frame
  | b :: bs, input, frame =>
    match b input frame with
    | none => none
    | some frame' => invokeBoundLoaders bs input frame'

/-- `ChainInputLoader` without `invoke_bound_loaders_fn` — input_loader.h:391-495. -/
def chainLoader (ls : List (Loader I Q V)) : Loader I Q V where
  typeOf name := ls.findSome? fun l => l.typeOf name
  bindImpl slots :=
    match bindInputLoaderList ls slots with
    | none => none
    | some [] => none
    | some [b] => some b
    | some bs => some (invokeBoundLoaders bs)

/-- `FilteringInputLoader` — input_loader.h:295-329. -/
def filteringLoader (filter : Name → Bool) (l : Loader I Q V) : Loader I Q V where
  typeOf name := if filter name then l.typeOf name else none
  bindImpl slots := bind l slots

/-! ## Accessors -/

/-- `ValidateDuplicatedNames` — input_loader.cc:39-56: the loop that collects the duplicated names. -/
def duplicatedNames : List Name → List Name → List Name
  | _, [] => []
  | seen, name :: names =>
    let rest := duplicatedNames (name :: seen) names
    if seen.count name = 1 then name :: rest else rest

/-- `MaybeFindSlotsAndVerifyTypes` — typed_slot.cc:157-179. -/
def maybeFindSlotsAndVerifyTypes (types : List (Name × Q)) (slots : Slots Q) : Option (List (Option (Q × Nat))) :=
  let res := types.map fun t => findSlot slots t.1
  if (types.zip res).all fun p => match p.2 with
    | none => true
    | some s => s.1 == p.1.2
  then some res else none

/-- The setters of a bound loader — accessors_input_loader.h:145-151, 231-238. -/
def runSetters (input : I) : List (Option (Q × Nat) × (I → V)) → Frame V → Frame V
  | [], frame => frame
  | (none, _) :: ss, frame => runSetters input ss frame
  | (some s, acc) :: ss, frame => runSetters input ss (frame.set s.2 (acc input))

/-- `AccessorsInputLoader` — accessors_input_loader.h:158-242, on `StaticInputLoader` — input_loader.h:166-213. -/
def accessorsLoader (accessors : List (Name × Q × (I → V))) : Loader I Q V where
  typeOf name := (accessors.find? fun a => a.1 == name).map (·.2.1)
  bindImpl slots :=
    match maybeFindSlotsAndVerifyTypes (accessors.map fun a => (a.1, a.2.1)) slots with
    | none => none
    | some found => some fun input frame => some (runSetters input (found.zip (accessors.map (·.2.2))) frame)

/-- `AccessorsInputLoader::Build` — accessors_input_loader.h:165-175. -/
def buildAccessorsLoader (accessors : List (Name × Q × (I → V))) : Option (Loader I Q V) :=
  if duplicatedNames [] (accessors.map (·.1)) = [] then some (accessorsLoader accessors) else none

/-! ## Delegation -/

/-- `absl::ConsumePrefix`. -/
def consumePrefix : Name → Name → Option Name
  | [], name => some name
  | _ :: _, [] => none
  | p :: pre, c :: name => if p = c then consumePrefix pre name else none

/-- The loop of `DelegatingInputLoader::BindImpl` — delegating_input_loader.h:97-106. -/
def delegateSlots (pre : Name) : Slots Q → Option (Slots Q)
  | [] => some []
  | s :: slots =>
    match consumePrefix pre s.1 with
    | none => none
    | some name =>
      match delegateSlots pre slots with
      | none => none
      | some rest => some ((name, s.2) :: rest)

/-- `DelegatingInputLoader` — delegating_input_loader.h:50-120. -/
def delegatingLoader (pre : Name) (accessor : I → J) (l : Loader J Q V) : Loader I Q V where
  typeOf name :=
    match consumePrefix pre name with
    | none => none
    | some name' => l.typeOf name'
  bindImpl slots :=
    match delegateSlots pre slots with
    | none => none
    | some slots' =>
      match bind l slots' with
      | none => none
      | some b => some fun input frame => b (accessor input) frame

/-- `delegate_output_slots[*key].emplace(name, slot)`. -/
def addToGroup {K : Type} [DecidableEq K] (key : K) (s : Name × Q × Nat) : List (K × Slots Q) → List (K × Slots Q)
  | [] => [(key, [s])]
  | g :: gs => if g.1 = key then (key, g.2 ++ [s]) :: gs else g :: addToGroup key s gs

/-- The grouping loop — delegating_input_loader.h:176-187. -/
def groupSlots {K : Type} [DecidableEq K] (name2key : Name → Option K) : Slots Q → List (K × Slots Q) → Option (List (K × Slots Q))
  | [], groups => some groups
  | s :: slots, groups =>
    match name2key s.1 with
    | none => none
    | some key => groupSlots name2key slots (addToGroup key s groups)

/-- The binding loop — delegating_input_loader.h:188-194. -/
def bindGroups {K : Type} (factory : K → Option (Loader I Q V)) : List (K × Slots Q) → Option (List (Bound I V))
  | [] => some []
  | g :: gs =>
    match factory g.1 with
    | none => none
    | some l =>
      match bind l g.2 with
      | none => none
      | some b =>
        match bindGroups factory gs with
        | none => none
        | some bs => some (b :: bs)

/-- `DynamicDelegatingInputLoader` — delegating_input_loader.h:131-233.  The factory gives the same loader every time it is asked for a
key, so that the cache is not modelled.  `order` is the order of the hash map of the groups. -/
def dynamicLoader {K : Type} [DecidableEq K] (factory : K → Option (Loader I Q V)) (name2key : Name → Option K)
    (order : List (K × Slots Q) → List (K × Slots Q)) : Loader I Q V where
  typeOf name :=
    match name2key name with
    | none => none
    | some key =>
      match factory key with
      | none => none
      | some l => l.typeOf name
  bindImpl slots :=
    match groupSlots name2key slots [] with
    | none => none
    | some groups =>
      match bindGroups factory (order groups) with
      | none => none
      | some [] => none
      | some [b] => some b
      | some bs => some (invokeBoundLoaders bs)

/-! ## Wildcards -/

/-- The loop of `CreateBindFn` — wildcard_input_loader.h:408-416. -/
def keyedSlots {K : Type} (name2key : Name → Option K) (out : Q) : Slots Q → Option (List (K × Nat))
  | [] => some []
  | s :: slots =>
    match name2key s.1 with
    | none => keyedSlots name2key out slots
    | some key =>
      if s.2.1 = out then
        match keyedSlots name2key out slots with
        | none => none
        | some rest => some ((key, s.2.2) :: rest)
      else none

/-- The loop of the bound loader — wildcard_input_loader.h:424-428. -/
def runKeyed {K : Type} (accessor : I → K → Option V) (input : I) : List (K × Nat) → Frame V → Option (Frame V)
  | [], frame => some frame
  | s :: ss, frame =>
    match accessor input s.1 with
    | none => none
    | some v => runKeyed accessor input ss (frame.set s.2 v)

/-- `WildcardInputLoader` with an accessor — wildcard_input_loader.h:359-376, 402-431; `sort` is `std::sort`. -/
def wildcardLoader {K : Type} (out : Q) (accessor : I → K → Option V) (name2key : Name → Option K)
    (sort : List (K × Nat) → List (K × Nat)) : Loader I Q V where
  typeOf name := if (name2key name).isSome then some out else none
  bindImpl slots :=
    match keyedSlots name2key out slots with
    | none => none
    | some keyed => some fun input frame => runKeyed accessor input (sort keyed) frame

/-- The loop of the bound loader with a callback — wildcard_input_loader.h:452-456.  The accessor calls the callback exactly once;
`WildcardInputLoaderCallback` — wildcard_input_loader.h:151-174 — refuses a value of another type than the slot. -/
def runCallbacks {K : Type} (accessor : I → K → Option (Q × V)) (input : I) : List (K × Q × Nat) → Frame V → Option (Frame V)
  | [], frame => some frame
  | s :: ss, frame =>
    match accessor input s.1 with
    | none => none
    | some (t, v) => if t = s.2.1 then runCallbacks accessor input ss (frame.set s.2.2 v) else none

/-- `WildcardInputLoader` with a callback — wildcard_input_loader.h:378-394, 433-460. -/
def callbackLoader {K : Type} (accessor : I → K → Option (Q × V)) (name2key : Name → Option K) (key2type : K → Option Q)
    (sort : List (K × Q × Nat) → List (K × Q × Nat)) : Loader I Q V where
  typeOf name :=
    match name2key name with
    | none => none
    | some key => key2type key
  bindImpl slots :=
    some fun input frame => runCallbacks accessor input
      (sort (slots.filterMap fun s => (name2key s.1).map fun key => (key, s.2))) frame

/-! ### Names of a wildcard -/

/-- `absl::ParsedFormat<'s'>`: texts around one conversion of a string, with a width, a flag `-` and a precision. -/
structure Format where
  pre : Name
  suf : Name
  width : Nat := 0
  left : Bool := false
  prec : Option Nat := none

/-- `absl::StrFormat`. -/
def strFormat (f : Format) (s : Name) : Name :=
  let t := match f.prec with
    | none => s
    | some p => s.take p
  let padding := List.replicate (f.width - t.length) ' '
  f.pre ++ (if f.left then t ++ padding else padding ++ t) ++ f.suf

/-- wildcard_input_loader.cc:32-33. -/
def kUniqueString : Name := "unique_string_5a7cf4c5ed2d49068302b641bad242aa".toList

/-- `std::string::find`. -/
def findText (what : Name) : Name → Option Nat
  | [] => if what = [] then some 0 else none
  | c :: text => if what.isPrefixOf (c :: text) then some 0 else (findText what text).map (· + 1)

/-- `absl::ConsumeSuffix`. -/
def consumeSuffix (suf name : Name) : Option Name := (consumePrefix suf.reverse name.reverse).map List.reverse

/-- `MakeNameToKeyFn` — wildcard_input_loader.cc:30-54; `none` if the `DCHECK` fails. -/
def makeNameToKeyFn (f : Format) : Option (Name → Option Name) :=
  let formatted := strFormat f kUniqueString
  match findText kUniqueString formatted with
  | none => none
  | some prefixEnd =>
    let pre := formatted.take prefixEnd
    let suf := formatted.drop (prefixEnd + kUniqueString.length)
    some fun name =>
      match consumePrefix pre name with
      | none => none
      | some rest => consumeSuffix suf rest

end Verif.Io
