/-!
# Binding a compiled expression to a frame: slot allocation and the emitted program

Model of `SlotAllocator` (/repo/arolla/expr/eval/slot_allocator.cc 47-118), of the visitor that binds
every node of a prepared expression (/repo/arolla/expr/eval/dynamic_compiled_expr.cc 120-390), and of
`DynamicCompiledExpr::BindToExecutableBuilder` (434-477).

* The frame layout is the list of the types of the slots added so far; a slot added later has a
  bigger number.  A `TypedSlot` is the number of such a slot together with the path of sub-slots
  taken inside it (`TypedSlot::SubSlot`, the presence flag of an optional, a cast between a derived
  type and its base).  Two slots with different numbers do not overlap.
* A node of the prepared expression is classified once, by what `ConstructOutputSlot` (152-274) does
  for it; the classification itself (tags, `DecayRegisteredOperator`, `FastDowncast`) is not
  modelled.  `where`, `while` and extension operators count as `op`: they are compiled with
  `allow_overriding_input_slots = false` (231-247) or into slots of their own, read their inputs and
  write the given output slot.  (For `where` and `while` see `Verif/Eval`.)
* Types are checked only as far as they select the list of reusable slots; the final comparison of
  the slot's type with the deduced type (134-142) is not modelled.
-/

namespace Verif.Slots

/-- What `ConstructOutputSlot` (dynamic_compiled_expr.cc 184-274) does for a node. -/
inductive Kind (K V F P : Type) where
  /-- 191-198 -/
  | leaf (key : K)
  /-- 199-208 -/
  | literal (value : V)
  /-- 216-223 backend operators; 231-247 `where`, `while`; 253-264 compiler extensions -/
  | op (f : F)
  /-- 224-226 annotations, `HandleHas` 296-317, `HandleGetNth` 319-338, `HandleDerivedQTypeCast`
  340-358: the slot of the first dependency, or a part of it -/
  | part (p : P)
  /-- 227-228 `InternalRootOperator` -/
  | root
  deriving Repr, DecidableEq

/-- A node of the post order: its kind, `dep_indices` and the deduced type. -/
structure Node (K V F P T : Type) where
  kind : Kind K V F P
  deps : List Nat
  ty : T
  deriving Repr, DecidableEq

/-- `TypedSlot`: number of the allocated slot and the path of sub-slots inside it. -/
structure Slot (P : Type) where
  base : Nat
  path : List P
  deriving Repr, DecidableEq

/-- A bound operator: 360-386 `CompileBackendOperator`, 172-177 `core._copy`. -/
inductive Instr (F P : Type) where
  | compute (f : F) (args : List (Slot P)) (out : Nat)
  | copy (src : Slot P) (out : Nat)
  deriving Repr, DecidableEq

/-- `f[i] = x` for an array kept as a function. -/
def setAt {α : Type} (f : Nat → α) (i : Nat) (x : α) : Nat → α := fun j => if j = i then x else f j

/-- Fields of `SlotAllocator` (slot_allocator.h 82-99).  `layout` is the frame layout under
construction; `resultSlot i` is `none` for an unset slot, otherwise its type and number. -/
structure Alloc (T : Type) where
  layout : List T
  lastUsages : Nat → Nat
  origin : Nat → Nat
  resultSlot : Nat → Option (T × Nat)
  reusable : T → List Nat

/-- State of `EvalVisitor` together with the `ExecutableBuilder` (executable_builder.h 150-164). -/
structure State (V F P T : Type) where
  alloc : Alloc T
  /-- `literal_values_and_slots_` -/
  literals : List (Nat × V)
  /-- `eval_ops_` -/
  code : List (Instr F P)
  /-- `named_outputs_`, in the order of `side_output_names_` -/
  named : List (Slot P)

/-- Arguments of `BindToExecutableBuilder`: slots of the inputs, the output slot, the index of
`output_expr` in the post order, number of side outputs, `allow_overriding_input_slots`. -/
structure Config (K : Type) where
  inputSlot : K → Option Nat
  out : Nat
  outIdx : Nat
  sideOutputs : Nat
  allowOverride : Bool

/-- Ways in which binding fails. -/
inductive BindError where
  | unboundLeaf          -- 192-196
  | unboundLeafCrash     -- `input_slots.at` in the constructor, slot_allocator.cc 67
  | badArity             -- 225 (`DCHECK`), 278-283, 302, 324, 345, 443-445
  | wrongRoot            -- 284-288
  | wrongOutput          -- 471-475
  deriving Repr, DecidableEq

section
variable {K V F P T : Type}

/-- slot_allocator.cc 56-62, the inner loop for node `i`. -/
def markDeps (i : Nat) : List Nat → (Nat → Nat) → (Nat → Nat)
  | [], l => l
  | j :: js, l => markDeps i js (setAt l j i)

/-- slot_allocator.cc 56-62. -/
def lastUsagesLoop : Nat → List (Node K V F P T) → (Nat → Nat) → (Nat → Nat)
  | _, [], l => l
  | i, n :: ns, l => lastUsagesLoop (i + 1) ns (setAt (markDeps i n.deps l) i i)

/-- slot_allocator.cc 63-70: the slots of leaves when inputs may be overwritten. -/
def leafSlots (cfg : Config K) : Nat → List (Node K V F P T) → (Nat → Option (T × Nat)) →
    Except BindError (Nat → Option (T × Nat))
  | _, [], r => .ok r
  | i, n :: ns, r =>
    match n.kind with
    | .leaf k =>
      match cfg.inputSlot k with
      | none => .error .unboundLeafCrash
      | some s => leafSlots cfg (i + 1) ns (setAt r i (some (n.ty, s)))
    | _ => leafSlots cfg (i + 1) ns r

/-- Constructor of `SlotAllocator`, slot_allocator.cc 47-71. -/
def Alloc.make (cfg : Config K) (layout : List T) (ns : List (Node K V F P T)) :
    Except BindError (Alloc T) :=
  let last := lastUsagesLoop 0 ns (fun _ => 0)
  let a : Alloc T := ⟨layout, last, id, fun _ => none, fun _ => []⟩
  if cfg.allowOverride then
    match leafSlots cfg 0 ns (fun _ => none) with
    | .error e => .error e
    | .ok r => .ok { a with resultSlot := r }
  else .ok a

/-- `AllocatePermanentSlot`, slot_allocator.cc 73-76. -/
def Alloc.permanent (a : Alloc T) (ty : T) : Nat × Alloc T :=
  (a.layout.length, { a with layout := a.layout ++ [ty] })

/-- `AllocateSlot`, slot_allocator.cc 78-90; the back of the vector is the head of the list. -/
def Alloc.allocate [DecidableEq T] (a : Alloc T) (i : Nat) (ty : T) : Nat × Alloc T :=
  match a.reusable ty with
  | [] =>
    (a.layout.length,
      { a with layout := a.layout ++ [ty]
               resultSlot := setAt a.resultSlot i (some (ty, a.layout.length)) })
  | s :: ss =>
    (s, { a with reusable := fun t => if t = ty then ss else a.reusable t
                 resultSlot := setAt a.resultSlot i (some (ty, s)) })

/-- `InheritSlotFrom`, slot_allocator.cc 92-98. -/
def Alloc.inherit (a : Alloc T) (i src : Nat) : Alloc T :=
  let o := a.origin src
  { a with origin := setAt a.origin i o
           lastUsages := setAt a.lastUsages o (max (a.lastUsages o) (a.lastUsages i)) }

/-- `ReleaseSlotsNotNeededAfter`, slot_allocator.cc 100-110, over the dependencies of node `i`. -/
def Alloc.release [DecidableEq T] (a : Alloc T) (i : Nat) : List Nat → Alloc T
  | [] => a
  | d :: ds =>
    let o := a.origin d
    match a.resultSlot o with
    | some (ty, s) =>
      if a.lastUsages o = i then
        Alloc.release
          { a with reusable := fun t => if t = ty then s :: a.reusable t else a.reusable t
                   resultSlot := setAt a.resultSlot o none } i ds
      else Alloc.release a i ds
    | none => Alloc.release a i ds

/-- `maybe_copy_slot`, dynamic_compiled_expr.cc 168-183. -/
def maybeCopy (cfg : Config K) (i : Nat) (st : State V F P T) (s : Slot P) (src : Nat) :
    Slot P × State V F P T :=
  if i = cfg.outIdx then
    (⟨cfg.out, []⟩, { st with code := st.code ++ [.copy s cfg.out] })
  else (s, { st with alloc := st.alloc.inherit i src })

/-- `ConstructOutputSlot`, dynamic_compiled_expr.cc 152-274, with its helpers 276-358. -/
def constructOutput [DecidableEq T] [DecidableEq P] (cfg : Config K) (i : Nat) (n : Node K V F P T)
    (inputs : List (Slot P)) (st : State V F P T) : Except BindError (Slot P × State V F P T) :=
  match n.kind with
  | .leaf k =>
    match cfg.inputSlot k with
    | none => .error .unboundLeaf
    | some s => .ok (maybeCopy cfg i st ⟨s, []⟩ i)
  | .literal v =>
    let (s, a) := st.alloc.permanent n.ty
    .ok (maybeCopy cfg i { st with alloc := a, literals := st.literals ++ [(s, v)] } ⟨s, []⟩ i)
  | .op f =>
    let (s, a) := if i = cfg.outIdx then (cfg.out, st.alloc) else st.alloc.allocate i n.ty
    .ok (⟨s, []⟩, { st with alloc := a, code := st.code ++ [.compute f inputs s] })
  | .part p =>
    match inputs, n.deps with
    | [s], [d] => .ok (maybeCopy cfg i st ⟨s.base, s.path ++ [p]⟩ d)
    | _, _ => .error .badArity
  | .root =>
    if inputs.length ≠ cfg.sideOutputs + 1 then .error .badArity
    else match inputs with
      | [] => .error .badArity
      | s :: rest =>
        if s ≠ ⟨cfg.out, []⟩ then .error .wrongRoot
        else .ok (s, { st with named := rest })

/-- `EvalVisitor::operator()`, dynamic_compiled_expr.cc 120-145: construct the slot, then release. -/
def bindNode [DecidableEq T] [DecidableEq P] (cfg : Config K) (i : Nat) (n : Node K V F P T)
    (inputs : List (Slot P)) (st : State V F P T) : Except BindError (Slot P × State V F P T) :=
  match constructOutput cfg i n inputs st with
  | .error e => .error e
  | .ok (s, st) => .ok (s, { st with alloc := st.alloc.release i n.deps })

/-- The loop 463-470: `results` holds the slots of the nodes before `i`.  The outer `none` is a read
past the end of `results`. -/
def bindLoop [DecidableEq T] [DecidableEq P] (cfg : Config K) : List (Node K V F P T) →
    List (Slot P) → State V F P T → Option (Except BindError (List (Slot P) × State V F P T))
  | [], slots, st => some (.ok (slots, st))
  | n :: ns, slots, st =>
    match n.deps.mapM (fun d => slots[d]?) with
    | none => none
    | some inputs =>
      match bindNode cfg slots.length n inputs st with
      | .error e => some (.error e)
      | .ok (s, st) => bindLoop cfg ns (slots ++ [s]) st

/-- Index of `output_expr` in the post order, dynamic_compiled_expr.cc 442-450: the expression itself,
or the first dependency of `InternalRootOperator`. -/
def outputIndex (ns : List (Node K V F P T)) : Option Nat :=
  match ns.getLast? with
  | none => none
  | some n => if n.kind matches .root then n.deps.head? else some (ns.length - 1)

/-- `BindToExecutableBuilder`, dynamic_compiled_expr.cc 434-477 (`cfg.outIdx` is computed here). -/
def bind [DecidableEq T] [DecidableEq P] (cfg : Config K) (layout : List T)
    (ns : List (Node K V F P T)) :
    Option (Except BindError (List (Slot P) × State V F P T)) :=
  match outputIndex ns with
  | none => some (.error .badArity)
  | some k =>
    let cfg := { cfg with outIdx := k }
    match Alloc.make cfg layout ns with
    | .error e => some (.error e)
    | .ok a =>
      match bindLoop cfg ns [] ⟨a, [], [], []⟩ with
      | some (.ok (slots, st)) =>
        if slots.getLast? = some ⟨cfg.out, []⟩ then some (.ok (slots, st))
        else some (.error .wrongOutput)
      | r => r

/-- Contents of the frame: the value in every slot. -/
abbrev Frame (V : Type) := Nat → V

/-- Reading a slot: the value of the allocated slot, then the path of parts. -/
def readSlot (proj : P → V → V) (m : Frame V) (s : Slot P) : V :=
  s.path.foldl (fun v p => proj p v) (m s.base)

variable {E : Type}

/-- One bound operator: it reads its inputs and either reports an error or writes its output. -/
def Instr.run (apply : F → List V → Except E V) (proj : P → V → V) (m : Frame V) :
    Instr F P → Except E (Frame V)
  | .compute f args out =>
    match apply f (args.map (readSlot proj m)) with
    | .error e => .error e
    | .ok v => .ok (setAt m out v)
  | .copy src out => .ok (setAt m out (readSlot proj m src))

/-- `RunBoundOperators`, /repo/arolla/qexpr/bound_operators.cc 32-63: stop at the first error (no
jumps are emitted here; for jumps see `Verif/Eval`, for cancellation `Verif/Conc`). -/
def execute (apply : F → List V → Except E V) (proj : P → V → V) :
    List (Instr F P) → Frame V → Except E (Frame V)
  | [], m => .ok m
  | c :: cs, m =>
    match c.run apply proj m with
    | .error e => .error e
    | .ok m => execute apply proj cs m

/-- The initialisation of literals, executable_builder.cc 241-250. -/
def initLiterals : List (Nat × V) → Frame V → Frame V
  | [], m => m
  | (s, v) :: ls, m => initLiterals ls (setAt m s v)

end

end Verif.Slots
