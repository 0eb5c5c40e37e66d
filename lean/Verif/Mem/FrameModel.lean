/-!
# Model of `arolla/memory/frame.h` and `frame.cc`

A C++ type is given by its size, its alignment and whether it needs initialisation or destruction.  Sizes and offsets
are unbounded (`size_t` does not overflow).  The debug-only set of registered fields is not modelled.
-/

namespace Verif.Mem

/-- A type `T`; `id` is its `std::type_index`. -/
structure Ty where
  id : Nat
  size : Nat
  align : Nat
  /-- `!is_bzero_constructible<T>() || !std::is_trivially_destructible<T>()` -/
  special : Bool
  deriving DecidableEq, Repr

/-- `RoundUp` — util/algorithms.h:290-293. -/
def roundUp (value divisor : Nat) : Nat := (value + divisor - 1) / divisor * divisor

/-- `FieldFactory` — frame.h:250-358: the type and the offsets. -/
structure Factory where
  type : Ty
  offsets : List Nat
  deriving DecidableEq, Repr

/-- `FieldInitializers` — `type2factory` maps a type to the number of its factory. -/
structure Initializers where
  factories : List Factory := []
  type2factory : List (Ty × Nat) := []
  deriving DecidableEq, Repr

/-- `type2factory.find`. -/
def Initializers.find (s : Initializers) (t : Ty) : Option Nat :=
  (s.type2factory.find? fun e => e.1 = t).map Prod.snd

/-- `AddOffsetToFactory` — frame.cc:55-68. -/
def Initializers.addOffset (s : Initializers) (offset : Nat) (t : Ty) : Initializers :=
  let (s, i) : Initializers × Nat := match s.find t with
    | some i => (s, i)
    | none =>
      (⟨s.factories ++ [⟨t, []⟩], s.type2factory ++ [(t, s.factories.length)]⟩, s.factories.length)
  if i < s.factories.length then
    { s with factories := s.factories.modify i fun f => { f with offsets := f.offsets ++ [offset] } }
  else s

/-- `FieldFactory::Derive` — frame.cc:46-53. -/
def Factory.derive (f : Factory) (offset : Nat) : Factory := { f with offsets := f.offsets.map (· + offset) }

/-- The loop of `FieldInitializers::AddDerived` — frame.cc:70-82; a reference out of the vector is `none`. -/
def Initializers.addDerivedLoop (offset : Nat) (derived : Initializers) :
    List (Ty × Nat) → Initializers → Option Initializers
  | [], s => some s
  | (t, id) :: rest, s => do
    let f ← derived.factories[id]?
    match s.find t with
    | some i =>
      if i < s.factories.length then
        addDerivedLoop offset derived rest
          { s with factories := s.factories.modify i fun g => { g with offsets := g.offsets ++ (f.derive offset).offsets } }
      else none
    | none =>
      addDerivedLoop offset derived rest
        { factories := s.factories ++ [f.derive offset], type2factory := s.type2factory ++ [(t, s.factories.length)] }

/-- `FrameLayout`. -/
structure Layout where
  init : Initializers
  allocSize : Nat
  allocAlign : Nat

/-- `FrameLayout::Builder` — frame.h:400-504. -/
structure Builder where
  init : Initializers := {}
  allocSize : Nat := 0
  allocAlign : Nat := 1

/-- `AddSlot<T>` — frame.h:405-427: the builder and the offset of the slot. -/
def Builder.addSlot (b : Builder) (t : Ty) : Builder × Nat :=
  let offset := roundUp b.allocSize t.align
  ({ init := if t.special then b.init.addOffset offset t else b.init
     allocSize := offset + t.size
     allocAlign := max b.allocAlign t.align }, offset)

/-- `AddSubFrame` — frame.cc:85-98; `order` is the order in which the hash map of the subframe is iterated. -/
def Builder.addSubFrame (b : Builder) (sub : Layout) (order : List (Ty × Nat)) : Option (Builder × Nat) := do
  let offset := roundUp b.allocSize sub.allocAlign
  let init ← Initializers.addDerivedLoop offset sub.init order b.init
  pure ({ init, allocSize := offset + sub.allocSize, allocAlign := max b.allocAlign sub.allocAlign }, offset)

/-- `Build` — frame.h:463-466. -/
def Builder.build (b : Builder) : Layout := ⟨b.init, roundUp b.allocSize b.allocAlign, b.allocAlign⟩

/-- `RegisterSlot` (without the debug part) — frame.cc:105-126; `none` stands for `kUninitializedOffset`. -/
def Builder.registerSlot (b : Builder) (offset : Option Nat) (size : Nat) : Bool :=
  match offset with
  | none => false
  | some o => !(decide (o > b.allocSize) || decide (size > b.allocSize - o))

/-- `InitializeAlignedAllocN` and `DestroyAllocN` — frame.h:381-397: the objects constructed (destroyed) in `n` blocks,
as pairs of the type and the offset from the start of the allocation. -/
def Layout.objectsN (l : Layout) (n : Nat) : List (Ty × Nat) :=
  l.init.factories.flatMap fun f => (List.range n).flatMap fun i => f.offsets.map fun o => (f.type, o + i * l.allocSize)

/-- `InitializeAlignedAlloc` and `DestroyAlloc` — frame.h:365-379. -/
def Layout.objects (l : Layout) : List (Ty × Nat) :=
  l.init.factories.flatMap fun f => f.offsets.map fun o => (f.type, o)

end Verif.Mem
