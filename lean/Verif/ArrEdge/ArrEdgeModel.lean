import Verif.Codec.ArrayCodecModel

/-!
# Model of conversions, composition and comparison of array edges

`arolla/array/edge.{h,cc}`.  The class and its constructors are in `Verif.Codec.ArrayCodecModel`, edges of dense arrays in
`Verif.Edge.EdgeModel`.
-/

namespace Verif.ArrEdge
open Verif.Bits Verif.Dense Verif.Arr Verif.Codec

/-- `ToDenseArrayEdge` — edge.h:112-116. -/
def toDenseArrayEdge (env : Env) (e : AEdge) : Option Edge.Edge := do
  let v ← e.values.toDenseForm env.mem env.bmem env.pe
  some ⟨e.typ, e.parentSize, e.childSize, v.data⟩

/-- `FromDenseArrayEdge` — edge.h:119-122. -/
def fromDenseArrayEdge (e : Edge.Edge) : AEdge := ⟨e.typ, e.parentSize, e.childSize, Arr.ofDense e.values⟩

/-- `FromUniformGroups` — edge.cc:89-95. -/
def fromUniformGroups (parentSize groupSize : Int) : Option (Except String AEdge) := do
  match ← Edge.fromUniformGroups parentSize groupSize with
  | .error m => some (.error m)
  | .ok e => some (.ok (fromDenseArrayEdge e))

/-- `ToMappingEdge` — edge.cc:104-108. -/
def toMappingEdge (env : Env) (e : AEdge) : Option AEdge :=
  match e.typ with
  | .mapping => some e
  | .splitPoints => do some (fromDenseArrayEdge (← Edge.toMappingEdge env.mem (← toDenseArrayEdge env e)))

/-- `ToSplitPointsEdge` — edge.cc:110-117. -/
def toSplitPointsEdge (env : Env) (e : AEdge) : Option (Except String AEdge) :=
  if e.typ = .splitPoints then some (.ok e)
  else do
    match ← Edge.toSplitPointsEdge env.mem (← toDenseArrayEdge env e) with
    | .error m => some (.error m)
    | .ok d => some (.ok (fromDenseArrayEdge d))

/-- `ComposeEdges` — edge.cc:119-131. -/
def composeEdges (env : Env) (es : List AEdge) : Option (Except String AEdge) := do
  let converted ← es.mapM (toDenseArrayEdge env)
  match ← Edge.composeEdges env.mem converted with
  | .error m => some (.error m)
  | .ok d => some (.ok (fromDenseArrayEdge d))

/-- `ArraysAreEquivalent` on `Array<int64_t>`; the oracles are for its three comparisons of pointers. -/
def arraysEq (env : Env) (pe1 pe2 : List Int → List Int → Bool) (a b : Arr Int) : Option Bool :=
  Arr.equivalent env.mem env.bmem env.pe pe1 pe2 a b

/-- `IsEquivalentTo` — edge.cc:133-149. -/
def isEquivalentTo (env : Env) (pe1 pe2 : List Int → List Int → Bool) (a b : AEdge) : Option Bool :=
  if a.parentSize ≠ b.parentSize ∨ a.childSize ≠ b.childSize then some false
  else if a.typ = b.typ then arraysEq env pe1 pe2 a.values b.values
  else do
    match ← toSplitPointsEdge env a with
    | .error _ => some false
    | .ok a' =>
      match ← toSplitPointsEdge env b with
      | .error _ => some false
      | .ok b' => arraysEq env pe1 pe2 a'.values b'.values

/-- `split_size` — edge.h:103-109. -/
def splitSize (e : AEdge) (i : Nat) : Option Int := do
  some ((← e.values.data.values[i + 1]?) - (← e.values.data.values[i]?))

end Verif.ArrEdge
