import Mathlib.Data.List.Forall2
import Verif.FCodec.FCodecModel

/-!
# What a message with a forest means

Independent of the decoder: which messages describe a forest (`Valid`) and which forest they describe (`Describes`).
-/

namespace Verif.FCodec

open Verif.Forest (Ref NodeId)

/-- The node id of memory as a reference to a leaf or to a split node. -/
def toRef (n : NodeId) : Ref := if n.val < 0 then .leaf (-n.val - 1).toNat else .split n.val.toNat

/-- A node id of a message is present, not negative and names this node. -/
inductive Names : PNode → Ref → Prop
  | split (k : Nat) : Names (.split (k : Int)) (.split k)
  | leaf (k : Nat) : Names (.adjustment (k : Int)) (.leaf k)

/-- A node which the tree of the message has. -/
def Exists {F : Type} (t : PTree F) : Ref → Prop
  | .split k => k < t.splits.length
  | .leaf k => k < t.adjustments.length

/-- The condition is the one written in the message. -/
inductive SameCond {F : Type} : PCond F → Cond F → Prop
  | interval (input : Int) (l r : F) : SameCond (.interval input l r) (.interval input l r)
  | setI64 (input : Int) (ps vs : List Int) (d : Bool) :
      vs.Pairwise (· < ·) → (∀ x, x ∈ vs ↔ x ∈ ps) → SameCond (.setI64 input ps d) (.setI64 input vs d)

/-- The condition of a message has input `id` of type `q`. -/
inductive Input {F : Type} : PCond F → Int → Ty → Prop
  | interval (id : Int) (l r : F) : Input (.interval id l r) id .optFloat32
  | setI64 (id : Int) (vs : List Int) (d : Bool) : Input (.setI64 id vs d) id .optInt64

/-- A tree of a message is complete and all references in it lead to existing nodes. -/
structure ValidTree {F : Type} (t : PTree F) : Prop where
  submodel : 0 ≤ t.submodel
  step : 0 ≤ t.step
  regions : t.adjustments.length = t.splits.length + 1
  conds : ∀ n ∈ t.splits, n.cond ≠ .unset
  children : ∀ n ∈ t.splits, ∀ c, (c = n.ifFalse ∨ c = n.ifTrue) → ∃ r, Names c r ∧ Exists t r

/-- A message describes a forest. -/
structure Valid {F : Type} (p : PForest F) : Prop where
  trees : ∀ t ∈ p, ValidTree t
  inputs : ∀ id q q', (∃ t ∈ p, ∃ n ∈ t.splits, Input n.cond id q) → (∃ t ∈ p, ∃ n ∈ t.splits, Input n.cond id q') →
    q = q'

/-- All node ids of a message are present and not negative. -/
def Named {F : Type} (p : PForest F) : Prop :=
  ∀ t ∈ p, ∀ n ∈ t.splits, (∃ r, Names n.ifFalse r) ∧ ∃ r, Names n.ifTrue r

/-- The step and the submodel id of every tree are below `INT_MAX`. -/
def SmallTags {F : Type} (p : PForest F) : Prop := ∀ t ∈ p, t.step < 2 ^ 31 - 1 ∧ t.submodel < 2 ^ 31 - 1

/-- A split node in memory is the one of the message. -/
structure SameSplit {F : Type} (p : PSplit F) (s : Split F) : Prop where
  ifFalse : Names p.ifFalse (toRef s.ifFalse)
  ifTrue : Names p.ifTrue (toRef s.ifTrue)
  cond : SameCond p.cond s.cond

/-- A tree in memory is the one of the message. -/
structure SameTree {F : Type} (p : PTree F) (t : Tree F) : Prop where
  splits : List.Forall₂ SameSplit p.splits t.splits
  adjustments : t.adjustments = p.adjustments
  weight : t.weight = p.weight
  step : t.tag.step = p.step
  submodel : t.tag.submodel = p.submodel

/-- A forest the codec supports: only intervals and sets of integers (which are sorted vectors). -/
def Supported {F : Type} (trees : List (Tree F)) : Prop :=
  ∀ t ∈ trees, ∀ n ∈ t.splits, (∃ input l r, n.cond = .interval input l r) ∨
    ∃ input vs d, n.cond = .setI64 input vs d ∧ vs.Pairwise (· < ·)

end Verif.FCodec
