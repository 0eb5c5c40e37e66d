import Verif.Group.GroupInst

/-!
# Concrete group operations

The hypotheses of the theorems of `GroupProps` hold for them, and the outcomes are shown.
-/

namespace Verif.Group
open Verif.Bits Verif.Bitmap Verif.Dense Verif.Arr Verif.Agg

/-- `math.sum` of 32-bit integers. -/
def sumOp : GroupOp Int Unit (BitVec 32) (Option (BitVec 32)) Empty (Opt (BitVec 32)) (BitVec 32) where
  acc := sum 32 none
  empty := ⟨false, 0⟩
  kind := .aggregator
  forward := false
  idOf := id
  parg := fun _ => ()
  carg := fun _ l => match l with | [some v] => BitVec.ofInt 32 v | _ => 0
  opt := id

/-- `array.inverse_mapping`. -/
def invOp : GroupOp Int Unit (Option Int) (Option (Option Nat)) String InverseState Nat where
  acc := inverseMapping
  empty := ⟨0, [], [], none⟩
  kind := .full
  forward := false
  idOf := id
  parg := fun _ => ()
  carg := fun _ l => match l with | [v] => v | _ => none
  opt := fun r => r.join

/-- `math.cum_sum`, which is a partial accumulator. -/
def cumOp : GroupOp Int Unit (BitVec 32) (Option (BitVec 32)) Empty (Opt (BitVec 32)) (BitVec 32) :=
  { sumOp with kind := .partial' }

def exEnv (S β : Type) [Inhabited β] : Env Int S β :=
  ⟨fun _ => 0, fun _ => 0, fun _ _ => false, fun _ => default, fun _ => 0, List.reverse⟩

theorem exEnv_ptr (S β : Type) [Inhabited β] : PtrEq (exEnv S β).pe := fun _ _ h => by cases h
theorem exEnv_order (S β : Type) [Inhabited β] (l : List (Nat × S)) : ((exEnv S β).order l).Perm l := List.reverse_perm l

/-- 3 7 3 3 _ 3: a sparse array with a value for missing ids. -/
def chA : AArg Int := ⟨false, ⟨6, ⟨.partial', [1, 4], 0⟩, ⟨[7, 9], [0b01#32], 0⟩, some 3⟩⟩
/-- 2 and 5 in rows 2 and 1. -/
def chB : AArg Int := ⟨false, ⟨6, ⟨.partial', [11, 12], 10⟩, ⟨[5, 2], [], 0⟩, none⟩⟩
/-- The same values in a dense array. -/
def chB' : AArg Int := ⟨false, ⟨6, .fullF, ⟨[0, 5, 2, 0, 0, 0], [0b000110#32], 0⟩, none⟩⟩
/-- 1 0 _ 3 3 3 -/
def chC : AArg Int := ⟨true, ⟨6, .fullF, ⟨[1, 0, 5, 3, 3, 3], [0b111011#32], 0⟩, none⟩⟩

/-- Split points 0 2 2 6. -/
def exSplit : GEdge (Arr Int) := ⟨true, 3, 6, ⟨4, .fullF, ⟨[0, 2, 2, 6], [], 0⟩, none⟩⟩
/-- The same edge as a mapping: 0 0 2 2 2 2. -/
def exMap : GEdge (Arr Int) := ⟨false, 3, 6, ⟨6, ⟨.partial', [0, 1], 0⟩, ⟨[0, 0], [], 0⟩, some 2⟩⟩
/-- A sparse mapping: _ 0 2 _ _ 0. -/
def exMap' : GEdge (Arr Int) := ⟨false, 3, 6, ⟨6, ⟨.partial', [1, 2, 5], 0⟩, ⟨[0, 2, 0], [], 0⟩, none⟩⟩

theorem chA_ok : ArgsOk 6 [chA] := by
  intro a ha; simp only [List.mem_singleton] at ha; subst ha
  exact ⟨⟨⟨by decide, Or.inr (by decide)⟩, ⟨by decide, by decide, by decide, by decide⟩, rfl⟩, rfl⟩
theorem chB_ok : ArgsOk 6 [chB] := by
  intro a ha; simp only [List.mem_singleton] at ha; subst ha
  exact ⟨⟨⟨by decide, Or.inl rfl⟩, ⟨by decide, by decide, by decide, by decide⟩, rfl⟩, rfl⟩
theorem chB'_ok : ArgsOk 6 [chB'] := by
  intro a ha; simp only [List.mem_singleton] at ha; subst ha
  exact ⟨⟨⟨by decide, Or.inr (by decide)⟩, ⟨rfl, rfl⟩, ⟨rfl, rfl⟩⟩, rfl⟩
theorem chC_ok : ArgsOk 6 [chC] := by
  intro a ha; simp only [List.mem_singleton] at ha; subst ha
  exact ⟨⟨⟨by decide, Or.inr (by decide)⟩, ⟨rfl, rfl⟩, ⟨rfl, rfl⟩⟩, rfl⟩

theorem exSplit_valid : exSplit.values.Valid := ⟨⟨by decide, Or.inl rfl⟩, ⟨rfl, rfl⟩, ⟨rfl, rfl⟩⟩
theorem exMap_valid : exMap.values.Valid := ⟨⟨by decide, Or.inl rfl⟩, ⟨by decide, by decide, by decide, by decide⟩, rfl⟩
theorem exMap'_valid : exMap'.values.Valid := ⟨⟨by decide, Or.inl rfl⟩, ⟨by decide, by decide, by decide, by decide⟩, rfl⟩

theorem exSplit_ok : EdgeOk id exSplit exSplit.values.elem exSplit.values.size := by
  unfold EdgeOk
  rw [if_pos (show exSplit.isSplit = true from rfl)]
  have h : ∀ i : Fin 4, (exSplit.values.elem i).isSome = true := by decide +kernel
  have h' : ∀ i : Fin 3, pt id exSplit.values.elem i ≤ pt id exSplit.values.elem (i + 1) := by decide +kernel
  exact ⟨rfl, fun i hi => h ⟨i, Nat.lt_succ_of_le hi⟩, by decide +kernel, fun i hi => h' ⟨i, hi⟩, by decide +kernel⟩

theorem mapEdge_ok {e : GEdge (Arr Int)} (h0 : e.isSplit = false) (hs : e.values.size = e.childSize)
    (h : ((List.range e.childSize).all fun c => (e.values.elem c).all fun v => decide (0 ≤ v ∧ v < (e.parentSize : Int))) = true) :
    EdgeOk id e e.values.elem e.values.size := by
  unfold EdgeOk
  rw [if_neg (by simp [h0])]
  refine ⟨hs, fun c hc v hv => ?_⟩
  have := List.all_eq_true.1 h c (List.mem_range.2 hc)
  rw [hv] at this
  simpa using this

theorem exMap_ok : EdgeOk id exMap exMap.values.elem exMap.values.size := mapEdge_ok rfl rfl (by decide +kernel)
theorem exMap'_ok : EdgeOk id exMap' exMap'.values.elem exMap'.values.size := mapEdge_ok rfl rfl (by decide +kernel)

/-- The elements of the outcome. -/
def shown (r : Option (Except (GErr E) (Arr β))) : Option (Option (List (Option β))) :=
  r.map fun x => match x with | .ok x => some x.elems | .error _ => none

/-! `array_group_op` applies to all of these. -/

example := array_group_op (sum_lawful sumOp rfl) (exEnv_ptr _ _) (exEnv_order _ _) true exSplit_valid exSplit_ok (fun _ => rfl)
  (pargs := []) (by intro a ha; cases ha) chA_ok (fun _ h => by cases h)
example : shown (sumOp.apply (exEnv _ _) true exSplit [] [chA]) = some (some [some 10, none, some 9]) := by decide +kernel

example := array_group_op (sum_lawful sumOp rfl) (exEnv_ptr _ _) (exEnv_order _ _) false exMap'_valid exMap'_ok
  (fun h => by cases h) (pargs := []) (by intro a ha; cases ha) chA_ok (fun _ h => by cases h)
example : shown (sumOp.apply (exEnv _ _) false exMap' [] [chA]) = some (some [some 10, none, some 3]) := by decide +kernel

example := array_group_op (sum_lawful cumOp rfl) (exEnv_ptr _ _) (exEnv_order _ _) false exMap'_valid exMap'_ok
  (fun h => by cases h) (pargs := []) (by intro a ha; cases ha) chA_ok (fun h => by cases h)
example : shown (cumOp.apply (exEnv _ _) false exMap' [] [chA]) =
    some (some [none, some 7, some 3, none, none, some 10]) := by decide +kernel

/-- A group with a valid and one with an invalid permutation: the first alone has a result. -/
example := array_group_op (inverseMapping_lawful invOp rfl rfl rfl) (exEnv_ptr _ _) (exEnv_order _ _) true exSplit_valid
  exSplit_ok (fun _ => rfl) (pargs := []) (by intro a ha; cases ha) chC_ok (fun h => by cases h)
example : shown (invOp.apply (exEnv _ _) true exSplit [] [chC]) = some none := by decide +kernel
example : shown (invOp.apply (exEnv _ _) true exMap' [] [⟨true, ⟨6, ⟨.partial', [1, 2, 5], 0⟩, ⟨[1, 0, 0], [], 0⟩, none⟩⟩]) =
    some (some [none, some 1, some 0, none, none, some 0]) := by decide +kernel

/-- The very sparse cases. -/
example := array_group_op (sum_lawful sumOp rfl) (exEnv_ptr _ _) (exEnv_order _ _) true exSplit_valid exSplit_ok (fun _ => rfl)
  (pargs := []) (by intro a ha; cases ha) chB_ok (fun _ h => by cases h)
example : shown (sumOp.apply (exEnv _ _) true exSplit [] [chB]) = some (some [some 5, none, some 2]) := by decide +kernel

/-- Split points or mapping, sparse or dense. -/
example := group_op_representation (sum_lawful sumOp rfl) (exEnv_ptr _ _) (exEnv_ptr _ _) (exEnv_order _ _) (exEnv_order _ _)
  true false exSplit_valid exSplit_ok (fun _ => rfl) (pargs := []) (pargs' := []) (by intro a ha; cases ha) chB_ok
  (fun _ h => by rcases h with h | h <;> cases h) exMap_valid exMap_ok (fun h => by cases h) (by intro a ha; cases ha) chB'_ok
  rfl rfl (fun _ _ => rfl)
  (fun c hc => (by decide +kernel : ∀ c : Fin 6, row [chB] c = row [chB'] c) ⟨c, hc⟩)
  (fun c hc => (by decide +kernel : ∀ c : Fin 6, edgeParent id exSplit exSplit.values.elem c =
    edgeParent id exMap exMap.values.elem c) ⟨c, hc⟩)

/-- Dense arrays only. -/
def dSplit : GEdge (DArr Int) := ⟨true, 3, 6, exSplit.values.data⟩
example : DArgs 6 [⟨true, chC.arr.data⟩] := by
  intro a ha; simp only [List.mem_singleton] at ha; subst ha
  exact ⟨⟨by decide, Or.inr (by decide)⟩, rfl⟩
example : (sumOp.denseApply (fun _ => 0) dSplit [] [⟨false, chC.arr.data⟩]).map (fun r => match r with
    | .ok x => some (Dense.elems x) | .error _ => none) = some (some [some 1, none, some 9]) := by decide +kernel
/-- A size mismatch. -/
example : (∃ a ∈ ([] : List (AArg Int)), a.arr.size ≠ exSplit.parentSize) ∨
    ∃ a ∈ [(⟨false, ⟨5, .emptyF, ⟨[], [], 0⟩, some 1⟩⟩ : AArg Int)], a.arr.size ≠ exSplit.childSize :=
  Or.inr ⟨_, List.mem_singleton.2 rfl, by decide⟩

/-- One group. -/
example := array_group_scalar (sum_lawful cumOp rfl) (exEnv_ptr _ _) false () chA_ok (fun h => by cases h)
example : (cumOp.scalar (exEnv _ _) false 6 () [chA]).map (fun r => match r with
    | .ok (.array x) => some x.elems | _ => none) = some (some [some 3, some 10, some 13, some 16, none, some 19]) := by
  decide +kernel
example : (sumOp.scalar (exEnv _ _) false 6 () [chA]).map (fun r => match r with
    | .ok (.value x) => x | _ => none) = some (some 19) := by decide +kernel

/-! Without child arguments `AddN` is called with 0 rows, so that the number of rows must not be ignored. -/

def anyOp : GroupOp Int Unit Unit Bool Empty Bool Bool where
  acc := any
  empty := false
  kind := .aggregator
  forward := false
  idOf := id
  parg := fun _ => ()
  carg := fun _ _ => ()
  opt := some

def countOp : GroupOp Int Unit Unit Int Empty Int Int where
  acc := count
  empty := 0
  kind := .aggregator
  forward := false
  idOf := id
  parg := fun _ => ()
  carg := fun _ _ => ()
  opt := some

theorem countOp_zero : ZeroOk countOp Eq := by
  intro _ s s' h
  have : countOp.acc.addN 0 (countOp.carg none []) s = s := by simp [countOp, count]
  rw [this]
  exact h

example := array_group_op (count_lawful countOp rfl) (exEnv_ptr _ _) (exEnv_order _ _) true exSplit_valid exSplit_ok
  (fun _ => rfl) (pargs := []) (cargs := []) (by intro a ha; cases ha) (by intro a ha; cases ha) (fun _ _ => countOp_zero)
example : shown (countOp.apply (exEnv _ _) false exSplit [] []) = some (some [some 2, some 0, some 4]) := by decide +kernel

/-- `AnyAccumulator` without child arguments would report rows in an empty group. -/
theorem group_op_no_children_counterexample :
    shown (anyOp.apply (exEnv _ _) false exSplit [] []) = some (some [some true, some true, some true]) ∧
      anyOp.expected (arrData id exSplit [] []) 1 = some false := by
  constructor <;> decide +kernel

end Verif.Group
