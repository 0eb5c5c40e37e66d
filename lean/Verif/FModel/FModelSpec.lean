import Verif.FModel.FModelModel
import Mathlib.Algebra.BigOperators.Group.List.Basic

/-!
# Specification of the value of a forest model

`P.x` in bag `b` stands for the trees of the submodel `submodel_ids['x'][b]`; the weights of the trees contain the
division by the number of bags, which is undone inside a bag.  The value of the model is the mean of the values of the
expression over the enabled bags.
-/

namespace Verif.FModel

instance : Zero V := ⟨.val 0⟩
instance : Add V := ⟨V.add⟩

/-- Sums of optional numbers are missing if one summand is missing. -/
instance : AddCommMonoid V where
  add_assoc a b c := by
    cases a <;> cases b <;> cases c <;> first | rfl | exact congrArg V.val (Rat.add_assoc _ _ _)
  zero_add a := by
    cases a
    · rfl
    · exact congrArg V.val (Rat.zero_add _)
  add_zero a := by
    cases a
    · rfl
    · exact congrArg V.val (Rat.add_zero _)
  add_comm a b := by
    cases a <;> cases b <;> first | rfl | exact congrArg V.val (Rat.add_comm _ _)
  nsmul := nsmulRec

/-- Trees below the truncation step. -/
def below (upTo : Option Nat) (tag : Forest.Tag) : Bool :=
  match upTo with
  | none => true
  | some n => decide (tag.step < n)

/-- The sum of the weighted adjustments of the trees of one submodel, below the truncation step. -/
def submodelSum (trees : List T) (upTo : Option Nat) (id : Int) : Rat :=
  ((trees.filter fun t => decide (t.tag.submodel = id) && below upTo t.tag).map
    fun t => t.adj * t.weight).sum

/-- The meaning of the placeholders of an expression without submodels. -/
def inputEnv (inputs : List (Key × V)) : Src → Option V
  | .leaf _ => none
  | .ph k => inputs.lookup k

/-- The meaning of the placeholders of the expression in bag `b` of `n`. -/
def bagEnv (a : Args) (n : Nat) (inputs : List (Key × V)) (b : Nat) : Src → Option V
  | .leaf _ => none
  | .ph k =>
    match a.submodelIds.lookup k with
    | some ids => (ids[b]?).map fun id => .val (n * submodelSum a.trees a.truncation id)
    | none => inputs.lookup k

/-- The mean of the values which are enabled; missing if there is none. -/
def mean (xs : List (Bool × V)) : V :=
  let on := (xs.filter Prod.fst).map Prod.snd
  if on.isEmpty then .missing else on.sum.div (.val on.length)

/-- `v` is a value of the model with `n` bags on the given inputs: the mean over the enabled bags.  Without out-of-bag
filters all bags are enabled. -/
def Value (I : Nat → List V → Option V) (a : Args) (n : Nat) (inputs : List (Key × V)) (v : V) : Prop :=
  ∃ vs : List V, vs.length = n ∧
    (∀ b x, vs[b]? = some x → eval I (bagEnv a n inputs b) a.expression = some x) ∧
    match a.oob with
    | none => v = mean (vs.map fun x => (true, x))
    | some fs => ∃ ws : List V, fs.map (eval I (inputEnv inputs)) = ws.map some ∧
        v = mean ((ws.map V.present).zip vs)

end Verif.FModel
