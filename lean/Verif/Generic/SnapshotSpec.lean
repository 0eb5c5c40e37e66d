import Verif.Generic.SnapshotModel
import Verif.Reg.RegSpec

/-! # Specification of the snapshots of overloads -/

namespace Verif.Generic

open Verif.Reg

/-- Names `ns.…` -/
def Under (ns n : Name) : Prop := ∃ t, n = ns ++ 46 :: t

/-- From `st` to `e`, no call about the name `n` was in progress at the beginning, and none has changed its operator since. -/
def Untouched (n : Name) (st e : St) : Prop := (∀ pc ∈ st.ops, pc.name ≠ n) ∧ stores n e.log = stores n st.log

/-- The snapshot has exactly the overload registered under the name. -/
def ExactAt (isOverload : Nat → Bool) (e : St) (s : Snap) (n : Name) : Prop :=
  ∀ x, (n, x) ∈ s.overloads ↔ lookup e n = some x ∧ isOverload x = true

/-- What a call should return: exactly the overloads that nobody changed while the call was running, no name twice. -/
def Fresh (ns : Name) (isOverload : Nat → Bool) (st : St) (s : Snap) (e : St) : Prop :=
  (s.overloads.map (·.1)).Nodup ∧ ∀ n, Under ns n → Untouched n st e → ExactAt isOverload e s n

/-- The claim, for all interleavings in which calls of the registry about one name do not overlap. -/
def AlwaysFresh (ns : Name) (isOverload : Nat → Bool) (quiet : Bool) : Prop :=
  ∀ acts g, grun ns isOverload quiet GSt.init acts = some g → ∀ st s e, (st, s, e) ∈ g.rets → Fresh ns isOverload st s e

end Verif.Generic
