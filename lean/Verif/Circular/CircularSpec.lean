import Verif.Circular.CircularModel

/-!
# Circular dependencies: specification
-/

namespace Verif.Circular

variable {N O : Type} [DecidableEq N] [DecidableEq O]

/-- The operator after `n` implementations, `none` if one is missing or there is nothing left to follow. -/
def follow (registry : List (N × Op N O)) : Nat → Op N O → Option (Op N O)
  | 0, op => some op
  | n + 1, .reg name => (implementation registry name).bind (follow registry n)
  | _ + 1, .other _ => none

/-- Following the implementations leads to this operator, which is not a registered operator. -/
def EndsAt (registry : List (N × Op N O)) (op : Op N O) (o : O) : Prop := ∃ n, follow registry n op = some (.other o)

/-- Following the implementations leads to a registered operator without implementation. -/
def EndsMissing (registry : List (N × Op N O)) (op : Op N O) : Prop :=
  ∃ n name, follow registry n op = some (.reg name) ∧ implementation registry name = none

/-- Following the implementations never ends. -/
def Endless (registry : List (N × Op N O)) (op : Op N O) : Prop := ∀ n, ∃ name, follow registry n op = some (.reg name)

variable {K R : Type}

/-- The calls without a guard, to a depth. -/
def runDirect (ev : K → Option R) : Body K R → Option R
  | .ret r => some r
  | .call k cont =>
    match ev k with
    | none => none
    | some r => runDirect ev (cont r)

def direct (body : K → Body K R) : Nat → K → Option R
  | 0, _ => none
  | n + 1, k => runDirect (direct body n) (body k)

/-- The call ends without a guard, with this result. -/
def Terminates (body : K → Body K R) (k : K) (r : R) : Prop := ∃ n, direct body n k = some r

/-- A method calls only methods of this set. -/
def CallsOnly (S : K → Prop) : Body K R → Prop
  | .ret _ => True
  | .call k cont => S k ∧ ∀ r, CallsOnly S (cont r)

end Verif.Circular
