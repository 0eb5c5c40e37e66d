import Verif.Serial.SerialSpec

namespace Verif.Serial
open Verif.Expr

/-! ## A language with integers, pairs, operators and lambda operators -/

/-- Values: `lam n` is the lambda operator with body `op0(L.n, n)`. -/
inductive Val where
  | int (n : Nat)
  | op (n : Nat)
  | pair (a b : Val)
  | lam (n : Nat)
deriving DecidableEq

/-- The body of a lambda operator. -/
def body (n : Nat) : Ex Val Nat :=
  .mk (.op (.op 0)) 2 [.mk (.leaf [n]) 0 [], .mk (.literal (.int n)) 1 []]

/-- Attributes are numbers: 0 for none, 1 for literals, for operators the number of arguments. -/
def exLang : Lang Val Val Nat Unit where
  infer := fun _ as => .ok as.length
  depsError := ()
  litAttr := fun _ => 1
  noAttr := 0

/-- The value encoders: two codecs. -/
def exPlan : Val → Plan Val Nat Nat Unit
  | .int n => ⟨.ok [1], [], .ok (2 * n)⟩
  | .op n => ⟨.ok [1], [], .ok (2 * n + 1)⟩
  | .pair a b => ⟨.ok [2], [.value a, .value b], .ok 0⟩
  | .lam n => ⟨.ok [2], [.expr (some (body n))], .ok 1⟩

/-- The decoder of the first codec. -/
def exDec1 : VDec Val Nat Nat Unit := fun p _ _ => .ok (some (if p.ext % 2 = 0 then .int (p.ext / 2) else .op (p.ext / 2)))

/-- The decoder of the second codec. -/
def exDec2 : VDec Val Nat Nat Unit := fun _ vs es =>
  match vs, es with
  | [a, b], [] => .ok (some (.pair a b))
  | [], [.mk _ _ [.mk (.leaf [n]) _ _, _]] => .ok (some (.lam n))
  | _, _ => .error ()

/-- The decoder options. -/
def exOpts : Opts Val Nat Nat Unit where
  infer := true
  provider := some (fun n => if n = [1] then .ok exDec1 else if n = [2] then .ok exDec2 else .error ())
  isOp := fun v => match v with | .op _ => true | .lam _ => true | _ => false
  lang := exLang

end Verif.Serial
