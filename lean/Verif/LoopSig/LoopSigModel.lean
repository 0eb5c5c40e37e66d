import Verif.Sig.SigModel

/-!
# Model of how while loops are made and of their fingerprints

`arolla/expr/operators/while_loop/while_loop.cc`.  Signatures and their texts are those of `SigModel`.  An operator is its fingerprint and its
signature; the fingerprint of a loop is the list of what is combined (collision-free).
-/

namespace Verif.LoopSig

open Verif.Sig

variable {V : Type}

/-- `ExprOperator`: `fingerprint()` and `GetSignature()`. -/
structure Operator (V : Type) where
  fp : Nat
  sig : Signature V

/-- `WhileLoopOperator` — while_loop.h:80-117. -/
structure WhileOp (V : Type) where
  name : List Nat
  sig : Signature V
  cond : Operator V
  body : Operator V

/-- The errors of `Make`. -/
inductive MakeErr
  | noParameters
  | bodySignature
  | conditionSignature
  deriving DecidableEq

/-- `WhileLoopOperator::Make` — while_loop.cc:275-301. -/
def makeLoop (name : List Nat) (sig : Signature V) (cond body : Operator V) : Except MakeErr (WhileOp V) :=
  if sig.params.isEmpty then .error .noParameters
  else if showSpec sig ≠ showSpec body.sig then .error .bodySignature
  else if showSpec sig ≠ showSpec cond.sig then .error .conditionSignature
  else .ok ⟨name, sig, cond, body⟩

/-- What the fingerprint is made of — while_loop.cc:310-312. -/
def WhileOp.fingerprint (w : WhileOp V) : List Nat × Nat × Nat := (w.name, w.cond.fp, w.body.fp)

/-- What the fingerprint of a lambda operator has of the signature: all of it — lambda_expr_operator.cc:155-158,
expr_operator_signature.cc:407-417. -/
def sigFingerprint (s : Signature V) : Nat × List (List Nat × Kind × Option V) × List Nat × List Nat :=
  (s.params.length, s.params.map (fun p => (p.name, p.kind, p.dflt)), s.auxName, s.auxOpts)

end Verif.LoopSig
