import Verif.BackendOp.BackendOpModel
import Verif.Generic.DispatchSpec

/-! # Specification of the type inference of operators with type constraints -/

namespace Verif.BackendOp

open Verif.Generic

variable {T : Type}

/-- The types that the constraint uses are known. -/
def Known (tuple : List T → T) (sig : List Param) (inputs : List (Option T)) (c : Constraint T) : Prop :=
  ∃ env, Env tuple sig c.uses inputs env

/-- The types that the constraint uses are known and the predicate holds for them. -/
def Holds (tuple : List T → T) (sig : List Param) (inputs : List (Option T)) (c : Constraint T) : Prop :=
  ∃ env, Env tuple sig c.uses inputs env ∧ c.pred env [] = true

/-- The types that the constraint uses are known and the predicate does not hold for them. -/
def Fails (tuple : List T → T) (sig : List Param) (inputs : List (Option T)) (c : Constraint T) : Prop :=
  ∃ env, Env tuple sig c.uses inputs env ∧ c.pred env [] = false

/-- The inference expression has a known value. -/
def Output (tuple : List T → T) (sig : List Param) (inputs : List (Option T)) (out : OutExpr T) (t : T) : Prop :=
  ∃ env, Env tuple sig out.uses inputs env ∧ out.value env [] = t

/-- The outcomes that are right for a number of inputs that fits. -/
def Infers (nothing : T) (tuple : List T → T) (sig : List Param) (cs : List (Constraint T)) (out : OutExpr T) (inputs : List (Option T)) :
    Outcome T → Prop
  | .qtype t => (∀ c ∈ cs, Holds tuple sig inputs c) ∧ Output tuple sig inputs out t ∧ t ≠ nothing
  | .noOutput => (∀ c ∈ cs, Holds tuple sig inputs c) ∧ Output tuple sig inputs out nothing
  | .unknown => (∀ c ∈ cs, ¬ Fails tuple sig inputs c) ∧ ((∃ c ∈ cs, ¬ Known tuple sig inputs c) ∨ ¬ ∃ t, Output tuple sig inputs out t)
  | .violated m params =>
    (∃ pre c post, cs = pre ++ c :: post ∧ c.message = m ∧ Fails tuple sig inputs c ∧ ∀ c' ∈ pre, ¬ Fails tuple sig inputs c') ∧
    ∀ n t, (n, t) ∈ params ↔ ∃ bs a, Binds sig inputs bs ∧ (n, a) ∈ bs ∧ a.Is tuple t
  | .badInput => False
  | .badCount => False

/-- A well formed operator: placeholders are parameters and expressions have no other leaves. -/
structure Valid (sig : List Param) (cs : List (Constraint T)) (out : OutExpr T) : Prop where
  validSig : ValidSig sig
  uses : ∀ c ∈ cs, ∀ n ∈ c.uses, n ∈ sig.map (·.name)
  closed : ∀ c ∈ cs, Closed c.uses c.pred
  outUses : ∀ n ∈ out.uses, n ∈ sig.map (·.name)
  outClosed : ∀ env env' seq seq', (∀ n ∈ out.uses, env n = env' n) → out.value env seq = out.value env' seq'

/-- The outcome without the types of the parameters that go into the message. -/
def Outcome.kind : Outcome T → Outcome T
  | .violated m _ => .violated m []
  | o => o

end Verif.BackendOp
