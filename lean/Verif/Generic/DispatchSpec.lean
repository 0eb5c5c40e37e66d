import Verif.Generic.DispatchModel

/-! # Specification of the selection of overloads -/

namespace Verif.Generic

/-- What is bound to a parameter. -/
inductive Arg (α : Type)
  | one (x : α)
  | many (xs : List α)

/-- The inputs bound to the parameters of a signature. -/
inductive Binds {α : Type} : List Param → List α → List (Nat × Arg α) → Prop
  | nil : Binds [] [] []
  | pos {n ps x xs bs} : Binds ps xs bs → Binds (⟨n, false⟩ :: ps) (x :: xs) ((n, .one x) :: bs)
  | var {n xs} : Binds [⟨n, true⟩] xs [(n, .many xs)]

/-- The argument has a known type: that of the input, or the tuple of those of all the inputs. -/
inductive Arg.Is {T : Type} (tuple : List T → T) : Arg (Option T) → T → Prop
  | one (t : T) : Arg.Is tuple (.one (some t)) t
  | many (ts : List T) : Arg.Is tuple (.many (ts.map some)) (tuple ts)

/-- Valid signatures: distinct names, a variadic parameter only at the end. -/
def ValidSig (sig : List Param) : Prop := (sig.map (·.name)).Nodup ∧ ∀ i p, sig[i]? = some p → i + 1 < sig.length → p.variadic = false

/-- The environment gives the placeholders the types of the inputs, which are known. -/
def Env {T : Type} (tuple : List T → T) (sig : List Param) (uses : List Nat) (inputs : List (Option T)) (env : Nat → T) : Prop :=
  ∃ bs, Binds sig inputs bs ∧ ∀ n a, (n, a) ∈ bs → n ∈ uses → a.Is tuple (env n)

/-- A condition of the placeholders in `uses`. -/
def Closed {T : Type} (uses : List Nat) (cond : (Nat → T) → List T → Bool) : Prop :=
  ∀ env env' seq seq', (∀ n ∈ uses, env n = env' n) → cond env seq = cond env' seq'

/-- The overload can be used with these inputs as far as they are known: they fit the signature and the types of the placeholders are known. -/
def Ready {T : Type} (tuple : List T → T) (o : Overload T) (inputs : List (Option T)) : Prop := ∃ env, Env tuple o.sig o.uses inputs env

/-- The condition of the overload holds. -/
def Matches {T : Type} (tuple : List T → T) (o : Overload T) (inputs : List (Option T)) : Prop :=
  ∃ env, Env tuple o.sig o.uses inputs env ∧ o.cond env [] = true

/-- The choice among `n` overloads given which of them are ready and which match. -/
def Selects (n : Nat) (R M : Nat → Prop) : Choice → Prop
  | .found i => i < n ∧ M i ∧ (∀ j < n, M j → j = i) ∧ ∀ j < n, R j
  | .ambiguous => ∃ i j, i < j ∧ j < n ∧ M i ∧ M j
  | .noMatch => (∀ j < n, R j) ∧ ∀ j < n, ¬ M j
  | .undecided => (∃ j < n, ¬ R j) ∧ ¬ ∃ i j, i < j ∧ j < n ∧ M i ∧ M j
  | .badInput => False

/-- More is known about the inputs. -/
def Refines {T : Type} (inputs inputs' : List (Option T)) : Prop :=
  inputs.length = inputs'.length ∧ ∀ (i : Nat) (t : T), inputs[i]? = some (some t) → inputs'[i]? = some (some t)

/-- A well formed overload: a valid signature, a condition of parameters only. -/
structure Overload.Valid {T : Type} (o : Overload T) : Prop where
  sig : ValidSig o.sig
  uses : ∀ n ∈ o.uses, n ∈ o.sig.map (·.name)
  closed : Closed o.uses o.cond

/-- The choice of a dispatch operator: `R` that all types that the conditions use are known, `M` which conditions hold. -/
def DispatchSelects (n : Nat) (hasDefault : Bool) (R : Prop) (M : Nat → Prop) : Choice → Prop
  | .found i => R ∧ ((i < n ∧ M i ∧ ∀ j < n, M j → j = i) ∨ (i = n ∧ hasDefault = true ∧ ∀ j < n, ¬ M j))
  | .ambiguous => R ∧ ∃ i j, i < j ∧ j < n ∧ M i ∧ M j
  | .noMatch => R ∧ hasDefault = false ∧ ∀ j < n, ¬ M j
  | .undecided => ¬ R
  | .badInput => False

end Verif.Generic
