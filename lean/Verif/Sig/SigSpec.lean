import Verif.Sig.SigModel
import Verif.Util.StringProps
import Mathlib.Data.List.Nodup

/-!
# What a signature, a call and a textual signature mean
-/

namespace Verif.Sig

/-- A well-formed signature (expr_operator_signature.h:41-56). -/
structure Valid {V : Type} (s : Signature V) : Prop where
  names : ∀ p ∈ s.params, Str.Ident p.name
  unique : (s.params.map Param.name).Nodup
  kinds : ∀ (i : Nat) (p : Param V), s.params[i]? = some p →
    p.kind = .positional ∨ (p.kind = .variadic ∧ p.dflt = none ∧ i + 1 = s.params.length)
  defaults : ∀ (i j : Nat) (p q : Param V), i < j → s.params[i]? = some p → s.params[j]? = some q → p.dflt.isSome →
    q.kind = .positional → q.dflt.isSome
  aux : 58 ∉ s.auxName

/-- The parameters that are not variadic. -/
def Signature.positionals {V : Type} (s : Signature V) : List (Param V) :=
  s.params.filter (fun p => p.kind = .positional)

/-- There is a variadic parameter. -/
def Signature.takesMore {V : Type} (s : Signature V) : Prop := ∃ p ∈ s.params, p.kind = .variadic

/-- `name` is given as a keyword argument. -/
def Given {E : Type} (kw : List (List Nat × E)) (name : List Nat) : Prop := ∃ e, (name, e) ∈ kw

/-- A call is acceptable: no parameter gets a positional and a keyword argument, there are not too many positional
arguments, all other parameters have a keyword argument or a default value, and all keywords are known. -/
structure Accepts {V E : Type} (s : Signature V) (args : List E) (kw : List (List Nat × E)) : Prop where
  notTwice : ∀ (i : Nat) (p : Param V), s.positionals[i]? = some p → i < args.length → ¬ Given kw p.name
  room : args.length ≤ s.positionals.length ∨ s.takesMore
  filled : ∀ (i : Nat) (p : Param V), s.positionals[i]? = some p → args.length ≤ i → Given kw p.name ∨ p.dflt.isSome
  known : ∀ k, Given kw k → ∃ p ∈ s.positionals, p.name = k

/-- `e` is the argument of parameter number `i`. -/
def IsArg {V E : Type} (lit : V → E) (args : List E) (kw : List (List Nat × E)) (i : Nat) (p : Param V) (e : E) :
    Prop :=
  args[i]? = some e ∨ (args.length ≤ i ∧ (p.name, e) ∈ kw) ∨
    (args.length ≤ i ∧ ¬ Given kw p.name ∧ ∃ v, p.dflt = some v ∧ e = lit v)

end Verif.Sig
