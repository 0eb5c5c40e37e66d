import Verif.Expr.TransformProps
import Verif.While.WhileModel

/-!
# What a while loop computes
-/

namespace Verif.While
open Verif.Expr Verif.Lambda
variable {O V Q E D : Type}

section
variable (I : O → List D → D) (lit : V → D) (leaf ph : Key → D)

/-- The values of the variables before the loop. -/
def initVal (init : Named O V Q) (x : Key) : D := ((find init x).map (value I lit leaf ph)).getD (ph x)

/-- The values of the variables after `k` iterations: the variables of the body are first converted to the type that they have
after one iteration; then all are updated at once; other variables keep their values. -/
def varAt (P : Ops O V) (init body : Named O V Q) : Nat → Key → D
  | 0, x =>
    match find body x with
    | some e => I P.cast [initVal I lit leaf ph init x, I P.qtypeOf [value I lit leaf (initVal I lit leaf ph init) e], lit P.true_]
    | none => initVal I lit leaf ph init x
  | k + 1, x =>
    match find body x with
    | some e => value I lit leaf (varAt P init body k) e
    | none => varAt P init body k x

/-- The environment of the bodies of lambdas with these parameters and values. -/
def env (params : List Key) (vals : List D) (x : Key) : D := if x ∈ params then (vals[params.idxOf x]?).getD (ph x) else ph x

/-- The arguments of the condition and the body of the loop after `k` iterations: the body gives the new state. -/
def argsAt (W : Loop O V Q) : Nat → List D
  | 0 => W.deps.map (value I lit leaf ph)
  | k + 1 => value I lit leaf (env ph W.params (argsAt W k)) W.body :: (argsAt W k).tail

/-- The value of the condition after `k` iterations. -/
def condAt (W : Loop O V Q) (k : Nat) : D := value I lit leaf (env ph W.params (argsAt I lit leaf ph W k)) W.condition

end

/-- What is required of the operators: `core.get_nth` takes the fields of tuples. -/
def TupleLaw (P : Ops O V) (I : O → List D → D) (lit : V → D) : Prop :=
  ∀ (names : List Key) (vs : List D) (i : Nat) (v : D), vs[i]? = some v →
    I P.getNth [I P.namedtupleMake (lit (P.fieldNames names) :: vs), lit (P.int i)] = v

/-- The reserved names. -/
def Reserved (k : Key) : Prop := kPrefix.isPrefixOf k = true

/-- The placeholder `k` occurs in `n`. -/
def PhIn (n : Node O V Q) (k : Key) : Prop := ∃ m, Sub m n ∧ placeholderKey m = some k

/-- A leaf occurs in `n`. -/
def LeafIn (n : Node O V Q) : Prop := ∃ m, Sub m n ∧ leafKey m ≠ none

/-- What is assumed about the arguments: well-formed expressions, different keys, no reserved names. -/
structure Args (G : Lang O V (Attr Q V) E) (init : Named O V Q) (cond : Node O V Q) (body : Named O V Q) : Prop where
  initFree : ∀ k, Reserved k → find init k = none
  initKeys : (init.map (·.1)).Nodup
  bodyKeys : (body.map (·.1)).Nodup
  condWF : WF G cond
  condFree : ∀ k, PhIn cond k → ¬ Reserved k
  bodyWF : ∀ e ∈ body, WF G e.2 ∧ ∀ k, PhIn e.2 k → ¬ Reserved k

/-- Operators accept all arguments. -/
def Accepting (G : Lang O V (Attr Q V) E) : Prop := ∀ o as, ∃ a, G.infer o as = .ok a

end Verif.While
