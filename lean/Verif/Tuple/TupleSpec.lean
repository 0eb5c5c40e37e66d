import Verif.Tuple.TupleModel
import Mathlib.Data.List.Forall2

/-!
# What the tuple operators assume about expressions
-/

namespace Verif.Tuple

variable {E : Type}

/-- The attributes hold for the value. -/
def Attr.Holds (a : Attr) (v : Val) : Prop := (∀ t, a.qtype = some t → v.ty = t) ∧ ∀ c, a.qvalue = some c → v = c

/-- The attributes of an expression are consistent and hold for its values. -/
def Node.Ok (n : Node E) : Prop :=
  (∀ c, n.attr.qvalue = some c → n.attr.qtype = some c.ty) ∧ ∀ e v, n.run e = some v → n.attr.Holds v

/-- The second attributes know more: `ExprAttributes::IsSubsetOf`. -/
def Attr.Le (a b : Attr) : Prop := (∀ t, a.qtype = some t → b.qtype = some t) ∧ ∀ c, a.qvalue = some c → b.qvalue = some c

/-- The attributes that are inferred do not change when more is known about the inputs. -/
def Op.Stable (op : Op) : Prop := ∀ as bs a b, List.Forall₂ Attr.Le as bs → op.infer as = some a → op.infer bs = some b → a.Le b

/-- The attributes that are inferred hold for the value, and are consistent. -/
def Op.Sound (op : Op) : Prop :=
  ∀ as a, op.infer as = some a → (∀ c, a.qvalue = some c → a.qtype = some c.ty) ∧
    ∀ vs v, as.length = vs.length → (∀ (i : Nat) b w, as[i]? = some b → vs[i]? = some w → b.Holds w) → op.eval vs = some v → a.Holds v

/-- `columns` is the transpose of `rows`, which have `k` elements. -/
def IsZip {α : Type} (k : Nat) (rows columns : List (List α)) : Prop :=
  columns.length = k ∧ ∀ (j : Nat) c, columns[j]? = some c → c.map some = rows.map fun r => r[j]?

/-- `zs` are the fields named `names` of the union of the fields `xs` named `ns` and the fields `ys` named `ms`. -/
def IsUnion {α : Type} (ns ms : List String) (xs ys : List α) (names : List String) (zs : List α) : Prop :=
  names = ns ++ ms.filter (fun m => m ∉ ns) ∧ zs.length = names.length ∧
    ∀ (j : Nat) name, names[j]? = some name →
      (∃ i : Nat, ms[i]? = some name ∧ zs[j]? = ys[i]?) ∨ (name ∉ ms ∧ ∃ i : Nat, ns[i]? = some name ∧ zs[j]? = xs[i]?)

end Verif.Tuple
