import Verif.Rules.PacksModel

/-!
# What a peephole rule has to satisfy
-/

namespace Verif.Rules
variable {α : Type} [DecidableEq α]

/-- A value of its type: a scalar or optional has one row, a scalar is present, the rows have the scalar type of the type. -/
structure Val.Wf (v : Val α) : Prop where
  single : v.ty.w ≠ .arr → v.rows.length = 1
  present : v.ty.w = .sc → ∀ x ∈ v.rows, x ≠ none
  sorts : ∀ x, some x ∈ v.rows → x.sort = v.ty.s

/-- What is known of the node for placeholder `k` is true of its value. -/
structure Info.Describes (i : Info α) (v : Val α) : Prop where
  ty : i.ty = v.ty
  qvalue : ∀ q, i.qvalue = some q → v = q

/-- Placeholders of a pattern. -/
def Pat.vars : Pat α → List Nat
  | .var k => [k]
  | .lit _ => []
  | .c1 _ x => x.vars
  | .c2 _ x y => x.vars ++ y.vars
  | .c3 _ x y z => x.vars ++ y.vars ++ z.vars
  | .c4 _ x y z t => x.vars ++ y.vars ++ z.vars ++ t.vars

/-- The conditions of a rule are satisfied. -/
def Rule.Applies (r : Rule α) (σ : Nat → Info α) : Prop := ∀ c ∈ r.conds, c.2.test (σ c.1) = true

/-- The rule does not change values: whenever both sides have the same type (the optimizer checks this, optimizer.cc:54-61)
and the left-hand side has a value, the right-hand side has that value. -/
def Rule.Keeps (N : Num α) (r : Rule α) : Prop :=
  ∀ (σ : Nat → Info α) (ρ : Nat → Val α), (∀ k ∈ r.src.vars, (ρ k).Wf) → (∀ k ∈ r.src.vars, (σ k).Describes (ρ k)) →
    r.Applies σ →
    ∀ T, r.src.type infer (fun k => (σ k).ty) = some T → r.dst.type infer (fun k => (σ k).ty) = some T →
    ∀ v, r.src.eval N ρ = some v → r.dst.eval N ρ = some v

/-- The rule does not change types; `f` says with which types the left-hand side is accepted. -/
def Rule.Typed (f : Op → List Ty → Option Ty) (r : Rule α) : Prop :=
  ∀ (σ : Nat → Info α), (∀ k ∈ r.src.vars, ∀ q, (σ k).qvalue = some q → q.ty = (σ k).ty) → r.Applies σ →
    ∀ T, r.src.type f (fun k => (σ k).ty) = some T → r.dst.type infer (fun k => (σ k).ty) = some T

/-- Laws of `<`, `<=`, `==`, `!=` that hold for every scalar type, also with NaN. -/
structure Num.Laws (N : Num α) : Prop where
  le_eq : ∀ a b, N.le a b = (N.lt a b || N.eq a b)
  ne_eq : ∀ a b, N.ne a b = !N.eq a b

/-- Any two values are comparable; false for NaN. -/
def Num.Total (N : Num α) : Prop := ∀ a b, N.le b a = !N.lt a b ∧ N.lt b a = !N.le a b

/-! ## Optimization of an expression -/

/-- Expressions are patterns; the variables are leaves. -/
abbrev Ex (α : Type) := Pat α

/-- Replacement of placeholders by expressions. -/
def Pat.subst (θ : Nat → Ex α) : Pat α → Ex α
  | .var k => θ k
  | .lit v => .lit v
  | .c1 o x => .c1 o (x.subst θ)
  | .c2 o x y => .c2 o (x.subst θ) (y.subst θ)
  | .c3 o x y z => .c3 o (x.subst θ) (y.subst θ) (z.subst θ)
  | .c4 o x y z t => .c4 o (x.subst θ) (y.subst θ) (z.subst θ) (t.subst θ)

/-- The literals of an expression are values of their types. -/
def Pat.LitsOk : Ex α → Prop
  | .var _ => True
  | .lit v => v.Wf
  | .c1 _ x => x.LitsOk
  | .c2 _ x y => x.LitsOk ∧ y.LitsOk
  | .c3 _ x y z => x.LitsOk ∧ y.LitsOk ∧ z.LitsOk
  | .c4 _ x y z t => x.LitsOk ∧ y.LitsOk ∧ z.LitsOk ∧ t.LitsOk

/-- What the optimizer sees of an expression is true for all inputs. -/
structure Info.True (N : Num α) (τ : Nat → Ty) (i : Info α) (e : Ex α) : Prop where
  ty : e.type infer τ = some i.ty
  qvalue : ∀ q, i.qvalue = some q → q.ty = i.ty ∧
    ∀ ρ : Nat → Val α, (∀ k, (ρ k).Wf) → (∀ k, (ρ k).ty = τ k) → ∀ v, e.eval N ρ = some v → v = q

/-- One application of a rule somewhere in an expression, without changing the type of the node. -/
inductive Step (N : Num α) (rules : List (Rule α)) (τ : Nat → Ty) : Ex α → Ex α → Prop
  | root (r : Rule α) (hr : r ∈ rules) (θ : Nat → Ex α) (σ : Nat → Info α) (hσ : ∀ k ∈ r.src.vars, (σ k).True N τ (θ k))
      (hc : r.Applies σ) (ht : (r.dst.subst θ).type infer τ = (r.src.subst θ).type infer τ) :
      Step N rules τ (r.src.subst θ) (r.dst.subst θ)
  | c1 (h : Step N rules τ x x') : Step N rules τ (.c1 o x) (.c1 o x')
  | c2a (h : Step N rules τ x x') : Step N rules τ (.c2 o x y) (.c2 o x' y)
  | c2b (h : Step N rules τ y y') : Step N rules τ (.c2 o x y) (.c2 o x y')
  | c3a (h : Step N rules τ x x') : Step N rules τ (.c3 o x y z) (.c3 o x' y z)
  | c3b (h : Step N rules τ y y') : Step N rules τ (.c3 o x y z) (.c3 o x y' z)
  | c3c (h : Step N rules τ z z') : Step N rules τ (.c3 o x y z) (.c3 o x y z')
  | c4a (h : Step N rules τ x x') : Step N rules τ (.c4 o x y z t) (.c4 o x' y z t)
  | c4b (h : Step N rules τ y y') : Step N rules τ (.c4 o x y z t) (.c4 o x y' z t)
  | c4c (h : Step N rules τ z z') : Step N rules τ (.c4 o x y z t) (.c4 o x y z' t)
  | c4d (h : Step N rules τ t t') : Step N rules τ (.c4 o x y z t) (.c4 o x y z t')

/-- Any number of applications. -/
inductive Steps (N : Num α) (rules : List (Rule α)) (τ : Nat → Ty) : Ex α → Ex α → Prop
  | refl (e : Ex α) : Steps N rules τ e e
  | step (h : Step N rules τ e e') (hs : Steps N rules τ e' e'') : Steps N rules τ e e''

end Verif.Rules
