import Verif.Casts.WeakModel
import Verif.Casts.CastOpProps

/-!
# Properties of `core._to_weak_float` (C177)
-/

namespace Verif.Casts

open Verif.QType

variable {X : Type}

/-! ## Specification -/

/-- `b` is `a` with converted elements, in the same shape; what is missing stays missing. -/
inductive Elementwise (f : X → X) : V X → V X → Prop
  | scalar (x) : Elementwise f (.scalar x) (.scalar (f x))
  | opt (x) : Elementwise f (.opt x) (.opt (x.map f))
  | arr (xs) : Elementwise f (.arr xs) (.arr (xs.map (Option.map f)))

/-- The conversion of an element to `double`: that of the operator, except for what is a `double` already. -/
def ToDouble (conv : Val → X → X) (v : Val) (f : X → X) : Prop :=
  ((v = .f64 ∨ v = .weakFloat) ∧ f = id) ∨ (v ≠ .f64 ∧ v ≠ .weakFloat ∧ f = conv v)

/-! ## Theorems -/

/-- For scalars, optionals and arrays: accepted exactly for numbers, booleans and unsigned numbers, and the result has the shape of the
argument. -/
theorem weak_infer_partial (reg : Registry) (ho : reg.Ok) (hr : reg.Scalars) (c : Consts) (q r : QTy) (s : Shape) (v : Val)
    (hq : q.Exists reg) (hp : Parts reg q s v) :
    weakInfer reg c q = some r ↔ Castable c v ∧ r = mk s .weakFloat := by
  have hw := ho .weakFloat trivial
  have hv : reg.isScalar v = true := by
    cases hp with
    | scalar _ h => exact h
    | optional _ => exact (hr v).1 hq
    | array k _ => exact (hr v).2 k hq
  have hc : (isNumeric reg (.plain v) || isBoolean reg c (.plain v) || decide (QTy.plain v = .plain (.other c.u64))) = true ↔
      Castable c v := by
    unfold Castable
    cases v <;> simp [isNumeric, isBoolean, scalarOrNull, hv, Val.Numeric]
  have hs : scalarOrNull reg q = some (.plain v) := by cases hp <;> simp [scalarOrNull, hv]
  unfold weakInfer
  rw [hs]
  simp only
  by_cases h : Castable c v
  · rw [hc.2 h]
    cases hp <;>
      simp only [h, isOptional, isArray, shapeOrNull, withValue, mk, hw, Bool.not_true, Bool.false_eq_true, if_false, if_true,
        Option.bind_some, Option.some.injEq, true_and] <;>
      exact eq_comm
  · have : (isNumeric reg (.plain v) || isBoolean reg c (.plain v) || decide (QTy.plain v = .plain (.other c.u64))) = false := by
      rw [← Bool.not_eq_true, hc]; exact h
    rw [this]
    simp [h]

/-- For such arguments the lowering succeeds, has the inferred type, and converts the elements to `double`. -/
theorem weak_lower_partial (reg : Registry) (ho : reg.Ok) (hr : reg.Scalars) (c : Consts) (conv : Val → X → X) (n : Node X) (r : QTy)
    (s : Shape) (v : Val) (hq : n.ty.Exists reg) (hp : Parts reg n.ty s v) (h : weakInfer reg c n.ty = some r) :
    ∃ m f, weakLower reg c conv r n = some m ∧ m.ty = r ∧ ToDouble conv v f ∧ Elementwise f n.val m.val := by
  obtain ⟨hc, rfl⟩ := (weak_infer_partial reg ho hr c n.ty r s v hq hp).1 h
  have hd := ho .f64 trivial
  have hv : reg.isScalar v = true := by
    obtain ⟨ty, val⟩ := n
    cases hp with
    | scalar _ ha => exact ha
    | optional _ => exact (hr v).1 hq
    | array k _ => exact (hr v).2 k hq
  have hel : ∀ (f : X → X) (x : V X), Elementwise f x (x.map f) := by
    intro f x
    cases x <;> constructor
  have hid : ∀ x : V X, Elementwise id x x := by
    intro x
    have := hel id x
    cases x <;> simpa [V.map] using this
  obtain ⟨ty, val⟩ := n
  have hcast := (castable_iff c v).2 hc
  by_cases h64 : v = .f64
  · subst h64
    refine ⟨⟨mk s .weakFloat, val⟩, id, ?_, rfl, .inl ⟨.inl rfl, rfl⟩, hid _⟩
    cases hp <;> simp [weakLower, toFloat64, scalarOrNull, shapeOrNull, hv, hcast, downcast, decayWeak, mk]
  · by_cases hwk : v = .weakFloat
    · subst hwk
      refine ⟨⟨mk s .weakFloat, val.map id⟩, id, ?_, rfl, .inl ⟨.inr rfl, rfl⟩, hel _ _⟩
      cases hp <;>
        simp [weakLower, toFloat64, scalarOrNull, shapeOrNull, hv, hcast, downcast, decayWeak, mk, withValue, hd]
    · refine ⟨⟨mk s .weakFloat, val.map (conv v)⟩, conv v, ?_, rfl, .inr ⟨h64, hwk, rfl⟩, hel _ _⟩
      cases hp <;>
        simp [weakLower, toFloat64, scalarOrNull, shapeOrNull, hv, hcast, h64, hwk, downcast, decayWeak, mk, withValue, hd]

/-- A sequence of numbers is accepted as well, with the type of a single weak float; it can not be lowered. -/
theorem weak_sequence_counterexample (reg : Registry) (c : Consts) (conv : Val → X → X) (k : Nat) (v : Val) (hv : reg.isScalar v = true)
    (hc : Castable c v) (x : V X) :
    weakInfer reg c (.container k (.plain v)) = some (.plain .weakFloat) ∧
    ∀ q, weakLower reg c conv q ⟨.container k (.plain v), x⟩ = none := by
  constructor
  · unfold Castable at hc
    cases v <;> simp_all [weakInfer, scalarOrNull, isNumeric, isBoolean, isOptional, isArray, Val.Numeric]
    omega
  · intro q
    simp [weakLower, toFloat64, scalarOrNull, shapeOrNull]

/-! ### Examples -/

example : weakInfer fullRegistry sampleConsts (.array 1 .i32) = some (.array 1 .weakFloat) ∧
    weakInfer fullRegistry sampleConsts (.optional (.other 0)) = some (.optional .weakFloat) ∧
    weakInfer fullRegistry sampleConsts (.plain (.other 5)) = none ∧
    weakInfer fullRegistry sampleConsts (.container 0 (.plain .i32)) = some (.plain .weakFloat) := by
  decide +kernel

example : weakLower fullRegistry sampleConsts (fun _ x => 10 * x) (.array 1 .weakFloat)
    (⟨.array 1 .i32, .arr [some 3, none]⟩ : Node Int) = some ⟨.array 1 .weakFloat, .arr [some 30, none]⟩ := by
  decide +kernel

example : ∃ m f, weakLower fullRegistry sampleConsts (fun _ x => 10 * x) (.optional .weakFloat)
      (⟨.optional .i64, .opt (some 2)⟩ : Node Int) = some m ∧ m.ty = .optional .weakFloat ∧
      ToDouble (fun _ x => 10 * x) .i64 f ∧ Elementwise f (.opt (some 2)) m.val :=
  weak_lower_partial fullRegistry fullRegistry_ok fullRegistry_scalars sampleConsts _ ⟨.optional .i64, .opt (some 2)⟩ _ .optional .i64
    rfl (.optional _) (by decide +kernel)

end Verif.Casts
