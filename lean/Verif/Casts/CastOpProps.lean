import Verif.Casts.CastOpModel
import Verif.Casts.CastsProps

/-!
# Properties of `core.cast` and `core.cast_values` (C157)
-/

namespace Verif.Casts

open Verif.QType

variable {X : Type}

/-! ## Specification -/

/-- A number, a boolean or an unsigned number. -/
def Castable (c : Consts) (v : Val) : Prop := v.Numeric ∨ v = .other c.bool ∨ v = .other c.u64

/-- The explicit casts: the same elements or numbers and booleans, and the same shape, or a scalar for an optional. -/
inductive Explicit (reg : Registry) (c : Consts) : QTy → QTy → Prop
  | mk {a b s t v w} : Parts reg a s v → Parts reg b t w → ShapeCast false s t → (v = w ∨ Castable c v ∧ Castable c w) → Explicit reg c a b

/-- The operators of `cast_to_ops_` exist for numbers and booleans and accept them; nothing is cast to itself, and weak floats are upcast before. -/
def CastOps.Total (ops : CastOps X) (c : Consts) : Prop :=
  ∀ v w, Castable c v → Castable c w → v ≠ w → v ≠ .weakFloat → ops.contains w = true ∧ ops.accepts v w = true

/-- `Unit` is a scalar type with optionals and arrays. -/
def UnitOk (reg : Registry) (c : Consts) : Prop := ∀ s, Avail reg s (.other c.unit)

/-! ## Lemmas -/

theorem castable_iff (c : Consts) (v : Val) : castable c (.plain v) = true ↔ Castable c v := by
  cases v <;> simp [castable, Castable, Val.Numeric]

theorem shapeOrNull_of_parts {reg : Registry} {q : QTy} {s : Shape} {v : Val} (h : Parts reg q s v) : shapeOrNull reg q = some s := by
  cases h with
  | scalar _ h => exact if_pos h
  | optional => rfl
  | array => rfl

theorem parts_of_shape {reg : Registry} {q : QTy} {s : Shape} (h : shapeOrNull reg q = some s) : ∃ v, Parts reg q s v := by
  cases q with
  | plain v =>
    simp only [shapeOrNull] at h
    split at h
    · cases h; exact ⟨v, .scalar _ ‹_›⟩
    · cases h
  | optional v => cases h; exact ⟨v, .optional _⟩
  | array k v => cases h; exact ⟨v, .array _ _⟩
  | container => cases h

theorem withValue_plain {reg : Registry} (s : Shape) (v : Val) (q : QTy) (hv : reg.isScalar v = true) :
    withValue reg s (.plain v) = some q ↔ q = mk s v ∧ Avail reg s v := by
  cases s with
  | scalar =>
    simp only [withValue, mk, Avail, hv, if_true, Option.some.injEq, and_true]
    exact eq_comm
  | optional =>
    cases h : reg.hasOptional v
    · simp [withValue, mk, Avail, hv, h]
    · simp only [withValue, mk, Avail, hv, h, Bool.and_self, if_true, Option.some.injEq, and_true]
      exact eq_comm
  | array k =>
    cases h : reg.hasArray k v
    · simp [withValue, mk, Avail, h]
    · simp only [withValue, mk, Avail, h, if_true, Option.some.injEq, and_true]
      exact eq_comm

theorem withScalar_iff {reg : Registry} (a : QTy) (e q : QTy) :
    withScalar reg a e = some q ↔ ∃ w s v, e = .plain w ∧ reg.isScalar w = true ∧ Parts reg a s v ∧ q = mk s w ∧ Avail reg s w := by
  unfold withScalar
  constructor
  · intro h
    split at h
    · rename_i he
      cases hs : shapeOrNull reg a with
      | none => rw [hs] at h; cases h
      | some s =>
        rw [hs] at h
        cases e with
        | plain w =>
          obtain ⟨v, hv⟩ := parts_of_shape hs
          obtain ⟨h1, h2⟩ := (withValue_plain s w q he).1 h
          exact ⟨w, s, v, rfl, he, hv, h1, h2⟩
        | optional => cases he
        | array => cases he
        | container => cases he
    · cases h
  · rintro ⟨w, s, v, rfl, hw, hp, rfl, ha⟩
    rw [if_pos (by exact hw), shapeOrNull_of_parts hp]
    exact (withValue_plain s w _ hw).2 ⟨rfl, ha⟩

theorem mk_inj {s t : Shape} {v w : Val} (h : mk s v = mk t w) : s = t ∧ v = w := by
  cases s <;> cases t <;> simp_all [mk]

theorem toOptionalLike_iff {reg : Registry} {s t : Shape} {u : Val} (hu : ∀ s, Avail reg s u) :
    (mk s u = mk t u ∨ toOptionalLike reg (mk s u) = some (mk t u)) ↔ ShapeCast false s t := by
  have h1 : reg.isScalar u = true := hu .scalar
  have h2 : reg.hasOptional u = true := hu .optional
  constructor
  · rintro (h | h)
    · rw [(mk_inj h).1]; exact .refl _
    · cases s <;> cases t <;> simp [mk, toOptionalLike, h1, h2] at h
      · exact .scalar_optional
      · exact .refl _
      · subst h; exact .refl _
  · intro h
    cases h with
    | refl => exact .inl rfl
    | scalar_optional => right; simp [mk, toOptionalLike, h1, h2]
    | scalar_array k h => cases h
    | optional_array k h => cases h

theorem shapesAllowed_iff {reg : Registry} {c : Consts} (hu : UnitOk reg c) (a b : QTy) :
    shapesAllowed reg c a b = true ↔ ∃ s t v w, Parts reg a s v ∧ Parts reg b t w ∧ ShapeCast false s t := by
  unfold shapesAllowed
  constructor
  · intro h
    cases ha : withScalar reg a (.plain (.other c.unit)) with
    | none => rw [ha] at h; cases h
    | some x =>
      cases hb : withScalar reg b (.plain (.other c.unit)) with
      | none => rw [ha, hb] at h; cases h
      | some y =>
        rw [ha, hb] at h
        obtain ⟨w₁, s, v, he, -, hp, rfl, -⟩ := (withScalar_iff _ _ _).1 ha
        obtain ⟨w₂, t, w, he', -, hq, rfl, -⟩ := (withScalar_iff _ _ _).1 hb
        cases he
        cases he'
        simp only [Bool.or_eq_true, decide_eq_true_eq] at h
        exact ⟨s, t, v, w, hp, hq, (toOptionalLike_iff hu).1 h⟩
  · rintro ⟨s, t, v, w, hp, hq, hs⟩
    have ha := (withScalar_iff a (.plain (.other c.unit)) _).2 ⟨_, s, v, rfl, hu .scalar, hp, rfl, hu s⟩
    have hb := (withScalar_iff b (.plain (.other c.unit)) _).2 ⟨_, t, w, rfl, hu .scalar, hq, rfl, hu t⟩
    rw [ha, hb]
    simp only [Bool.or_eq_true, decide_eq_true_eq]
    exact (toOptionalLike_iff hu).2 hs

theorem castAllowed_iff {reg : Registry} {c : Consts} (hu : UnitOk reg c) (a b : QTy) :
    castAllowed reg c a b = true ↔ Explicit reg c a b := by
  unfold castAllowed
  constructor
  · intro h
    cases ha : scalarOrNull reg a with
    | none => rw [ha] at h; cases h
    | some x =>
      cases hb : scalarOrNull reg b with
      | none => rw [ha, hb] at h; cases h
      | some y =>
        rw [ha, hb] at h
        simp only [Bool.and_eq_true, Bool.or_eq_true, decide_eq_true_eq] at h
        obtain ⟨s, t, v, w, hp, hq, hs⟩ := (shapesAllowed_iff hu a b).1 h.2
        rw [scalar_of_parts hp] at ha
        rw [scalar_of_parts hq] at hb
        cases ha
        cases hb
        refine .mk hp hq hs ?_
        rw [castable_iff, castable_iff] at h
        rcases h.1 with h | h
        · exact .inl (QTy.plain.inj h)
        · exact .inr h
  · rintro ⟨hp, hq, hs, h⟩
    rw [scalar_of_parts hp, scalar_of_parts hq]
    simp only [Bool.and_eq_true, Bool.or_eq_true, decide_eq_true_eq, castable_iff]
    refine ⟨?_, (shapesAllowed_iff hu a b).2 ⟨_, _, _, _, hp, hq, hs⟩⟩
    rcases h with h | h
    · exact .inl (by rw [h])
    · exact .inr h

/-! ## C157 -/

/-- `core.cast` accepts exactly: the same type; with `implicit_only` the implicit casts without broadcasting; otherwise the explicit casts.
The type is the requested one. -/
theorem cast_infer (reg : Registry) (ho : reg.Ok) (c : Consts) (hu : UnitOk reg c) (arg target q : QTy)
    (ha : arg.Exists reg) (ht : target.Exists reg) (implicitOnly : Bool) :
    castInfer reg c arg target implicitOnly = some q ↔
      q = target ∧ (arg = target ∨ (if implicitOnly then Cast reg false arg target else Explicit reg c arg target)) := by
  unfold castInfer
  by_cases h : arg = target
  · rw [if_pos h]
    simp [h, eq_comm]
  · rw [if_neg h]
    cases implicitOnly with
    | true =>
      rw [if_pos rfl]
      by_cases hc : canCast reg false (some arg) (some target) = true
      · rw [if_pos hc]
        simp [h, (canCast_iff ho false ha ht).1 hc, eq_comm]
      · rw [if_neg hc]
        rw [canCast_iff ho false ha ht] at hc
        simp [h, hc]
    | false =>
      rw [if_neg (by decide)]
      by_cases hc : castAllowed reg c arg target = true
      · rw [if_pos hc]
        simp [h, (castAllowed_iff hu _ _).1 hc, eq_comm]
      · rw [if_neg hc]
        rw [castAllowed_iff hu] at hc
        simp [h, hc]

/-- An implicit cast of elements that differ is a cast of numbers. -/
theorem castable_of_valCast {c : Consts} {v w : Val} (h : ValCast v w) : v = w ∨ Castable c v ∧ Castable c w := by
  cases h with
  | refl => exact .inl rfl
  | _ => exact .inr ⟨.inl trivial, .inl trivial⟩

theorem elemCast_of_castable {ops : CastOps X} {c : Consts} (hops : ops.Total c) {v w : Val} (h : v = w ∨ Castable c v ∧ Castable c w) :
    ElemCast ops v w := by
  rcases h with h | ⟨hv, hw⟩
  · exact .inl h
  by_cases hvw : v = w
  · exact .inl hvw
  by_cases hf : v = .weakFloat
  · by_cases hw64 : w = .f64
    · exact .inr (.inl ⟨hf, .inl hw64⟩)
    · exact .inr (.inl ⟨hf, .inr (hops .f64 w (.inl trivial) hw (Ne.symm hw64) (by decide))⟩)
  · exact .inr (.inr ⟨hf, hops v w hv hw hvw hf⟩)

theorem isArray_of_parts {reg : Registry} {q : QTy} {k : Nat} {v : Val} (h : Parts reg q (.array k) v) : isArray q = true := by
  cases h
  rfl

/-- What can be cast explicitly is lowered: the expression has the requested type and the converted value. -/
theorem lower_explicit (reg : Registry) (ho : reg.Ok) (hr : reg.Scalars) (ops : CastOps X) (c : Consts) (hops : ops.Total c) (n : Node X)
    (target : QTy) (hn : n.ty.Exists reg) (ht : target.Exists reg) (hx : ∀ s v, Parts reg n.ty s v → HasShape s n.val)
    (h : Explicit reg c n.ty target) :
    ∃ m, castLower reg ops n target = some m ∧ m.ty = target ∧
      ∃ s t v w, Parts reg n.ty s v ∧ Parts reg target t w ∧ Casted (convert ops v w) 0 n.val m.val := by
  obtain ⟨hp, hq, hs, he⟩ := h
  rename_i s t v w
  obtain ⟨m, h1, h2, h3⟩ := (get_cast_explicit reg ho hr ops n target hn ht none s t v w hp hq (hx _ _ hp)).1
    ⟨elemCast_of_castable hops he, hs, by
      intro k u hk hna
      subst hk
      cases hq
      cases hs with
      | refl => rw [isArray_of_parts hp] at hna; cases hna
      | scalar_array _ h => cases h
      | optional_array _ h => cases h⟩
  exact ⟨m, h1, h2, s, t, v, w, hp, hq, h3⟩

/-- Whatever type `core.cast` infers, its lowering succeeds and has exactly this type.  The value is unchanged if the type is, and otherwise
has the converted elements; missing elements stay missing. -/
theorem cast_lower (reg : Registry) (ho : reg.Ok) (hr : reg.Scalars) (c : Consts) (hu : UnitOk reg c) (ops : CastOps X) (hops : ops.Total c)
    (n : Node X) (target q : QTy) (implicitOnly : Bool) (hn : n.ty.Exists reg) (ht : target.Exists reg)
    (hx : ∀ s v, Parts reg n.ty s v → HasShape s n.val) (h : castInfer reg c n.ty target implicitOnly = some q) :
    ∃ m, castLower reg ops n q = some m ∧ m.ty = q ∧ ((n.ty = q ∧ m = n) ∨
      ∃ s t v w, Parts reg n.ty s v ∧ Parts reg q t w ∧ Casted (convert ops v w) 0 n.val m.val) := by
  obtain ⟨rfl, h⟩ := (cast_infer reg ho c hu n.ty target q hn ht implicitOnly).1 h
  by_cases heq : n.ty = q
  · exact ⟨n, by simp [castLower, getCast, heq], heq, .inl ⟨heq, rfl⟩⟩
  have hex : Explicit reg c n.ty q := by
    rcases h with h | h
    · exact absurd h heq
    cases implicitOnly with
    | false => exact h
    | true =>
      simp only [if_true] at h
      cases h with
      | refl => exact absurd rfl heq
      | parts hp hq hs hv => exact .mk hp hq hs (castable_of_valCast hv)
  obtain ⟨m, h1, h2, h3⟩ := lower_explicit reg ho hr ops c hops n q hn ht hx hex
  exact ⟨m, h1, h2, .inr h3⟩

/-- `core.cast_values` accepts exactly scalar types that the elements can be cast to; the result has the shape of the argument and these
elements. -/
theorem cast_values_infer (reg : Registry) (c : Consts) (arg scalar q : QTy) :
    castValuesInfer reg c arg scalar = some q ↔
      ∃ s v w, Parts reg arg s v ∧ scalar = .plain w ∧ reg.isScalar w = true ∧ (v = w ∨ Castable c v ∧ Castable c w) ∧ Avail reg s w ∧
        q = mk s w := by
  unfold castValuesInfer
  constructor
  · intro h
    split at h
    · cases h
    cases ha : scalarOrNull reg arg with
    | none => rw [ha] at h; cases h
    | some t =>
      rw [ha] at h
      simp only at h
      split at h
      · cases h
      rename_i hc
      obtain ⟨w, s, v, rfl, hw, hp, rfl, hav⟩ := (withScalar_iff _ _ _).1 h
      rw [scalar_of_parts hp] at ha
      cases ha
      refine ⟨s, v, w, hp, rfl, hw, ?_, hav, rfl⟩
      by_cases hvw : v = w
      · exact .inl hvw
      · right
        simp only [not_and, not_or, Bool.not_eq_false, castable_iff] at hc
        have := hc (by simpa using fun h => hvw h.symm)
        exact ⟨this.2, this.1⟩
  · rintro ⟨s, v, w, hp, rfl, hw, hvw, hav, rfl⟩
    rw [if_neg (by simp [isScalarQType, hw]), scalar_of_parts hp]
    simp only
    rw [if_neg, (withScalar_iff _ _ _).2 ⟨w, s, v, rfl, hw, hp, rfl, hav⟩]
    rintro ⟨hne, hcc⟩
    rcases hvw with rfl | ⟨h1, h2⟩
    · exact hne rfl
    · rcases hcc with h | h
      · rw [(castable_iff c w).2 h2] at h; cases h
      · rw [(castable_iff c v).2 h1] at h; cases h

/-- Whatever type `core.cast_values` infers, its lowering succeeds with exactly this type and the converted elements. -/
theorem cast_values_lower (reg : Registry) (ho : reg.Ok) (hr : reg.Scalars) (c : Consts) (ops : CastOps X) (hops : ops.Total c)
    (n : Node X) (scalar q : QTy) (hn : n.ty.Exists reg) (hx : ∀ s v, Parts reg n.ty s v → HasShape s n.val)
    (h : castValuesInfer reg c n.ty scalar = some q) :
    ∃ m, castLower reg ops n q = some m ∧ m.ty = q ∧
      ∃ s t v w, Parts reg n.ty s v ∧ Parts reg q t w ∧ scalar = .plain w ∧ Casted (convert ops v w) 0 n.val m.val := by
  obtain ⟨s, v, w, hp, rfl, hw, hvw, hav, rfl⟩ := (cast_values_infer reg c n.ty scalar q).1 h
  have hq : Parts reg (mk s w) s w := parts_iff.1 (parts_of_mk hav)
  obtain ⟨m, h1, h2, s', t', v', w', h3, h4, h5⟩ := lower_explicit reg ho hr ops c hops n (mk s w) hn (exists_mk hav) hx
    (.mk hp hq (.refl _) hvw)
  obtain ⟨rfl, rfl⟩ := parts_unique h4 hq
  exact ⟨m, h1, h2, s', t', v', w', h3, h4, rfl, h5⟩

/-! ### Examples -/

/-- An optional integer is cast to an optional float, a scalar to an optional; an optional not to a scalar. -/
def sampleConsts : Consts := ⟨0, 1, 2⟩

/-- A registry with all types. -/
def fullRegistry : Registry := ⟨fun _ => true, fun _ => true, fun _ _ => true⟩

/-- Operators between all types. -/
def fullOps : CastOps Int := ⟨fun _ => true, fun _ _ => true, fun _ _ x => 10 * x⟩

theorem fullOps_total : fullOps.Total sampleConsts := fun _ _ _ _ _ _ => ⟨rfl, rfl⟩

theorem fullRegistry_ok : fullRegistry.Ok := fun _ _ => ⟨rfl, rfl, fun _ => rfl⟩

theorem fullRegistry_scalars : fullRegistry.Scalars := fun _ => ⟨fun _ => rfl, fun _ _ => rfl⟩

theorem fullRegistry_unit : UnitOk fullRegistry sampleConsts := by
  intro s
  cases s <;> rfl

example : castInfer fullRegistry sampleConsts (.plain .f64) (.optional (.other 0)) false = some (.optional (.other 0)) := by
  decide +kernel

/-- Not implicitly. -/
example : castInfer fullRegistry sampleConsts (.plain .f64) (.optional (.other 0)) true = none := by decide +kernel

example : castInfer fullRegistry sampleConsts (.optional .f64) (.plain .f64) false = none := by decide +kernel

example : ∃ m, castLower fullRegistry fullOps ⟨.plain .weakFloat, .scalar 3⟩ (.optional (.other 0)) = some m ∧
    m.val = .opt (some 30) := by
  obtain ⟨m, h1, h2, -⟩ := cast_lower fullRegistry fullRegistry_ok fullRegistry_scalars sampleConsts fullRegistry_unit fullOps fullOps_total
    ⟨.plain .weakFloat, .scalar 3⟩ (.optional (.other 0)) _ false trivial rfl (by intro s v h; cases h; exact .scalar _) (by rfl)
  have h3 : castLower fullRegistry fullOps ⟨.plain .weakFloat, .scalar 3⟩ (.optional (.other 0)) =
      some ⟨.optional (.other 0), .opt (some 30)⟩ := by decide +kernel
  rw [h3] at h1
  exact ⟨m, h3.trans h1, by rw [← Option.some.inj h1]⟩

example : castValuesInfer fullRegistry sampleConsts (.array 1 .i32) (.plain (.other 0)) = some (.array 1 (.other 0)) := by decide +kernel

example : castValuesInfer fullRegistry sampleConsts (.array 1 .i32) (.plain (.other 5)) = none := by decide +kernel

end Verif.Casts
