import Verif.QType.CommonModel

/-!
# C50: common types

The specification gives the implicit casts directly: the chains `int32 → int64 → float32 → float64` and
`weak_float → float32` for the elements, `scalar → optional → array` for the shapes.
-/

namespace Verif.QType

/-- `v` is a number type. -/
def Val.Numeric : Val → Prop
  | .other _ => False
  | _ => True

/-- All number types exist as scalars, optionals and arrays of each kind. -/
def Registry.Ok (reg : Registry) : Prop :=
  ∀ v : Val, v.Numeric → reg.isScalar v = true ∧ reg.hasOptional v = true ∧ ∀ k, reg.hasArray k v = true

/-- The type exists. -/
def QTy.Exists (reg : Registry) : QTy → Prop
  | .plain _ => True
  | .optional v => reg.hasOptional v = true
  | .array k v => reg.hasArray k v = true
  | .container _ _ => True

/-- The casts between element types. -/
inductive ValCast : Val → Val → Prop where
  | refl (v) : ValCast v v
  | i32_i64 : ValCast .i32 .i64
  | i32_f32 : ValCast .i32 .f32
  | i32_f64 : ValCast .i32 .f64
  | i64_f32 : ValCast .i64 .f32
  | i64_f64 : ValCast .i64 .f64
  | f32_f64 : ValCast .f32 .f64
  | weak_f32 : ValCast .weakFloat .f32
  | weak_f64 : ValCast .weakFloat .f64

/-- The casts between shapes; those from a scalar or optional to an array are allowed with broadcasting only. -/
inductive ShapeCast (broadcasting : Bool) : Shape → Shape → Prop where
  | refl (s) : ShapeCast broadcasting s s
  | scalar_optional : ShapeCast broadcasting .scalar .optional
  | scalar_array (k) : broadcasting = true → ShapeCast broadcasting .scalar (.array k)
  | optional_array (k) : broadcasting = true → ShapeCast broadcasting .optional (.array k)

/-- A type made of a shape and an element type. -/
inductive Parts (reg : Registry) : QTy → Shape → Val → Prop where
  | scalar (v) : reg.isScalar v = true → Parts reg (.plain v) .scalar v
  | optional (v) : Parts reg (.optional v) .optional v
  | array (k v) : Parts reg (.array k v) (.array k) v

/-- The implicit casts. -/
inductive Cast (reg : Registry) (broadcasting : Bool) : QTy → QTy → Prop where
  | refl (a) : Cast reg broadcasting a a
  | parts {a b s t v w} : Parts reg a s v → Parts reg b t w → ShapeCast broadcasting s t → ValCast v w →
      Cast reg broadcasting a b

/-! ### Joins of the parts -/

def joinVal (v w : Val) : Option Val :=
  match commonScalar (.plain v) (.plain w) with
  | some (.plain x) => some x
  | _ => none

theorem commonScalar_plain (v w : Val) : commonScalar (.plain v) (.plain w) = (joinVal v w).map .plain := by
  cases v <;> cases w <;> try rfl
  rename_i j k
  by_cases h : j = k
  · subst h; simp [joinVal, commonScalar]
  · simp [joinVal, commonScalar, h, numericIndex]

theorem joinVal_self (v : Val) : joinVal v v = some v := by simp [joinVal, commonScalar]

theorem joinVal_other_left (k : Nat) (w : Val) : joinVal (.other k) w = if w = .other k then some w else none := by
  cases w <;> try rfl
  rename_i j
  by_cases h : j = k
  · subst h; simp [joinVal, commonScalar]
  · simp [joinVal, commonScalar, h, numericIndex, Ne.symm h]

theorem joinVal_other_right (k : Nat) (w : Val) : joinVal w (.other k) = if w = .other k then some w else none := by
  cases w <;> try rfl
  rename_i j
  by_cases h : j = k
  · subst h; simp [joinVal, commonScalar]
  · simp [joinVal, commonScalar, h, numericIndex]

theorem joinVal_comm (v w : Val) : joinVal v w = joinVal w v := by
  by_cases h : (∃ k, v = .other k) ∨ ∃ k, w = .other k
  · rcases h with ⟨k, rfl⟩ | ⟨k, rfl⟩ <;> rw [joinVal_other_left, joinVal_other_right]
  · cases v <;> cases w <;> first | rfl | simp at h

theorem joinVal_assoc (u v w : Val) : ((joinVal u v).bind fun x => joinVal x w) = (joinVal v w).bind (joinVal u) := by
  by_cases hu : ∃ k, u = .other k
  · obtain ⟨k, rfl⟩ := hu
    rw [joinVal_other_left]
    by_cases hv : v = .other k
    · subst hv
      simp only [if_true, Option.bind_some, joinVal_other_left]
      split
      next h => simp [joinVal_other_left, h]
      next h => simp
    · rw [if_neg hv]
      simp only [Option.bind_none]
      cases hj : joinVal v w with
      | none => rfl
      | some x =>
        simp only [Option.bind_some, joinVal_other_left]
        rw [if_neg]
        rintro rfl
        by_cases hw : w = .other k
        · subst hw
          rw [joinVal_other_right] at hj
          split at hj <;> simp_all
        · cases v <;> cases w <;> simp_all [joinVal_other_left, joinVal_other_right] <;>
            simp [joinVal, commonScalar, numericIndex, numericType] at hj
  · by_cases hv : ∃ k, v = .other k
    · obtain ⟨k, rfl⟩ := hv
      rw [joinVal_other_right, joinVal_other_left]
      rw [if_neg (fun h => hu ⟨k, h⟩)]
      split
      next h => subst h; simp only [Option.bind_some, Option.bind_none, joinVal_other_right, if_neg (fun h => hu ⟨k, h⟩)]
      next h => rfl
    · by_cases hw : ∃ k, w = .other k
      · obtain ⟨k, rfl⟩ := hw
        rw [joinVal_other_right, if_neg (fun h => hv ⟨k, h⟩)]
        cases u <;> cases v <;> first | rfl | exact absurd ⟨_, rfl⟩ hu | exact absurd ⟨_, rfl⟩ hv
      · cases u <;> cases v <;> cases w <;> first | rfl | exact absurd ⟨_, rfl⟩ hu | exact absurd ⟨_, rfl⟩ hv | exact absurd ⟨_, rfl⟩ hw

def joinShape (bc : Bool) (s t : Shape) : Option Shape := commonShape (some s) (some t) bc

theorem joinShape_self (bc : Bool) (s : Shape) : joinShape bc s s = some s := by simp [joinShape, commonShape]

theorem joinShape_comm (bc : Bool) (s t : Shape) : joinShape bc s t = joinShape bc t s := by
  cases bc <;> cases s <;> cases t <;> try rfl
  all_goals
    rename_i j k
    by_cases h : j = k
    · subst h; rfl
    · simp [joinShape, commonShape, isArrayShape, h, Ne.symm h]

theorem joinShape_arrays (bc : Bool) (j k : Nat) :
    joinShape bc (.array j) (.array k) = if j = k then some (.array j) else none := by
  by_cases h : j = k
  · subst h; simp [joinShape_self]
  · cases bc <;> simp [joinShape, commonShape, isArrayShape, h]

theorem joinShape_assoc (bc : Bool) (s t u : Shape) :
    ((joinShape bc s t).bind fun x => joinShape bc x u) = (joinShape bc t u).bind (joinShape bc s) := by
  cases bc <;> cases s <;> cases t <;> cases u <;>
    (try rfl) <;>
    simp only [joinShape_arrays] <;>
    (try (split <;> simp_all [joinShape, commonShape, isArrayShape]; done)) <;>
    simp [joinShape, commonShape, isArrayShape] <;>
    (repeat' split) <;> simp_all [isArrayShape, joinShape_arrays]

/-! ### `CommonQType` in terms of the parts -/

/-- The parts of a type, if it has parts. -/
def parts (reg : Registry) : QTy → Option (Shape × Val)
  | .plain v => if reg.isScalar v then some (.scalar, v) else none
  | .optional v => some (.optional, v)
  | .array k v => some (.array k, v)
  | .container _ _ => none

def mk : Shape → Val → QTy
  | .scalar, v => .plain v
  | .optional, v => .optional v
  | .array k, v => .array k v

theorem parts_iff {reg : Registry} {q : QTy} {s : Shape} {v : Val} : parts reg q = some (s, v) ↔ Parts reg q s v := by
  constructor
  · intro h
    cases q with
    | plain w =>
      simp only [parts] at h
      split at h <;> simp at h
      obtain ⟨rfl, rfl⟩ := h
      exact .scalar _ ‹_›
    | optional w => simp only [parts, Option.some.injEq, Prod.mk.injEq] at h; obtain ⟨rfl, rfl⟩ := h; exact .optional _
    | array k w => simp only [parts, Option.some.injEq, Prod.mk.injEq] at h; obtain ⟨rfl, rfl⟩ := h; exact .array _ _
    | container => simp [parts] at h
  · intro h
    cases h <;> simp [parts, *]

theorem parts_mk {reg : Registry} {q : QTy} {s : Shape} {v : Val} (h : parts reg q = some (s, v)) : q = mk s v := by
  cases parts_iff.1 h <;> rfl

/-- Shape `s` exists for `v`. -/
def Avail (reg : Registry) : Shape → Val → Prop
  | .scalar, v => reg.isScalar v = true
  | .optional, v => reg.hasOptional v = true
  | .array k, v => reg.hasArray k v = true

theorem avail_of_exists {reg : Registry} {q : QTy} {s : Shape} {v : Val} (hq : q.Exists reg)
    (h : parts reg q = some (s, v)) : Avail reg s v := by
  cases parts_iff.1 h <;> first | assumption | exact hq

theorem exists_mk {reg : Registry} {s : Shape} {v : Val} (h : Avail reg s v) : (mk s v).Exists reg := by
  cases s <;> first | exact h | trivial

theorem parts_of_mk {reg : Registry} {s : Shape} {v : Val} (h : Avail reg s v) : parts reg (mk s v) = some (s, v) := by
  cases s <;> simp_all [parts, mk, Avail]

/-- The join of two different element types is a number type. -/
theorem joinVal_cases {v w x : Val} (h : joinVal v w = some x) : (v = w ∧ x = v) ∨ x.Numeric := by
  by_cases hv : ∃ k, v = .other k
  · obtain ⟨k, rfl⟩ := hv
    rw [joinVal_other_left] at h
    split at h <;> simp_all
  · by_cases hw : ∃ k, w = .other k
    · obtain ⟨k, rfl⟩ := hw
      rw [joinVal_other_right] at h
      split at h <;> simp_all
    · right
      cases v <;> cases w <;>
        first
          | exact absurd ⟨_, rfl⟩ hv
          | exact absurd ⟨_, rfl⟩ hw
          | (cases h; trivial)

theorem joinShape_cases {bc : Bool} {s t u : Shape} (h : joinShape bc s t = some u) : u = s ∨ u = t := by
  simp only [joinShape, commonShape] at h
  repeat' split at h
  all_goals simp_all

theorem avail_join {reg : Registry} (ho : reg.Ok) {bc : Bool} {s t u : Shape} {v w x : Val} (h1 : Avail reg s v)
    (h2 : Avail reg t w) (hs : joinShape bc s t = some u) (hv : joinVal v w = some x) : Avail reg u x := by
  rcases joinVal_cases hv with ⟨rfl, rfl⟩ | hn
  · rcases joinShape_cases hs with rfl | rfl <;> assumption
  · obtain ⟨a, b, c⟩ := ho x hn
    cases u <;> first | exact a | exact b | exact c _

/-- The join of two types with parts. -/
def joinParts (bc : Bool) (a b : Shape × Val) : Option (Shape × Val) := do
  let s ← joinShape bc a.1 b.1
  let v ← joinVal a.2 b.2
  pure (s, v)

/-- `CommonQType` of two existing types. -/
theorem common_eq {reg : Registry} (ho : reg.Ok) (bc : Bool) {a b : QTy} (ha : a.Exists reg) (hb : b.Exists reg) :
    common reg bc (some a) (some b) =
      match parts reg a, parts reg b with
      | some p, some q => (joinParts bc p q).map fun x => mk x.1 x.2
      | _, _ => if a = b then some a else none := by
  simp only [common, Option.bind_eq_bind, Option.bind_some]
  by_cases hab : a = b
  · subst hab
    simp only [if_true]
    cases hp : parts reg a with
    | none => rfl
    | some p => simp [joinParts, joinShape_self, joinVal_self, parts_mk hp]
  · rw [if_neg hab]
    have hnone : ∀ q : QTy, parts reg q = none → scalarOrNull reg q = none ∨ shapeOrNull reg q = none := by
      intro q hq
      cases q <;> simp_all [parts, scalarOrNull, shapeOrNull]
    have hsome : ∀ (q : QTy) (s : Shape) (v : Val), parts reg q = some (s, v) →
        scalarOrNull reg q = some (.plain v) ∧ shapeOrNull reg q = some s := by
      intro q s v hq
      cases parts_iff.1 hq <;> simp_all [scalarOrNull, shapeOrNull]
    have hnl : ∀ t, commonShape none t bc = none := by
      intro t
      cases t with
      | none => rfl
      | some t => cases t <;> cases bc <;> rfl
    have hnr : ∀ t, commonShape t none bc = none := by
      intro t
      cases t with
      | none => rfl
      | some t => cases t <;> cases bc <;> rfl
    cases hpa : parts reg a with
    | none =>
      rcases hnone a hpa with h | h
      · simp [h, hab]
      · simp only [h, hnl, Option.bind_none]
        cases scalarOrNull reg a <;> simp [hab]
    | some p =>
      obtain ⟨s, v⟩ := p
      cases hpb : parts reg b with
      | none =>
        rcases hnone b hpb with h | h
        · simp [h, hab]
        · simp only [h, hnr, Option.bind_none]
          cases scalarOrNull reg a <;> simp [hab]
      | some q =>
        obtain ⟨t, w⟩ := q
        obtain ⟨h1, h2⟩ := hsome a s v hpa
        obtain ⟨h3, h4⟩ := hsome b t w hpb
        simp only [h1, h2, h3, h4, Option.bind_some, commonScalar_plain]
        rw [show commonShape (some s) (some t) bc = joinShape bc s t from rfl]
        cases hv : joinVal v w with
        | none => simp [joinParts, hv]
        | some x =>
          cases hs : joinShape bc s t with
          | none => simp [joinParts, hs]
          | some u =>
            have hav := avail_join ho (avail_of_exists ha hpa) (avail_of_exists hb hpb) hs hv
            simp only [joinParts, hs, hv, Option.map_some, Option.bind_some, Option.bind_eq_bind, Option.pure_def]
            cases u with
            | scalar => simpa [withValue, mk, Avail] using hav
            | array k => simpa [withValue, mk, Avail] using hav
            | optional =>
              have hsc : reg.isScalar x = true := by
                rcases joinVal_cases hv with ⟨rfl, rfl⟩ | hn
                · have hst : s = .scalar ∨ t = .scalar := by
                    rcases joinShape_cases hs with rfl | rfl
                    · cases t with
                      | scalar => exact .inr rfl
                      | optional => exact absurd ((parts_mk hpa).trans (parts_mk hpb).symm) hab
                      | array k => cases bc <;> simp [joinShape, commonShape, isArrayShape] at hs
                    · cases s with
                      | scalar => exact .inl rfl
                      | optional => exact absurd ((parts_mk hpa).trans (parts_mk hpb).symm) hab
                      | array k => cases bc <;> simp [joinShape, commonShape, isArrayShape] at hs
                  rcases hst with rfl | rfl
                  · exact avail_of_exists ha hpa
                  · exact avail_of_exists hb hpb
                · exact (ho x hn).1
              simp only [Avail] at hav
              simp [withValue, mk, hsc, hav]

theorem joinParts_comm (bc : Bool) (p q : Shape × Val) : joinParts bc p q = joinParts bc q p := by
  simp [joinParts, joinShape_comm bc p.1, joinVal_comm p.2]

theorem joinParts_assoc (bc : Bool) (p q r : Shape × Val) :
    ((joinParts bc p q).bind fun x => joinParts bc x r) = (joinParts bc q r).bind fun x => joinParts bc p x := by
  have e1 : ((joinParts bc p q).bind fun x => joinParts bc x r) =
      ((joinShape bc p.1 q.1).bind fun x => joinShape bc x r.1).bind fun s =>
        ((joinVal p.2 q.2).bind fun x => joinVal x r.2).bind fun v => some (s, v) := by
    simp only [joinParts, Option.bind_eq_bind, Option.pure_def]
    cases joinShape bc p.1 q.1 with
    | none => rfl
    | some s =>
      cases joinVal p.2 q.2 with
      | none => simp only [Option.bind_some, Option.bind_none]; cases joinShape bc s r.1 <;> rfl
      | some v => rfl
  have e2 : ((joinParts bc q r).bind fun x => joinParts bc p x) =
      ((joinShape bc q.1 r.1).bind (joinShape bc p.1)).bind fun s =>
        ((joinVal q.2 r.2).bind (joinVal p.2)).bind fun v => some (s, v) := by
    simp only [joinParts, Option.bind_eq_bind, Option.pure_def]
    cases joinShape bc q.1 r.1 with
    | none => rfl
    | some s =>
      cases joinVal q.2 r.2 with
      | none => simp only [Option.bind_some, Option.bind_none]; cases joinShape bc p.1 s <;> rfl
      | some v => rfl
  rw [e1, e2, joinShape_assoc, joinVal_assoc]

/-! ### The properties -/

/-- The common type of two existing types exists. -/
theorem common_exists {reg : Registry} (ho : reg.Ok) (bc : Bool) {a b c : QTy} (ha : a.Exists reg) (hb : b.Exists reg)
    (h : common reg bc (some a) (some b) = some c) : c.Exists reg := by
  rw [common_eq ho bc ha hb] at h
  split at h
  next p q hp hq =>
    obtain ⟨x, hx, rfl⟩ := Option.map_eq_some_iff.1 h
    simp only [joinParts, Option.bind_eq_bind, Option.pure_def, Option.bind_eq_some_iff, Option.some.injEq] at hx
    obtain ⟨s, hs, v, hv, rfl⟩ := hx
    exact exists_mk (avail_join ho (avail_of_exists ha hp) (avail_of_exists hb hq) hs hv)
  next =>
    split at h <;> simp at h
    exact h ▸ ha

theorem common_idem (reg : Registry) (bc : Bool) (a : Option QTy) : common reg bc a a = a := by
  cases a <;> simp [common]

theorem common_null (reg : Registry) (bc : Bool) (a : Option QTy) :
    common reg bc none a = none ∧ common reg bc a none = none := by
  cases a <;> simp [common]

theorem common_comm {reg : Registry} (ho : reg.Ok) (bc : Bool) (a b : Option QTy) (ha : ∀ q, a = some q → q.Exists reg)
    (hb : ∀ q, b = some q → q.Exists reg) : common reg bc a b = common reg bc b a := by
  cases a with
  | none => rw [(common_null reg bc b).1, (common_null reg bc b).2]
  | some a =>
    cases b with
    | none => rw [(common_null reg bc _).1, (common_null reg bc _).2]
    | some b =>
      rw [common_eq ho bc (ha a rfl) (hb b rfl), common_eq ho bc (hb b rfl) (ha a rfl)]
      cases parts reg a <;> cases parts reg b <;> simp only [joinParts_comm bc]
      all_goals
        by_cases h : a = b
        · subst h; rfl
        · rw [if_neg h, if_neg (Ne.symm h)]

theorem common_of_no_parts {reg : Registry} (ho : reg.Ok) (bc : Bool) {a b : QTy} (ha : a.Exists reg)
    (hb : b.Exists reg) (h : parts reg a = none ∨ parts reg b = none) :
    common reg bc (some a) (some b) = if a = b then some a else none := by
  rw [common_eq ho bc ha hb]
  rcases h with h | h <;> rw [h]
  cases parts reg a <;> rfl

theorem common_parts {reg : Registry} (ho : reg.Ok) (bc : Bool) {a b : QTy} {p q : Shape × Val} (ha : a.Exists reg)
    (hb : b.Exists reg) (hp : parts reg a = some p) (hq : parts reg b = some q) {d : QTy}
    (h : common reg bc (some a) (some b) = some d) :
    ∃ r, joinParts bc p q = some r ∧ parts reg d = some r ∧ d = mk r.1 r.2 := by
  rw [common_eq ho bc ha hb, hp, hq] at h
  obtain ⟨x, hx, rfl⟩ := Option.map_eq_some_iff.1 h
  refine ⟨x, hx, ?_, rfl⟩
  simp only [joinParts, Option.bind_eq_bind, Option.pure_def, Option.bind_eq_some_iff, Option.some.injEq] at hx
  obtain ⟨s, hs, v, hv, rfl⟩ := hx
  exact parts_of_mk (avail_join ho (avail_of_exists ha hp) (avail_of_exists hb hq) hs hv)

theorem common_assoc {reg : Registry} (ho : reg.Ok) (bc : Bool) (a b c : Option QTy)
    (ha : ∀ q, a = some q → q.Exists reg) (hb : ∀ q, b = some q → q.Exists reg) (hc : ∀ q, c = some q → q.Exists reg) :
    common reg bc (common reg bc a b) c = common reg bc a (common reg bc b c) := by
  have n := common_null reg bc
  match a, b, c, ha, hb, hc with
  | none, _, _, _, _, _ => rw [(n _).1, (n _).1, (n _).1]
  | some _, none, _, _, _, _ => rw [(n _).2, (n _).1, (n _).2]
  | some _, some _, none, _, _, _ => rw [(n _).2, (n _).2, (n _).2]
  | some a, some b, some c, ha, hb, hc =>
    replace ha := ha a rfl
    replace hb := hb b rfl
    replace hc := hc c rfl
    cases hpb : parts reg b with
    | none =>
      rw [common_of_no_parts ho bc ha hb (.inr hpb), common_of_no_parts ho bc hb hc (.inl hpb)]
      by_cases h1 : a = b
      · subst h1
        by_cases h2 : a = c
        · subst h2; simp [common_idem]
        · rw [if_pos rfl, if_neg h2, (n _).2, common_of_no_parts ho bc ha hc (.inl hpb), if_neg h2]
      · rw [if_neg h1, (n _).1]
        by_cases h2 : b = c
        · rw [if_pos h2, common_of_no_parts ho bc ha hb (.inr hpb), if_neg h1]
        · rw [if_neg h2, (n _).2]
    | some q =>
      cases hpa : parts reg a with
      | none =>
        have hab : a ≠ b := by rintro rfl; rw [hpa] at hpb; cases hpb
        rw [common_of_no_parts ho bc ha hb (.inl hpa), if_neg hab, (n _).1]
        cases h : common reg bc (some b) (some c) with
        | none => rw [(n _).2]
        | some d =>
          have hd := common_exists ho bc hb hc h
          rw [common_of_no_parts ho bc ha hd (.inl hpa), if_neg]
          rintro rfl
          cases hpc : parts reg c with
          | none =>
            rw [common_of_no_parts ho bc hb hc (.inr hpc)] at h
            split at h <;> simp at h
            exact hab h.symm
          | some r =>
            obtain ⟨x, -, hx, -⟩ := common_parts ho bc hb hc hpb hpc h
            rw [hpa] at hx; cases hx
      | some p =>
        cases hpc : parts reg c with
        | none =>
          have hbc : b ≠ c := by rintro rfl; rw [hpb] at hpc; cases hpc
          rw [common_of_no_parts ho bc hb hc (.inr hpc), if_neg hbc, (n _).2]
          cases h : common reg bc (some a) (some b) with
          | none => rw [(n _).1]
          | some d =>
            have hd := common_exists ho bc ha hb h
            obtain ⟨x, -, hx, -⟩ := common_parts ho bc ha hb hpa hpb h
            rw [common_of_no_parts ho bc hd hc (.inr hpc), if_neg]
            rintro rfl
            rw [hpc] at hx; cases hx
        | some r =>
          have key := joinParts_assoc bc p q r
          have e1 : common reg bc (common reg bc (some a) (some b)) (some c) =
              ((joinParts bc p q).bind fun x => joinParts bc x r).map fun x => mk x.1 x.2 := by
            cases h : common reg bc (some a) (some b) with
            | none =>
              have h' := h
              rw [common_eq ho bc ha hb, hpa, hpb] at h'
              rw [(n _).1, Option.map_eq_none_iff.1 h']; rfl
            | some d =>
              obtain ⟨x, hj, hx, -⟩ := common_parts ho bc ha hb hpa hpb h
              rw [common_eq ho bc (common_exists ho bc ha hb h) hc, hx, hpc, hj]; rfl
          have e2 : common reg bc (some a) (common reg bc (some b) (some c)) =
              ((joinParts bc q r).bind fun x => joinParts bc p x).map fun x => mk x.1 x.2 := by
            cases h : common reg bc (some b) (some c) with
            | none =>
              have h' := h
              rw [common_eq ho bc hb hc, hpb, hpc] at h'
              rw [(n _).2, Option.map_eq_none_iff.1 h']; rfl
            | some d =>
              obtain ⟨x, hj, hx, -⟩ := common_parts ho bc hb hc hpb hpc h
              rw [common_eq ho bc ha (common_exists ho bc hb hc h), hx, hpa, hj]; rfl
          rw [e1, e2, key]

/-- `none`, or an existing type. -/
def Valid (reg : Registry) (a : Option QTy) : Prop := ∀ q, a = some q → q.Exists reg

theorem common_valid {reg : Registry} (ho : reg.Ok) (bc : Bool) {a b : Option QTy} (ha : Valid reg a) (hb : Valid reg b) :
    Valid reg (common reg bc a b) := by
  intro q h
  cases a with
  | none => rw [(common_null reg bc b).1] at h; cases h
  | some a =>
    cases b with
    | none => rw [(common_null reg bc _).2] at h; cases h
    | some b => exact common_exists ho bc (ha a rfl) (hb b rfl) h

theorem foldl_common_perm {reg : Registry} (ho : reg.Ok) (bc : Bool) {l l' : List (Option QTy)} (hp : l.Perm l') :
    ∀ (i : Option QTy), Valid reg i → (∀ q ∈ l, Valid reg q) →
      l.foldl (common reg bc) i = l'.foldl (common reg bc) i := by
  induction hp with
  | nil => intros; rfl
  | cons x _ ih =>
    intro i hi hl
    exact ih _ (common_valid ho bc hi (hl x (by simp))) (fun q hq => hl q (by simp [hq]))
  | swap x y l =>
    intro i hi hl
    have hx := hl x (by simp)
    have hy := hl y (by simp)
    simp only [List.foldl_cons]
    rw [common_assoc ho bc i y x hi hy hx, common_assoc ho bc i x y hi hx hy, common_comm ho bc x y hx hy]
  | trans h1 _ ih1 ih2 =>
    intro i hi hl
    rw [ih1 i hi hl, ih2 i hi (fun q hq => hl q (h1.mem_iff.2 hq))]

/-- The span version: the order of existing types (or null pointers) does not matter. -/
theorem common_span_perm {reg : Registry} (ho : reg.Ok) (bc : Bool) {l l' : List (Option QTy)} (hp : l.Perm l')
    (he : ∀ q, some q ∈ l → q.Exists reg) : commonSpan reg bc l = commonSpan reg bc l' := by
  have hv : ∀ q ∈ l, Valid reg q := fun q hq r hr => he r (hr ▸ hq)
  clear he
  induction hp with
  | nil => rfl
  | cons x h _ => exact foldl_common_perm ho bc h x (hv x (by simp)) (fun q hq => hv q (by simp [hq]))
  | swap x y l =>
    simp only [commonSpan, List.foldl_cons]
    rw [common_comm ho bc y x (hv y (by simp)) (hv x (by simp))]
  | trans h1 _ ih1 ih2 => rw [ih1 hv, ih2 (fun q hq => hv q (h1.mem_iff.2 hq))]

/-- Nor do repetitions. -/
theorem common_span_repeat {reg : Registry} (ho : reg.Ok) (bc : Bool) {l : List (Option QTy)} {q : Option QTy}
    (hq : q ∈ l) (he : ∀ q, some q ∈ l → q.Exists reg) : commonSpan reg bc (q :: l) = commonSpan reg bc l := by
  obtain ⟨l1, l2, rfl⟩ := List.append_of_mem hq
  have hp : (l1 ++ q :: l2).Perm (q :: (l1 ++ l2)) := List.perm_middle
  rw [common_span_perm ho bc hp he, common_span_perm ho bc (hp.cons q)
    (fun r hr => he r (by rcases List.mem_cons.1 hr with h | h; exact h ▸ hq; exact h))]
  simp only [commonSpan, List.foldl_cons, common_idem]

theorem joinVal_cast (v w : Val) : joinVal v w = some w ↔ ValCast v w := by
  by_cases hv : ∃ k, v = .other k
  · obtain ⟨k, rfl⟩ := hv
    rw [joinVal_other_left]
    constructor
    · intro h; split at h <;> simp_all; exact .refl _
    · intro h; cases h; simp
  · by_cases hw : ∃ k, w = .other k
    · obtain ⟨k, rfl⟩ := hw
      rw [joinVal_other_right]
      constructor
      · intro h; split at h <;> simp_all
      · intro h; cases h; simp
    · cases v <;> cases w <;>
        first
          | exact absurd ⟨_, rfl⟩ hv
          | exact absurd ⟨_, rfl⟩ hw
          | exact ⟨fun _ => (by constructor), fun _ => rfl⟩
          | exact ⟨fun h => (by cases h), fun h => (by cases h)⟩

theorem joinShape_cast (bc : Bool) (s t : Shape) : joinShape bc s t = some t ↔ ShapeCast bc s t := by
  cases s <;> cases t
  case array.array j k =>
    rw [joinShape_arrays]
    constructor
    · intro h; split at h <;> simp_all; exact .refl _
    · intro h; cases h; simp
  all_goals
    cases bc <;>
    first
      | exact ⟨fun _ => (by constructor <;> rfl), fun _ => rfl⟩
      | exact ⟨fun h => (by cases h), fun h => (by cases h <;> contradiction)⟩

/-- `CanCastImplicitly` is the relation of the specification; nothing can be cast to or from a null pointer. -/
theorem canCast_iff {reg : Registry} (ho : reg.Ok) (bc : Bool) {a b : QTy} (ha : a.Exists reg) (hb : b.Exists reg) :
    canCast reg bc (some a) (some b) = true ↔ Cast reg bc a b := by
  simp only [canCast, Option.isSome_some, Bool.true_and, beq_iff_eq]
  constructor
  · intro h
    cases hpa : parts reg a with
    | none =>
      rw [common_of_no_parts ho bc ha hb (.inl hpa)] at h
      split at h <;> simp at h
      exact h ▸ .refl _
    | some p =>
      cases hpb : parts reg b with
      | none =>
        rw [common_of_no_parts ho bc ha hb (.inr hpb)] at h
        split at h <;> simp at h
        exact h ▸ .refl _
      | some q =>
        obtain ⟨r, hj, hr, -⟩ := common_parts ho bc ha hb hpa hpb h
        rw [hpb] at hr
        cases hr
        simp only [joinParts, Option.bind_eq_bind, Option.pure_def, Option.bind_eq_some_iff, Option.some.injEq] at hj
        obtain ⟨s, hs, v, hv, rfl⟩ := hj
        exact .parts (parts_iff.1 hpa) (parts_iff.1 hpb) ((joinShape_cast bc _ _).1 hs) ((joinVal_cast _ _).1 hv)
  · intro h
    cases h with
    | refl => exact common_idem reg bc _
    | parts h1 h2 h3 h4 =>
      rw [common_eq ho bc ha hb, parts_iff.2 h1, parts_iff.2 h2]
      simp only [joinParts, (joinShape_cast bc _ _).2 h3, (joinVal_cast _ _).2 h4]
      simp [← parts_mk (parts_iff.2 h2)]

theorem canCast_null (reg : Registry) (bc : Bool) (a : Option QTy) :
    canCast reg bc none a = false ∧ canCast reg bc a none = false := by
  constructor
  · cases a <;> simp [canCast, common]
  · simp [canCast]

/-- `CanCastImplicitly` is a partial order on the existing types. -/
theorem canCast_partial_order {reg : Registry} (ho : reg.Ok) (bc : Bool) {a b c : QTy} (ha : a.Exists reg)
    (hb : b.Exists reg) (hc : c.Exists reg) :
    canCast reg bc (some a) (some a) = true ∧
    (canCast reg bc (some a) (some b) = true → canCast reg bc (some b) (some a) = true → a = b) ∧
    (canCast reg bc (some a) (some b) = true → canCast reg bc (some b) (some c) = true →
      canCast reg bc (some a) (some c) = true) := by
  have va : Valid reg (some a) := fun q h => by cases h; exact ha
  have vb : Valid reg (some b) := fun q h => by cases h; exact hb
  have vc : Valid reg (some c) := fun q h => by cases h; exact hc
  simp only [canCast, Option.isSome_some, Bool.true_and, beq_iff_eq]
  refine ⟨common_idem _ _ _, fun h1 h2 => ?_, fun h1 h2 => ?_⟩
  · rw [common_comm ho bc _ _ va vb, h2] at h1
    exact (Option.some.inj h1)
  · rw [← h2, ← common_assoc ho bc _ _ _ va vb vc, h1]

/-- `CommonQType` is the least upper bound for the implicit casts; it is null only if there is no upper bound. -/
theorem common_least {reg : Registry} (ho : reg.Ok) (bc : Bool) {a b : QTy} (ha : a.Exists reg) (hb : b.Exists reg) :
    (∀ c, common reg bc (some a) (some b) = some c → Cast reg bc a c ∧ Cast reg bc b c) ∧
    (∀ d, d.Exists reg → Cast reg bc a d → Cast reg bc b d →
      ∃ c, common reg bc (some a) (some b) = some c ∧ Cast reg bc c d) := by
  have va : Valid reg (some a) := fun q h => by cases h; exact ha
  have vb : Valid reg (some b) := fun q h => by cases h; exact hb
  constructor
  · intro c h
    have hc := common_exists ho bc ha hb h
    constructor
    · rw [← canCast_iff ho bc ha hc]
      simp only [canCast, Option.isSome_some, Bool.true_and, beq_iff_eq]
      rw [← h, ← common_assoc ho bc _ _ _ va va vb, common_idem]
    · rw [← canCast_iff ho bc hb hc]
      simp only [canCast, Option.isSome_some, Bool.true_and, beq_iff_eq]
      rw [← h, common_comm ho bc _ _ va vb, ← common_assoc ho bc _ _ _ vb vb va, common_idem]
  · intro d hd h1 h2
    have vd : Valid reg (some d) := fun q h => by cases h; exact hd
    rw [← canCast_iff ho bc ha hd] at h1
    rw [← canCast_iff ho bc hb hd] at h2
    simp only [canCast, Option.isSome_some, Bool.true_and, beq_iff_eq] at h1 h2
    have key := common_assoc ho bc (some a) (some b) (some d) va vb vd
    rw [h2, h1] at key
    cases h : common reg bc (some a) (some b) with
    | none => rw [h, (common_null reg bc _).1] at key; cases key
    | some c =>
      refine ⟨c, rfl, ?_⟩
      rw [h] at key
      rw [← canCast_iff ho bc (common_exists ho bc ha hb h) hd]
      simpa [canCast] using key

/-! ### `BroadcastQType` -/

theorem commonShape_none (bc : Bool) (t : Option Shape) : commonShape none t bc = none ∧ commonShape t none bc = none := by
  cases t with
  | none => exact ⟨rfl, rfl⟩
  | some t => cases t <;> cases bc <;> exact ⟨rfl, rfl⟩

theorem shapeCast_trans {bc : Bool} {s t u : Shape} (h1 : ShapeCast bc s t) (h2 : ShapeCast bc t u) : ShapeCast bc s u := by
  cases h1 <;> cases h2 <;> constructor <;> assumption

theorem joinShape_upper {bc : Bool} {s t u : Shape} (h : joinShape bc s t = some u) :
    ShapeCast bc s u ∧ ShapeCast bc t u := by
  rw [← joinShape_cast, ← joinShape_cast]
  constructor
  · have := joinShape_assoc bc s s t
    simpa [joinShape_self, h] using this.symm
  · have := joinShape_assoc bc t t s
    rw [joinShape_comm bc t s] at this
    simpa [joinShape_self, h, joinShape_comm bc t s] using this.symm

/-- The fold over the targets. -/
theorem fold_shapes (shapes : List (Option Shape)) : ∀ (i : Option Shape) (u : Shape),
    shapes.foldl (fun sh t => commonShape sh t true) i = some u ↔
      (i = some u ∨ some u ∈ shapes) ∧ (∃ s, i = some s ∧ ShapeCast true s u) ∧
      ∀ t ∈ shapes, ∃ s, t = some s ∧ ShapeCast true s u := by
  induction shapes with
  | nil =>
    intro i u
    simp only [List.foldl_nil, List.not_mem_nil, or_false, false_implies, implies_true, and_true]
    exact ⟨fun h => ⟨h, u, h, .refl _⟩, fun h => h.1⟩
  | cons x rest ih =>
    intro i u
    rw [List.foldl_cons, ih]
    cases i with
    | none => rw [(commonShape_none true x).1]; simp
    | some s =>
      cases x with
      | none => rw [(commonShape_none true _).2]; simp
      | some t =>
        rw [show commonShape (some s) (some t) true = joinShape true s t from rfl]
        constructor
        · rintro ⟨h1, ⟨w, hw, hwu⟩, h3⟩
          obtain ⟨c1, c2⟩ := joinShape_upper hw
          refine ⟨?_, ⟨s, rfl, shapeCast_trans c1 hwu⟩, fun r hr => ?_⟩
          · rcases h1 with h1 | h1
            · rcases joinShape_cases h1 with rfl | rfl
              · exact .inl rfl
              · exact .inr (by simp)
            · exact .inr (by simp [h1])
          · rcases List.mem_cons.1 hr with rfl | hr
            · exact ⟨t, rfl, shapeCast_trans c2 hwu⟩
            · exact h3 r hr
        · rintro ⟨h1, ⟨s', hs', hsu⟩, h3⟩
          cases hs'
          obtain ⟨t', ht', htu⟩ := h3 (some t) (by simp)
          cases ht'
          have hassoc := joinShape_assoc true s t u
          rw [(joinShape_cast true t u).2 htu] at hassoc
          simp only [Option.bind_some, (joinShape_cast true s u).2 hsu] at hassoc
          obtain ⟨w, hw, hwu⟩ := Option.bind_eq_some_iff.1 hassoc
          have hcast := (joinShape_cast true w u).1 hwu
          refine ⟨?_, ⟨w, hw, hcast⟩, fun r hr => h3 r (by simp [hr])⟩
          by_cases hwu' : w = u
          · exact .inl (hwu' ▸ hw)
          · rcases h1 with h1 | h1
            · cases h1
              have := (joinShape_upper hw).1
              exact absurd (by
                have e1 := (joinShape_cast true u w).2 this
                rw [joinShape_comm, hwu] at e1
                exact (Option.some.inj e1).symm) hwu'
            · rcases List.mem_cons.1 h1 with h1 | h1
              · cases h1
                have := (joinShape_upper hw).2
                exact absurd (by
                  have e1 := (joinShape_cast true u w).2 this
                  rw [joinShape_comm, hwu] at e1
                  exact (Option.some.inj e1).symm) hwu'
              · exact .inr h1

/-- `BroadcastQType`: the result has the element type of `q` and the largest shape among `q` and the targets. -/
theorem broadcast_spec {reg : Registry} {targets : List QTy} {q r : QTy} {v : Val} {s : Shape}
    (hq : Parts reg q s v) :
    broadcast reg (targets.map some) (some q) = some r ↔
      ∃ u, withValue reg u (.plain v) = some r ∧ (u = s ∨ ∃ t ∈ targets, ∃ w, Parts reg t u w) ∧ ShapeCast true s u ∧
        ∀ t ∈ targets, ∃ s' w, Parts reg t s' w ∧ ShapeCast true s' u := by
  have hsh : ∀ (t : QTy) (u : Shape), shapeOrNull reg t = some u ↔ ∃ w, Parts reg t u w := by
    intro t u
    constructor
    · intro h
      cases t with
      | plain w =>
        simp only [shapeOrNull] at h
        split at h <;> simp at h
        exact ⟨w, h ▸ .scalar w ‹_›⟩
      | optional w => simp only [shapeOrNull, Option.some.injEq] at h; exact ⟨w, h ▸ .optional w⟩
      | array k w => simp only [shapeOrNull, Option.some.injEq] at h; exact ⟨w, h ▸ .array k w⟩
      | container k w => simp [shapeOrNull] at h
    · rintro ⟨w, h⟩
      cases h <;> simp_all [shapeOrNull]
  have hsc : scalarOrNull reg q = some (.plain v) := by cases hq <;> simp_all [scalarOrNull]
  have hfold : ∀ i, (targets.map some).foldl (fun sh t => commonShape sh (t.bind (shapeOrNull reg)) true) i =
      (targets.map (shapeOrNull reg)).foldl (fun sh t => commonShape sh t true) i := by
    intro i
    simp only [List.foldl_map, Option.bind_some]
  rw [broadcast, if_neg (by simp)]
  simp only [Option.bind_eq_bind, Option.bind_some, hfold, hsc, Option.bind_eq_some_iff, (hsh q s).2 ⟨v, hq⟩]
  constructor
  · rintro ⟨u, hu, hr⟩
    obtain ⟨h1, ⟨s', hs', hc⟩, h3⟩ := (fold_shapes _ _ _).1 hu
    cases hs'
    refine ⟨u, hr, ?_, hc, fun t ht => ?_⟩
    · rcases h1 with h1 | h1
      · exact .inl (Option.some.inj h1).symm
      · obtain ⟨t, ht, hte⟩ := List.mem_map.1 h1
        exact .inr ⟨t, ht, (hsh t u).1 hte⟩
    · obtain ⟨s', hs', hc'⟩ := h3 _ (List.mem_map_of_mem ht)
      obtain ⟨w, hw⟩ := (hsh t s').1 hs'
      exact ⟨s', w, hw, hc'⟩
  · rintro ⟨u, hr, h1, hc, h3⟩
    refine ⟨u, (fold_shapes _ _ _).2 ⟨?_, ⟨s, rfl, hc⟩, ?_⟩, hr⟩
    · rcases h1 with rfl | ⟨t, ht, hw⟩
      · exact .inl rfl
      · exact .inr (List.mem_map.2 ⟨t, ht, (hsh t u).2 hw⟩)
    · intro x hx
      obtain ⟨t, ht, rfl⟩ := List.mem_map.1 hx
      obtain ⟨s', w, hw, hc'⟩ := h3 t ht
      exact ⟨s', (hsh t s').2 ⟨w, hw⟩, hc'⟩

/-! ### A concrete registry -/

/-- All numbers and `other 0` (text) are scalars with optionals and arrays of kinds 0 and 1; `other 1` is no scalar. -/
def sampleRegistry : Registry where
  isScalar v := v ≠ .other 1
  hasOptional v := v ≠ .other 1
  hasArray _ v := v ≠ .other 1

theorem sampleRegistry_ok : sampleRegistry.Ok := by
  intro v hv
  have : v ≠ .other 1 := by rintro rfl; exact hv
  simp [sampleRegistry, this]

example : common sampleRegistry true (some (.array 0 .weakFloat)) (some (.optional .i64)) = some (.array 0 .f32) ∧
    common sampleRegistry false (some (.array 0 .weakFloat)) (some (.optional .i64)) = none ∧
    common sampleRegistry true (some (.array 0 .i32)) (some (.array 1 .i32)) = none ∧
    common sampleRegistry true (some (.plain (.other 0))) (some (.optional (.other 0))) = some (.optional (.other 0)) ∧
    (QTy.array 0 .weakFloat).Exists sampleRegistry ∧ (QTy.optional .i64).Exists sampleRegistry := by
  exact ⟨rfl, rfl, rfl, rfl, rfl, rfl⟩

example : commonSpan sampleRegistry true [some (.plain .i32), some (.optional .weakFloat), some (.array 1 .i64)] =
    some (.array 1 .f32) := rfl
example : Cast sampleRegistry true (.optional .i32) (.array 0 .f64) :=
  .parts (.optional _) (.array _ _) (.optional_array _ rfl) .i32_f64
example : broadcast sampleRegistry [some (.plain .i32), some (.array 1 (.other 0))] (some (.optional .f64)) =
    some (.array 1 .f64) ∧ Parts sampleRegistry (.optional .f64) .optional .f64 := ⟨rfl, .optional _⟩

end Verif.QType
