import Verif.Derived.DerivedModel

/-! # Derived types: verification and casts -/

namespace Verif.Derived

variable {L : Type}

/-- The fields of a derived type are compatible with those of its base: there are none, or they are as many, at the same offsets and of the same
types up to derivation. -/
def FieldsCompatible (info : Nat → Info L) (d b : Info L) : Prop :=
  d.fields = [] ∨ (d.fields.length = b.fields.length ∧ ∀ (i : Nat) (f g : Nat × Nat), d.fields[i]? = some f → b.fields[i]? = some g →
    f.1 = g.1 ∧ decay info (some f.2) = decay info (some g.2))

/-- The element types are the same up to derivation if both exist. -/
def ValueCompatible (info : Nat → Info L) (d b : Info L) : Prop :=
  ∀ v w, d.value = some v → b.value = some w → decay info (some v) = decay info (some w)

theorem fieldsLoop_iff (info : Nat → Info L) (ds bs : List (Nat × Nat)) :
    fieldsLoop info ds bs = true ↔ ∀ (i : Nat) (f g : Nat × Nat), ds[i]? = some f → bs[i]? = some g → f.1 = g.1 ∧ decay info (some f.2) = decay info (some g.2) := by
  induction ds generalizing bs with
  | nil => simp [fieldsLoop]
  | cons d ds ih =>
    cases bs with
    | nil => simp [fieldsLoop]
    | cons b bs =>
      obtain ⟨o, t⟩ := d
      obtain ⟨o', t'⟩ := b
      simp only [fieldsLoop, Bool.and_eq_true, beq_iff_eq, ih]
      constructor
      · rintro ⟨h1, h2⟩ i f g hf hg
        cases i with
        | zero =>
          simp only [List.getElem?_cons_zero, Option.some.injEq] at hf hg
          subst hf; subst hg
          exact h1
        | succ i =>
          simp only [List.getElem?_cons_succ] at hf hg
          exact h2 i f g hf hg
      · intro h
        refine ⟨h 0 (o, t) (o', t') rfl rfl, ?_⟩
        intro i f g hf hg
        exact h (i + 1) f g (by simpa using hf) (by simpa using hg)

/-- The flag that `VerifyDerivedQType` computes about the fields is right. -/
theorem fields_flag_iff (info : Nat → Info L) (d b : Info L) : fieldsOk info d b = true ↔ FieldsCompatible info d b := by
  unfold fieldsOk FieldsCompatible
  simp only [Bool.and_eq_true, Bool.or_eq_true, List.isEmpty_iff, beq_iff_eq, fieldsLoop_iff]
  constructor
  · rintro ⟨h1 | h1, h2⟩
    · exact .inl h1
    · exact .inr ⟨h1, h2⟩
  · rintro (h | ⟨h1, h2⟩)
    · exact ⟨.inl h, by simp [h]⟩
    · exact ⟨.inr h1, h2⟩

theorem valueOk_iff (info : Nat → Info L) (d b : Info L) : valueOk info d b = true ↔ ValueCompatible info d b := by
  unfold valueOk ValueCompatible
  cases hd : d.value with
  | none => simp
  | some v => cases hb : b.value <;> simp

/-- **`VerifyDerivedQType` accepts exactly the types that have a base which is not derived itself, of the same C++ type, size and alignment, and
compatible element types.**

What is missing is the compatibility of the fields, which the function computes and does not test; see `incompatible_fields_counterexample`. -/
theorem verify_iff_partial (info : Nat → Info L) (t : Nat) : verify info t = .ok () ↔
    ∃ b, (info t).base = some (some b) ∧ (info b).base = none ∧ (info t).typeInfo = (info b).typeInfo ∧ (info t).size = (info b).size ∧
      (info t).align = (info b).align ∧ ValueCompatible info (info t) (info b) := by
  unfold verify
  cases hb : (info t).base with
  | none => simp
  | some ob =>
    cases ob with
    | none => simp
    | some b =>
      simp only [Option.some.injEq, exists_eq_left']
      by_cases h1 : (info b).base.isSome = true
      · rw [if_pos h1]
        simp only [reduceCtorEq, false_iff]
        rintro ⟨h, _⟩
        rw [h] at h1; cases h1
      · rw [if_neg h1]
        have h1' : (info b).base = none := by simpa using h1
        by_cases h2 : (info t).typeInfo = (info b).typeInfo
        · rw [if_neg (by simp [h2])]
          have hl : layoutOk (info t) (info b) = true ↔ (info t).size = (info b).size ∧ (info t).align = (info b).align := by
            simp [layoutOk]
          by_cases h3 : layoutOk (info t) (info b) = true
          · simp only [h3, Bool.not_true, Bool.false_eq_true, if_false]
            by_cases h4 : valueOk info (info t) (info b) = true
            · simp only [h4, Bool.not_true, Bool.false_eq_true, if_false, true_iff]
              exact ⟨h1', h2, (hl.1 h3).1, (hl.1 h3).2, (valueOk_iff _ _ _).1 h4⟩
            · simp only [h4, Bool.not_false, if_true, reduceCtorEq, false_iff]
              rintro ⟨_, _, _, _, h⟩
              exact h4 ((valueOk_iff _ _ _).2 h)
          · simp only [h3, Bool.not_false, if_true, reduceCtorEq, false_iff]
            rintro ⟨_, _, h5, h6, _⟩
            exact h3 (hl.2 ⟨h5, h6⟩)
        · rw [if_pos h2]
          simp [h2]

/-- A pair of fields at offsets 0 and 8, and a type derived from it that claims to have one field of another type at offset 4. -/
def exInfo : Nat → Info Nat
  | 0 => ⟨7, 16, 8, [(0, 2), (8, 2)], none, none, none⟩
  | 1 => ⟨7, 16, 8, [(4, 3)], none, some (some 0), none⟩
  | n => ⟨n, 8, 8, [], none, none, none⟩

/-- **A derived type with incompatible fields is accepted**: line 117 tests the flag of the layout once more. -/
theorem incompatible_fields_counterexample :
    ∃ (info : Nat → Info Nat) (t b : Nat), verify info t = .ok () ∧ (info t).base = some (some b) ∧ ¬ FieldsCompatible info (info t) (info b) := by
  refine ⟨exInfo, 1, 0, rfl, rfl, ?_⟩
  rw [← fields_flag_iff]
  decide

/-- Types built by `BasicDerivedQType` have compatible fields. -/
theorem basic_fields_compatible (info : Nat → Info L) (t b : Nat) (value : Option Nat) (label : Option L)
    (h : info t = basicDerived info b value label) : FieldsCompatible info (info t) (info b) := by
  right
  rw [h]
  refine ⟨rfl, ?_⟩
  intro i f g hf hg
  simp only [basicDerived] at hf
  rw [hf] at hg
  obtain rfl := Option.some.inj hg
  exact ⟨rfl, rfl⟩

/-- Such a type is accepted exactly if its base is not derived and the element types are compatible. -/
theorem basic_verified_iff (info : Nat → Info L) (t b : Nat) (value : Option Nat) (label : Option L)
    (h : info t = basicDerived info b value label) :
    verify info t = .ok () ↔ (info b).base = none ∧ ∀ v w, value = some v → (info b).value = some w → decay info (some v) = decay info (some w) := by
  rw [verify_iff_partial, h]
  constructor
  · rintro ⟨b', h1, h2, _, _, _, h3⟩
    obtain rfl : b = b' := by simpa [basicDerived] using h1
    exact ⟨h2, h3⟩
  · rintro ⟨h1, h2⟩
    exact ⟨b, rfl, h1, rfl, rfl, rfl, h2⟩

/-- **Decaying a verified type once is enough**: the base is not derived. -/
theorem decay_idempotent (info : Nat → Info L) (t : Nat) (h : (info t).base.isSome → verify info t = .ok ()) :
    ∃ b, decay info (some t) = some b ∧ (info b).base = none ∧ decay info (some b) = some b := by
  cases hb : (info t).base with
  | none => exact ⟨t, by simp [decay, hb], hb, by simp [decay, hb]⟩
  | some ob =>
    obtain ⟨b, h1, h2, _⟩ := (verify_iff_partial info t).1 (h (by simp [hb]))
    exact ⟨b, by simp [decay, h1], h2, by simp [decay, h2]⟩

/-! ## Casts -/

/-- **A value of the base type can be downcast and a value of the derived type can be upcast, and nothing else; one is the inverse of the other
and neither changes the memory.** -/
theorem cast_round_trip {V : Type} (info : Nat → Info L) (d b : Nat) (hb : decay info (some d) = some b) (v : V) :
    castValue (downcastOutput info) d (b, v) = some (d, v) ∧ castValue (upcastOutput info) d (d, v) = some (b, v) ∧
      (∀ t, t ≠ b → castValue (downcastOutput info) d (t, v) = none) ∧ ∀ t, t ≠ d → castValue (upcastOutput info) d (t, v) = none := by
  refine ⟨?_, ?_, ?_, ?_⟩
  · simp [castValue, downcastOutput, hb]
  · simp [castValue, upcastOutput, hb]
  · intro t ht
    simp [castValue, downcastOutput, hb, ht]
  · intro t ht
    simp [castValue, upcastOutput, ht]

/-- The attributes of a literal are its type and its value; without a type there is no value. -/
def Attr.WellFormed (a : Attr) : Prop := a.value.isSome → a.ty.isSome

/-- **`derived_qtype.upcast` and `derived_qtype.downcast` have a type exactly if the first argument is a literal `QTYPE` and the operator for
that type accepts the value; lowering yields that operator, which has the same type.**  A non-literal type is an error, an unknown type of
the value leaves the result unknown. -/
theorem cast_operator (output : Nat → Nat → Option (Option Nat)) (hout : ∀ d v, output d v ≠ some none) (qtype : Nat) (a : Attr)
    (value : Option Nat) (ha : a.WellFormed) (r : Nat) :
    (inferCast output qtype a value = some (some r) ↔
      a.ty = some qtype ∧ ∃ d v, a.value = some d ∧ value = some v ∧ output d v = some (some r)) ∧
    (inferCast output qtype a value = some (some r) → ∃ d, lowerCast a (some r) = some (some d) ∧ inferFixed output d value = some (some r)) ∧
    (inferCast output qtype a value = some none ↔ (a.ty = none ∨ (a.ty = some qtype ∧ a.value.isSome ∧ value = none))) := by
  obtain ⟨ty, val⟩ := a
  unfold Attr.WellFormed at ha
  dsimp only at ha
  unfold inferCast
  cases ty with
  | none =>
    cases val with
    | some d => simp at ha
    | none => simp
  | some q =>
    by_cases hq : q = qtype
    · subst hq
      cases val with
      | none => simp
      | some d =>
        cases value with
        | none => simp
        | some v =>
          have := hout d v
          refine ⟨by simp, ?_, by simpa using this⟩
          intro h
          refine ⟨d, rfl, ?_⟩
          simpa [inferFixed] using h
    · simp [hq]

/-- The outputs of both operators are known for types that have a base. -/
theorem cast_outputs_known (info : Nat → Info L) (hn : ∀ t, decay info (some t) ≠ none) :
    (∀ d v, upcastOutput info d v ≠ some none) ∧ ∀ d v, downcastOutput info d v ≠ some none := by
  constructor
  · intro d v
    unfold upcastOutput
    split
    · intro h; exact hn d (Option.some.inj h)
    · simp
  · intro d v
    unfold downcastOutput
    split <;> simp

/-- A labelled pair. -/
def exGood : Nat → Info Nat
  | 1 => basicDerived exInfo 0 none (some 5)
  | n => exInfo n

example : verify exGood 1 = .ok () := rfl
example : castValue (upcastOutput exGood) 1 (1, "x") = some (0, "x") := rfl
example : castValue (downcastOutput exGood) 1 (0, "x") = some (1, "x") := rfl
example : castValue (downcastOutput exGood) 1 (1, "x") = none := rfl
example : inferCast (upcastOutput exGood) 9 ⟨some 9, some 1⟩ (some 1) = some (some 0) := rfl
example : verify (fun t => if t = 2 then basicDerived exGood 1 none none else exGood t) 2 = .error .baseDerived := rfl

end Verif.Derived
