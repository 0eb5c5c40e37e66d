import Verif.Objects.ObjectsLemmas

/-!
# Properties of objects and of their operators
-/

namespace Verif.Objects

variable {κ V F T W : Type}

/-! ## C146: attributes -/

/-- `GetAttrOrNull` returns the attribute of the first object of the chain that has one of this name. -/
theorem get_attr [DecidableEq κ] (o : Object κ V) (hv : o.Valid) (k : κ) (v : V) :
    o.getAttrOrNull k = some v ↔
      ∃ (i : Nat) (l : κ × V → Prop), o.levels[i]? = some l ∧ l (k, v) ∧
        ∀ (j : Nat) (l' : κ × V → Prop), j < i → o.levels[j]? = some l' → ∀ w, ¬ l' (k, w) := by
  rw [getAttr_chain]
  unfold Object.levels
  unfold Object.Valid at hv
  generalize o.chain = c at hv
  induction c with
  | nil => simp
  | cons a c ih =>
    rw [List.findSome?_cons]
    cases h : find k a with
    | some u =>
      constructor
      · rintro ⟨⟩
        refine ⟨0, _, rfl, find_mem h, ?_⟩
        intro j l' hj
        omega
      · rintro ⟨i, l, hl, hkv, hmin⟩
        cases i with
        | zero =>
          obtain rfl := Option.some.inj hl
          show some u = some v
          rw [← h]
          exact find_of_mem (hv a List.mem_cons_self) hkv
        | succ i => exact absurd (find_mem h) (hmin 0 _ (Nat.succ_pos i) rfl u)
    | none =>
      rw [ih fun x hx => hv x (List.mem_cons_of_mem _ hx)]
      constructor
      · rintro ⟨i, l, hl, hkv, hmin⟩
        refine ⟨i + 1, l, hl, hkv, ?_⟩
        intro j l' hj hl' w
        cases j with
        | zero =>
          obtain rfl := Option.some.inj hl'
          exact find_none.1 h w
        | succ j => exact hmin j l' (by omega) hl' w
      · rintro ⟨i, l, hl, hkv, hmin⟩
        cases i with
        | zero =>
          obtain rfl := Option.some.inj hl
          exact absurd hkv (find_none.1 h v)
        | succ i => exact ⟨i, l, hl, hkv, fun j l' hj hl' w => hmin (j + 1) l' (by omega) hl' w⟩

/-- `GetAttrOrNull` returns nothing exactly if no object of the chain has an attribute of this name. -/
theorem get_attr_none [DecidableEq κ] (o : Object κ V) (k : κ) :
    o.getAttrOrNull k = none ↔ ∀ l ∈ o.levels, ∀ v, ¬ l (k, v) := by
  rw [getAttr_chain, List.findSome?_eq_none_iff]
  unfold Object.levels
  constructor
  · intro h l hl
    obtain ⟨a, ha, rfl⟩ := List.mem_map.1 hl
    exact find_none.1 (h a ha)
  · intro h a ha
    exact find_none.2 (h _ (List.mem_map.2 ⟨a, ha, rfl⟩))

/-- `objects.make_object`: the fields of the named tuple are the attributes of the new object, the prototype provides the others. -/
theorem make_object [DecidableEq κ] (p : Option (Object κ V)) (hp : ∀ o, p = some o → o.Valid) (nt : List (κ × V)) :
    (makeObject p nt).Valid ∧ (makeObject p nt).prototype = p ∧
      ((nt.map (·.1)).Nodup → ∀ k v, (k, v) ∈ nt → (makeObject p nt).getAttrOrNull k = some v) ∧
      ∀ k, (∀ v, (k, v) ∉ nt) → (makeObject p nt).getAttrOrNull k = p.bind fun o => o.getAttrOrNull k := by
  obtain ⟨hn, hf⟩ := emplace_fold nt [] List.nodup_nil
  have get : ∀ k, (makeObject p nt).getAttrOrNull k = (find k nt).or (p.bind fun o => o.getAttrOrNull k) := by
    intro k
    have hk := hf k
    unfold makeObject
    cases p with
    | none =>
      unfold Object.getAttrOrNull
      rw [hk]
      cases find k nt <;> rfl
    | some o =>
      conv_lhs => unfold Object.getAttrOrNull
      rw [hk]
      cases find k nt <;> rfl
  refine ⟨?_, rfl, ?_, ?_⟩
  · intro a ha
    unfold makeObject at ha
    cases p with
    | none =>
      rw [Object.chain, List.mem_singleton] at ha
      rw [ha]
      exact hn
    | some o =>
      rw [Object.chain, List.mem_cons] at ha
      rcases ha with rfl | ha
      · exact hn
      · exact hp o rfl a ha
  · intro hd k v hkv
    rw [get, find_of_mem hd hkv]
    rfl
  · intro k hk
    rw [get, find_none.2 hk]
    rfl

/-- Non-vacuity: an attribute that shadows that of the prototype. -/
example :
    let p : Object Nat Nat := makeObject none [(1, 10), (2, 20)]
    let o := makeObject (some p) [(2, 21), (3, 30)]
    o.getAttrOrNull 2 = some 21 ∧ o.getAttrOrNull 1 = some 10 ∧ o.getAttrOrNull 3 = some 30 ∧ o.getAttrOrNull 4 = none ∧
      p.getAttrOrNull 2 = some 20 ∧ (Object.null : Object Nat Nat).getAttrOrNull 1 = none := by decide

example : (makeObject (some (makeObject none [(1, 10), (2, 20)])) [(2, 21), (3, 30)] : Object Nat Nat).Valid := by
  unfold Object.Valid
  decide +kernel

/-! ## C147: fingerprints -/

/-- The fingerprints of two objects combine the same tokens exactly if their chains have the same attributes: neither the order of the
items of the hash maps nor the sorting matters, and the prototypes cannot be mistaken for attributes. -/
theorem fingerprint_iff [LinearOrder κ] (tag : κ) (fp : V → F) (hfp : ∀ v w, fp v = fp w → v = w)
    (s₁ s₂ : List (κ × V) → List (κ × V)) (h₁ : Sorts s₁) (h₂ : Sorts s₂) (o₁ o₂ : Object κ V) (v₁ : o₁.Valid) (v₂ : o₂.Valid) :
    o₁.fingerprint tag fp s₁ = o₂.fingerprint tag fp s₂ ↔ o₁.levels = o₂.levels := by
  rw [fingerprint_encode, fingerprint_encode]
  exact encode_eq_iff tag hfp h₁ h₂ v₁ v₂

/-- Objects of the same fingerprint have the same attributes. -/
theorem fingerprint_get_attr [LinearOrder κ] (tag : κ) (fp : V → F) (hfp : ∀ v w, fp v = fp w → v = w)
    (s₁ s₂ : List (κ × V) → List (κ × V)) (h₁ : Sorts s₁) (h₂ : Sorts s₂) (o₁ o₂ : Object κ V) (v₁ : o₁.Valid) (v₂ : o₂.Valid)
    (h : o₁.fingerprint tag fp s₁ = o₂.fingerprint tag fp s₂) (k : κ) : o₁.getAttrOrNull k = o₂.getAttrOrNull k := by
  have hl := (fingerprint_iff tag fp hfp s₁ s₂ h₁ h₂ o₁ o₂ v₁ v₂).1 h
  cases e : o₂.getAttrOrNull k with
  | some v =>
    rw [get_attr o₁ v₁, hl, ← get_attr o₂ v₂]
    exact e
  | none =>
    rw [get_attr_none, hl, ← get_attr_none]
    exact e

/-- Non-vacuity: the name of an attribute is the tag, and the object has a prototype without attributes. -/
example :
    let o₁ : Object Nat Nat := .impl [(0, 5), (7, 6)] (some .null)
    let o₂ : Object Nat Nat := .impl [(7, 6), (0, 5)] (some (.impl [] none))
    let s : List (Nat × Nat) → List (Nat × Nat) := fun l => l.insertionSort fun a b => a.1 ≤ b.1
    o₁.fingerprint 0 id s = o₂.fingerprint 0 id s ∧
      o₁.fingerprint 0 id s = [.string 0, .string 0, .fingerprint 5, .string 7, .fingerprint 6, .string 0] := by decide +kernel

example : Sorts (κ := Nat) (V := Nat) fun l => l.insertionSort fun a b => a.1 ≤ b.1 := by
  intro l
  have : Std.Total fun a b : Nat × Nat => a.1 ≤ b.1 := ⟨fun a b => Nat.le_total a.1 b.1⟩
  have : IsTrans (Nat × Nat) fun a b => a.1 ≤ b.1 := ⟨fun a b c h1 h2 => Nat.le_trans h1 h2⟩
  exact ⟨List.perm_insertionSort _ l, List.pairwise_insertionSort _ l⟩

/-! ## C148: the operators -/

variable [DecidableEq κ] [DecidableEq T]

/-- `objects.get_object_attr` returns the attribute if it exists with this type, and an error otherwise. -/
theorem get_object_attr (o : Object κ (TypedValue T W)) (a : κ) (q : T) (v : TypedValue T W) :
    getObjectAttr o a q = .ok v ↔ o.getAttrOrNull a = some v ∧ v.type = q := by
  unfold getObjectAttr
  cases h : o.getAttrOrNull a with
  | none => exact ⟨fun h => (nomatch h), fun h => (nomatch h.1)⟩
  | some u =>
    dsimp only
    split
    · rename_i hne
      constructor
      · intro h
        cases h
      · rintro ⟨h1, h2⟩
        obtain rfl := Option.some.inj h1
        exact absurd h2 hne
    · rename_i heq
      constructor
      · intro h
        cases h
        exact ⟨rfl, not_not.1 heq⟩
      · rintro ⟨h1, -⟩
        obtain rfl := Option.some.inj h1
        rfl

/-- `objects.get_object_attr` with the type that `objects.get_object_attr_qtype` returns finds every attribute. -/
theorem get_object_attr_qtype (nothing : T) (o : Object κ (TypedValue T W)) (a : κ) :
    (∀ v, o.getAttrOrNull a = some v → getObjectAttr o a (getObjectAttrQType nothing o a) = .ok v) ∧
      (o.getAttrOrNull a = none → getObjectAttrQType nothing o a = nothing) := by
  constructor
  · intro v hv
    rw [get_object_attr]
    refine ⟨hv, ?_⟩
    unfold getObjectAttrQType
    rw [hv]
  · intro h
    unfold getObjectAttrQType
    rw [h]

/-- The input is compatible with what is known about it. -/
def Known.Has {A : Type} : Known A → A → Prop
  | .unknown, _ => True
  | .other, _ => False
  | .type, _ => True
  | .literal x, a => x = a

/-- What `InferAttributes` of `objects.get_object_attr` returns holds for the result of the operator for all inputs of which the inputs are
known; if it returns a value, the operator returns this value. -/
theorem infer_get_object_attr (ko : Known (Object κ (TypedValue T W))) (ka : Known κ) (kq : Known T) (attr : Attr T W)
    (h : inferGetObjectAttr ko ka kq = .ok attr) (o : Object κ (TypedValue T W)) (a : κ) (q : T) (ho : ko.Has o) (ha : ka.Has a)
    (hq : kq.Has q) :
    (∀ t, attr.qtype = some t → ∀ v, getObjectAttr o a q = .ok v → v.type = t) ∧
      (∀ v, attr.qvalue = some v → getObjectAttr o a q = .ok v ∧ attr.qtype = some v.type) := by
  unfold inferGetObjectAttr at h
  split at h
  · cases h
  split at h
  · cases h
  · cases h
  split at h
  · cases h
    exact ⟨fun t ht => (nomatch ht), fun v hv => (nomatch hv)⟩
  · cases h
  · cases h
  rename_i qtype
  obtain rfl : qtype = q := hq
  split at h
  · rename_i o' a' _ _ _
    obtain rfl : o' = o := ho
    obtain rfl : a' = a := ha
    split at h
    · cases h
    · rename_i v hv
      cases h
      refine ⟨?_, ?_⟩
      · intro t ht w hw
        rw [hv] at hw
        cases hw
        exact Option.some.inj ht
      · intro w hw
        obtain rfl := Option.some.inj hw
        exact ⟨hv, rfl⟩
  · cases h
    refine ⟨?_, fun v hv => (nomatch hv)⟩
    intro t ht v hv
    obtain rfl := Option.some.inj ht
    exact ((get_object_attr _ _ _ _).1 hv).2

/-- If the operator has a result for the literal inputs, `InferAttributes` returns it. -/
theorem infer_get_object_attr_literal (o : Object κ (TypedValue T W)) (a : κ) (q : T) :
    inferGetObjectAttr (.literal o) (.literal a) (.literal q) =
      match getObjectAttr o a q with
      | .ok v => .ok ⟨some v.type, some v⟩
      | .error e => .error e := by
  show (match getObjectAttr o a q with | .error e => _ | .ok v => _) = _
  cases getObjectAttr o a q <;> rfl

/-- What `InferAttributes` of `objects.get_object_attr_qtype` returns is the result of the operator. -/
theorem infer_get_object_attr_qtype (nothing : T) (ko : Known (Object κ (TypedValue T W))) (ka : Known κ) (t : T)
    (h : inferGetObjectAttrQType nothing ko ka = .ok (some t)) (o : Object κ (TypedValue T W)) (a : κ) (ho : ko.Has o) (ha : ka.Has a) :
    getObjectAttrQType nothing o a = t := by
  unfold inferGetObjectAttrQType at h
  split at h
  · cases h
  split at h
  · cases h
  split at h
  · rename_i o' a' _ _
    obtain rfl : o' = o := ho
    obtain rfl : a' = a := ha
    exact Option.some.inj (Except.ok.inj h)
  · cases h

/-- Non-vacuity: a literal object, and an object of which only the type is known. -/
example :
    let o : Object Nat (TypedValue Nat Nat) := makeObject none [(1, ⟨7, 100⟩)]
    getObjectAttr o 1 7 = .ok ⟨7, 100⟩ ∧ getObjectAttr o 1 8 = .error .unexpectedType ∧ getObjectAttr o 2 7 = .error .attributeNotFound ∧
      inferGetObjectAttr (.literal o) (.literal 1) (.literal 7) = .ok ⟨some 7, some ⟨7, 100⟩⟩ ∧
      inferGetObjectAttr (κ := Nat) (W := Nat) .type (.literal 1) (.literal 7) = .ok ⟨some 7, none⟩ ∧
      getObjectAttrQType 0 o 1 = 7 ∧ getObjectAttrQType 0 o 2 = 0 ∧
      inferGetObjectAttrQType 0 (.literal o) (.literal 1) = .ok (some 7) :=
  ⟨rfl, rfl, rfl, rfl, rfl, rfl, rfl, rfl⟩

end Verif.Objects
