import Verif.Casts.CastsSpec
import Verif.Overload.OverloadProps
import Mathlib.Data.List.Forall2

/-!
# Properties of the casts that the compiler inserts
-/

namespace Verif.Casts

open Verif.QType

variable {X : Type}

/-! ## C152 -/

theorem optionalStep_type {reg : Registry} {target : QTy} {n m : Node X} (h : optionalStep reg target n = some m) : m.ty = target := by
  unfold optionalStep at h
  split at h
  · cases h
  split at h
  · rw [← Option.some.inj h]
    assumption
  · cases h

theorem arrayStep_type {reg : Registry} {target : QTy} {shape : Option (Nat × Nat)} {n m : Node X}
    (h : arrayStep reg target shape n = some m) : m.ty = target := by
  unfold arrayStep at h
  split at h
  · split at h
    · cases h
    split at h
    · cases h
    split at h
    · rw [← Option.some.inj h]
      assumption
    · exact optionalStep_type h
  · exact optionalStep_type h

theorem castStep_type {reg : Registry} {ops : CastOps X} {target : QTy} {shape : Option (Nat × Nat)} {n m : Node X} {a b : QTy}
    (h : castStep reg ops target shape n a b = some m) : m.ty = target := by
  unfold castStep at h
  split at h
  · split at h
    · cases h
    split at h
    · cases h
    split at h
    · rw [← Option.some.inj h]
      assumption
    · exact arrayStep_type h
  · exact arrayStep_type h

/-- `GetCast` gives an expression of the requested type or an error. -/
theorem get_cast_type (reg : Registry) (ops : CastOps X) (n m : Node X) (target : QTy) (implicitOnly : Bool) (shape : Option (Nat × Nat))
    (h : getCast reg ops n target implicitOnly shape = some m) : m.ty = target := by
  unfold getCast at h
  split at h
  · rw [← Option.some.inj h]
    assumption
  split at h
  · cases h
  split at h
  · unfold scalarStep at h
    split at h
    · exact castStep_type h
    · exact castStep_type h
  · cases h

theorem map_id (v : V X) : v.map id = v := by
  cases v <;> simp [V.map]

theorem optionalStep_self (reg : Registry) {target : QTy} {n : Node X} (h : n.ty = target) : optionalStep reg target n = some n := by
  unfold optionalStep
  rw [h]
  cases isOptional target <;> simp [h]

theorem arrayStep_self (reg : Registry) {target : QTy} (shape : Option (Nat × Nat)) {n : Node X} (h : n.ty = target) :
    arrayStep reg target shape n = some n := by
  unfold arrayStep
  rw [h]
  cases isArray target <;> simp [optionalStep_self reg h]

theorem elem_mk {reg : Registry} {s : Shape} {v : Val} (h : Avail reg s v) : elem? reg (mk s v) = some v := by
  cases s with
  | scalar => exact if_pos h
  | optional => rfl
  | array k => rfl

theorem withElem_mk (s : Shape) (v w : Val) : withElem w (mk s v) = mk s w := by
  cases s <;> rfl

theorem castStep_eq (reg : Registry) (ops : CastOps X) (target : QTy) (shape : Option (Nat × Nat)) (s : Shape) (v w : Val) (x : V X)
    (hs : Avail reg s v) :
    castStep reg ops target shape ⟨mk s v, x⟩ (.plain v) (.plain w) =
      if v = w then arrayStep reg target shape ⟨mk s w, x⟩
      else if ops.contains w = true ∧ ops.accepts v w = true then arrayStep reg target shape ⟨mk s w, x.map (ops.conv v w)⟩ else none := by
  unfold castStep
  by_cases hvw : v = w
  · subst hvw
    rw [if_neg (by simp), if_pos rfl]
  · rw [if_pos (by simpa using hvw), if_neg hvw]
    unfold castTarget
    dsimp only
    by_cases hc : ops.contains w = true
    · rw [if_pos hc]
      dsimp only
      unfold callCast
      dsimp only
      rw [elem_mk hs]
      dsimp only
      by_cases ha : ops.accepts v w = true
      · rw [if_pos ha, if_pos ⟨hc, ha⟩]
        dsimp only
        rw [withElem_mk]
        split
        · rename_i h
          rw [arrayStep_self reg shape h]
        · rfl
      · rw [if_neg ha, if_neg (fun h => ha h.2)]
    · rw [if_neg hc, if_neg (fun h => hc h.1)]

/-- The first step. -/
theorem scalarStep_eq (reg : Registry) (ops : CastOps X) (target : QTy) (shape : Option (Nat × Nat)) (s : Shape) (v w : Val) (x : V X)
    (hs : Avail reg s v) (hf : Avail reg s .f64) :
    (ElemCast ops v w → scalarStep reg ops target shape ⟨mk s v, x⟩ (.plain v) (.plain w) =
      arrayStep reg target shape ⟨mk s w, x.map (convert ops v w)⟩) ∧
      (¬ ElemCast ops v w → scalarStep reg ops target shape ⟨mk s v, x⟩ (.plain v) (.plain w) = none) := by
  unfold scalarStep ElemCast convert
  by_cases hvw : v = w
  · subst hvw
    rw [if_neg (by simp), castStep_eq _ _ _ _ _ _ _ _ hs]
    simp [map_id]
  · by_cases hv : v = .weakFloat
    · subst hv
      rw [if_pos ⟨rfl, by simpa using hvw⟩]
      unfold upcast
      dsimp only
      rw [withElem_mk, castStep_eq _ _ _ _ _ _ _ _ hf]
      by_cases hw : w = .f64
      · subst hw
        simp [map_id]
      · have hw' : ¬ Val.f64 = w := fun h => hw h.symm
        simp only [if_neg hw', if_neg hw, if_neg hvw, if_true]
        constructor
        · rintro (h | ⟨-, h | h⟩ | ⟨h, -⟩)
          · exact absurd h hvw
          · exact absurd h hw
          · rw [if_pos h]
          · exact absurd rfl h
        · intro h
          rw [if_neg (fun h' => h (.inr (.inl ⟨trivial, .inr h'⟩)))]
    · rw [if_neg (by simp [hv]), castStep_eq _ _ _ _ _ _ _ _ hs]
      simp only [if_neg hvw, if_neg hv]
      constructor
      · rintro (h | ⟨h, -⟩ | ⟨-, h⟩)
        · exact absurd h hvw
        · exact absurd h hv
        · rw [if_pos h]
      · intro h
        rw [if_neg (fun h' => h (.inr (.inr ⟨hv, h'⟩)))]

/-- The other two steps. -/
theorem arrayStep_spec (reg : Registry) (shape : Option (Nat × Nat)) (s t : Shape) (w : Val) (x : V X) (f : X → X)
    (hsc : reg.isScalar w = true) (ht : Avail reg t w) (hx : HasShape s x) :
    ((ShapeCast shape.isSome s t ∧ KindOk shape (mk s w) (mk t w)) →
      ∃ m, arrayStep reg (mk t w) shape ⟨mk s w, x.map f⟩ = some m ∧ m.ty = mk t w ∧
        Casted f ((shape.map Prod.snd).getD 0) x m.val) ∧
      (¬ (ShapeCast shape.isSome s t ∧ KindOk shape (mk s w) (mk t w)) → arrayStep reg (mk t w) shape ⟨mk s w, x.map f⟩ = none) := by
  cases hx with
  | scalar x =>
    cases t with
    | scalar =>
      constructor
      · intro _
        exact ⟨_, arrayStep_self reg shape rfl, rfl, .scalar _⟩
      · intro h
        exact absurd ⟨.refl _, fun k w hk => nomatch hk⟩ h
    | optional =>
      constructor
      · intro _
        refine ⟨⟨.optional w, .opt (some (f x))⟩, ?_, rfl, .scalar_opt _⟩
        have ht' : reg.hasOptional w = true := ht
        simp [arrayStep, mk, isArray, optionalStep, isOptional, toOptional, hsc, ht', V.toOpt, V.map]
      · intro h
        exact absurd ⟨.scalar_optional, fun k w hk => nomatch hk⟩ h
    | array k =>
      have ht' : reg.hasArray k w = true := ht
      cases shape with
      | none =>
        constructor
        · rintro ⟨h, -⟩
          cases h
          contradiction
        · intro _
          simp [arrayStep, mk, isArray]
      | some sh =>
        obtain ⟨j, size⟩ := sh
        constructor
        · rintro ⟨-, hk⟩
          obtain ⟨size', h⟩ := hk k w rfl rfl
          obtain ⟨rfl, rfl⟩ := Prod.mk.inj (Option.some.inj h)
          refine ⟨⟨.array j w, .arr (List.replicate size (some (f x)))⟩, ?_, rfl, .scalar_arr _⟩
          simp [arrayStep, mk, isArray, constWithShape, ht', V.repeat, V.map]
        · intro h
          have hjk : j ≠ k := by
            rintro rfl
            refine h ⟨.scalar_array _ rfl, ?_⟩
            intro k' w' hk' _
            obtain ⟨rfl, rfl⟩ := QTy.array.inj hk'
            exact ⟨size, rfl⟩
          cases hj : reg.hasArray j w <;> simp [arrayStep, mk, isArray, constWithShape, hj, hjk, optionalStep, isOptional]
  | opt x =>
    cases t with
    | scalar =>
      constructor
      · rintro ⟨h, -⟩
        cases h
      · intro _
        simp [arrayStep, mk, isArray, optionalStep, isOptional]
    | optional =>
      constructor
      · intro _
        exact ⟨_, arrayStep_self reg shape rfl, rfl, .opt _⟩
      · intro h
        exact absurd ⟨.refl _, fun k w hk => nomatch hk⟩ h
    | array k =>
      have ht' : reg.hasArray k w = true := ht
      cases shape with
      | none =>
        constructor
        · rintro ⟨h, -⟩
          cases h
          contradiction
        · intro _
          simp [arrayStep, mk, isArray]
      | some sh =>
        obtain ⟨j, size⟩ := sh
        constructor
        · rintro ⟨-, hk⟩
          obtain ⟨size', h⟩ := hk k w rfl rfl
          obtain ⟨rfl, rfl⟩ := Prod.mk.inj (Option.some.inj h)
          refine ⟨⟨.array j w, .arr (List.replicate size (x.map f))⟩, ?_, rfl, .opt_arr _⟩
          simp [arrayStep, mk, isArray, constWithShape, ht', V.repeat, V.map]
        · intro h
          have hjk : j ≠ k := by
            rintro rfl
            refine h ⟨.optional_array _ rfl, ?_⟩
            intro k' w' hk' _
            obtain ⟨rfl, rfl⟩ := QTy.array.inj hk'
            exact ⟨size, rfl⟩
          cases hj : reg.hasArray j w <;> simp [arrayStep, mk, isArray, constWithShape, hj, hjk, optionalStep, isOptional]
  | arr j xs =>
    cases t with
    | scalar =>
      constructor
      · rintro ⟨h, -⟩
        cases h
      · intro _
        simp [arrayStep, mk, isArray, optionalStep, isOptional]
    | optional =>
      constructor
      · rintro ⟨h, -⟩
        cases h
      · intro _
        simp [arrayStep, mk, isArray, optionalStep, isOptional, toOptional]
    | array k =>
      by_cases hjk : j = k
      · subst hjk
        constructor
        · intro _
          exact ⟨_, arrayStep_self reg shape rfl, rfl, .arr _⟩
        · intro h
          exact absurd ⟨.refl _, fun k w _ hk => nomatch hk⟩ h
      · constructor
        · rintro ⟨h, -⟩
          cases h
          contradiction
        · intro _
          simp [arrayStep, mk, isArray, optionalStep, isOptional, hjk]

theorem scalar_of_parts {reg : Registry} {q : QTy} {s : Shape} {v : Val} (h : Parts reg q s v) : scalarOrNull reg q = some (.plain v) := by
  cases h with
  | scalar _ h => exact if_pos h
  | optional => rfl
  | array => rfl

theorem avail_f64 {reg : Registry} (ho : reg.Ok) (s : Shape) : Avail reg s .f64 := by
  obtain ⟨h1, h2, h3⟩ := ho .f64 trivial
  cases s with
  | scalar => exact h1
  | optional => exact h2
  | array k => exact h3 k

/-- `GetCast` with explicit casts: it succeeds exactly if there is a conversion of the elements and the shape is that of the target, or a
scalar for an optional, or a single value for an array with a shape of its kind.  The value is the converted value; an optional never
becomes a scalar, an array never something else. -/
theorem get_cast_explicit (reg : Registry) (ho : reg.Ok) (hr : reg.Scalars) (ops : CastOps X) (n : Node X) (target : QTy)
    (hn : n.ty.Exists reg) (hq : target.Exists reg) (shape : Option (Nat × Nat)) (s t : Shape) (v w : Val) (hs : Parts reg n.ty s v)
    (ht : Parts reg target t w) (hx : HasShape s n.val) :
    ((ElemCast ops v w ∧ ShapeCast shape.isSome s t ∧ KindOk shape n.ty target) →
      ∃ m, getCast reg ops n target false shape = some m ∧ m.ty = target ∧
        Casted (convert ops v w) ((shape.map Prod.snd).getD 0) n.val m.val) ∧
      (¬ (ElemCast ops v w ∧ ShapeCast shape.isSome s t ∧ KindOk shape n.ty target) → getCast reg ops n target false shape = none) := by
  obtain ⟨q, x⟩ := n
  dsimp only at hs hx hn ⊢
  have h1 := parts_mk (parts_iff.2 hs)
  have h2 := parts_mk (parts_iff.2 ht)
  have a1 := avail_of_exists hn (parts_iff.2 hs)
  have a2 := avail_of_exists hq (parts_iff.2 ht)
  have hsc : reg.isScalar w = true := by
    cases t with
    | scalar => exact a2
    | optional => exact (hr w).1 a2
    | array k => exact (hr w).2 k a2
  subst h1
  subst h2
  unfold getCast
  dsimp only
  rw [scalar_of_parts hs, scalar_of_parts ht]
  by_cases he : mk s v = mk t w
  · have hp : parts reg (mk s v) = parts reg (mk t w) := by rw [he]
    rw [parts_iff.2 hs, parts_iff.2 ht] at hp
    obtain ⟨rfl, rfl⟩ := Prod.mk.inj (Option.some.inj hp)
    rw [if_pos rfl]
    constructor
    · intro _
      refine ⟨_, rfl, rfl, ?_⟩
      have hc : convert ops v v = id := if_pos rfl
      rw [hc]
      cases hx with
      | scalar x => exact .scalar x
      | opt x =>
        have := Casted.opt (f := id) (size := (shape.map Prod.snd).getD 0) x
        rwa [Option.map_id, id] at this
      | arr k xs =>
        have := Casted.arr (f := id) (size := (shape.map Prod.snd).getD 0) xs
        simpa using this
    · intro h
      refine absurd ⟨.inl rfl, .refl _, ?_⟩ h
      intro k w' hk ha
      rw [hk] at ha
      cases ha
  · rw [if_neg he, if_neg (by simp)]
    dsimp only
    obtain ⟨g1, g2⟩ := scalarStep_eq reg ops (mk t w) shape s v w x a1 (avail_f64 ho s)
    have hkind : KindOk shape (mk s v) (mk t w) ↔ KindOk shape (mk s w) (mk t w) := by
      unfold KindOk
      cases s <;> exact Iff.rfl
    rw [hkind]
    by_cases hel : ElemCast ops v w
    · rw [g1 hel]
      obtain ⟨k1, k2⟩ := arrayStep_spec reg shape s t w x (convert ops v w) hsc a2 hx
      constructor
      · rintro ⟨-, h⟩
        exact k1 h
      · intro h
        exact k2 (fun h' => h ⟨hel, h'⟩)
    · rw [g2 hel]
      constructor
      · rintro ⟨h, -⟩
        exact absurd h hel
      · intro _
        rfl

theorem elemCast_of_valCast {ops : CastOps X} (ho : ops.Ok) {v w : Val} (h : ValCast v w) : ElemCast ops v w := by
  cases h with
  | refl => exact .inl rfl
  | weak_f32 => exact .inr (.inl ⟨rfl, .inr (ho .f64 .f32 trivial trivial (by decide) (by decide))⟩)
  | weak_f64 => exact .inr (.inl ⟨rfl, .inl rfl⟩)
  | _ => exact .inr (.inr ⟨by decide, ho _ _ trivial trivial (by decide) (by decide)⟩)

theorem parts_unique {reg : Registry} {q : QTy} {s t : Shape} {v w : Val} (h1 : Parts reg q s v) (h2 : Parts reg q t w) : s = t ∧ v = w := by
  have := parts_iff.2 h1
  rw [parts_iff.2 h2] at this
  obtain ⟨rfl, rfl⟩ := Prod.mk.inj (Option.some.inj this)
  exact ⟨rfl, rfl⟩

/-- `GetCast` with implicit casts only: it succeeds exactly if `CanCastImplicitly` allows the cast and an array is of the kind of the
shape; the value is the converted value. -/
theorem get_cast_implicit (reg : Registry) (ho : reg.Ok) (hr : reg.Scalars) (ops : CastOps X) (hops : ops.Ok) (n : Node X) (target : QTy)
    (hn : n.ty.Exists reg) (hq : target.Exists reg) (hx : ∀ s v, Parts reg n.ty s v → HasShape s n.val) (shape : Option (Nat × Nat)) :
    (¬ (Cast reg shape.isSome n.ty target ∧ KindOk shape n.ty target) → getCast reg ops n target true shape = none) ∧
      (Cast reg shape.isSome n.ty target ∧ KindOk shape n.ty target → ∃ m, getCast reg ops n target true shape = some m ∧ m.ty = target ∧
        (n.ty = target → m = n) ∧
        ∀ s t v w, Parts reg n.ty s v → Parts reg target t w →
          Casted (convert ops v w) ((shape.map Prod.snd).getD 0) n.val m.val) := by
  have key : Cast reg shape.isSome n.ty target → getCast reg ops n target true shape = getCast reg ops n target false shape := by
    intro hc
    unfold getCast
    rw [(canCast_iff ho shape.isSome hn hq).2 hc]
    rfl
  have hself : n.ty = target → getCast reg ops n target false shape = some n := by
    intro h
    unfold getCast
    rw [if_pos h]
  have hkind : n.ty = target → KindOk shape n.ty target := by
    intro h k w hk ha
    rw [h, hk] at ha
    cases ha
  constructor
  · intro hno
    by_cases hc : Cast reg shape.isSome n.ty target
    · have hk : ¬ KindOk shape n.ty target := fun h => hno ⟨hc, h⟩
      rw [key hc]
      cases hc with
      | refl => exact absurd (hkind rfl) hk
      | parts h1 h2 h3 h4 =>
        exact (get_cast_explicit reg ho hr ops n target hn hq shape _ _ _ _ h1 h2 (hx _ _ h1)).2 (fun h => hk h.2.2)
    · unfold getCast
      rw [if_neg, if_pos]
      · cases hcc : canCast reg shape.isSome (some n.ty) (some target) with
        | false => rfl
        | true => exact absurd ((canCast_iff ho shape.isSome hn hq).1 hcc) hc
      · intro h
        exact hc (h ▸ .refl _)
  · rintro ⟨hc, hk⟩
    rw [key hc]
    have hparts : ∀ s t v w, Parts reg n.ty s v → Parts reg target t w → ShapeCast shape.isSome s t ∧ ValCast v w := by
      intro s t v w h1 h2
      cases hc with
      | refl =>
        obtain ⟨rfl, rfl⟩ := parts_unique h1 h2
        exact ⟨.refl _, .refl _⟩
      | parts g1 g2 g3 g4 =>
        obtain ⟨rfl, rfl⟩ := parts_unique h1 g1
        obtain ⟨rfl, rfl⟩ := parts_unique h2 g2
        exact ⟨g3, g4⟩
    have hall : ∀ s t v w, Parts reg n.ty s v → Parts reg target t w → ∃ m, getCast reg ops n target false shape = some m ∧
        m.ty = target ∧ Casted (convert ops v w) ((shape.map Prod.snd).getD 0) n.val m.val := by
      intro s t v w h1 h2
      obtain ⟨g1, g2⟩ := hparts s t v w h1 h2
      exact (get_cast_explicit reg ho hr ops n target hn hq shape _ _ _ _ h1 h2 (hx _ _ h1)).1 ⟨elemCast_of_valCast hops g2, g1, hk⟩
    obtain ⟨m, hm, hty⟩ : ∃ m, getCast reg ops n target false shape = some m ∧ m.ty = target := by
      cases hc with
      | refl => exact ⟨n, hself rfl, rfl⟩
      | parts h1 h2 h3 h4 =>
        obtain ⟨m, g1, g2, -⟩ := hall _ _ _ _ h1 h2
        exact ⟨m, g1, g2⟩
    refine ⟨m, hm, hty, ?_, ?_⟩
    · intro h
      rw [hself h] at hm
      exact (Option.some.inj hm).symm
    · intro s t v w h1 h2
      obtain ⟨m', g1, -, g3⟩ := hall s t v w h1 h2
      rw [hm] at g1
      rw [Option.some.inj g1]
      exact g3

/-! ### The arguments of an operator -/

/-- The value is of the type. -/
def Node.WellTyped (reg : Registry) (n : Node X) : Prop := n.ty.Exists reg ∧ ∀ s v, Parts reg n.ty s v → HasShape s n.val

/-- The shape is that of the first array among the arguments. -/
theorem shape_for_broadcasting (reg : Registry) (deps : List (Node X)) (hw : ∀ n ∈ deps, n.WellTyped reg) :
    (shapeForBroadcasting deps = none ↔ ∀ n ∈ deps, isArray n.ty = false) ∧
      ∀ k size, shapeForBroadcasting deps = some (k, size) →
        ∃ pre n post, deps = pre ++ n :: post ∧ (∀ m ∈ pre, isArray m.ty = false) ∧ ∃ v xs, n = ⟨.array k v, .arr xs⟩ ∧ size = xs.length := by
  induction deps with
  | nil => exact ⟨by simp [shapeForBroadcasting], fun k size h => nomatch h⟩
  | cons n ns ih =>
    have ih := ih (fun m hm => hw m (List.mem_cons_of_mem _ hm))
    unfold shapeForBroadcasting
    by_cases ha : isArray n.ty = true
    · rw [if_pos ha]
      obtain ⟨q, x⟩ := n
      cases q with
      | array k v =>
        have h := (hw _ List.mem_cons_self).2 _ _ (.array k v)
        cases h with
        | arr _ xs =>
          constructor
          · constructor
            · intro h
              cases h
            · intro h
              exact absurd (h _ List.mem_cons_self) (by rw [ha]; exact Bool.noConfusion)
          · intro k' size h
            obtain ⟨rfl, rfl⟩ := Prod.mk.inj (Option.some.inj h)
            exact ⟨[], _, ns, rfl, (by intro m hm; cases hm), v, xs, rfl, rfl⟩
      | plain v => cases ha
      | optional v => cases ha
      | container j r => cases ha
    · rw [if_neg ha]
      have ha' : isArray n.ty = false := by simpa using ha
      constructor
      · rw [ih.1]
        constructor
        · intro h m hm
          rcases List.mem_cons.1 hm with rfl | hm
          · exact ha'
          · exact h m hm
        · intro h m hm
          exact h m (List.mem_cons_of_mem _ hm)
      · intro k size h
        obtain ⟨pre, m, post, rfl, h2, h3⟩ := ih.2 k size h
        refine ⟨n :: pre, m, post, rfl, ?_, h3⟩
        intro m' hm'
        rcases List.mem_cons.1 hm' with rfl | hm'
        · exact ha'
        · exact h2 m' hm'

theorem castLoop_spec (reg : Registry) (ho : reg.Ok) (hr : reg.Scalars) (ops : CastOps X) (hops : ops.Ok) (shape : Option (Nat × Nat))
    (deps : List (Node X)) (required : List QTy) (hw : ∀ n ∈ deps, n.WellTyped reg) (hq : ∀ q ∈ required, q.Exists reg) :
    ((∃ ms, castLoop reg ops shape deps required = some ms) ↔
      deps.length ≤ required.length ∧ ∀ p ∈ deps.zip required, Cast reg shape.isSome p.1.ty p.2 ∧ KindOk shape p.1.ty p.2) ∧
    ∀ ms, castLoop reg ops shape deps required = some ms →
      List.Forall₂ (fun m p => m.ty = p.2 ∧ (p.1.ty = p.2 → m = p.1) ∧ ∀ s t v w, Parts reg p.1.ty s v → Parts reg p.2 t w →
        Casted (convert ops v w) ((shape.map Prod.snd).getD 0) p.1.val m.val) ms (deps.zip required) := by
  induction deps generalizing required with
  | nil =>
    unfold castLoop
    refine ⟨by simp, ?_⟩
    intro ms h
    rw [← Option.some.inj h]
    exact .nil
  | cons n ns ih =>
    cases required with
    | nil =>
      unfold castLoop
      refine ⟨by simp, fun ms h => nomatch h⟩
    | cons q qs =>
      have ih := ih qs (fun m hm => hw m (List.mem_cons_of_mem _ hm)) (fun r hr => hq r (List.mem_cons_of_mem _ hr))
      have hhead : (if n.ty ≠ q then getCast reg ops n q true shape else some n) = getCast reg ops n q true shape := by
        split
        · rfl
        · rename_i h
          unfold getCast
          rw [if_pos (not_not.1 h)]
      obtain ⟨g1, g2⟩ := get_cast_implicit reg ho hr ops hops n q (hw n List.mem_cons_self).1 (hq q List.mem_cons_self)
        (hw n List.mem_cons_self).2 shape
      unfold castLoop
      rw [hhead]
      by_cases hc : Cast reg shape.isSome n.ty q ∧ KindOk shape n.ty q
      · obtain ⟨m, hm, h1, h2, h3⟩ := g2 hc
        rw [hm]
        dsimp only
        constructor
        · constructor
          · rintro ⟨ms, h⟩
            split at h
            · cases h
            · rename_i ms' hms
              obtain ⟨k1, k2⟩ := ih.1.1 ⟨ms', hms⟩
              refine ⟨Nat.succ_le_succ k1, ?_⟩
              intro p hp
              rw [List.zip_cons_cons, List.mem_cons] at hp
              rcases hp with rfl | hp
              · exact hc
              · exact k2 p hp
          · rintro ⟨k1, k2⟩
            obtain ⟨ms, hms⟩ := ih.1.2 ⟨Nat.le_of_succ_le_succ k1, fun p hp => k2 p (List.mem_cons_of_mem _ hp)⟩
            rw [hms]
            exact ⟨_, rfl⟩
        · intro ms h
          split at h
          · cases h
          · rename_i ms' hms
            rw [← Option.some.inj h]
            exact .cons ⟨h1, h2, h3⟩ (ih.2 ms' hms)
      · rw [g1 hc]
        refine ⟨⟨(by rintro ⟨ms, h⟩; cases h), fun h => absurd (h.2 (n, q) List.mem_cons_self) hc⟩, fun ms h => nomatch h⟩

/-- `BuildNodeDepsWithCasts` succeeds exactly if every argument can be cast implicitly, with broadcasting only if one of them is an array;
the new arguments have the required types and the converted values, single values with the size of the first array; arguments of the
required type are kept. -/
theorem build_deps_with_casts (reg : Registry) (ho : reg.Ok) (hr : reg.Scalars) (ops : CastOps X) (hops : ops.Ok) (deps : List (Node X))
    (required : List QTy) (hw : ∀ n ∈ deps, n.WellTyped reg) (hq : ∀ q ∈ required, q.Exists reg) (hl : deps.length = required.length) :
    let shape := shapeForBroadcasting deps
    ((∃ ms, buildDepsWithCasts reg ops deps required = some ms) ↔
      ∀ p ∈ deps.zip required, Cast reg (deps.any fun n => isArray n.ty) p.1.ty p.2 ∧ KindOk shape p.1.ty p.2) ∧
    ∀ ms, buildDepsWithCasts reg ops deps required = some ms → ms.map (·.ty) = required ∧
      List.Forall₂ (fun m p => m.ty = p.2 ∧ (p.1.ty = p.2 → m = p.1) ∧ ∀ s t v w, Parts reg p.1.ty s v → Parts reg p.2 t w →
        Casted (convert ops v w) ((shape.map Prod.snd).getD 0) p.1.val m.val) ms (deps.zip required) := by
  intro shape
  obtain ⟨h1, h2⟩ := castLoop_spec reg ho hr ops hops shape deps required hw hq
  have hb : shape.isSome = deps.any fun n => isArray n.ty := by
    have h3 := (shape_for_broadcasting reg deps hw).1
    cases hs : shapeForBroadcasting deps with
    | none =>
      have : shape.isSome = false := by show (shapeForBroadcasting deps).isSome = false; rw [hs]; rfl
      rw [this, eq_comm, List.any_eq_false]
      intro n hn
      rw [h3.1 hs n hn]
      exact Bool.false_ne_true
    | some sh =>
      have : shape.isSome = true := by show (shapeForBroadcasting deps).isSome = true; rw [hs]; rfl
      rw [this, eq_comm]
      by_contra hno
      have : shapeForBroadcasting deps = none := by
        rw [h3]
        intro n hn
        have h4 : (deps.any fun n => isArray n.ty) = false := by simpa using hno
        rw [List.any_eq_false] at h4
        simpa using h4 n hn
      rw [hs] at this
      cases this
  unfold buildDepsWithCasts
  constructor
  · rw [h1, hb]
    exact ⟨fun h => h.2, fun h => ⟨Nat.le_of_eq hl, h⟩⟩
  · intro ms hms
    have hF := h2 ms hms
    refine ⟨?_, hF⟩
    have hm : ms.map (·.ty) = (deps.zip required).map Prod.snd := by
      clear hms h1 h2
      generalize deps.zip required = l at hF
      induction hF with
      | nil => rfl
      | cons h _ ih => rw [List.map_cons, List.map_cons, ih, h.1]
    rw [hm, List.map_snd_zip (by omega)]

/-! ### The node -/

theorem mem_zip_self {α : Type} {l : List α} {a b : α} (h : (a, b) ∈ l.zip l) : a = b := by
  obtain ⟨i, hi, he⟩ := List.getElem_of_mem h
  rw [List.getElem_zip] at he
  obtain ⟨rfl, rfl⟩ := Prod.mk.inj he
  rfl

/-- The lookup finds a signature whose output is the type of the node without the derivation, and to whose inputs the arguments can be cast
with broadcasting unless they are derived from them. -/
theorem found_signature {reg : Registry} (ho : reg.Ok) (decay : QTy → QTy) (inputs : List QTy) (ty : QTy) (sigs : List (Overload.Sig QTy))
    (hs : ∀ s ∈ sigs, ∀ q ∈ s.inputs, q.Exists reg) (sig : Overload.Sig QTy)
    (h : Overload.findMatching (fun a b => canCast reg true (some a) (some b)) decay inputs ty sigs = .ok sig) :
    sig ∈ sigs ∧ sig.output = decay ty ∧ sig.inputs.length = inputs.length ∧
      (isDerivedFrom decay inputs ty sig = true ∨
        List.Forall₂ (fun a b => canCast reg true (some a) (some b) = true) inputs sig.inputs) := by
  obtain ⟨h1, h2⟩ := (Overload.find_matching (Overload.castOrder_qtype ho) decay inputs ty sigs hs _).1 h
  rcases h2 with rfl | ⟨-, ⟨h3, h4⟩, -⟩
  · refine ⟨h1, rfl, by simp, .inl ?_⟩
    unfold isDerivedFrom
    simp only [List.length_map, decide_true, or_true, Bool.true_and, List.all_eq_true, decide_eq_true_eq]
    intro p hp
    rw [List.zip_map_right] at hp
    obtain ⟨⟨a, b⟩, hab, rfl⟩ := List.mem_map.1 hp
    have : a = b := mem_zip_self hab
    exact .inr (by rw [this]; rfl)
  · exact ⟨h1, h3, h4.length_eq.symm, .inr h4⟩

theorem castLoop_types {reg : Registry} {ops : CastOps X} {shape : Option (Nat × Nat)} {deps ms : List (Node X)} {required : List QTy}
    (hl : required.length = deps.length) (h : castLoop reg ops shape deps required = some ms) : ms.map (·.ty) = required := by
  induction deps generalizing required ms with
  | nil =>
    unfold castLoop at h
    rw [← Option.some.inj h]
    cases required with
    | nil => rfl
    | cons q qs => cases hl
  | cons n ns ih =>
    cases required with
    | nil => cases hl
    | cons q qs =>
      unfold castLoop at h
      split at h
      · cases h
      rename_i m hm
      split at h
      · cases h
      rename_i ms' hms
      rw [← Option.some.inj h, List.map_cons, ih (Nat.succ.inj hl) hms]
      congr 1
      split at hm
      · exact get_cast_type _ _ _ _ _ _ _ hm
      · rename_i hq
        rw [← Option.some.inj hm]
        exact not_not.1 hq

/-- `CastingTransformation` keeps the type of the node.  It keeps the arguments, or it replaces them by casts to the types of one of the
signatures of the operator, whose output is the type of the node up to the derivation. -/
theorem casting_transformation (reg : Registry) (ho : reg.Ok) (ops : CastOps X) (decay : QTy → QTy) (sigs : List (Overload.Sig QTy))
    (hs : ∀ s ∈ sigs, ∀ q ∈ s.inputs, q.Exists reg) (infer : List QTy → Option QTy) (deps : List (Node X)) (ty : QTy) (c : Call X)
    (h : castingTransformation reg ops decay sigs infer deps ty = some c) :
    c.ty = ty ∧ ((c.deps = deps ∧ c.downcast = false) ∨
      ∃ sig ∈ sigs, sig.output = decay ty ∧ c.deps.map (·.ty) = sig.inputs ∧
        buildDepsWithCasts reg ops deps sig.inputs = some c.deps ∧ infer sig.inputs = some (decay ty) ∧ (c.downcast = true ↔ decay ty ≠ ty)) := by
  unfold castingTransformation at h
  split at h
  · rename_i sig hsig
    obtain ⟨h1, h2, h3, -⟩ := found_signature ho decay _ ty sigs hs sig hsig
    split at h
    · rw [← Option.some.inj h]
      exact ⟨rfl, .inl ⟨rfl, rfl⟩⟩
    · split at h
      · cases h
      rename_i deps' q hr
      unfold recast at hr
      split at hr
      · rename_i hne
        split at hr
        · cases hr
        rename_i d hd
        split at hr
        · cases hr
        rename_i q' hq'
        split at hr
        · cases hr
        rename_i hq
        rw [not_not] at hq
        subst hq
        obtain ⟨rfl, rfl⟩ := Prod.mk.inj (Option.some.inj hr)
        have htypes : d.map (·.ty) = sig.inputs := castLoop_types (by rw [h3, List.length_map]) hd
        rw [htypes] at hq'
        split at h
        · rename_i ho'
          rw [← Option.some.inj h]
          rw [h2] at ho'
          exact ⟨ho', .inr ⟨sig, h1, h2, htypes, hd, hq', fun h => (nomatch h), fun h => absurd ho' h⟩⟩
        · rename_i ho'
          rw [if_pos rfl] at h
          rw [← Option.some.inj h]
          rw [h2] at ho'
          exact ⟨rfl, .inr ⟨sig, h1, h2, htypes, hd, hq', fun _ => ho', fun _ => rfl⟩⟩
      · rename_i hne
        rw [not_not] at hne
        obtain ⟨rfl, rfl⟩ := Prod.mk.inj (Option.some.inj hr)
        split at h
        · rw [← Option.some.inj h]
          exact ⟨rfl, .inl ⟨rfl, rfl⟩⟩
        · rename_i ho'
          split at h
          · rename_i hty
            exact absurd (h2.trans hty.symm) ho'
          · cases h
  · rw [← Option.some.inj h]
    exact ⟨rfl, .inl ⟨rfl, rfl⟩⟩

/-- The casts to the signature that the lookup finds succeed if one of the arguments is an array and the arrays are of its kind. -/
theorem found_signature_casts (reg : Registry) (ho : reg.Ok) (hr : reg.Scalars) (ops : CastOps X) (hops : ops.Ok) (decay : QTy → QTy)
    (sigs : List (Overload.Sig QTy)) (hs : ∀ s ∈ sigs, ∀ q ∈ s.inputs, q.Exists reg) (deps : List (Node X)) (ty : QTy)
    (hw : ∀ n ∈ deps, n.WellTyped reg) (sig : Overload.Sig QTy)
    (h : Overload.findMatching (fun a b => canCast reg true (some a) (some b)) decay (deps.map (·.ty)) ty sigs = .ok sig)
    (hd : isDerivedFrom decay (deps.map (·.ty)) ty sig = false) (ha : deps.any (fun n => isArray n.ty) = true)
    (hk : ∀ p ∈ deps.zip sig.inputs, KindOk (shapeForBroadcasting deps) p.1.ty p.2) :
    ∃ ms, buildDepsWithCasts reg ops deps sig.inputs = some ms ∧ ms.map (·.ty) = sig.inputs := by
  obtain ⟨h1, -, h3, h4⟩ := found_signature ho decay _ ty sigs hs sig h
  rw [hd] at h4
  have h4 := h4.resolve_left Bool.false_ne_true
  have hl : deps.length = sig.inputs.length := by rw [h3, List.length_map]
  obtain ⟨g1, g2⟩ := build_deps_with_casts reg ho hr ops hops deps sig.inputs hw (hs sig h1) hl
  obtain ⟨ms, hms⟩ := g1.2 (by
    intro p hp
    refine ⟨?_, hk p hp⟩
    rw [ha]
    obtain ⟨i, hi, rfl⟩ := List.getElem_of_mem hp
    rw [List.getElem_zip]
    dsimp only
    have hi1 : i < deps.length := by rw [List.length_zip] at hi; omega
    have hi2 : i < sig.inputs.length := by omega
    have := h4.get (i := i) (by rw [List.length_map]; exact hi1) hi2
    rw [List.get_eq_getElem, List.get_eq_getElem, List.getElem_map] at this
    exact (canCast_iff ho true (hw _ (List.getElem_mem _)).1 (hs sig h1 _ (List.getElem_mem _))).1 this)
  exact ⟨ms, hms, (g2 ms hms).1⟩

/-! ### Examples -/

theorem sampleRegistry_scalars : sampleRegistry.Scalars := fun _ => ⟨id, fun _ => id⟩

/-- Conversions to `float32` are marked by a factor of 10, those to `float64` by 100. -/
def sampleOps : CastOps Int where
  contains _ := true
  accepts _ w := decide (w ≠ .other 1)
  conv _ w x := if w = .f32 then 10 * x else if w = .f64 then 100 * x else x

theorem sampleOps_ok : sampleOps.Ok := by
  intro v w _ hw _ _
  refine ⟨rfl, ?_⟩
  cases w with
  | other k => exact absurd hw id
  | _ => rfl

/-- An optional is converted and broadcast. -/
example : ∃ m, getCast sampleRegistry sampleOps ⟨.optional .i32, .opt (some 4)⟩ (.array 0 .f32) true (some (0, 3)) = some m ∧
    Casted (convert sampleOps .i32 .f32) 3 (.opt (some 4)) m.val := by
  obtain ⟨m, h1, -, -, h4⟩ := (get_cast_implicit sampleRegistry sampleRegistry_ok sampleRegistry_scalars sampleOps sampleOps_ok
    ⟨.optional .i32, .opt (some 4)⟩ (.array 0 .f32) rfl rfl (by intro s v h; cases h; exact .opt _) (some (0, 3))).2
    ⟨.parts (.optional _) (.array _ _) (.optional_array _ rfl) .i32_f32, (by
      intro k w h _
      obtain ⟨rfl, rfl⟩ := QTy.array.inj h
      exact ⟨3, rfl⟩)⟩
  exact ⟨m, h1, h4 _ _ _ _ (.optional _) (.array _ _)⟩

example : getCast sampleRegistry sampleOps ⟨.optional .i32, .opt (some 4)⟩ (.array 0 .f32) true (some (0, 3)) =
    some ⟨.array 0 .f32, .arr [some 40, some 40, some 40]⟩ := by decide +kernel

/-- Not to a scalar. -/
example : getCast sampleRegistry sampleOps ⟨.optional .i32, .opt (some 4)⟩ (.plain .i32) false none = none := by
  refine (get_cast_explicit sampleRegistry sampleRegistry_ok sampleRegistry_scalars sampleOps ⟨.optional .i32, .opt (some 4)⟩ (.plain .i32)
    rfl trivial none .optional .scalar .i32 .i32 (.optional _) (.scalar _ rfl) (.opt _)).2 ?_
  rintro ⟨-, h, -⟩
  cases h

/-- The arguments of an operator on arrays of `float32`. -/
def sampleDeps : List (Node Int) := [⟨.plain .weakFloat, .scalar 3⟩, ⟨.array 0 .i64, .arr [some 1, none]⟩]

theorem sampleDeps_wellTyped : ∀ n ∈ sampleDeps, n.WellTyped sampleRegistry := by
  intro n hn
  rcases List.mem_cons.1 hn with rfl | hn
  · exact ⟨trivial, by intro s v h; cases h; exact .scalar _⟩
  · rw [List.mem_singleton.1 hn]
    exact ⟨rfl, by intro s v h; cases h; exact .arr _ _⟩

example : ∃ ms, buildDepsWithCasts sampleRegistry sampleOps sampleDeps [.array 0 .f32, .array 0 .f32] = some ms ∧
    ms.map (·.ty) = [.array 0 .f32, .array 0 .f32] := by
  obtain ⟨h1, h2⟩ := build_deps_with_casts sampleRegistry sampleRegistry_ok sampleRegistry_scalars sampleOps sampleOps_ok sampleDeps
    [.array 0 .f32, .array 0 .f32] sampleDeps_wellTyped (by
      intro q hq
      rcases List.mem_cons.1 hq with rfl | hq
      · rfl
      · rw [List.mem_singleton.1 hq]
        rfl) rfl
  obtain ⟨ms, hms⟩ := h1.2 (by
    intro p hp
    have hk : ∀ a : QTy, KindOk (shapeForBroadcasting sampleDeps) a (.array 0 .f32) := by
      intro a k w h _
      obtain ⟨rfl, rfl⟩ := QTy.array.inj h
      exact ⟨2, rfl⟩
    rcases List.mem_cons.1 hp with rfl | hp
    · exact ⟨.parts (.scalar _ rfl) (.array _ _) (.scalar_array _ rfl) .weak_f32, hk _⟩
    · rw [List.mem_singleton.1 hp]
      exact ⟨.parts (.array _ _) (.array _ _) (.refl _) .i64_f32, hk _⟩)
  exact ⟨ms, hms, (h2 ms hms).1⟩

/-- The values of these arguments. -/
example : buildDepsWithCasts sampleRegistry sampleOps sampleDeps [.array 0 .f32, .array 0 .f32] =
    some [⟨.array 0 .f32, .arr [some 30, some 30]⟩, ⟨.array 0 .f32, .arr [some 10, none]⟩] := by decide +kernel

/-- Without an array there is no shape. -/
example : buildDepsWithCasts sampleRegistry sampleOps [⟨.plain .f32, .scalar 3⟩] [.array 0 .f32] = none := by decide +kernel

/-- A node is transformed. -/
example : ∃ c, castingTransformation sampleRegistry sampleOps id [⟨[.array 0 .f32, .array 0 .f32], .array 0 .f32⟩]
    (fun _ => some (.array 0 .f32)) sampleDeps (.array 0 .f32) = some c ∧ c.ty = .array 0 .f32 ∧
    c.deps.map (·.ty) = [.array 0 .f32, .array 0 .f32] := by
  refine ⟨⟨[⟨.array 0 .f32, .arr [some 30, some 30]⟩, ⟨.array 0 .f32, .arr [some 10, none]⟩], .array 0 .f32, false⟩, ?_, rfl, rfl⟩
  rfl

end Verif.Casts
