import Verif.Proto.ProtoLemmas

/-!
# Properties of the reflection readers
-/

namespace Verif.Proto

/-! ## C154: the reader of optional values -/

/-- Readers are created only for a path: at least one field, and as many accesses. -/
theorem created_for_paths (fields : List Field) (infos : List Access) (s : StringFieldType)
    (r : Reader) (h : createOptionalReader fields infos s = some r ∨
      createDenseArrayReader fields infos s = some r ∨
      createDenseArrayShapeReader fields infos = some r) :
    ∃ steps f a, fields = pathFields steps f ∧ infos = pathInfos steps a := by
  have hv : ∃ al, verifyFieldsAndAccessInfos fields infos al = true := by
    rcases h with h | h | h
    · unfold createOptionalReader at h
      split at h
      · exact ⟨_, by assumption⟩
      · cases h
    · unfold createDenseArrayReader at h
      split at h
      · exact ⟨_, by assumption⟩
      · cases h
    · unfold createDenseArrayShapeReader at h
      split at h
      · exact ⟨_, by assumption⟩
      · cases h
  obtain ⟨al, hv⟩ := hv
  unfold verifyFieldsAndAccessInfos at hv
  split at hv
  · cases hv
  split at hv
  · cases hv
  rename_i hne hlen
  have hlen : fields.length = infos.length := by simpa using hlen
  have hf : fields ≠ [] := by simpa using hne
  have hi : infos ≠ [] := by
    intro h0; rw [h0] at hlen; exact hf (List.length_eq_zero_iff.1 hlen)
  refine ⟨fields.dropLast.zip infos.dropLast, fields.getLast hf, infos.getLast hi, ?_, ?_⟩
  · rw [pathFields, List.map_fst_zip (by simp [hlen]), List.dropLast_concat_getLast]
  · rw [pathInfos, List.map_snd_zip (by simp [hlen]), List.dropLast_concat_getLast]

/-- The reader of optional values is created exactly if singular fields are accessed regularly,
repeated fields by index and the last field is not a message; it has the type of the field. -/
theorem optional_created (steps : List (Field × Access)) (f : Field) (a : Access)
    (s : StringFieldType) :
    (∀ r, createOptionalReader (pathFields steps f) (pathInfos steps a) s = some r →
      ∃ t, resType f.type s = some t ∧ r.qtype = .optional t) ∧
    ((createOptionalReader (pathFields steps f) (pathInfos steps a) s).isSome ↔
      (∀ x ∈ steps, AccessOne x.1 x.2) ∧ AccessOne f a ∧ f.type.cppType ≠ .message) := by
  have hres : (resType f.type s).isSome ↔ f.type.cppType ≠ .message := by
    cases f.type <;> cases s <;> decide
  have hver : (verifyFieldsAndAccessInfos (pathFields steps f) (pathInfos steps a) false = true) ↔
      (∀ x ∈ steps, AccessOne x.1 x.2) ∧ AccessOne f a := by
    rw [verify_path]
    simp [check_false]
  unfold createOptionalReader
  rw [lastStep_path, intermediate_path]
  simp only [Option.bind_some, switch_spec]
  constructor
  · intro r h
    split at h
    · cases ht : resType f.type s with
      | none => rw [ht] at h; cases h
      | some t => rw [ht] at h; cases h; exact ⟨t, rfl, rfl⟩
    · cases h
  · rw [← hres, ← and_assoc, ← hver]
    split
    · rename_i hv
      simp [hv]
    · rename_i hv
      simp [hv]

/-- On every message of the schema it reads the value at the end of the path with its numeric value
unchanged; it is missing exactly if one of the submessages, the field or the element is missing. -/
theorem optional_reads {F : Field → Prop} (steps : List (Field × Access)) (f : Field) (a : Access)
    (s : StringFieldType) (r : Reader) (m : Node) (d : Nat)
    (hr : createOptionalReader (pathFields steps f) (pathInfos steps a) s = some r)
    (hm : Valid F m) (hd : HasDescriptor d m) (hp : PathOk F d steps f) :
    ∃ v, (reach steps (some m)).flatMap (lastValues f a) = [v] ∧
      ∀ n, r.read m n = .done (.optional v) := by
  have hc := (optional_created steps f a s).2.1 (by rw [hr]; rfl)
  obtain ⟨hst, ha, -⟩ := hc
  obtain ⟨t, ht, -⟩ := (optional_created steps f a s).1 r hr
  obtain ⟨o, h1, h2, h3⟩ := getLastSubMessage_ok steps m d hm hd hp hst
  unfold createOptionalReader at hr
  rw [lastStep_path, intermediate_path] at hr
  split at hr
  rotate_left
  · cases hr
  simp only [Option.bind_some, switch_spec, ht, Option.map_some] at hr
  cases hr
  have hFl : ∀ (steps : List (Field × Access)) (d : Nat), PathOk F d steps f → F f := by
    intro steps
    induction steps with
    | nil => intro d h; exact h.1
    | cons s steps ih => intro d h; exact ih _ h.2.2.2
  have hlv : ∀ o, lastValues f a o = [o.bind fun m => (selectOne f a m).bind toVal] := by
    intro o
    rcases ha with ⟨-, h⟩ | ⟨-, i, h⟩ <;> subst h <;> rfl
  refine ⟨o.bind fun m => (selectOne f a m).bind toVal, by simp [h2, hlv], fun n => ?_⟩
  cases o with
  | none => simp [optionalCallback, optionalRead, h1, Outcome.ofOption]
  | some x =>
    obtain ⟨hx, hdx⟩ := h3 x rfl
    simp [optionalCallback, optionalRead, h1, Outcome.ofOption,
      lastReader_ok hx hdx (hFl _ _ hp) rfl ht ha]

/-- Every field type that is not a message has a result type that holds all its values, and the
getter of its C++ type. -/
theorem switch_keeps (t : FType) (s : StringFieldType) :
    ((switchByProtoType t s).isSome ↔ t.cppType ≠ .message) ∧
    ∀ r g, switchByProtoType t s = some (r, g) →
      g = t.cppType ∧ ∀ v, InRange t v → castTo r v = v := by
  rw [switch_spec]
  refine ⟨by cases t <;> cases s <;> decide, ?_⟩
  intro r g h
  cases hr : resType t s with
  | none => rw [hr] at h; cases h
  | some r' =>
    rw [hr] at h
    cases h
    exact ⟨rfl, fun v hv => cast_id t s _ v hr hv⟩

/-! ## C155: the readers of arrays, sizes and shapes -/

theorem loop_callbacks {R : Type} (steps : List (Field × Access)) (m : Node)
    (cb : Node → R → Option R) (step : R → Node → R) (i : Nat) (hi : steps[i]? = none)
    (subs : List Node) :
    ∀ (n : Nat) (res : R), (∀ x ∈ subs, ∀ res, cb x res = some (step res x)) → subs.length ≤ n →
      traverseLoop steps m cb n (subs.map fun x => (some x, i)) res =
        .done (subs.foldl step res) := by
  induction subs with
  | nil => intro n res _ _; cases n <;> rfl
  | cons x subs ih =>
    intro n res hc hn
    cases n with
    | zero => simp at hn
    | succ n =>
      simp only [List.map_cons, traverseLoop, hi, hc x (by simp) res, List.foldl_cons]
      exact ih n _ (fun y hy => hc y (by simp [hy])) (by simpa using hn)

/-- For at most one intermediate field, and if no submessage on the way is missing, the callback is
called for the submessages in their order. -/
theorem traverse_short {R : Type} {F : Field → Prop} (steps : List (Field × Access)) (f : Field)
    (m : Node) (d : Nat) (cb : Node → R → Option R) (step : R → Node → R) (res : R)
    (hm : Valid F m) (hd : HasDescriptor d m) (hp : PathOk F d steps f)
    (ha : ∀ x ∈ steps, AccessOk x.1 x.2) (hlen : steps.length ≤ 1)
    (hpresent : ∀ o ∈ reach steps (some m), o ≠ none)
    (hcb : ∀ x, Valid F x → HasDescriptor f.owner x → F f → ∀ res, cb x res = some (step res x)) :
    ∃ subs : List Node, reach steps (some m) = subs.map some ∧
      ∃ n₀, ∀ n ≥ n₀, traverseSubmessages steps m cb res n = .done (subs.foldl step res) := by
  match steps, hlen with
  | [], _ =>
    obtain ⟨hF, ho⟩ := hp
    refine ⟨[m], rfl, 1, ?_⟩
    intro n hn
    exact loop_callbacks [] m cb step 0 rfl [m] n res
      (by intro x hx; obtain rfl := List.mem_singleton.1 hx
          exact hcb _ hm (by rw [ho]; exact hd) hF) hn
  | [(g, a)], _ =>
    obtain ⟨hg, hgo, hgt, hF, ho⟩ := hp
    obtain ⟨-, hi, hv⟩ := elements_ok hm hd hg hgo
    have hsub : ∃ subs : List Node, pushed m (g, a) = some (subs.map some) ∧
        reach [(g, a)] (some m) = subs.map some ∧ ∀ x ∈ subs, x ∈ items g m := by
      have hflat : ∀ l : List (Option Node), l.flatMap (reach []) = l := by
        intro l
        induction l with
        | nil => rfl
        | cons x l ih => simpa [reach] using ih
      rcases ha (g, a) (by simp) with ⟨hr, h⟩ | ⟨hr, h | ⟨i, h⟩⟩ <;> simp only at h hr <;> subst h
      · have h1 := getSubMessage_ok hm hd hg hgo hgt (.inl ⟨hr, rfl⟩)
        have h2 : reach [(g, .regular)] (some m) = [selectOne g .regular m] := hflat _
        cases hx : selectOne g .regular m with
        | none => exact absurd rfl (hpresent none (by rw [h2, hx]; simp))
        | some x =>
          exact ⟨[x], by simp [pushed, h1, hx], by rw [h2, hx]; rfl,
            by intro y hy; obtain rfl := List.mem_singleton.1 hy; exact selectOne_mem hx⟩
      · exact ⟨items g m, by simp [pushed, getRepeatedMessages_ok hm hd hg hgo hgt hr], hflat _,
          fun x hx => hx⟩
      · have h1 := getSubMessage_ok hm hd hg hgo hgt (.inr ⟨hr, i, rfl⟩)
        have h2 : reach [(g, .index i)] (some m) = [selectOne g (.index i) m] := hflat _
        cases hx : selectOne g (.index i) m with
        | none => exact absurd rfl (hpresent none (by rw [h2, hx]; simp))
        | some x =>
          exact ⟨[x], by simp [pushed, h1, hx], by rw [h2, hx]; rfl,
            by intro y hy; obtain rfl := List.mem_singleton.1 hy; exact selectOne_mem hx⟩
    obtain ⟨subs, hpush, hreach, hmem⟩ := hsub
    refine ⟨subs, hreach, subs.length + 1, ?_⟩
    intro n hn
    obtain ⟨k, rfl⟩ : ∃ k, n = k + 1 := ⟨n - 1, by omega⟩
    have := loop_callbacks [(g, a)] m cb step 1 rfl subs k res
      (fun x hx => hcb x (hv hgt x (hmem x hx))
        (by rw [ho]; exact hi.messages hgt x (hmem x hx)) hF) (by omega)
    simpa [traverseSubmessages, traverseLoop, hpush, Function.comp_def] using this

theorem foldl_append {α β : Type} (g : α → List β) (l : List α) :
    ∀ res : List β, l.foldl (fun r x => r ++ g x) res = res ++ l.flatMap g := by
  induction l with
  | nil => simp
  | cons x l ih => intro res; simp [ih]

/-- The array reader is created exactly if singular fields are accessed regularly, repeated fields
by index or completely, and the last field is not a message; or the last access is the size of a
repeated field. -/
theorem array_created (steps : List (Field × Access)) (f : Field) (a : Access)
    (s : StringFieldType) :
    (∀ r, createDenseArrayReader (pathFields steps f) (pathInfos steps a) s = some r →
      (a = .size ∧ r.qtype = .sizeArray) ∨
      (a ≠ .size ∧ ∃ t, resType f.type s = some t ∧ r.qtype = .denseArray t)) ∧
    ((createDenseArrayReader (pathFields steps f) (pathInfos steps a) s).isSome ↔
      (∀ x ∈ steps, AccessOk x.1 x.2) ∧
      ((AccessOk f a ∧ f.type.cppType ≠ .message) ∨ (f.repeated = true ∧ a = .size))) := by
  have hres : (resType f.type s).isSome ↔ f.type.cppType ≠ .message := by
    cases f.type <;> cases s <;> decide
  have hver : (verifyFieldsAndAccessInfos (pathFields steps f) (pathInfos steps a) true = true) ↔
      (∀ x ∈ steps, AccessOk x.1 x.2) ∧ (AccessOk f a ∨ (f.repeated = true ∧ a = .size)) := by
    rw [verify_path]
    simp [check_inner, check_last]
  have hno : a = .size → ¬ AccessOk f a := by
    rintro rfl (⟨-, h⟩ | ⟨-, h | ⟨i, h⟩⟩) <;> cases h
  unfold createDenseArrayReader
  rw [lastStep_path, intermediate_path]
  simp only [Option.bind_some, switch_spec]
  by_cases hs : a = .size
  · simp only [hs, if_true, arraySizeAccessor] at hver hno ⊢
    constructor
    · intro r h
      split at h
      · cases h; exact .inl ⟨trivial, rfl⟩
      · cases h
    · split
      · rename_i hv
        have := hver.1 hv
        simp [hno] at this ⊢
        exact this
      · rename_i hv
        have := fun h => hv (hver.2 h)
        simp [hno] at this ⊢
        exact fun x => this x
  · simp only [hs, if_false, denseArrayCallback, and_false, or_false] at hver ⊢
    constructor
    · intro r h
      split at h
      · cases ht : resType f.type s with
        | none => rw [ht] at h; cases h
        | some t =>
          rw [ht] at h
          cases h
          exact .inr ⟨hs, t, rfl, rfl⟩
      · cases h
    · rw [← hres, ← and_assoc, ← hver]
      split
      · rename_i hv
        cases ht : resType f.type s <;> simp [hv]
      · rename_i hv
        simp [hv]

/-- The array reader gives the values at the ends of the path in their order, a missing value for a
missing singular field or element: proved for paths with at most one intermediate field without
missing submessages. -/
theorem array_reads_partial {F : Field → Prop} (steps : List (Field × Access)) (f : Field)
    (a : Access) (s : StringFieldType) (r : Reader) (m : Node) (d : Nat)
    (hr : createDenseArrayReader (pathFields steps f) (pathInfos steps a) s = some r)
    (hs : a ≠ .size) (hm : Valid F m) (hd : HasDescriptor d m) (hp : PathOk F d steps f)
    (hlen : steps.length ≤ 1) (hpresent : ∀ o ∈ reach steps (some m), o ≠ none) :
    ∃ n₀, ∀ n ≥ n₀, r.read m n =
      .done (.array ((reach steps (some m)).flatMap (lastValues f a))) := by
  obtain ⟨hst, hl⟩ := (array_created steps f a s).2.1 (by rw [hr]; rfl)
  have hl : AccessOk f a := by
    rcases hl with h | h
    · exact h.1
    · exact absurd h.2 hs
  obtain ⟨t, ht, -⟩ : ∃ t, resType f.type s = some t ∧ r.qtype = .denseArray t := by
    rcases (array_created steps f a s).1 r hr with h | h
    · exact absurd h.1 hs
    · exact h.2
  unfold createDenseArrayReader at hr
  rw [lastStep_path, intermediate_path] at hr
  split at hr
  rotate_left
  · cases hr
  simp only [Option.bind_some, switch_spec, ht, Option.map_some, hs, if_false,
    denseArrayCallback] at hr
  cases hr
  obtain ⟨subs, h1, n₀, h2⟩ := traverse_short steps f m d (lastPushBack f a t f.type.cppType)
    (fun res x => res ++ lastValues f a (some x)) [] hm hd hp hst hlen hpresent
    (fun x hx hdx hF res => lastPushBack_ok hx hdx hF rfl ht hl res)
  refine ⟨n₀, fun n hn => ?_⟩
  simp only [h2 n hn, Outcome.map, foldl_append, List.nil_append, h1, List.flatMap_map]

/-- The sizes of the last field, in the order of the submessages, for such paths. -/
theorem sizes_read_partial {F : Field → Prop} (steps : List (Field × Access)) (f : Field)
    (s : StringFieldType) (r : Reader) (m : Node) (d : Nat)
    (hr : createDenseArrayReader (pathFields steps f) (pathInfos steps .size) s = some r)
    (hm : Valid F m) (hd : HasDescriptor d m) (hp : PathOk F d steps f)
    (hlen : steps.length ≤ 1) (hpresent : ∀ o ∈ reach steps (some m), o ≠ none) :
    ∃ n₀, ∀ n ≥ n₀, r.read m n = .done (.sizes ((reach steps (some m)).map (lastSize f))) := by
  obtain ⟨hst, hl⟩ := (array_created steps f .size s).2.1 (by rw [hr]; rfl)
  have hrep : f.repeated = true := by
    rcases hl with ⟨⟨-, h⟩ | ⟨-, h | ⟨i, h⟩⟩, -⟩ | h
    · cases h
    · cases h
    · cases h
    · exact h.1
  unfold createDenseArrayReader at hr
  rw [lastStep_path, intermediate_path] at hr
  split at hr
  rotate_left
  · cases hr
  simp only [Option.bind_some, if_true, arraySizeAccessor] at hr
  cases hr
  obtain ⟨subs, h1, n₀, h2⟩ := traverse_short steps f m d (sizePushBack f)
    (fun res x => res ++ [lastSize f (some x)]) [] hm hd hp hst hlen hpresent
    (fun x hx hdx hF res => by simp [sizePushBack, fieldSize_ok hx hdx hF rfl hrep])
  refine ⟨n₀, fun n hn => ?_⟩
  have : ∀ l : List Node, l.flatMap (fun x => [lastSize f (some x)]) =
      l.map fun x => lastSize f (some x) := by
    intro l
    induction l with
    | nil => rfl
    | cons x l ih => simpa using ih
  simp only [h2 n hn, Outcome.map, foldl_append, List.nil_append, h1, this, List.map_map,
    Function.comp_def]

/-- A shape reader is created exactly for the size of a repeated field: not for a path that ends with
values. -/
theorem shape_created (steps : List (Field × Access)) (f : Field) (a : Access) :
    (∀ r, createDenseArrayShapeReader (pathFields steps f) (pathInfos steps a) = some r →
      r.qtype = .shape) ∧
    ((createDenseArrayShapeReader (pathFields steps f) (pathInfos steps a)).isSome ↔
      (∀ x ∈ steps, AccessOk x.1 x.2) ∧ f.repeated = true ∧ a = .size) := by
  have hver : (verifyFieldsAndAccessInfos (pathFields steps f) (pathInfos steps a) true = true) ↔
      (∀ x ∈ steps, AccessOk x.1 x.2) ∧ (AccessOk f a ∨ (f.repeated = true ∧ a = .size)) := by
    rw [verify_path]
    simp [check_inner, check_last]
  have hno : a = .size → ¬ AccessOk f a := by
    rintro rfl (⟨-, h⟩ | ⟨-, h | ⟨i, h⟩⟩) <;> cases h
  unfold createDenseArrayShapeReader
  rw [lastStep_path, intermediate_path]
  simp only [Option.bind_some]
  by_cases hs : a = .size
  · have hn := hno hs
    simp only [hn, false_or] at hver
    constructor
    · intro r h
      split at h
      · simp only [shapeSizeAccessor, hs, if_true] at h
        cases h
        rfl
      · cases h
    · rw [← hver]
      split
      · rename_i hv
        simp [shapeSizeAccessor, hs]
        simpa [hs] using hv
      · rename_i hv
        simpa using hv
  · simp [shapeSizeAccessor, hs]

/-- The shape reader gives the size of the last field, for such paths without complete repeated
fields. -/
theorem shape_reads_partial {F : Field → Prop} (steps : List (Field × Access)) (f : Field)
    (r : Reader) (m : Node) (d : Nat)
    (hr : createDenseArrayShapeReader (pathFields steps f) (pathInfos steps .size) = some r)
    (hone : ∀ x ∈ steps, AccessOne x.1 x.2)
    (hm : Valid F m) (hd : HasDescriptor d m) (hp : PathOk F d steps f)
    (hlen : steps.length ≤ 1) (hpresent : ∀ o ∈ reach steps (some m), o ≠ none) :
    r.qtype = .shape ∧ ∃ o, reach steps (some m) = [o] ∧
      ∃ n₀, ∀ n ≥ n₀, r.read m n = .done (.shape (lastSize f o)) := by
  unfold createDenseArrayShapeReader at hr
  rw [lastStep_path, intermediate_path, verify_path] at hr
  split at hr
  rotate_left
  · cases hr
  rename_i hv
  have hrep : f.repeated = true := by
    have : checkAccessInfo f .size true true = true := by
      revert hv; cases checkAccessInfo f .size true true <;> simp
    rcases (check_last _ _).1 this with (⟨-, h⟩ | ⟨-, h | ⟨i, h⟩⟩) | h
    · cases h
    · cases h
    · cases h
    · exact h.1
  simp only [Option.bind_some, if_true, shapeSizeAccessor] at hr
  cases hr
  obtain ⟨o, -, h2, -⟩ := getLastSubMessage_ok steps m d hm hd hp hone
  have hok : ∀ x ∈ steps, AccessOk x.1 x.2 := by
    intro x hx
    rcases hone x hx with h | ⟨h, i, h'⟩
    · exact .inl h
    · exact .inr ⟨h, .inr ⟨i, h'⟩⟩
  obtain ⟨subs, h1, n₀, h3⟩ := traverse_short steps f m d (sizeToShape f)
    (fun _ x => lastSize f (some x)) 0 hm hd hp hok hlen hpresent
    (fun x hx hdx hF res => fieldSize_ok hx hdx hF rfl hrep)
  refine ⟨rfl, o, h2, n₀, fun n hn => ?_⟩
  rw [h2] at h1
  cases subs with
  | nil => cases h1
  | cons x subs =>
    cases subs with
    | cons y subs => cases h1
    | nil =>
      obtain rfl : o = some x := by simpa using h1
      simp only [h3 n hn, Outcome.map, List.foldl_cons, List.foldl_nil]

theorem elements_other {m : Node} {d : Nat} {f : Field} (hd : HasDescriptor d m)
    (h : f.owner ≠ d) : elements m f = none := by
  cases m with
  | value v => rfl
  | msg d' fs => have : d' = d := hd; subst this; simp [elements, h]

theorem pushed_other {m : Node} {d : Nat} {s : Field × Access} (hd : HasDescriptor d m)
    (h : s.1.owner ≠ d) : pushed m s = none := by
  have he := elements_other hd h
  obtain ⟨f, a⟩ := s
  cases hr : f.repeated <;> cases a <;>
    simp_all [pushed, getRepeatedMessages, getSubMessage, fieldSize, hasField]

/-- With two intermediate fields of different message types, every traversal that reaches a
submessage ends with a fatal error: the second field is looked up in the outermost message. -/
theorem nested_crash_counterexample {R : Type} {F : Field → Prop} (s₀ s₁ : Field × Access)
    (rest : List (Field × Access)) (f : Field) (m : Node) (d : Nat) (cb : Node → R → Option R)
    (res : R) (hm : Valid F m) (hd : HasDescriptor d m) (hp : PathOk F d (s₀ :: s₁ :: rest) f)
    (ha : AccessOk s₀.1 s₀.2) (hne : select s₀ (some m) ≠ []) (ho : s₁.1.owner ≠ s₀.1.owner) :
    ∀ n ≥ 2, traverseSubmessages (s₀ :: s₁ :: rest) m cb res n = .crash := by
  intro n hn
  obtain ⟨k, rfl⟩ : ∃ k, n = k + 2 := ⟨n - 2, by omega⟩
  obtain ⟨g, a⟩ := s₀
  obtain ⟨hg, hgo, hgt, -⟩ := hp
  have hpush : pushed m (g, a) = some (select (g, a) (some m)) := by
    rcases ha with ⟨hr, h⟩ | ⟨hr, h | ⟨i, h⟩⟩ <;> simp only at h hr <;> subst h
    · simp [pushed, select, getSubMessage_ok hm hd hg hgo hgt (.inl ⟨hr, rfl⟩)]
    · simp [pushed, select, getRepeatedMessages_ok hm hd hg hgo hgt hr]
    · simp [pushed, select, getSubMessage_ok hm hd hg hgo hgt (.inr ⟨hr, i, rfl⟩)]
  cases hsel : select (g, a) (some m) with
  | nil => exact absurd hsel hne
  | cons x l =>
    have h1 : pushed m s₁ = none := pushed_other hd (by rw [← hgo]; exact ho)
    simp [traverseSubmessages, traverseLoop, hpush, hsel, h1]

/-- A missing submessage of one intermediate field that is not read completely is dereferenced. -/
theorem missing_crash_counterexample {R : Type} {F : Field → Prop} (g : Field) (a : Access)
    (f : Field) (m : Node) (d : Nat) (cb : Node → R → Option R) (res : R) (hm : Valid F m)
    (hd : HasDescriptor d m) (hp : PathOk F d [(g, a)] f) (ha : AccessOne g a)
    (hmiss : selectOne g a m = none) :
    ∀ n ≥ 2, traverseSubmessages [(g, a)] m cb res n = .crash := by
  intro n hn
  obtain ⟨k, rfl⟩ : ∃ k, n = k + 2 := ⟨n - 2, by omega⟩
  obtain ⟨hg, hgo, hgt, -⟩ := hp
  have h1 := getSubMessage_ok hm hd hg hgo hgt ha
  have hpush : pushed m (g, a) = some [none] := by
    rcases ha with ⟨hr, h⟩ | ⟨hr, i, h⟩ <;> subst h <;> simp [pushed, h1, hmiss]
  simp [traverseSubmessages, traverseLoop, hpush]

/-! ### Concrete messages -/

/-- `message Node { repeated Node children = 1; optional int32 x = 2; optional Node next = 3; }` -/
def children : Field := ⟨0, 1, true, .message, 0, false⟩
/-- The field `x`. -/
def xField : Field := ⟨0, 2, false, .int32, 0, false⟩
/-- The field `next`. -/
def nextField : Field := ⟨0, 3, false, .message, 0, false⟩
/-- The fields of the schema. -/
def schema (f : Field) : Prop := f = children ∨ f = xField ∨ f = nextField

/-- A message with children and a value. -/
def tree (x : Option Int) (cs : List Node) : Node :=
  .msg 0 fun n =>
    if n = 1 then cs
    else if n = 2 then (match x with
      | none => []
      | some v => [.value (.int v)])
    else []

theorem tree_valid (x : Option Int) (cs : List Node)
    (hx : ∀ v, x = some v → -2 ^ 31 ≤ v ∧ v < 2 ^ 31)
    (hc : ∀ c ∈ cs, Valid schema c ∧ HasDescriptor 0 c) : Valid schema (tree x cs) := by
  refine .msg _ _ ?_ ?_
  · rintro f (rfl | rfl | rfl) -
    · exact ⟨(by intro h; cases h), fun _ c h => (hc c h).2, (by intro h; exact absurd rfl h)⟩
    · refine ⟨fun _ => ?_, (by intro h; cases h), fun _ c h => ?_⟩
      · cases x <;> simp [xField]
      · cases x with
        | none => simp [xField] at h
        | some v =>
          simp [xField] at h
          exact ⟨_, h, hx v rfl⟩
    · exact ⟨(by simp [nextField]), (by simp [nextField]), (by simp [nextField])⟩
  · rintro f (rfl | rfl | rfl) - ht c h
    · exact (hc c h).1
    · cases ht
    · simp [nextField] at h

/-- Two children, the first with one child. -/
def sample : Node := tree (some 0) [tree (some 1) [tree (some 3) []], tree none []]

theorem sample_valid : Valid schema sample ∧ HasDescriptor 0 sample := by
  have h0 : ∀ x : Option Int, (∀ v, x = some v → -2 ^ 31 ≤ v ∧ v < 2 ^ 31) →
      Valid schema (tree x []) := fun x hx => tree_valid x [] hx (by simp)
  refine ⟨tree_valid _ _ (by rintro v ⟨⟩; decide) ?_, rfl⟩
  intro c hc
  simp only [List.mem_cons, List.not_mem_nil, or_false] at hc
  rcases hc with rfl | rfl
  · refine ⟨tree_valid _ _ (by rintro v ⟨⟩; decide) ?_, rfl⟩
    intro c hc
    obtain rfl := List.mem_singleton.1 hc
    exact ⟨h0 _ (by rintro v ⟨⟩; decide), rfl⟩
  · exact ⟨h0 _ (by intro v h; cases h), rfl⟩

/-- With two intermediate fields of a recursive type the reader silently returns the values of other
messages: `children/children/x` should be `[3]`. -/
theorem nested_wrong_counterexample :
    Valid schema sample ∧ HasDescriptor 0 sample ∧
    PathOk schema 0 [(children, .repeated), (children, .repeated)] xField ∧
    ∃ r, createDenseArrayReader (pathFields [(children, .repeated), (children, .repeated)] xField)
        (pathInfos [(children, .repeated), (children, .repeated)] .regular) .text = some r ∧
      (reach [(children, .repeated), (children, .repeated)] (some sample)).flatMap
        (lastValues xField .regular) = [some (.int 3)] ∧
      ∀ n ≥ 7, r.read sample n =
        .done (.array [some (.int 1), none, some (.int 1), none]) := by
  refine ⟨sample_valid.1, sample_valid.2, ?_, _, rfl, rfl, ?_⟩
  · exact ⟨.inl rfl, rfl, rfl, .inl rfl, rfl, rfl, .inr (.inl rfl), rfl⟩
  · intro n hn
    obtain ⟨k, rfl⟩ : ∃ k, n = k + 7 := ⟨n - 7, by omega⟩
    cases k <;> rfl

/-- A path to a child by index and its value, also of an element that does not exist. -/
example : ∃ r, createOptionalReader (pathFields [(children, .index 0), (children, .index 0)] xField)
      (pathInfos [(children, .index 0), (children, .index 0)] .regular) .text = some r ∧
    PathOk schema 0 [(children, .index 0), (children, .index 0)] xField ∧
    r.read sample 0 = .done (.optional (some (.int 3))) :=
  ⟨_, rfl, ⟨.inl rfl, rfl, rfl, .inl rfl, rfl, rfl, .inr (.inl rfl), rfl⟩, rfl⟩

example : ∃ r, createOptionalReader (pathFields [(children, .index 1), (children, .index 0)] xField)
      (pathInfos [(children, .index 1), (children, .index 0)] .regular) .text = some r ∧
    r.read sample 0 = .done (.optional none) :=
  ⟨_, rfl, rfl⟩

/-- One intermediate field: the values of the children. -/
example : ∃ r, createDenseArrayReader (pathFields [(children, .repeated)] xField)
      (pathInfos [(children, .repeated)] .regular) .text = some r ∧
    PathOk schema 0 [(children, .repeated)] xField ∧
    (∀ o ∈ reach [(children, .repeated)] (some sample), o ≠ none) ∧
    r.read sample 3 = .done (.array [some (.int 1), none]) :=
  ⟨_, rfl, ⟨.inl rfl, rfl, rfl, .inr (.inl rfl), rfl⟩,
    by simp [reach, select, sample, tree, items, children], rfl⟩

example : ∃ r, createDenseArrayReader (pathFields [(children, .repeated)] children)
      (pathInfos [(children, .repeated)] .size) .text = some r ∧
    r.read sample 3 = .done (.sizes [1, 0]) :=
  ⟨_, rfl, rfl⟩

example : ∃ r, createDenseArrayShapeReader (pathFields [(children, .index 0)] children)
      (pathInfos [(children, .index 0)] .size) = some r ∧
    r.read sample 2 = .done (.shape 1) :=
  ⟨_, rfl, rfl⟩

example : createDenseArrayShapeReader (pathFields [(children, .index 0)] children)
      (pathInfos [(children, .index 0)] .repeated) = none := rfl

/-- The size of a repeated field of a submessage that is not set: `next/children@size`. -/
theorem missing_shape_counterexample :
    Valid schema sample ∧ HasDescriptor 0 sample ∧
    PathOk schema 0 [(nextField, .regular)] children ∧
    ∃ r, createDenseArrayShapeReader (pathFields [(nextField, .regular)] children)
        (pathInfos [(nextField, .regular)] .size) = some r ∧
      ∀ n ≥ 2, r.read sample n = .crash := by
  refine ⟨sample_valid.1, sample_valid.2,
    ⟨.inr (.inr rfl), rfl, rfl, .inl rfl, rfl⟩, _, rfl, ?_⟩
  intro n hn
  obtain ⟨k, rfl⟩ : ∃ k, n = k + 2 := ⟨n - 2, by omega⟩
  rfl

/-- The hypotheses of the theorem about different message types are met by a field of a message of
another type in the children. -/
example : ∃ (F : Field → Prop) (s₀ s₁ : Field × Access) (f : Field) (m : Node),
    Valid F m ∧ HasDescriptor 0 m ∧ PathOk F 0 [s₀, s₁] f ∧ AccessOk s₀.1 s₀.2 ∧
    select s₀ (some m) ≠ [] ∧ s₁.1.owner ≠ s₀.1.owner := by
  let g : Field := ⟨0, 1, true, .message, 1, false⟩
  let h : Field := ⟨1, 2, true, .message, 2, false⟩
  let x : Field := ⟨2, 3, false, .int32, 0, false⟩
  let inner : Node := .msg 1 fun _ => []
  let m : Node := .msg 0 fun n => if n = 1 then [inner] else []
  let F : Field → Prop := fun f => f = g ∨ f = h ∨ f = x
  have hinner : Valid F inner := by
    refine .msg _ _ (fun f _ _ => ⟨fun _ => (by simp), fun _ => (by simp), fun _ => (by simp)⟩) ?_
    intro f _ _ _ x hx
    cases hx
  refine ⟨F, (g, .repeated), (h, .repeated), x, m, .msg _ _ ?_ ?_, rfl, ?_, ?_, ?_, ?_⟩
  · rintro f (rfl | rfl | rfl) ho
    · exact ⟨(by intro h; cases h), fun _ c hc => by
        obtain rfl := List.mem_singleton.1 hc; rfl, (by intro h; exact absurd rfl h)⟩
    · cases ho
    · cases ho
  · rintro f (rfl | rfl | rfl) ho ht c hc
    · obtain rfl := List.mem_singleton.1 hc
      exact hinner
    · cases ho
    · cases ho
  · exact ⟨.inl rfl, rfl, rfl, .inr (.inl rfl), rfl, rfl, .inr (.inr rfl), rfl⟩
  · exact .inr ⟨rfl, .inl rfl⟩
  · intro hc
    cases hc
  · decide

end Verif.Proto
