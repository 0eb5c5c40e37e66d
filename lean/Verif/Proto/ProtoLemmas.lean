import Verif.Proto.ProtoSpec

/-!
# Lemmas about the reflection readers
-/

namespace Verif.Proto

theorem switch_spec (t : FType) (s : StringFieldType) :
    switchByProtoType t s = (resType t s).map fun r => (r, t.cppType) := by
  cases t <;> cases s <;> rfl

theorem cast_id (t : FType) (s : StringFieldType) (r : ResType) (v : Val)
    (h : resType t s = some r) (hv : InRange t v) : castTo r v = v := by
  cases t <;> cases s <;> simp [resType] at h <;> subst h <;> cases v <;>
    simp [InRange, castTo, wrapSigned] at * <;> omega

theorem elements_ok {F : Field → Prop} {m : Node} {d : Nat} {f : Field} (hm : Valid F m)
    (hd : HasDescriptor d m) (hf : F f) (ho : f.owner = d) :
    elements m f = some (items f m) ∧ ItemsOk f (items f m) ∧
      (f.type.cppType = .message → ∀ x ∈ items f m, Valid F x) := by
  cases hm with
  | msg d' fs ok sub =>
    have : d' = d := hd
    subst this
    exact ⟨by simp [elements, items, ho], ok f hf ho, fun ht x hx => sub f hf ho ht x hx⟩

theorem asMessage_of {d : Nat} {x : Node} (h : HasDescriptor d x) : asMessage x = some x := by
  cases x with
  | value v => exact h.elim
  | msg d' fs => rfl

theorem mapM_some {α β : Type} (g : α → Option β) (h : α → β) (l : List α)
    (hg : ∀ x ∈ l, g x = some (h x)) : l.mapM g = some (l.map h) := by
  induction l with
  | nil => rfl
  | cons x l ih =>
    rw [List.mapM_cons, hg x (by simp), ih fun y hy => hg y (by simp [hy])]
    rfl

theorem getSubMessage_ok {F : Field → Prop} {m : Node} {d : Nat} {f : Field} {a : Access}
    (hm : Valid F m) (hd : HasDescriptor d m) (hf : F f) (ho : f.owner = d)
    (ht : f.type.cppType = .message) (ha : AccessOne f a) :
    getSubMessage m f a = some (selectOne f a m) := by
  obtain ⟨he, hi, -⟩ := elements_ok hm hd hf ho
  rcases ha with ⟨hr, rfl⟩ | ⟨hr, i, rfl⟩
  · cases hl : items f m with
    | nil => simp [getSubMessage, hr, hasField, he, hl, selectOne]
    | cons x l =>
      have := asMessage_of (hi.messages ht x (by simp [hl]))
      simp [getSubMessage, hr, hasField, getMessage, he, hl, selectOne, this]
  · by_cases hlt : i < (items f m).length
    · have := asMessage_of (hi.messages ht (items f m)[i] (List.getElem_mem hlt))
      simp [getSubMessage, hr, fieldSize, getRepeatedMessage, he, hlt, selectOne, this]
    · simp [getSubMessage, hr, fieldSize, he, hlt, selectOne]

theorem selectOne_mem {f : Field} {a : Access} {m x : Node} (h : selectOne f a m = some x) :
    x ∈ items f m := by
  unfold selectOne at h
  split at h
  · exact List.mem_of_getElem? h
  · exact List.mem_of_head? h

theorem getRepeatedMessages_ok {F : Field → Prop} {m : Node} {d : Nat} {f : Field}
    (hm : Valid F m) (hd : HasDescriptor d m) (hf : F f) (ho : f.owner = d)
    (ht : f.type.cppType = .message) (hr : f.repeated = true) :
    getRepeatedMessages m f = some (items f m) := by
  obtain ⟨he, hi, -⟩ := elements_ok hm hd hf ho
  simp only [getRepeatedMessages, hr, if_true, he, Option.bind_some]
  rw [mapM_some asMessage id _ fun x hx => asMessage_of (hi.messages ht x hx), List.map_id]

theorem getLastSubMessage_ok {F : Field → Prop} {last : Field} (steps : List (Field × Access)) :
    ∀ (m : Node) (d : Nat), Valid F m → HasDescriptor d m → PathOk F d steps last →
    (∀ s ∈ steps, AccessOne s.1 s.2) →
    ∃ o, getLastSubMessage steps m = some o ∧ reach steps (some m) = [o] ∧
      ∀ x, o = some x → Valid F x ∧ HasDescriptor last.owner x := by
  induction steps with
  | nil =>
    intro m d hm hd hp _
    exact ⟨some m, rfl, rfl, by rintro x ⟨⟩; exact ⟨hm, by rw [hp.2]; exact hd⟩⟩
  | cons s steps ih =>
    obtain ⟨f, a⟩ := s
    intro m d hm hd hp ha
    obtain ⟨hf, ho, ht, hp⟩ := hp
    have ha1 := ha (f, a) (by simp)
    have hsel := getSubMessage_ok hm hd hf ho ht ha1
    have hsel' : select (f, a) (some m) = [selectOne f a m] := by
      rcases ha1 with ⟨-, h⟩ | ⟨-, i, h⟩ <;> simp only at h <;> subst h <;> rfl
    have hnone : ∀ ss : List (Field × Access), (∀ s ∈ ss, AccessOne s.1 s.2) →
        reach ss none = [none] := by
      intro ss hss
      induction ss with
      | nil => rfl
      | cons s ss ih =>
        obtain ⟨f', a'⟩ := s
        have h1 := hss (f', a') (by simp)
        have : select (f', a') none = [none] := by
          rcases h1 with ⟨-, h⟩ | ⟨-, i, h⟩ <;> simp only at h <;> subst h <;> rfl
        simp [reach, this, ih fun s hs => hss s (by simp [hs])]
    obtain ⟨-, hi, hsub⟩ := elements_ok hm hd hf ho
    cases hx : selectOne f a m with
    | none =>
      refine ⟨none, by simp [getLastSubMessage, hsel, hx], ?_, fun x h => nomatch h⟩
      simp [reach, hsel', hx, hnone steps fun s hs => ha s (by simp [hs])]
    | some x =>
      have hmem := selectOne_mem hx
      obtain ⟨o, h1, h2, h3⟩ := ih x f.messageType (hsub ht x hmem) (hi.messages ht x hmem) hp
        fun s hs => ha s (by simp [hs])
      exact ⟨o, by simp [getLastSubMessage, hsel, hx, h1], by simp [reach, hsel', hx, h2], h3⟩

theorem getScalar_ok {f : Field} {x : Node} {v : Val} (h : x = .value v) :
    getScalar f.type.cppType f x = some v := by
  subst h; simp [getScalar]

theorem lastReader_ok {F : Field → Prop} {m : Node} {d : Nat} {f : Field} {a : Access}
    {s : StringFieldType} {r : ResType} (hm : Valid F m) (hd : HasDescriptor d m) (hf : F f)
    (ho : f.owner = d) (hr : resType f.type s = some r) (ha : AccessOne f a) :
    lastReader f a r f.type.cppType m = some ((selectOne f a m).bind toVal) := by
  obtain ⟨he, hi, -⟩ := elements_ok hm hd hf ho
  have hnm : f.type.cppType ≠ .message := by
    intro h; cases hft : f.type <;> simp [hft, FType.cppType, resType] at h hr
  rcases ha with ⟨hrep, rfl⟩ | ⟨hrep, i, rfl⟩
  · cases hl : items f m with
    | nil => simp [lastReader, hrep, fieldReader, hasField, he, hl, selectOne]
    | cons x l =>
      obtain ⟨v, rfl, hv⟩ := hi.values hnm x (by simp [hl])
      simp [lastReader, hrep, fieldReader, hasField, getSingular, he, hl, selectOne, toVal,
        getScalar, cast_id f.type s r v hr hv]
  · by_cases hlt : i < (items f m).length
    · obtain ⟨v, hx, hv⟩ := hi.values hnm _ (List.getElem_mem hlt)
      simp [lastReader, hrep, byIndexReader, fieldSize, getFromRepeated, he, hlt, selectOne, toVal,
        getScalar, hx, cast_id f.type s r v hr hv]
    · simp [lastReader, hrep, byIndexReader, fieldSize, he, hlt, selectOne]

theorem manyPushBack_ok {F : Field → Prop} {m : Node} {d : Nat} {f : Field}
    {s : StringFieldType} {r : ResType} (hm : Valid F m) (hd : HasDescriptor d m) (hf : F f)
    (ho : f.owner = d) (hr : resType f.type s = some r) (hrep : f.repeated = true)
    (res : List (Option Val)) :
    manyPushBack f r f.type.cppType m res = some (res ++ (items f m).map toVal) := by
  obtain ⟨he, hi, -⟩ := elements_ok hm hd hf ho
  have hnm : f.type.cppType ≠ .message := by
    intro h; cases hft : f.type <;> simp [hft, FType.cppType, resType] at h hr
  have hv : ∀ x ∈ items f m, getScalar f.type.cppType f x =
      some ((toVal x).getD (.bool false)) := by
    intro x hx
    obtain ⟨v, rfl, -⟩ := hi.values hnm x hx
    simp [getScalar, toVal]
  simp only [manyPushBack, getRepeated, hrep, if_true, he, Option.bind_some,
    mapM_some _ _ _ hv, Option.map_some, List.map_map]
  congr 2
  apply List.map_congr_left
  intro x hx
  obtain ⟨v, rfl, hv⟩ := hi.values hnm x hx
  simp [toVal, cast_id f.type s r v hr hv]

theorem lastPushBack_ok {F : Field → Prop} {m : Node} {d : Nat} {f : Field} {a : Access}
    {s : StringFieldType} {r : ResType} (hm : Valid F m) (hd : HasDescriptor d m) (hf : F f)
    (ho : f.owner = d) (hr : resType f.type s = some r) (ha : AccessOk f a)
    (res : List (Option Val)) :
    lastPushBack f a r f.type.cppType m res = some (res ++ lastValues f a (some m)) := by
  rcases ha with ⟨hrep, rfl⟩ | ⟨hrep, rfl | ⟨i, rfl⟩⟩
  · simp [lastPushBack, singlePushBack, lastReader_ok hm hd hf ho hr (.inl ⟨hrep, rfl⟩),
      lastValues]
  · exact manyPushBack_ok hm hd hf ho hr hrep res
  · simp [lastPushBack, singlePushBack, lastReader_ok hm hd hf ho hr (.inr ⟨hrep, i, rfl⟩),
      lastValues]

theorem fieldSize_ok {F : Field → Prop} {m : Node} {d : Nat} {f : Field} (hm : Valid F m)
    (hd : HasDescriptor d m) (hf : F f) (ho : f.owner = d) (hrep : f.repeated = true) :
    fieldSize m f = some (lastSize f (some m)) := by
  obtain ⟨he, -, -⟩ := elements_ok hm hd hf ho
  simp [fieldSize, hrep, he, lastSize]

theorem verifyLoop_path (al : Bool) (f : Field) (a : Access) (steps : List (Field × Access)) :
    verifyLoop al (pathFields steps f) (pathInfos steps a) =
      (steps.all (fun s => checkAccessInfo s.1 s.2 al false) && checkAccessInfo f a al true) := by
  induction steps with
  | nil => simp [pathFields, pathInfos, verifyLoop]
  | cons s steps ih =>
    simp only [pathFields, pathInfos] at ih
    have hne : (List.map Prod.fst steps ++ [f]).isEmpty = false := by cases steps <;> rfl
    simp [pathFields, pathInfos, verifyLoop, ih, Bool.and_assoc, hne]

theorem verify_path (al : Bool) (f : Field) (a : Access) (steps : List (Field × Access)) :
    verifyFieldsAndAccessInfos (pathFields steps f) (pathInfos steps a) al =
      (steps.all (fun s => checkAccessInfo s.1 s.2 al false) && checkAccessInfo f a al true) := by
  rw [← verifyLoop_path]
  simp [verifyFieldsAndAccessInfos, pathFields, pathInfos]

theorem lastStep_path (f : Field) (a : Access) (steps : List (Field × Access)) :
    lastStep (pathFields steps f) (pathInfos steps a) = some (f, a) := by
  simp [lastStep, pathFields, pathInfos]

theorem intermediate_path (f : Field) (a : Access) (steps : List (Field × Access)) :
    intermediate (pathFields steps f) (pathInfos steps a) = steps := by
  simp [intermediate, pathFields, pathInfos]
  induction steps with
  | nil => rfl
  | cons s steps ih => simp [ih]

theorem check_false (f : Field) (a : Access) (last : Bool) :
    checkAccessInfo f a false last = true ↔ AccessOne f a := by
  cases hr : f.repeated <;> cases a <;> simp [checkAccessInfo, AccessOne, hr]

theorem check_inner (f : Field) (a : Access) :
    checkAccessInfo f a true false = true ↔ AccessOk f a := by
  cases hr : f.repeated <;> cases a <;> simp [checkAccessInfo, AccessOk, hr]

theorem check_last (f : Field) (a : Access) :
    checkAccessInfo f a true true = true ↔ AccessOk f a ∨ (f.repeated = true ∧ a = .size) := by
  cases hr : f.repeated <;> cases a <;> simp [checkAccessInfo, AccessOk, hr]

end Verif.Proto
