import Verif.Proto.PathModel
import Verif.Proto.ProtoProps

/-!
# Properties of protopaths (C156)
-/

namespace Verif.Proto

/-! ## Specification -/

/-- What is assumed about `absl::SimpleAtoi` into `size_t`: the decimal digits of a number are
parsed, and every result is in range. -/
structure AtoiOk (atoi : List Char → Option Nat) : Prop where
  digits : ∀ i < 2 ^ 64, atoi (Nat.toDigits 10 i) = some i
  range : ∀ l i, atoi l = some i → i < 2 ^ 64

/-- There are no brackets. -/
def NoBracket (l : List Char) : Prop := '[' ∉ l ∧ ']' ∉ l

/-- The elements of protopaths: a name, a name with an index, a name with `@size`. -/
inductive Element : List Char → List Char → Access → Prop
  | plain (name : List Char) : NoBracket name → ¬ atSize <:+ name → Element name name .regular
  | size (name : List Char) : NoBracket name → Element (name ++ atSize) name .size
  | index (name : List Char) (i : Nat) : NoBracket name → name ≠ [] → i < 2 ^ 64 →
      Element (name ++ ['['] ++ Nat.toDigits 10 i ++ [']']) name (.index i)

/-! ## Lemmas -/

theorem noBracket_iff (l : List Char) : l.any isBracket = false ↔ NoBracket l := by
  induction l with
  | nil => simp [NoBracket]
  | cons c l ih =>
    simp only [List.any_cons, Bool.or_eq_false_iff, ih]
    simp only [NoBracket, isBracket, List.mem_cons, not_or, Bool.or_eq_false_iff, beq_eq_false_iff_ne]
    constructor
    · rintro ⟨⟨h1, h2⟩, h3, h4⟩
      exact ⟨⟨fun h => h1 h.symm, h3⟩, ⟨fun h => h2 h.symm, h4⟩⟩
    · rintro ⟨⟨h1, h3⟩, ⟨h2, h4⟩⟩
      exact ⟨⟨fun h => h1 h.symm, fun h => h2 h.symm⟩, h3, h4⟩

theorem consumeSuffix_iff (suffix s rest : List Char) :
    consumeSuffix suffix s = some rest ↔ s = rest ++ suffix := by
  unfold consumeSuffix
  constructor
  · intro h
    split at h
    · rename_i hd
      cases h
      have := List.take_append_drop (s.length - suffix.length) s
      rw [hd] at this
      exact this.symm
    · cases h
  · rintro rfl
    simp

theorem consumeSuffix_none (suffix s : List Char) :
    consumeSuffix suffix s = none ↔ ¬ suffix <:+ s := by
  constructor
  · rintro h ⟨rest, hr⟩
    rw [(consumeSuffix_iff suffix s rest).2 hr.symm] at h
    cases h
  · intro h
    cases hc : consumeSuffix suffix s with
    | none => rfl
    | some rest => exact absurd ⟨rest, ((consumeSuffix_iff _ _ _).1 hc).symm⟩ h

theorem splitBy_none (p : Char → Bool) (l : List Char) (h : l.any p = false) :
    splitBy p l = [l] := by
  induction l with
  | nil => rfl
  | cons c l ih =>
    simp only [List.any_cons, Bool.or_eq_false_iff] at h
    simp [splitBy, h.1, ih h.2]

theorem splitBy_cons (p : Char → Bool) (a b : List Char) (c : Char) (ha : a.any p = false)
    (hc : p c = true) : splitBy p (a ++ c :: b) = a :: splitBy p b := by
  induction a with
  | nil => simp [splitBy, hc]
  | cons x a ih =>
    simp only [List.any_cons, Bool.or_eq_false_iff] at ha
    simp [splitBy, ha.1, ih ha.2]

theorem splitBy_ne_nil (p : Char → Bool) (l : List Char) : splitBy p l ≠ [] := by
  cases l with
  | nil => simp [splitBy]
  | cons c l =>
    simp only [splitBy]
    split
    · simp
    · split <;> simp

theorem splitBy_pieces (p : Char → Bool) (l : List Char) :
    ∀ w ∈ splitBy p l, w.any p = false := by
  induction l with
  | nil => simp [splitBy]
  | cons c l ih =>
    simp only [splitBy]
    split
    · intro w hw
      rcases List.mem_cons.1 hw with rfl | hw
      · rfl
      · exact ih w hw
    · rename_i hc
      cases hs : splitBy p l with
      | nil => exact absurd hs (splitBy_ne_nil p l)
      | cons v vs =>
        rw [hs] at ih
        intro w hw
        rcases List.mem_cons.1 hw with rfl | hw
        · simp [hc, ih v (by simp)]
        · exact ih w (by simp [hw])

theorem digits_noBracket (i : Nat) : (Nat.toDigits 10 i).any isBracket = false := by
  rw [List.any_eq_false]
  intro c hc
  have := Nat.isDigit_of_mem_toDigits (by decide) (by decide) hc
  simp only [Char.isDigit, isBracket] at *
  rintro h
  simp only [Bool.or_eq_true, beq_iff_eq] at h
  rcases h with rfl | rfl <;> revert this <;> decide

theorem digits_ne_nil (i : Nat) : Nat.toDigits 10 i ≠ [] := Nat.toDigits_ne_nil

theorem parseIndexed_iff {atoi : List Char → Option Nat} (h : AtoiOk atoi) (e name : List Char)
    (a : Access) :
    parseIndexed atoi e = some (name, a) ↔
      ∃ i < 2 ^ 64, a = .index i ∧ e = formatIndex name i ∧ NoBracket name ∧ name ≠ [] := by
  constructor
  · intro hp
    unfold parseIndexed at hp
    split at hp
    · rename_i name' num hf
      cases ha : atoi num with
      | none => rw [ha] at hp; cases hp
      | some idx =>
        rw [ha] at hp
        simp only at hp
        split at hp
        · rename_i hfmt
          cases hp
          have hmem : name ∈ (splitBy isBracket e).filter (fun w => !w.isEmpty) := by
            rw [hf]; simp
          rw [List.mem_filter] at hmem
          exact ⟨idx, h.range _ _ ha, rfl, hfmt.symm,
            (noBracket_iff _).1 (splitBy_pieces _ _ _ hmem.1), by simpa using hmem.2⟩
        · cases hp
    · cases hp
  · rintro ⟨i, hi, rfl, rfl, hn, hne⟩
    have hs : (splitBy isBracket (formatIndex name i)).filter (fun w => !w.isEmpty) =
        [name, Nat.toDigits 10 i] := by
      rw [formatIndex, splitBy_cons _ _ _ _ ((noBracket_iff _).2 hn) (by decide),
        splitBy_cons _ _ [] _ (digits_noBracket i) (by decide)]
      have := digits_ne_nil i
      simp [splitBy, hne, this]
    unfold parseIndexed
    rw [hs]
    simp [h.digits i hi]

/-! ## C156 -/

/-- `ParseProtopathElement` accepts exactly the elements of the three forms, with the name, and the
index in canonical decimal notation. -/
theorem parse_element {atoi : List Char → Option Nat} (h : AtoiOk atoi) (e name : List Char)
    (a : Access) : parseProtopathElement atoi e = some (name, a) ↔ Element e name a := by
  have hidx : ∀ i, formatIndex name i = name ++ ['['] ++ Nat.toDigits 10 i ++ [']'] := by
    intro i; simp [formatIndex]
  have hnosuf : ∀ i, ¬ atSize <:+ name ++ ['['] ++ Nat.toDigits 10 i ++ [']'] := by
    rintro i ⟨t, ht⟩
    have e1 : (t ++ atSize).getLast? = some 'e' := by simp [atSize, List.getLast?_append]
    have e2 : (name ++ ['['] ++ Nat.toDigits 10 i ++ [']']).getLast? = some ']' :=
      List.getLast?_concat
    rw [ht, e2] at e1
    revert e1
    decide
  unfold parseProtopathElement
  constructor
  · intro hp
    cases hc : consumeSuffix atSize e with
    | some rest =>
      rw [hc] at hp
      simp only at hp
      split at hp
      · cases hp
      · rename_i hb
        cases hp
        rw [(consumeSuffix_iff _ _ _).1 hc]
        exact .size _ ((noBracket_iff _).1 (by simpa using hb))
    | none =>
      rw [hc] at hp
      simp only at hp
      split at hp
      · obtain ⟨i, hi, rfl, rfl, hn, hne⟩ := (parseIndexed_iff h e name a).1 hp
        rw [hidx]
        exact .index _ _ hn hne hi
      · rename_i hb
        cases hp
        exact .plain _ ((noBracket_iff _).1 (by simpa using hb)) ((consumeSuffix_none _ _).1 hc)
  · rintro (⟨_, hn, hs⟩ | ⟨_, hn⟩ | ⟨_, i, hn, hne, hi⟩)
    · rw [(consumeSuffix_none _ _).2 hs]
      simp [(noBracket_iff _).2 hn]
    · rw [(consumeSuffix_iff _ _ _).2 rfl]
      simp [(noBracket_iff _).2 hn]
    · rw [(consumeSuffix_none _ _).2 (hnosuf i)]
      have hany : (name ++ ['['] ++ Nat.toDigits 10 i ++ [']']).any isBracket = true := by
        simp [isBracket]
      simp only [hany, if_true]
      rw [← hidx]
      exact (parseIndexed_iff h _ _ _).2 ⟨i, hi, rfl, rfl, hn, hne⟩

/-- What the loop resolves is a path of fields: every field is found by its name in the message type
of the field before it, and only messages have further fields. -/
theorem resolve_path {find : Nat → List Char → Option Field} {atoi : List Char → Option Nat}
    (hfind : ∀ d n f, find d n = some f → f.owner = d) (descr : Nat) (es : List (List Char)) :
    ∀ (previous : Option Field) (fields : List Field) (infos : List Access),
    es ≠ [] → resolve find atoi descr previous es = some (fields, infos) →
    ∃ d steps f a, currentDescr previous descr = some d ∧
      fields = pathFields steps f ∧ infos = pathInfos steps a ∧
      PathOk (fun f => ∃ n, find f.owner n = some f) d steps f ∧
      ∀ x ∈ (f, a) :: steps, x.1.type ≠ .enum ∧ x.1.extension = false ∧
        (x.1.repeated = true → x.2 ≠ .regular) := by
  induction es with
  | nil => intro _ _ _ h; exact absurd rfl h
  | cons e es ih =>
    intro previous fields infos _ hr
    simp only [resolve] at hr
    cases hpe : parseProtopathElement atoi e with
    | none => rw [hpe] at hr; cases hr
    | some na =>
      obtain ⟨name, access⟩ := na
      rw [hpe] at hr
      simp only [Option.bind_some] at hr
      cases hd : currentDescr previous descr with
      | none => rw [hd] at hr; cases hr
      | some d =>
        rw [hd] at hr
        simp only [Option.bind_some] at hr
        cases hf : find d name with
        | none => rw [hf] at hr; cases hr
        | some f =>
          rw [hf] at hr
          simp only [Option.bind_some] at hr
          have ho := hfind _ _ _ hf
          have hacc : f.repeated = true → adjustAccess f access ≠ .regular := by
            intro h
            unfold adjustAccess
            by_cases ha : access = .regular <;> simp [h, ha]
          split at hr
          · cases hr
          · rename_i hok
            simp only [not_or, Bool.not_eq_true] at hok
            cases hrest : resolve find atoi descr (some f) es with
            | none => rw [hrest] at hr; cases hr
            | some p =>
              obtain ⟨fs, as⟩ := p
              rw [hrest] at hr
              simp only [Option.map_some, Option.some.injEq, Prod.mk.injEq] at hr
              obtain ⟨rfl, rfl⟩ := hr
              by_cases hes : es = []
              · subst hes
                simp only [resolve, Option.some.injEq, Prod.mk.injEq] at hrest
                obtain ⟨rfl, rfl⟩ := hrest
                refine ⟨d, [], f, adjustAccess f access, rfl, rfl, rfl,
                  ⟨⟨name, by rw [ho]; exact hf⟩, ho⟩, ?_⟩
                intro x hx
                obtain rfl := List.mem_singleton.1 hx
                exact ⟨hok.1, hok.2, hacc⟩
              · obtain ⟨d', steps, g, a, hd', rfl, rfl, hp, hall⟩ := ih (some f) fs as hes hrest
                simp only [currentDescr] at hd'
                split at hd'
                · rename_i hmsg
                  cases hd'
                  refine ⟨d, (f, adjustAccess f access) :: steps, g, a, rfl, rfl, rfl,
                    ⟨⟨name, by rw [ho]; exact hf⟩, ho, hmsg, hp⟩, ?_⟩
                  intro x hx
                  simp only [List.mem_cons] at hx
                  rcases hx with rfl | rfl | hx
                  · exact hall _ (by simp)
                  · exact ⟨hok.1, hok.2, hacc⟩
                  · exact hall _ (by simp [hx])
                · cases hd'

theorem mergeSize_ne_nil (l : List (List Char)) (h : l ≠ []) : mergeSize l ≠ [] := by
  unfold mergeSize
  split
  · simp
  · exact h

/-- Every path that the loader accepts is a path of fields of its message type. The reader has an
optional type if no repeated field is read completely and no size is read, the type of shapes if
only a size is read, and a type of arrays otherwise. -/
theorem loader_path {find : Nat → List Char → Option Field} {atoi : List Char → Option Nat}
    (hfind : ∀ d n f, find d n = some f → f.owner = d) (descr : Nat) (path : List Char)
    (s : StringFieldType) (r : Reader)
    (h : parseProtopathToReader find atoi descr path s = some r) :
    ∃ steps f a, PathOk (fun f => ∃ n, find f.owner n = some f) descr steps f ∧
      (∀ x ∈ steps, AccessOk x.1 x.2) ∧ f.type ≠ .enum ∧
      (((∀ x ∈ steps, AccessOne x.1 x.2) ∧ AccessOne f a ∧
          (∃ t, resType f.type s = some t ∧ r.qtype = .optional t) ∧
          createOptionalReader (pathFields steps f) (pathInfos steps a) s = some r) ∨
       ((∀ x ∈ steps, AccessOne x.1 x.2) ∧ a = .size ∧ f.repeated = true ∧ r.qtype = .shape ∧
          createDenseArrayShapeReader (pathFields steps f) (pathInfos steps a) = some r) ∨
       ((.repeated ∈ pathInfos steps a) ∧
          ((a = .size ∧ f.repeated = true ∧ r.qtype = .sizeArray) ∨
           (AccessOk f a ∧ ∃ t, resType f.type s = some t ∧ r.qtype = .denseArray t)) ∧
          createDenseArrayReader (pathFields steps f) (pathInfos steps a) s = some r)) := by
  unfold parseProtopathToReader at h
  cases hpe : pathElements path with
  | none => rw [hpe] at h; cases h
  | some es =>
    rw [hpe] at h
    simp only [Option.bind_some] at h
    have hes : es ≠ [] := by
      unfold pathElements at hpe
      split at hpe
      · cases hpe; exact mergeSize_ne_nil _ (splitBy_ne_nil _ _)
      · cases hpe
    cases hres : resolve find atoi descr none es with
    | none => rw [hres] at h; cases h
    | some p =>
      obtain ⟨fields, infos⟩ := p
      rw [hres] at h
      obtain ⟨d, steps, f, a, hd, rfl, rfl, hp, hall⟩ :=
        resolve_path hfind descr es none fields infos hes hres
      cases hd
      have hlast : (pathFields steps f).getLast? = some f := by simp [pathFields]
      have hlast' : (pathInfos steps a).getLast? = some a := by simp [pathInfos]
      simp only [Option.bind_some, hlast, hlast'] at h
      split at h
      · cases h
      rename_i hmsg
      refine ⟨steps, f, a, hp, ?_⟩
      have hone : ∀ g b, AccessOne g b → AccessOk g b := by
        rintro g b (h | ⟨h, i, h'⟩)
        · exact .inl h
        · exact .inr ⟨h, .inr ⟨i, h'⟩⟩
      have henum : f.type ≠ .enum := (hall (f, a) (by simp)).1
      unfold createReaderWithStringType at h
      split at h
      · rename_i hrep
        obtain ⟨hst, hl⟩ := (array_created steps f a s).2.1 (by rw [h]; rfl)
        refine ⟨hst, henum, .inr (.inr ⟨hrep, ?_, h⟩)⟩
        rcases (array_created steps f a s).1 r h with ⟨ha, hq⟩ | ⟨ha, t, ht, hq⟩
        · left
          subst ha
          rcases hl with ⟨⟨-, h⟩ | ⟨-, h | ⟨i, h⟩⟩, -⟩ | h
          · cases h
          · cases h
          · cases h
          · exact ⟨rfl, h.1, hq⟩
        · right
          rcases hl with hl | hl
          · exact ⟨hl.1, t, ht, hq⟩
          · exact absurd hl.2 ha
      · rename_i hrep
        have hnr : ∀ x ∈ steps, x.2 ≠ .repeated := by
          intro x hx h0
          exact hrep (by simp only [pathInfos, List.mem_append, List.mem_map]
                         exact .inl ⟨x, hx, h0⟩)
        rw [hlast'] at h
        split at h
        · rename_i hsz
          obtain rfl : a = .size := by simpa using hsz
          have hver : verifyFieldsAndAccessInfos (pathFields steps f) (pathInfos steps .size) true
              = true := by
            have := h
            unfold createDenseArrayShapeReader at this
            split at this
            · assumption
            · cases this
          rw [verify_path] at hver
          simp only [Bool.and_eq_true, List.all_eq_true, check_inner, check_last] at hver
          have hst : ∀ x ∈ steps, AccessOne x.1 x.2 := by
            intro x hx
            rcases hver.1 x hx with h | ⟨h, h' | h'⟩
            · exact .inl h
            · exact absurd h' (hnr x hx)
            · exact .inr ⟨h, h'⟩
          have hrep' : f.repeated = true := by
            rcases hver.2 with (⟨-, h⟩ | ⟨-, h | ⟨i, h⟩⟩) | h
            · cases h
            · cases h
            · cases h
            · exact h.1
          refine ⟨hver.1, henum, .inr (.inl ⟨hst, rfl, hrep', ?_, h⟩)⟩
          unfold createDenseArrayShapeReader at h
          rw [lastStep_path, intermediate_path] at h
          split at h
          · simp only [Option.bind_some, shapeSizeAccessor, if_true] at h
            cases h
            rfl
          · cases h
        · obtain ⟨hst, ha, -⟩ := (optional_created steps f a s).2.1 (by rw [h]; rfl)
          exact ⟨fun x hx => hone _ _ (hst x hx), henum,
            .inl ⟨hst, ha, (optional_created steps f a s).1 r h, h⟩⟩

/-! ### Every path can be written -/

/-- An element as it is written. -/
def renderElement (name : List Char) : Access → List Char
  | .regular | .repeated => name
  | .index i => name ++ ['['] ++ Nat.toDigits 10 i ++ [']']
  | .size => name ++ atSize

/-- A path as it is written. -/
def render (segs : List (List Char × Field × Access)) : List Char :=
  segs.flatMap fun x => '/' :: renderElement x.1 x.2.2

/-- A name of a field, without the special characters. -/
def NameOk (name : List Char) : Prop := name ≠ [] ∧ NoBracket name ∧ '/' ∉ name ∧ '@' ∉ name

/-- The names lead to the fields, starting from the message type `d`. -/
def Named (find : Nat → List Char → Option Field) : Nat → List (List Char × Field × Access) → Prop
  | _, [] => True
  | d, (n, f, _) :: segs => find d n = some f ∧ f.type ≠ .enum ∧ f.extension = false ∧
    (segs ≠ [] → f.type.cppType = .message) ∧ Named find f.messageType segs

/-- The access can be written: all elements are read exactly if the field is repeated and there is
neither an index nor `@size`. -/
def Writable (f : Field) (a : Access) : Prop :=
  (a = .regular → f.repeated = false) ∧ (a = .repeated → f.repeated = true) ∧
  (∀ i, a = .index i → i < 2 ^ 64)

theorem parse_rendered {atoi : List Char → Option Nat} (h : AtoiOk atoi) (name : List Char)
    (f : Field) (a : Access) (hn : NameOk name) (hw : Writable f a) :
    ∃ b, parseProtopathElement atoi (renderElement name a) = some (name, b) ∧
      adjustAccess f b = a := by
  have hsuf : ¬ atSize <:+ name := by
    intro hs
    exact hn.2.2.2 (hs.subset (by simp [atSize]))
  cases a with
  | regular =>
    refine ⟨.regular, (parse_element h _ _ _).2 (.plain _ hn.2.1 hsuf), ?_⟩
    simp [adjustAccess, hw.1 rfl]
  | repeated =>
    refine ⟨.regular, (parse_element h _ _ _).2 (.plain _ hn.2.1 hsuf), ?_⟩
    simp [adjustAccess, hw.2.1 rfl]
  | index i =>
    refine ⟨.index i, (parse_element h _ _ _).2 (.index _ _ hn.2.1 hn.1 (hw.2.2 i rfl)), ?_⟩
    simp [adjustAccess]
  | size =>
    refine ⟨.size, (parse_element h _ _ _).2 (.size _ hn.2.1), ?_⟩
    simp [adjustAccess]

theorem resolve_rendered {find : Nat → List Char → Option Field} {atoi : List Char → Option Nat}
    (h : AtoiOk atoi) (descr : Nat) (segs : List (List Char × Field × Access)) :
    ∀ (previous : Option Field) (d : Nat),
    (segs ≠ [] → currentDescr previous descr = some d) → Named find d segs →
    (∀ x ∈ segs, NameOk x.1 ∧ Writable x.2.1 x.2.2) →
    resolve find atoi descr previous (segs.map fun x => renderElement x.1 x.2.2) =
      some (segs.map fun x => x.2.1, segs.map fun x => x.2.2) := by
  induction segs with
  | nil => intro _ _ _ _ _; rfl
  | cons x segs ih =>
    obtain ⟨n, f, a⟩ := x
    intro previous d hd hnm hall
    obtain ⟨hf, hen, hext, hmsg, hrest⟩ := hnm
    obtain ⟨hn, hw⟩ := hall (n, f, a) (by simp)
    obtain ⟨b, hb, hadj⟩ := parse_rendered h n f a hn hw
    have hih := ih (some f) f.messageType (fun hne => by simp [currentDescr, hmsg hne]) hrest
      fun x hx => hall x (by simp [hx])
    simp only [List.map_cons, resolve, hb, Option.bind_some, hd (by simp), hf, hen, hext, hih,
      Option.map_some, hadj]
    simp

theorem digits_noSlash (i : Nat) : '/' ∉ Nat.toDigits 10 i := by
  intro hc
  have := Nat.isDigit_of_mem_toDigits (by decide) (by decide) hc
  revert this
  decide

theorem rendered_noSlash (name : List Char) (a : Access) (hn : NameOk name) :
    (renderElement name a).any (· == '/') = false := by
  have h1 := hn.2.2.1
  rw [List.any_eq_false]
  intro c hc heq
  have heq : c = '/' := by simpa using heq
  subst heq
  have h2 : '/' ∉ atSize := by decide
  cases a with
  | regular => exact h1 hc
  | repeated => exact h1 hc
  | index i =>
    simp only [renderElement, List.mem_append, List.mem_singleton] at hc
    rcases hc with ((hc | hc) | hc) | hc
    · exact h1 hc
    · revert hc; decide
    · exact digits_noSlash i hc
    · revert hc; decide
  | size =>
    simp only [renderElement, List.mem_append] at hc
    rcases hc with hc | hc
    · exact h1 hc
    · exact h2 hc

theorem split_rendered (segs : List (List Char × Field × Access)) :
    ∀ x : List Char × Field × Access, (∀ y ∈ x :: segs, NameOk y.1) →
    splitBy (· == '/') (renderElement x.1 x.2.2 ++ render segs) =
      (x :: segs).map fun y => renderElement y.1 y.2.2 := by
  induction segs with
  | nil =>
    intro x hx
    simp [render, splitBy_none _ _ (rendered_noSlash x.1 x.2.2 (hx x (by simp)))]
  | cons y segs ih =>
    intro x hx
    have := ih y fun z hz => hx z (by simp at hz ⊢; exact .inr hz)
    have hr : render (y :: segs) = '/' :: (renderElement y.1 y.2.2 ++ render segs) := by
      simp [render]
    rw [hr, splitBy_cons _ _ _ _ (rendered_noSlash x.1 x.2.2 (hx x (by simp))) (by rfl), this]
    rfl

theorem rendered_ne_size (name : List Char) (a : Access) (hn : NameOk name) :
    renderElement name a ≠ atSize := by
  intro h
  cases hname : name with
  | nil => exact hn.1 hname
  | cons c cs =>
    have hc : c = '@' := by
      cases a <;> simp [renderElement, atSize, hname] at h <;> exact h.1
    exact hn.2.2.2 (by rw [hname, hc]; simp)

/-- Every path of fields can be written so that the loader resolves it to exactly these fields and
accesses. -/
theorem render_parse {find : Nat → List Char → Option Field} {atoi : List Char → Option Nat}
    (h : AtoiOk atoi) (descr : Nat) (segs : List (List Char × Field × Access)) (hne : segs ≠ [])
    (hnm : Named find descr segs) (hall : ∀ x ∈ segs, NameOk x.1 ∧ Writable x.2.1 x.2.2) :
    ∃ es, pathElements (render segs) = some es ∧
      resolve find atoi descr none es =
        some (segs.map fun x => x.2.1, segs.map fun x => x.2.2) := by
  cases segs with
  | nil => exact absurd rfl hne
  | cons x segs =>
    have hr : render (x :: segs) = '/' :: (renderElement x.1 x.2.2 ++ render segs) := by
      simp [render]
    have hsplit := split_rendered segs x fun y hy => (hall y hy).1
    have hlast : ((x :: segs).map fun y => renderElement y.1 y.2.2).getLast? ≠ some atSize := by
      intro hc
      have := List.mem_of_getLast? hc
      obtain ⟨y, hy, heq⟩ := List.mem_map.1 this
      exact rendered_ne_size y.1 y.2.2 (hall y hy).1 heq
    have hres : resolve find atoi descr none
        ((x :: segs).map fun y => renderElement y.1 y.2.2) = _ :=
      resolve_rendered (find := find) h descr (x :: segs) none descr (fun _ => rfl) hnm hall
    have hpe : pathElements (render (x :: segs)) =
        some ((x :: segs).map fun y => renderElement y.1 y.2.2) := by
      rw [hr]
      simp only [pathElements, hsplit, mergeSize]
      rw [if_neg (fun hc => hlast hc.1)]
    exact ⟨_, hpe, hres⟩

theorem splitBy_append (p : Char → Bool) (l t : List Char) (ht : t.any p = false) :
    splitBy p (l ++ t) = (splitBy p l).dropLast ++ [((splitBy p l).getLast?.getD []) ++ t] := by
  induction l with
  | nil => simp [splitBy, splitBy_none p t ht]
  | cons c l ih =>
    simp only [List.cons_append, splitBy]
    split
    · rw [ih]
      cases hs : splitBy p l with
      | nil => exact absurd hs (splitBy_ne_nil p l)
      | cons w ws => simp
    · rw [ih]
      cases hs : splitBy p l with
      | nil => exact absurd hs (splitBy_ne_nil p l)
      | cons w ws =>
        cases ws with
        | nil => simp
        | cons w' ws => simp

theorem splitBy_slash_append (p : Char → Bool) (c : Char) (l t : List Char) (hc : p c = true)
    (ht : t.any p = false) : splitBy p (l ++ c :: t) = splitBy p l ++ [t] := by
  induction l with
  | nil => simp [splitBy, hc, splitBy_none p t ht]
  | cons x l ih =>
    simp only [List.cons_append, splitBy]
    split
    · rw [ih]; rfl
    · rw [ih]
      cases hs : splitBy p l with
      | nil => exact absurd hs (splitBy_ne_nil p l)
      | cons w ws => rfl

/-- `/@size` after a path and `@size` after its last name mean the same. -/
theorem size_forms (path : List Char) (h : path.getLast? ≠ some '/') (hp : path ≠ []) :
    pathElements (path ++ '/' :: atSize) = pathElements (path ++ atSize) := by
  cases path with
  | nil => exact absurd rfl hp
  | cons c q =>
    by_cases hc : c = '/'
    · subst hc
      have hat : atSize.any (· == '/') = false := by decide
      simp only [List.cons_append, pathElements]
      rw [splitBy_slash_append _ _ _ _ (by rfl) hat, splitBy_append _ _ _ hat]
      have hne := splitBy_ne_nil (· == '/') q
      have hlast : (splitBy (· == '/') q).getLast?.getD [] ≠ [] ∨ q = [] := by
        by_cases hq : q = []
        · exact .inr hq
        left
        obtain ⟨q', z, rfl⟩ : ∃ q' z, q = q' ++ [z] :=
          ⟨q.dropLast, q.getLast hq, (List.dropLast_concat_getLast hq).symm⟩
        have hz : (z == '/') = false := by
          rw [beq_eq_false_iff_ne]
          rintro rfl
          apply h
          rw [← List.cons_append]
          exact List.getLast?_concat
        rw [splitBy_append (· == '/') q' [z] (by simp [hz])]
        simp
      congr 1
      rcases hlast with hlast | rfl
      · have h1 : mergeSize (splitBy (· == '/') q ++ [atSize]) =
            (splitBy (· == '/') q).dropLast ++
              [((splitBy (· == '/') q).getLast?.getD []) ++ atSize] := by
          unfold mergeSize
          rw [if_pos]
          · simp
          · refine ⟨by simp, ?_⟩
            have := List.length_pos_iff.2 hne
            simp only [List.length_append, List.length_singleton]
            omega
        rw [h1]
        unfold mergeSize
        rw [if_neg]
        rintro ⟨hl, -⟩
        simp only [List.getLast?_append, List.getLast?_singleton, Option.some_or,
          Option.some.injEq] at hl
        exact hlast (by simpa using hl)
      · exact absurd rfl h
    · cases q with
      | nil => simp [pathElements, hc]
      | cons _ _ => simp [pathElements, hc]

/-! ### Examples -/

/-- The names of the fields of the example. -/
def findExample (d : Nat) (name : List Char) : Option Field :=
  if d = 0 then
    if name = ['c', 's'] then some children
    else if name = ['x'] then some xField
    else if name = ['n'] then some nextField
    else none
  else none

/-- A parser of digits; it accepts superfluous leading zeros. -/
def atoiExample (l : List Char) : Option Nat :=
  if l.all Char.isDigit ∧ l ≠ [] then
    (fun n => if n < 2 ^ 64 then some n else none) (l.foldl (fun n c => 10 * n + (c.toNat - 48)) 0)
  else none

example : parseProtopathElement atoiExample ['c', 's', '[', '1', '2', ']'] =
    some (['c', 's'], .index 12) := by decide +kernel

/-- A superfluous zero is rejected. -/
example : parseProtopathElement atoiExample ['c', 's', '[', '0', '1', ']'] = none := by
  decide +kernel

example : Named findExample 0
      [(['c', 's'], children, .index 1), (['n'], nextField, .regular), (['c', 's'], children, .size)] ∧
    (∀ x ∈ [(['c', 's'], children, Access.index 1), (['n'], nextField, .regular),
      (['c', 's'], children, .size)], NameOk x.1 ∧ Writable x.2.1 x.2.2) ∧
    render [(['c', 's'], children, .index 1), (['n'], nextField, .regular),
      (['c', 's'], children, .size)] = "/cs[1]/n/cs@size".toList := by
  refine ⟨by simp [Named, findExample, children, nextField, FType.cppType], ?_, by decide +kernel⟩
  simp [NameOk, Writable, NoBracket, children, nextField]

/-- The loader's reader for the values of the children. -/
example : ∃ r, parseProtopathToReader findExample atoiExample 0 "/cs/x".toList .text = some r ∧
    r.qtype = .denseArray .int32 ∧
    r.read sample 3 = .done (.array [some (.int 1), none]) :=
  ⟨_, rfl, rfl, rfl⟩

end Verif.Proto
