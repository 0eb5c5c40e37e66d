import Verif.Serial.SerialSpec

/-!
# Without hints, the decoder is the reference interpreter
-/

namespace Verif.Serial
open Verif.Expr
variable {V A X E : Type}

theorem bind_ok {ε α β : Type} {x : Except ε α} {f : α → Except ε β} {b : β} :
    (x >>= f) = .ok b ↔ ∃ a, x = .ok a ∧ f a = .ok b := by
  cases x with
  | error e => simp [bind, Except.bind]
  | ok a => simp [bind, Except.bind]

theorem bind_error {ε α β : Type} {x : Except ε α} {f : α → Except ε β} {e : ε} :
    (x >>= f) = .error e ↔ x = .error e ∨ ∃ a, x = .ok a ∧ f a = .error e := by
  cases x with
  | error e => simp [bind, Except.bind]
  | ok a => simp [bind, Except.bind]

/-- The store of a decoder, without the usage counts. -/
def toStore (d : Dec V A X E) : Store V A X E :=
  ⟨d.cells.map (fun c => (c.voe, c.codec)), d.codecs, d.values, d.exprs⟩

/-- A computation of the decoder computes what the interpreter reads, and only changes usage counts. -/
def Reads {T : Type} (d : Dec V A X E) (x : Except (Err E) (Dec V A X E × T)) (y : Option T) : Prop :=
  match x, y with
  | .ok (d', t), some t' => t = t' ∧ toStore d' = toStore d ∧ d'.expected = []
  | .error _, none => True
  | _, _ => False

/-- A computation of the decoder makes the same step as the interpreter. -/
def Steps (x : Except (Err E) (Dec V A X E)) (y : Option (Store V A X E)) : Prop :=
  match x, y with
  | .ok d', some s => toStore d' = s ∧ d'.expected = []
  | .error _, none => True
  | _, _ => False

theorem check_nil {d : Dec V A X E} (h : d.expected = []) (i : Nat) : check d i = .ok d := by
  unfold check; rw [h]; rfl

theorem cells_get {d : Dec V A X E} (i : Nat) :
    (toStore d).cells[i]? = (d.cells[i]?).map (fun c => (c.voe, c.codec)) := by
  simp [toStore]

theorem map_set_same {α β : Type} (f : α → β) (l : List α) (i : Nat) (x y : α) (h : l[i]? = some x) (hf : f y = f x) :
    (l.set i y).map f = l.map f := by
  apply List.ext_getElem?
  intro j
  rw [List.getElem?_map, List.getElem?_map, List.getElem?_set]
  by_cases hj : i = j
  · subst hj
    have : i < l.length := by
      rcases List.getElem?_eq_some_iff.1 h with ⟨hlt, _⟩; exact hlt
    rcases List.getElem?_eq_some_iff.1 h with ⟨_, hx⟩
    simp [this, hf, hx]
  · simp [hj]

theorem load_reads {d : Dec V A X E} (h : d.expected = []) (i : Nat) :
    match load d i with
    | .ok (d', r) => ∃ c, d.cells[i]? = some c ∧ r = c.voe ∧ toStore d' = toStore d ∧ d'.expected = []
    | .error _ => d.cells[i]? = none := by
  unfold load
  cases hc : d.cells[i]? with
  | none => simp
  | some c =>
    dsimp only
    rw [check_nil (by exact h)]
    refine ⟨c, rfl, rfl, ?_, h⟩
    unfold toStore
    dsimp only
    rw [map_set_same _ _ _ _ { c with usage := c.usage + 1 } hc rfl]

theorem loadValue_reads {d : Dec V A X E} (h : d.expected = []) (i : Nat) : Reads d (loadValue d i) ((toStore d).value? i) := by
  have hl := load_reads h i
  unfold loadValue Store.value?
  rw [cells_get]
  cases hx : load d i with
  | error e =>
    rw [hx] at hl
    dsimp only at hl
    simp [hl, Reads, bind, Except.bind]
  | ok p =>
    obtain ⟨d', r⟩ := p
    rw [hx] at hl
    obtain ⟨c, hc, hr, hs, he⟩ := hl
    rw [hc]
    subst hr
    rcases hv : c.voe with _ | (v | e) <;> simp [Reads, bind, Except.bind, hv, hs, he]

theorem loadExpr_reads {d : Dec V A X E} (h : d.expected = []) (i : Nat) : Reads d (loadExpr d i) ((toStore d).expr? i) := by
  have hl := load_reads h i
  unfold loadExpr Store.expr?
  rw [cells_get]
  cases hx : load d i with
  | error e =>
    rw [hx] at hl
    dsimp only at hl
    simp [hl, Reads, bind, Except.bind]
  | ok p =>
    obtain ⟨d', r⟩ := p
    rw [hx] at hl
    obtain ⟨c, hc, hr, hs, he⟩ := hl
    rw [hc]
    subst hr
    rcases hv : c.voe with _ | (v | e) <;> simp [Reads, bind, Except.bind, hv, hs, he]

/-- What `Reads` says of a success and of a failure. -/
theorem Reads.cases {T : Type} {d : Dec V A X E} {x : Except (Err E) (Dec V A X E × T)} {y : Option T} (h : Reads d x y) :
    (∃ d' t, x = .ok (d', t) ∧ y = some t ∧ toStore d' = toStore d ∧ d'.expected = []) ∨
    (∃ e, x = .error e) ∧ y = none := by
  unfold Reads at h
  split at h
  · left; exact ⟨_, _, rfl, by rw [h.1], h.2.1, h.2.2⟩
  · right; exact ⟨⟨_, rfl⟩, rfl⟩
  · exact h.elim

theorem loadValues_reads : ∀ (is : List Nat) {d : Dec V A X E}, d.expected = [] →
    Reads d (loadValues d is) (is.mapM (toStore d).value?) := by
  intro is
  induction is with
  | nil => intro d h; simp [loadValues, Reads, h]
  | cons i is ih =>
    intro d h
    unfold loadValues
    rw [List.mapM_cons]
    rcases (loadValue_reads h i).cases with ⟨d', t, hx, hy, hs, he⟩ | ⟨⟨e, hx⟩, hy⟩
    · rw [hx, hy]
      have := ih he
      rw [hs] at this
      rcases this.cases with ⟨d'', ts, hx', hy', hs', he'⟩ | ⟨⟨e, hx'⟩, hy'⟩
      · simp [bind, Except.bind, hx', hy', Reads, hs', hs, he']
      · simp [bind, Except.bind, hx', hy', Reads]
    · simp [hx, hy, bind, Except.bind, Reads]

theorem loadExprs_reads : ∀ (is : List Nat) {d : Dec V A X E}, d.expected = [] →
    Reads d (loadExprs d is) (is.mapM (toStore d).expr?) := by
  intro is
  induction is with
  | nil => intro d h; simp [loadExprs, Reads, h]
  | cons i is ih =>
    intro d h
    unfold loadExprs
    rw [List.mapM_cons]
    rcases (loadExpr_reads h i).cases with ⟨d', t, hx, hy, hs, he⟩ | ⟨⟨e, hx⟩, hy⟩
    · rw [hx, hy]
      have := ih he
      rw [hs] at this
      rcases this.cases with ⟨d'', ts, hx', hy', hs', he'⟩ | ⟨⟨e, hx'⟩, hy'⟩
      · simp [bind, Except.bind, hx', hy', Reads, hs', hs, he']
      · simp [bind, Except.bind, hx', hy', Reads]
    · simp [hx, hy, bind, Except.bind, Reads]

/-- All usage counts of empty cells are zero. -/
def Unused (d : Dec V A X E) : Prop := ∀ c ∈ d.cells, c.voe = none → c.usage = 0

theorem map_set {α β : Type} (f : α → β) (l : List α) (i : Nat) (y : α) : (l.set i y).map f = (l.map f).set i (f y) := by
  simp

theorem store_steps {d : Dec V A X E} (h : d.expected = []) (hu : Unused d) (i : Nat) (x : VoE V A) :
    Steps (store d i x) ((toStore d).write i x) := by
  unfold store Store.write
  rw [cells_get]
  cases hc : d.cells[i]? with
  | none => simp [Steps]
  | some c =>
    dsimp only [Option.map_some]
    rcases hv : c.voe with _ | y
    · have := hu c (List.mem_of_getElem? hc) hv
      rw [if_neg (by simp [this])]
      rw [check_nil (by exact h)]
      refine ⟨?_, h⟩
      simp [toStore]
    · simp [Steps]

theorem storeCodec_steps {d : Dec V A X E} (h : d.expected = []) (i : Nat) (c : Codec V A X E) :
    Steps (storeCodec d i c) ((toStore d).writeCodec i c) := by
  unfold storeCodec Store.writeCodec
  rw [cells_get]
  cases hc : d.cells[i]? with
  | none => simp [Steps]
  | some c' =>
    dsimp only [Option.map_some]
    rcases hv : c'.codec with _ | y
    · simp [Steps, toStore, h]
    · simp [Steps]

/-! ## Empty cells are unused -/

theorem load_unused {d d' : Dec V A X E} {i : Nat} {x : VoE V A} (h : d.expected = []) (hu : Unused d)
    (hl : load d i = .ok (d', some x)) : Unused d' := by
  unfold load at hl
  cases hc : d.cells[i]? with
  | none => rw [hc] at hl; cases hl
  | some c =>
    rw [hc] at hl
    dsimp only at hl
    rw [check_nil (by exact h)] at hl
    simp only [bind, Except.bind, Except.ok.injEq, Prod.mk.injEq] at hl
    obtain ⟨rfl, hx⟩ := hl
    intro c' hc'
    rcases List.mem_or_eq_of_mem_set hc' with hm | hm
    · exact hu c' hm
    · subst hm; intro hn; rw [hx] at hn; cases hn

theorem loadValue_unused {d d' : Dec V A X E} {i : Nat} {v : V} (h : d.expected = []) (hu : Unused d)
    (hl : loadValue d i = .ok (d', v)) : Unused d' := by
  unfold loadValue at hl
  obtain ⟨⟨d1, r⟩, h1, h2⟩ := bind_ok.1 hl
  dsimp only at h2
  split at h2
  · cases h2; exact load_unused h hu h1
  · cases h2

theorem loadExpr_unused {d d' : Dec V A X E} {i : Nat} {v : Ex V A} (h : d.expected = []) (hu : Unused d)
    (hl : loadExpr d i = .ok (d', v)) : Unused d' := by
  unfold loadExpr at hl
  obtain ⟨⟨d1, r⟩, h1, h2⟩ := bind_ok.1 hl
  dsimp only at h2
  split at h2
  · cases h2; exact load_unused h hu h1
  · cases h2

theorem loadValue_nil {d d' : Dec V A X E} {i : Nat} {v : V} (h : d.expected = []) (hl : loadValue d i = .ok (d', v)) :
    d'.expected = [] := by
  rcases (loadValue_reads h i).cases with ⟨d1, t, hx, _, _, he⟩ | ⟨⟨e, hx⟩, _⟩
  · rw [hx] at hl; cases hl; exact he
  · rw [hx] at hl; cases hl

theorem loadExpr_nil {d d' : Dec V A X E} {i : Nat} {v : Ex V A} (h : d.expected = []) (hl : loadExpr d i = .ok (d', v)) :
    d'.expected = [] := by
  rcases (loadExpr_reads h i).cases with ⟨d1, t, hx, _, _, he⟩ | ⟨⟨e, hx⟩, _⟩
  · rw [hx] at hl; cases hl; exact he
  · rw [hx] at hl; cases hl

theorem loadValues_unused : ∀ (is : List Nat) {d d' : Dec V A X E} {vs : List V}, d.expected = [] → Unused d →
    loadValues d is = .ok (d', vs) → Unused d' := by
  intro is
  induction is with
  | nil => intro d d' vs h hu hl; cases hl; exact hu
  | cons i is ih =>
    intro d d' vs h hu hl
    unfold loadValues at hl
    obtain ⟨⟨d1, v⟩, h1, h2⟩ := bind_ok.1 hl
    obtain ⟨⟨d2, v2⟩, h3, h4⟩ := bind_ok.1 h2
    cases h4
    exact ih (loadValue_nil h h1) (loadValue_unused h hu h1) h3

theorem loadExprs_unused : ∀ (is : List Nat) {d d' : Dec V A X E} {vs : List (Ex V A)}, d.expected = [] → Unused d →
    loadExprs d is = .ok (d', vs) → Unused d' := by
  intro is
  induction is with
  | nil => intro d d' vs h hu hl; cases hl; exact hu
  | cons i is ih =>
    intro d d' vs h hu hl
    unfold loadExprs at hl
    obtain ⟨⟨d1, v⟩, h1, h2⟩ := bind_ok.1 hl
    obtain ⟨⟨d2, v2⟩, h3, h4⟩ := bind_ok.1 h2
    cases h4
    exact ih (loadExpr_nil h h1) (loadExpr_unused h hu h1) h3

theorem store_unused {d d' : Dec V A X E} {i : Nat} {x : VoE V A} (h : d.expected = []) (hu : Unused d)
    (hs : store d i x = .ok d') : Unused d' := by
  unfold store at hs
  cases hc : d.cells[i]? with
  | none => rw [hc] at hs; cases hs
  | some c =>
    rw [hc] at hs
    dsimp only at hs
    split at hs
    · cases hs
    · rw [check_nil (by exact h)] at hs
      cases hs
      intro c' hc'
      rcases List.mem_or_eq_of_mem_set hc' with hm | hm
      · exact hu c' hm
      · subst hm; intro hn; cases hn

theorem storeCodec_unused {d d' : Dec V A X E} {i : Nat} {x : Codec V A X E} (hu : Unused d)
    (hs : storeCodec d i x = .ok d') : Unused d' := by
  unfold storeCodec at hs
  cases hc : d.cells[i]? with
  | none => rw [hc] at hs; cases hs
  | some c =>
    rw [hc] at hs
    dsimp only at hs
    split at hs
    · cases hs
    · cases hs
      intro c' hc'
      rcases List.mem_or_eq_of_mem_set hc' with hm | hm
      · exact hu c' hm
      · subst hm; exact hu c (List.mem_of_getElem? hc)

/-! ## The step -/

theorem decodeUnknown_eq (p : VProto X) (vs : List V) (es : List (Ex V A)) : ∀ (cs : List (Codec V A X E)),
    match decodeUnknown p vs es cs with
    | .ok v => firstExt (cs.map (fun c => c.dec p vs es)) = some v
    | .error _ => firstExt (cs.map (fun c => c.dec p vs es)) = none := by
  intro cs
  induction cs with
  | nil => rfl
  | cons c cs ih =>
    unfold decodeUnknown
    rw [List.map_cons]
    rcases hx : c.dec p vs es with e | (_ | v)
    · rfl
    · exact ih
    · rfl

theorem decodeKnown_eq (d : Dec V A X E) (p : VProto X) (i : Nat) (vs : List V) (es : List (Ex V A)) :
    match decodeKnown d p i vs es with
    | .ok v => ∃ c, (toStore d).codec? i = some c ∧ firstExt [c.dec p vs es] = some v
    | .error _ => (toStore d).codec? i = none ∨ ∃ c, (toStore d).codec? i = some c ∧ firstExt [c.dec p vs es] = none := by
  unfold decodeKnown Store.codec?
  rw [cells_get]
  cases hc : d.cells[i]? with
  | none => simp
  | some c =>
    cases hd : c.codec with
    | none => simp [hd]
    | some cd =>
      rcases hx : cd.dec p vs es with e | (_ | v) <;> simp [hx, hd, lift, bind, Except.bind, firstExt]

theorem mkOpNode_eq (o : Opts V A X E) (w : V) (ds : List (Ex V A)) :
    match mkOpNode o w ds with
    | .ok e => opNode o w ds = some e
    | .error _ => opNode o w ds = none := by
  unfold mkOpNode opNode Lang.mkOp
  cases o.infer with
  | false => simp
  | true =>
    cases o.lang.infer w (ds.map Expr.attr) <;> simp [lift]

theorem decodeValue_reads {d : Dec V A X E} (h : d.expected = []) (hu : Unused d) (p : VProto X) :
    match decodeValue d p with
    | .ok (d', v) => toStore d' = toStore d ∧ d'.expected = [] ∧ Unused d' ∧
        ∀ s i, toStore d = s → ∀ (o : Opts V A X E), s.apply o i (.value p) = s.write i (.val v)
    | .error _ => ∀ s i, toStore d = s → ∀ (o : Opts V A X E), s.apply o i (.value p) = none := by
  unfold decodeValue
  rcases (loadValues_reads p.inputValues h).cases with ⟨d1, vs, hx1, hy1, hs1, he1⟩ | ⟨⟨e, hx1⟩, hy1⟩
  · have hu1 := loadValues_unused _ h hu hx1
    rw [hx1]
    simp only [bind, Except.bind]
    rcases (loadExprs_reads p.inputExprs he1).cases with ⟨d2, es, hx2, hy2, hs2, he2⟩ | ⟨⟨e, hx2⟩, hy2⟩
    · have hu2 := loadExprs_unused _ he1 hu1 hx2
      rw [hx2]
      rw [hs1] at hy2
      dsimp only
      cases hp : p.codec with
      | some j =>
        dsimp only
        have hk := decodeKnown_eq d2 p j vs es
        rw [hs2, hs1] at hk
        cases hd : decodeKnown d2 p j vs es with
        | error e =>
          rw [hd] at hk
          dsimp only at hk ⊢
          intro s i hs o
          subst hs
          simp only [Store.apply, hy1, hy2, hp, bind, Option.bind]
          rcases hk with hk | ⟨c, hk, hf⟩
          · rw [hk]
          · rw [hk]; simp [hf]
        | ok v =>
          rw [hd] at hk
          dsimp only at hk ⊢
          refine ⟨by rw [hs2, hs1], he2, hu2, ?_⟩
          intro s i hs o
          subst hs
          obtain ⟨c, hk, hf⟩ := hk
          simp only [Store.apply, hy1, hy2, hp, hk, hf, bind, Option.bind]
      | none =>
        dsimp only
        have hk := decodeUnknown_eq p vs es d2.codecs
        have hc : d2.codecs = (toStore d).codecs := by rw [← hs1, ← hs2]; rfl
        rw [hc] at hk ⊢
        cases hd : decodeUnknown p vs es (toStore d).codecs with
        | error e =>
          rw [hd] at hk
          dsimp only at hk ⊢
          intro s i hs o
          subst hs
          simp only [Store.apply, hy1, hy2, hp, bind, Option.bind, hk]
        | ok v =>
          rw [hd] at hk
          dsimp only at hk ⊢
          refine ⟨by rw [hs2, hs1], he2, hu2, ?_⟩
          intro s i hs o
          subst hs
          simp only [Store.apply, hy1, hy2, hp, hk, bind, Option.bind]
    · rw [hx2]
      dsimp only
      intro s i hs o
      subst hs
      rw [hs1] at hy2
      simp only [Store.apply, hy1, hy2, bind, Option.bind]
  · rw [hx1]
    simp only [bind, Except.bind]
    intro s i hs o
    subst hs
    simp only [Store.apply, hy1, bind, Option.bind]

theorem onKind_steps (o : Opts V A X E) {d : Dec V A X E} (h : d.expected = []) (hu : Unused d) (i : Nat) (k : Kind X) :
    Steps (onKind o d i k) ((toStore d).apply o i k) ∧ ∀ d', onKind o d i k = .ok d' → Unused d' := by
  cases k with
  | literal index =>
    cases index with
    | none => exact ⟨by simp [onKind, decodeLiteral, bind, Except.bind, Store.apply, Steps],
        by simp [onKind, decodeLiteral, bind, Except.bind]⟩
    | some j =>
      rcases (loadValue_reads h j).cases with ⟨d1, v, hx, hy, hs, he⟩ | ⟨⟨e, hx⟩, hy⟩
      · have hu1 := loadValue_unused h hu hx
        simp only [onKind, decodeLiteral, bind, Except.bind, hx, Store.apply, hy, Option.bind]
        rw [← hs]
        exact ⟨store_steps he hu1 i _, fun d' hd => store_unused he hu1 hd⟩
      · simp [onKind, decodeLiteral, bind, Except.bind, hx, Store.apply, hy, Option.bind, Steps]
  | leaf key =>
    cases key with
    | none => simp [onKind, Store.apply, Steps]
    | some k => exact ⟨store_steps h hu i _, fun d' hd => store_unused h hu hd⟩
  | placeholder key =>
    cases key with
    | none => simp [onKind, Store.apply, Steps]
    | some k => exact ⟨store_steps h hu i _, fun d' hd => store_unused h hu hd⟩
  | op index inputs =>
    cases index with
    | none => simp [onKind, decodeOp, bind, Except.bind, Store.apply, Steps]
    | some j =>
      rcases (loadValue_reads h j).cases with ⟨d1, v, hx, hy, hs, he⟩ | ⟨⟨e, hx⟩, hy⟩
      · have hu1 := loadValue_unused h hu hx
        simp only [onKind, decodeOp, bind, Except.bind, hx, Store.apply, hy, Option.bind]
        cases ho : o.isOp v with
        | false => simp [Steps]
        | true =>
          simp only [Bool.not_true, Bool.false_eq_true, if_false, if_true]
          rcases (loadExprs_reads inputs he).cases with ⟨d2, es, hx2, hy2, hs2, he2⟩ | ⟨⟨e, hx2⟩, hy2⟩
          · have hu2 := loadExprs_unused _ he hu1 hx2
            rw [hs] at hy2
            rw [hx2, hy2]
            dsimp only
            have hm := mkOpNode_eq o v es
            cases hn : mkOpNode o v es with
            | error e => rw [hn] at hm; dsimp only at hm; rw [hm]; simp [Steps]
            | ok e =>
              rw [hn] at hm; dsimp only at hm; rw [hm]
              dsimp only
              rw [← hs, ← hs2]
              exact ⟨store_steps he2 hu2 i _, fun d' hd => store_unused he2 hu2 hd⟩
          · rw [hs] at hy2
            rw [hx2, hy2]; simp [Steps]
      · simp [onKind, decodeOp, bind, Except.bind, hx, Store.apply, hy, Option.bind, Steps]
  | value p =>
    have hv := decodeValue_reads h hu p
    cases hd : decodeValue d p with
    | error e =>
      rw [hd] at hv
      dsimp only at hv
      rw [hv _ i rfl o]
      simp [onKind, hd, bind, Except.bind, Steps]
    | ok q =>
      obtain ⟨d1, v⟩ := q
      rw [hd] at hv
      dsimp only at hv
      rw [hv.2.2.2 _ i rfl o]
      simp only [onKind, hd, bind, Except.bind]
      rw [← hv.1]
      exact ⟨store_steps hv.2.1 hv.2.2.1 i _, fun d' hd => store_unused hv.2.1 hv.2.2.1 hd⟩
  | codec name =>
    simp only [onKind, decodeCodec, Store.apply]
    cases hp : o.provider with
    | none => simp [bind, Except.bind, Option.bind, Steps]
    | some f =>
      cases hf : f name with
      | error e => simp [bind, Except.bind, Option.bind, Steps, lift, hf]
      | ok dec =>
        simp only [bind, Except.bind, Option.bind, lift, hf]
        exact ⟨storeCodec_steps h i _, fun d' hd => storeCodec_unused hu hd⟩
  | outValue j =>
    rcases (loadValue_reads h j).cases with ⟨d1, v, hx, hy, hs, he⟩ | ⟨⟨e, hx⟩, hy⟩
    · have hu1 := loadValue_unused h hu hx
      simp only [onKind, bind, Except.bind, hx, Store.apply, hy, Option.bind]
      refine ⟨⟨?_, he⟩, fun d' hd => ?_⟩
      · rw [← hs]; rfl
      · cases hd; exact hu1
    · simp [onKind, bind, Except.bind, hx, Store.apply, hy, Option.bind, Steps]
  | outExpr j =>
    rcases (loadExpr_reads h j).cases with ⟨d1, v, hx, hy, hs, he⟩ | ⟨⟨e, hx⟩, hy⟩
    · have hu1 := loadExpr_unused h hu hx
      simp only [onKind, bind, Except.bind, hx, Store.apply, hy, Option.bind]
      refine ⟨⟨?_, he⟩, fun d' hd => ?_⟩
      · rw [← hs]; rfl
      · cases hd; exact hu1
    · simp [onKind, bind, Except.bind, hx, Store.apply, hy, Option.bind, Steps]
  | unset => exact ⟨⟨rfl, h⟩, fun d' hd => by cases hd; exact hu⟩

theorem hints_nil {d : Dec V A X E} {h : Option (List Nat)} (hs : h.filter (fun c => c ≠ []) = none) :
    onHints d h = .ok d := by
  cases h with
  | none => rfl
  | some c =>
    unfold onHints processHints
    dsimp only
    rw [if_pos]
    simpa using hs

theorem onStep_steps (o : Opts V A X E) {d : Dec V A X E} (h : d.expected = []) (hu : Unused d) (i : Nat) (s : Step X)
    (hs : s.hints.filter (fun c => c ≠ []) = none) :
    Steps (onStep o d i s) ((toStore d).step o i s.kind) ∧ ∀ d', onStep o d i s = .ok d' → Unused d' := by
  have hl : (toStore d).cells.length = d.cells.length := by simp [toStore]
  unfold onStep Store.step
  rw [hl]
  by_cases h1 : i > d.cells.length
  · rw [if_pos h1, if_neg (by omega), if_neg (by omega)]
    exact ⟨trivial, fun d' hd => by cases hd⟩
  rw [if_neg h1]
  rw [hints_nil hs]
  unfold grow
  by_cases h2 : i = d.cells.length
  · rw [if_pos h2, if_neg (by omega), if_pos h2]
    have hu' : Unused { d with cells := d.cells ++ [⟨none, none, 0⟩] } := by
      intro c hc
      rcases List.mem_append.1 hc with hc | hc
      · exact hu c hc
      · simp at hc; subst hc; intro _; rfl
    have := onKind_steps o (d := { d with cells := d.cells ++ [⟨none, none, 0⟩] }) h hu' i s.kind
    have he : toStore { d with cells := d.cells ++ [⟨none, none, 0⟩] } =
        { toStore d with cells := (toStore d).cells ++ [(none, none)] } := by
      simp [toStore]
    rw [he] at this
    exact this
  · rw [if_neg h2, if_pos (by omega)]
    exact onKind_steps o h hu i s.kind

theorem onSteps_run (o : Opts V A X E) : ∀ (evs : List (Nat × Step X)) {d : Dec V A X E}, d.expected = [] → Unused d →
    hintsOf evs = [] → Steps (onSteps o d evs) ((toStore d).run o (kinds evs)) := by
  intro evs
  induction evs with
  | nil => intro d h hu _; exact ⟨rfl, h⟩
  | cons e evs ih =>
    obtain ⟨i, s⟩ := e
    intro d h hu hh
    have hs : s.hints.filter (fun c => c ≠ []) = none := by
      unfold hintsOf at hh
      rw [List.filterMap_eq_nil_iff] at hh
      exact hh (i, s) (by simp)
    have hr : hintsOf evs = [] := by
      unfold hintsOf at hh ⊢
      rw [List.filterMap_eq_nil_iff] at hh ⊢
      intro e he
      exact hh e (by simp [he])
    obtain ⟨h1, h2⟩ := onStep_steps o h hu i s hs
    unfold onSteps kinds
    rw [List.map_cons]
    unfold Store.run
    dsimp only
    cases hx : onStep o d i s with
    | error e =>
      rw [hx] at h1
      cases hy : (toStore d).step o i s.kind with
      | none => simp [bind, Except.bind, Steps]
      | some s' => rw [hy] at h1; exact h1.elim
    | ok d' =>
      rw [hx] at h1
      cases hy : (toStore d).step o i s.kind with
      | none => rw [hy] at h1; exact h1.elim
      | some s' =>
        rw [hy] at h1
        obtain ⟨h3, h4⟩ := h1
        simp only [bind, Except.bind, Option.bind]
        rw [← h3]
        exact ih h4 (h2 d' hx) hr

end Verif.Serial
