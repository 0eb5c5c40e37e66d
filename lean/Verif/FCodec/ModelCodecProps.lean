import Verif.FCodec.ModelCodecModel

/-!
# C117: forest models survive serialization
-/

namespace Verif.FCodec

variable {Fo E : Type}

/-- What a message with a forest model says.  The expressions after the first one belong to the inputs with the flag, in
order. -/
structure SameModel (p : PModel Fo E) (m : ModelArgs Fo E) : Prop where
  forest : p.values = [.forest m.forest]
  exprs : p.exprs = m.expression :: m.inputs.filterMap Prod.snd
  names : p.args.map PArg.name = m.inputs.map fun i => some i.1
  flags : p.args.map PArg.hasPreprocessing = m.inputs.map fun i => i.2.isSome
  sorted : (m.submodels.map Prod.fst).Pairwise (· < ·)
  groups : ∀ k ids, (k, ids) ∈ m.submodels ↔ (⟨some k, ids⟩ : PGroup) ∈ p.groups
  oobFilters : m.oobFilters = none
  truncationStep : m.truncationStep = none

/-- A message is complete. -/
structure ValidModel (p : PModel Fo E) : Prop where
  forest : ∃ f, p.values = [.forest f]
  exprs : p.exprs.length = 1 + (p.args.filter PArg.hasPreprocessing).length
  argNames : ∀ a ∈ p.args, a.name ≠ none
  groupNames : ∀ g ∈ p.groups, g.name ≠ none
  distinct : (p.groups.map PGroup.name).Nodup

theorem expectedExprs_eq (args : List PArg) (n : Nat) :
    expectedExprs args n = n + (args.filter PArg.hasPreprocessing).length := by
  induction args generalizing n with
  | nil => rfl
  | cons a rest ih =>
    rw [expectedExprs, ih]
    cases h : a.hasPreprocessing
    · simp [List.filter_cons, h]
    · simp [List.filter_cons, h]; omega

theorem emplace_some (k : Nat) (v : List Int) (l l' : List (Nat × List Int)) (hs : (l.map Prod.fst).Pairwise (· < ·))
    (h : emplace k v l = some l') :
    (l'.map Prod.fst).Pairwise (· < ·) ∧ (∀ x, x ∈ l' ↔ x = (k, v) ∨ x ∈ l) := by
  induction l generalizing l' with
  | nil =>
    simp only [emplace, Option.some.injEq] at h
    subst h; simp
  | cons e rest ih =>
    simp only [emplace] at h
    rw [List.map_cons, List.pairwise_cons] at hs
    split at h
    · rename_i hk
      simp only [Option.some.injEq] at h
      subst h
      refine ⟨?_, by simp⟩
      rw [List.map_cons, List.pairwise_cons, List.map_cons, List.pairwise_cons]
      refine ⟨fun x hx => ?_, hs⟩
      rcases List.mem_cons.1 hx with rfl | hx
      · exact hk
      · exact Nat.lt_trans hk (hs.1 x hx)
    · split at h
      · simp at h
      · rename_i h1 h2
        simp only [Option.map_eq_some_iff] at h
        obtain ⟨r, hr, rfl⟩ := h
        obtain ⟨i1, i2⟩ := ih r hs.2 hr
        refine ⟨?_, fun x => ?_⟩
        · rw [List.map_cons, List.pairwise_cons]
          refine ⟨fun x hx => ?_, i1⟩
          obtain ⟨y, hy, rfl⟩ := List.mem_map.1 hx
          rcases (i2 y).1 hy with rfl | hy
          · show e.1 < k; omega
          · exact hs.1 _ (List.mem_map_of_mem hy)
        · rw [List.mem_cons, i2, List.mem_cons]
          constructor
          · rintro (h | h | h) <;> simp [h]
          · rintro (h | h | h) <;> simp [h]

theorem emplace_none (k : Nat) (v : List Int) (l : List (Nat × List Int)) (hs : (l.map Prod.fst).Pairwise (· < ·)) :
    emplace k v l = none ↔ k ∈ l.map Prod.fst := by
  induction l with
  | nil => simp [emplace]
  | cons e rest ih =>
    rw [List.map_cons, List.pairwise_cons] at hs
    simp only [emplace, List.map_cons, List.mem_cons]
    by_cases h1 : k < e.1
    · rw [if_pos h1]
      simp only [reduceCtorEq, false_iff]
      rintro (h | h)
      · omega
      · have := hs.1 k h; omega
    · by_cases h2 : k = e.1
      · rw [if_neg h1, if_pos h2]; simp [h2]
      · rw [if_neg h1, if_neg h2]
        simp only [Option.map_eq_none_iff, ih hs.2, h2, false_or]

theorem decodeGroups_spec (groups : List PGroup) (acc : List (Nat × List Int))
    (hs : (acc.map Prod.fst).Pairwise (· < ·)) :
    ((∃ l, decodeGroups groups acc = .ok l) ↔
      (∀ g ∈ groups, g.name ≠ none) ∧ (groups.map PGroup.name).Nodup ∧
        ∀ g ∈ groups, ∀ e ∈ acc, g.name ≠ some e.1) ∧
    ∀ l, decodeGroups groups acc = .ok l → (l.map Prod.fst).Pairwise (· < ·) ∧
      ∀ k ids, (k, ids) ∈ l ↔ (k, ids) ∈ acc ∨ (⟨some k, ids⟩ : PGroup) ∈ groups := by
  induction groups generalizing acc with
  | nil =>
    refine ⟨by simp [decodeGroups], fun l h => ?_⟩
    simp only [decodeGroups, Except.ok.injEq] at h
    subst h; exact ⟨hs, by simp⟩
  | cons g rest ih =>
    obtain ⟨name, ids⟩ := g
    cases name with
    | none =>
      refine ⟨⟨?_, fun h => absurd rfl (h.1 _ List.mem_cons_self)⟩, ?_⟩
      · rintro ⟨l, h⟩; simp [decodeGroups] at h
      · intro l h; simp [decodeGroups] at h
    | some k =>
      cases he : emplace k ids acc with
      | none =>
        have hk := (emplace_none k ids acc hs).1 he
        obtain ⟨e, hem, hek⟩ := List.mem_map.1 hk
        refine ⟨⟨?_, fun h => absurd (by rw [hek]) (h.2.2 _ List.mem_cons_self e hem)⟩, ?_⟩
        · rintro ⟨l, h⟩; simp [decodeGroups, he] at h
        · intro l h; simp [decodeGroups, he] at h
      | some acc' =>
        have hk : k ∉ acc.map Prod.fst := fun h => by
          rw [(emplace_none k ids acc hs).2 h] at he; simp at he
        obtain ⟨s1, s2⟩ := emplace_some k ids acc acc' hs he
        obtain ⟨i1, i2⟩ := ih acc' s1
        have hdef : decodeGroups (⟨some k, ids⟩ :: rest) acc = decodeGroups rest acc' := by
          simp only [decodeGroups, he]
        rw [hdef]
        refine ⟨i1.trans ⟨?_, ?_⟩, fun l hl => ?_⟩
        · rintro ⟨a1, a2, a3⟩
          refine ⟨?_, ?_, ?_⟩
          · intro g hg
            rcases List.mem_cons.1 hg with rfl | hg
            · simp
            · exact a1 g hg
          · rw [List.map_cons, List.nodup_cons]
            refine ⟨fun hm => ?_, a2⟩
            obtain ⟨g, hg, hgn⟩ := List.mem_map.1 hm
            exact a3 g hg (k, ids) ((s2 _).2 (Or.inl rfl)) hgn
          · intro g hg e hem
            rcases List.mem_cons.1 hg with rfl | hg
            · intro hc
              simp only [Option.some.injEq] at hc
              exact hk (hc ▸ List.mem_map_of_mem hem)
            · exact a3 g hg e ((s2 e).2 (Or.inr hem))
        · rintro ⟨a1, a2, a3⟩
          rw [List.map_cons, List.nodup_cons] at a2
          refine ⟨fun g hg => a1 g (List.mem_cons_of_mem _ hg), a2.2, fun g hg e hem => ?_⟩
          rcases (s2 e).1 hem with rfl | hem
          · intro hc
            exact a2.1 (List.mem_map.2 ⟨g, hg, hc⟩)
          · exact a3 g (List.mem_cons_of_mem _ hg) e hem
        · obtain ⟨b1, b2⟩ := i2 l hl
          refine ⟨b1, fun k' ids' => ?_⟩
          rw [b2, s2, List.mem_cons]
          simp only [Prod.mk.injEq, PGroup.mk.injEq, Option.some.injEq]
          constructor
          · rintro ((h | h) | h)
            · exact Or.inr (Or.inl h)
            · exact Or.inl h
            · exact Or.inr (Or.inr h)
          · rintro (h | h | h)
            · exact Or.inl (Or.inr h)
            · exact Or.inl (Or.inl h)
            · exact Or.inr h

theorem decodeInputs_spec (exprs : List E) (args : List PArg) (i : Nat)
    (h : exprs.length = i + (args.filter PArg.hasPreprocessing).length) :
    (∃ r, decodeInputs exprs args i = some r) ∧
    ((∃ l, decodeInputs exprs args i = some (.ok l)) ↔ ∀ a ∈ args, a.name ≠ none) ∧
    ∀ l, decodeInputs exprs args i = some (.ok l) →
      exprs.drop i = l.filterMap Prod.snd ∧ args.map PArg.name = (l.map fun i => some i.1) ∧
      args.map PArg.hasPreprocessing = l.map fun i => i.2.isSome := by
  induction args generalizing i with
  | nil =>
    refine ⟨⟨_, rfl⟩, by simp [decodeInputs], fun l hl => ?_⟩
    simp only [decodeInputs, Option.some.injEq, Except.ok.injEq] at hl
    subst hl
    simp only [List.filter_nil, List.length_nil, Nat.add_zero] at h
    simp [h]
  | cons a rest ih =>
    obtain ⟨name, pre⟩ := a
    cases name with
    | none =>
      refine ⟨⟨_, rfl⟩, ⟨?_, fun h => absurd rfl (h _ List.mem_cons_self)⟩, ?_⟩
      · rintro ⟨l, h⟩; simp [decodeInputs] at h
      · intro l h; simp [decodeInputs] at h
    | some k =>
      have hall : (∀ a ∈ (⟨some k, pre⟩ : PArg) :: rest, a.name ≠ none) ↔ ∀ a ∈ rest, a.name ≠ none := by
        rw [List.forall_mem_cons]; simp
      cases pre with
      | false =>
        obtain ⟨⟨r, hr⟩, j2, j3⟩ := ih i (by simpa [List.filter_cons] using h)
        cases r with
        | error e =>
          have hd : decodeInputs exprs (⟨some k, false⟩ :: rest) i = some (.error e) := by
            simp [decodeInputs, hr]
          rw [hd]
          refine ⟨⟨_, rfl⟩, ?_, fun l h => by simp at h⟩
          rw [hall, ← j2, hr]
        | ok l0 =>
          have hd : decodeInputs exprs (⟨some k, false⟩ :: rest) i = some (.ok ((k, none) :: l0)) := by
            simp [decodeInputs, hr]
          rw [hd]
          refine ⟨⟨_, rfl⟩, ?_, fun l h => ?_⟩
          · rw [hall, ← j2, hr]; simp
          · simp only [Option.some.injEq, Except.ok.injEq] at h
            subst h
            obtain ⟨c1, c2, c3⟩ := j3 l0 hr
            exact ⟨by simpa using c1, by simp [c2], by simp [c3]⟩
      | true =>
        simp only [List.filter_cons, if_true, List.length_cons] at h
        obtain ⟨⟨r, hr⟩, j2, j3⟩ := ih (i + 1) (by omega)
        have hlt : i < exprs.length := by omega
        have hget : exprs[i]? = some exprs[i] := List.getElem?_eq_getElem hlt
        cases r with
        | error e =>
          have hd : decodeInputs exprs (⟨some k, true⟩ :: rest) i = some (.error e) := by
            simp [decodeInputs, hr, hget]
          rw [hd]
          refine ⟨⟨_, rfl⟩, ?_, fun l h => by simp at h⟩
          rw [hall, ← j2, hr]
        | ok l0 =>
          have hd : decodeInputs exprs (⟨some k, true⟩ :: rest) i = some (.ok ((k, some exprs[i]) :: l0)) := by
            simp [decodeInputs, hr, hget]
          rw [hd]
          refine ⟨⟨_, rfl⟩, ?_, fun l h => ?_⟩
          · rw [hall, ← j2, hr]; simp
          · simp only [Option.some.injEq, Except.ok.injEq] at h
            subst h
            obtain ⟨c1, c2, c3⟩ := j3 l0 hr
            refine ⟨?_, by simp [c2], by simp [c3]⟩
            rw [List.drop_eq_getElem_cons hlt, c1]
            simp

/-- For any message with any input values and expressions: reading is defined, it succeeds iff the message is complete,
and then `ForestModel::Create` gets the model which the message describes. -/
theorem model_decoding_exact (p : PModel Fo E) :
    (∃ r, decodeModel p = some r) ∧
    ((∃ m, decodeModel p = some (.ok m)) ↔ ValidModel p) ∧
    ∀ m, decodeModel p = some (.ok m) → SameModel p m := by
  obtain ⟨args, groups, values, exprs⟩ := p
  have hbad : ∀ e, decodeModel ⟨args, groups, values, exprs⟩ = some (.error e) →
      ¬ ValidModel (⟨args, groups, values, exprs⟩ : PModel Fo E) →
      (∃ r, decodeModel ⟨args, groups, values, exprs⟩ = some r) ∧
      ((∃ m, decodeModel ⟨args, groups, values, exprs⟩ = some (.ok m)) ↔
        ValidModel (⟨args, groups, values, exprs⟩ : PModel Fo E)) ∧
      ∀ m, decodeModel ⟨args, groups, values, exprs⟩ = some (.ok m) → SameModel ⟨args, groups, values, exprs⟩ m := by
    intro e he hv
    rw [he]
    exact ⟨⟨_, rfl⟩, by simp [hv], by simp⟩
  match values, hbad with
  | [], hbad => exact hbad .values rfl (fun h => by obtain ⟨f, hf⟩ := h.forest; simp at hf)
  | _ :: _ :: _, hbad => exact hbad .values rfl (fun h => by obtain ⟨f, hf⟩ := h.forest; simp at hf)
  | [v], hbad =>
    by_cases hlen : exprs.length ≠ expectedExprs args 1
    · refine hbad .exprs (by simp [decodeModel, hlen]) (fun h => hlen ?_)
      rw [expectedExprs_eq]; exact h.exprs
    · have hlen' : exprs.length = 1 + (args.filter PArg.hasPreprocessing).length := by
        rw [← expectedExprs_eq]; simpa using hlen
      cases v with
      | other =>
        exact hbad .notForest (by simp only [decodeModel, hlen, if_false])
          (fun h => by obtain ⟨f, hf⟩ := h.forest; simp at hf)
      | forest f =>
        obtain ⟨g1, g2⟩ := decodeGroups_spec groups [] (by simp)
        cases hg : decodeGroups groups [] with
        | error e =>
          refine hbad e (by simp only [decodeModel, hlen, if_false, hg]) (fun h => ?_)
          obtain ⟨l, hl⟩ := g1.2 ⟨h.groupNames, h.distinct, by simp⟩
          rw [hg] at hl; simp at hl
        | ok sub =>
          obtain ⟨⟨r, hr⟩, j2, j3⟩ := decodeInputs_spec exprs args 1 hlen'
          cases r with
          | error e =>
            refine hbad e (by simp only [decodeModel, hlen, if_false, hg, hr]) (fun h => ?_)
            obtain ⟨l, hl⟩ := j2.2 h.argNames
            rw [hr] at hl; simp at hl
          | ok inputs =>
            cases exprs with
            | nil => simp at hlen'; omega
            | cons e es =>
              have hd : decodeModel ⟨args, groups, [.forest f], e :: es⟩ =
                  some (.ok { forest := f, submodels := sub, inputs := inputs, expression := e }) := by
                simp only [decodeModel, hlen, if_false, hg, hr, List.getElem?_cons_zero]
              rw [hd]
              obtain ⟨v1, v2, _⟩ := g1.1 ⟨sub, hg⟩
              obtain ⟨s1, s2⟩ := g2 sub hg
              obtain ⟨c1, c2, c3⟩ := j3 inputs hr
              refine ⟨⟨_, rfl⟩, ⟨fun _ => ⟨⟨f, rfl⟩, hlen', j2.1 ⟨_, hr⟩, v1, v2⟩, fun _ => ⟨_, rfl⟩⟩, ?_⟩
              intro m hm
              simp only [Option.some.injEq, Except.ok.injEq] at hm
              subst hm
              exact ⟨rfl, by simpa using c1, c2, c3, s1, fun k ids => by rw [s2]; simp, rfl, rfl⟩

/-- The encoder succeeds exactly on the models without out-of-bag filters and truncation, and then the message says what
the model is. -/
theorem model_encoding_exact (m : ModelArgs Fo E) (hs : (m.submodels.map Prod.fst).Pairwise (· < ·)) :
    ((∃ p, encodeModel m = .ok p) ↔ m.oobFilters = none ∧ m.truncationStep = none) ∧
    ∀ p, encodeModel m = .ok p → SameModel p m := by
  obtain ⟨forest, sub, inputs, expr, oob, tr⟩ := m
  cases oob with
  | some o => exact ⟨by simp [encodeModel], by simp [encodeModel]⟩
  | none =>
    cases tr with
    | some t => exact ⟨by simp [encodeModel], by simp [encodeModel]⟩
    | none =>
      refine ⟨by simp [encodeModel], fun p hp => ?_⟩
      have hin : ∀ l : List (Nat × Option E), (encodeInputs l).2 = l.filterMap Prod.snd ∧
          (encodeInputs l).1.map PArg.name = (l.map fun i => some i.1) ∧
          (encodeInputs l).1.map PArg.hasPreprocessing = l.map fun i => i.2.isSome := by
        intro l
        induction l with
        | nil => exact ⟨rfl, rfl, rfl⟩
        | cons x rest ih =>
          obtain ⟨k, o⟩ := x
          obtain ⟨h1, h2, h3⟩ := ih
          cases o <;> simp [encodeInputs, h1, h2, h3]
      obtain ⟨h1, h2, h3⟩ := hin inputs
      simp only [encodeModel, Option.isSome_none, Bool.false_eq_true, if_false, Except.ok.injEq] at hp
      subst hp
      refine ⟨rfl, by rw [h1], h2, h3, hs, fun k ids => ?_, rfl, rfl⟩
      dsimp only
      rw [List.mem_map]
      constructor
      · intro h; exact ⟨_, h, rfl⟩
      · rintro ⟨⟨k', ids'⟩, h, he⟩
        simp only [PGroup.mk.injEq, Option.some.injEq] at he
        rw [← he.1, ← he.2]; exact h

theorem filterMap_inj : ∀ (l l' : List (Nat × Option E)), (l.map fun i => some i.1) = (l'.map fun i => some i.1) →
    (l.map fun i => i.2.isSome) = (l'.map fun i => i.2.isSome) → l.filterMap Prod.snd = l'.filterMap Prod.snd → l = l'
  | [], [], _, _, _ => rfl
  | [], _ :: _, h, _, _ => by simp at h
  | _ :: _, [], h, _, _ => by simp at h
  | (k, o) :: l, (k', o') :: l', h1, h2, h3 => by
    simp only [List.map_cons, List.cons.injEq, Option.some.injEq] at h1 h2
    obtain ⟨rfl, h1⟩ := h1
    obtain ⟨ho, h2⟩ := h2
    cases o with
    | none =>
      cases o' with
      | none => rw [filterMap_inj l l' h1 h2 (by simpa using h3)]
      | some e => simp at ho
    | some e =>
      cases o' with
      | none => simp at ho
      | some e' =>
        simp only [List.filterMap_cons, List.cons.injEq] at h3
        rw [h3.1, filterMap_inj l l' h1 h2 h3.2]

theorem sorted_ext : ∀ (l l' : List (Nat × List Int)), (l.map Prod.fst).Pairwise (· < ·) →
    (l'.map Prod.fst).Pairwise (· < ·) → (∀ x, x ∈ l ↔ x ∈ l') → l = l'
  | [], [], _, _, _ => rfl
  | [], y :: _, _, _, h => absurd ((h y).2 List.mem_cons_self) (by simp)
  | x :: _, [], _, _, h => absurd ((h x).1 List.mem_cons_self) (by simp)
  | x :: l, y :: l', h1, h2, h => by
    rw [List.map_cons, List.pairwise_cons] at h1 h2
    have hlt1 : ∀ z ∈ l, x.1 < z.1 := fun z hz => h1.1 _ (List.mem_map_of_mem hz)
    have hlt2 : ∀ z ∈ l', y.1 < z.1 := fun z hz => h2.1 _ (List.mem_map_of_mem hz)
    have hxy : x = y := by
      rcases List.mem_cons.1 ((h x).1 List.mem_cons_self) with e | hx
      · exact e
      · rcases List.mem_cons.1 ((h y).2 List.mem_cons_self) with e | hy
        · exact e.symm
        · have := hlt1 y hy; have := hlt2 x hx; omega
    subst hxy
    rw [sorted_ext l l' h1.2 h2.2 (fun z => ?_)]
    constructor
    · intro hz
      rcases List.mem_cons.1 ((h z).1 (List.mem_cons_of_mem _ hz)) with rfl | hz'
      · have := hlt1 _ hz; omega
      · exact hz'
    · intro hz
      rcases List.mem_cons.1 ((h z).2 (List.mem_cons_of_mem _ hz)) with rfl | hz'
      · have := hlt2 _ hz; omega
      · exact hz'

/-- A message describes at most one model. -/
theorem same_model_unique (p : PModel Fo E) (m m' : ModelArgs Fo E) (h : SameModel p m) (h' : SameModel p m') :
    m = m' := by
  have hf : m.forest = m'.forest := by
    have := h.forest.symm.trans h'.forest
    simpa using this
  have he := h.exprs.symm.trans h'.exprs
  simp only [List.cons.injEq] at he
  have hi := filterMap_inj _ _ (h.names.symm.trans h'.names) (h.flags.symm.trans h'.flags) he.2
  have hg := sorted_ext _ _ h.sorted h'.sorted (fun x => (h.groups x.1 x.2).trans (h'.groups x.1 x.2).symm)
  obtain ⟨a1, a2, a3, a4, a5, a6⟩ := m
  obtain ⟨b1, b2, b3, b4, b5, b6⟩ := m'
  have q1 := h.oobFilters; have q2 := h'.oobFilters
  have q3 := h.truncationStep; have q4 := h'.truncationStep
  dsimp only at hf he hi hg q1 q2 q3 q4
  rw [hf, he.1, hi, hg, q1, q2, q3, q4]

/-- A model which is written is read back as a call of `ForestModel::Create` with the same arguments. -/
theorem model_round_trip (m : ModelArgs Fo E) (hs : (m.submodels.map Prod.fst).Pairwise (· < ·)) (p : PModel Fo E)
    (h : encodeModel m = .ok p) : decodeModel p = some (.ok m) := by
  have hsame := (model_encoding_exact m hs).2 p h
  have hvalid : ValidModel p := by
    refine ⟨⟨_, hsame.forest⟩, ?_, ?_, ?_, ?_⟩
    · have hc : ∀ (args : List PArg) (l : List (Nat × Option E)),
          args.map PArg.hasPreprocessing = (l.map fun i => i.2.isSome) →
          (args.filter PArg.hasPreprocessing).length = (l.filterMap Prod.snd).length := by
        intro args
        induction args with
        | nil => intro l hl; cases l with
          | nil => rfl
          | cons _ _ => simp at hl
        | cons a rest ih =>
          intro l hl
          cases l with
          | nil => simp at hl
          | cons x l =>
            obtain ⟨k, o⟩ := x
            simp only [List.map_cons, List.cons.injEq] at hl
            have := ih l hl.2
            cases o with
            | none => simp [List.filter_cons, hl.1, this]
            | some e => simp [List.filter_cons, hl.1, this]
      rw [hsame.exprs, hc _ _ hsame.flags, List.length_cons]; omega
    · intro a ha hn
      have : (none : Option Nat) ∈ m.inputs.map fun i => some i.1 := by
        rw [← hsame.names]; exact List.mem_map.2 ⟨a, ha, hn⟩
      simp at this
    · intro g hg hn
      obtain ⟨forest, sub, inputs, expr, oob, tr⟩ := m
      simp only [encodeModel] at h
      split at h
      · simp at h
      · split at h
        · simp at h
        · simp only [Except.ok.injEq] at h
          subst h
          obtain ⟨x, _, rfl⟩ := List.mem_map.1 hg
          simp at hn
    · obtain ⟨forest, sub, inputs, expr, oob, tr⟩ := m
      simp only [encodeModel] at h
      split at h
      · simp at h
      · split at h
        · simp at h
        · simp only [Except.ok.injEq] at h
          subst h
          dsimp only
          rw [List.map_map]
          have : (PGroup.name ∘ fun g : Nat × List Int => (⟨some g.1, g.2⟩ : PGroup)) = some ∘ Prod.fst := rfl
          rw [this, ← List.map_map]
          refine List.Pairwise.map some (fun a b hab => ?_) hs
          simp only [ne_eq, Option.some.injEq]; omega
  obtain ⟨_, hiff, hall⟩ := model_decoding_exact p
  obtain ⟨m', hm'⟩ := hiff.2 hvalid
  rw [hm', same_model_unique p m m' hsame (hall m' hm')]

/-! ### Non-vacuity -/

/-- Two submodels with two bags, three inputs of which the second has a preprocessing expression. -/
def sampleModel : ModelArgs Nat Nat :=
  { forest := 7, submodels := [(1, [0, 2]), (4, [1, 3])], inputs := [(0, none), (2, some 50), (3, none)],
    expression := 60 }

example : encodeModel sampleModel =
    .ok ⟨[⟨some 0, false⟩, ⟨some 2, true⟩, ⟨some 3, false⟩], [⟨some 1, [0, 2]⟩, ⟨some 4, [1, 3]⟩], [.forest 7], [60, 50]⟩ :=
  rfl

example : (sampleModel.submodels.map Prod.fst).Pairwise (· < ·) := by simp [sampleModel]

/-- A message which no encoder writes: groups not sorted; it is accepted. -/
example : decodeModel (⟨[⟨some 0, false⟩], [⟨some 4, [1]⟩, ⟨some 1, [0]⟩], [.forest 7], [60]⟩ : PModel Nat Nat) =
    some (.ok { forest := 7, submodels := [(1, [0]), (4, [1])], inputs := [(0, none)], expression := 60 }) := rfl

example : decodeModel (⟨[⟨some 0, true⟩], [], [.forest 7], [60]⟩ : PModel Nat Nat) = some (.error .exprs) := rfl

end Verif.FCodec
