import Verif.Io.LoaderSpec
import Mathlib.Data.List.Nodup

namespace Verif.Io

variable {I J Q V : Type} [DecidableEq Q]

/-! ## Slots -/

theorem findSlot_of_mem : ∀ {slots : Slots Q}, (slots.map (·.1)).Nodup → ∀ {s}, s ∈ slots → findSlot slots s.1 = some s.2
  | [], _, s, hs => by simp at hs
  | t :: slots, hn, s, hs => by
    simp only [List.map_cons, List.nodup_cons] at hn
    simp only [findSlot, List.find?_cons]
    rcases List.mem_cons.1 hs with rfl | hs
    · simp
    · have hne : (t.1 == s.1) = false := by
        simp only [beq_eq_false_iff_ne, ne_eq]
        exact fun e => hn.1 (e ▸ List.mem_map.2 ⟨s, hs, rfl⟩)
      rw [hne]
      exact findSlot_of_mem hn.2 hs

theorem findSlot_some {slots : Slots Q} {name : Name} {x : Q × Nat} (h : findSlot slots name = some x) : (name, x) ∈ slots := by
  simp only [findSlot, Option.map_eq_some_iff] at h
  obtain ⟨s, hs, rfl⟩ := h
  have h1 := List.mem_of_find?_eq_some hs
  have h2 := List.find?_some hs
  simp only [beq_iff_eq] at h2
  rw [← h2]
  exact h1

theorem types_some (l : Loader I Q V) : ∀ (names : List Name) (types : List (Name × Q)),
    getInputLoaderQTypes l names = some types ↔ types.map (·.1) = names ∧ ∀ t ∈ types, l.typeOf t.1 = some t.2
  | [], types => by
    simp only [getInputLoaderQTypes, List.mapM_nil, Option.pure_def, Option.some.injEq, List.map_eq_nil_iff]
    constructor
    · rintro rfl
      simp
    · rintro ⟨rfl, _⟩
      rfl
  | n :: names, types => by
    have ih := types_some l names
    simp only [getInputLoaderQTypes] at ih ⊢
    simp only [List.mapM_cons, Option.pure_def, Option.bind_eq_bind, Option.bind_eq_some_iff, Option.map_eq_some_iff,
      Option.some.injEq]
    constructor
    · rintro ⟨_, ⟨t, ht, rfl⟩, ts, hts, rfl⟩
      obtain ⟨h1, h2⟩ := (ih ts).1 hts
      refine ⟨by simp [h1], ?_⟩
      intro u hu
      rcases List.mem_cons.1 hu with rfl | hu
      · exact ht
      · exact h2 u hu
    · rintro ⟨h1, h2⟩
      cases types with
      | nil => simp at h1
      | cons u ts =>
        simp only [List.map_cons, List.cons.injEq] at h1
        refine ⟨u, ⟨u.2, ?_, by rw [← h1.1]⟩, ts, (ih ts).2 ⟨h1.2, fun t ht => h2 t (List.mem_cons_of_mem _ ht)⟩, rfl⟩
        rw [← h1.1]
        exact h2 u (List.mem_cons_self)

theorem validate_iff (l : Loader I Q V) {slots : Slots Q} (hn : (slots.map (·.1)).Nodup) :
    validateSlotTypes l slots = true ↔ ∀ s ∈ slots, l.typeOf s.1 = some s.2.1 := by
  unfold validateSlotTypes
  cases hg : getInputLoaderQTypes l (slots.map (·.1)) with
  | none =>
    simp only [Bool.false_eq_true, false_iff]
    intro hall
    have := (types_some l (slots.map (·.1)) (slots.map fun s => (s.1, s.2.1))).2 ⟨by simp, by
      intro t ht
      obtain ⟨s, hs, rfl⟩ := List.mem_map.1 ht
      exact hall s hs⟩
    rw [hg] at this
    cases this
  | some types =>
    obtain ⟨h1, h2⟩ := (types_some l _ types).1 hg
    simp only [verifySlotTypes, Bool.and_eq_true, List.all_eq_true, List.any_eq_true, beq_iff_eq]
    constructor
    · rintro ⟨h3, _⟩ s hs
      have hm : s.1 ∈ types.map (·.1) := h1 ▸ List.mem_map.2 ⟨s, hs, rfl⟩
      obtain ⟨t, ht, he⟩ := List.mem_map.1 hm
      have h4 := h3 t ht
      rw [he, findSlot_of_mem hn hs] at h4
      simp only [beq_iff_eq] at h4
      rw [← he, h2 t ht, h4]
    · intro hall
      refine ⟨?_, ?_⟩
      · intro t ht
        cases hf : findSlot slots t.1 with
        | none => rfl
        | some x =>
          have := hall _ (findSlot_some hf)
          simp only at this
          rw [h2 t ht] at this
          simp only [beq_iff_eq]
          exact (Option.some.inj this).symm
      · intro s hs
        have hm : s.1 ∈ types.map (·.1) := h1 ▸ List.mem_map.2 ⟨s, hs, rfl⟩
        obtain ⟨t, ht, he⟩ := List.mem_map.1 hm
        exact ⟨t, ht, he⟩

theorem loads_nil (value : I → Name → Option V) : LoadsInto (fun _ frame => some frame : Bound I V) value ([] : Slots Q) := by
  intro input frame
  refine ⟨?_, by simp⟩
  intro frame' h
  cases h
  exact ⟨by simp, fun _ _ => rfl⟩

theorem bind_loads {l : Loader I Q V} {value : I → Name → Option V} (hl : Implements l value) {slots : Slots Q}
    (hf : Fits l.typeOf slots) : ∃ b, bind l slots = some b ∧ LoadsInto b value slots := by
  unfold bind
  rw [if_pos ((validate_iff l hf.1).2 hf.2.2)]
  by_cases he : slots = []
  · rw [if_pos he]
    subst he
    exact ⟨_, rfl, loads_nil value⟩
  · rw [if_neg he]
    exact hl slots he hf

theorem bind_none {l : Loader I Q V} {slots : Slots Q} (hn : (slots.map (·.1)).Nodup)
    (h : ∃ s ∈ slots, l.typeOf s.1 ≠ some s.2.1) : bind l slots = none := by
  unfold bind
  rw [if_neg]
  intro hv
  obtain ⟨s, hs, hne⟩ := h
  exact hne ((validate_iff l hn).1 hv s hs)

/-! ## Sequences of bound loaders -/

theorem loads_seq {b c : Bound I V} {v w u : I → Name → Option V} {s1 s2 slots : Slots Q} (hb : LoadsInto b v s1)
    (hc : LoadsInto c w s2) (hm : ∀ s, s ∈ slots ↔ s ∈ s1 ∨ s ∈ s2) (hd : ∀ s ∈ s1, ∀ t ∈ s2, s.2.2 ≠ t.2.2)
    (h1 : ∀ input, ∀ s ∈ s1, v input s.1 = u input s.1) (h2 : ∀ input, ∀ s ∈ s2, w input s.1 = u input s.1) :
    LoadsInto (fun input frame => match b input frame with
      | none => none
      | some frame' => c input frame') u slots := by
  intro input frame
  cases hbf : b input frame with
  | none =>
    simp only [hbf]
    refine ⟨fun _ h => (by cases h), fun _ => ?_⟩
    obtain ⟨s, hs, he⟩ := (hb input frame).2 hbf
    exact ⟨s, (hm s).2 (Or.inl hs), by rw [← h1 input s hs]; exact he⟩
  | some f1 =>
    obtain ⟨hb1, hb2⟩ := (hb input frame).1 f1 hbf
    simp only [hbf]
    refine ⟨?_, ?_⟩
    · intro f2 hcf
      obtain ⟨hc1, hc2⟩ := (hc input f1).1 f2 hcf
      refine ⟨?_, ?_⟩
      · intro s hs
        rcases (hm s).1 hs with hs | hs
        · rw [← h1 input s hs, hb1 s hs, hc2 s.2.2 fun t ht e => hd s hs t ht e.symm]
        · rw [← h2 input s hs, hc1 s hs]
      · intro o ho
        rw [hc2 o fun t ht => ho t ((hm t).2 (Or.inr ht)), hb2 o fun t ht => ho t ((hm t).2 (Or.inl ht))]
    · intro hcf
      obtain ⟨s, hs, he⟩ := (hc input f1).2 hcf
      exact ⟨s, (hm s).2 (Or.inr hs), by rw [← h2 input s hs]; exact he⟩

theorem loads_congr {b : Bound I V} {v u : I → Name → Option V} {s1 slots : Slots Q} (hb : LoadsInto b v s1)
    (hm : ∀ s, s ∈ slots ↔ s ∈ s1) (h1 : ∀ input, ∀ s ∈ s1, v input s.1 = u input s.1) : LoadsInto b u slots := by
  intro input frame
  refine ⟨?_, ?_⟩
  · intro f hf
    obtain ⟨h3, h4⟩ := (hb input frame).1 f hf
    exact ⟨fun s hs => by rw [← h1 input s ((hm s).1 hs)]; exact h3 s ((hm s).1 hs), fun o ho => h4 o fun t ht => ho t ((hm t).2 ht)⟩
  · intro hf
    obtain ⟨s, hs, he⟩ := (hb input frame).2 hf
    exact ⟨s, (hm s).2 hs, by rw [← h1 input s hs]; exact he⟩

theorem fits_sub {t1 t2 : Name → Option Q} {slots sub : Slots Q} (h : Fits t1 slots) (hs : sub.Sublist slots)
    (ht : ∀ s ∈ sub, t2 s.1 = some s.2.1) : Fits t2 sub :=
  ⟨h.1.sublist (hs.map _), h.2.1.sublist (hs.map _), ht⟩

theorem eq_of_offset {slots : Slots Q} (hn : (slots.map (·.2.2)).Nodup) {s t : Name × Q × Nat} (hs : s ∈ slots) (ht : t ∈ slots)
    (he : s.2.2 = t.2.2) : s = t := by
  induction slots with
  | nil => simp at hs
  | cons a l ih =>
    simp only [List.map_cons, List.nodup_cons] at hn
    rcases List.mem_cons.1 hs with hs' | hs'
    · rcases List.mem_cons.1 ht with ht' | ht'
      · rw [hs', ht']
      · exact (hn.1 (hs' ▸ he ▸ List.mem_map.2 ⟨t, ht', rfl⟩)).elim
    · rcases List.mem_cons.1 ht with ht' | ht'
      · exact (hn.1 (ht' ▸ he ▸ List.mem_map.2 ⟨s, hs', rfl⟩)).elim
      · exact ih hn.2 hs' ht'

theorem eq_of_name {slots : Slots Q} (hn : (slots.map (·.1)).Nodup) {s t : Name × Q × Nat} (hs : s ∈ slots) (ht : t ∈ slots)
    (he : s.1 = t.1) : s = t := by
  have h1 := findSlot_of_mem hn hs
  have h2 := findSlot_of_mem hn ht
  rw [he, h2] at h1
  exact Prod.ext he (Option.some.inj h1).symm

theorem extract_mem {l : Loader I Q V} {slots : Slots Q} (hn : (slots.map (·.1)).Nodup) (s : Name × Q × Nat) :
    (s ∈ (extractSupportedSlots l slots).1 ↔ s ∈ slots ∧ (l.typeOf s.1).isSome) ∧
    (s ∈ (extractSupportedSlots l slots).2 ↔ s ∈ slots ∧ l.typeOf s.1 = none) := by
  refine ⟨by simp [extractSupportedSlots], ?_⟩
  simp only [extractSupportedSlots, List.mem_filter, Bool.not_eq_true', List.any_eq_false, beq_iff_eq, and_congr_right_iff]
  intro hs
  constructor
  · intro h
    cases ht : l.typeOf s.1 with
    | none => rfl
    | some q => exact absurd rfl (h s ⟨hs, by simp [ht]⟩)
  · rintro ht t ⟨hts, htq⟩ he
    rw [he, ht] at htq
    cases htq

theorem chain_loop : ∀ (ls : List (Loader I Q V × (I → Name → Option V))), (∀ p ∈ ls, Implements p.1 p.2) → ∀ (slots : Slots Q),
    Fits (fun name => (ls.map (·.1)).findSome? fun l => l.typeOf name) slots →
    ∃ bs, bindInputLoaderLoop (ls.map (·.1)) slots = some (bs, []) ∧ LoadsInto (invokeBoundLoaders bs) (chainValue ls) slots ∧
      (bs = [] → slots = [])
  | [], _, slots, hf => by
    have hnil : slots = [] := by
      cases slots with
      | nil => rfl
      | cons s l => exact absurd (hf.2.2 s List.mem_cons_self) (by simp)
    subst hnil
    refine ⟨[], rfl, ?_, fun _ => rfl⟩
    exact loads_nil _
  | (l, v) :: ls, himp, slots, hf => by
    have hmem := fun s => extract_mem (l := l) hf.1 s
    have htype : ∀ s ∈ slots, ((l.typeOf s.1).isSome → l.typeOf s.1 = some s.2.1) ∧
        (l.typeOf s.1 = none → ((ls.map (·.1)).findSome? fun l => l.typeOf s.1) = some s.2.1) := by
      intro s hs
      have h := hf.2.2 s hs
      simp only [List.map_cons, List.findSome?_cons] at h
      cases ht : l.typeOf s.1 with
      | none =>
        rw [ht] at h
        exact ⟨by simp, fun _ => h⟩
      | some q =>
        rw [ht] at h
        exact ⟨fun _ => h, by simp⟩
    have hf1 : Fits l.typeOf (extractSupportedSlots l slots).1 := fits_sub hf List.filter_sublist fun s hs =>
      (htype s (((hmem s).1.1 hs).1)).1 ((hmem s).1.1 hs).2
    have hf2 : Fits (fun name => (ls.map (·.1)).findSome? fun l => l.typeOf name) (extractSupportedSlots l slots).2 :=
      fits_sub hf List.filter_sublist fun s hs => (htype s (((hmem s).2.1 hs).1)).2 ((hmem s).2.1 hs).2
    obtain ⟨b, hb, hbl⟩ := bind_loads (himp (l, v) List.mem_cons_self) hf1
    obtain ⟨bs, hbs, hbsl, hne⟩ := chain_loop ls (fun p hp => himp p (List.mem_cons_of_mem _ hp)) _ hf2
    simp only [List.map_cons, bindInputLoaderLoop, hb, hbs]
    have hv1 : ∀ input, ∀ s ∈ (extractSupportedSlots l slots).1, v input s.1 = chainValue ((l, v) :: ls) input s.1 := by
      intro input s hs
      simp only [chainValue]
      rw [if_pos ((hmem s).1.1 hs).2]
    have hv2 : ∀ input, ∀ s ∈ (extractSupportedSlots l slots).2, chainValue ls input s.1 = chainValue ((l, v) :: ls) input s.1 := by
      intro input s hs
      simp only [chainValue]
      rw [if_neg (by rw [((hmem s).2.1 hs).2]; simp)]
    by_cases hlen : slots.length ≠ (extractSupportedSlots l slots).2.length
    · refine ⟨b :: bs, by rw [if_pos hlen], ?_, by simp⟩
      refine loads_seq hbl hbsl ?_ ?_ hv1 hv2
      · intro s
        rw [(hmem s).1, (hmem s).2]
        cases l.typeOf s.1 <;> simp
      · intro s hs t ht he
        have h1 := (hmem s).1.1 hs
        have h2 := (hmem t).2.1 ht
        have := eq_of_offset hf.2.1 h1.1 h2.1 he
        subst this
        rw [h2.2] at h1
        simp at h1
    · have heq : (extractSupportedSlots l slots).2 = slots := by
        have hsub : (extractSupportedSlots l slots).2.Sublist slots := List.filter_sublist
        exact hsub.eq_of_length (by omega)
      refine ⟨bs, by rw [if_neg hlen], ?_, fun h => by rw [← heq]; exact hne h⟩
      exact loads_congr hbsl (fun s => by rw [heq]) hv2

theorem invoke_one (b : Bound I V) : invokeBoundLoaders [b] = b := by
  funext input frame
  simp only [invokeBoundLoaders]
  cases b input frame <;> rfl

/-! ## Accessors -/

theorem dup_iff : ∀ (names seen : List Name), seen.Nodup → (duplicatedNames seen names = [] ↔ names.Nodup ∧ ∀ n ∈ names, n ∉ seen)
  | [], seen, _ => by simp [duplicatedNames]
  | n :: names, seen, hs => by
    simp only [duplicatedNames]
    by_cases hm : n ∈ seen
    · rw [if_pos (List.count_eq_one_of_mem hs hm)]
      simp [hm]
    · rw [if_neg (by rw [List.count_eq_zero.2 hm]; omega), dup_iff names (n :: seen) (List.nodup_cons.2 ⟨hm, hs⟩)]
      simp only [List.nodup_cons, List.mem_cons, not_or]
      constructor
      · rintro ⟨h1, h2⟩
        refine ⟨⟨fun hc => (h2 n hc).1 rfl, h1⟩, ?_⟩
        rintro m (rfl | hmm)
        · exact hm
        · exact (h2 m hmm).2
      · rintro ⟨⟨h1, h2⟩, h3⟩
        exact ⟨h2, fun m hmm => ⟨fun e => h1 (e ▸ hmm), h3 m (Or.inr hmm)⟩⟩

theorem runSetters_loads (slots : Slots Q) (hf1 : (slots.map (·.1)).Nodup) (hf2 : (slots.map (·.2.2)).Nodup) (input : I) :
    ∀ (accs : List (Name × Q × (I → V))), (accs.map (·.1)).Nodup → ∀ frame : Frame V,
      let f := runSetters input ((accs.map fun a => findSlot slots a.1).zip (accs.map (·.2.2))) frame
      (∀ a ∈ accs, ∀ s ∈ slots, s.1 = a.1 → f s.2.2 = a.2.2 input) ∧
      ∀ o, (∀ a ∈ accs, ∀ s ∈ slots, s.1 = a.1 → s.2.2 ≠ o) → f o = frame o
  | [], _, frame => by simp [runSetters]
  | a :: accs, hn, frame => by
    simp only [List.map_cons, List.nodup_cons] at hn
    have hrest : ∀ o, (∀ s ∈ slots, s.1 = a.1 → s.2.2 = o) → (∃ s ∈ slots, s.1 = a.1) → ∀ b ∈ accs, ∀ s ∈ slots, s.1 = b.1 → s.2.2 ≠ o := by
      rintro o ho ⟨t, ht, hta⟩ b hb s hs hsb he
      have := eq_of_offset hf2 hs ht (he.trans (ho t ht hta).symm)
      subst this
      exact hn.1 (List.mem_map.2 ⟨b, hb, by rw [← hsb, hta]⟩)
    simp only [List.map_cons, List.zip_cons_cons]
    cases hfs : findSlot slots a.1 with
    | none =>
      have hno : ∀ s ∈ slots, s.1 ≠ a.1 := by
        intro s hs he
        have := findSlot_of_mem hf1 hs
        rw [he, hfs] at this
        cases this
      obtain ⟨ih1, ih2⟩ := runSetters_loads slots hf1 hf2 input accs hn.2 frame
      simp only [runSetters]
      refine ⟨?_, ?_⟩
      · intro b hb s hs he
        rcases List.mem_cons.1 hb with rfl | hb
        · exact (hno s hs he).elim
        · exact ih1 b hb s hs he
      · intro o ho
        exact ih2 o fun b hb => ho b (List.mem_cons_of_mem _ hb)
    | some x =>
      have hmem := findSlot_some hfs
      have hall : ∀ s ∈ slots, s.1 = a.1 → s.2.2 = x.2 := by
        intro s hs he
        have := findSlot_of_mem hf1 hs
        rw [he, hfs] at this
        rw [Option.some.inj this]
      obtain ⟨ih1, ih2⟩ := runSetters_loads slots hf1 hf2 input accs hn.2 (frame.set x.2 (a.2.2 input))
      simp only [runSetters]
      refine ⟨?_, ?_⟩
      · intro b hb s hs he
        rcases List.mem_cons.1 hb with rfl | hb
        · rw [hall s hs he, ih2 x.2 (hrest x.2 hall ⟨_, hmem, rfl⟩)]
          simp [Frame.set]
        · exact ih1 b hb s hs he
      · intro o ho
        rw [ih2 o fun b hb => ho b (List.mem_cons_of_mem _ hb)]
        have : x.2 ≠ o := ho a List.mem_cons_self _ hmem rfl
        simp [Frame.set, Ne.symm this]

theorem find_accessor {accs : List (Name × Q × (I → V))} (hn : (accs.map (·.1)).Nodup) {a : Name × Q × (I → V)} (ha : a ∈ accs) :
    (accs.find? fun b => b.1 == a.1) = some a := by
  induction accs with
  | nil => simp at ha
  | cons b l ih =>
    simp only [List.map_cons, List.nodup_cons] at hn
    rw [List.find?_cons]
    rcases List.mem_cons.1 ha with rfl | ha
    · simp
    · have hne : (b.1 == a.1) = false := by
        simp only [beq_eq_false_iff_ne, ne_eq]
        exact fun e => hn.1 (e ▸ List.mem_map.2 ⟨a, ha, rfl⟩)
      rw [hne]
      exact ih hn.2 ha

theorem accessors_implements {accs : List (Name × Q × (I → V))} (hn : (accs.map (·.1)).Nodup) :
    Implements (accessorsLoader accs) (accessorsValue accs) := by
  intro slots _ hf
  have hacc : ∀ s ∈ slots, ∃ a ∈ accs, a.1 = s.1 ∧ a.2.1 = s.2.1 := by
    intro s hs
    have := hf.2.2 s hs
    simp only [accessorsLoader, Option.map_eq_some_iff] at this
    obtain ⟨a, ha, he⟩ := this
    exact ⟨a, List.mem_of_find?_eq_some ha, by simpa using List.find?_some ha, he⟩
  have hfind : maybeFindSlotsAndVerifyTypes (accs.map fun a => (a.1, a.2.1)) slots = some (accs.map fun a => findSlot slots a.1) := by
    unfold maybeFindSlotsAndVerifyTypes
    dsimp only
    rw [if_pos]
    · simp [List.map_map, Function.comp_def]
    · rw [List.all_eq_true]
      intro p hp
      rw [List.map_map, List.zip_map', List.mem_map] at hp
      obtain ⟨a, ha, rfl⟩ := hp
      simp only [Function.comp_apply]
      cases hfs : findSlot slots a.1 with
      | none => rfl
      | some x =>
        have hmem := findSlot_some hfs
        have := hf.2.2 _ hmem
        simp only [accessorsLoader, find_accessor hn ha, Option.map_some, Option.some.injEq] at this
        simp [this]
  refine ⟨fun input frame => some (runSetters input ((accs.map fun a => findSlot slots a.1).zip (accs.map (·.2.2))) frame),
    by simp only [accessorsLoader, hfind], ?_⟩
  intro input frame
  refine ⟨?_, by simp⟩
  intro f hff
  obtain ⟨h1, h2⟩ := runSetters_loads slots hf.1 hf.2.1 input accs hn frame
  cases hff
  refine ⟨?_, ?_⟩
  · intro s hs
    obtain ⟨a, ha, he, _⟩ := hacc s hs
    simp only [accessorsValue]
    rw [← he, find_accessor hn ha, h1 a ha s hs he.symm]
    rfl
  · intro o ho
    exact h2 o fun a _ s hs _ => ho s hs

/-! ## Delegation -/

theorem consumePrefix_iff : ∀ {pre name rest : Name}, consumePrefix pre name = some rest ↔ name = pre ++ rest
  | [], name, rest => by simp [consumePrefix]
  | p :: pre, [], rest => by simp [consumePrefix]
  | p :: pre, c :: name, rest => by
    simp only [consumePrefix]
    by_cases h : p = c
    · subst h
      rw [if_pos rfl, consumePrefix_iff]
      simp
    · rw [if_neg h]
      simp [Ne.symm h]

theorem delegateSlots_some {pre : Name} : ∀ {slots : Slots Q}, (∀ s ∈ slots, ∃ n, consumePrefix pre s.1 = some n) →
    ∃ slots', delegateSlots pre slots = some slots' ∧ slots = slots'.map fun s => (pre ++ s.1, s.2)
  | [], _ => ⟨[], rfl, rfl⟩
  | s :: slots, h => by
    obtain ⟨n, hn⟩ := h s List.mem_cons_self
    obtain ⟨slots', h1, h2⟩ := delegateSlots_some (pre := pre) (slots := slots) fun t ht => h t (List.mem_cons_of_mem _ ht)
    refine ⟨(n, s.2) :: slots', by simp only [delegateSlots, hn, h1], ?_⟩
    simp only [List.map_cons, ← h2, ← consumePrefix_iff.1 hn]

theorem delegating_implements {pre : Name} {accessor : I → J} {l : Loader J Q V} {value : J → Name → Option V} (hl : Implements l value) :
    Implements (delegatingLoader pre accessor l) fun input name =>
      match consumePrefix pre name with
      | none => none
      | some name' => value (accessor input) name' := by
  intro slots _ hf
  have hpre : ∀ s ∈ slots, ∃ n, consumePrefix pre s.1 = some n := by
    intro s hs
    have := hf.2.2 s hs
    simp only [delegatingLoader] at this
    cases hc : consumePrefix pre s.1 with
    | none => rw [hc] at this; cases this
    | some n => exact ⟨n, rfl⟩
  obtain ⟨slots', hd, rfl⟩ := delegateSlots_some hpre
  have hcp : ∀ n : Name, consumePrefix pre (pre ++ n) = some n := fun n => consumePrefix_iff.2 rfl
  have hf' : Fits l.typeOf slots' := by
    refine ⟨?_, ?_, ?_⟩
    · have := hf.1
      rw [List.map_map] at this
      have h2 : (fun s : Name × Q × Nat => s.1) ∘ (fun s : Name × Q × Nat => (pre ++ s.1, s.2)) = (fun n => pre ++ n) ∘ (·.1) := rfl
      rw [h2, ← List.map_map] at this
      exact List.Nodup.of_map _ this
    · have := hf.2.1
      rw [List.map_map] at this
      exact this
    · intro s hs
      have := hf.2.2 _ (List.mem_map.2 ⟨s, hs, rfl⟩)
      simp only [delegatingLoader, hcp] at this
      exact this
  obtain ⟨b, hb, hbl⟩ := bind_loads hl hf'
  refine ⟨fun input frame => b (accessor input) frame, by simp only [delegatingLoader, hd, hb], ?_⟩
  intro input frame
  refine ⟨?_, ?_⟩
  · intro f hff
    obtain ⟨h1, h2⟩ := (hbl (accessor input) frame).1 f hff
    refine ⟨?_, ?_⟩
    · intro s hs
      obtain ⟨t, ht, rfl⟩ := List.mem_map.1 hs
      simp only [hcp]
      exact h1 t ht
    · intro o ho
      exact h2 o fun t ht => ho (pre ++ t.1, t.2) (List.mem_map.2 ⟨t, ht, rfl⟩)
  · intro hff
    obtain ⟨t, ht, he⟩ := (hbl (accessor input) frame).2 hff
    exact ⟨(pre ++ t.1, t.2), List.mem_map.2 ⟨t, ht, rfl⟩, by simp only [hcp]; exact he⟩

/-! ## Groups -/

section Groups
variable {K : Type} [DecidableEq K]

theorem addToGroup_perm (key : K) (s : Name × Q × Nat) : ∀ gs : List (K × Slots Q),
    ((addToGroup key s gs).flatMap (·.2)).Perm (s :: gs.flatMap (·.2))
  | [] => by simp [addToGroup]
  | g :: gs => by
    simp only [addToGroup]
    split
    · simp only [List.flatMap_cons, List.append_assoc, List.singleton_append]
      exact List.perm_middle
    · simp only [List.flatMap_cons]
      exact ((addToGroup_perm key s gs).append_left g.2).trans List.perm_middle

theorem addToGroup_mem (key : K) (s : Name × Q × Nat) (R : K × Slots Q → Prop) (h0 : R (key, [s]))
    (h1 : ∀ g, R g → g.1 = key → R (key, g.2 ++ [s])) : ∀ gs : List (K × Slots Q), (∀ g ∈ gs, R g) → ∀ g ∈ addToGroup key s gs, R g
  | [], _, g, hg => by
    simp only [addToGroup, List.mem_singleton] at hg
    subst hg
    exact h0
  | a :: gs, h, g, hg => by
    simp only [addToGroup] at hg
    split at hg
    · rename_i hk
      rcases List.mem_cons.1 hg with rfl | hg
      · exact h1 a (h a List.mem_cons_self) hk
      · exact h g (List.mem_cons_of_mem _ hg)
    · rcases List.mem_cons.1 hg with rfl | hg
      · exact h g List.mem_cons_self
      · exact addToGroup_mem key s R h0 h1 gs (fun b hb => h b (List.mem_cons_of_mem _ hb)) g hg

theorem groupSlots_some (name2key : Name → Option K) : ∀ (slots : Slots Q) (groups : List (K × Slots Q)),
    (∀ s ∈ slots, ∃ k, name2key s.1 = some k) → (∀ g ∈ groups, ∀ s ∈ g.2, name2key s.1 = some g.1) →
    ∃ gs, groupSlots name2key slots groups = some gs ∧ (∀ g ∈ gs, ∀ s ∈ g.2, name2key s.1 = some g.1) ∧
      (gs.flatMap (·.2)).Perm (slots ++ groups.flatMap (·.2))
  | [], groups, _, hg => ⟨groups, rfl, hg, by simp⟩
  | s :: slots, groups, hs, hg => by
    obtain ⟨k, hk⟩ := hs s List.mem_cons_self
    have hg' : ∀ g ∈ addToGroup k s groups, ∀ t ∈ g.2, name2key t.1 = some g.1 := by
      refine addToGroup_mem k s (fun g => ∀ t ∈ g.2, name2key t.1 = some g.1) ?_ ?_ groups hg
      · intro t ht
        simp only [List.mem_singleton] at ht
        subst ht
        exact hk
      · intro g hR hgk t ht
        rcases List.mem_append.1 ht with ht | ht
        · rw [← hgk]
          exact hR t ht
        · simp only [List.mem_singleton] at ht
          subst ht
          exact hk
    obtain ⟨gs, h1, h2, h3⟩ := groupSlots_some name2key slots (addToGroup k s groups) (fun t ht => hs t (List.mem_cons_of_mem _ ht)) hg'
    refine ⟨gs, by simp only [groupSlots, hk, h1], h2, h3.trans ?_⟩
    exact ((addToGroup_perm k s groups).append_left slots).trans List.perm_middle

theorem bindGroups_some {factory : K → Option (Loader I Q V)} {value : K → I → Name → Option V}
    (hfac : ∀ k l, factory k = some l → Implements l (value k)) {name2key : Name → Option K} :
    ∀ (gs : List (K × Slots Q)), (∀ g ∈ gs, ∀ s ∈ g.2, name2key s.1 = some g.1) →
      (∀ g ∈ gs, ∃ l, factory g.1 = some l ∧ ∀ s ∈ g.2, l.typeOf s.1 = some s.2.1) →
      ((gs.flatMap (·.2)).map (·.1)).Nodup → ((gs.flatMap (·.2)).map (·.2.2)).Nodup →
      ∃ bs, bindGroups factory gs = some bs ∧ bs.length = gs.length ∧
        LoadsInto (invokeBoundLoaders bs) (fun input name => match name2key name with
          | none => none
          | some k => value k input name) (gs.flatMap (·.2))
  | [], _, _, _, _ => ⟨[], rfl, rfl, loads_nil _⟩
  | g :: gs, hk, hl, hn, ho => by
    obtain ⟨l, hfl, htl⟩ := hl g List.mem_cons_self
    simp only [List.flatMap_cons, List.map_append] at hn ho
    have hn' := List.nodup_append'.1 hn
    have ho' := List.nodup_append'.1 ho
    obtain ⟨b, hb, hbl⟩ := bind_loads (hfac g.1 l hfl) (slots := g.2) ⟨hn'.1, ho'.1, htl⟩
    obtain ⟨bs, h1, h2, h3⟩ := bindGroups_some hfac gs (fun g' hg => hk g' (List.mem_cons_of_mem _ hg))
      (fun g' hg => hl g' (List.mem_cons_of_mem _ hg)) hn'.2.1 ho'.2.1
    refine ⟨b :: bs, by simp only [bindGroups, hfl, hb, h1], by simp [h2], ?_⟩
    refine loads_seq hbl h3 ?_ ?_ ?_ (fun _ _ _ => rfl)
    · intro s
      simp
    · intro s hs t ht he
      exact ho'.2.2 (List.mem_map.2 ⟨s, hs, rfl⟩) (he ▸ List.mem_map.2 ⟨t, ht, rfl⟩)
    · intro input s hs
      rw [hk g List.mem_cons_self s hs]

theorem perm_flatMap {α β : Type} {l m : List α} (h : l.Perm m) (f : α → List β) : (l.flatMap f).Perm (m.flatMap f) :=
  List.Perm.flatMap_right f h

theorem dynamic_implements {factory : K → Option (Loader I Q V)} {value : K → I → Name → Option V}
    (hfac : ∀ k l, factory k = some l → Implements l (value k)) (name2key : Name → Option K)
    {order : List (K × Slots Q) → List (K × Slots Q)} (hord : ∀ gs, (order gs).Perm gs) :
    Implements (dynamicLoader factory name2key order) fun input name => match name2key name with
      | none => none
      | some k => value k input name := by
  intro slots hne hf
  have hkey : ∀ s ∈ slots, ∃ k l, name2key s.1 = some k ∧ factory k = some l ∧ l.typeOf s.1 = some s.2.1 := by
    intro s hs
    have := hf.2.2 s hs
    simp only [dynamicLoader] at this
    cases hk : name2key s.1 with
    | none => simp [hk] at this
    | some k =>
      simp only [hk] at this
      cases hl : factory k with
      | none => simp [hl] at this
      | some l =>
        simp only [hl] at this
        exact ⟨k, l, rfl, hl, this⟩
  obtain ⟨gs, h1, h2, h3⟩ := groupSlots_some name2key slots [] (fun s hs => (hkey s hs).imp fun k ⟨_, h, _⟩ => h) (by simp)
  simp only [List.flatMap_nil, List.append_nil] at h3
  have hperm := (perm_flatMap (hord gs) (·.2)).trans h3
  have hk' : ∀ g ∈ order gs, ∀ s ∈ g.2, name2key s.1 = some g.1 := fun g hg => h2 g ((hord gs).mem_iff.1 hg)
  have hmem : ∀ g ∈ order gs, ∀ s ∈ g.2, s ∈ slots := fun g hg s hs => hperm.mem_iff.1 (List.mem_flatMap.2 ⟨g, hg, hs⟩)
  by_cases hgne : ∀ g ∈ order gs, g.2 ≠ []
  · obtain ⟨bs, hb1, hb2, hb3⟩ := bindGroups_some hfac (order gs) hk' (by
      intro g hg
      obtain ⟨s, hs⟩ := List.exists_mem_of_ne_nil _ (hgne g hg)
      obtain ⟨k, l, hk, hl, ht⟩ := hkey s (hmem g hg s hs)
      have hgk : g.1 = k := by
        have := hk' g hg s hs
        rw [hk] at this
        exact (Option.some.inj this).symm
      refine ⟨l, hgk ▸ hl, ?_⟩
      intro t ht'
      obtain ⟨k', l', hk2, hl2, ht2⟩ := hkey t (hmem g hg t ht')
      have hgk2 : g.1 = k' := by
        have := hk' g hg t ht'
        rw [hk2] at this
        exact (Option.some.inj this).symm
      rw [← hgk2, hgk, hl] at hl2
      cases hl2
      exact ht2) ((hperm.map _).nodup_iff.2 hf.1) ((hperm.map _).nodup_iff.2 hf.2.1)
    have hload : LoadsInto (invokeBoundLoaders bs) (fun input name => match name2key name with
        | none => none
        | some k => value k input name) slots := loads_congr hb3 (fun _ => hperm.mem_iff.symm) (fun _ _ _ => rfl)
    cases bs with
    | nil =>
      exfalso
      have hnil : order gs = [] := List.length_eq_zero_iff.1 hb2.symm
      rw [hnil] at hperm
      exact hne (List.Perm.eq_nil (List.Perm.symm hperm))
    | cons b bs =>
      cases bs with
      | nil =>
        refine ⟨b, by simp only [dynamicLoader, h1, hb1], ?_⟩
        rw [invoke_one] at hload
        exact hload
      | cons c bs => exact ⟨_, by simp only [dynamicLoader, h1, hb1], hload⟩
  · exfalso
    refine hgne ?_
    intro g hg
    have hg' := (hord gs).mem_iff.1 hg
    have : ∀ (slots : Slots Q) (groups gs : List (K × Slots Q)), (∀ g ∈ groups, g.2 ≠ []) → groupSlots name2key slots groups = some gs →
        ∀ g ∈ gs, g.2 ≠ [] := by
      intro slots
      induction slots with
      | nil =>
        intro groups gs hne h
        simp only [groupSlots, Option.some.injEq] at h
        subst h
        exact hne
      | cons s slots ih =>
        intro groups gs hne h
        simp only [groupSlots] at h
        cases hk : name2key s.1 with
        | none => simp [hk] at h
        | some k =>
          simp only [hk] at h
          exact ih _ gs (addToGroup_mem k s (fun g => g.2 ≠ []) (by simp) (by simp) groups hne) h
    exact this slots [] gs (by simp) h1 g hg'

end Groups

/-! ## Wildcards -/

theorem runKeyed_loads {K : Type} (accessor : I → K → Option V) (input : I) : ∀ (keyed : List (K × Nat)), (keyed.map (·.2)).Nodup →
    ∀ frame : Frame V, (∀ f, runKeyed accessor input keyed frame = some f →
        (∀ p ∈ keyed, accessor input p.1 = some (f p.2)) ∧ ∀ o, (∀ p ∈ keyed, p.2 ≠ o) → f o = frame o) ∧
      (runKeyed accessor input keyed frame = none → ∃ p ∈ keyed, accessor input p.1 = none)
  | [], _, frame => by
    refine ⟨?_, by simp [runKeyed]⟩
    intro f hf
    simp only [runKeyed, Option.some.injEq] at hf
    subst hf
    simp
  | p :: keyed, hn, frame => by
    simp only [List.map_cons, List.nodup_cons] at hn
    simp only [runKeyed]
    cases ha : accessor input p.1 with
    | none => exact ⟨by simp, fun _ => ⟨p, List.mem_cons_self, ha⟩⟩
    | some v =>
      obtain ⟨ih1, ih2⟩ := runKeyed_loads accessor input keyed hn.2 (frame.set p.2 v)
      refine ⟨?_, fun h => ?_⟩
      · intro f hf
        obtain ⟨h1, h2⟩ := ih1 f hf
        refine ⟨?_, ?_⟩
        · intro q hq
          rcases List.mem_cons.1 hq with rfl | hq
          · rw [ha, h2 q.2 fun r hr e => hn.1 (e ▸ List.mem_map.2 ⟨r, hr, rfl⟩)]
            simp [Frame.set]
          · exact h1 q hq
        · intro o ho
          rw [h2 o fun r hr => ho r (List.mem_cons_of_mem _ hr)]
          have := ho p List.mem_cons_self
          simp [Frame.set, Ne.symm this]
      · obtain ⟨q, hq, he⟩ := ih2 h
        exact ⟨q, List.mem_cons_of_mem _ hq, he⟩

theorem keyedSlots_some {K : Type} (name2key : Name → Option K) (out : Q) : ∀ (slots : Slots Q),
    (∀ s ∈ slots, (name2key s.1).isSome ∧ s.2.1 = out) →
    ∃ keyed, keyedSlots name2key out slots = some keyed ∧ keyed.map (·.2) = slots.map (·.2.2) ∧
      (∀ s ∈ slots, ∃ p ∈ keyed, name2key s.1 = some p.1 ∧ p.2 = s.2.2) ∧
      ∀ p ∈ keyed, ∃ s ∈ slots, name2key s.1 = some p.1 ∧ p.2 = s.2.2
  | [], _ => ⟨[], rfl, rfl, by simp, by simp⟩
  | s :: slots, h => by
    obtain ⟨hk, ht⟩ := h s List.mem_cons_self
    obtain ⟨k, hk⟩ := Option.isSome_iff_exists.1 hk
    obtain ⟨keyed, h1, h2, h3, h4⟩ := keyedSlots_some name2key out slots fun t ht => h t (List.mem_cons_of_mem _ ht)
    refine ⟨(k, s.2.2) :: keyed, by simp only [keyedSlots, hk, h1, if_pos ht], by simp [h2], ?_, ?_⟩
    · intro t htm
      rcases List.mem_cons.1 htm with rfl | htm
      · exact ⟨_, List.mem_cons_self, hk, rfl⟩
      · obtain ⟨p, hp, hr⟩ := h3 t htm
        exact ⟨p, List.mem_cons_of_mem _ hp, hr⟩
    · intro p hp
      rcases List.mem_cons.1 hp with rfl | hp
      · exact ⟨s, List.mem_cons_self, hk, rfl⟩
      · obtain ⟨t, ht, hr⟩ := h4 p hp
        exact ⟨t, List.mem_cons_of_mem _ ht, hr⟩

theorem wildcard_implements {K : Type} (out : Q) (accessor : I → K → Option V) (name2key : Name → Option K)
    {sort : List (K × Nat) → List (K × Nat)} (hsort : ∀ l, (sort l).Perm l) :
    Implements (wildcardLoader out accessor name2key sort) fun input name =>
      match name2key name with
      | none => none
      | some k => accessor input k := by
  intro slots _ hf
  have hk : ∀ s ∈ slots, (name2key s.1).isSome ∧ s.2.1 = out := by
    intro s hs
    have := hf.2.2 s hs
    simp only [wildcardLoader] at this
    split at this
    · rename_i h
      exact ⟨h, (Option.some.inj this).symm⟩
    · cases this
  obtain ⟨keyed, h1, h2, h3, h4⟩ := keyedSlots_some name2key out slots hk
  refine ⟨fun input frame => runKeyed accessor input (sort keyed) frame, by simp only [wildcardLoader, h1], ?_⟩
  have hnd : ((sort keyed).map (·.2)).Nodup := ((hsort keyed).map _).nodup_iff.2 (h2 ▸ hf.2.1)
  intro input frame
  obtain ⟨ha, hb⟩ := runKeyed_loads accessor input (sort keyed) hnd frame
  refine ⟨?_, ?_⟩
  · intro f hff
    obtain ⟨hc, hd⟩ := ha f hff
    refine ⟨?_, ?_⟩
    · intro s hs
      obtain ⟨p, hp, hr, he⟩ := h3 s hs
      simp only [hr, ← he]
      exact hc p ((hsort keyed).mem_iff.2 hp)
    · intro o ho
      refine hd o fun p hp => ?_
      obtain ⟨s, hs, _, he⟩ := h4 p ((hsort keyed).mem_iff.1 hp)
      rw [he]
      exact ho s hs
  · intro hff
    obtain ⟨p, hp, he⟩ := hb hff
    obtain ⟨s, hs, hr, _⟩ := h4 p ((hsort keyed).mem_iff.1 hp)
    exact ⟨s, hs, by simp only [hr]; exact he⟩

theorem runCallbacks_loads {K : Type} (accessor : I → K → Option (Q × V)) (input : I) : ∀ (keyed : List (K × Q × Nat)),
    (keyed.map (·.2.2)).Nodup → ∀ frame : Frame V, (∀ f, runCallbacks accessor input keyed frame = some f →
        (∀ p ∈ keyed, accessor input p.1 = some (p.2.1, f p.2.2)) ∧ ∀ o, (∀ p ∈ keyed, p.2.2 ≠ o) → f o = frame o) ∧
      (runCallbacks accessor input keyed frame = none → ∃ p ∈ keyed, ∀ v, accessor input p.1 ≠ some (p.2.1, v))
  | [], _, frame => by
    refine ⟨?_, by simp [runCallbacks]⟩
    intro f hf
    simp only [runCallbacks, Option.some.injEq] at hf
    subst hf
    simp
  | p :: keyed, hn, frame => by
    simp only [List.map_cons, List.nodup_cons] at hn
    simp only [runCallbacks]
    cases ha : accessor input p.1 with
    | none => exact ⟨by simp, fun _ => ⟨p, List.mem_cons_self, by simp [ha]⟩⟩
    | some tv =>
      obtain ⟨t, v⟩ := tv
      dsimp only
      by_cases ht : t = p.2.1
      · rw [if_pos ht]
        obtain ⟨ih1, ih2⟩ := runCallbacks_loads accessor input keyed hn.2 (frame.set p.2.2 v)
        refine ⟨?_, fun h => ?_⟩
        · intro f hf
          obtain ⟨h1, h2⟩ := ih1 f hf
          refine ⟨?_, ?_⟩
          · intro q hq
            rcases List.mem_cons.1 hq with rfl | hq
            · rw [ha, h2 q.2.2 fun r hr e => hn.1 (e ▸ List.mem_map.2 ⟨r, hr, rfl⟩), ht]
              simp [Frame.set]
            · exact h1 q hq
          · intro o ho
            rw [h2 o fun r hr => ho r (List.mem_cons_of_mem _ hr)]
            have := ho p List.mem_cons_self
            simp [Frame.set, Ne.symm this]
        · obtain ⟨q, hq, he⟩ := ih2 h
          exact ⟨q, List.mem_cons_of_mem _ hq, he⟩
      · rw [if_neg ht]
        refine ⟨by simp, fun _ => ⟨p, List.mem_cons_self, ?_⟩⟩
        intro w hw
        rw [ha] at hw
        simp only [Option.some.injEq, Prod.mk.injEq] at hw
        exact ht hw.1

theorem callback_implements {K : Type} (accessor : I → K → Option (Q × V)) (name2key : Name → Option K) (key2type : K → Option Q)
    {sort : List (K × Q × Nat) → List (K × Q × Nat)} (hsort : ∀ l, (sort l).Perm l) :
    Implements (callbackLoader accessor name2key key2type sort) fun input name =>
      match name2key name with
      | none => none
      | some k => match accessor input k with
        | none => none
        | some (t, v) => if key2type k = some t then some v else none := by
  intro slots _ hf
  have hk : ∀ s ∈ slots, ∃ k, name2key s.1 = some k ∧ key2type k = some s.2.1 := by
    intro s hs
    have := hf.2.2 s hs
    simp only [callbackLoader] at this
    cases hn : name2key s.1 with
    | none => simp [hn] at this
    | some k =>
      simp only [hn] at this
      exact ⟨k, rfl, this⟩
  have hoff : ∀ slots : Slots Q, (∀ s ∈ slots, ∃ k, name2key s.1 = some k ∧ key2type k = some s.2.1) →
      (slots.filterMap fun s => (name2key s.1).map fun key => (key, s.2)).map (·.2.2) = slots.map (·.2.2) := by
    intro slots
    induction slots with
    | nil => simp
    | cons s slots ih =>
      intro h
      obtain ⟨k, hk, _⟩ := h s List.mem_cons_self
      simp only [List.filterMap_cons, hk, Option.map_some, List.map_cons]
      rw [ih fun t ht => h t (List.mem_cons_of_mem _ ht)]
  have hmem : ∀ p, p ∈ sort (slots.filterMap fun s => (name2key s.1).map fun key => (key, s.2)) ↔
      ∃ s ∈ slots, name2key s.1 = some p.1 ∧ p.2 = s.2 := by
    intro p
    rw [(hsort _).mem_iff, List.mem_filterMap]
    constructor
    · rintro ⟨s, hs, he⟩
      simp only [Option.map_eq_some_iff] at he
      obtain ⟨k, hk, rfl⟩ := he
      exact ⟨s, hs, hk, rfl⟩
    · rintro ⟨s, hs, h1, h2⟩
      exact ⟨s, hs, by rw [h1, Option.map_some, ← h2]⟩
  refine ⟨_, rfl, ?_⟩
  have hnd : ((sort (slots.filterMap fun s => (name2key s.1).map fun key => (key, s.2))).map (·.2.2)).Nodup :=
    ((hsort _).map _).nodup_iff.2 (by rw [hoff slots hk]; exact hf.2.1)
  intro input frame
  obtain ⟨ha, hb⟩ := runCallbacks_loads accessor input _ hnd frame
  refine ⟨?_, ?_⟩
  · intro f hff
    obtain ⟨hc, hd⟩ := ha f hff
    refine ⟨?_, ?_⟩
    · intro s hs
      obtain ⟨k, hn, ht⟩ := hk s hs
      have := hc (k, s.2) ((hmem _).2 ⟨s, hs, hn, rfl⟩)
      simp only at this
      simp only [hn, this, ht, if_true]
    · intro o ho
      refine hd o fun p hp => ?_
      obtain ⟨s, hs, _, he⟩ := (hmem p).1 hp
      rw [he]
      exact ho s hs
  · intro hff
    obtain ⟨p, hp, he⟩ := hb hff
    obtain ⟨s, hs, hr, h2⟩ := (hmem p).1 hp
    obtain ⟨k, hn, ht⟩ := hk s hs
    rw [hr] at hn
    cases hn
    refine ⟨s, hs, ?_⟩
    simp only [hr]
    cases hacc : accessor input p.1 with
    | none => rfl
    | some tv =>
      obtain ⟨t, v⟩ := tv
      dsimp only
      rw [if_neg]
      intro hc
      rw [ht] at hc
      cases hc
      exact he v (by rw [hacc, h2])

/-! ### Names of a wildcard -/

theorem findText_at {what suf : Name} (hw : what ≠ []) : ∀ (pre : Name),
    (∀ k, k < pre.length → ¬ what <+: (pre ++ what ++ suf).drop k) → findText what (pre ++ what ++ suf) = some pre.length
  | [], _ => by
    cases what with
    | nil => exact absurd rfl hw
    | cons c what =>
      simp only [List.nil_append, List.cons_append, findText, List.length_nil]
      rw [if_pos]
      rw [List.isPrefixOf_iff_prefix]
      exact ⟨suf, rfl⟩
  | p :: pre, h => by
    simp only [List.cons_append, findText, List.length_cons]
    rw [if_neg]
    · rw [findText_at hw pre]
      · rfl
      · intro k hk
        have := h (k + 1) (by simp; omega)
        simpa using this
    · rw [List.isPrefixOf_iff_prefix]
      have := h 0 (by simp)
      simpa using this

theorem consumeSuffix_iff {suf name rest : Name} : consumeSuffix suf name = some rest ↔ name = rest ++ suf := by
  simp only [consumeSuffix, Option.map_eq_some_iff, consumePrefix_iff]
  constructor
  · rintro ⟨r, h1, rfl⟩
    have := congrArg List.reverse h1
    simpa using this
  · rintro rfl
    exact ⟨rest.reverse, by simp, by simp⟩

end Verif.Io
