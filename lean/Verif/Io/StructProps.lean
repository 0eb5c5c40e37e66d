import Verif.Io.StructSpec
import Verif.Io.LoaderLemmas

/-!
# Loaders of elements and of structs (C101)
-/

namespace Verif.Io

variable {Q V B : Type} [DecidableEq Q]

/-! ## Elements -/

/-- The loop of the bound loader over names and elements side by side. -/
def runRefs (slots : Slots Q) : List ((Name × Q) × (Q × V)) → Frame V → Option (Frame V)
  | [], frame => some frame
  | p :: ps, frame =>
    match findSlot slots p.1.1 with
    | none => runRefs slots ps frame
    | some s => if p.2.1 = s.1 then runRefs slots ps (frame.set s.2 p.2.2) else none

theorem copyRefs_zip (slots : Slots Q) : ∀ (args : List (Name × Q)) (pre inp : List (Q × V)) (frame : Frame V), inp.length = args.length →
    copyRefs (pre ++ inp) (elementIds pre.length args slots) frame = runRefs slots (args.zip inp) frame
  | [], pre, [], frame, _ => rfl
  | a :: args, pre, x :: inp, frame, h => by
    have hl : inp.length = args.length := by simpa using h
    have he : pre ++ x :: inp = (pre ++ [x]) ++ inp := by simp
    have ih := fun f => copyRefs_zip slots args (pre ++ [x]) inp f hl
    simp only [List.length_append, List.length_cons, List.length_nil, Nat.zero_add] at ih
    simp only [elementIds, List.zip_cons_cons, runRefs]
    cases hf : findSlot slots a.1 with
    | none =>
      dsimp only
      rw [he]
      exact ih frame
    | some s =>
      simp only [copyRefs]
      have hx : (pre ++ x :: inp)[pre.length]? = some x := by simp
      simp only [hx]
      rw [he]
      split
      · exact ih _
      · rfl
  | [], _, _ :: _, _, h => by simp at h
  | _ :: _, _, [], _, h => by simp at h

theorem runRefs_loads {slots : Slots Q} (hn : (slots.map (·.1)).Nodup) (ho : (slots.map (·.2.2)).Nodup) :
    ∀ (ps : List ((Name × Q) × (Q × V))), (ps.map (·.1.1)).Nodup → (∀ p ∈ ps, ∀ s ∈ slots, s.1 = p.1.1 → p.1.2 = s.2.1) → ∀ frame : Frame V,
      (∀ f, runRefs slots ps frame = some f →
        (∀ p ∈ ps, ∀ s ∈ slots, s.1 = p.1.1 → p.1.2 = p.2.1 ∧ f s.2.2 = p.2.2) ∧
        ∀ o, (∀ p ∈ ps, ∀ s ∈ slots, s.1 = p.1.1 → s.2.2 ≠ o) → f o = frame o) ∧
      (runRefs slots ps frame = none → ∃ p ∈ ps, ∃ s ∈ slots, s.1 = p.1.1 ∧ p.1.2 ≠ p.2.1)
  | [], _, _, frame => by
    refine ⟨?_, by simp [runRefs]⟩
    intro f hf
    simp only [runRefs, Option.some.injEq] at hf
    subst hf
    simp
  | p :: ps, hp, ht, frame => by
    simp only [List.map_cons, List.nodup_cons] at hp
    have ih := runRefs_loads hn ho ps hp.2 fun q hq => ht q (List.mem_cons_of_mem _ hq)
    simp only [runRefs]
    cases hf : findSlot slots p.1.1 with
    | none =>
      dsimp only
      have hno : ∀ s ∈ slots, s.1 ≠ p.1.1 := by
        intro s hs he
        have := findSlot_of_mem hn hs
        rw [he, hf] at this
        cases this
      obtain ⟨h1, h2⟩ := ih frame
      refine ⟨?_, ?_⟩
      · intro f hff
        obtain ⟨h3, h4⟩ := h1 f hff
        refine ⟨?_, ?_⟩
        · intro q hq s hs he
          rcases List.mem_cons.1 hq with rfl | hq
          · exact absurd he (hno s hs)
          · exact h3 q hq s hs he
        · intro o hoo
          exact h4 o fun q hq => hoo q (List.mem_cons_of_mem _ hq)
      · intro hff
        obtain ⟨q, hq, hr⟩ := h2 hff
        exact ⟨q, List.mem_cons_of_mem _ hq, hr⟩
    | some x =>
      dsimp only
      have hm := findSlot_some hf
      have hty := ht p List.mem_cons_self _ hm rfl
      simp only at hty
      by_cases he : p.2.1 = x.1
      · rw [if_pos he]
        obtain ⟨h1, h2⟩ := ih (frame.set x.2 p.2.2)
        refine ⟨?_, ?_⟩
        · intro f hff
          obtain ⟨h3, h4⟩ := h1 f hff
          refine ⟨?_, ?_⟩
          · intro q hq s hs hqs
            rcases List.mem_cons.1 hq with rfl | hq
            · have hsx : s = (q.1.1, x) := eq_of_name hn hs hm hqs
              subst hsx
              refine ⟨hty.trans he.symm, ?_⟩
              rw [h4 x.2 ?_]
              · simp [Frame.set]
              · intro r hr t ht' hrt heq
                have := eq_of_offset ho ht' hm heq
                rw [this] at hrt
                exact hp.1 (by rw [hrt]; exact List.mem_map.2 ⟨r, hr, rfl⟩)
            · exact h3 q hq s hs hqs
          · intro o hoo
            rw [h4 o fun q hq => hoo q (List.mem_cons_of_mem _ hq)]
            have := hoo p List.mem_cons_self _ hm rfl
            simp only [Frame.set]
            rw [if_neg (Ne.symm this)]
        · intro hff
          obtain ⟨q, hq, hr⟩ := h2 hff
          exact ⟨q, List.mem_cons_of_mem _ hq, hr⟩
      · rw [if_neg he]
        refine ⟨by simp, fun _ => ⟨p, List.mem_cons_self, _, hm, rfl, ?_⟩⟩
        rw [hty]
        exact fun e => he e.symm

theorem find_ref {ps : List ((Name × Q) × (Q × V))} (hp : (ps.map (·.1.1)).Nodup) {p : (Name × Q) × (Q × V)} (hm : p ∈ ps) :
    (ps.findSome? fun q => if q.1.1 = p.1.1 ∧ q.1.2 = q.2.1 then some q.2.2 else none) = if p.1.2 = p.2.1 then some p.2.2 else none := by
  induction ps with
  | nil => simp at hm
  | cons q ps ih =>
    simp only [List.map_cons, List.nodup_cons] at hp
    have hrest : ∀ n, n ∉ ps.map (·.1.1) → (ps.findSome? fun q => if q.1.1 = n ∧ q.1.2 = q.2.1 then some q.2.2 else none) = none := by
      intro n hn
      rw [List.findSome?_eq_none_iff]
      intro r hr
      rw [if_neg]
      rintro ⟨e, _⟩
      exact hn (e ▸ List.mem_map.2 ⟨r, hr, rfl⟩)
    rcases List.mem_cons.1 hm with rfl | hm
    · rw [List.findSome?_cons]
      by_cases h : p.1.2 = p.2.1
      · simp [h]
      · simp only [h, and_false, if_false]
        exact hrest _ hp.1
    · have hne : q.1.1 ≠ p.1.1 := fun e => hp.1 (e ▸ List.mem_map.2 ⟨p, hm, rfl⟩)
      rw [List.findSome?_cons]
      simp only [hne, false_and, if_false]
      exact ih hp.2 hm

theorem zip_fst {α β : Type} : ∀ (l : List α) (m : List β), l.length = m.length → (l.zip m).map Prod.fst = l
  | [], _, _ => rfl
  | a :: l, [], h => by simp at h
  | a :: l, b :: m, h => by
    simp only [List.zip_cons_cons, List.map_cons]
    rw [zip_fst l m (by simpa using h)]

/-- **A loader of typed references gives every name the element in its place**, if the names are different. -/
theorem typed_refs_spec {args : List (Name × Q)} (hn : (args.map (·.1)).Nodup) :
    Implements (typedRefsLoader args : Loader (List (Q × V)) Q V) (refsValue args) ∧
    ∀ a ∈ args, (typedRefsLoader args : Loader (List (Q × V)) Q V).typeOf a.1 = some a.2 := by
  have hfind : ∀ a ∈ args, (args.find? fun b => b.1 == a.1) = some a := by
    intro a ha
    induction args with
    | nil => simp at ha
    | cons b args ih =>
      simp only [List.map_cons, List.nodup_cons] at hn
      rcases List.mem_cons.1 ha with rfl | ha
      · simp
      · have : b.1 ≠ a.1 := fun e => hn.1 (e ▸ List.mem_map.2 ⟨a, ha, rfl⟩)
        rw [List.find?_cons_of_neg (by simpa using this)]
        exact ih hn.2 ha
  refine ⟨?_, fun a ha => by simp only [typedRefsLoader, hfind a ha, Option.map_some]⟩
  intro slots hne hf
  refine ⟨_, rfl, ?_⟩
  have hin : ∀ s ∈ slots, (s.1, s.2.1) ∈ args := by
    intro s hs
    have := hf.2.2 s hs
    simp only [typedRefsLoader, Option.map_eq_some_iff] at this
    obtain ⟨a, ha, he⟩ := this
    have h1 := List.mem_of_find?_eq_some ha
    have h2 := List.find?_some ha
    simp only [beq_iff_eq] at h2
    rw [← h2, ← he]
    exact h1
  intro input frame
  by_cases hl : input.length = args.length
  · have hz := copyRefs_zip slots args [] input frame hl
    simp only [List.nil_append, List.length_nil] at hz
    simp only [hl, ne_eq, not_true_eq_false, if_false, hz]
    have hps : ((args.zip input).map (·.1.1)).Nodup := by
      have : (args.zip input).map (·.1.1) = ((args.zip input).map Prod.fst).map (·.1) := by simp [List.map_map, Function.comp_def]
      rw [this, zip_fst _ _ hl.symm]
      exact hn
    have hpm : ∀ p ∈ args.zip input, p.1 ∈ args := fun p hp => (List.of_mem_zip hp).1
    have hty : ∀ p ∈ args.zip input, ∀ s ∈ slots, s.1 = p.1.1 → p.1.2 = s.2.1 := by
      intro p hp s hs he
      have h1 := hfind _ (hpm p hp)
      have h2 := hfind _ (hin s hs)
      simp only at h2
      rw [he, h1] at h2
      injection h2 with h2
      rw [h2]
    obtain ⟨h1, h2⟩ := runRefs_loads hf.1 hf.2.1 (args.zip input) hps hty frame
    have hval : ∀ s ∈ slots, ∃ p ∈ args.zip input, p.1.1 = s.1 ∧ refsValue args input s.1 = if p.1.2 = p.2.1 then some p.2.2 else none := by
      intro s hs
      have hm : (s.1, s.2.1) ∈ (args.zip input).map Prod.fst := by
        rw [zip_fst _ _ hl.symm]
        exact hin s hs
      obtain ⟨p, hp, he⟩ := List.mem_map.1 hm
      refine ⟨p, hp, by rw [he], ?_⟩
      unfold refsValue
      rw [if_pos hl]
      have := find_ref hps hp
      rw [he] at this ⊢
      exact this
    refine ⟨?_, ?_⟩
    · intro f hff
      obtain ⟨h3, h4⟩ := h1 f hff
      refine ⟨?_, fun o hoo => h4 o fun p _ s hs _ => hoo s hs⟩
      intro s hs
      obtain ⟨p, hp, he, hv⟩ := hval s hs
      obtain ⟨h5, h6⟩ := h3 p hp s hs he.symm
      rw [hv, if_pos h5, h6]
    · intro hff
      obtain ⟨p, hp, s, hs, he, hpne⟩ := h2 hff
      refine ⟨s, hs, ?_⟩
      unfold refsValue
      rw [if_pos hl, he, find_ref hps hp, if_neg hpne]
  · simp only [ne_eq, hl, not_false_eq_true, if_true]
    refine ⟨by simp, fun _ => ?_⟩
    obtain ⟨s, hs⟩ := List.exists_mem_of_ne_nil _ hne
    exact ⟨s, hs, by simp [refsValue, hl]⟩

theorem copyElements_refs (t : Q) (input : List V) : ∀ (es : List (Nat × Q × Nat)) (frame : Frame V), (∀ e ∈ es, e.2.1 = t) →
    copyElements input es frame = copyRefs (input.map fun v => (t, v)) es frame
  | [], frame, _ => rfl
  | e :: es, frame, h => by
    simp only [copyElements, copyRefs, List.getElem?_map]
    have h0 := h e List.mem_cons_self
    cases input[e.1]? with
    | none => rfl
    | some v =>
      simp only [Option.map_some, h0, if_true]
      exact copyElements_refs t input es _ fun e' he' => h e' (List.mem_cons_of_mem _ he')

theorem elementIds_mem {slots : Slots Q} : ∀ (args : List (Name × Q)) (i : Nat), ∀ e ∈ elementIds i args slots, ∃ name, (name, e.2) ∈ slots
  | [], _, e, he => by simp [elementIds] at he
  | a :: args, i, e, he => by
    simp only [elementIds] at he
    cases hf : findSlot slots a.1 with
    | none =>
      simp only [hf] at he
      exact elementIds_mem args (i + 1) e he
    | some s =>
      simp only [hf] at he
      rcases List.mem_cons.1 he with rfl | he
      · exact ⟨a.1, findSlot_some hf⟩
      · exact elementIds_mem args (i + 1) e he

theorem spanValue_refs (t : Q) (name : Name) : ∀ (names : List Name) (input : List V),
    ((names.zip input).findSome? fun p => if p.1 = name then some p.2 else none) =
      (((names.map fun n => (n, t)).zip (input.map fun v => (t, v))).findSome? fun p => if p.1.1 = name ∧ p.1.2 = p.2.1 then some p.2.2 else none)
  | [], _ => rfl
  | _ :: _, [] => rfl
  | n :: names, v :: input => by
    simp only [List.map_cons, List.zip_cons_cons, List.findSome?_cons]
    rw [← spanValue_refs t name names input]
    simp

/-- **A loader of a span gives every name the element in its place**, if the names are different. -/
theorem span_spec (t : Q) {names : List Name} (hn : names.Nodup) :
    Implements (spanLoader t names : Loader (List V) Q V) (spanValue names) ∧
    ∀ name, (spanLoader t names : Loader (List V) Q V).typeOf name = if name ∈ names then some t else none := by
  have htype : ∀ name, (spanLoader t names : Loader (List V) Q V).typeOf name = if name ∈ names then some t else none := by
    intro name
    simp only [spanLoader]
    by_cases h : name ∈ names
    · rw [if_pos h]
      cases hf : names.find? fun n => n == name with
      | none =>
        rw [List.find?_eq_none] at hf
        exact absurd (beq_self_eq_true name) (by simpa using hf name h)
      | some x => rfl
    · rw [if_neg h]
      cases hf : names.find? fun n => n == name with
      | none => rfl
      | some x =>
        have h1 := List.mem_of_find?_eq_some hf
        have h2 := List.find?_some hf
        simp only [beq_iff_eq] at h2
        exact absurd (h2 ▸ h1) h
  refine ⟨?_, htype⟩
  intro slots hne hf
  have hst : ∀ s ∈ slots, s.1 ∈ names ∧ s.2.1 = t := by
    intro s hs
    have := hf.2.2 s hs
    rw [htype] at this
    split at this
    · rename_i h
      exact ⟨h, (Option.some.inj this).symm⟩
    · cases this
  have hes : ∀ e ∈ elementIds 0 (names.map fun n => (n, t)) slots, e.2.1 = t := by
    intro e he
    obtain ⟨name, hm⟩ := elementIds_mem _ 0 e he
    exact (hst _ hm).2
  have hargs : ((names.map fun n => (n, t)).map (·.1)).Nodup := by
    simpa [List.map_map, Function.comp_def] using hn
  obtain ⟨himp, htr⟩ := typed_refs_spec (V := V) hargs
  have hfit : Fits (typedRefsLoader (names.map fun n => (n, t)) : Loader (List (Q × V)) Q V).typeOf slots := by
    refine ⟨hf.1, hf.2.1, fun s hs => ?_⟩
    obtain ⟨h1, h2⟩ := hst s hs
    have := htr (s.1, t) (List.mem_map.2 ⟨s.1, h1, rfl⟩)
    rw [h2]
    exact this
  obtain ⟨b, hb, hload⟩ := himp slots hne hfit
  refine ⟨fun input frame => b (input.map fun v => (t, v)) frame, ?_, ?_⟩
  · simp only [spanLoader]
    rw [if_pos]
    · simp only [typedRefsLoader, Option.some.injEq] at hb
      rw [← hb]
      congr 1
      funext input frame
      simp only [List.length_map]
      rw [copyElements_refs t input _ frame hes]
    · rw [List.all_eq_true]
      intro e he
      simp [hes e he]
  · intro input frame
    obtain ⟨h1, h2⟩ := hload (input.map fun v => (t, v)) frame
    have hv : ∀ name, refsValue (names.map fun n => (n, t)) (input.map fun v => (t, v)) name = spanValue names input name := by
      intro name
      unfold refsValue spanValue
      rw [spanValue_refs t name names input]
      simp only [List.length_map]
    simp only [hv] at h1 h2
    exact ⟨h1, h2⟩

theorem tupleSlots_some (slots : Slots Q) : ∀ (args : List (Name × Q)) (found : List (Q × Nat)),
    tupleSlots args slots = some found ↔ args.map (fun a => findSlot slots a.1) = found.map some
  | [], found => by
    simp only [tupleSlots, List.mapM_nil, Option.pure_def, Option.some.injEq, List.map_nil]
    cases found <;> simp
  | a :: args, found => by
    have ih := tupleSlots_some slots args
    unfold tupleSlots at ih ⊢
    simp only [List.mapM_cons, Option.bind_eq_bind, Option.bind_eq_some_iff, Option.pure_def, Option.some.injEq, List.map_cons]
    cases found with
    | nil => simp
    | cons x found =>
      simp only [List.cons.injEq, List.map_cons]
      constructor
      · rintro ⟨y, hy, ys, hys, rfl, rfl⟩
        exact ⟨hy, (ih _).1 hys⟩
      · rintro ⟨hy, hys⟩
        exact ⟨x, hy, found, (ih _).2 hys, rfl, rfl⟩

theorem tupleLoad_spec : ∀ (es : List (Q × V)) (ss : List (Q × Nat)) (frame : Frame V), es.map (·.1) = ss.map (·.1) → (ss.map (·.2)).Nodup →
    ∃ f, tupleLoad es ss frame = some f ∧ (∀ (i : Nat) (e : Q × V) (s : Q × Nat), es[i]? = some e → ss[i]? = some s → f s.2 = e.2) ∧
      ∀ o, (∀ s ∈ ss, s.2 ≠ o) → f o = frame o
  | [], [], frame, _, _ => ⟨frame, rfl, by simp, by simp⟩
  | e :: es, s :: ss, frame, h, hn => by
    simp only [List.map_cons, List.cons.injEq, List.nodup_cons] at h hn
    obtain ⟨f, h1, h2, h3⟩ := tupleLoad_spec es ss (frame.set s.2 e.2) h.2 hn.2
    refine ⟨f, by simp only [tupleLoad, h.1, if_true, h1], ?_, ?_⟩
    · intro i e' s' he hs
      cases i with
      | zero =>
        simp only [List.getElem?_cons_zero, Option.some.injEq] at he hs
        subst he hs
        rw [h3 s.2 fun t ht e => hn.1 (e ▸ List.mem_map.2 ⟨t, ht, rfl⟩)]
        simp [Frame.set]
      | succ i => exact h2 i e' s' (by simpa using he) (by simpa using hs)
    · intro o ho
      rw [h3 o fun t ht => ho t (List.mem_cons_of_mem _ ht)]
      simp only [Frame.set]
      rw [if_neg (Ne.symm (ho s List.mem_cons_self))]
  | [], _ :: _, _, h, _ => by simp at h
  | _ :: _, [], _, h, _ => by simp at h

/-- **A loader of a tuple with different names writes every element to the slot of its name** and does nothing undefined; it can be bound
to slots for all names with their types. -/
theorem tuple_spec {args : List (Name × Q)} (hn : (args.map (·.1)).Nodup) {slots : Slots Q} (hsn : (slots.map (·.1)).Nodup)
    (hso : (slots.map (·.2.2)).Nodup) (hne : slots ≠ []) :
    ((tupleBind args slots).isSome ↔ ∀ name t, (∃ o, (name, t, o) ∈ slots) ↔ (name, t) ∈ args) ∧
    ∀ found, tupleBind args slots = some found → ∀ (es : List (Q × V)), es.map (·.1) = args.map (·.2) → ∀ frame : Frame V,
      ∃ f, tupleLoad es found frame = some f ∧
        (∀ (i : Nat) (a : Name × Q) (e : Q × V) o, args[i]? = some a → es[i]? = some e → (a.1, a.2, o) ∈ slots → f o = e.2) ∧
        ∀ o, (∀ s ∈ slots, s.2.2 ≠ o) → f o = frame o := by
  have hfind : ∀ a ∈ args, (args.find? fun b => b.1 == a.1) = some a := by
    intro a ha
    induction args with
    | nil => simp at ha
    | cons b args ih =>
      simp only [List.map_cons, List.nodup_cons] at hn
      rcases List.mem_cons.1 ha with rfl | ha
      · simp
      · have : b.1 ≠ a.1 := fun e => hn.1 (e ▸ List.mem_map.2 ⟨a, ha, rfl⟩)
        rw [List.find?_cons_of_neg (by simpa using this)]
        exact ih hn.2 ha
  have htype : ∀ name t, (args.find? fun b => b.1 == name).map (·.2) = some t ↔ (name, t) ∈ args := by
    intro name t
    constructor
    · intro h
      simp only [Option.map_eq_some_iff] at h
      obtain ⟨a, ha, rfl⟩ := h
      have h1 := List.mem_of_find?_eq_some ha
      have h2 := List.find?_some ha
      simp only [beq_iff_eq] at h2
      rw [← h2]
      exact h1
    · intro h
      have := hfind _ h
      simp only at this
      rw [this]
      rfl
  have hval := validate_iff (⟨fun name => (args.find? fun a => a.1 == name).map (·.2), fun _ => none⟩ : Loader Unit Q Unit) hsn
  simp only [htype] at hval
  unfold tupleBind
  dsimp only
  by_cases hv : validateSlotTypes (⟨fun name => (args.find? fun a => a.1 == name).map (·.2), fun _ => none⟩ : Loader Unit Q Unit) slots = true
  · rw [if_pos hv, if_neg hne]
    have hall := hval.1 hv
    refine ⟨?_, ?_⟩
    · constructor
      · intro hs
        obtain ⟨found, hfo⟩ := Option.isSome_iff_exists.1 hs
        rw [tupleSlots_some] at hfo
        intro name t
        refine ⟨fun ⟨o, ho⟩ => hall _ ho, fun ha => ?_⟩
        have hm : findSlot slots name ∈ found.map some := by
          rw [← hfo]
          exact List.mem_map.2 ⟨_, ha, rfl⟩
        obtain ⟨x, _, hx⟩ := List.mem_map.1 hm
        have hxs := findSlot_some hx.symm
        have h1 := hfind _ (hall _ hxs)
        have h2 := hfind _ ha
        simp only at h1 h2
        rw [h1] at h2
        injection h2 with h2
        injection h2 with _ h2
        exact ⟨x.2, by rw [← h2]; exact hxs⟩
      · intro h
        have : ∀ as : List (Name × Q), (∀ a ∈ as, a ∈ args) → ∃ found : List (Q × Nat), as.map (fun a => findSlot slots a.1) = found.map some := by
          intro as
          induction as with
          | nil => exact fun _ => ⟨[], rfl⟩
          | cons a as ih =>
            intro hsub
            obtain ⟨o, ho⟩ := (h a.1 a.2).2 (hsub a List.mem_cons_self)
            obtain ⟨found, hfo⟩ := ih fun b hb => hsub b (List.mem_cons_of_mem _ hb)
            have := findSlot_of_mem hsn ho
            simp only at this
            exact ⟨(a.2, o) :: found, by simp only [List.map_cons, this, hfo]⟩
        obtain ⟨found, hfo⟩ := this args fun a ha => ha
        rw [Option.isSome_iff_exists]
        exact ⟨found, (tupleSlots_some slots args found).2 hfo⟩
    · intro found hfo es hes frame
      rw [tupleSlots_some] at hfo
      have hpt : ∀ (i : Nat) (a : Name × Q), args[i]? = some a → ∃ s, found[i]? = some s ∧ findSlot slots a.1 = some s := by
        intro i a ha
        have := congrArg (fun l => l[i]?) hfo
        simp only [List.getElem?_map, ha, Option.map_some] at this
        cases hx : found[i]? with
        | none => simp [hx] at this
        | some s =>
          simp only [hx, Option.map_some, Option.some.injEq] at this
          exact ⟨s, rfl, this⟩
      have hlen : found.length = args.length := by
        have := congrArg List.length hfo
        simpa using this.symm
      have htys : ∀ (i : Nat) (a : Name × Q) (s : Q × Nat), args[i]? = some a → found[i]? = some s → s.1 = a.2 := by
        intro i a s ha hs
        obtain ⟨s', hs', hf⟩ := hpt i a ha
        rw [hs] at hs'
        cases hs'
        have h1 := hfind _ (hall _ (findSlot_some hf))
        have h2 := hfind _ (List.mem_of_getElem? ha)
        simp only at h1
        rw [h1] at h2
        injection h2 with h2
        rw [← h2]
      have hft : found.map (·.1) = args.map (·.2) := by
        apply List.ext_getElem?
        intro i
        simp only [List.getElem?_map]
        cases ha : args[i]? with
        | none =>
          have : found[i]? = none := by
            rw [List.getElem?_eq_none_iff] at ha ⊢
            omega
          rw [this]
          rfl
        | some a =>
          obtain ⟨s, hs, _⟩ := hpt i a ha
          rw [hs]
          simp only [Option.map_some, htys i a s ha hs]
      have hfn : (found.map (·.2)).Nodup := by
        have hmap : ∀ (as : List (Name × Q)) (fs : List (Q × Nat)), (as.map (·.1)).Nodup → as.map (fun a => findSlot slots a.1) = fs.map some →
            (fs.map (·.2)).Nodup ∧ ∀ f ∈ fs, ∃ a ∈ as, (a.1, f) ∈ slots := by
          intro as
          induction as with
          | nil =>
            intro fs _ he
            cases fs with
            | nil => simp
            | cons f fs => simp at he
          | cons a as ih =>
            intro fs hnd he
            cases fs with
            | nil => simp at he
            | cons f fs =>
              simp only [List.map_cons, List.cons.injEq, List.nodup_cons] at he hnd
              obtain ⟨i1, i2⟩ := ih fs hnd.2 he.2
              refine ⟨?_, ?_⟩
              · simp only [List.map_cons, List.nodup_cons]
                refine ⟨?_, i1⟩
                intro hmem
                obtain ⟨g, hg, hge⟩ := List.mem_map.1 hmem
                obtain ⟨b, hb, hbs⟩ := i2 g hg
                have := eq_of_offset hso hbs (findSlot_some he.1) hge
                injection this with this _
                exact hnd.1 (this ▸ List.mem_map.2 ⟨b, hb, rfl⟩)
              · intro g hg
                rcases List.mem_cons.1 hg with rfl | hg
                · exact ⟨a, List.mem_cons_self, findSlot_some he.1⟩
                · obtain ⟨b, hb, hbs⟩ := i2 g hg
                  exact ⟨b, List.mem_cons_of_mem _ hb, hbs⟩
        exact (hmap args found hn hfo).1
      obtain ⟨f, h1, h2, h3⟩ := tupleLoad_spec es found frame (by rw [hes, hft]) hfn
      refine ⟨f, h1, ?_, ?_⟩
      · intro i a e o ha he ho
        obtain ⟨s, hs, hf⟩ := hpt i a ha
        have := findSlot_of_mem hsn ho
        simp only [hf, Option.some.injEq] at this
        rw [this] at hs
        exact h2 i e _ he hs
      · intro o ho
        refine h3 o fun s hs => ?_
        have hm : some s ∈ args.map fun a => findSlot slots a.1 := by
          rw [hfo]
          exact List.mem_map.2 ⟨s, hs, rfl⟩
        obtain ⟨a, _, ha⟩ := List.mem_map.1 hm
        exact ho _ (findSlot_some ha)
  · rw [if_neg hv]
    refine ⟨⟨fun h => by simp at h, fun h => ?_⟩, by simp⟩
    exact absurd (hval.2 fun s hs => (h s.1 s.2.1).1 ⟨s.2.2, hs⟩) hv

/-- With a repeated name of different types a tuple loader can be bound, and loading writes to a slot of another type. -/
theorem tuple_duplicate_counterexample : ∃ found, tupleBind [(['x'], true), (['x'], false)] [(['x'], true, 0)] = some found ∧
    tupleLoad [(true, 1), (false, 2)] found (fun _ => 0) = none := ⟨[(true, 0), (true, 0)], by decide +kernel⟩

/-- With a repeated name of different types a loader of typed references can be bound, and loading fails for all inputs. -/
theorem typed_refs_duplicate_counterexample (x y : Nat) :
    ∃ b, bind (typedRefsLoader [(['x'], true), (['x'], false)] : Loader (List (Bool × Nat)) Bool Nat) [(['x'], true, 0)] = some b ∧
      b [(true, x), (false, y)] (fun _ => 0) = none := by
  refine ⟨_, rfl, ?_⟩
  simp [typedRefsLoader, elementIds, findSlot, copyRefs]

/-! ## Structs -/

/-- A list of copies: size, source and destination. -/
def runOps (src : List B) : List (Nat × Nat × Nat) → List B → Option (List B)
  | [], dst => some dst
  | op :: ops, dst => (copyBytes op.1 src op.2.1 dst op.2.2).bind (runOps src ops)

theorem runOps_append (src : List B) : ∀ (o1 o2 : List (Nat × Nat × Nat)) (dst : List B),
    runOps src (o1 ++ o2) dst = (runOps src o1 dst).bind (runOps src o2)
  | [], _, _ => rfl
  | op :: o1, o2, dst => by
    simp only [List.cons_append, runOps]
    cases copyBytes op.1 src op.2.1 dst op.2.2 with
    | none => rfl
    | some d => exact runOps_append src o1 o2 d

theorem copyLoop_ops (n : Nat) (src : List B) : ∀ (ps : List (Nat × Nat)) (dst : List B),
    copyLoop n src ps dst = runOps src (ps.map fun p => (n, p)) dst
  | [], _ => rfl
  | p :: ps, dst => by
    simp only [copyLoop, List.map_cons, runOps]
    cases copyBytes n src p.1 dst p.2 with
    | none => rfl
    | some d => exact copyLoop_ops n src ps d

/-- The copies of a `StructIO`. -/
def opsOf (size : Q → Nat) (io : StructIO Q) : List (Nat × Nat × Nat) :=
  io.bools.map (fun p => (1, p)) ++ (io.bits32.map (fun p => (4, p)) ++ (io.bits64.map (fun p => (8, p)) ++
    io.other.flatMap fun g => g.2.map fun p => (size g.1, p)))

theorem copyOther_ops (size : Q → Nat) (src : List B) : ∀ (gs : List (Q × List (Nat × Nat))) (dst : List B),
    copyOther size src gs dst = runOps src (gs.flatMap fun g => g.2.map fun p => (size g.1, p)) dst
  | [], _ => rfl
  | g :: gs, dst => by
    simp only [copyOther, List.flatMap_cons, runOps_append, copyLoop_ops]
    cases runOps src (g.2.map fun p => (size g.1, p)) dst with
    | none => rfl
    | some d => exact copyOther_ops size src gs d

theorem copyStruct_ops (size : Q → Nat) (io : StructIO Q) (src dst : List B) : copyStructToFrame size io src dst = runOps src (opsOf size io) dst := by
  unfold copyStructToFrame opsOf
  rw [runOps_append, copyLoop_ops]
  cases runOps src (io.bools.map fun p => (1, p)) dst with
  | none => rfl
  | some d1 =>
    dsimp only [Option.bind_some]
    rw [runOps_append, copyLoop_ops]
    cases runOps src (io.bits32.map fun p => (4, p)) d1 with
    | none => rfl
    | some d2 =>
      dsimp only [Option.bind_some]
      rw [runOps_append, copyLoop_ops]
      cases runOps src (io.bits64.map fun p => (8, p)) d2 with
      | none => rfl
      | some d3 => exact copyOther_ops size src io.other d3

theorem copyBytes_get {n s d : Nat} {src dst : List B} (h : s + n ≤ src.length ∧ d + n ≤ dst.length) :
    ∃ dst', copyBytes n src s dst d = some dst' ∧ dst'.length = dst.length ∧ (∀ i, i < n → dst'[d + i]? = src[s + i]?) ∧
      ∀ a : Nat, a < d ∨ d + n ≤ a → dst'[a]? = dst[a]? := by
  refine ⟨dst.take d ++ (src.drop s).take n ++ dst.drop (d + n), by simp only [copyBytes, if_pos h], ?_, ?_, ?_⟩
  · simp only [List.length_append, List.length_take, List.length_drop]
    omega
  · intro i hi
    rw [List.append_assoc, List.getElem?_append_right (by simp; omega), List.getElem?_append_left (by simp; omega)]
    simp only [List.length_take, List.getElem?_take, List.getElem?_drop]
    rw [if_pos (by omega)]
    congr 1
    omega
  · intro a ha
    rcases ha with ha | ha
    · rw [List.append_assoc, List.getElem?_append_left (by simp; omega), List.getElem?_take, if_pos ha]
    · rw [List.append_assoc, List.getElem?_append_right (by simp; omega), List.getElem?_append_right (by simp; omega)]
      simp only [List.length_take, List.length_drop, List.getElem?_drop]
      congr 1
      omega

theorem runOps_spec (src : List B) : ∀ (ops : List (Nat × Nat × Nat)) (dst : List B),
    (∀ op ∈ ops, op.2.1 + op.1 ≤ src.length ∧ op.2.2 + op.1 ≤ dst.length) →
    ops.Pairwise (fun a b => a.2.2 + a.1 ≤ b.2.2 ∨ b.2.2 + b.1 ≤ a.2.2) →
    ∃ dst', runOps src ops dst = some dst' ∧ dst'.length = dst.length ∧ (∀ op ∈ ops, ∀ i, i < op.1 → dst'[op.2.2 + i]? = src[op.2.1 + i]?) ∧
      ∀ a : Nat, (∀ op ∈ ops, a < op.2.2 ∨ op.2.2 + op.1 ≤ a) → dst'[a]? = dst[a]?
  | [], dst, _, _ => ⟨dst, rfl, rfl, by simp, by simp⟩
  | op :: ops, dst, hb, hp => by
    obtain ⟨d1, e1, e2, e3, e4⟩ := copyBytes_get (hb op List.mem_cons_self)
    have hp' := List.pairwise_cons.1 hp
    obtain ⟨d2, f1, f2, f3, f4⟩ := runOps_spec src ops d1 (fun o ho => by rw [e2]; exact hb o (List.mem_cons_of_mem _ ho)) hp'.2
    refine ⟨d2, by simp only [runOps, e1, Option.bind_some, f1], f2.trans e2, ?_, ?_⟩
    · intro o ho i hi
      rcases List.mem_cons.1 ho with rfl | ho
      · rw [f4 _ fun o' ho' => ?_]
        · exact e3 i hi
        · have := hp'.1 o' ho'
          omega
      · exact f3 o ho i hi
    · intro a ha
      rw [f4 a fun o ho => ha o (List.mem_cons_of_mem _ ho)]
      exact e4 a (ha op List.mem_cons_self)

theorem addOther_perm (size : Q → Nat) (t : Q) (p : Nat × Nat) : ∀ gs : List (Q × List (Nat × Nat)),
    ((addOther t p gs).flatMap fun g => g.2.map fun p => (size g.1, p)).Perm ((gs.flatMap fun g => g.2.map fun p => (size g.1, p)) ++ [(size t, p)])
  | [] => by simp [addOther]
  | g :: gs => by
    simp only [addOther]
    split
    · rename_i h
      subst h
      simp only [List.flatMap_cons, List.map_append, List.map_cons, List.map_nil, List.append_assoc]
      exact (List.perm_append_comm).append_left _
    · simp only [List.flatMap_cons, List.append_assoc]
      exact (addOther_perm size t p gs).append_left _

/-- The sizes of the types that are copied by size — the `DCHECK`s in struct_io.cc:83, 86 and `sizeof(bool)`. -/
def Sized (kind : Q → Kind) (size : Q → Nat) : Prop :=
  ∀ t, (kind t = .bool → size t = 1) ∧ (kind t = .bits32 → size t = 4) ∧ (kind t = .bits64 → size t = 8)

theorem perm_insert {α : Type} (a b : List α) (x : α) (rest : List α) : (a ++ [x] ++ b ++ rest).Perm (a ++ b ++ x :: rest) := by
  simp only [List.append_assoc]
  refine List.Perm.append_left a ?_
  simp only [List.singleton_append]
  exact (List.perm_middle (l₁ := b)).symm

theorem structOffsets_perm {kind : Q → Kind} {size : Q → Nat} (hk : Sized kind size) (structSlots : Slots Q) : ∀ (frameSlots : Slots Q) (io : StructIO Q),
    (∀ s ∈ frameSlots, (findSlot structSlots s.1).isSome) →
    ∃ io', structOffsets kind structSlots frameSlots io = some io' ∧
      (opsOf size io').Perm (opsOf size io ++ frameSlots.filterMap fun s => (findSlot structSlots s.1).map fun f => (size s.2.1, f.2, s.2.2))
  | [], io, _ => ⟨io, rfl, by simp⟩
  | s :: frameSlots, io, h => by
    obtain ⟨f, hf⟩ := Option.isSome_iff_exists.1 (h s List.mem_cons_self)
    have step : (opsOf size (match kind s.2.1 with
        | .bool => { io with bools := io.bools ++ [(f.2, s.2.2)] }
        | .bits32 => { io with bits32 := io.bits32 ++ [(f.2, s.2.2)] }
        | .bits64 => { io with bits64 := io.bits64 ++ [(f.2, s.2.2)] }
        | .other => { io with other := addOther s.2.1 (f.2, s.2.2) io.other })).Perm (opsOf size io ++ [(size s.2.1, f.2, s.2.2)]) := by
      obtain ⟨k1, k2, k3⟩ := hk s.2.1
      cases hkind : kind s.2.1 with
      | bool =>
        simp only [opsOf, List.map_append, List.map_cons, List.map_nil, k1 hkind, List.append_assoc]
        refine List.Perm.append_left _ ?_
        have := List.perm_append_comm (l₁ := [(1, f.2, s.2.2)]) (l₂ := io.bits32.map (fun p => (4, p)) ++ (io.bits64.map (fun p => (8, p)) ++ io.other.flatMap fun g => g.2.map fun p => (size g.1, p)))
        simp only [List.append_assoc] at this
        exact this
      | bits32 =>
        simp only [opsOf, List.map_append, List.map_cons, List.map_nil, k2 hkind, List.append_assoc]
        refine (List.Perm.append_left _ ?_).append_left _
        have := List.perm_append_comm (l₁ := [(4, f.2, s.2.2)]) (l₂ := io.bits64.map (fun p => (8, p)) ++ io.other.flatMap fun g => g.2.map fun p => (size g.1, p))
        simp only [List.append_assoc] at this
        exact this
      | bits64 =>
        simp only [opsOf, List.map_append, List.map_cons, List.map_nil, k3 hkind, List.append_assoc]
        refine ((List.Perm.append_left _ ?_).append_left _).append_left _
        exact List.perm_append_comm (l₁ := [(8, f.2, s.2.2)])
      | other =>
        simp only [opsOf, List.append_assoc]
        exact (((addOther_perm size s.2.1 (f.2, s.2.2) io.other).append_left _).append_left _).append_left _
    obtain ⟨io', h1, h2⟩ := structOffsets_perm hk structSlots frameSlots _ fun t ht => h t (List.mem_cons_of_mem _ ht)
    refine ⟨io', by simp only [structOffsets, hf]; exact h1, h2.trans ?_⟩
    simp only [List.filterMap_cons, hf, Option.map_some]
    refine (step.append_right _).trans ?_
    simp

theorem makeStructIO_perm {kind : Q → Kind} {size : Q → Nat} (hk : Sized kind size) {sort : List (Nat × Nat) → List (Nat × Nat)}
    (hsort : ∀ l, (sort l).Perm l) {structSlots frameSlots : Slots Q} (h : ∀ s ∈ frameSlots, (findSlot structSlots s.1).isSome) :
    ∃ io, makeStructIO kind sort structSlots frameSlots = some io ∧
      (opsOf size io).Perm (frameSlots.filterMap fun s => (findSlot structSlots s.1).map fun f => (size s.2.1, f.2, s.2.2)) := by
  obtain ⟨io, h1, h2⟩ := structOffsets_perm hk structSlots frameSlots ⟨[], [], [], []⟩ h
  refine ⟨⟨sort io.bools, sort io.bits32, sort io.bits64, io.other.map fun g => (g.1, sort g.2)⟩, by simp only [makeStructIO, h1], ?_⟩
  have h3 : (opsOf size (⟨[], [], [], []⟩ : StructIO Q)) = [] := rfl
  rw [h3, List.nil_append] at h2
  refine List.Perm.trans ?_ h2
  simp only [opsOf]
  refine List.Perm.append ((hsort _).map _) (List.Perm.append ((hsort _).map _) (List.Perm.append ((hsort _).map _) ?_))
  simp only [List.flatMap_map]
  clear h1 h2
  induction io.other with
  | nil => exact List.Perm.refl _
  | cons g gs ih =>
    simp only [List.flatMap_cons]
    exact List.Perm.append ((hsort _).map _) ih

theorem pairwise_perm {α : Type} {R : α → α → Prop} (hs : ∀ a b, R a b → R b a) {l m : List α} (h : l.Perm m) (hm : m.Pairwise R) : l.Pairwise R :=
  (h.pairwise_iff (fun {a b} => hs a b)).2 hm

/-- The hypotheses of the two directions: what `Bind` has checked about the names and types, the struct slots are in the struct, and the
frame slots are in the frame. -/
structure Bound2 (size : Q → Nat) (structSlots frameSlots : Slots Q) (structLen frameLen : Nat) : Prop where
  names1 : (structSlots.map (·.1)).Nodup
  names2 : (frameSlots.map (·.1)).Nodup
  types : ∀ s ∈ frameSlots, ∃ o, (s.1, s.2.1, o) ∈ structSlots
  inStruct : validateStructSlots size structSlots structLen = true
  inFrame : ∀ s ∈ frameSlots, s.2.2 + size s.2.1 ≤ frameLen

/-- **Loading a struct copies exactly the bytes of the fields into their slots**, whatever the order of the hash map and of `std::sort`. -/
theorem struct_load {kind : Q → Kind} {size : Q → Nat} (hk : Sized kind size) {sort : List (Nat × Nat) → List (Nat × Nat)}
    (hsort : ∀ l, (sort l).Perm l) {structSlots frameSlots : Slots Q} {struct frame : List B}
    (h : Bound2 size structSlots frameSlots struct.length frame.length) (hap : frameSlots.Pairwise (Apart size)) :
    ∃ io frame', makeStructIO kind sort structSlots frameSlots = some io ∧ copyStructToFrame size io struct frame = some frame' ∧
      CopiedBytes size structSlots frameSlots struct frame frame' := by
  have hfind : ∀ s ∈ frameSlots, ∃ o, (s.1, s.2.1, o) ∈ structSlots ∧ findSlot structSlots s.1 = some (s.2.1, o) := by
    intro s hs
    obtain ⟨o, ho⟩ := h.types s hs
    exact ⟨o, ho, findSlot_of_mem h.names1 ho⟩
  obtain ⟨io, h1, h2⟩ := makeStructIO_perm hk hsort (structSlots := structSlots) (frameSlots := frameSlots) (by
    intro s hs
    obtain ⟨o, _, hf⟩ := hfind s hs
    simp [hf])
  have hops : ∀ op, op ∈ opsOf size io ↔ ∃ s ∈ frameSlots, ∃ o, (s.1, s.2.1, o) ∈ structSlots ∧ op = (size s.2.1, o, s.2.2) := by
    intro op
    rw [h2.mem_iff, List.mem_filterMap]
    constructor
    · rintro ⟨s, hs, he⟩
      obtain ⟨o, ho, hf⟩ := hfind s hs
      simp only [hf, Option.map_some, Option.some.injEq] at he
      exact ⟨s, hs, o, ho, he.symm⟩
    · rintro ⟨s, hs, o, ho, rfl⟩
      refine ⟨s, hs, ?_⟩
      have := findSlot_of_mem h.names1 ho
      simp only at this
      simp [this]
  have hpw : (opsOf size io).Pairwise (fun a b => a.2.2 + a.1 ≤ b.2.2 ∨ b.2.2 + b.1 ≤ a.2.2) := by
    refine pairwise_perm (fun a b h => h.symm) h2 ?_
    rw [List.pairwise_filterMap]
    refine hap.imp ?_
    intro a b hab x hx y hy
    simp only [Option.map_eq_some_iff] at hx hy
    obtain ⟨fx, _, rfl⟩ := hx
    obtain ⟨fy, _, rfl⟩ := hy
    exact hab
  have hval := h.inStruct
  simp only [validateStructSlots, List.all_eq_true, Bool.not_eq_true', decide_eq_false_iff_not, Nat.not_lt, gt_iff_lt] at hval
  obtain ⟨frame', e1, e2, e3, e4⟩ := runOps_spec struct (opsOf size io) frame (by
    intro op hop
    obtain ⟨s, hs, o, ho, rfl⟩ := (hops op).1 hop
    exact ⟨hval _ ho, h.inFrame s hs⟩) hpw
  refine ⟨io, frame', h1, by rw [copyStruct_ops]; exact e1, e2, ?_, ?_⟩
  · intro s hs t ht hst i hi
    obtain ⟨o, ho, _⟩ := hfind t ht
    have hso : s = (t.1, t.2.1, o) := eq_of_name h.names1 hs ho hst
    have := e3 (size t.2.1, o, t.2.2) ((hops _).2 ⟨t, ht, o, ho, rfl⟩) i hi
    rw [hso]
    exact this
  · intro a ha
    refine e4 a fun op hop => ?_
    obtain ⟨s, hs, o, ho, rfl⟩ := (hops op).1 hop
    exact ha s hs

theorem opsOf_swap (size : Q → Nat) (io : StructIO Q) :
    opsOf size ⟨swapPairs io.bools, swapPairs io.bits32, swapPairs io.bits64, io.other.map fun g => (g.1, swapPairs g.2)⟩ =
      (opsOf size io).map fun op => (op.1, op.2.2, op.2.1) := by
  simp only [opsOf, swapPairs, List.map_append, List.map_map, Function.comp_def, List.flatMap_map, List.map_flatMap]

/-- **Writing a struct copies exactly the bytes of the slots into their fields**, if the fields do not overlap. -/
theorem struct_listen {kind : Q → Kind} {size : Q → Nat} (hk : Sized kind size) {sort : List (Nat × Nat) → List (Nat × Nat)}
    (hsort : ∀ l, (sort l).Perm l) {structSlots frameSlots : Slots Q} {struct frame : List B}
    (h : Bound2 size structSlots frameSlots struct.length frame.length) (hap : structSlots.Pairwise (Apart size)) :
    ∃ io struct', makeStructIO kind sort structSlots frameSlots = some io ∧ copyFrameToStruct size io frame struct = some struct' ∧
      CopiedBytes size frameSlots (structSlots.filter fun s => frameSlots.any fun t => t.1 == s.1) frame struct struct' := by
  have hfind : ∀ s ∈ frameSlots, ∃ o, (s.1, s.2.1, o) ∈ structSlots ∧ findSlot structSlots s.1 = some (s.2.1, o) := by
    intro s hs
    obtain ⟨o, ho⟩ := h.types s hs
    exact ⟨o, ho, findSlot_of_mem h.names1 ho⟩
  obtain ⟨io, h1, h2⟩ := makeStructIO_perm hk hsort (structSlots := structSlots) (frameSlots := frameSlots) (by
    intro s hs
    obtain ⟨o, _, hf⟩ := hfind s hs
    simp [hf])
  have hops : ∀ op, op ∈ opsOf size io ↔ ∃ s ∈ frameSlots, ∃ o, (s.1, s.2.1, o) ∈ structSlots ∧ op = (size s.2.1, o, s.2.2) := by
    intro op
    rw [h2.mem_iff, List.mem_filterMap]
    constructor
    · rintro ⟨s, hs, he⟩
      obtain ⟨o, ho, hf⟩ := hfind s hs
      simp only [hf, Option.map_some, Option.some.injEq] at he
      exact ⟨s, hs, o, ho, he.symm⟩
    · rintro ⟨s, hs, o, ho, rfl⟩
      refine ⟨s, hs, ?_⟩
      have := findSlot_of_mem h.names1 ho
      simp only at this
      simp [this]
  have hapart : ∀ s ∈ structSlots, ∀ t ∈ structSlots, s ≠ t → Apart size s t := by
    intro s hs t ht hne
    clear h h1 h2 hops hfind
    induction structSlots with
    | nil => simp at hs
    | cons x xs ih =>
      have hp := List.pairwise_cons.1 hap
      rcases List.mem_cons.1 hs with e1 | hs' <;> rcases List.mem_cons.1 ht with e2 | ht'
      · exact absurd (e1.trans e2.symm) hne
      · rw [e1]
        exact hp.1 t ht'
      · rw [e2]
        exact (hp.1 s hs').symm
      · exact ih hp.2 hs' ht'
  have hpw : ((opsOf size io).map fun op => (op.1, op.2.2, op.2.1)).Pairwise (fun a b => a.2.2 + a.1 ≤ b.2.2 ∨ b.2.2 + b.1 ≤ a.2.2) := by
    rw [List.pairwise_map]
    refine pairwise_perm (fun a b h => h.symm) h2 ?_
    rw [List.pairwise_filterMap]
    have hnm : frameSlots.Pairwise fun a b => a.1 ≠ b.1 := by
      have := h.names2
      rw [List.nodup_iff_pairwise_ne, List.pairwise_map] at this
      exact this
    refine (List.Pairwise.and_mem.1 hnm).imp ?_
    rintro a b ⟨ha, hb, hne⟩ x hx y hy
    obtain ⟨oa, hoa, fa⟩ := hfind a ha
    obtain ⟨ob, hob, fb⟩ := hfind b hb
    simp only [fa, fb, Option.map_some, Option.some.injEq] at hx hy
    subst hx hy
    exact hapart _ hoa _ hob fun e => hne (Prod.mk.inj e).1
  have hval := h.inStruct
  simp only [validateStructSlots, List.all_eq_true, Bool.not_eq_true', decide_eq_false_iff_not, Nat.not_lt, gt_iff_lt] at hval
  obtain ⟨struct', e1, e2, e3, e4⟩ := runOps_spec frame ((opsOf size io).map fun op => (op.1, op.2.2, op.2.1)) struct (by
    intro op hop
    obtain ⟨op', hop', rfl⟩ := List.mem_map.1 hop
    obtain ⟨s, hs, o, ho, rfl⟩ := (hops op').1 hop'
    exact ⟨h.inFrame s hs, hval _ ho⟩) hpw
  refine ⟨io, struct', h1, ?_, e2, ?_, ?_⟩
  · have : copyFrameToStruct size io frame struct =
        copyStructToFrame size ⟨swapPairs io.bools, swapPairs io.bits32, swapPairs io.bits64, io.other.map fun g => (g.1, swapPairs g.2)⟩ frame struct := rfl
    rw [this, copyStruct_ops, opsOf_swap]
    exact e1
  · intro s hs t ht hst i hi
    obtain ⟨ht, _⟩ := List.mem_filter.1 ht
    obtain ⟨o, ho, _⟩ := hfind s hs
    have hto : t = (s.1, s.2.1, o) := eq_of_name h.names1 ht ho hst.symm
    rw [hto] at hi ⊢
    exact e3 (size s.2.1, s.2.2, o) (List.mem_map.2 ⟨_, (hops _).2 ⟨s, hs, o, ho, rfl⟩, rfl⟩) i hi
  · intro a ha
    refine e4 a fun op hop => ?_
    obtain ⟨op', hop', rfl⟩ := List.mem_map.1 hop
    obtain ⟨s, hs, o, ho, rfl⟩ := (hops op').1 hop'
    exact ha (s.1, s.2.1, o) (List.mem_filter.2 ⟨ho, List.any_eq_true.2 ⟨s, hs, by simp⟩⟩)

/-! ## Examples -/

example : ((bind (typedRefsLoader [(['a'], true), (['b'], false)]) [(['b'], false, 7)]).bind fun b =>
    (b [(true, 1), (false, 2)] fun _ => 0).map fun f => f 7) = some 2 := by decide +kernel

example : ((bind (spanLoader true [['a'], ['b']]) [(['b'], true, 7), (['a'], true, 8)]).bind fun b =>
    (b [1, 2] fun _ => 0).map fun f => (f 7, f 8)) = some (2, 1) := by decide +kernel

example : ((tupleBind [(['a'], true), (['b'], false)] [(['b'], false, 7), (['a'], true, 8)]).bind fun found =>
    (tupleLoad [(true, 1), (false, 2)] found fun _ => 0).map fun f => (f 7, f 8)) = some (2, 1) := by decide +kernel

def exKind : Nat → Kind
  | 1 => .bool
  | 4 => .bits32
  | 8 => .bits64
  | _ => .other

theorem exSized : Sized exKind id := by
  intro t
  unfold exKind
  refine ⟨?_, ?_, ?_⟩ <;> intro h <;> split at h <;> simp_all

def exStructSlots : Slots Nat := [(['a'], 4, 0), (['b'], 1, 4), (['c'], 3, 5)]
def exFrameSlots : Slots Nat := [(['c'], 3, 0), (['a'], 4, 3)]

example : Bound2 id exStructSlots exFrameSlots 8 8 ∧ exFrameSlots.Pairwise (Apart id) ∧ exStructSlots.Pairwise (Apart id) := by
  refine ⟨⟨by decide, by decide, ?_, by decide, by decide⟩, ?_, ?_⟩
  · intro s hs
    simp only [exFrameSlots, List.mem_cons, List.not_mem_nil, or_false] at hs
    rcases hs with rfl | rfl
    · exact ⟨5, by decide⟩
    · exact ⟨0, by decide⟩
  · simp [exFrameSlots, Apart]
  · simp [exStructSlots, Apart]

example : ((makeStructIO exKind List.reverse exStructSlots exFrameSlots).bind fun io =>
    copyStructToFrame id io [1, 2, 3, 4, 5, 6, 7, 8] [0, 0, 0, 0, 0, 0, 0, 0]) = some [6, 7, 8, 1, 2, 3, 4, 0] := by decide +kernel

end Verif.Io
