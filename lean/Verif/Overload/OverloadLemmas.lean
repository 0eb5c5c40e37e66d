import Verif.Overload.OverloadSpec

/-!
# Lemmas about the lookup of QExpr operators
-/

namespace Verif.Overload

variable {T : Type}

theorem canCastAll_iff (cast : T → T → Bool) : ∀ (a b : List T), canCastAll cast a b = true ↔ Castable cast a b
  | [], [] => by simp [canCastAll, Castable]
  | [], b :: bs => by simp [canCastAll, Castable]
  | a :: as, [] => by simp [canCastAll, Castable]
  | a :: as, b :: bs => by
    have ih := canCastAll_iff cast as bs
    unfold Castable at ih ⊢
    rw [List.forall₂_cons, ← ih]
    have e : canCastAll cast (a :: as) (b :: bs) = if cast a b then canCastAll cast as bs else false := rfl
    rw [e]
    by_cases c : cast a b = true
    · rw [if_pos c]; simp [c]
    · rw [if_neg c]; simp [c]

variable {cast : T → T → Bool} {E : T → Prop}

theorem castable_refl (h : CastOrder cast E) : ∀ (a : List T), (∀ x ∈ a, E x) → Castable cast a a
  | [], _ => List.Forall₂.nil
  | x :: a, he => List.Forall₂.cons (h.refl x (he x (by simp))) (castable_refl h a (fun y hy => he y (by simp [hy])))

theorem castable_trans (h : CastOrder cast E) : ∀ (a b c : List T), (∀ x ∈ a, E x) → (∀ x ∈ b, E x) → (∀ x ∈ c, E x) →
    Castable cast a b → Castable cast b c → Castable cast a c
  | [], [], [], _, _, _, _, _ => List.Forall₂.nil
  | [], [], _ :: _, _, _, _, _, h2 => by cases h2
  | [], _ :: _, _, _, _, _, h1, _ => by cases h1
  | _ :: _, [], _, _, _, _, h1, _ => by cases h1
  | _ :: _, _ :: _, [], _, _, _, _, h2 => by cases h2
  | x :: a, y :: b, z :: c, ha, hb, hc, h1, h2 => by
    cases h1 with
    | cons p1 q1 =>
      cases h2 with
      | cons p2 q2 =>
        exact List.Forall₂.cons (h.trans x y z (ha x (by simp)) (hb y (by simp)) (hc z (by simp)) p1 p2)
          (castable_trans h a b c (fun w hw => ha w (by simp [hw])) (fun w hw => hb w (by simp [hw])) (fun w hw => hc w (by simp [hw])) q1 q2)

theorem castable_antisymm (h : CastOrder cast E) : ∀ (a b : List T), (∀ x ∈ a, E x) → (∀ x ∈ b, E x) →
    Castable cast a b → Castable cast b a → a = b
  | [], [], _, _, _, _ => rfl
  | [], _ :: _, _, _, h1, _ => by cases h1
  | _ :: _, [], _, _, h1, _ => by cases h1
  | x :: a, y :: b, ha, hb, h1, h2 => by
    cases h1 with
    | cons p1 q1 =>
      cases h2 with
      | cons p2 q2 =>
        rw [h.antisymm x y (ha x (by simp)) (hb y (by simp)) p1 p2,
          castable_antisymm h a b (fun w hw => ha w (by simp [hw])) (fun w hw => hb w (by simp [hw])) q1 q2]

/-- The loop over the frontier. -/
theorem sweep_spec (cast : T → T → Bool) (c : Sig T) : ∀ (F : List (Sig T)) (dom : Bool),
    ((sweep cast c F dom).2.2 = true ∧ (sweep cast c F dom).2.1 = dom ∧ dom = false ∧ ∃ p ∈ F, canCastAll cast p.inputs c.inputs = true ∧
      canCastAll cast c.inputs p.inputs = false ) ∨
    ((sweep cast c F dom).2.2 = false ∧ (sweep cast c F dom).1 = F.filter (fun p => !canCastAll cast c.inputs p.inputs) ∧
      (sweep cast c F dom).2.1 = (dom || F.any (fun p => canCastAll cast c.inputs p.inputs)) ∧
      ((sweep cast c F dom).2.1 = false → ∀ p ∈ F, canCastAll cast p.inputs c.inputs = false)) ∨
    ((sweep cast c F dom).2.2 = true ∧ dom = false ∧ (sweep cast c F dom).2.1 = true ∧
      ∃ p ∈ F, canCastAll cast p.inputs c.inputs = true ∧ False)
  | [], dom => by right; left; simp [sweep]
  | p :: F, dom => by
    unfold sweep
    by_cases h1 : canCastAll cast c.inputs p.inputs = true
    · rw [if_pos h1]
      rcases sweep_spec cast c F true with h | h | h
      · exact absurd h.2.2.1 (by simp)
      · right; left
        obtain ⟨e1, e2, e3, e4⟩ := h
        refine ⟨e1, ?_, ?_, ?_⟩
        · rw [e2]; simp [h1]
        · rw [e3]; simp [h1]
        · intro e; rw [e3] at e; simp at e
      · exact absurd h.2.1 (by simp)
    · rw [if_neg h1]
      have h1' : canCastAll cast c.inputs p.inputs = false := by simpa using h1
      by_cases h2 : (dom || !canCastAll cast p.inputs c.inputs) = true
      · rw [if_pos h2]
        dsimp only
        rcases sweep_spec cast c F dom with h | h | h
        · left
          obtain ⟨e1, e2, e3, q, hq, e4⟩ := h
          exact ⟨e1, e2, e3, q, by simp [hq], e4⟩
        · right; left
          obtain ⟨e1, e2, e3, e4⟩ := h
          refine ⟨e1, ?_, ?_, ?_⟩
          · rw [e2]; simp [h1']
          · rw [e3]; simp [h1']
          · intro e q hq
            rcases List.mem_cons.mp hq with rfl | hq
            · have ed : dom = false := by
                rw [e3] at e
                exact (Bool.or_eq_false_iff.mp e).1
              rw [ed] at h2
              simpa using h2
            · exact e4 e q hq
        · obtain ⟨_, _, _, q, _, _, hf⟩ := h
          exact hf.elim
      · rw [if_neg h2]
        have h2' : dom = false ∧ canCastAll cast p.inputs c.inputs = true := by
          simpa using h2
        left
        exact ⟨rfl, rfl, h2'.1, p, by simp, h2'.2, h1'⟩

/-- The step: either the candidate is dominated and the frontier stays, or it replaces all that it dominates. -/
theorem frontierStep_spec (cast : T → T → Bool) (c : Sig T) (F : List (Sig T)) :
    (frontierStep cast F c = F ∧ ∃ p ∈ F, canCastAll cast p.inputs c.inputs = true ∧ canCastAll cast c.inputs p.inputs = false) ∨
    (frontierStep cast F c = F.filter (fun p => !canCastAll cast c.inputs p.inputs) ++ [c] ∧
      ((∃ p ∈ F, canCastAll cast c.inputs p.inputs = true) ∨ ∀ p ∈ F, canCastAll cast p.inputs c.inputs = false)) := by
  unfold frontierStep
  dsimp only
  rcases sweep_spec cast c F false with h | h | h
  · left
    obtain ⟨e1, e2, e3, h4⟩ := h
    simp only [e1, e2, if_true]
    exact ⟨by simp, h4⟩
  · right
    obtain ⟨e1, e2, e3, e4⟩ := h
    rw [e1]
    simp only [Bool.false_eq_true, if_false]
    cases hd : (sweep cast c F false).2.1 with
    | true =>
      rw [hd] at e3
      simp only [Bool.false_or] at e3
      refine ⟨by simp [e2], Or.inl ?_⟩
      obtain ⟨p, hp, hc⟩ := List.any_eq_true.mp e3.symm
      exact ⟨p, hp, hc⟩
    | false =>
      rw [hd] at e3
      simp only [Bool.false_or] at e3
      refine ⟨?_, Or.inr (e4 hd)⟩
      have : F.filter (fun p => !canCastAll cast c.inputs p.inputs) = F := by
        rw [List.filter_eq_self]
        intro p hp
        have := (List.any_eq_false.mp e3.symm) p hp
        simpa using this
      simp [this]
  · obtain ⟨_, _, _, q, _, _, hf⟩ := h
    exact hf.elim

/-- The frontier of the applicable signatures seen so far. -/
structure Frontier (cast : T → T → Bool) (A : Sig T → Prop) (F : List (Sig T)) : Prop where
  sub : ∀ f ∈ F, A f
  cover : ∀ d, A d → ∃ f ∈ F, Castable cast f.inputs d.inputs
  anti : F.Pairwise (fun f g => ¬ Castable cast f.inputs g.inputs ∧ ¬ Castable cast g.inputs f.inputs)

theorem pairwise_mem {α : Type} {R : α → α → Prop} (hs : ∀ a b, R a b → R b a) : ∀ {l : List α}, l.Pairwise R →
    ∀ a ∈ l, ∀ b ∈ l, a = b ∨ R a b
  | [], _, a, ha, _, _ => by simp at ha
  | x :: l, h, a, ha, b, hb => by
    rw [List.pairwise_cons] at h
    rcases List.mem_cons.mp ha with ea | ha'
    · rcases List.mem_cons.mp hb with eb | hb'
      · exact Or.inl (ea.trans eb.symm)
      · exact Or.inr (ea ▸ h.1 b hb')
    · rcases List.mem_cons.mp hb with eb | hb'
      · exact Or.inr (eb ▸ hs _ _ (h.1 a ha'))
      · exact pairwise_mem hs h.2 a ha' b hb'

theorem frontier_step (ho : CastOrder cast E) {A : Sig T → Prop} (hA : ∀ s, A s → ∀ x ∈ s.inputs, E x) {F : List (Sig T)}
    (h : Frontier cast A F) (c : Sig T) (hc : ∀ x ∈ c.inputs, E x) :
    Frontier cast (fun s => A s ∨ s = c) (frontierStep cast F c) := by
  have hF : ∀ f ∈ F, ∀ x ∈ f.inputs, E x := fun f hf => hA f (h.sub f hf)
  rcases frontierStep_spec cast c F with ⟨e, p, hp, h1, h2⟩ | ⟨e, hd⟩
  · rw [e]
    refine ⟨fun f hf => Or.inl (h.sub f hf), ?_, h.anti⟩
    rintro d (hd | rfl)
    · exact h.cover d hd
    · exact ⟨p, hp, (canCastAll_iff _ _ _).mp h1⟩
  · rw [e]
    refine ⟨?_, ?_, ?_⟩
    · intro f hf
      rcases List.mem_append.mp hf with hf | hf
      · exact Or.inl (h.sub f (List.mem_of_mem_filter hf))
      · exact Or.inr (List.mem_singleton.mp hf)
    · rintro d (hd' | rfl)
      · obtain ⟨f, hf, hfd⟩ := h.cover d hd'
        by_cases hcf : canCastAll cast c.inputs f.inputs = true
        · exact ⟨c, by simp, castable_trans ho _ _ _ hc (hF f hf) (hA d hd') ((canCastAll_iff _ _ _).mp hcf) hfd⟩
        · exact ⟨f, by simp [hf, hcf], hfd⟩
      · exact ⟨d, by simp, castable_refl ho _ hc⟩
    · rw [List.pairwise_append]
      refine ⟨h.anti.filter _, by simp, ?_⟩
      intro f hf g hg
      rw [List.mem_singleton] at hg
      subst hg
      rw [List.mem_filter] at hf
      have hng : ¬ Castable cast g.inputs f.inputs := by
        rw [← canCastAll_iff]; simpa using hf.2
      refine ⟨?_, hng⟩
      intro hfg
      rcases hd with ⟨q, hq, hgq⟩ | hd
      · have hfq : Castable cast f.inputs q.inputs :=
          castable_trans ho _ _ _ (hF f hf.1) hc (hF q hq) hfg ((canCastAll_iff _ _ _).mp hgq)
        rcases pairwise_mem (fun a b h => And.symm h) h.anti f hf.1 q hq with rfl | hr
        · exact hng ((canCastAll_iff _ _ _).mp hgq)
        · exact hr.1 hfq
      · have := hd f hf.1
        rw [(canCastAll_iff _ _ _).mpr hfg] at this
        cases this

theorem searchLoop_spec [DecidableEq T] (ho : CastOrder cast E) (decay : T → T) (inputs : List T) (output : T) :
    ∀ (sigs : List (Sig T)) (A : Sig T → Prop) (F : List (Sig T)), (∀ s, A s → ∀ x ∈ s.inputs, E x) →
      (∀ s ∈ sigs, ∀ x ∈ s.inputs, E x) → Frontier cast A F →
      (∃ s, searchLoop cast decay inputs output sigs F = .inl s ∧ s ∈ sigs ∧ s = ⟨inputs.map decay, decay output⟩) ∨
      (∃ F', searchLoop cast decay inputs output sigs F = .inr F' ∧ (⟨inputs.map decay, decay output⟩ : Sig T) ∉ sigs ∧
        Frontier cast (fun s => A s ∨ (s ∈ sigs ∧ Applicable cast decay inputs output s)) F')
  | [], A, F, hA, hs, hF => by
    right
    refine ⟨F, rfl, by simp, ?_⟩
    simpa using hF
  | c :: sigs, A, F, hA, hs, hF => by
    have hs' : ∀ s ∈ sigs, ∀ x ∈ s.inputs, E x := fun s h => hs s (by simp [h])
    unfold searchLoop
    by_cases h1 : decay output ≠ c.output
    · rw [if_pos h1]
      rcases searchLoop_spec ho decay inputs output sigs A F hA hs' hF with ⟨s, e, h2, h3⟩ | ⟨F', e, h2, h3⟩
      · exact Or.inl ⟨s, e, by simp [h2], h3⟩
      · refine Or.inr ⟨F', e, ?_, ?_⟩
        · rw [List.mem_cons]
          rintro (rfl | h)
          · exact h1 rfl
          · exact h2 h
        · have : (fun s => A s ∨ (s ∈ sigs ∧ Applicable cast decay inputs output s)) =
              (fun s => A s ∨ (s ∈ c :: sigs ∧ Applicable cast decay inputs output s)) := by
            funext s
            refine propext ⟨fun h => h.imp id (fun h => ⟨by simp [h.1], h.2⟩), fun h => h.imp id (fun h => ⟨?_, h.2⟩)⟩
            rcases List.mem_cons.mp h.1 with rfl | h'
            · exact absurd h.2.1.symm h1
            · exact h'
          rwa [← this]
    · rw [if_neg h1]
      have h1 : decay output = c.output := by simpa using h1
      by_cases h2 : inputs.map decay = c.inputs
      · rw [if_pos h2]
        exact Or.inl ⟨c, rfl, by simp, by rw [h1, h2]⟩
      · rw [if_neg h2]
        have hne : (⟨inputs.map decay, decay output⟩ : Sig T) ≠ c := by
          rintro rfl
          exact h2 rfl
        by_cases h3 : canCastAll cast inputs c.inputs = true
        · rw [if_neg (by simp [h3])]
          have h3' := (canCastAll_iff _ _ _).mp h3
          have hc := hs c (by simp)
          rcases searchLoop_spec ho decay inputs output sigs (fun s => A s ∨ s = c) (frontierStep cast F c)
            (by rintro s (h | rfl); exacts [hA s h, hc]) hs' (frontier_step ho hA hF c hc) with ⟨s, e, h4, h5⟩ | ⟨F', e, h4, h5⟩
          · exact Or.inl ⟨s, e, by simp [h4], h5⟩
          · refine Or.inr ⟨F', e, by simp [h4, hne], ?_⟩
            have : (fun s => (A s ∨ s = c) ∨ (s ∈ sigs ∧ Applicable cast decay inputs output s)) =
                (fun s => A s ∨ (s ∈ c :: sigs ∧ Applicable cast decay inputs output s)) := by
              funext s
              refine propext ⟨?_, ?_⟩
              · rintro ((h | rfl) | h)
                · exact Or.inl h
                · exact Or.inr ⟨by simp, h1.symm, h3'⟩
                · exact Or.inr ⟨by simp [h.1], h.2⟩
              · rintro (h | h)
                · exact Or.inl (Or.inl h)
                · rcases List.mem_cons.mp h.1 with rfl | h'
                  · exact Or.inl (Or.inr rfl)
                  · exact Or.inr ⟨h', h.2⟩
            rwa [← this]
        · rw [if_pos (by simp [h3])]
          rcases searchLoop_spec ho decay inputs output sigs A F hA hs' hF with ⟨s, e, h4, h5⟩ | ⟨F', e, h4, h5⟩
          · exact Or.inl ⟨s, e, by simp [h4], h5⟩
          · refine Or.inr ⟨F', e, by simp [h4, hne], ?_⟩
            have : (fun s => A s ∨ (s ∈ sigs ∧ Applicable cast decay inputs output s)) =
                (fun s => A s ∨ (s ∈ c :: sigs ∧ Applicable cast decay inputs output s)) := by
              funext s
              refine propext ⟨fun h => h.imp id (fun h => ⟨by simp [h.1], h.2⟩), fun h => h.imp id (fun h => ⟨?_, h.2⟩)⟩
              rcases List.mem_cons.mp h.1 with rfl | h'
              · exact absurd ((canCastAll_iff _ _ _).mpr h.2.2) h3
              · exact h'
            rwa [← this]

/-- The overload resolution meets its specification. -/
theorem findMatching_resolves [DecidableEq T] (ho : CastOrder cast E) (decay : T → T) (inputs : List T) (output : T) (sigs : List (Sig T))
    (hs : ∀ s ∈ sigs, ∀ x ∈ s.inputs, E x) :
    Resolves cast decay inputs output (· ∈ sigs) (findMatching cast decay inputs output sigs) := by
  unfold findMatching
  rcases searchLoop_spec ho decay inputs output sigs (fun _ => False) [] (by simp) hs ⟨by simp, by simp, by simp⟩ with
    ⟨s, e, h1, h2⟩ | ⟨F, e, h1, hF⟩
  · rw [e]
    exact ⟨h1, Or.inl h2⟩
  · rw [e]
    simp only [false_or] at hF
    match F, hF with
    | [], hF =>
      refine ⟨h1, ?_⟩
      intro t ht ha
      obtain ⟨f, hf, _⟩ := hF.cover t ⟨ht, ha⟩
      simp at hf
    | [s], hF =>
      have := hF.sub s (by simp)
      refine ⟨this.1, Or.inr ⟨h1, this.2, ?_⟩⟩
      intro t ht ha
      obtain ⟨f, hf, hc⟩ := hF.cover t ⟨ht, ha⟩
      rw [List.mem_singleton] at hf
      subst hf
      exact hc
    | f :: g :: F, hF =>
      refine ⟨h1, ⟨f, (hF.sub f (by simp)).1, (hF.sub f (by simp)).2⟩, ?_⟩
      rintro ⟨s, hs1, hs2, hs3⟩
      obtain ⟨k, hk, hks⟩ := hF.cover s ⟨hs1, hs2⟩
      have hE : ∀ q ∈ f :: g :: F, ∀ x ∈ q.inputs, E x := fun q hq => hs q (hF.sub q hq).1
      have hall : ∀ q ∈ f :: g :: F, Castable cast k.inputs q.inputs := fun q hq =>
        castable_trans ho _ _ _ (hE k hk) (hs s hs1) (hE q hq) hks (hs3 q (hF.sub q hq).1 (hF.sub q hq).2)
      have ha := hF.anti
      rw [List.pairwise_cons] at ha
      have hfg := ha.1 g (by simp)
      have hsym : ∀ a b : Sig T, (¬ Castable cast a.inputs b.inputs ∧ ¬ Castable cast b.inputs a.inputs) →
        (¬ Castable cast b.inputs a.inputs ∧ ¬ Castable cast a.inputs b.inputs) := fun a b h => And.symm h
      rcases pairwise_mem hsym hF.anti k hk f (by simp) with rfl | h
      · exact hfg.1 (hall g (by simp))
      · exact h.1 (hall f (by simp))

theorem resolves_unique (ho : CastOrder cast E) (decay : T → T) (inputs : List T) (output : T) {S : Sig T → Prop}
    (hs : ∀ s, S s → ∀ x ∈ s.inputs, E x) {r r' : Found (Sig T)} (h : Resolves cast decay inputs output S r)
    (h' : Resolves cast decay inputs output S r') : r = r' := by
  cases r with
  | ok s =>
    cases r' with
    | ok t =>
      obtain ⟨a1, a2⟩ := h
      obtain ⟨b1, b2⟩ := h'
      congr 1
      rcases a2 with rfl | ⟨n, a2, a3⟩
      · rcases b2 with rfl | ⟨n, _⟩
        · rfl
        · exact absurd a1 n
      · rcases b2 with rfl | ⟨_, b2, b3⟩
        · exact absurd b1 n
        · have := castable_antisymm ho _ _ (hs s a1) (hs t b1) (a3 t b1 b2) (b3 s a1 a2)
          have e := a2.1.trans b2.1.symm
          cases s; cases t
          simp_all
    | notFound =>
      obtain ⟨a1, a2⟩ := h
      rcases a2 with rfl | ⟨_, a2, _⟩
      · exact absurd a1 h'.1
      · exact absurd a2 (h'.2 s a1)
    | ambiguous =>
      obtain ⟨a1, a2⟩ := h
      rcases a2 with rfl | ⟨_, a2, a3⟩
      · exact absurd a1 h'.1
      · exact absurd ⟨s, a1, a2, a3⟩ h'.2.2
  | notFound =>
    cases r' with
    | ok t =>
      obtain ⟨a1, a2⟩ := h'
      rcases a2 with rfl | ⟨_, a2, _⟩
      · exact absurd a1 h.1
      · exact absurd a2 (h.2 t a1)
    | notFound => rfl
    | ambiguous =>
      obtain ⟨_, ⟨t, h1, h2⟩, _⟩ := h'
      exact absurd h2 (h.2 t h1)
  | ambiguous =>
    cases r' with
    | ok t =>
      obtain ⟨a1, a2⟩ := h'
      rcases a2 with rfl | ⟨_, a2, a3⟩
      · exact absurd a1 h.1
      · exact absurd ⟨t, a1, a2, a3⟩ h.2.2
    | notFound =>
      obtain ⟨_, ⟨t, h1, h2⟩, _⟩ := h
      exact absurd h2 (h'.2 t h1)
    | ambiguous => rfl

theorem resolves_congr (decay : T → T) (inputs : List T) (output : T) {S S' : Sig T → Prop} (hS : ∀ s, S s ↔ S' s) {r : Found (Sig T)}
    (h : Resolves cast decay inputs output S r) : Resolves cast decay inputs output S' r := by
  have : S = S' := funext fun s => propext (hS s)
  rwa [← this]

/-! ## The family -/

variable [DecidableEq T]

theorem lookup_store (key k : List T) (r : Record T) : ∀ (l : List (List T × Record T)),
    lookupRec k (storeRec key r l) = if key = k then some r else lookupRec k l
  | [] => by simp [storeRec, lookupRec]
  | (k', s) :: l => by
    unfold storeRec
    by_cases h : k' = key
    · rw [if_pos h]
      subst h
      simp only [lookupRec]
      by_cases h2 : k' = k
      · simp [h2]
      · simp [h2]
    · rw [if_neg h]
      simp only [lookupRec, lookup_store key k r l]
      by_cases h2 : k' = k
      · subst h2
        simp only [if_true]
        rw [if_neg (fun e : key = k' => h e.symm)]
      · simp [h2]

theorem replaceSig_spec (old new : Sig T) : ∀ (l : List (Sig T)), old ∈ l → l.Nodup →
    ∃ l', replaceSig old new l = some l' ∧ (∀ s, s ∈ l' ↔ (s = new ∨ (s ∈ l ∧ s ≠ old))) ∧
      (new ∉ l ∨ new = old → l'.Nodup)
  | [], h, _ => by simp at h
  | s :: l, h, hn => by
    rw [List.nodup_cons] at hn
    unfold replaceSig
    by_cases c : s = old
    · rw [if_pos c]
      subst c
      refine ⟨new :: l, rfl, ?_, ?_⟩
      · intro t
        rw [List.mem_cons, List.mem_cons]
        constructor
        · rintro (rfl | h)
          · exact Or.inl rfl
          · exact Or.inr ⟨Or.inr h, fun e => hn.1 (e ▸ h)⟩
        · rintro (rfl | ⟨rfl | h, h'⟩)
          · exact Or.inl rfl
          · exact absurd rfl h'
          · exact Or.inr h
      · intro hnew
        rw [List.nodup_cons]
        refine ⟨?_, hn.2⟩
        rcases hnew with h' | rfl
        · exact fun h'' => h' (by simp [h''])
        · exact hn.1
    · rw [if_neg c]
      have hm : old ∈ l := by
        rcases List.mem_cons.mp h with h | h
        · exact absurd h.symm c
        · exact h
      obtain ⟨l', e, h1, h2⟩ := replaceSig_spec old new l hm hn.2
      refine ⟨s :: l', by rw [e]; rfl, ?_, ?_⟩
      · intro t
        rw [List.mem_cons, List.mem_cons, h1]
        constructor
        · rintro (rfl | rfl | h)
          · exact Or.inr ⟨Or.inl rfl, c⟩
          · exact Or.inl rfl
          · exact Or.inr ⟨Or.inr h.1, h.2⟩
        · rintro (rfl | ⟨rfl | h, h'⟩)
          · exact Or.inr (Or.inl rfl)
          · exact Or.inl rfl
          · exact Or.inr (Or.inr ⟨h, h'⟩)
      · intro hnew
        rw [List.nodup_cons]
        refine ⟨?_, h2 ?_⟩
        · rw [h1]
          rintro (rfl | h')
          · rcases hnew with h' | h'
            · exact h' (by simp)
            · exact c h'
          · exact hn.1 h'.1
        · rcases hnew with h' | h'
          · exact Or.inl (fun h'' => h' (by simp [h'']))
          · exact Or.inr h'

theorem firstOp_append (key : List T) (p : Nat) (cs : List (Call T)) (c : Call T) :
    firstOp key p (cs ++ [c]) = match firstOp key p cs with
      | some o => some o
      | none => if c.op.sig.inputs = key ∧ c.priority = p then some c.op else none := by
  unfold firstOp
  rw [List.find?_append]
  cases h : cs.find? (fun c => decide (c.op.sig.inputs = key ∧ c.priority = p)) with
  | some x => simp
  | none =>
    by_cases hc : c.op.sig.inputs = key ∧ c.priority = p
    · simp [hc]
    · simp [hc]

theorem firstOp_inputs {key : List T} {p : Nat} {cs : List (Call T)} {o : Op T} (h : firstOp key p cs = some o) :
    o.sig.inputs = key ∧ ∃ c ∈ cs, c.op = o := by
  unfold firstOp at h
  cases e : cs.find? (fun c => decide (c.op.sig.inputs = key ∧ c.priority = p)) with
  | none => rw [e] at h; cases h
  | some x =>
    rw [e] at h
    cases h
    have := List.find?_some e
    exact ⟨(by simpa using this : _ ∧ _).1, x, List.mem_of_find?_eq_some e, rfl⟩

theorem current_inputs {key : List T} {cs : List (Call T)} {o : Op T} (h : current key cs = some o) :
    o.sig.inputs = key ∧ ∃ c ∈ cs, c.op = o := by
  unfold current at h
  cases e : firstOp key 1 cs with
  | none => rw [e] at h; exact firstOp_inputs h
  | some x => rw [e] at h; cases h; exact firstOp_inputs e

/-- The family after some calls. -/
structure FamInv (f : Family T) (cs : List (Call T)) : Prop where
  op : ∀ key, ((lookupRec key f.records).bind (·.op)) = current key cs
  mask : ∀ key p, p ∈ ((lookupRec key f.records).getD ⟨none, []⟩).mask ↔ (p < 2 ∧ firstOp key p cs ≠ none)
  sigs : ∀ s, s ∈ f.supported ↔ CurrentSig cs s
  nodup : f.supported.Nodup
  known : ∀ key r, lookupRec key f.records = some r → ∃ c ∈ cs, c.op.sig.inputs = key

theorem famInv_empty : FamInv (Family.empty : Family T) [] := by
  refine ⟨?_, ?_, ?_, ?_, ?_⟩
  · intro key; simp [Family.empty, lookupRec, current, firstOp]
  · intro key p; simp [Family.empty, lookupRec, firstOp]
  · intro s; simp [Family.empty, CurrentSig, current, firstOp]
  · simp [Family.empty]
  · intro key r h; simp [Family.empty, lookupRec] at h

theorem insert_spec {f : Family T} {cs : List (Call T)} (h : FamInv f cs) (c : Call T) :
    ∃ f', f.insert c.op c.priority = some (expectedStatus cs c, f') ∧ FamInv f' (cs ++ [c]) := by
  have hop := h.op c.op.sig.inputs
  have hmask := h.mask c.op.sig.inputs
  unfold Family.insert expectedStatus
  dsimp only
  by_cases hp : c.priority ≥ 2
  · rw [if_pos hp, if_pos hp]
    refine ⟨_, rfl, ?_⟩
    have hfirst : ∀ key p, p < 2 → firstOp key p (cs ++ [c]) = firstOp key p cs := by
      intro key p hlt
      rw [firstOp_append]
      cases firstOp key p cs with
      | some o => rfl
      | none => simp only; rw [if_neg (by omega)]
    have hcur : ∀ key, current key (cs ++ [c]) = current key cs := by
      intro key
      unfold current
      rw [hfirst key 1 (by omega), hfirst key 0 (by omega)]
    refine ⟨?_, ?_, ?_, h.nodup, ?_⟩
    · intro key
      simp only [lookup_store, hcur]
      by_cases hk : c.op.sig.inputs = key
      · rw [if_pos hk, ← h.op key, hk]
        cases lookupRec key f.records <;> rfl
      · rw [if_neg hk]; exact h.op key
    · intro key p
      simp only [lookup_store]
      rw [show (p < 2 ∧ firstOp key p (cs ++ [c]) ≠ none) ↔ (p < 2 ∧ firstOp key p cs ≠ none) from
        ⟨fun x => ⟨x.1, by rw [← hfirst key p x.1]; exact x.2⟩, fun x => ⟨x.1, by rw [hfirst key p x.1]; exact x.2⟩⟩]
      by_cases hk : c.op.sig.inputs = key
      · rw [if_pos hk, ← h.mask key p, hk, Option.getD_some]
      · rw [if_neg hk]; exact h.mask key p
    · intro s
      rw [h.sigs s]
      unfold CurrentSig
      rw [hcur]
    · intro key r hr
      simp only [lookup_store] at hr
      by_cases hk : c.op.sig.inputs = key
      · exact ⟨c, by simp, hk⟩
      · rw [if_neg hk] at hr
        obtain ⟨c', hc', e⟩ := h.known key r hr
        exact ⟨c', by simp [hc'], e⟩
  · rw [if_neg hp, if_neg hp]
    have hp2 : c.priority < 2 := by omega
    by_cases hm : c.priority ∈ ((lookupRec c.op.sig.inputs f.records).getD ⟨none, []⟩).mask
    · rw [if_pos hm]
      have hf := ((hmask c.priority).mp hm).2
      rw [if_pos hf]
      refine ⟨f, rfl, ?_⟩
      have hfirst : ∀ key p, firstOp key p (cs ++ [c]) = firstOp key p cs := by
        intro key p
        rw [firstOp_append]
        cases e : firstOp key p cs with
        | some o => rfl
        | none =>
          simp only
          rw [if_neg]
          rintro ⟨rfl, rfl⟩
          exact hf e
      have hcur : ∀ key, current key (cs ++ [c]) = current key cs := by
        intro key
        unfold current
        rw [hfirst key 1, hfirst key 0]
      refine ⟨fun key => by rw [hcur]; exact h.op key, fun key p => by rw [hfirst]; exact h.mask key p, ?_, h.nodup, ?_⟩
      · intro s
        rw [h.sigs s]
        unfold CurrentSig
        rw [hcur]
      · intro key r hr
        obtain ⟨c', hc', e⟩ := h.known key r hr
        exact ⟨c', by simp [hc'], e⟩
    · rw [if_neg hm]
      have hf : firstOp c.op.sig.inputs c.priority cs = none := by
        by_contra hne
        exact hm ((hmask c.priority).mpr ⟨hp2, hne⟩)
      rw [if_neg (c := firstOp c.op.sig.inputs c.priority cs ≠ none) (by simp [hf])]
      have hfirst : ∀ key p, ¬ (c.op.sig.inputs = key ∧ c.priority = p) → firstOp key p (cs ++ [c]) = firstOp key p cs := by
        intro key p hne
        rw [firstOp_append]
        cases firstOp key p cs with
        | some o => rfl
        | none => simp only; rw [if_neg hne]
      have hself : firstOp c.op.sig.inputs c.priority (cs ++ [c]) = some c.op := by
        rw [firstOp_append, hf]
        simp
      have hcurne : ∀ key, c.op.sig.inputs ≠ key → current key (cs ++ [c]) = current key cs := by
        intro key hne
        unfold current
        rw [hfirst key 1 (fun x => hne x.1), hfirst key 0 (fun x => hne x.1)]
      -- masks
      have hmasks : ∀ (o : Option (Op T)) (key : List T) (p : Nat),
          p ∈ ((lookupRec key (storeRec c.op.sig.inputs
            ⟨o, c.priority :: ((lookupRec c.op.sig.inputs f.records).getD ⟨none, []⟩).mask⟩ f.records)).getD ⟨none, []⟩).mask ↔
          (p < 2 ∧ firstOp key p (cs ++ [c]) ≠ none) := by
        intro o key p
        rw [lookup_store]
        by_cases hk : c.op.sig.inputs = key
        · rw [if_pos hk, Option.getD_some]
          subst hk
          simp only [List.mem_cons]
          by_cases hpp : p = c.priority
          · subst hpp
            simp [hself, hp2]
          · rw [hfirst _ p (fun x => hpp x.2.symm), ← hmask p]
            simp [hpp]
        · rw [if_neg hk, hfirst key p (fun x => hk x.1)]
          exact h.mask key p
      have hknown : ∀ (rec : Record T) key r, lookupRec key (storeRec c.op.sig.inputs rec f.records) = some r →
          ∃ c' ∈ cs ++ [c], c'.op.sig.inputs = key := by
        intro rec key r hr
        rw [lookup_store] at hr
        by_cases hk : c.op.sig.inputs = key
        · exact ⟨c, by simp, hk⟩
        · rw [if_neg hk] at hr
          obtain ⟨c', hc', e⟩ := h.known key r hr
          exact ⟨c', by simp [hc'], e⟩
      by_cases hany : (((lookupRec c.op.sig.inputs f.records).getD ⟨none, []⟩).mask.any (fun p => decide (c.priority < p))) = true
      · rw [if_pos hany]
        refine ⟨_, rfl, ?_⟩
        obtain ⟨q, hq, hlt⟩ := List.any_eq_true.mp hany
        have hlt : c.priority < q := by simpa using hlt
        have hq' := (hmask q).mp hq
        have eq1 : q = 1 := by omega
        have ep0 : c.priority = 0 := by omega
        subst eq1
        have hcur : ∀ key, current key (cs ++ [c]) = current key cs := by
          intro key
          by_cases hk : c.op.sig.inputs = key
          · unfold current
            rw [hfirst key 1 (by rw [ep0]; simp)]
            subst hk
            cases e : firstOp c.op.sig.inputs 1 cs with
            | none => exact absurd e hq'.2
            | some o => rfl
          · exact hcurne key hk
        refine ⟨?_, fun key p => hmasks _ key p, ?_, h.nodup, fun key r hr => hknown _ key r hr⟩
        · intro key
          simp only [lookup_store, hcur]
          by_cases hk : c.op.sig.inputs = key
          · rw [if_pos hk, ← h.op key, hk]
            cases lookupRec key f.records <;> rfl
          · rw [if_neg hk]; exact h.op key
        · intro s
          rw [h.sigs s]
          unfold CurrentSig
          rw [hcur]
      · rw [if_neg hany]
        -- the operator is replaced
        have hcurself : current c.op.sig.inputs (cs ++ [c]) = some c.op := by
          unfold current
          by_cases hp1 : c.priority = 1
          · rw [hp1] at hself
            rw [hself]
          · have ep0 : c.priority = 0 := by omega
            rw [hfirst _ 1 (by rw [ep0]; simp)]
            have : firstOp c.op.sig.inputs 1 cs = none := by
              by_contra hne
              apply hany
              rw [List.any_eq_true]
              exact ⟨1, (hmask 1).mpr ⟨by omega, hne⟩, by simp [ep0]⟩
            rw [this]
            rw [ep0] at hself
            exact hself
        have hops : ∀ m key, ((lookupRec key (storeRec c.op.sig.inputs ⟨some c.op, m⟩ f.records)).bind (·.op)) = current key (cs ++ [c]) := by
          intro m key
          rw [lookup_store]
          by_cases hk : c.op.sig.inputs = key
          · rw [if_pos hk, ← hk, hcurself]
            rfl
          · rw [if_neg hk, hcurne key hk]
            exact h.op key
        have hsigs : ∀ s, CurrentSig (cs ++ [c]) s ↔ (s = c.op.sig ∨ (CurrentSig cs s ∧ s.inputs ≠ c.op.sig.inputs)) := by
          intro s
          unfold CurrentSig
          by_cases hk : c.op.sig.inputs = s.inputs
          · rw [← hk, hcurself]
            constructor
            · rintro ⟨o, e, rfl⟩
              cases e
              exact Or.inl rfl
            · rintro (rfl | ⟨_, hne⟩)
              · exact ⟨c.op, rfl, rfl⟩
              · exact absurd trivial (by simpa using hne)
          · rw [hcurne _ hk]
            constructor
            · exact fun x => Or.inr ⟨x, fun e => hk e.symm⟩
            · rintro (rfl | x)
              · exact absurd rfl hk
              · exact x.1
        have hcurOp : ((lookupRec c.op.sig.inputs f.records).getD ⟨none, []⟩).op = current c.op.sig.inputs cs := by
          rw [← hop]
          cases lookupRec c.op.sig.inputs f.records <;> rfl
        rw [hcurOp]
        cases hc : current c.op.sig.inputs cs with
        | none =>
          refine ⟨_, rfl, fun key => hops _ key, fun key p => hmasks _ key p, ?_, ?_, fun key r hr => hknown _ key r hr⟩
          · intro s
            rw [List.mem_append, List.mem_singleton, h.sigs, hsigs]
            constructor
            · rintro (x | x)
              · refine Or.inr ⟨x, ?_⟩
                intro e
                obtain ⟨o, ho, _⟩ := x
                rw [e, hc] at ho
                cases ho
              · exact Or.inl x
            · rintro (x | x)
              · exact Or.inr x
              · exact Or.inl x.1
          · rw [List.nodup_append]
            refine ⟨h.nodup, by simp, ?_⟩
            intro a ha b hb
            rw [List.mem_singleton] at hb
            subst hb
            rintro rfl
            obtain ⟨o, ho, _⟩ := (h.sigs _).mp ha
            rw [hc] at ho
            cases ho
        | some o =>
          dsimp only
          have hoi := (current_inputs hc).1
          have hmem : o.sig ∈ f.supported := (h.sigs _).mpr ⟨o, by rw [hoi]; exact hc, rfl⟩
          obtain ⟨l', e, h1, h2⟩ := replaceSig_spec o.sig c.op.sig f.supported hmem h.nodup
          rw [e]
          refine ⟨_, rfl, fun key => hops _ key, fun key p => hmasks _ key p, ?_, ?_, fun key r hr => hknown _ key r hr⟩
          · intro s
            rw [h1, h.sigs, hsigs]
            constructor
            · rintro (x | ⟨x, hne⟩)
              · exact Or.inl x
              · refine Or.inr ⟨x, ?_⟩
                intro e'
                obtain ⟨o', ho', rfl⟩ := x
                rw [e', hc] at ho'
                cases ho'
                exact hne rfl
            · rintro (x | ⟨x, hne⟩)
              · exact Or.inl x
              · refine Or.inr ⟨x, ?_⟩
                rintro rfl
                exact hne hoi
          · apply h2
            by_cases hin : c.op.sig ∈ f.supported
            · right
              obtain ⟨o', ho', e'⟩ := (h.sigs _).mp hin
              rw [hc] at ho'
              cases ho'
              exact e'.symm
            · exact Or.inl hin

end Verif.Overload
