import Verif.Status.StatusSpec

/-! # Lemmas about payloads -/

namespace Verif.Status

theorem lookup_insert (url u : String) (c : Cord) (ps : List (String × Cord)) :
    lookup u (insert url c ps) = if u = url then some c else lookup u ps := by
  induction ps with
  | nil => simp only [insert, lookup]; split <;> split <;> simp_all
  | cons p rest ih =>
    obtain ⟨v, d⟩ := p
    by_cases hv : v = url
    · subst hv
      simp only [insert, if_true, lookup]
      by_cases hu : v = u
      · subst hu; simp
      · rw [if_neg hu, if_neg hu, if_neg (fun h => hu h.symm)]
    · simp only [insert, if_neg hv, lookup, ih]
      by_cases hu : v = u
      · subst hu; simp [hv]
      · simp [hu]

theorem mem_insert (url : String) (c : Cord) (ps : List (String × Cord)) (u : String) :
    u ∈ (insert url c ps).map Prod.fst ↔ u = url ∨ u ∈ ps.map Prod.fst := by
  induction ps with
  | nil => simp [insert]
  | cons p rest ih =>
    obtain ⟨v, d⟩ := p
    by_cases hv : v = url
    · subst hv; simp [insert]
    · simp only [insert, if_neg hv, List.map_cons, List.mem_cons, ih]
      constructor <;> (rintro (h | h | h) <;> simp_all)

theorem nodup_insert (url : String) (c : Cord) (ps : List (String × Cord)) (h : (ps.map Prod.fst).Nodup) :
    ((insert url c ps).map Prod.fst).Nodup := by
  induction ps with
  | nil => simp [insert]
  | cons p rest ih =>
    obtain ⟨v, d⟩ := p
    simp only [List.map_cons, List.nodup_cons] at h
    by_cases hv : v = url
    · subst hv; simpa [insert] using h
    · simp only [insert, if_neg hv, List.map_cons, List.nodup_cons]
      refine ⟨fun hm => ?_, ih h.2⟩
      rcases (mem_insert _ _ _ _).1 hm with h1 | h1
      · exact hv h1
      · exact h.1 h1

theorem payloadAt_setPayload (e : Err) (url u : String) (c : Cord) :
    payloadAt (setPayload (some e) url c) u = if u = url then some c else payloadAt (some e) u := by
  simp only [setPayload, Option.map_some, payloadAt, Err.payloads]
  exact lookup_insert url u c _

theorem attach_some (e : Err) (p : Option AnyVal) (c : Status) :
    ∃ r, attach (some e) p c = some r ∧ SameBase r e ∧ getPayload (some r) = p ∧ getCause (some r) = c ∧ (e.WF → r.WF) := by
  refine ⟨_, rfl, ⟨rfl, rfl, rfl, ?_⟩, ?_, ?_, ?_⟩
  · intro url hu
    have := payloadAt_setPayload e structuredUrl url (.token p c)
    rw [if_neg (show url ≠ structuredUrl from hu)] at this
    exact this
  · have := payloadAt_setPayload e structuredUrl structuredUrl (.token p c)
    rw [if_pos rfl] at this
    show getPayload (setPayload (some e) structuredUrl (.token p c)) = p
    simp only [getPayload, readStructured, this]
  · have := payloadAt_setPayload e structuredUrl structuredUrl (.token p c)
    rw [if_pos rfl] at this
    show getCause (setPayload (some e) structuredUrl (.token p c)) = c
    simp only [getCause, readStructured, this]
    cases c <;> rfl
  · intro h
    exact nodup_insert _ _ _ h

theorem addLocations_some (e : Err) (ls : List Nat) :
    addLocations (some e) ls = some (.mk e.code e.message (e.locations ++ ls) e.payloads) := by
  induction ls generalizing e with
  | nil => cases e; simp [addLocations, Err.code, Err.message, Err.locations, Err.payloads]
  | cons l ls ih => simp [addLocations, addLocation, ih, Err.code, Err.message, Err.locations, Err.payloads]

theorem setPayloads_some (ps : List (String × Cord)) (e : Err) :
    ∃ r, setPayloads (some e) ps = some r ∧ r.code = e.code ∧ r.message = e.message ∧ r.locations = e.locations ∧ (e.WF → r.WF) ∧
      ((ps.map Prod.fst).Nodup → ∀ u, lookup u r.payloads = match lookup u ps with | some c => some c | none => lookup u e.payloads) := by
  induction ps generalizing e with
  | nil => exact ⟨e, rfl, rfl, rfl, rfl, id, fun _ u => rfl⟩
  | cons p rest ih =>
    obtain ⟨v, c⟩ := p
    obtain ⟨r, h1, h2, h3, h4, h5, h6⟩ := ih (.mk e.code e.message e.locations (insert v c e.payloads))
    refine ⟨r, h1, h2, h3, h4, fun h => h5 (nodup_insert _ _ _ h), fun hn u => ?_⟩
    simp only [List.map_cons, List.nodup_cons] at hn
    rw [h6 hn.2 u]
    simp only [Err.payloads, lookup]
    by_cases hv : v = u
    · subst hv
      have hl : lookup v rest = none := by
        have := hn.1
        clear hn h1 h2 h3 h4 h5 h6 ih
        induction rest with
        | nil => rfl
        | cons q rest ih =>
          obtain ⟨w, d⟩ := q
          simp only [List.map_cons, List.mem_cons, not_or] at this
          simp only [lookup, if_neg (fun h : w = v => this.1 h.symm)]
          exact ih this.2
      rw [hl]; simp [lookup_insert]
    · rw [if_neg hv]
      cases lookup u rest with
      | some _ => rfl
      | none =>
        simp only [lookup_insert]
        rw [if_neg (fun h => hv h.symm)]

theorem lookup_eq_some {ps : List (String × Cord)} (h : (ps.map Prod.fst).Nodup) (u : String) (c : Cord) :
    lookup u ps = some c ↔ (u, c) ∈ ps := by
  induction ps with
  | nil => simp [lookup]
  | cons p rest ih =>
    obtain ⟨v, d⟩ := p
    simp only [List.map_cons, List.nodup_cons] at h
    simp only [lookup, List.mem_cons, Prod.mk.injEq]
    by_cases hv : v = u
    · subst hv
      simp only [if_true, Option.some.injEq, true_and]
      constructor
      · intro h'; exact .inl h'.symm
      · rintro (h' | h')
        · exact h'.symm
        · exact absurd (List.mem_map_of_mem (f := Prod.fst) h') h.1
    · rw [if_neg hv, ih h.2]
      constructor
      · exact .inr
      · rintro (h' | h')
        · exact absurd h'.1.symm hv
        · exact h'

theorem lookup_perm {ps qs : List (String × Cord)} (hp : ps.Perm qs) (h : (qs.map Prod.fst).Nodup) (u : String) :
    lookup u ps = lookup u qs := by
  have h' : (ps.map Prod.fst).Nodup := (hp.map Prod.fst).nodup_iff.2 h
  apply Option.ext
  intro c
  rw [lookup_eq_some h', lookup_eq_some h, hp.mem_iff]

end Verif.Status
