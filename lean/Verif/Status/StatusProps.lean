import Verif.Status.StatusLemmas

/-!
# Structured errors (C158)
-/

namespace Verif.Status

/-- `WithPayloadAndCause` replaces the payload and the cause and nothing else. -/
theorem with_payload_and_cause (e : Err) (p : Option AnyVal) (c : Status) :
    ∃ r, withPayloadAndCause (some e) p c = some r ∧ SameBase r e ∧ getPayload (some r) = p ∧ getCause (some r) = c ∧ (e.WF → r.WF) :=
  attach_some e p c

/-- `WithCause` replaces the cause; the payload stays. -/
theorem with_cause (e : Err) (c : Status) :
    ∃ r, withCause (some e) c = some r ∧ SameBase r e ∧ getPayload (some r) = getPayload (some e) ∧ getCause (some r) = c ∧
      (e.WF → r.WF) := by
  unfold withCause
  cases h : readStructured (some e) with
  | none =>
    have hp : getPayload (some e) = none := by simp only [getPayload, h]
    rw [hp]; exact attach_some e none c
  | some x =>
    obtain ⟨p, d⟩ := x
    have hp : getPayload (some e) = p := by simp only [getPayload, h]
    rw [hp]; exact attach_some e p c

/-- `WithPayload` replaces the payload; the cause stays. -/
theorem with_payload (e : Err) (p : Option AnyVal) :
    ∃ r, withPayload (some e) p = some r ∧ SameBase r e ∧ getPayload (some r) = p ∧ getCause (some r) = getCause (some e) ∧
      (e.WF → r.WF) := by
  unfold withPayload
  cases h : readStructured (some e) with
  | none =>
    have hp : getCause (some e) = none := by simp only [getCause, h]
    rw [hp]; exact attach_some e p none
  | some x =>
    obtain ⟨q, d⟩ := x
    have hp : getCause (some e) = d := by simp only [getCause, h]; cases d <;> rfl
    rw [hp]; exact attach_some e p d

/-- `OkStatus` stays `OkStatus`, whatever is attached to it; it has no payload and no cause. -/
theorem ok_stays_ok (visit : List (String × Cord) → List (String × Cord)) (p : Option AnyVal) (c : Status) (m : String)
    (l : SourceLocation) :
    withPayloadAndCause none p c = none ∧ withCause none c = none ∧ withPayload none p = none ∧ withUpdatedMessage visit none m = none ∧
      withNote none m = none ∧ withSourceLocation none l = none ∧ getPayload none = none ∧ getCause none = none := by
  refine ⟨rfl, rfl, rfl, rfl, rfl, rfl, rfl, rfl⟩

/-- `WithUpdatedMessage` replaces the message and nothing else, in whatever order the payloads are visited. -/
theorem with_updated_message (visit : List (String × Cord) → List (String × Cord)) (hv : ∀ ps, (visit ps).Perm ps) (e : Err) (he : e.WF)
    (m : String) :
    ∃ r, withUpdatedMessage visit (some e) m = some r ∧ r.code = e.code ∧ r.message = m ∧ r.locations = e.locations ∧
      (∀ url, payloadAt (some r) url = payloadAt (some e) url) ∧ getPayload (some r) = getPayload (some e) ∧
      getCause (some r) = getCause (some e) ∧ r.WF := by
  have h0 : withUpdatedMessage visit (some e) m = setPayloads (some (.mk e.code m e.locations [])) (visit e.payloads) := by
    simp only [withUpdatedMessage, code, mkStatus, Option.map_some, locations, addLocations_some]
    rfl
  obtain ⟨r, h1, h2, h3, h4, h5, h6⟩ := setPayloads_some (visit e.payloads) (.mk e.code m e.locations [])
  have hn : ((visit e.payloads).map Prod.fst).Nodup := ((hv _).map Prod.fst).nodup_iff.2 he
  have hl : ∀ url, payloadAt (some r) url = payloadAt (some e) url := by
    intro url
    show lookup url r.payloads = lookup url e.payloads
    rw [h6 hn url, ← lookup_perm (hv e.payloads) he url]
    cases lookup url (visit e.payloads) <;> rfl
  refine ⟨r, h0.trans h1, h2, h3, h4, hl, ?_, ?_, h5 (by simp [Err.WF, Err.payloads])⟩
  · simp only [getPayload, readStructured, hl]
  · simp only [getCause, readStructured, hl]

/-- `WithNote`: the code stays, the note is appended to the message, it is the payload, and the cause is the whole original status. -/
theorem with_note (e : Err) (note : String) :
    ∃ r, withNote (some e) note = some r ∧ r.code = e.code ∧ r.message = e.message ++ "\n" ++ note ∧ r.locations = [] ∧
      getNote (some r) = some note ∧ getLocation (some r) = none ∧ getCause (some r) = some e ∧
      (∀ url, url ≠ "arolla/structured_error" → payloadAt (some r) url = none) ∧ r.WF := by
  obtain ⟨r, h1, ⟨h2, h3, h4, h5⟩, h6, h7, h8⟩ := attach_some (.mk e.code (e.message ++ "\n" ++ note) [] []) (some (.note note)) (some e)
  refine ⟨r, h1, h2, h3, h4, ?_, ?_, h7, fun url hu => ?_, h8 (by simp [Err.WF, Err.payloads])⟩
  · simp only [getNote, h6]
  · simp only [getLocation, h6]
  · rw [h5 url hu]; rfl

/-- After any number of notes every earlier status, and in the end the original one, is found by following the causes. -/
theorem notes_chain (e : Err) (notes : List String) (more : List String) :
    causeAt more.length ((notes ++ more).foldl withNote (some e)) = notes.foldl withNote (some e) ∧
      (((notes ++ more).foldl withNote (some e)).map Err.code = some e.code) ∧
      message ((notes ++ more).foldl withNote (some e)) = (notes ++ more).foldl (fun m n => m ++ "\n" ++ n) e.message := by
  have key : ∀ (notes : List String) (e : Err), ∃ r, notes.foldl withNote (some e) = some r ∧ r.code = e.code ∧
      r.message = notes.foldl (fun m n => m ++ "\n" ++ n) e.message := by
    intro notes
    induction notes with
    | nil => exact fun e => ⟨e, rfl, rfl, rfl⟩
    | cons n rest ih =>
      intro e
      obtain ⟨r, h1, h2, h3, -⟩ := with_note e n
      obtain ⟨q, g1, g2, g3⟩ := ih r
      refine ⟨q, ?_, g2.trans h2, ?_⟩
      · simp only [List.foldl_cons, h1, g1]
      · simp only [List.foldl_cons, g3, h3]
  refine ⟨?_, ?_, ?_⟩
  · obtain ⟨r, hr, -⟩ := key notes e
    rw [List.foldl_append, hr]
    clear hr
    -- the causes undo the notes, last note first
    have step : ∀ (n : Nat) (more : List String) (r : Err), more.length = n → causeAt n (more.foldl withNote (some r)) = some r := by
      intro n
      induction n with
      | zero => intro more r h; cases more with
        | nil => rfl
        | cons => simp at h
      | succ n ih =>
        intro more r h
        have hne : more ≠ [] := by intro h0; simp [h0] at h
        obtain ⟨q, hq, -⟩ := key more.dropLast r
        have hm : more.foldl withNote (some r) = withNote (some q) (more.getLast hne) := by
          conv => lhs; rw [← List.dropLast_concat_getLast hne, List.foldl_append, hq]
          rfl
        obtain ⟨t, ht, -, -, -, -, -, hc, -⟩ := with_note q (more.getLast hne)
        rw [hm, ht]
        simp only [causeAt, hc]
        rw [← hq]
        exact ih _ r (by simp [h])
    exact step _ more r rfl
  · obtain ⟨r, hr, hc, -⟩ := key (notes ++ more) e
    rw [hr, ← hc]; rfl
  · obtain ⟨r, hr, -, hm⟩ := key (notes ++ more) e
    rw [hr]; exact hm

theorem str_append_eq_empty (a b : String) : a ++ b = "" ↔ a = "" ∧ b = "" := by
  constructor
  · intro h
    have := congrArg String.toList h
    simp only [String.toList_append, String.toList_empty, List.append_eq_nil_iff] at this
    exact ⟨String.toList_inj.1 (by simpa using this.1), String.toList_inj.1 (by simpa using this.2)⟩
  · rintro ⟨rfl, rfl⟩; rfl

theorem join2 (sep a b : String) : joinParts sep [a, b] = if a = "" then b else if b = "" then a else a ++ sep ++ b := by
  unfold joinParts
  by_cases ha : a = "" <;> by_cases hb : b = "" <;> simp [ha, hb]

theorem location_text (l : SourceLocation) : locationText l = joinParts ", " [fileSpec l, functionSpec l] := by
  rw [join2]
  unfold locationText fileSpec functionSpec
  by_cases hf : l.fileName = "" <;> by_cases hg : l.functionName = "" <;> by_cases hl : 0 < l.line <;> by_cases hc : 0 < l.column <;>
    simp [hf, hg, hl, hc, str_append_eq_empty, String.append_assoc] <;>
    (rw [← String.append_assoc]; rfl)

/-- `WithSourceLocation`: the message is extended by the location as far as it is known, the payload is the location, and the cause is the
whole original status. -/
theorem with_source_location (e : Err) (l : SourceLocation) :
    ∃ r, withSourceLocation (some e) l = some r ∧ r.code = e.code ∧ r.message = messageSpec e.message l ∧ r.locations = [] ∧
      getLocation (some r) = some l ∧ getNote (some r) = none ∧ getCause (some r) = some e ∧
      (∀ url, url ≠ "arolla/structured_error" → payloadAt (some r) url = none) ∧ r.WF := by
  obtain ⟨r, h1, ⟨h2, h3, h4, h5⟩, h6, h7, h8⟩ :=
    attach_some (.mk e.code (locationMessage e.message l) [] []) (some (.location l)) (some e)
  refine ⟨r, h1, h2, ?_, h4, ?_, ?_, h7, fun url hu => ?_, h8 (by simp [Err.WF, Err.payloads])⟩
  · rw [h3]
    show locationMessage e.message l = _
    unfold messageSpec
    rw [← location_text]
    simp only [locationMessage, join2]
    by_cases ht : locationText l = "" <;> by_cases hl : l.lineText = "" <;> simp [ht, hl, str_append_eq_empty, String.append_assoc]
  · simp only [getLocation, h6]
  · simp only [getNote, h6]
  · rw [h5 url hu]; rfl

/-! ### Examples -/

def exErr : Err := .mk .invalidArgument "bad" [7] [("other", .text "x"), ("arolla/structured_error", .token (some (.other 1 2)) none)]

example : exErr.WF := by simp [Err.WF, exErr, Err.payloads]
example : getPayload (some exErr) = some (.other 1 2) := by decide +kernel
example : getCause (withNote (some exErr) "n") = some exErr := by
  obtain ⟨r, h, -, -, -, -, -, hc, -⟩ := with_note exErr "n"; rw [h]; exact hc
example : message (withSourceLocation (some exErr) ⟨"f", "a.py", 3, 5, "x = 1"⟩) = "bad\n\na.py:3:5, in f\nx = 1" := by decide +kernel
example : message (withSourceLocation (some exErr) ⟨"f", "", 3, 5, ""⟩) = "bad\n\nin f" := by decide +kernel
example : message (withSourceLocation (some exErr) ⟨"", "", 3, 5, ""⟩) = "bad" := by decide +kernel
example : (withUpdatedMessage List.reverse (some exErr) "m").map Err.locations = some [7] := by decide +kernel
example : ∀ ps : List (String × Cord), ps.reverse.Perm ps := fun ps => List.reverse_perm ps

end Verif.Status
