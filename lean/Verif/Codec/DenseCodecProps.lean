import Verif.Codec.StringCodecLemmas
import Verif.Dense.DenseProps

/-!
# C109, C110: serialization of dense arrays
-/

namespace Verif.Codec
open Verif.Bits Verif.Bitmap Verif.Dense

variable {α : Type}

/-! ## C109: encoding and decoding again -/

/-- C109: an array is encoded without an error, and decoding the message gives an array with the same rows and the same
fingerprint, whatever memory the decoder got. -/
theorem dense_round_trip (mem : Nat → α) {a : DArr α} (hv : a.Valid) (hn : (a.size : Int) + 32 ≤ Edge.maxI64) :
    ∃ m b, encodeDense a = some m ∧ decodeDense mem m = some (.ok b) ∧ b.Valid ∧ elems b = elems a ∧
      b.fingerprintTokens = a.fingerprintTokens := by
  obtain ⟨ws, h1, h2⟩ := encodeDense_spec hv hn
  have hs : (⟨some (a.size : Int), ws, (elems a).filterMap id⟩ : DMsg α).Says (elems a) := by
    have := packs_says h2
    rwa [elems_length] at this
  obtain ⟨b, h3, h4, h5⟩ := decodeDense_ok mem (Or.inr (fun n hn' => by
    simp only [Option.some.injEq] at hn'; omega)) hs
  exact ⟨_, b, h1, h3, h4, h5, (fingerprint_iff b a h4 hv).2.2 h5⟩

/-- A slice whose bitmap starts at bit 3. -/
example : ∃ m b, encodeDense (⟨[10, 11, 12], [0b101000], 3⟩ : DArr Nat) = some m ∧
    m = ⟨some 3, [0b101], [10, 12]⟩ ∧ decodeDense (fun _ => 7) m = some (.ok b) ∧ elems b = [some 10, none, some 12] := by
  obtain ⟨m, b, h1, h2, _, h3, _⟩ := dense_round_trip (fun _ => 7) (a := (⟨[10, 11, 12], [0b101000], 3⟩ : DArr Nat))
    ⟨by decide, Or.inr (by decide)⟩ (by decide)
  have he : encodeDense (⟨[10, 11, 12], [0b101000], 3⟩ : DArr Nat) = some ⟨some 3, [0b101], [10, 12]⟩ := by decide +kernel
  refine ⟨m, b, h1, ?_, h2, by rw [h3]; decide +kernel⟩
  rw [he] at h1
  exact (Option.some.inj h1).symm

/-- C109: the message depends on the rows only, and different rows have different messages. -/
theorem dense_message_iff {a b : DArr α} (ha : a.Valid) (hb : b.Valid) (hna : (a.size : Int) + 32 ≤ Edge.maxI64)
    (hnb : (b.size : Int) + 32 ≤ Edge.maxI64) : encodeDense a = encodeDense b ↔ elems a = elems b := by
  obtain ⟨wa, h1, h2⟩ := encodeDense_spec ha hna
  obtain ⟨wb, h3, h4⟩ := encodeDense_spec hb hnb
  constructor
  · intro h
    rw [h1, h3] at h
    have h := Option.some.inj h
    have hsz : (a.size : Int) = b.size := by
      have := congrArg DMsg.size h
      simpa using this
    have hw : wa = wb := congrArg DMsg.bitmap h
    have hvs : (elems a).filterMap id = (elems b).filterMap id := congrArg DMsg.values h
    subst hw
    obtain ⟨p1, _⟩ := packs_bits h2
    obtain ⟨p2, _⟩ := packs_bits h4
    rw [List.length_map, elems_length] at p1 p2
    rw [← scatter_rows (elems a), ← scatter_rows (elems b), ← p1, ← p2, hvs,
      show a.values.length = b.values.length from by show a.size = b.size; omega]
  · intro h
    have hw : wa = wb := by
      rw [h] at h2
      exact packs_unique h2 h4
    have hsz : a.size = b.size := by
      show a.values.length = b.values.length
      rw [← elems_length, h, elems_length]
    rw [h1, h3, hw, h, hsz]

example : encodeDense (⟨[1, 2], [0b11], 0⟩ : DArr Nat) = encodeDense ⟨[1, 2], [], 0⟩ :=
  (dense_message_iff ⟨by decide, Or.inr (by decide)⟩ ⟨by decide, Or.inl rfl⟩ (by decide) (by decide)).2 (by decide +kernel)

theorem unit_elems (bm : List Word) (n : Nat) :
    elems (⟨List.replicate n (), bm, 0⟩ : DArr Unit) = (bitsOf bm n).map (fun b => if b then some () else none) := by
  unfold elems bitsOf
  rw [List.map_map]
  simp only [List.length_replicate]
  apply List.map_congr_left
  intro i hi
  have := List.mem_range.1 hi
  unfold elem
  by_cases hb : bm = []
  · simp [hb, this]
  · simp [hb, this]

theorem decodeUnit_spec (m : UMsg) (ho : NoOverflow m.size m.bitmap) :
    (∀ rows, m.Says rows → ∃ a, decodeUnit m = some (.ok a) ∧ a.Valid ∧ elems a = rows) ∧
    ((¬ ∃ rows, m.Says rows) → ∃ e, decodeUnit m = some (.error e)) := by
  obtain ⟨h1, h2⟩ := header_spec m.size m.bitmap ho
  unfold decodeUnit
  constructor
  · rintro rows ⟨n, hh, rfl⟩
    rw [h1 n hh]
    simp only [Option.bind_eq_bind, Option.bind_some]
    refine ⟨_, rfl, ?_, unit_elems _ _⟩
    apply headOk_valid (size := m.size)
    rw [List.length_replicate]
    exact hh
  · intro h
    obtain ⟨e, he⟩ := h2 (fun ⟨n, hh⟩ => h ⟨_, n, hh, rfl⟩)
    rw [he]
    exact ⟨e, rfl⟩

/-- C109: the same for units. -/
theorem unit_round_trip {a : DArr Unit} (hv : a.Valid) (hn : (a.size : Int) + 32 ≤ Edge.maxI64) :
    ∃ m b, encodeUnit a = some m ∧ decodeUnit m = some (.ok b) ∧ b.Valid ∧ elems b = elems a ∧
      b.fingerprintTokens = a.fingerprintTokens := by
  obtain ⟨ws, h1, h2⟩ := genBitmap_spec (n := a.size) hv.1 hv.2 hn
  obtain ⟨p1, p2⟩ := packs_bits h2
  rw [presOf_length] at p1 p2
  have hsays : (⟨some (a.size : Int), ws⟩ : UMsg).Says (elems a) := by
    refine ⟨a.size, ⟨rfl, p2⟩, ?_⟩
    dsimp only
    rw [p1, show a.size = a.values.length from rfl, ← elems_isSome, List.map_map]
    refine (List.map_id (elems a)).symm.trans (List.map_congr_left ?_)
    intro x _
    cases x <;> rfl
  obtain ⟨b, h3, h4, h5⟩ := (decodeUnit_spec ⟨some (a.size : Int), ws⟩ (Or.inr (fun n hn' => by
    simp only [Option.some.injEq] at hn'; omega))).1 _ hsays
  refine ⟨⟨some (a.size : Int), ws⟩, b, ?_, h3, h4, h5, (fingerprint_iff b a h4 hv).2.2 h5⟩
  unfold encodeUnit
  rw [h1]
  rfl

example : ∃ m b, encodeUnit ⟨[(), (), ()], [0b10110], 1⟩ = some m ∧ decodeUnit m = some (.ok b) ∧
    elems b = [some (), some (), none] := by
  obtain ⟨m, b, h1, h2, _, h3, _⟩ := unit_round_trip (a := ⟨[(), (), ()], [0b10110], 1⟩) ⟨by decide, Or.inr (by decide)⟩ (by decide)
  exact ⟨m, b, h1, h2, by rw [h3]; decide +kernel⟩

/-- C109: the same for strings: the rows are kept, although missing rows may have had any offsets. -/
theorem strings_round_trip (mem : Nat → StrBuf.Offsets) {a : SArr} {rows : List (Option (List Nat))} (hok : a.Ok) (hr : a.Holds rows)
    (hn : (a.size : Int) + 32 ≤ Edge.maxI64) :
    ∃ m b, encodeStrings a = some m ∧ decodeStrings mem m = some (.ok b) ∧ b.Ok ∧ b.Holds rows := by
  obtain ⟨m, h1, h2, h3, _⟩ := encodeStrings_spec hok hr hn
  obtain ⟨b, h4, h5, h6⟩ := decodeStrings_ok mem (Or.inr (fun n hn' => by
    rw [h3] at hn'; simp only [Option.some.injEq] at hn'; omega)) h2
  exact ⟨m, b, h1, h4, h5, h6⟩

/-- The characters start at offset 5; the second row is missing and has wild offsets. -/
example : ∃ m b, encodeStrings ⟨⟨[⟨5, 7⟩, ⟨99, 3⟩, ⟨6, 8⟩], [some 97, some 98, some 99], 5⟩, [0b1010], 1⟩ = some m ∧
    decodeStrings (fun _ => ⟨77, 1⟩) m = some (.ok b) ∧ b.Holds [some [97, 98], none, some [98, 99]] := by
  obtain ⟨m, b, h1, h2, _, h3⟩ := strings_round_trip (fun _ => ⟨77, 1⟩)
    (a := ⟨⟨[⟨5, 7⟩, ⟨99, 3⟩, ⟨6, 8⟩], [some 97, some 98, some 99], 5⟩, [0b1010], 1⟩)
    (rows := [some [97, 98], none, some [98, 99]])
    ⟨⟨by decide, Or.inr (by decide)⟩, by
      intro i o h1 h2
      match i with
      | 0 => simp at h1; subst h1; decide
      | 1 => exact absurd h2 (by decide +kernel)
      | 2 => simp at h1; subst h1; decide
      | _ + 3 => simp at h1⟩
    ⟨rfl, by
      intro i r h
      match i with
      | 0 => simp at h; subst h; decide +kernel
      | 1 => simp at h; subst h; decide +kernel
      | 2 => simp at h; subst h; decide +kernel
      | _ + 3 => simp at h⟩ (by decide)
  exact ⟨m, b, h1, h2, h3⟩

/-! ## C110: arbitrary messages -/

/-- C110: a message is decoded iff it says what the rows are, and then to these rows; otherwise an error is returned. Nothing
is read or written out of range. Missing: messages with a bitmap whose size is within 32 of the largest integer. -/
theorem decode_dense_exact_partial (mem : Nat → α) (m : DMsg α) (ho : NoOverflow m.size m.bitmap) :
    (∀ rows, m.Says rows → ∃ a, decodeDense mem m = some (.ok a) ∧ a.Valid ∧ elems a = rows) ∧
    ((¬ ∃ rows, m.Says rows) → ∃ e, decodeDense mem m = some (.error e)) :=
  ⟨fun _ h => decodeDense_ok mem ho h, fun h => decodeDense_error mem ho h⟩

/-- A message that no encoder writes: the unused bits of the bitmap are set. -/
example : ∃ a, decodeDense (fun _ => 0) (⟨some 3, [0xFFFFFFFD], [5, 6]⟩ : DMsg Nat) = some (.ok a) ∧
    elems a = [some 5, none, some 6] := by
  obtain ⟨a, h1, _, h2⟩ := (decode_dense_exact_partial (fun _ => 0) (⟨some 3, [0xFFFFFFFD], [5, 6]⟩ : DMsg Nat)
    (Or.inr (by intro n h; simp at h; subst h; decide))).1 [some 5, none, some 6]
    ⟨3, ⟨rfl, Or.inr (by decide)⟩, by decide +kernel, by decide +kernel⟩
  exact ⟨a, h1, h2⟩

/-- C110: the same for units. -/
theorem decode_unit_exact_partial (m : UMsg) (ho : NoOverflow m.size m.bitmap) :
    (∀ rows, m.Says rows → ∃ a, decodeUnit m = some (.ok a) ∧ a.Valid ∧ elems a = rows) ∧
    ((¬ ∃ rows, m.Says rows) → ∃ e, decodeUnit m = some (.error e)) := decodeUnit_spec m ho

example : ∃ e, decodeUnit ⟨some 33, [1]⟩ = some (.error e) :=
  (decode_unit_exact_partial ⟨some 33, [1]⟩ (Or.inr (by intro n h; simp at h; subst h; decide))).2 (by
    rintro ⟨rows, n, ⟨h1, h2⟩, _⟩
    simp at h1 h2
    omega)

/-- C110: the same for strings: well-formed messages, and only these, are decoded, so that reading any row of the result stays
within the characters; a message whose characters are all there says what the rows are. -/
theorem decode_strings_exact_partial (mem : Nat → StrBuf.Offsets) (m : SMsg) (ho : NoOverflow m.size m.bitmap)
    (hi : ∀ chars, m.characters = some chars → ∀ c ∈ chars, c ≠ none) :
    (∀ rows, m.Says rows → ∃ a, decodeStrings mem m = some (.ok a) ∧ a.Ok ∧ a.Holds rows) ∧
    ((¬ ∃ rows, m.Says rows) → ∃ e, decodeStrings mem m = some (.error e)) ∧
    ((∃ rows, m.Says rows) ↔ ∃ n chars, m.Ok n chars) := by
  have hiff : (∃ rows, m.Says rows) ↔ ∃ n chars, m.Ok n chars := by
    constructor
    · rintro ⟨_, n, chars, _, h, _⟩
      exact ⟨n, chars, h⟩
    · rintro ⟨n, chars, h⟩
      exact says_of_ok (hi chars h.2.1) h
  exact ⟨fun _ h => decodeStrings_ok mem ho h, fun h => decodeStrings_error mem ho (fun hc => h (hiff.2 hc)), hiff⟩

/-- Rows may overlap and need not be in order; an offset past the characters is an error. -/
example : (∃ a, decodeStrings (fun _ => ⟨9, 9⟩) ⟨some 2, [], some [some 97, some 98], [1, 0], [2, 2]⟩ = some (.ok a) ∧
      a.Holds [some [98], some [97, 98]]) ∧
    ∃ e, decodeStrings (fun _ => ⟨9, 9⟩) ⟨some 2, [], some [some 97, some 98], [1, 0], [2, 3]⟩ = some (.error e) := by
  constructor
  · obtain ⟨a, h1, _, h2⟩ := (decode_strings_exact_partial (fun _ => ⟨9, 9⟩) ⟨some 2, [], some [some 97, some 98], [1, 0], [2, 2]⟩
      (Or.inl rfl) (by intro c h; simp at h; subst h; decide)).1 [some [98], some [97, 98]]
      ⟨2, [some 97, some 98], [[98], [97, 98]], ⟨⟨rfl, Or.inl rfl⟩, rfl, by decide +kernel, rfl, by
        intro j s e h1 h2
        match j with
        | 0 => simp at h1 h2; subst h1 h2; decide
        | 1 => simp at h1 h2; subst h1 h2; decide
        | _ + 2 => simp at h1⟩, by decide +kernel, by decide +kernel⟩
    exact ⟨a, h1, h2⟩
  · apply (decode_strings_exact_partial (fun _ => ⟨9, 9⟩) ⟨some 2, [], some [some 97, some 98], [1, 0], [2, 3]⟩
      (Or.inl rfl) (by intro c h; simp at h; subst h; decide)).2.1
    rintro ⟨_, n, chars, _, ⟨_, h2, _, _, h5⟩, _⟩
    simp at h2
    subst h2
    have := (h5 1 0 3 rfl rfl).2.2
    simp at this

/-- C110 is false for the largest sizes: the number of words is computed with an overflow before the bitmap is compared. -/
theorem header_overflow_counterexample (n : Int) (h : Edge.maxI64 - 32 < n) (h' : n ≤ Edge.maxI64) (w : Word) (ws : List Word)
    (mem : Nat → α) (values : List α) :
    decodeDense mem ⟨some n, w :: ws, values⟩ = none ∧ decodeUnit ⟨some n, w :: ws⟩ = none := by
  have hm : Edge.maxI64 = 9223372036854775807 := rfl
  have hh : header (some n) (w :: ws) = none := by
    unfold header
    dsimp only
    rw [if_neg (by omega), if_pos (by simp)]
    unfold bitmapSizeI
    rw [if_pos (by omega)]
    rfl
  constructor
  · unfold decodeDense
    rw [hh]
    rfl
  · unfold decodeUnit
    rw [hh]
    rfl

example : decodeUnit ⟨some 9223372036854775807, [1]⟩ = none :=
  (header_overflow_counterexample 9223372036854775807 (by decide) (by decide) 1 [] (fun _ => 0) []).2

end Verif.Codec
