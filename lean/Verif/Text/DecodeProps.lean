import Verif.Text.DecodeModel
import Verif.Text.DecodeSpec
import Verif.Text.IcuLemmas
import Mathlib.Data.List.Induction

/-!
# strings.decode and strings.encode
-/

namespace Verif.Text

theorem Begins.prefix {x y : List Nat} (h : Begins y) (hx : x <+: y) : Begins x := by
  obtain ⟨c, h1, h2⟩ := h
  exact ⟨c, h1, hx.trans h2⟩

/-- The first two bytes of a scalar value. -/
theorem begins_two {b1 b2 : Nat} (h : Begins [b1, b2]) : 0xC2 ≤ b1 ∧ b1 < 0xF5 ∧ secondOk b1 b2 = true := by
  obtain ⟨c, hc, t, ht⟩ := h
  have hc' := hc
  unfold Scalar at hc'
  rcases enc_cases c hc with ⟨h1, h2⟩ | ⟨d1, d2, h, h1, h2, h3, h4, h5⟩ | ⟨d1, d2, d3, h, h1, h2, h3, h4, h5, h6, h7⟩ |
    ⟨d1, d2, d3, d4, h, h1, h2, h3, h4, h5, h6, h7, h8⟩
  · rw [h2] at ht; simp at ht
  all_goals
    rw [h] at ht
    simp only [List.cons_append, List.nil_append, List.cons.injEq] at ht
    obtain ⟨rfl, rfl, _⟩ := ht
    unfold Cont at *
    refine ⟨by omega, by omega, ?_⟩
    unfold secondOk
    repeat' split
    all_goals simp only [Bool.and_eq_true, decide_eq_true_eq]
    all_goals omega

theorem begins_three {b1 b2 b3 : Nat} (h : Begins [b1, b2, b3]) : 0xE0 ≤ b1 ∧ contOk b3 = true := by
  obtain ⟨c, hc, t, ht⟩ := h
  rcases enc_cases c hc with ⟨h1, h2⟩ | ⟨d1, d2, h, h1, h2, h3, h4, h5⟩ | ⟨d1, d2, d3, h, h1, h2, h3, h4, h5, h6, h7⟩ |
    ⟨d1, d2, d3, d4, h, h1, h2, h3, h4, h5, h6, h7, h8⟩
  · rw [h2] at ht; simp at ht
  · rw [h] at ht; simp at ht
  all_goals
    rw [h] at ht
    simp only [List.cons_append, List.nil_append, List.cons.injEq] at ht
    obtain ⟨rfl, rfl, rfl, _⟩ := ht
    unfold Cont at *
    refine ⟨by omega, ?_⟩
    unfold contOk
    simp only [Bool.and_eq_true, decide_eq_true_eq]
    omega

theorem begins_four {b1 b2 b3 b4 : Nat} (h : Begins [b1, b2, b3, b4]) : contOk b4 = true := by
  obtain ⟨c, hc, t, ht⟩ := h
  rcases enc_cases c hc with ⟨h1, h2⟩ | ⟨d1, d2, h, h1, h2, h3, h4, h5⟩ | ⟨d1, d2, d3, h, h1, h2, h3, h4, h5, h6, h7⟩ |
    ⟨d1, d2, d3, d4, h, h1, h2, h3, h4, h5, h6, h7, h8⟩
  · rw [h2] at ht; simp at ht
  · rw [h] at ht; simp at ht
  · rw [h] at ht; simp at ht
  · rw [h] at ht
    simp only [List.cons_append, List.nil_append, List.cons.injEq] at ht
    obtain ⟨rfl, rfl, rfl, rfl, _⟩ := ht
    unfold Cont at *
    unfold contOk
    simp only [Bool.and_eq_true, decide_eq_true_eq]
    omega

theorem begins_three_of {b1 b2 : Nat} (h1 : 0xE0 ≤ b1) (h2 : b1 < 0xF5) (h : secondOk b1 b2 = true) : Begins [b1, b2] := by
  have hs : Begins [b1, b2] := by
    rcases Nat.lt_or_ge b1 0xF0 with hb | hb
    · refine ⟨(b1 - 0xE0) * 4096 + (b2 - 0x80) * 64, ?_, [0x80], ?_⟩
      · unfold secondOk at h; unfold Scalar
        repeat' split at h
        all_goals simp only [Bool.and_eq_true, decide_eq_true_eq] at h
        all_goals omega
      · unfold secondOk at h; unfold enc
        repeat' split at h
        all_goals simp only [Bool.and_eq_true, decide_eq_true_eq] at h
        all_goals rw [if_neg (by omega), if_neg (by omega), if_pos (by omega)]
        all_goals simp only [List.cons_append, List.nil_append, List.cons.injEq, and_true]
        all_goals omega
    · refine ⟨(b1 - 0xF0) * 262144 + (b2 - 0x80) * 4096, ?_, [0x80, 0x80], ?_⟩
      · unfold secondOk at h; unfold Scalar
        repeat' split at h
        all_goals simp only [Bool.and_eq_true, decide_eq_true_eq] at h
        all_goals omega
      · unfold secondOk at h; unfold enc
        repeat' split at h
        all_goals simp only [Bool.and_eq_true, decide_eq_true_eq] at h
        all_goals rw [if_neg (by omega), if_neg (by omega), if_neg (by omega)]
        all_goals simp only [List.cons_append, List.nil_append, List.cons.injEq, and_true]
        all_goals omega
  exact hs

theorem begins_four_of {b1 b2 b3 : Nat} (h1 : 0xF0 ≤ b1) (h2 : b1 < 0xF5) (h : secondOk b1 b2 = true) (h3 : contOk b3 = true) :
    Begins [b1, b2, b3] := by
  unfold contOk at h3
  simp only [Bool.and_eq_true, decide_eq_true_eq] at h3
  refine ⟨(b1 - 0xF0) * 262144 + (b2 - 0x80) * 4096 + (b3 - 0x80) * 64, ?_, [0x80], ?_⟩
  · unfold secondOk at h; unfold Scalar
    repeat' split at h
    all_goals simp only [Bool.and_eq_true, decide_eq_true_eq] at h
    all_goals omega
  · unfold secondOk at h; unfold enc
    repeat' split at h
    all_goals simp only [Bool.and_eq_true, decide_eq_true_eq] at h
    all_goals rw [if_neg (by omega), if_neg (by omega), if_neg (by omega)]
    all_goals simp only [List.cons_append, List.nil_append, List.cons.injEq, and_true]
    all_goals omega

/-- The first `n` bytes of a longer prefix. -/
theorem begins_take {y s : List Nat} {n : Nat} (hy : y <+: s) (hn : n ≤ y.length) (h : Begins y) : Begins (s.take n) := by
  refine h.prefix ?_
  obtain ⟨t, rfl⟩ := hy
  rw [List.take_append_of_le_length hn]
  exact List.take_prefix _ _

/-- An unsuccessful step skips a maximal subpart. -/
theorem u8Next_none {b : Nat} {s : List Nat} (h : (u8Next (b :: s)).1 = none) :
    MaximalSubpart ((b :: s).take (u8Next (b :: s)).2) ((b :: s).drop (u8Next (b :: s)).2) := by
  unfold MaximalSubpart
  rw [List.take_append_drop]
  refine ⟨?_, ?_, ?_⟩
  · rintro c hc ⟨t, ht⟩
    rw [← ht, u8Next_enc hc] at h
    cases h
  · have := u8Next_pos b s
    intro h0
    have := congrArg List.length h0
    simp at this; omega
  have hlen : ((b :: s).take (u8Next (b :: s)).2).length = (u8Next (b :: s)).2 := by
    rw [List.length_take]; have := u8Next_le (b :: s); omega
  rw [hlen]
  generalize hs : b :: s = l at h ⊢
  suffices hh : ((u8Next l).2 = 1 ∨ Begins (l.take (u8Next l).2)) ∧ ((u8Next l).2 < l.length → ¬ Begins (l.take ((u8Next l).2 + 1))) by
    refine ⟨hh.1, ?_⟩
    intro y hy hl hb
    have hyl := hy.length_le
    exact hh.2 (by omega) (begins_take hy (by omega) hb)
  clear hlen
  unfold u8Next at h ⊢
  subst hs
  dsimp only at h ⊢
  split at h
  · cases h
  rename_i hb1
  rw [if_neg hb1]
  split at h
  · rename_i hb2
    rw [if_pos hb2]
    refine ⟨Or.inl rfl, ?_⟩
    intro hl hbeg
    cases s with
    | nil => simp at hl
    | cons b2 s =>
      have := begins_two (by simpa using hbeg)
      omega
  rename_i hb2
  rw [if_neg hb2]
  cases s with
  | nil => exact ⟨Or.inl rfl, by intro hl; simp at hl⟩
  | cons b2 s =>
    dsimp only at h ⊢
    split at h
    · rename_i hb3
      rw [if_pos hb3]
      refine ⟨Or.inl rfl, ?_⟩
      intro _ hbeg
      have := begins_two (by simpa using hbeg)
      rw [this.2.2] at hb3
      simp at hb3
    rename_i hb3
    rw [if_neg hb3]
    have hsec : secondOk b b2 = true := by simpa using hb3
    split at h
    · cases h
    rename_i hb4
    rw [if_neg hb4]
    cases s with
    | nil => exact ⟨Or.inr (begins_three_of (by omega) (by omega) hsec), by intro hl; simp at hl⟩
    | cons b3 s =>
      dsimp only at h ⊢
      split at h
      · rename_i hb5
        rw [if_pos hb5]
        refine ⟨Or.inr (begins_three_of (by omega) (by omega) hsec), ?_⟩
        intro _ hbeg
        have := begins_three (by simpa using hbeg)
        rw [this.2] at hb5
        simp at hb5
      rename_i hb5
      rw [if_neg hb5]
      have hthird : contOk b3 = true := by simpa using hb5
      split at h
      · cases h
      rename_i hb6
      rw [if_neg hb6]
      cases s with
      | nil => exact ⟨Or.inr (begins_four_of (by omega) (by omega) hsec hthird), by intro hl; simp at hl⟩
      | cons b4 s =>
        dsimp only at h ⊢
        split at h
        · rename_i hb7
          rw [if_pos hb7]
          refine ⟨Or.inr (begins_four_of (by omega) (by omega) hsec hthird), ?_⟩
          intro _ hbeg
          have := begins_four (by simpa using hbeg)
          rw [this] at hb7
          simp at hb7
        · cases h

theorem u8Next_take (s : List Nat) : u8Next (s.take 4) = u8Next s := by
  match s with
  | [] => rfl
  | [_] => rfl
  | [_, _] => rfl
  | [_, _, _] => rfl
  | _ :: _ :: _ :: _ :: _ => rfl

/-- The valid span: a text, and then an ill-formed sequence or the end. -/
theorem validSpan_spec : ∀ fuel s, s.length ≤ fuel → ∃ t q, IsText t ∧ s = encs t ++ q ∧ validSpan fuel s = (encs t).length ∧
    (q ≠ [] → (u8Next q).1 = none) := by
  intro fuel
  induction fuel with
  | zero =>
    intro s hs
    have : s = [] := List.length_eq_zero_iff.1 (by omega)
    subst this
    exact ⟨[], [], (by intro c hc; cases hc), rfl, rfl, by simp⟩
  | succ fuel ih =>
    intro s hs
    cases s with
    | nil => exact ⟨[], [], (by intro c hc; cases hc), rfl, rfl, by simp⟩
    | cons b s =>
      rw [validSpan]
      cases hu : u8Next (b :: s) with
      | mk o n =>
        cases o with
        | none => exact ⟨[], b :: s, (by intro c hc; cases hc), rfl, rfl, by rw [hu]; simp⟩
        | some c =>
          dsimp only
          obtain ⟨h1, h2, h3⟩ := u8Next_some hu
          have hp := u8Next_pos b s
          rw [hu] at hp
          dsimp only at hp
          have hl : ((b :: s).drop n).length ≤ fuel := by simp only [List.length_drop, List.length_cons] at *; omega
          obtain ⟨t, q, g1, g2, g3, g4⟩ := ih _ hl
          refine ⟨c :: t, q, ?_, ?_, ?_, g4⟩
          · intro d hd
            rcases List.mem_cons.1 hd with rfl | hd
            · exact h1
            · exact g1 d hd
          · rw [h2, encs_cons, List.append_assoc, ← g2]
          · rw [g3, h3, encs_cons, List.length_append]

theorem validSpan_encs {t : List Nat} (ht : IsText t) : validSpan (encs t).length (encs t) = (encs t).length := by
  obtain ⟨u, q, h1, h2, h3, h4⟩ := validSpan_spec (encs t).length (encs t) (Nat.le_refl _)
  obtain ⟨w, rfl, hq⟩ := encs_prefix h1 ht h2
  cases w with
  | nil => rw [h3, List.append_nil]
  | cons c w =>
    have hc : Scalar c := ht c (by simp)
    have hne : q ≠ [] := by rw [hq]; exact fun e => absurd (encs_eq_nil.1 e) (by simp)
    have := h4 hne
    rw [hq, encs_cons, u8Next_enc hc] at this
    cases this

/-- Strict decoding accepts exactly the encoded texts, and returns them. -/
theorem decode_strict (s : List Nat) :
    (∀ t, decode s .strict = some (.ok t) ↔ t = s ∧ ∃ u, IsText u ∧ s = encs u) ∧
    (∀ p, decode s .strict = some (.invalid p) →
      p < s.length ∧ (∃ u, IsText u ∧ s.take p = encs u) ∧ ∀ c, Scalar c → ¬ enc c <+: s.drop p) ∧
    decode s .strict ≠ none := by
  have hspan := validSpan_spec s.length s (Nat.le_refl _)
  obtain ⟨u, q, h1, h2, h3, h4⟩ := hspan
  unfold decode
  dsimp only
  have hlen : s.length = (encs u).length + q.length := by rw [h2]; simp
  by_cases h : validSpan s.length s = s.length
  · rw [if_pos h]
    refine ⟨?_, (by intro p hp; cases hp), by simp⟩
    intro t
    have hq : q = [] := List.length_eq_zero_iff.1 (by omega)
    constructor
    · intro ht
      cases ht
      exact ⟨rfl, u, h1, by rw [h2, hq, List.append_nil]⟩
    · rintro ⟨rfl, _⟩; rfl
  · rw [if_neg h]
    have hq : q ≠ [] := by
      rintro rfl
      simp at hlen; omega
    refine ⟨?_, ?_, by simp⟩
    · intro t
      constructor
      · intro ht; cases ht
      · rintro ⟨_, w, hw, rfl⟩
        exact absurd (validSpan_encs hw) h
    · intro p hp
      cases hp
      have := List.length_pos_iff.2 hq
      refine ⟨by omega, ⟨u, h1, ?_⟩, ?_⟩
      · rw [h3]; conv_lhs => rw [h2]
        rw [List.take_left]
      · rw [h3]
        rintro c hc ⟨w, hw⟩
        rw [show s.drop (encs u).length = q by conv_lhs => rw [h2]
                                               rw [List.drop_left]] at hw
        have := h4 hq
        rw [← hw, u8Next_enc hc] at this
        cases this

theorem decoded_encs {rep : List Nat} : ∀ (t : List Nat), IsText t → ∀ {q r : List Nat}, Decoded rep q r → Decoded rep (encs t ++ q) (t ++ r) := by
  intro t
  induction t with
  | nil => intro _ q r h; exact h
  | cons c t ih =>
    intro ht q r h
    rw [encs_cons, List.append_assoc]
    exact Decoded.ok _ _ _ ht.head (ih ht.tail h)

theorem parseUtf8_spec (replace : Bool) : ∀ fuel s, s.length ≤ fuel →
    ∃ t, parseUtf8 replace fuel s = some (encs t) ∧ Decoded (if replace then [0xFFFD] else []) s t := by
  intro fuel
  induction fuel with
  | zero =>
    intro s hs
    have : s = [] := List.length_eq_zero_iff.1 (by omega)
    subst this
    exact ⟨[], rfl, Decoded.nil⟩
  | succ fuel ih =>
    intro s hs
    cases s with
    | nil => exact ⟨[], rfl, Decoded.nil⟩
    | cons b s =>
      rw [parseUtf8]
      dsimp only
      obtain ⟨u, q, h1, h2, h3, h4⟩ := validSpan_spec (b :: s).length (b :: s) (Nat.le_refl _)
      rw [h3]
      have hlen : (b :: s).length = (encs u).length + q.length := by rw [h2]; simp
      by_cases h : (encs u).length = (b :: s).length
      · rw [if_neg (by simpa using h)]
        have hq : q = [] := List.length_eq_zero_iff.1 (by omega)
        rw [hq, List.append_nil] at h2
        refine ⟨u, by rw [h2, List.take_length], ?_⟩
        have := decoded_encs (rep := if replace then [0xFFFD] else []) u h1 Decoded.nil
        rw [List.append_nil, List.append_nil] at this
        rw [h2]; exact this
      · rw [if_pos h]
        have hq : q ≠ [] := by
          rintro rfl
          simp only [List.length_nil] at hlen; omega
        have htake : (b :: s).take (encs u).length = encs u := by rw [h2, List.take_left]
        have hdrop : (b :: s).drop (encs u).length = q := by rw [h2, List.drop_left]
        rw [htake, hdrop, u8Next_take]
        cases q with
        | nil => exact absurd rfl hq
        | cons c q =>
          have hp := u8Next_pos c q
          obtain ⟨t, ht, hd⟩ := ih ((c :: q).drop (u8Next (c :: q)).2) (by simp only [List.length_drop, List.length_cons] at *; omega)
          rw [ht]
          have hbad := Decoded.bad (rep := if replace then [0xFFFD] else []) _ _ _ (u8Next_none (h4 hq)) hd
          rw [List.take_append_drop] at hbad
          refine ⟨u ++ ((if replace then [0xFFFD] else []) ++ t), ?_, by rw [h2]; exact decoded_encs u h1 hbad⟩
          cases replace with
          | true =>
            dsimp only [Option.map_some, if_true]
            rw [encs_append, encs_append, List.append_assoc]
            rfl
          | false => simp [encs_append]

/-- The other modes always succeed; each maximal ill-formed subpart is dropped or replaced by U+FFFD. -/
theorem decode_lenient (s : List Nat) : (∃ t, decode s .ignore = some (.ok (encs t)) ∧ Decoded [] s t) ∧
    ∃ t, decode s .replace = some (.ok (encs t)) ∧ Decoded [0xFFFD] s t := by
  obtain ⟨t, h1, h2⟩ := parseUtf8_spec false s.length s (Nat.le_refl _)
  obtain ⟨u, h3, h4⟩ := parseUtf8_spec true s.length s (Nat.le_refl _)
  exact ⟨⟨t, by unfold decode; dsimp only; rw [h1]; rfl, h2⟩, ⟨u, by unfold decode; dsimp only; rw [h3]; rfl, h4⟩⟩

/-- What is decoded is a text. -/
theorem decoded_isText {rep s t : List Nat} (hr : IsText rep) (h : Decoded rep s t) : IsText t := by
  induction h with
  | nil => intro c hc; cases hc
  | ok c s t hc _ ih =>
    intro d hd
    rcases List.mem_cons.1 hd with rfl | hd
    · exact hc
    · exact ih d hd
  | bad x s t _ _ ih => exact IsText.append.2 ⟨hr, ih⟩

/-- The decoding is determined; on an encoded text it is this text. -/
theorem decoded_text {rep t u : List Nat} (ht : IsText t) (h : Decoded rep (encs t) u) : u = t := by
  generalize hx : encs t = x at h
  induction h generalizing t with
  | nil => rw [encs_eq_nil] at hx; exact hx.symm
  | ok c s w hc _ ih =>
    cases t with
    | nil => exact absurd (List.append_eq_nil_iff.1 hx.symm).1 (enc_ne c)
    | cons d t =>
      rw [encs_cons] at hx
      obtain ⟨rfl, rfl⟩ := enc_append_inj ht.head hc hx
      rw [ih ht.tail rfl]
  | bad x s w hm _ _ =>
    cases t with
    | nil => exact absurd (List.append_eq_nil_iff.1 hx.symm).1 hm.2.1
    | cons d t => exact absurd ⟨encs t, by rw [← hx, encs_cons]⟩ (hm.1 d ht.head)

/-- Decoding what was encoded gives the text back, in all modes. -/
theorem decode_encode (t : List Nat) (ht : IsText t) (e : Errors) (he : e ≠ .other) : decode (encode (encs t)) e = some (.ok (encs t)) := by
  unfold encode
  cases e with
  | other => exact absurd rfl he
  | strict => exact ((decode_strict _).1 _).2 ⟨rfl, t, ht, rfl⟩
  | ignore =>
    obtain ⟨⟨u, h1, h2⟩, _⟩ := decode_lenient (encs t)
    rw [h1, decoded_text ht h2]
  | replace =>
    obtain ⟨_, u, h1, h2⟩ := decode_lenient (encs t)
    rw [h1, decoded_text ht h2]

example : decode [97, 0xE2, 0x82, 98] .replace = some (.ok (encs [97, 0xFFFD, 98])) := by decide +kernel
example : decode [97, 0xE2, 0x82, 98] .strict = some (.invalid 1) := by decide +kernel
example : decode [97, 0xC0, 0x80, 98] .ignore = some (.ok [97, 98]) := by decide +kernel

/-! ## Integers -/

theorem decimal_foldl {s : List Nat} {n : Nat} (h : Decimal s n) : s ≠ [] ∧ (∀ c ∈ s, 48 ≤ c ∧ c ≤ 57) ∧
    s.foldl (fun (a c : Nat) => a * 10 + (c - 48)) 0 = n := by
  induction h with
  | digit d hd => refine ⟨by simp, by simp; omega, by simp⟩
  | more s n d _ hd ih =>
    obtain ⟨h1, h2, h3⟩ := ih
    refine ⟨by simp, ?_, ?_⟩
    · intro c hc
      rcases List.mem_append.1 hc with hc | hc
      · exact h2 c hc
      · simp at hc; omega
    · rw [List.foldl_append, h3]; simp

theorem foldl_decimal (s : List Nat) : s ≠ [] → (∀ c ∈ s, 48 ≤ c ∧ c ≤ 57) →
    Decimal s (s.foldl (fun (a c : Nat) => a * 10 + (c - 48)) 0) := by
  induction s using List.reverseRecOn with
  | nil => intro h; exact absurd rfl h
  | append_singleton s c ih =>
    intro _ hc
    have hcc := hc c (by simp)
    have hce : c = 48 + (c - 48) := by omega
    rw [List.foldl_append]
    simp only [List.foldl_cons, List.foldl_nil]
    by_cases h : s = []
    · subst h
      rw [List.nil_append, List.foldl_nil]
      have := Decimal.digit (c - 48) (by omega)
      rw [← hce] at this
      simpa using this
    · have := Decimal.more _ _ (c - 48) (ih h (fun d hd => hc d (by simp [hd]))) (by omega)
      rw [← hce] at this
      exact this

theorem isDigit_iff {c : Nat} : isDigit c = true ↔ 48 ≤ c ∧ c ≤ 57 := by unfold isDigit; simp

theorem dropWhile_nil_iff {p : Nat → Bool} {s : List Nat} : s.dropWhile p = [] ↔ ∀ c ∈ s, p c = true := by
  induction s with
  | nil => simp
  | cons c s ih =>
    rw [List.dropWhile_cons]
    cases h : p c with
    | true => simp [ih, h]
    | false => simp [h]

theorem takeWhile_all {p : Nat → Bool} {s : List Nat} (h : ∀ c ∈ s, p c = true) : s.takeWhile p = s := by
  have := List.takeWhile_append_dropWhile (p := p) (l := s)
  rwa [dropWhile_nil_iff.2 h, List.append_nil] at this

/-- The digits are all of the bytes. -/
theorem fromDigits_iff (lo hi : Int) (neg : Bool) (body : List Nat) (v : Int) : fromDigits lo hi neg body = some (v, []) ↔
    lo ≤ v ∧ v ≤ hi ∧ ∃ n, Decimal body n ∧ v = if neg then -(n : Int) else n := by
  unfold fromDigits
  dsimp only
  constructor
  · intro h
    by_cases hd : body.takeWhile isDigit = []
    · rw [if_pos hd] at h; cases h
    · rw [if_neg hd] at h
      generalize hw : (if neg = true then -((List.foldl (fun a c => a * 10 + (c - 48)) 0 (List.takeWhile isDigit body) : Nat) : Int)
        else ((List.foldl (fun a c => a * 10 + (c - 48)) 0 (List.takeWhile isDigit body) : Nat) : Int)) = w at h
      by_cases hr : lo ≤ w ∧ w ≤ hi
      · rw [if_pos hr] at h
        simp only [Option.some.injEq, Prod.mk.injEq] at h
        obtain ⟨rfl, h2⟩ := h
        have hall := dropWhile_nil_iff.1 h2
        rw [takeWhile_all hall] at hd hw
        exact ⟨hr.1, hr.2, _, foldl_decimal body hd (fun c hc => isDigit_iff.1 (hall c hc)), hw.symm⟩
      · rw [if_neg hr] at h; cases h
  · rintro ⟨h1, h2, n, hn, hv⟩
    obtain ⟨g1, g2, g3⟩ := decimal_foldl hn
    have hall : ∀ c ∈ body, isDigit c = true := fun c hc => isDigit_iff.2 (g2 c hc)
    rw [takeWhile_all hall, dropWhile_nil_iff.2 hall, if_neg g1, g3, ← hv, if_pos ⟨h1, h2⟩]

theorem parseIntRest_eq (lo hi : Int) (s : List Nat) (v : Int) : parseIntRest lo hi s = some v ↔ fromChars lo hi s = some (v, []) := by
  unfold parseIntRest
  split
  · rename_i w h; rw [h]; simp
  · rename_i h
    constructor
    · intro h'; cases h'
    · intro h'; exact absurd h' (h v)

/-- The sign and the digits. -/
theorem parseIntRest_iff (lo hi : Int) (s : List Nat) (v : Int) : parseIntRest lo hi s = some v ↔
    lo ≤ v ∧ v ≤ hi ∧ ∃ ds n, Decimal ds n ∧ ((s = ds ∧ v = n) ∨ (s = 45 :: ds ∧ v = -(n : Int))) := by
  have h45 : ∀ ds n, Decimal ds n → ∀ c ds', ds = c :: ds' → c ≠ 45 := by
    rintro ds n hd c ds' rfl rfl
    have := (decimal_foldl hd).2.1 45 (by simp)
    omega
  rw [parseIntRest_eq]
  fun_cases fromChars lo hi s
  · rename_i body
    rw [fromDigits_iff]
    constructor
    · rintro ⟨h1, h2, n, h3, h4⟩
      exact ⟨h1, h2, body, n, h3, Or.inr ⟨rfl, h4⟩⟩
    · rintro ⟨h1, h2, ds, n, h3, ⟨h4, h5⟩ | ⟨h4, h5⟩⟩
      · exact absurd rfl (h45 ds n h3 45 body h4.symm)
      · cases h4
        exact ⟨h1, h2, n, h3, h5⟩
  · rename_i hc
    rw [fromDigits_iff]
    constructor
    · rintro ⟨h1, h2, n, h3, h4⟩
      exact ⟨h1, h2, _, n, h3, Or.inl ⟨rfl, h4⟩⟩
    · rintro ⟨h1, h2, ds, n, h3, ⟨h4, h5⟩ | ⟨h4, h5⟩⟩
      · subst h4
        exact ⟨h1, h2, n, h3, h5⟩
      · exact absurd h4 (hc ds)

/-- Parsing accepts exactly the decimal numbers with an optional sign that are in range. -/
theorem parse_int (lo hi : Int) (s : List Nat) (v : Int) : parseInt lo hi s = some v ↔ lo ≤ v ∧ v ≤ hi ∧ DecimalInt s v := by
  have hdig : ∀ ds n, Decimal ds n → ∀ c ds', ds = c :: ds' → 48 ≤ c := by
    rintro ds n hd c ds' rfl
    exact ((decimal_foldl hd).2.1 c (by simp)).1
  unfold DecimalInt
  fun_cases parseInt lo hi s
  · rename_i t
    constructor
    · intro h; cases h
    · rintro ⟨_, _, ds, n, hd, ⟨h, _⟩ | ⟨h, _⟩ | ⟨h, _⟩⟩
      · have := hdig ds n hd _ _ h.symm; omega
      · cases h
        have := hdig _ n hd _ _ rfl; omega
      · cases h
  · rename_i t ht
    rw [parseIntRest_iff]
    constructor
    · rintro ⟨h1, h2, ds, n, hd, ⟨rfl, h⟩ | ⟨rfl, h⟩⟩
      · exact ⟨h1, h2, _, n, hd, Or.inr (Or.inl ⟨rfl, h⟩)⟩
      · exact absurd rfl (ht ds)
    · rintro ⟨h1, h2, ds, n, hd, ⟨h, h'⟩ | ⟨h, h'⟩ | ⟨h, h'⟩⟩
      · have := hdig ds n hd _ _ h.symm; omega
      · cases h
        exact ⟨h1, h2, _, n, hd, Or.inl ⟨rfl, h'⟩⟩
      · cases h
  · rename_i ht1 ht2
    rw [parseIntRest_iff]
    constructor
    · rintro ⟨h1, h2, ds, n, hd, ⟨h, h'⟩ | ⟨h, h'⟩⟩
      · exact ⟨h1, h2, _, n, hd, Or.inl ⟨h, h'⟩⟩
      · exact ⟨h1, h2, _, n, hd, Or.inr (Or.inr ⟨h, h'⟩)⟩
    · rintro ⟨h1, h2, ds, n, hd, ⟨h, h'⟩ | ⟨h, h'⟩ | ⟨h, h'⟩⟩
      · exact ⟨h1, h2, _, n, hd, Or.inl ⟨h, h'⟩⟩
      · exact absurd h (ht2 ds)
      · exact ⟨h1, h2, _, n, hd, Or.inr ⟨h, h'⟩⟩

/-- The value is determined by the string. -/
theorem decimalInt_unique {s : List Nat} {v w : Int} (hv : DecimalInt s v) (hw : DecimalInt s w) : v = w := by
  have h1 := (parse_int (min v w) (max v w) s v).2 ⟨by omega, by omega, hv⟩
  have h2 := (parse_int (min v w) (max v w) s w).2 ⟨by omega, by omega, hw⟩
  rw [h1] at h2
  exact Option.some.inj h2

theorem toDigits_decimal (n : Nat) : Decimal ((Nat.toDigits 10 n).map Char.toNat) n := by
  induction n using Nat.strongRecOn with
  | _ n ih =>
    have hdc : ∀ d, d < 10 → (Nat.digitChar d).toNat = 48 + d := by decide
    rcases Nat.lt_or_ge n 10 with h | h
    · rw [Nat.toDigits_of_lt_base h]
      simp only [List.map_cons, List.map_nil]
      rw [hdc n h]
      exact Decimal.digit n h
    · rw [Nat.toDigits_of_base_le (by omega) h, List.map_append, List.map_cons, List.map_nil, hdc _ (Nat.mod_lt _ (by omega))]
      have := Decimal.more _ _ (n % 10) (ih (n / 10) (by omega)) (Nat.mod_lt _ (by omega))
      rwa [show n / 10 * 10 + n % 10 = n by omega] at this

/-- The text of an integer is its decimal notation, and is parsed back. -/
theorem parse_as_text (lo hi x : Int) (h1 : lo ≤ x) (h2 : x ≤ hi) : DecimalInt (intToText x) x ∧ parseInt lo hi (intToText x) = some x := by
  have h : DecimalInt (intToText x) x := by
    unfold intToText
    have hd := toDigits_decimal x.natAbs
    split
    · exact ⟨_, _, hd, Or.inr (Or.inr ⟨rfl, by omega⟩)⟩
    · exact ⟨_, _, hd, Or.inl ⟨rfl, by omega⟩⟩
  exact ⟨h, (parse_int lo hi _ x).2 ⟨h1, h2, h⟩⟩

/-- The operators with the ranges of their types. -/
theorem parse_int_ops (s : List Nat) (v : Int) :
    (parseInt32 s = some v ↔ -2147483648 ≤ v ∧ v ≤ 2147483647 ∧ DecimalInt s v) ∧
    (parseInt64 s = some v ↔ -9223372036854775808 ≤ v ∧ v ≤ 9223372036854775807 ∧ DecimalInt s v) :=
  ⟨parse_int _ _ s v, parse_int _ _ s v⟩

example : parseInt32 [45, 50, 49, 52, 55, 52, 56, 51, 54, 52, 56] = some (-2147483648) := by decide +kernel
example : parseInt32 [50, 49, 52, 55, 52, 56, 51, 54, 52, 56] = none := by decide +kernel
example : parseInt32 [43, 48, 55] = some 7 := by decide +kernel
example : parseInt32 [43, 45, 55] = none := by decide +kernel

end Verif.Text
