import Verif.Text.StripModel
import Verif.Text.StripSpec
import Verif.Text.IcuLemmas
import Mathlib.Data.List.Induction

/-!
# strings.lstrip, rstrip and strip
-/

namespace Verif.Text

/-- First the front, then the end. -/
theorem stripped_of {α : Type} {P : α → Prop} {s t r : List α} (h1 : LStripped P s t) (h2 : RStripped P t r) : Stripped P s r := by
  obtain ⟨a, rfl, ha, hh⟩ := h1
  obtain ⟨b, rfl, hb, hl⟩ := h2
  refine ⟨a, b, by simp, ha, hb, ?_, hl⟩
  intro c hc
  apply hh c
  cases r with
  | nil => cases hc
  | cons x r => exact hc

theorem lstripLoop_spec (test : Nat → Option Bool) (P : Nat → Prop) : ∀ s : List Nat, (∀ c ∈ s, ∃ v, test c = some v ∧ (v = true ↔ P c)) →
    ∃ r, lstripLoop test s = some r ∧ LStripped P s r := by
  intro s
  induction s with
  | nil => intro _; exact ⟨[], rfl, [], rfl, by simp, by intro c hc; cases hc⟩
  | cons c s ih =>
    intro h
    obtain ⟨v, h1, h2⟩ := h c (by simp)
    rw [lstripLoop, h1]
    cases v with
    | true =>
      obtain ⟨r, hr, a, rfl, ha, hh⟩ := ih (fun x hx => h x (by simp [hx]))
      refine ⟨r, hr, c :: a, rfl, ?_, hh⟩
      intro x hx
      rcases List.mem_cons.1 hx with rfl | hx
      · exact h2.1 rfl
      · exact ha x hx
    | false =>
      refine ⟨_, rfl, [], rfl, by simp, ?_⟩
      intro x hx hp
      cases hx
      exact absurd (h2.2 hp) (by simp)

theorem rstripLoop_eq (test : Nat → Option Bool) : ∀ s : List Nat, rstripLoop test s = lstripLoop test s := by
  intro s
  induction s with
  | nil => rfl
  | cons c s ih => rw [rstripLoop, lstripLoop, ih]

theorem rstrip_of_reverse {P : Nat → Prop} {s r : List Nat} (h : LStripped P s.reverse r) : RStripped P s r.reverse := by
  obtain ⟨a, h1, h2, h3⟩ := h
  refine ⟨a.reverse, ?_, by simpa using h2, ?_⟩
  · rw [← List.reverse_append, ← h1, List.reverse_reverse]
  · intro c hc
    rw [List.getLast?_reverse] at hc
    exact h3 c hc

theorem rstripLoop_spec (test : Nat → Option Bool) (P : Nat → Prop) (s : List Nat) (h : ∀ c ∈ s, ∃ v, test c = some v ∧ (v = true ↔ P c)) :
    ∃ r, (rstripLoop test s.reverse).map List.reverse = some r ∧ RStripped P s r := by
  obtain ⟨r, h1, h2⟩ := lstripLoop_spec test P s.reverse (by simpa using h)
  rw [rstripLoop_eq, h1]
  exact ⟨_, rfl, rstrip_of_reverse h2⟩

/-- White space is stripped from bytes. -/
theorem bytes_strip_spaces (s : List Nat) : (∃ r, bytesLStrip s none = some r ∧ LStripped (fun c => isSpace c = true) s r) ∧
    (∃ r, bytesRStrip s none = some r ∧ RStripped (fun c => isSpace c = true) s r) ∧
    ∃ r, bytesStrip s none = some r ∧ Stripped (fun c => isSpace c = true) s r := by
  have h : ∀ t : List Nat, ∀ c ∈ t, ∃ v, some (isSpace c) = some v ∧ (v = true ↔ isSpace c = true) :=
    fun t c _ => ⟨_, rfl, Iff.rfl⟩
  obtain ⟨r, h1, h2⟩ := lstripLoop_spec (fun c => some (isSpace c)) (fun c => isSpace c = true) s (h s)
  refine ⟨⟨r, h1, h2⟩, rstripLoop_spec _ _ s (h s), ?_⟩
  obtain ⟨r', h3, h4⟩ := rstripLoop_spec (fun c => some (isSpace c)) (fun c => isSpace c = true) r (h r)
  refine ⟨r', ?_, stripped_of h2 h4⟩
  unfold bytesStrip
  rw [show bytesLStrip s none = some r from h1]
  exact h3

theorem isSpace_iff (c : Nat) : isSpace c = true ↔ c ∈ [9, 10, 11, 12, 13, 32] := by
  unfold isSpace
  simp
  omega

theorem charSet_spec : ∀ (cs : List Nat) (bits : Nat), (∀ c ∈ cs, c < 128) →
    ∃ b, charSet bits cs = some b ∧ ∀ i, b.testBit i = true ↔ bits.testBit i = true ∨ i ∈ cs := by
  intro cs
  induction cs with
  | nil => intro bits _; exact ⟨bits, rfl, by simp⟩
  | cons c cs ih =>
    intro bits h
    obtain ⟨b, h1, h2⟩ := ih (bits ||| 1 <<< c) (fun x hx => h x (by simp [hx]))
    rw [charSet, if_pos (h c (by simp))]
    refine ⟨b, h1, ?_⟩
    intro i
    rw [h2, Nat.testBit_or, Bool.or_eq_true, List.mem_cons, or_assoc]
    have : (1 <<< c).testBit i = true ↔ i = c := by
      rw [Nat.one_shiftLeft, Nat.testBit_two_pow]
      simp [eq_comm]
    rw [this]

theorem testBit_256 (i : Nat) : Nat.testBit 256 i = true ↔ i = 8 := by
  rw [show (256 : Nat) = 2 ^ 8 from rfl, Nat.testBit_two_pow]
  simp [eq_comm]

/-- What is stripped from ASCII bytes when ASCII characters are given: these characters, and the byte 8. -/
theorem bytes_strip_chars (s cs : List Nat) (hs : ∀ c ∈ s, c < 128) (hcs : ∀ c ∈ cs, c < 128) :
    (∃ r, bytesLStrip s (some cs) = some r ∧ LStripped (fun c => c = 8 ∨ c ∈ cs) s r) ∧
    (∃ r, bytesRStrip s (some cs) = some r ∧ RStripped (fun c => c = 8 ∨ c ∈ cs) s r) ∧
    ∃ r, bytesStrip s (some cs) = some r ∧ Stripped (fun c => c = 8 ∨ c ∈ cs) s r := by
  obtain ⟨bits, hb, hbit⟩ := charSet_spec cs 256 hcs
  have h : ∀ t : List Nat, (∀ c ∈ t, c < 128) → ∀ c ∈ t, ∃ v, charTest bits c = some v ∧ (v = true ↔ c = 8 ∨ c ∈ cs) := by
    intro t ht c hc
    refine ⟨bits.testBit c, ?_, ?_⟩
    · unfold charTest; rw [if_pos (ht c hc)]
    · rw [hbit, testBit_256]
  obtain ⟨r, h1, h2⟩ := lstripLoop_spec _ (fun c => c = 8 ∨ c ∈ cs) s (h s hs)
  have h1' : bytesLStrip s (some cs) = some r := by unfold bytesLStrip; dsimp only; rw [hb]; exact h1
  refine ⟨⟨r, h1', h2⟩, ?_, ?_⟩
  · obtain ⟨r, h3, h4⟩ := rstripLoop_spec _ (fun c => c = 8 ∨ c ∈ cs) s (h s hs)
    exact ⟨r, by unfold bytesRStrip; dsimp only; rw [hb]; exact h3, h4⟩
  · have hr : ∀ c ∈ r, c < 128 := by
      obtain ⟨a, rfl, _⟩ := h2
      intro c hc; exact hs c (by simp [hc])
    obtain ⟨r', h3, h4⟩ := rstripLoop_spec _ (fun c => c = 8 ∨ c ∈ cs) r (h r hr)
    refine ⟨r', ?_, stripped_of h2 h4⟩
    unfold bytesStrip
    rw [h1']
    unfold bytesRStrip; dsimp only; rw [hb]; exact h3

theorem LStripped.congr {P Q : Nat → Prop} {s r : List Nat} (h : ∀ c ∈ s, P c ↔ Q c) (hs : LStripped P s r) : LStripped Q s r := by
  obtain ⟨a, rfl, h1, h2⟩ := hs
  refine ⟨a, rfl, fun c hc => (h c (by simp [hc])).1 (h1 c hc), fun c hc hq => h2 c hc ((h c ?_).2 hq)⟩
  exact List.mem_append.2 (Or.inr (List.mem_of_mem_head? hc))

theorem RStripped.congr {P Q : Nat → Prop} {s r : List Nat} (h : ∀ c ∈ s, P c ↔ Q c) (hs : RStripped P s r) : RStripped Q s r := by
  obtain ⟨a, rfl, h1, h2⟩ := hs
  refine ⟨a, rfl, fun c hc => (h c (by simp [hc])).1 (h1 c hc), fun c hc hq => h2 c hc ((h c ?_).2 hq)⟩
  exact List.mem_append.2 (Or.inl (List.mem_of_getLast? hc))

theorem Stripped.congr {P Q : Nat → Prop} {s r : List Nat} (h : ∀ c ∈ s, P c ↔ Q c) (hs : Stripped P s r) : Stripped Q s r := by
  obtain ⟨a, b, rfl, h1, h2, h3, h4⟩ := hs
  refine ⟨a, b, rfl, fun c hc => (h c (by simp [hc])).1 (h1 c hc), fun c hc => (h c (by simp [hc])).1 (h2 c hc),
    fun c hc hq => h3 c hc ((h c ?_).2 hq), fun c hc hq => h4 c hc ((h c ?_).2 hq)⟩
  · simp [List.mem_of_mem_head? hc]
  · simp [List.mem_of_getLast? hc]

/-- The given characters are stripped from bytes, if all are ASCII and the byte 8 is not among the stripped bytes.  Missing: other
bytes, for which the counterexamples below show that the claim is false. -/
theorem bytes_strip_chars_partial (s cs : List Nat) (hs : ∀ c ∈ s, c < 128) (hcs : ∀ c ∈ cs, c < 128) (h8 : 8 ∈ s → 8 ∈ cs) :
    (∃ r, bytesLStrip s (some cs) = some r ∧ LStripped (· ∈ cs) s r) ∧
    (∃ r, bytesRStrip s (some cs) = some r ∧ RStripped (· ∈ cs) s r) ∧
    ∃ r, bytesStrip s (some cs) = some r ∧ Stripped (· ∈ cs) s r := by
  have hc : ∀ c ∈ s, (c = 8 ∨ c ∈ cs) ↔ c ∈ cs := by
    intro c hc
    constructor
    · rintro (rfl | h)
      · exact h8 hc
      · exact h
    · exact Or.inr
  obtain ⟨⟨r1, a1, b1⟩, ⟨r2, a2, b2⟩, ⟨r3, a3, b3⟩⟩ := bytes_strip_chars s cs hs hcs
  exact ⟨⟨r1, a1, b1.congr hc⟩, ⟨r2, a2, b2.congr hc⟩, ⟨r3, a3, b3.congr hc⟩⟩

/-- A backspace is stripped although it is not among the characters. -/
theorem bytes_strip_backspace_counterexample : bytesLStrip [8, 97] (some [98]) = some [97] ∧ ¬ LStripped (· ∈ [98]) [8, 97] [97] := by
  refine ⟨by decide +kernel, ?_⟩
  rintro ⟨a, h1, h2, _⟩
  have : a = [8] := by
    have := List.append_inj_left' (show [8] ++ [97] = a ++ [97] from h1) rfl
    exact this.symm
  subst this
  exact absurd (h2 8 (by simp)) (by decide)

/-- A byte from 0x80 on in either argument throws. -/
theorem bytes_strip_throws_counterexample : bytesLStrip [200, 97] (some [97]) = none ∧ bytesLStrip [97] (some [200]) = none ∧
    bytesRStrip [97, 200] (some [97]) = none := by decide +kernel

/-! ## Texts -/

theorem encs_ne_nil {c : Nat} {s : List Nat} : ∃ b bs, encs (c :: s) = b :: bs := by
  obtain ⟨b, bs, hb⟩ := enc_cons_form c
  exact ⟨b, bs ++ encs s, by rw [encs_cons, hb]; rfl⟩

theorem lstripText_spec (test : Option Nat → Bool) : ∀ (s : List Nat), IsText s → ∀ fuel, (encs s).length ≤ fuel →
    ∃ r, lstripText test fuel (encs s) = some (encs r) ∧ LStripped (fun c => test (some c) = true) s r := by
  intro s
  induction s with
  | nil =>
    intro _ fuel _
    exact ⟨[], by cases fuel <;> rfl, [], rfl, by simp, by intro c hc; cases hc⟩
  | cons c s ih =>
    intro hs fuel hf
    obtain ⟨b, bs, hb⟩ := encs_ne_nil (c := c) (s := s)
    have hn := u8Next_enc hs.head (encs s)
    rw [← encs_cons, hb] at hn
    cases fuel with
    | zero => rw [hb] at hf; simp at hf
    | succ fuel =>
      rw [hb, lstripText, hn]
      dsimp only
      by_cases ht : test (some c) = true
      · rw [if_pos ht]
        have hd : (b :: bs).drop (enc c).length = encs s := by rw [← hb, encs_cons, List.drop_left]
        rw [hd]
        have hlen : (encs s).length ≤ fuel := by
          have := List.length_pos_iff.2 (enc_ne c)
          rw [encs_cons, List.length_append] at hf
          omega
        obtain ⟨r, hr, a, rfl, ha, hh⟩ := ih hs.tail fuel hlen
        refine ⟨r, hr, c :: a, rfl, ?_, hh⟩
        intro x hx
        rcases List.mem_cons.1 hx with rfl | hx
        · exact ht
        · exact ha x hx
      · rw [if_neg ht]
        refine ⟨c :: s, by rw [hb], [], rfl, by simp, ?_⟩
        intro x hx
        cases hx
        exact ht

theorem enc_length (c : Nat) (hc : Scalar c) : (enc c).length = 1 ∨ (enc c).length = 2 ∨ (enc c).length = 3 ∨ (enc c).length = 4 := by
  unfold enc
  split <;> [skip; split <;> [skip; split]] <;> simp

/-- A shorter end of an encoded character is not well-formed. -/
theorem u8Next_suffix {c : Nat} (hc : Scalar c) {n : Nat} (h1 : 0 < n) (h2 : n < (enc c).length) :
    (u8Next ((enc c).drop ((enc c).length - n))).1 = none := by
  obtain ⟨b, bs, hb, _, _, hbs, _⟩ := enc_shape hc
  rw [hb] at h2 ⊢
  have he : (b :: bs).length - n = (bs.length - n) + 1 := by simp only [List.length_cons] at *; omega
  rw [he, List.drop_succ_cons]
  have hlen : (bs.drop (bs.length - n)).length = n := by simp only [List.length_drop, List.length_cons] at *; omega
  cases hd : bs.drop (bs.length - n) with
  | nil => rw [hd] at hlen; simp at hlen; omega
  | cons x xs =>
    have hx : Cont x := hbs x (List.mem_of_mem_drop (by rw [hd]; simp))
    unfold Cont at hx
    unfold u8Next
    dsimp only
    rw [if_neg (by omega), if_pos (by omega)]

theorem u8Prev_enc {c : Nat} (hc : Scalar c) (x : List Nat) : u8Prev (x ++ enc c) = (some c, (enc c).length) := by
  unfold u8Prev
  have hfull : u8Next (enc c) = (some c, (enc c).length) := by simpa using u8Next_enc hc []
  have hd : ∀ n, n ≤ (enc c).length → (x ++ enc c).drop ((x ++ enc c).length - n) = (enc c).drop ((enc c).length - n) := by
    intro n hn
    rw [List.length_append, show x.length + (enc c).length - n = x.length + ((enc c).length - n) by omega, List.drop_append, Nat.add_sub_cancel_left,
      List.drop_eq_nil_of_le (by omega), List.nil_append]
  have hlow : ∀ n, 0 < n → n < (enc c).length → u8PrevAt (x ++ enc c) n = none := by
    intro n h1 h2
    unfold u8PrevAt
    rw [if_pos (by rw [List.length_append]; omega), hd n (by omega)]
    have := u8Next_suffix hc h1 h2
    cases hu : u8Next ((enc c).drop ((enc c).length - n)) with
    | mk o m => rw [hu] at this; dsimp only at this; subst this; rfl
  have heq : ∀ n, n = (enc c).length → u8PrevAt (x ++ enc c) n = some c := by
    rintro n rfl
    unfold u8PrevAt
    rw [if_pos (by rw [List.length_append]; omega), hd _ (Nat.le_refl _), Nat.sub_self, List.drop_zero, hfull]
    simp
  rcases enc_length c hc with h | h | h | h
  · rw [heq 1 h.symm, h]
  · rw [hlow 1 (by omega) (by omega), heq 2 h.symm, h]
  · rw [hlow 1 (by omega) (by omega), hlow 2 (by omega) (by omega), heq 3 h.symm, h]
  · rw [hlow 1 (by omega) (by omega), hlow 2 (by omega) (by omega), hlow 3 (by omega) (by omega), heq 4 h.symm, h]

theorem rstripText_spec (test : Option Nat → Bool) (s : List Nat) : IsText s → ∀ fuel, (encs s).length ≤ fuel →
    ∃ r, rstripText test fuel (encs s) = some (encs r) ∧ RStripped (fun c => test (some c) = true) s r := by
  induction s using List.reverseRecOn with
  | nil =>
    intro _ fuel _
    exact ⟨[], by cases fuel <;> rfl, [], rfl, by simp, by intro c hc; cases hc⟩
  | append_singleton s c ih =>
    intro hs fuel hf
    have hs1 := IsText.append.1 hs
    have hc : Scalar c := hs1.2 c (by simp)
    have hcat : encs (s ++ [c]) = encs s ++ enc c := by rw [encs_append, encs_cons, encs_nil, List.append_nil]
    have hp := u8Prev_enc hc (encs s)
    have hpos := List.length_pos_iff.2 (enc_ne c)
    rw [hcat] at hf ⊢
    rw [List.length_append] at hf
    cases hb : encs s ++ enc c with
    | nil =>
      exact absurd (List.append_eq_nil_iff.1 hb).2 (enc_ne c)
    | cons b bs =>
      cases fuel with
      | zero => omega
      | succ fuel =>
        rw [hb] at hp
        rw [rstripText, hp]
        dsimp only
        by_cases ht : test (some c) = true
        · rw [if_pos ht]
          have hd : (b :: bs).take ((b :: bs).length - (enc c).length) = encs s := by
            rw [← hb, List.length_append, Nat.add_sub_cancel, List.take_left]
          rw [hd]
          obtain ⟨r, hr, a, rfl, ha, hh⟩ := ih hs1.1 fuel (by omega)
          refine ⟨r, hr, a ++ [c], by simp, ?_, hh⟩
          intro x hx
          rcases List.mem_append.1 hx with hx | hx
          · exact ha x hx
          · simp at hx; subst hx; exact ht
        · rw [if_neg ht]
          refine ⟨s ++ [c], by rw [← hb, hcat], [], by simp, by simp, ?_⟩
          intro x hx
          rw [List.getLast?_append] at hx
          simp at hx
          subst hx; exact ht

/-- The elements to be stripped. -/
def TextStrip (ws : Option Nat → Bool) (chars : Option (List Nat)) (c : Nat) : Prop :=
  match chars with
  | none => ws (some c) = true
  | some cs => c ∈ cs

theorem textTest_iff {ws : Option Nat → Bool} {chars : Option (List Nat)} (hc : ∀ cs, chars = some cs → IsText cs) (c : Nat) :
    textTest ws (chars.map encs) (some c) = true ↔ TextStrip ws chars c := by
  cases chars with
  | none => exact Iff.rfl
  | some cs =>
    unfold textTest TextStrip
    dsimp only [Option.map_some]
    rw [u8All_encs (hc cs rfl), List.map_map, List.contains_iff_mem, List.mem_map]
    constructor
    · rintro ⟨d, hd, h⟩
      simp only [Function.comp, Option.some.injEq] at h
      subst h; exact hd
    · intro h; exact ⟨c, h, rfl⟩

/-- Stripping texts strips code points: those of `chars`, or white space. -/
theorem text_strip (ws : Option Nat → Bool) (s : List Nat) (hs : IsText s) (chars : Option (List Nat))
    (hc : ∀ cs, chars = some cs → IsText cs) :
    (∃ r, textLStrip ws (encs s) (chars.map encs) = some (encs r) ∧ LStripped (TextStrip ws chars) s r) ∧
    (∃ r, textRStrip ws (encs s) (chars.map encs) = some (encs r) ∧ RStripped (TextStrip ws chars) s r) ∧
    ∃ r, textStrip ws (encs s) (chars.map encs) = some (encs r) ∧ Stripped (TextStrip ws chars) s r := by
  have hp : (fun c => textTest ws (chars.map encs) (some c) = true) = TextStrip ws chars := by
    funext c; exact propext (textTest_iff hc c)
  obtain ⟨r, h1, h2⟩ := lstripText_spec (textTest ws (chars.map encs)) s hs _ (Nat.le_refl _)
  obtain ⟨q, h3, h4⟩ := rstripText_spec (textTest ws (chars.map encs)) s hs _ (Nat.le_refl _)
  rw [hp] at h2 h4
  refine ⟨⟨r, h1, h2⟩, ⟨q, h3, h4⟩, ?_⟩
  have hr : IsText r := by
    obtain ⟨a, rfl, _⟩ := h2
    exact (IsText.append.1 hs).2
  obtain ⟨t, h5, h6⟩ := rstripText_spec (textTest ws (chars.map encs)) r hr _ (Nat.le_refl _)
  rw [hp] at h6
  refine ⟨t, ?_, stripped_of h2 h6⟩
  unfold textStrip
  rw [show textLStrip ws (encs s) (chars.map encs) = some (encs r) from h1]
  exact h5

example : bytesStrip [97, 98, 120, 98, 97] (some [97, 98]) = some [120] := by decide +kernel
example : textStrip (fun _ => false) (encs [233, 0x20AC, 120, 233]) (some (encs [233, 0x20AC])) = some (encs [120]) := by decide +kernel

end Verif.Text
