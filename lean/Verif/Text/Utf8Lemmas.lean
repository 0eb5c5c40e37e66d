import Verif.Text.Utf8Spec
import Mathlib.Tactic.Ring
import Mathlib.Tactic.IntervalCases

/-!
# UTF-8 is prefix-free and self-synchronizing
-/

namespace Verif.Text

/-- A continuation byte. -/
def Cont (b : Nat) : Prop := 0x80 ≤ b ∧ b < 0xC0

theorem enc_cases (c : Nat) (hc : Scalar c) :
    (c < 0x80 ∧ enc c = [c]) ∨
    (∃ b1 b2, enc c = [b1, b2] ∧ 0xC2 ≤ b1 ∧ b1 < 0xE0 ∧ Cont b2 ∧ c = (b1 - 0xC0) * 64 + (b2 - 0x80) ∧ 0x80 ≤ c) ∨
    (∃ b1 b2 b3, enc c = [b1, b2, b3] ∧ 0xE0 ≤ b1 ∧ b1 < 0xF0 ∧ Cont b2 ∧ Cont b3 ∧
      c = (b1 - 0xE0) * 4096 + (b2 - 0x80) * 64 + (b3 - 0x80) ∧ 0x800 ≤ c ∧ c < 0x10000) ∨
    (∃ b1 b2 b3 b4, enc c = [b1, b2, b3, b4] ∧ 0xF0 ≤ b1 ∧ b1 < 0xF5 ∧ Cont b2 ∧ Cont b3 ∧ Cont b4 ∧
      c = (b1 - 0xF0) * 262144 + (b2 - 0x80) * 4096 + (b3 - 0x80) * 64 + (b4 - 0x80) ∧ 0x10000 ≤ c ∧ c < 0x110000) := by
  unfold enc Cont
  unfold Scalar at hc
  split
  · exact Or.inl ⟨by assumption, rfl⟩
  · split
    · exact Or.inr (Or.inl ⟨_, _, rfl, by omega, by omega, by omega, by omega, by omega⟩)
    · split
      · exact Or.inr (Or.inr (Or.inl ⟨_, _, _, rfl, by omega, by omega, by omega, by omega, by omega, by omega, by omega⟩))
      · exact Or.inr (Or.inr (Or.inr ⟨_, _, _, _, rfl, by omega, by omega, by omega, by omega, by omega, by omega, by omega, by omega⟩))

theorem enc_ne (c : Nat) : enc c ≠ [] := by
  unfold enc
  split <;> [skip; split <;> [skip; split]] <;> simp

/-- The number of bytes announced by the first byte. -/
def leadLen (b : Nat) : Nat := if b < 0xC0 then 1 else if b < 0xE0 then 2 else if b < 0xF0 then 3 else 4

theorem enc_shape {c : Nat} (hc : Scalar c) : ∃ b bs, enc c = b :: bs ∧ ¬ Cont b ∧ b < 256 ∧ (∀ x ∈ bs, Cont x) ∧ bs.length + 1 = leadLen b := by
  rcases enc_cases c hc with ⟨h1, h2⟩ | ⟨b1, b2, h, h1, h2, h3, _⟩ | ⟨b1, b2, b3, h, h1, h2, h3, h4, _⟩ | ⟨b1, b2, b3, b4, h, h1, h2, h3, h4, h5, _⟩
  · exact ⟨c, [], h2, by unfold Cont; omega, by omega, by simp, by unfold leadLen; rw [if_pos (by omega)]; rfl⟩
  · exact ⟨b1, [b2], h, by unfold Cont; omega, by omega, by simpa using h3, by unfold leadLen; rw [if_neg (by omega), if_pos (by omega)]; rfl⟩
  · exact ⟨b1, [b2, b3], h, by unfold Cont; omega, by omega, by simpa using ⟨h3, h4⟩, by
      unfold leadLen; rw [if_neg (by omega), if_neg (by omega), if_pos (by omega)]; rfl⟩
  · exact ⟨b1, [b2, b3, b4], h, by unfold Cont; omega, by omega, by simpa using ⟨h3, h4, h5⟩, by
      unfold leadLen; rw [if_neg (by omega), if_neg (by omega), if_neg (by omega)]; rfl⟩

theorem enc_inj {c d : Nat} (hc : Scalar c) (hd : Scalar d) (h : enc c = enc d) : c = d := by
  rcases enc_cases c hc with ⟨h1, h2⟩ | ⟨b1, b2, h2, h1⟩ | ⟨b1, b2, b3, h2, h1⟩ | ⟨b1, b2, b3, b4, h2, h1⟩ <;>
  rcases enc_cases d hd with ⟨g1, g2⟩ | ⟨d1, d2, g2, g1⟩ | ⟨d1, d2, d3, g2, g1⟩ | ⟨d1, d2, d3, d4, g2, g1⟩ <;>
  rw [h2, g2] at h <;> simp at h
  · exact h
  · obtain ⟨rfl, rfl⟩ := h; omega
  · obtain ⟨rfl, rfl, rfl⟩ := h; omega
  · obtain ⟨rfl, rfl, rfl, rfl⟩ := h; omega

/-- Prefix-freeness. -/
theorem enc_append_inj {c d : Nat} (hc : Scalar c) (hd : Scalar d) {x y : List Nat} (h : enc c ++ x = enc d ++ y) : c = d ∧ x = y := by
  obtain ⟨b, bs, h1, h2, _, h3, h4⟩ := enc_shape hc
  obtain ⟨b', bs', g1, g2, _, g3, g4⟩ := enc_shape hd
  have hb : b = b' := by
    rw [h1, g1] at h
    simp only [List.cons_append, List.cons.injEq] at h
    exact h.1
  subst hb
  have hlen : (enc c).length = (enc d).length := by rw [h1, g1]; simp only [List.length_cons]; omega
  obtain ⟨e1, e2⟩ := List.append_inj h hlen
  exact ⟨enc_inj hc hd e1, e2⟩

theorem encs_nil : encs [] = [] := rfl
theorem encs_cons (c : Nat) (s : List Nat) : encs (c :: s) = enc c ++ encs s := rfl
theorem encs_append (s t : List Nat) : encs (s ++ t) = encs s ++ encs t := by simp [encs]

theorem encs_eq_nil {s : List Nat} : encs s = [] ↔ s = [] := by
  cases s with
  | nil => simp [encs_nil]
  | cons c s => simp [encs_cons, enc_ne]

theorem IsText.tail {c : Nat} {s : List Nat} (h : IsText (c :: s)) : IsText s := fun d hd => h d (by simp [hd])
theorem IsText.head {c : Nat} {s : List Nat} (h : IsText (c :: s)) : Scalar c := h c (by simp)
theorem IsText.append {s t : List Nat} : IsText (s ++ t) ↔ IsText s ∧ IsText t := by
  unfold IsText; simp only [List.mem_append, or_imp, forall_and]

/-- A text at the beginning of a text. -/
theorem encs_prefix {t s : List Nat} {q : List Nat} (ht : IsText t) (hs : IsText s) (h : encs s = encs t ++ q) :
    ∃ s2, s = t ++ s2 ∧ q = encs s2 := by
  induction t generalizing s with
  | nil => exact ⟨s, rfl, by simpa [encs_nil] using h.symm⟩
  | cons c t ih =>
    cases s with
    | nil =>
      rw [encs_nil, encs_cons] at h
      have := congrArg List.length h
      have h2 := List.length_pos_iff.2 (enc_ne c)
      simp only [List.length_nil, List.length_append] at this
      omega
    | cons d s =>
      rw [encs_cons, encs_cons, List.append_assoc] at h
      obtain ⟨rfl, h2⟩ := enc_append_inj hs.head ht.head h
      obtain ⟨s2, rfl, h3⟩ := ih ht.tail hs.tail h2
      exact ⟨s2, rfl, h3⟩

theorem encs_inj {s t : List Nat} (hs : IsText s) (ht : IsText t) (h : encs s = encs t) : s = t := by
  obtain ⟨s2, h1, h2⟩ := encs_prefix (q := []) ht hs (by simpa using h)
  rw [encs_eq_nil.1 h2.symm] at h1
  simpa using h1

/-- Where a nonempty text stands in the bytes of a text, it stands in the text. -/
theorem encs_infix {t s : List Nat} {p q : List Nat} (ht : IsText t) (hs : IsText s) (hne : t ≠ []) (h : encs s = p ++ encs t ++ q) :
    ∃ s1 s2, s = s1 ++ t ++ s2 ∧ p = encs s1 ∧ q = encs s2 := by
  induction s generalizing p with
  | nil =>
    rw [encs_nil] at h
    have := congrArg List.length h
    have h2 := List.length_pos_iff.2 (fun h => hne (encs_eq_nil.1 h))
    simp only [List.length_nil, List.length_append] at this
    omega
  | cons c s ih =>
    by_cases hp : p = []
    · subst hp
      obtain ⟨s2, h1, h2⟩ := encs_prefix ht hs (by simpa using h)
      exact ⟨[], s2, by simpa using h1, rfl, h2⟩
    · rw [encs_cons, List.append_assoc] at h
      rcases List.append_eq_append_iff.1 h with ⟨x, h1, h2⟩ | ⟨x, h1, h2⟩
      · obtain ⟨s1, s2, rfl, h3, h4⟩ := ih (p := x) hs.tail (by rw [h2, List.append_assoc])
        refine ⟨c :: s1, s2, rfl, ?_, h4⟩
        rw [h1, h3, encs_cons]
      · obtain ⟨b, bs, e1, _, _, e3, _⟩ := enc_shape hs.head
        cases t with
        | nil => exact absurd rfl hne
        | cons d t =>
          obtain ⟨b', bs', g1, g2, _, _, _⟩ := enc_shape ht.head
          cases p with
          | nil => exact absurd rfl hp
          | cons p0 p =>
            cases x with
            | nil =>
              rw [List.append_nil] at h1
              obtain ⟨s1, s2, e4, h3, h4⟩ := ih (p := []) hs.tail (by simpa using h2.symm)
              refine ⟨c :: s1, s2, by rw [e4]; rfl, ?_, h4⟩
              rw [encs_cons, ← h3, h1, List.append_nil]
            | cons x0 x =>
              rw [e1] at h1
              simp only [List.cons_append, List.cons.injEq] at h1
              have hx0 : x0 ∈ bs := by rw [h1.2]; simp
              rw [encs_cons, g1] at h2
              simp only [List.cons_append, List.cons.injEq] at h2
              rw [h2.1] at g2
              exact absurd (e3 x0 hx0) g2

theorem encs_length_pos {s : List Nat} (h : s ≠ []) : 0 < (encs s).length :=
  List.length_pos_iff.2 (fun e => h (encs_eq_nil.1 e))

theorem length_le_encs (s : List Nat) : s.length ≤ (encs s).length := by
  induction s with
  | nil => simp [encs_nil]
  | cons c s ih =>
    have h2 := List.length_pos_iff.2 (enc_ne c)
    rw [encs_cons, List.length_append, List.length_cons]
    omega

theorem encs_lt {s : List Nat} (hs : IsText s) : ∀ b ∈ encs s, b < 256 := by
  intro b hb
  unfold encs at hb
  rw [List.mem_flatMap] at hb
  obtain ⟨c, hc, hb⟩ := hb
  obtain ⟨b0, bs, h1, _, h2, h3, _⟩ := enc_shape (hs c hc)
  rw [h1] at hb
  rcases List.mem_cons.1 hb with rfl | hb
  · exact h2
  · have := (h3 b hb).2; omega

/-! Occurrences. -/

theorem occursAt_iff {α : Type} {sub s : List α} {i : Nat} : OccursAt sub s i ↔ i ≤ s.length ∧ sub <+: s.drop i := by
  constructor
  · rintro ⟨a, b, rfl, rfl⟩
    refine ⟨by simp, ?_⟩
    rw [List.append_assoc, List.drop_left]
    exact List.prefix_append _ _
  · rintro ⟨h1, b, h2⟩
    refine ⟨s.take i, b, ?_, by simp [h1]⟩
    rw [List.append_assoc, h2, List.take_append_drop]

/-- Occurrences of a text in a text are those of their bytes. -/
theorem occursAt_encs {t s : List Nat} (ht : IsText t) (hs : IsText s) (hne : t ≠ []) (p : Nat) :
    OccursAt (encs t) (encs s) p ↔ ∃ i, OccursAt t s i ∧ (encs (s.take i)).length = p := by
  constructor
  · rintro ⟨a, b, h, rfl⟩
    obtain ⟨s1, s2, rfl, rfl, rfl⟩ := encs_infix ht hs hne h
    exact ⟨s1.length, ⟨s1, s2, rfl, rfl⟩, by simp⟩
  · rintro ⟨i, ⟨a, b, rfl, rfl⟩, rfl⟩
    exact ⟨encs a, encs b, by simp [encs_append], by simp⟩

end Verif.Text
