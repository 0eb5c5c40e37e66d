import Verif.Text.IcuModel
import Verif.Text.Utf8Lemmas

/-!
# U8_NEXT decodes UTF-8
-/

namespace Verif.Text

theorem u8Next_enc {c : Nat} (hc : Scalar c) (x : List Nat) : u8Next (enc c ++ x) = (some c, (enc c).length) := by
  have hc' := hc
  unfold Scalar at hc'
  rcases enc_cases c hc with ⟨h1, h2⟩ | ⟨b1, b2, h, h1⟩ | ⟨b1, b2, b3, h, h1⟩ | ⟨b1, b2, b3, b4, h, h1⟩
  · rw [h2]
    simp only [List.cons_append, List.nil_append, u8Next]
    rw [if_pos h1]; rfl
  · unfold Cont at h1
    rw [h]
    simp only [List.cons_append, List.nil_append, u8Next]
    have hs : secondOk b1 b2 = true := by unfold secondOk; repeat' split
                                          all_goals simp; omega
    rw [if_neg (by omega), if_neg (by omega), hs]
    simp only [Bool.not_true, Bool.false_eq_true, if_false]
    rw [if_pos (by omega)]
    simp; omega
  · unfold Cont at h1
    rw [h]
    simp only [List.cons_append, List.nil_append, u8Next]
    have hs : secondOk b1 b2 = true := by unfold secondOk; repeat' split
                                          all_goals simp; omega
    have hs3 : contOk b3 = true := by unfold contOk; simp; omega
    rw [if_neg (by omega), if_neg (by omega), hs, hs3]
    simp only [Bool.not_true, Bool.false_eq_true, if_false]
    rw [if_neg (by omega), if_pos (by omega)]
    simp; omega
  · unfold Cont at h1
    rw [h]
    simp only [List.cons_append, List.nil_append, u8Next]
    have hs : secondOk b1 b2 = true := by unfold secondOk; repeat' split
                                          all_goals simp; omega
    have hs3 : contOk b3 = true := by unfold contOk; simp; omega
    have hs4 : contOk b4 = true := by unfold contOk; simp; omega
    rw [if_neg (by omega), if_neg (by omega), hs, hs3, hs4]
    simp only [Bool.not_true, Bool.false_eq_true, if_false]
    rw [if_neg (by omega), if_neg (by omega)]
    simp; omega

theorem u8Next_pos (b : Nat) (s : List Nat) : 0 < (u8Next (b :: s)).2 := by
  unfold u8Next
  repeat' split
  all_goals first | simp; done | (rename_i h; cases h)

theorem u8Next_le (s : List Nat) : (u8Next s).2 ≤ s.length := by
  unfold u8Next
  repeat' split
  all_goals simp

/-- A successful step read the bytes of a scalar value. -/
theorem u8Next_some {s : List Nat} {c n : Nat} (h : u8Next s = (some c, n)) : Scalar c ∧ s = enc c ++ s.drop n ∧ n = (enc c).length := by
  unfold u8Next at h
  split at h
  · cases h
  · rename_i b1 r
    split at h
    · simp only [Prod.mk.injEq, Option.some.injEq] at h
      obtain ⟨rfl, rfl⟩ := h
      rename_i hb
      have : enc b1 = [b1] := by unfold enc; rw [if_pos hb]
      rw [this]
      exact ⟨by unfold Scalar; omega, by simp, by simp⟩
    · split at h
      · cases h
      · split at h
        · cases h
        · rename_i b2 r
          split at h
          · cases h
          · rename_i hs
            simp only [Bool.not_eq_true', Bool.not_eq_false] at hs
            have hs' : 0x80 ≤ b2 ∧ b2 < 0xC0 ∧ (b1 = 0xE0 → 0xA0 ≤ b2) ∧ (b1 = 0xED → b2 < 0xA0) ∧ (b1 = 0xF0 → 0x90 ≤ b2) ∧ (b1 = 0xF4 → b2 < 0x90) := by
              unfold secondOk at hs
              repeat' split at hs
              all_goals simp only [Bool.and_eq_true, decide_eq_true_eq] at hs; omega
            split at h
            · simp only [Prod.mk.injEq, Option.some.injEq] at h
              obtain ⟨rfl, rfl⟩ := h
              have : enc ((b1 - 0xC0) * 64 + (b2 - 0x80)) = [b1, b2] := by
                unfold enc
                rw [if_neg (by omega), if_pos (by omega)]
                simp only [List.cons.injEq, and_true]; omega
              rw [this]
              exact ⟨by unfold Scalar; omega, by simp, by simp⟩
            · split at h
              · cases h
              · rename_i b3 r
                split at h
                · cases h
                · rename_i hs3
                  simp only [Bool.not_eq_true', Bool.not_eq_false, contOk, Bool.and_eq_true, decide_eq_true_eq] at hs3
                  split at h
                  · simp only [Prod.mk.injEq, Option.some.injEq] at h
                    obtain ⟨rfl, rfl⟩ := h
                    have : enc ((b1 - 0xE0) * 4096 + (b2 - 0x80) * 64 + (b3 - 0x80)) = [b1, b2, b3] := by
                      unfold enc
                      rw [if_neg (by omega), if_neg (by omega), if_pos (by omega)]
                      simp only [List.cons.injEq, and_true]; omega
                    rw [this]
                    exact ⟨by unfold Scalar; omega, by simp, by simp⟩
                  · split at h
                    · cases h
                    · rename_i b4 r
                      split at h
                      · cases h
                      · rename_i hs4
                        simp only [Bool.not_eq_true', Bool.not_eq_false, contOk, Bool.and_eq_true, decide_eq_true_eq] at hs4
                        simp only [Prod.mk.injEq, Option.some.injEq] at h
                        obtain ⟨rfl, rfl⟩ := h
                        have : enc ((b1 - 0xF0) * 262144 + (b2 - 0x80) * 4096 + (b3 - 0x80) * 64 + (b4 - 0x80)) = [b1, b2, b3, b4] := by
                          unfold enc
                          rw [if_neg (by omega), if_neg (by omega), if_neg (by omega)]
                          simp only [List.cons.injEq, and_true]; omega
                        rw [this]
                        exact ⟨by unfold Scalar; omega, by simp, by simp⟩

theorem enc_cons_form (c : Nat) : ∃ b bs, enc c = b :: bs := by
  cases h : enc c with
  | nil => exact absurd h (enc_ne c)
  | cons b bs => exact ⟨b, bs, rfl⟩

/-- Scanning a text gives its code points. -/
theorem u8Scan_encs {s : List Nat} (hs : IsText s) : ∀ fuel, (encs s).length ≤ fuel →
    u8Scan fuel (encs s) = s.map (fun c => (some c, (enc c).length)) := by
  induction s with
  | nil => intro fuel _; cases fuel <;> rfl
  | cons c s ih =>
    intro fuel hf
    obtain ⟨b, bs, hb⟩ := enc_cons_form c
    rw [encs_cons] at hf ⊢
    have hn := u8Next_enc hs.head (encs s)
    rw [hb, List.cons_append] at hn ⊢
    rw [hb, List.cons_append, List.length_cons, List.length_append] at hf
    cases fuel with
    | zero => omega
    | succ fuel =>
      rw [u8Scan, hn]
      dsimp only
      have hd : (b :: (bs ++ encs s)).drop (b :: bs).length = encs s := by rw [← List.cons_append, List.drop_left]
      rw [hd, ih hs.tail fuel (by omega), List.map_cons, hb]

theorem u8All_encs {s : List Nat} (hs : IsText s) : u8All (encs s) = s.map (fun c => (some c, (enc c).length)) :=
  u8Scan_encs hs _ (Nat.le_refl _)

theorem textLength_encs {s : List Nat} (hs : IsText s) : textLength (encs s) = s.length := by
  unfold textLength
  rw [u8All_encs hs, List.length_map]

end Verif.Text
