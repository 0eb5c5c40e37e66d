import Verif.Text.FindModel
import Verif.Text.FindSpec
import Verif.Text.IcuLemmas

/-!
# Lemmas on searching
-/

namespace Verif.Text

theorem isPrefixOf_iff {a b : List Nat} : a.isPrefixOf b = true ↔ a <+: b := List.isPrefixOf_iff_prefix

theorem occursAt_zero {sub s : List Nat} : OccursAt sub s 0 ↔ sub <+: s := by
  rw [occursAt_iff]; simp

theorem occursAt_succ {sub s : List Nat} {c : Nat} {i : Nat} : OccursAt sub (c :: s) (i + 1) ↔ OccursAt sub s i := by
  rw [occursAt_iff, occursAt_iff]; simp

theorem svFind_spec (sub s : List Nat) : match svFind sub s with
    | none => ∀ i, ¬ OccursAt sub s i
    | some p => OccursAt sub s p ∧ ∀ j, j < p → ¬ OccursAt sub s j := by
  induction s with
  | nil =>
    unfold svFind
    by_cases h : sub = []
    · rw [if_pos h]
      subst h
      exact ⟨occursAt_zero.2 (List.prefix_refl _), by intro j hj; omega⟩
    · rw [if_neg h]
      intro i hi
      rw [occursAt_iff] at hi
      simp at hi
      exact h hi.2
  | cons c s ih =>
    unfold svFind
    by_cases h : sub.isPrefixOf (c :: s) = true
    · rw [if_pos h]
      exact ⟨occursAt_zero.2 (isPrefixOf_iff.1 h), by intro j hj; omega⟩
    · rw [if_neg h]
      have h0 : ¬ OccursAt sub (c :: s) 0 := fun hc => h (isPrefixOf_iff.2 (occursAt_zero.1 hc))
      cases hf : svFind sub s with
      | none =>
        rw [hf] at ih
        intro i hi
        cases i with
        | zero => exact h0 hi
        | succ i => exact ih i (occursAt_succ.1 hi)
      | some p =>
        rw [hf] at ih
        refine ⟨occursAt_succ.2 ih.1, ?_⟩
        intro j hj hc
        cases j with
        | zero => exact h0 hc
        | succ j => exact ih.2 j (by dsimp only at hj; omega) (occursAt_succ.1 hc)

theorem svRFind_spec (sub s : List Nat) : match svRFind sub s with
    | none => ∀ i, ¬ OccursAt sub s i
    | some p => OccursAt sub s p ∧ ∀ j, p < j → ¬ OccursAt sub s j := by
  induction s with
  | nil =>
    unfold svRFind
    by_cases h : sub = []
    · rw [if_pos h]
      subst h
      refine ⟨occursAt_zero.2 (List.prefix_refl _), ?_⟩
      intro j hj hc
      have := (occursAt_iff.1 hc).1
      simp at this; omega
    · rw [if_neg h]
      intro i hi
      rw [occursAt_iff] at hi
      simp at hi
      exact h hi.2
  | cons c s ih =>
    unfold svRFind
    cases hf : svRFind sub s with
    | some p =>
      rw [hf] at ih
      refine ⟨occursAt_succ.2 ih.1, ?_⟩
      intro j hj hc
      cases j with
      | zero => omega
      | succ j => exact ih.2 j (by omega) (occursAt_succ.1 hc)
    | none =>
      rw [hf] at ih
      dsimp only
      by_cases h : sub.isPrefixOf (c :: s) = true
      · rw [if_pos h]
        refine ⟨occursAt_zero.2 (isPrefixOf_iff.1 h), ?_⟩
        intro j hj hc
        cases j with
        | zero => omega
        | succ j => exact ih j (occursAt_succ.1 hc)
      · rw [if_neg h]
        intro i hi
        cases i with
        | zero => exact h (isPrefixOf_iff.2 (occursAt_zero.1 hi))
        | succ i => exact ih i (occursAt_succ.1 hi)

/-- Occurrences in a part of a string. -/
theorem occursAt_slice {sub s : List Nat} {b e p : Nat} (hbe : b ≤ e) (he : e ≤ s.length) :
    OccursAt sub ((s.drop b).take (e - b)) p ↔ OccursAt sub s (b + p) ∧ b + p + sub.length ≤ e := by
  rw [occursAt_iff, occursAt_iff, List.drop_take, List.drop_drop, List.prefix_take_iff]
  simp only [List.length_take, List.length_drop]
  constructor
  · rintro ⟨h1, h2, h3⟩
    have := h2.length_le
    simp only [List.length_drop] at this
    exact ⟨⟨by omega, h2⟩, by omega⟩
  · rintro ⟨⟨h1, h2⟩, h3⟩
    exact ⟨by omega, h2, by omega⟩

theorem adjust_spec (n : Nat) (start stop : Option Int) : match adjustIndexes n start stop with
    | none => ∀ i j, ¬ Within n start stop i j
    | some (b, e) => 0 ≤ b ∧ b ≤ e ∧ e ≤ n ∧ ∀ i j, Within n start stop i j ↔ b ≤ i ∧ i ≤ j ∧ (j : Int) ≤ e := by
  unfold adjustIndexes
  generalize hb : adjustStart n start = b
  generalize he : adjustStop n stop = e
  have h1 : 0 ≤ b ∧ ∀ i : Nat, (∀ v, start = some v → position n v ≤ i) ↔ b ≤ i := by
    cases start with
    | none =>
      rw [adjustStart] at hb
      exact ⟨by omega, fun i => ⟨fun _ => by omega, fun _ v hv => by cases hv⟩⟩
    | some v =>
      rw [adjustStart] at hb
      have hv : 0 ≤ b ∧ ∀ i : Nat, position n v ≤ i ↔ b ≤ i := by
        unfold position
        split at hb <;> refine ⟨by omega, fun i => ?_⟩ <;> [rw [if_pos (by assumption)]; rw [if_neg (by assumption)]] <;> omega
      exact ⟨hv.1, fun i => ⟨fun h => (hv.2 i).1 (h v rfl), fun h w hw => by cases hw; exact (hv.2 i).2 h⟩⟩
  have h2 : e ≤ n ∧ ∀ j : Nat, j ≤ n → ((∀ v, stop = some v → (j : Int) ≤ position n v) ↔ (j : Int) ≤ e) := by
    cases stop with
    | none =>
      rw [adjustStop] at he
      exact ⟨by omega, fun i _ => ⟨fun _ => by omega, fun _ v hv => by cases hv⟩⟩
    | some v =>
      rw [adjustStop] at he
      have hv : e ≤ n ∧ ∀ j : Nat, j ≤ n → ((j : Int) ≤ position n v ↔ (j : Int) ≤ e) := by
        unfold position
        split at he <;> refine ⟨by omega, fun i _ => ?_⟩ <;> [rw [if_pos (by assumption)]; rw [if_neg (by assumption)]] <;> omega
      exact ⟨hv.1, fun i hi => ⟨fun h => (hv.2 i hi).1 (h v rfl), fun h w hw => by cases hw; exact (hv.2 i hi).2 h⟩⟩
  have h3 : ∀ i j, Within n start stop i j ↔ b ≤ i ∧ i ≤ j ∧ (j : Int) ≤ e := by
    intro i j
    unfold Within
    rw [h1.2 i]
    constructor
    · rintro ⟨g1, g2, g3, g4⟩
      exact ⟨g3, g1, (h2.2 j g2).1 g4⟩
    · rintro ⟨g1, g2, g3⟩
      have hj : j ≤ n := by have := h2.1; omega
      exact ⟨g2, hj, g1, (h2.2 j hj).2 g3⟩
  by_cases hbe : b ≤ e
  · rw [if_pos hbe]
    exact ⟨h1.1, hbe, h2.1, h3⟩
  · rw [if_neg hbe]
    intro i j h
    have := (h3 i j).1 h
    omega

theorem svSubstr_eq {s : List Nat} {b e : Nat} (hbe : b ≤ e) (he : e ≤ s.length) :
    svSubstr s b e = some ((s.drop b).take (e - b)) := by
  unfold svSubstr
  rw [if_pos ⟨by omega, by omega⟩, if_pos (by omega)]
  have : ((e : Int) - b).toNat = e - b := by omega
  rw [this, Int.toNat_natCast]

theorem findSubstring_spec {str sub : List Nat} {b e : Nat} (hbe : b ≤ e) (he : e ≤ str.length) :
    ∃ r, findSubstring str sub b e = some r ∧ IsFirst (fun i => OccursAt sub str i ∧ b ≤ i ∧ i + sub.length ≤ e) r := by
  unfold findSubstring
  rw [svSubstr_eq hbe he]
  dsimp only
  have h := svFind_spec sub ((str.drop b).take (e - b))
  cases hf : svFind sub ((str.drop b).take (e - b)) with
  | some p =>
    rw [hf] at h
    dsimp only at h ⊢
    obtain ⟨h1, h2⟩ := h
    have h1 := (occursAt_slice hbe he).1 h1
    refine ⟨_, rfl, b + p, by omega, ⟨h1.1, by omega, h1.2⟩, ?_⟩
    rintro j hj ⟨g1, g2, g3⟩
    apply h2 (j - b) (by omega)
    rw [occursAt_slice hbe he]
    have : b + (j - b) = j := by omega
    rw [this]; exact ⟨g1, g3⟩
  | none =>
    rw [hf] at h
    dsimp only at h ⊢
    have hne : sub ≠ [] := by
      rintro rfl
      exact h 0 (occursAt_zero.2 (List.nil_prefix))
    rw [if_neg hne]
    refine ⟨_, rfl, ?_⟩
    rintro j ⟨g1, g2, g3⟩
    apply h (j - b)
    rw [occursAt_slice hbe he]
    have : b + (j - b) = j := by omega
    rw [this]; exact ⟨g1, g3⟩

theorem findLastSubstring_spec {str sub : List Nat} {b e : Nat} (hbe : b ≤ e) (he : e ≤ str.length) :
    ∃ r, findLastSubstring str sub b e = some r ∧ IsLast (fun i => OccursAt sub str i ∧ b ≤ i ∧ i + sub.length ≤ e) r := by
  unfold findLastSubstring
  rw [svSubstr_eq hbe he]
  dsimp only
  have h := svRFind_spec sub ((str.drop b).take (e - b))
  cases hf : svRFind sub ((str.drop b).take (e - b)) with
  | some p =>
    rw [hf] at h
    dsimp only at h ⊢
    obtain ⟨h1, h2⟩ := h
    have h1 := (occursAt_slice hbe he).1 h1
    refine ⟨_, rfl, b + p, by omega, ⟨h1.1, by omega, h1.2⟩, ?_⟩
    rintro j hj ⟨g1, g2, g3⟩
    apply h2 (j - b) (by omega)
    rw [occursAt_slice hbe he]
    have : b + (j - b) = j := by omega
    rw [this]; exact ⟨g1, g3⟩
  | none =>
    rw [hf] at h
    dsimp only at h ⊢
    have hne : sub ≠ [] := by
      rintro rfl
      exact h 0 (occursAt_zero.2 (List.nil_prefix))
    rw [if_neg hne]
    refine ⟨_, rfl, ?_⟩
    rintro j ⟨g1, g2, g3⟩
    apply h (j - b)
    rw [occursAt_slice hbe he]
    have : b + (j - b) = j := by omega
    rw [this]; exact ⟨g1, g3⟩

/-! ## The index of a text -/

/-- The offset of code point `i`. -/
def off (s : List Nat) (i : Nat) : Nat := (encs (s.take i)).length

theorem utf8CharLen_enc {c : Nat} (hc : Scalar c) {b : Nat} {bs : List Nat} (h : enc c = b :: bs) : utf8CharLen b = (enc c).length := by
  obtain ⟨b', bs', h1, h2, h3, _, h4⟩ := enc_shape hc
  rw [h] at h1
  cases h1
  rw [h, List.length_cons, h4]
  unfold Cont at h2
  unfold utf8CharLen leadLen
  have hm : b % 256 = b := Nat.mod_eq_of_lt h3
  rw [hm]
  have hlt : b / 16 < 16 := by omega
  have : ∀ k, k = b / 16 → [1, 1, 1, 1, 1, 1, 1, 1, 1, 1, 1, 1, 2, 2, 3, 4].getD k 1 =
      if b < 0xC0 then 1 else if b < 0xE0 then 2 else if b < 0xF0 then 3 else 4 := by
    intro k hk
    have hk' : k < 16 := by omega
    interval_cases k <;> (repeat' split) <;> first | rfl | omega
  exact this _ rfl

theorem indexLoop_encs {s : List Nat} (hs : IsText s) : ∀ fuel o, (encs s).length ≤ fuel →
    indexLoop fuel o (encs s) = some ((List.range s.length).map (fun i => o + off s i), o + (encs s).length) := by
  induction s with
  | nil => intro fuel o _; unfold indexLoop; cases fuel <;> rfl
  | cons c s ih =>
    intro fuel o hf
    obtain ⟨b, bs, hb⟩ := enc_cons_form c
    have hlen := utf8CharLen_enc hs.head hb
    rw [encs_cons] at hf
    have hcons : encs (c :: s) = b :: (bs ++ encs s) := by rw [encs_cons, hb]; rfl
    cases fuel with
    | zero =>
      have := List.length_pos_iff.2 (enc_ne c)
      rw [List.length_append] at hf; omega
    | succ fuel =>
      rw [hcons, indexLoop, hlen]
      have hd : (b :: (bs ++ encs s)).drop (enc c).length = encs s := by
        rw [← List.cons_append, ← hb, List.drop_left]
      rw [hd, ih hs.tail fuel _ (by
        have := List.length_pos_iff.2 (enc_ne c)
        rw [List.length_append] at hf; omega)]
      dsimp only
      rw [List.length_cons, List.range_succ_eq_map, List.map_cons, List.map_map]
      rw [← hcons, encs_cons, List.length_append, ← Nat.add_assoc]
      simp only [Option.some.injEq, Prod.mk.injEq, List.cons.injEq, and_true]
      refine ⟨rfl, List.map_congr_left (fun i _ => ?_)⟩
      simp only [Function.comp, off, List.take_succ_cons, encs_cons, List.length_append]
      omega

theorem off_length {s : List Nat} : off s s.length = (encs s).length := by unfold off; rw [List.take_length]

theorem utf8StringIndex_encs {s : List Nat} (hs : IsText s) :
    utf8StringIndex (encs s) = some ((List.range (s.length + 1)).map (off s)) := by
  unfold utf8StringIndex
  rw [indexLoop_encs hs _ _ (Nat.le_refl _)]
  dsimp only
  rw [if_neg (by omega), List.range_succ, List.map_append, List.map_cons, List.map_nil, off_length]
  congr 2
  exact List.map_congr_left (fun i _ => by rw [Nat.zero_add])

theorem off_mono {s : List Nat} {i j : Nat} (hij : i < j) (hj : j ≤ s.length) : off s i < off s j := by
  unfold off
  have : s.take j = s.take i ++ (s.drop i).take (j - i) := by
    rw [← List.take_append_drop i (s.take j), List.take_take, List.drop_take]
    congr 2; omega
  rw [this, encs_append, List.length_append]
  have h2 : (s.drop i).take (j - i) ≠ [] := by
    intro h
    have := congrArg List.length h
    simp only [List.length_take, List.length_drop, List.length_nil] at this
    omega
  have := encs_length_pos h2
  omega

theorem off_lt_iff {s : List Nat} {i j : Nat} (hi : i ≤ s.length) (hj : j ≤ s.length) : off s i < off s j ↔ i < j := by
  constructor
  · intro h
    by_contra hc
    rcases Nat.lt_or_ge j i with h1 | h1
    · have := off_mono h1 hi; omega
    · have : i = j := by omega
      subst this; omega
  · exact fun h => off_mono h hj

theorem off_le_iff {s : List Nat} {i j : Nat} (hi : i ≤ s.length) (hj : j ≤ s.length) : off s i ≤ off s j ↔ i ≤ j := by
  have := off_lt_iff hj hi
  omega

theorem takeWhile_range (m i : Nat) : ((List.range m).takeWhile (fun j => decide (j < i))).length = min i m := by
  induction m generalizing i with
  | zero => simp
  | succ m ih =>
    rw [List.range_succ_eq_map]
    cases i with
    | zero => simp
    | succ i =>
      rw [List.takeWhile_cons_of_pos (by simp), List.takeWhile_map, List.length_cons, List.length_map]
      have : (fun j => decide (j < i + 1)) ∘ Nat.succ = fun j => decide (j < i) := by
        funext j; simp
      rw [this, ih]; omega

theorem lowerBound_off {s : List Nat} {i : Nat} (hi : i ≤ s.length) :
    lowerBound ((List.range (s.length + 1)).map (off s)) (off s i) = i := by
  unfold lowerBound
  rw [List.takeWhile_map, List.length_map]
  have : ∀ l : List Nat, (∀ j ∈ l, j ≤ s.length) →
      l.takeWhile ((fun (x : Nat) => decide ((x : Int) < ((off s i : Nat) : Int))) ∘ off s) = l.takeWhile (fun j => decide (j < i)) := by
    intro l
    induction l with
    | nil => intro _; rfl
    | cons j l ih =>
      intro h
      have hj := h j (by simp)
      have he : ((fun (x : Nat) => decide ((x : Int) < ((off s i : Nat) : Int))) ∘ off s) j = decide (j < i) := by
        simp only [Function.comp, Nat.cast_lt, off_lt_iff hj hi]
      rw [List.takeWhile_cons, List.takeWhile_cons, he, ih (fun k hk => h k (by simp [hk]))]
  rw [this _ (by intro j hj; rw [List.mem_range] at hj; omega), takeWhile_range]
  omega

theorem readIndex_off {s : List Nat} {i : Nat} (hi : i ≤ s.length) :
    readIndex ((List.range (s.length + 1)).map (off s)) i = some ((off s i : Nat) : Int) := by
  unfold readIndex
  rw [if_pos (by omega)]
  simp only [Int.toNat_natCast, List.getElem?_map]
  rw [List.getElem?_range (by omega)]
  rfl

theorem off_add {s t : List Nat} {i : Nat} (h : OccursAt t s i) : off s (i + t.length) = off s i + (encs t).length := by
  obtain ⟨a, b, rfl, rfl⟩ := h
  unfold off
  have h1 : (a ++ t ++ b).take (a.length + t.length) = a ++ t := by
    rw [← List.length_append, List.take_left]
  have h2 : (a ++ t ++ b).take a.length = a := by rw [List.append_assoc, List.take_left]
  rw [h1, h2, encs_append, List.length_append]

theorem occursAt_le {α : Type} {t s : List α} {i : Nat} (h : OccursAt t s i) : i + t.length ≤ s.length := by
  obtain ⟨a, b, rfl, rfl⟩ := h
  simp only [List.length_append]; omega

/-- Matches between code points `b` and `e` are those between the bytes. -/
theorem match_off {s t : List Nat} (hs : IsText s) (ht : IsText t) (hne : t ≠ []) {b e : Nat} (hb : b ≤ s.length)
    (he : e ≤ s.length) (p : Nat) :
    (OccursAt (encs t) (encs s) p ∧ off s b ≤ p ∧ p + (encs t).length ≤ off s e) ↔
      ∃ i, p = off s i ∧ OccursAt t s i ∧ b ≤ i ∧ i + t.length ≤ e := by
  rw [occursAt_encs ht hs hne]
  constructor
  · rintro ⟨⟨i, h1, rfl⟩, h2, h3⟩
    have hi := occursAt_le h1
    refine ⟨i, rfl, h1, (off_le_iff hb (by omega)).1 h2, ?_⟩
    rw [← off_le_iff (s := s) hi he, off_add h1]
    exact h3
  · rintro ⟨i, rfl, h1, h2, h3⟩
    have hi := occursAt_le h1
    refine ⟨⟨i, h1, rfl⟩, (off_le_iff hb (by omega)).2 h2, ?_⟩
    rw [← off_add h1]
    exact (off_le_iff hi he).2 h3

end Verif.Text
