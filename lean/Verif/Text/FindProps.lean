import Verif.Text.FindLemmas
import Mathlib.Data.List.Perm.Subperm

/-!
# strings.find, rfind, substr, count, contains and length

`encs s` are the bytes of the text `s`.
-/

namespace Verif.Text

/-- `strings.find` on bytes: the first match between `start` and `end`. -/
theorem bytes_find (str sub : List Nat) (start stop : Option Int) :
    ∃ r, bytesFind findSubstring str sub start stop = some r ∧ IsFirst (MatchAt str sub start stop) r := by
  unfold bytesFind
  have h := adjust_spec str.length start stop
  cases ha : adjustIndexes str.length start stop with
  | none =>
    rw [ha] at h
    exact ⟨none, rfl, fun i hi => h _ _ hi.2⟩
  | some p =>
    obtain ⟨b, e⟩ := p
    rw [ha] at h
    dsimp only at h ⊢
    obtain ⟨h1, h2, h3, h4⟩ := h
    obtain ⟨b, rfl⟩ := Int.eq_ofNat_of_zero_le h1
    obtain ⟨e, rfl⟩ := Int.eq_ofNat_of_zero_le (Int.le_trans h1 h2)
    obtain ⟨r, hr, hf⟩ := findSubstring_spec (str := str) (sub := sub) (b := b) (e := e) (by omega) (by omega)
    refine ⟨r, hr, ?_⟩
    have : (MatchAt str sub start stop) = (fun i => OccursAt sub str i ∧ b ≤ i ∧ i + sub.length ≤ e) := by
      funext i
      unfold MatchAt
      rw [h4]
      apply propext
      constructor
      · rintro ⟨g1, g2, g3, g4⟩; exact ⟨g1, by omega, by omega⟩
      · rintro ⟨g1, g2, g3⟩; exact ⟨g1, by omega, by omega, by omega⟩
    rw [this]; exact hf

/-- `strings.rfind` on bytes: the last match between `start` and `end`. -/
theorem bytes_rfind (str sub : List Nat) (start stop : Option Int) :
    ∃ r, bytesFind findLastSubstring str sub start stop = some r ∧ IsLast (MatchAt str sub start stop) r := by
  unfold bytesFind
  have h := adjust_spec str.length start stop
  cases ha : adjustIndexes str.length start stop with
  | none =>
    rw [ha] at h
    exact ⟨none, rfl, fun i hi => h _ _ hi.2⟩
  | some p =>
    obtain ⟨b, e⟩ := p
    rw [ha] at h
    dsimp only at h ⊢
    obtain ⟨h1, h2, h3, h4⟩ := h
    obtain ⟨b, rfl⟩ := Int.eq_ofNat_of_zero_le h1
    obtain ⟨e, rfl⟩ := Int.eq_ofNat_of_zero_le (Int.le_trans h1 h2)
    obtain ⟨r, hr, hf⟩ := findLastSubstring_spec (str := str) (sub := sub) (b := b) (e := e) (by omega) (by omega)
    refine ⟨r, hr, ?_⟩
    have : (MatchAt str sub start stop) = (fun i => OccursAt sub str i ∧ b ≤ i ∧ i + sub.length ≤ e) := by
      funext i
      unfold MatchAt
      rw [h4]
      apply propext
      constructor
      · rintro ⟨g1, g2, g3, g4⟩; exact ⟨g1, by omega, by omega⟩
      · rintro ⟨g1, g2, g3⟩; exact ⟨g1, by omega, by omega, by omega⟩
    rw [this]; exact hf

theorem text_adjusted {s : List Nat} {start stop : Option Int} {b e : Int}
    (ha : adjustIndexes s.length start stop = some (b, e)) :
    ∃ b' e' : Nat, b = b' ∧ e = e' ∧ b' ≤ e' ∧ e' ≤ s.length ∧ ∀ i j, Within s.length start stop i j ↔ b' ≤ i ∧ i ≤ j ∧ j ≤ e' := by
  have h := adjust_spec s.length start stop
  rw [ha] at h
  dsimp only at h
  obtain ⟨h1, h2, h3, h4⟩ := h
  obtain ⟨b, rfl⟩ := Int.eq_ofNat_of_zero_le h1
  obtain ⟨e, rfl⟩ := Int.eq_ofNat_of_zero_le (Int.le_trans h1 h2)
  refine ⟨b, e, rfl, rfl, by omega, by omega, fun i j => ?_⟩
  rw [h4]; omega

theorem index_length (s : List Nat) : (((List.range (s.length + 1)).map (off s)).length : Int) - 1 = s.length := by
  simp

theorem matchAt_eq {s t : List Nat} {start stop : Option Int} {b e : Nat}
    (h : ∀ i j, Within s.length start stop i j ↔ b ≤ i ∧ i ≤ j ∧ j ≤ e) (i : Nat) :
    MatchAt s t start stop i ↔ OccursAt t s i ∧ b ≤ i ∧ i + t.length ≤ e := by
  unfold MatchAt
  rw [h]
  constructor
  · rintro ⟨g1, g2, g3, g4⟩; exact ⟨g1, by omega, by omega⟩
  · rintro ⟨g1, g2, g3⟩; exact ⟨g1, by omega, by omega, by omega⟩

theorem occursAt_nil {α : Type} {s : List α} {i : Nat} : OccursAt [] s i ↔ i ≤ s.length := by
  rw [occursAt_iff]; simp

/-- `strings.find` on texts: the first match of code points between `start` and `end`, counted in code points. -/
theorem text_find (s t : List Nat) (hs : IsText s) (ht : IsText t) (start stop : Option Int) :
    ∃ r, textFind findSubstring (encs s) (encs t) start stop = some r ∧ IsFirst (MatchAt s t start stop) r := by
  unfold textFind
  rw [utf8StringIndex_encs hs]
  dsimp only
  rw [index_length]
  cases ha : adjustIndexes s.length start stop with
  | none =>
    have h := adjust_spec s.length start stop
    rw [ha] at h
    exact ⟨none, rfl, fun i hi => h _ _ hi.2⟩
  | some p =>
    obtain ⟨b, e⟩ := p
    dsimp only
    obtain ⟨b, e, rfl, rfl, hbe, he, hw⟩ := text_adjusted ha
    rw [readIndex_off (by omega), readIndex_off he]
    dsimp only
    obtain ⟨r, hr, hf⟩ := findSubstring_spec (str := encs s) (sub := encs t) (b := off s b) (e := off s e)
      ((off_le_iff (by omega) he).2 hbe) (by rw [← off_length]; exact (off_le_iff he (Nat.le_refl _)).2 he)
    rw [hr]
    by_cases hne : t = []
    · subst hne
      cases r with
      | none =>
        exfalso
        refine hf (off s b) ⟨?_, by omega, ?_⟩
        · rw [encs_nil, occursAt_nil, ← off_length]
          exact (off_le_iff (by omega) (Nat.le_refl _)).2 (by omega)
        · simpa [encs_nil] using (off_le_iff (by omega) he).2 hbe
      | some v =>
        obtain ⟨p, rfl, ⟨h1, h2, h3⟩, h4⟩ := hf
        have hp : p = off s b := by
          by_contra hc
          refine h4 (off s b) (by omega) ⟨?_, by omega, ?_⟩
          · rw [encs_nil, occursAt_nil] at *; omega
          · have := (off_le_iff (s := s) (by omega) he).2 hbe
            simp [encs_nil]; omega
        subst hp
        refine ⟨_, rfl, b, by rw [lowerBound_off (by omega)], (matchAt_eq hw _).2 ⟨occursAt_nil.2 (by omega), by omega, by simpa using hbe⟩, ?_⟩
        intro j hj hm
        have := ((matchAt_eq hw _).1 hm).2.1
        omega
    · have hm := match_off hs ht hne (b := b) (e := e) (by omega) he
      cases r with
      | none =>
        refine ⟨none, rfl, fun i hi => ?_⟩
        exact hf (off s i) ((hm _).2 ⟨i, rfl, (matchAt_eq hw _).1 hi⟩)
      | some v =>
        obtain ⟨p, rfl, h1, h4⟩ := hf
        obtain ⟨i, rfl, h5⟩ := (hm p).1 h1
        have hi := occursAt_le h5.1
        refine ⟨_, rfl, i, by rw [lowerBound_off (by omega)], (matchAt_eq hw _).2 h5, ?_⟩
        intro j hj hc
        exact h4 (off s j) (off_mono hj (by omega)) ((hm _).2 ⟨j, rfl, (matchAt_eq hw _).1 hc⟩)

/-- `strings.rfind` on texts: the last match of code points between `start` and `end`, counted in code points. -/
theorem text_rfind (s t : List Nat) (hs : IsText s) (ht : IsText t) (start stop : Option Int) :
    ∃ r, textFind findLastSubstring (encs s) (encs t) start stop = some r ∧ IsLast (MatchAt s t start stop) r := by
  unfold textFind
  rw [utf8StringIndex_encs hs]
  dsimp only
  rw [index_length]
  cases ha : adjustIndexes s.length start stop with
  | none =>
    have h := adjust_spec s.length start stop
    rw [ha] at h
    exact ⟨none, rfl, fun i hi => h _ _ hi.2⟩
  | some p =>
    obtain ⟨b, e⟩ := p
    dsimp only
    obtain ⟨b, e, rfl, rfl, hbe, he, hw⟩ := text_adjusted ha
    rw [readIndex_off (by omega), readIndex_off he]
    dsimp only
    have hoe : off s e ≤ (encs s).length := by rw [← off_length]; exact (off_le_iff he (Nat.le_refl _)).2 he
    have hob := (off_le_iff (s := s) (by omega) he).2 hbe
    obtain ⟨r, hr, hf⟩ := findLastSubstring_spec (str := encs s) (sub := encs t) (b := off s b) (e := off s e) hob hoe
    rw [hr]
    by_cases hne : t = []
    · subst hne
      have hmax : OccursAt (encs []) (encs s) (off s e) ∧ off s b ≤ off s e ∧ off s e + (encs []).length ≤ off s e :=
        ⟨by rw [encs_nil, occursAt_nil]; exact hoe, hob, by simp [encs_nil]⟩
      cases r with
      | none => exact absurd hmax (hf (off s e))
      | some v =>
        obtain ⟨p, rfl, ⟨h1, h2, h3⟩, h4⟩ := hf
        have hp : p = off s e := by
          by_contra hc
          simp only [encs_nil, List.length_nil, Nat.add_zero] at h3
          exact h4 (off s e) (by omega) hmax
        subst hp
        refine ⟨_, rfl, e, by rw [lowerBound_off he], (matchAt_eq hw _).2 ⟨occursAt_nil.2 he, hbe, by simp⟩, ?_⟩
        intro j hj hm
        have := ((matchAt_eq hw _).1 hm).2.2
        simp at this
        omega
    · have hm := match_off hs ht hne (b := b) (e := e) (by omega) he
      cases r with
      | none =>
        refine ⟨none, rfl, fun i hi => ?_⟩
        exact hf (off s i) ((hm _).2 ⟨i, rfl, (matchAt_eq hw _).1 hi⟩)
      | some v =>
        obtain ⟨p, rfl, h1, h4⟩ := hf
        obtain ⟨i, rfl, h5⟩ := (hm p).1 h1
        have hi := occursAt_le h5.1
        refine ⟨_, rfl, i, by rw [lowerBound_off (by omega)], (matchAt_eq hw _).2 h5, ?_⟩
        intro j hj hc
        have hjl := occursAt_le hc.1
        exact h4 (off s j) (off_mono hj (by omega)) ((hm _).2 ⟨j, rfl, (matchAt_eq hw _).1 hc⟩)

theorem slice_of {α : Type} {s : List α} {start stop : Option Int} {b e : Nat} (hbe : b ≤ e) (he : e ≤ s.length)
    (h : ∀ i j, Within s.length start stop i j ↔ b ≤ i ∧ i ≤ j ∧ j ≤ e) : IsSlice s start stop ((s.drop b).take (e - b)) := by
  refine ⟨s.take b, s.drop e, ?_, ?_⟩
  · rw [List.append_assoc]
    have : (s.drop b).take (e - b) ++ s.drop e = s.drop b := by
      have h2 : s.drop e = (s.drop b).drop (e - b) := by rw [List.drop_drop]; congr 1; omega
      rw [h2, List.take_append_drop]
    rw [this, List.take_append_drop]
  · intro p
    rw [h]
    simp only [List.length_take, List.length_drop]
    omega

theorem empty_slice {α : Type} {s : List α} {start stop : Option Int} (h : ∀ i j, ¬ Within s.length start stop i j) :
    IsSlice s start stop [] := by
  refine ⟨s, [], by simp, fun p => iff_of_false (h _ _) ?_⟩
  simp

/-- `strings.substr` on bytes. -/
theorem bytes_substr (str : List Nat) (start stop : Option Int) :
    ∃ r, bytesSubstring str start stop = some r ∧ IsSlice str start stop r := by
  unfold bytesSubstring
  cases ha : adjustIndexes str.length start stop with
  | none =>
    have h := adjust_spec str.length start stop
    rw [ha] at h
    exact ⟨[], rfl, empty_slice h⟩
  | some p =>
    obtain ⟨b, e⟩ := p
    obtain ⟨b, e, rfl, rfl, hbe, he, hw⟩ := text_adjusted ha
    dsimp only
    rw [svSubstr_eq hbe he]
    exact ⟨_, rfl, slice_of hbe he hw⟩

/-- `strings.substr` on texts selects code points. -/
theorem text_substr (s : List Nat) (hs : IsText s) (start stop : Option Int) :
    ∃ r, textSubstring (encs s) start stop = some (encs r) ∧ IsSlice s start stop r := by
  unfold textSubstring
  rw [utf8StringIndex_encs hs]
  dsimp only
  rw [index_length]
  cases ha : adjustIndexes s.length start stop with
  | none =>
    have h := adjust_spec s.length start stop
    rw [ha] at h
    exact ⟨[], rfl, empty_slice h⟩
  | some p =>
    obtain ⟨b, e⟩ := p
    dsimp only
    obtain ⟨b, e, rfl, rfl, hbe, he, hw⟩ := text_adjusted ha
    rw [readIndex_off (by omega), readIndex_off he]
    dsimp only
    rw [svSubstr_eq ((off_le_iff (by omega) he).2 hbe) (by rw [← off_length]; exact (off_le_iff he (Nat.le_refl _)).2 he)]
    refine ⟨_, ?_, slice_of hbe he hw⟩
    have hsp : s = s.take b ++ ((s.drop b).take (e - b) ++ s.drop e) := by
      have : (s.drop b).take (e - b) ++ s.drop e = s.drop b := by
        have h2 : s.drop e = (s.drop b).drop (e - b) := by rw [List.drop_drop]; congr 1; omega
        rw [h2, List.take_append_drop]
      rw [this, List.take_append_drop]
    have h1 : (encs s).drop (off s b) = encs ((s.drop b).take (e - b)) ++ encs (s.drop e) := by
      have h3 : encs s = encs (s.take b) ++ (encs ((s.drop b).take (e - b)) ++ encs (s.drop e)) := by
        rw [← encs_append, ← encs_append, ← hsp]
      unfold off
      rw [h3]
      exact List.drop_left
    have h2 : off s e = off s b + (encs ((s.drop b).take (e - b))).length := by
      unfold off
      rw [← List.length_append, ← encs_append]
      congr 2
      rw [← List.take_append_drop b (s.take e), List.take_take, List.drop_take]
      congr 2; omega
    rw [h1, h2, Nat.add_sub_cancel_left, List.take_left]

/-! ## Texts with ill-formed bytes -/

theorem utf8CharLen_pos (b : Nat) : 0 < utf8CharLen b := by
  unfold utf8CharLen
  have : ∀ k, k < 16 → 0 < [1, 1, 1, 1, 1, 1, 1, 1, 1, 1, 1, 1, 2, 2, 3, 4].getD k 1 := by decide
  exact this _ (by omega)

theorem indexLoop_total : ∀ fuel o (s : List Nat), s.length ≤ fuel → ∃ ix f, indexLoop fuel o s = some (ix, f) ∧
    (∀ x ∈ ix, x < o + s.length) ∧ ix.Pairwise (· ≤ ·) ∧ ∀ x ∈ ix, o ≤ x := by
  intro fuel
  induction fuel with
  | zero =>
    intro o s hs
    cases s with
    | nil => exact ⟨[], o, rfl, by simp, List.Pairwise.nil, by simp⟩
    | cons b s => simp at hs
  | succ fuel ih =>
    intro o s hs
    cases s with
    | nil => exact ⟨[], o, rfl, by simp, List.Pairwise.nil, by simp⟩
    | cons b s =>
      have hp := utf8CharLen_pos b
      obtain ⟨ix, f, h1, h2, h3, h4⟩ := ih (o + utf8CharLen b) ((b :: s).drop (utf8CharLen b)) (by
        simp only [List.length_drop, List.length_cons] at *; omega)
      rw [indexLoop, h1]
      refine ⟨o :: ix, f, rfl, ?_, ?_, ?_⟩
      · intro x hx
        rcases List.mem_cons.1 hx with rfl | hx
        · simp
        · have h5 := h2 x hx
          have h6 := h4 x hx
          simp only [List.length_drop, List.length_cons] at *
          omega
      · exact List.pairwise_cons.2 ⟨fun x hx => by have := h4 x hx; omega, h3⟩
      · intro x hx
        rcases List.mem_cons.1 hx with rfl | hx
        · omega
        · have := h4 x hx; omega

theorem index_total (str : List Nat) : ∃ index, utf8StringIndex str = some index ∧ 0 < index.length ∧ (∀ x ∈ index, x ≤ str.length) ∧
    index.Pairwise (· ≤ ·) := by
  unfold utf8StringIndex
  obtain ⟨ix, f, h1, h2, h3, _⟩ := indexLoop_total str.length 0 str (Nat.le_refl _)
  rw [h1]
  have hix : ∀ l : List Nat, l.Sublist ix → 0 < (l ++ [str.length]).length ∧ (∀ x ∈ l ++ [str.length], x ≤ str.length) ∧
      (l ++ [str.length]).Pairwise (· ≤ ·) := by
    intro l hl
    refine ⟨by simp, ?_, ?_⟩
    · intro x hx
      rcases List.mem_append.1 hx with hx | hx
      · have := h2 x (hl.subset hx); omega
      · simp at hx; omega
    · rw [List.pairwise_append]
      refine ⟨h3.sublist hl, by simp, ?_⟩
      intro a ha b hb
      simp at hb
      have := h2 a (hl.subset ha)
      omega
  dsimp only
  refine ⟨_, rfl, ?_⟩
  split
  · exact hix _ (List.dropLast_sublist ix)
  · exact hix _ (List.Sublist.refl ix)

theorem read_total {index : List Nat} {str : List Nat} (hl : 0 < index.length) (hx : ∀ x ∈ index, x ≤ str.length)
    (hp : index.Pairwise (· ≤ ·)) {start stop : Option Int} {b e : Int}
    (ha : adjustIndexes ((index.length : Int) - 1) start stop = some (b, e)) :
    ∃ b' e' : Nat, readIndex index b = some (b' : Int) ∧ readIndex index e = some (e' : Int) ∧ b' ≤ e' ∧ e' ≤ str.length := by
  have h := adjust_spec (index.length - 1) start stop
  have hc : ((index.length - 1 : Nat) : Int) = (index.length : Int) - 1 := by omega
  rw [hc, ha] at h
  dsimp only at h
  obtain ⟨h1, h2, h3, _⟩ := h
  obtain ⟨b, rfl⟩ := Int.eq_ofNat_of_zero_le h1
  obtain ⟨e, rfl⟩ := Int.eq_ofNat_of_zero_le (Int.le_trans h1 h2)
  have hb : b < index.length := by omega
  have he : e < index.length := by omega
  refine ⟨index[b], index[e], ?_, ?_, ?_, hx _ (List.getElem_mem _)⟩
  · unfold readIndex; rw [if_pos (by omega), Int.toNat_natCast, List.getElem?_eq_getElem hb]; rfl
  · unfold readIndex; rw [if_pos (by omega), Int.toNat_natCast, List.getElem?_eq_getElem he]; rfl
  · rcases Nat.lt_or_ge b e with hlt | hge
    · exact List.pairwise_iff_getElem.1 hp b e hb he hlt
    · have : b = e := by omega
      subst this; exact Nat.le_refl _

/-- The operators on texts stay in range also if the bytes are not UTF-8. -/
theorem text_ops_safe (str sub : List Nat) (start stop : Option Int) :
    (textSubstring str start stop).isSome ∧ (textFind findSubstring str sub start stop).isSome ∧
    (textFind findLastSubstring str sub start stop).isSome := by
  obtain ⟨index, h1, h2, h3, h4⟩ := index_total str
  unfold textSubstring textFind
  rw [h1]
  dsimp only
  cases ha : adjustIndexes ((index.length : Int) - 1) start stop with
  | none => exact ⟨rfl, rfl, rfl⟩
  | some p =>
    obtain ⟨b, e⟩ := p
    dsimp only
    obtain ⟨b', e', g1, g2, g3, g4⟩ := read_total h2 h3 h4 ha
    rw [g1, g2]
    dsimp only
    refine ⟨by rw [svSubstr_eq g3 g4]; rfl, ?_, ?_⟩
    · obtain ⟨r, hr, _⟩ := findSubstring_spec (str := str) (sub := sub) g3 g4
      rw [hr]; cases r <;> rfl
    · obtain ⟨r, hr, _⟩ := findLastSubstring_spec (str := str) (sub := sub) g3 g4
      rw [hr]; cases r <;> rfl

/-! ## contains, count and length -/

/-- `strings.contains` -/
theorem contains_bytes (str sub : List Nat) : containsOp str sub = true ↔ ∃ i, OccursAt sub str i := by
  unfold containsOp strContains
  have h := svFind_spec sub str
  cases hf : svFind sub str with
  | none =>
    rw [hf] at h
    simp only [Option.isSome_none, Bool.false_eq_true, false_iff]
    rintro ⟨i, hi⟩; exact h i hi
  | some p =>
    rw [hf] at h
    simp only [Option.isSome_some, true_iff]
    exact ⟨p, h.1⟩

theorem contains_text (s t : List Nat) (hs : IsText s) (ht : IsText t) :
    containsOp (encs s) (encs t) = true ↔ ∃ i, OccursAt t s i := by
  rw [contains_bytes]
  by_cases hne : t = []
  · subst hne
    exact iff_of_true ⟨0, occursAt_nil.2 (by omega)⟩ ⟨0, occursAt_nil.2 (by omega)⟩
  · constructor
    · rintro ⟨p, hp⟩
      obtain ⟨i, hi, _⟩ := (occursAt_encs ht hs hne p).1 hp
      exact ⟨i, hi⟩
    · rintro ⟨i, hi⟩
      exact ⟨_, (occursAt_encs ht hs hne _).2 ⟨i, hi, rfl⟩⟩

/-- `strings.length` of a text is the number of code points. -/
theorem text_length (s : List Nat) (hs : IsText s) : textLength (encs s) = s.length := textLength_encs hs

/-- The positions from `curr` on. -/
def occ (str sub : List Nat) (curr : Nat) : List Nat :=
  (List.range' curr (str.length + 1 - curr)).filter (fun i => sub.isPrefixOf (str.drop i))

theorem svFindFrom_step (str sub : List Nat) (curr : Nat) : svFindFrom str sub curr =
    if curr ≤ str.length then (if sub.isPrefixOf (str.drop curr) then some curr else svFindFrom str sub (curr + 1)) else none := by
  unfold svFindFrom
  by_cases h : curr ≤ str.length
  · rw [if_pos h, if_pos h]
    rcases Nat.lt_or_ge curr str.length with hlt | hge
    · rw [List.drop_eq_getElem_cons hlt, if_pos (show curr + 1 ≤ str.length by omega)]
      rw [svFind]
      split
      · simp
      · cases svFind sub (str.drop (curr + 1)) with
        | none => rfl
        | some p =>
          simp only [Option.map_some, Option.some.injEq]
          omega
    · have : curr = str.length := by omega
      subst this
      rw [List.drop_length, if_neg (show ¬ str.length + 1 ≤ str.length by omega)]
      unfold svFind
      cases sub <;> simp
  · rw [if_neg h, if_neg h]

theorem occ_step (str sub : List Nat) (curr : Nat) : occ str sub curr =
    if curr ≤ str.length then (if sub.isPrefixOf (str.drop curr) then curr :: occ str sub (curr + 1) else occ str sub (curr + 1)) else [] := by
  unfold occ
  by_cases h : curr ≤ str.length
  · rw [if_pos h]
    have : str.length + 1 - curr = (str.length + 1 - (curr + 1)) + 1 := by omega
    rw [this, List.range'_succ, List.filter_cons]
  · rw [if_neg h]
    have : str.length + 1 - curr = 0 := by omega
    rw [this]; rfl

theorem find_occ (str sub : List Nat) : ∀ m curr, str.length + 1 - curr ≤ m → match svFindFrom str sub curr with
    | none => occ str sub curr = []
    | some i => occ str sub curr = i :: occ str sub (i + 1) ∧ i ≤ str.length := by
  intro m
  induction m with
  | zero =>
    intro curr h
    rw [svFindFrom_step, if_neg (by omega), occ_step, if_neg (by omega)]
  | succ m ih =>
    intro curr h
    rw [svFindFrom_step, occ_step str sub curr]
    split
    · rename_i hf
      split at hf
      · rename_i hle
        split at hf
        · cases hf
        · rename_i hn
          have := ih (curr + 1) (by omega)
          rw [hf] at this
          rw [if_pos hle, if_neg hn]
          exact this
      · rename_i hle; rw [if_neg hle]
    · rename_i i hf
      split at hf
      · rename_i hle
        split at hf
        · rename_i hp
          cases hf
          rw [if_pos hle, if_pos hp]
          exact ⟨rfl, hle⟩
        · rename_i hn
          have := ih (curr + 1) (by omega)
          rw [hf] at this
          rw [if_pos hle, if_neg hn]
          exact this
      · cases hf

theorem countLoop_spec (str sub : List Nat) : ∀ fuel count curr, (occ str sub curr).length < fuel → count < 2 ^ 31 →
    countLoop str sub fuel count curr =
      if count + (occ str sub curr).length < 2 ^ 31 then some (count + (occ str sub curr).length) else none := by
  intro fuel
  induction fuel with
  | zero => intro count curr h; omega
  | succ fuel ih =>
    intro count curr h hc
    have hf := find_occ str sub _ curr (Nat.le_refl _)
    rw [countLoop]
    cases hx : svFindFrom str sub curr with
    | none =>
      rw [hx] at hf
      dsimp only at hf
      rw [hf, List.length_nil, if_pos (show count + 0 < 2 ^ 31 from hc)]
      rfl
    | some i =>
      rw [hx] at hf
      dsimp only at hf
      rw [hf.1, List.length_cons] at h ⊢
      dsimp only
      by_cases h2 : count + 1 < 2 ^ 31
      · rw [if_pos h2, ih (count + 1) (i + 1) (by omega) h2]
        have : count + 1 + (occ str sub (i + 1)).length = count + ((occ str sub (i + 1)).length + 1) := by omega
        rw [this]
      · rw [if_neg h2, if_neg (by omega)]

theorem occ_mem (str sub : List Nat) (i : Nat) : i ∈ occ str sub 0 ↔ OccursAt sub str i := by
  unfold occ
  rw [List.mem_filter, occursAt_iff, isPrefixOf_iff, List.mem_range']
  constructor
  · rintro ⟨⟨j, h1, h2⟩, h3⟩; exact ⟨by omega, h3⟩
  · rintro ⟨h1, h2⟩; exact ⟨⟨i, by omega, by omega⟩, h2⟩

theorem occ_sorted (str sub : List Nat) : (occ str sub 0).Pairwise (· < ·) :=
  (List.pairwise_lt_range').filter _

/-- `strings.count` on bytes is the number of occurrences, also overlapping ones, if that is less than `2^31`; otherwise an `int`
overflows. -/
theorem bytes_count (str sub : List Nat) : ∃ ps : List Nat, ps.Pairwise (· < ·) ∧ (∀ i, i ∈ ps ↔ OccursAt sub str i) ∧
    bytesCount str sub = if sub = [] ∨ ps.length < 2 ^ 31 then some ps.length else none := by
  refine ⟨occ str sub 0, occ_sorted str sub, occ_mem str sub, ?_⟩
  unfold bytesCount
  by_cases h : sub = []
  · rw [if_pos h, if_pos (Or.inl h)]
    subst h
    unfold occ
    simp only [List.isPrefixOf_nil_left, List.filter_true, List.length_range', Nat.sub_zero]
  · rw [if_neg h]
    have hlen : (occ str sub 0).length ≤ str.length + 1 := by
      unfold occ
      refine Nat.le_trans (List.length_filter_le _ _) ?_
      simp
    rw [countLoop_spec str sub _ 0 0 (by omega) (by omega), Nat.zero_add]
    simp only [h, false_or]

/-- `strings.count` on texts is the number of occurrences in code points. -/
theorem text_count (s t : List Nat) (hs : IsText s) (ht : IsText t) : ∃ ps : List Nat, ps.Pairwise (· < ·) ∧
    (∀ i, i ∈ ps ↔ OccursAt t s i) ∧ textCount (encs s) (encs t) = if t = [] ∨ ps.length < 2 ^ 31 then some ps.length else none := by
  unfold textCount
  by_cases h : t = []
  · subst h
    rw [if_pos encs_nil, textLength_encs hs]
    refine ⟨List.range (s.length + 1), List.pairwise_lt_range, ?_, by simp⟩
    intro i
    rw [List.mem_range, occursAt_nil]; omega
  · rw [if_neg (fun e => h (encs_eq_nil.1 e))]
    obtain ⟨ps, h1, h2, h3⟩ := bytes_count (encs s) (encs t)
    obtain ⟨qs, g1, g2⟩ : ∃ qs : List Nat, qs.Pairwise (· < ·) ∧ ∀ i, i ∈ qs ↔ OccursAt t s i :=
      ⟨occ s t 0, occ_sorted s t, occ_mem s t⟩
    have hq : qs.map (off s) = ps := by
      have hsorted : (qs.map (off s)).Pairwise (· < ·) := by
        rw [List.pairwise_map]
        refine List.Pairwise.imp_of_mem ?_ g1
        intro a b ha hb hab
        have := occursAt_le ((g2 b).1 hb)
        exact off_mono hab (by omega)
      have hmem : ∀ x, x ∈ qs.map (off s) ↔ x ∈ ps := by
        intro x
        rw [h2, occursAt_encs ht hs h, List.mem_map]
        constructor
        · rintro ⟨i, hi, rfl⟩; exact ⟨i, (g2 i).1 hi, rfl⟩
        · rintro ⟨i, hi, rfl⟩; exact ⟨i, (g2 i).2 hi, rfl⟩
      exact List.Perm.eq_of_pairwise (fun a b _ _ h1 h2 => by omega) hsorted h1
        ((List.perm_ext_iff_of_nodup (hsorted.imp (fun h => Nat.ne_of_lt h)) (h1.imp (fun h => Nat.ne_of_lt h))).2 hmem)
    refine ⟨qs, g1, g2, ?_⟩
    rw [h3, ← hq, List.length_map]
    simp only [encs_eq_nil]

theorem count_many (n : Nat) (hn : 2 ^ 31 ≤ n) : bytesCount (List.replicate n 97) [97] = none := by
  obtain ⟨ps, h1, h2, h3⟩ := bytes_count (List.replicate n 97) [97]
  rw [h3, if_neg]
  rintro (h | h)
  · cases h
  · have hsub : List.range n ⊆ ps := by
      intro i hi
      rw [List.mem_range] at hi
      rw [h2]
      refine ⟨List.replicate i 97, List.replicate (n - i - 1) 97, ?_, List.length_replicate⟩
      rw [show [97] = List.replicate 1 97 from rfl, List.replicate_append_replicate, List.replicate_append_replicate]
      congr 1; omega
    have := (List.subperm_of_subset List.nodup_range hsub).length_le
    rw [List.length_range] at this
    omega

/-- With `2^31` occurrences the counter overflows. -/
theorem count_counterexample : bytesCount (List.replicate (2 ^ 31) 97) [97] = none := count_many _ (Nat.le_refl _)

/-! ## Examples: "aéb€é" -/

def ex : List Nat := [97, 233, 98, 0x20AC, 233]

example : IsText ex := by unfold IsText; decide
example : encs ex = [97, 195, 169, 98, 226, 130, 172, 195, 169] := by decide
example : textFind findSubstring (encs ex) (encs [233]) (some 2) none = some (some 4) := by decide +kernel
example : textFind findSubstring (encs ex) (encs [233]) (some 2) (some (-1)) = some none := by decide +kernel
example : textFind findLastSubstring (encs ex) (encs [233]) none (some (-1)) = some (some 1) := by decide +kernel
example : textSubstring (encs ex) (some (-4)) (some 4) = some (encs [233, 98, 0x20AC]) := by decide +kernel
example : textCount (encs [97, 97, 97]) (encs [97, 97]) = some 2 := by decide +kernel

end Verif.Text
