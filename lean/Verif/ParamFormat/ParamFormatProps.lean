import Verif.ParamFormat.ParamFormatModel

/-! # C171: the types of parameters in error messages -/

namespace Verif.ParamFormat

/-- Text without a pair of brackets: no `}` after a `{`. -/
def NoPair (t : Str) : Prop := ¬ ∃ a b c, t = a ++ '{' :: b ++ '}' :: c

/-- The message is made of pieces: texts without a pair of brackets, each but the last followed by a `{spec}` whose spec has no brackets. -/
def render (f : Str → Str) : List (Str × Str) → Str → Str
  | [], last => last
  | (t, spec) :: rest, last => t ++ f spec ++ render f rest last

/-- The pieces of a message. -/
def Pieces (message : Str) (ps : List (Str × Str)) (last : Str) : Prop :=
  message = render (fun spec => '{' :: spec ++ ['}']) ps last ∧ NoPair last ∧
    ∀ p ∈ ps, '}' ∉ p.2 ∧ '{' ∉ p.2 ∧ NoPair p.1

theorem find_some {s : Str} {c : Char} {pos k : Nat} (h : find s c pos = some k) :
    pos ≤ k ∧ s[k]? = some c ∧ ∀ j, pos ≤ j → j < k → s[j]? ≠ some c := by
  unfold find at h
  rw [Option.map_eq_some_iff] at h
  obtain ⟨i, h1, rfl⟩ := h
  rw [List.findIdx?_eq_some_iff_getElem] at h1
  obtain ⟨hi, h2, h3⟩ := h1
  simp only [List.length_drop] at hi
  refine ⟨by omega, ?_, ?_⟩
  · rw [List.getElem?_eq_getElem (by omega)]
    simp only [List.getElem_drop, beq_iff_eq] at h2
    rw [← h2]
    simp [Nat.add_comm]
  · intro j h4 h5 h6
    have := h3 (j - pos) (by omega)
    simp only [List.getElem_drop, Bool.not_eq_true, beq_eq_false_iff_ne] at this
    apply this
    rw [List.getElem?_eq_getElem (by omega)] at h6
    simpa [Nat.add_sub_cancel' h4] using h6

theorem find_none {s : Str} {c : Char} {pos : Nat} (h : find s c pos = none) : ∀ j, pos ≤ j → s[j]? ≠ some c := by
  unfold find at h
  rw [Option.map_eq_none_iff, List.findIdx?_eq_none_iff] at h
  intro j hj he
  have hm : c ∈ s.drop pos := by
    refine List.mem_of_getElem? (i := j - pos) ?_
    rw [List.getElem?_drop, Nat.add_sub_cancel' hj]
    exact he
  simpa using h c hm

theorem rfind_spec (s : Str) (c : Char) : ∀ (pos : Nat), (∃ j, j ≤ pos ∧ s[j]? = some c) →
    ∃ k, rfind s c pos = some k ∧ k ≤ pos ∧ s[k]? = some c ∧ ∀ j, k < j → j ≤ pos → s[j]? ≠ some c
  | 0, ⟨j, h1, h2⟩ => by
    have : j = 0 := by omega
    subst this
    exact ⟨0, by simp [rfind, h2], Nat.le_refl 0, h2, fun j h3 h4 => by omega⟩
  | pos + 1, ⟨j, h1, h2⟩ => by
    rw [rfind]
    by_cases hc : s[pos + 1]? = some c
    · exact ⟨pos + 1, by rw [if_pos hc], Nat.le_refl _, hc, fun j h3 h4 => by omega⟩
    · rw [if_neg hc]
      have hj : j ≤ pos := by
        rcases Nat.lt_or_ge pos j with h | h
        · have : j = pos + 1 := by omega
          subst this
          exact absurd h2 hc
        · exact h
      obtain ⟨k, h3, h4, h5, h6⟩ := rfind_spec s c pos ⟨j, hj, h2⟩
      refine ⟨k, h3, by omega, h5, ?_⟩
      intro j' h7 h8
      rcases Nat.lt_or_ge pos j' with h | h
      · have : j' = pos + 1 := by omega
        subst this
        exact hc
      · exact h6 j' h7 h

theorem noPair_of {s : Str} (h : ∀ a b : Nat, a < b → s[a]? = some '{' → s[b]? ≠ some '}') : NoPair s := by
  rintro ⟨a, b, c, rfl⟩
  refine h a.length (a.length + b.length + 1) (by omega) (by simp) ?_
  rw [List.getElem?_append_right (by simp only [List.length_append, List.length_cons]; omega)]
  simp only [List.length_append, List.length_cons]
  rw [show a.length + b.length + 1 - (a.length + (b.length + 1)) = 0 by omega]
  rfl

theorem split_at {s : Str} {k : Nat} {c : Char} (h : s[k]? = some c) : s = s.take k ++ c :: s.drop (k + 1) := by
  obtain ⟨hk, he⟩ := List.getElem?_eq_some_iff.1 h
  rw [← he, ← List.drop_eq_getElem_cons hk, List.take_append_drop]

theorem loop_spec (params : Str → Option Ty) (message : Str) : ∀ (fuel i : Nat) (result : Str), message.length < fuel + i → i ≤ message.length →
    ∃ ps last, formatLoop params message fuel i result = some (result ++ render (formatSpec params) ps last) ∧
      Pieces (message.drop i) ps last
  | 0, i, result, h, hle => by omega
  | fuel + 1, i, result, h, hle => by
    rw [formatLoop]
    by_cases hi : i < message.length
    · rw [if_pos hi]
      cases ho : find message '{' i with
      | none =>
        refine ⟨[], message.drop i, rfl, rfl, ?_, fun _ h => by cases h⟩
        apply noPair_of
        intro a b _ h1
        rw [List.getElem?_drop] at h1
        exact absurd h1 (find_none ho _ (by omega))
      | some o =>
        obtain ⟨o1, o2, o3⟩ := find_some ho
        dsimp only [Option.bind_some]
        cases hc : find message '}' o with
        | none =>
          refine ⟨[], message.drop i, rfl, rfl, ?_, fun _ h => by cases h⟩
          apply noPair_of
          intro a b hab h1 h2
          rw [List.getElem?_drop] at h1 h2
          have ha : o ≤ i + a := by
            rcases Nat.lt_or_ge (i + a) o with h | h
            · exact absurd h1 (o3 _ (by omega) h)
            · exact h
          exact find_none hc _ (by omega) h2
        | some close =>
          obtain ⟨c1, c2, c3⟩ := find_some hc
          have hne : o ≠ close := by
            rintro rfl
            rw [o2] at c2
            exact absurd c2 (by decide)
          obtain ⟨k, r1, r2, r3, r4⟩ := rfind_spec message '{' (close - 1) ⟨o, by omega, o2⟩
          have hk : o ≤ k := by
            rcases Nat.lt_or_ge k o with h | h
            · exact absurd o2 (r4 o h (by omega))
            · exact h
          have hcl : close < message.length := (List.getElem?_eq_some_iff.1 c2).1
          dsimp only
          rw [r1]
          dsimp only
          obtain ⟨ps, last, h1, h2, h3, h4⟩ := loop_spec params message fuel (close + 1)
            (result ++ substr message i (k - i) ++ formatSpec params (substr message (k + 1) (close - k - 1))) (by omega) (by omega)
          refine ⟨(substr message i (k - i), substr message (k + 1) (close - k - 1)) :: ps, last, ?_, ?_, h3, ?_⟩
          · rw [h1]
            simp [render, List.append_assoc]
          · rw [render, ← h2]
            have e1 : message.drop i = substr message i (k - i) ++ '{' :: message.drop (k + 1) := by
              have : (message.drop i)[k - i]? = some '{' := by rw [List.getElem?_drop, Nat.add_sub_cancel' (by omega)]; exact r3
              have e := split_at this
              rw [List.drop_drop] at e
              rw [show i + (k - i + 1) = k + 1 by omega] at e
              exact e
            have e2 : message.drop (k + 1) = substr message (k + 1) (close - k - 1) ++ '}' :: message.drop (close + 1) := by
              have : (message.drop (k + 1))[close - k - 1]? = some '}' := by
                rw [List.getElem?_drop, show k + 1 + (close - k - 1) = close by omega]; exact c2
              have e := split_at this
              rw [List.drop_drop] at e
              rw [show k + 1 + (close - k - 1 + 1) = close + 1 by omega] at e
              exact e
            rw [e1, e2]
            simp
          · intro p hp
            rcases List.mem_cons.1 hp with rfl | hp
            · refine ⟨?_, ?_, ?_⟩
              · intro hm
                obtain ⟨j, hj, he⟩ := List.mem_iff_getElem.1 hm
                have hj' : j < close - k - 1 := by simp [substr] at hj; omega
                have : (substr message (k + 1) (close - k - 1))[j]? = some '}' := by rw [List.getElem?_eq_getElem hj, he]
                rw [substr, List.getElem?_take_of_lt hj', List.getElem?_drop] at this
                exact c3 _ (by omega) (by omega) this
              · intro hm
                obtain ⟨j, hj, he⟩ := List.mem_iff_getElem.1 hm
                have hj' : j < close - k - 1 := by simp [substr] at hj; omega
                have : (substr message (k + 1) (close - k - 1))[j]? = some '{' := by rw [List.getElem?_eq_getElem hj, he]
                rw [substr, List.getElem?_take_of_lt hj', List.getElem?_drop] at this
                exact r4 _ (by omega) (by omega) this
              · apply noPair_of
                intro a b hab ha hb
                have hb' : b < k - i := by
                  have := (List.getElem?_eq_some_iff.1 hb).1
                  simp [substr] at this
                  omega
                rw [substr, List.getElem?_take_of_lt (by omega), List.getElem?_drop] at ha
                rw [substr, List.getElem?_take_of_lt hb', List.getElem?_drop] at hb
                have hoa : o ≤ i + a := by
                  rcases Nat.lt_or_ge (i + a) o with h | h
                  · exact absurd ha (o3 _ (by omega) h)
                  · exact h
                exact c3 _ (by omega) (by omega) hb
            · exact h4 p hp
    · rw [if_neg hi]
      refine ⟨[], [], by simp [render], ?_, ?_, fun _ h => by cases h⟩
      · rw [List.drop_eq_nil_of_le (by omega)]; rfl
      · apply noPair_of
        intro a b _ h
        simp at h

/-- **The message is formatted piece by piece**: every innermost pair of brackets is replaced, everything else is kept, and the formatting always
ends. -/
theorem format_pieces (params : Str → Option Ty) (message : Str) :
    ∃ ps last, Pieces message ps last ∧ format params message = some (render (formatSpec params) ps last) := by
  obtain ⟨ps, last, h1, h2⟩ := loop_spec params message (message.length + 1) 0 [] (by omega) (Nat.zero_le _)
  exact ⟨ps, last, by simpa using h2, by simpa [format] using h1⟩

theorem noPair_append_left {a b : Str} (h : NoPair (a ++ b)) : NoPair a := by
  rintro ⟨x, y, z, rfl⟩
  exact h ⟨x, y, z ++ b, by simp⟩

/-- A first innermost pair of brackets is where it is. -/
theorem first_unique {t t' s s' r r' : Str} (h : t ++ '{' :: s ++ '}' :: r = t' ++ '{' :: s' ++ '}' :: r') (hs : '}' ∉ s ∧ '{' ∉ s)
    (hs' : '}' ∉ s' ∧ '{' ∉ s') (ht : NoPair t) (ht' : NoPair t') : t = t' ∧ s = s' ∧ r = r' := by
  have key : ∀ {t t' s s' r r' : Str}, t ++ '{' :: s ++ '}' :: r = t' ++ '{' :: s' ++ '}' :: r' → '}' ∉ s → '{' ∉ s → '}' ∉ s' → '{' ∉ s' →
      NoPair t' → ¬ t.length < t'.length := by
    intro t t' s s' r r' h h1 h2 h3 h4 ht' hlt
    simp only [List.append_assoc, List.cons_append] at h
    rcases List.append_eq_append_iff.1 h with ⟨d, e1, e2⟩ | ⟨d, e1, e2⟩
    · cases d with
      | nil => simp at e1; rw [e1] at hlt; omega
      | cons x d =>
        simp only [List.cons_append, List.cons.injEq] at e2
        obtain ⟨rfl, e2⟩ := e2
        rcases List.append_eq_append_iff.1 e2 with ⟨d', e3, e4⟩ | ⟨d', e3, e4⟩
        · cases d' with
          | nil =>
            simp at e4
          | cons y d' =>
            simp only [List.cons_append, List.cons.injEq] at e4
            obtain ⟨rfl, e4⟩ := e4
            exact ht' ⟨t, s, d', by rw [e1, e3]; simp⟩
        · cases d' with
          | nil => simp at e4
          | cons y d' =>
            simp only [List.cons_append, List.cons.injEq] at e4
            obtain ⟨rfl, e4⟩ := e4
            exact h2 (by rw [e3]; simp)
    · have := congrArg List.length e1
      simp at this
      omega
  have hl : t.length = t'.length := by
    have a := key h hs.1 hs.2 hs'.1 hs'.2 ht'
    have b := key h.symm hs'.1 hs'.2 hs.1 hs.2 ht
    omega
  simp only [List.append_assoc, List.cons_append] at h
  obtain ⟨e1, e2⟩ := List.append_inj h hl
  simp only [List.cons.injEq, true_and] at e2
  have hl2 : s.length = s'.length := by
    have key2 : ∀ {s s' r r' : Str}, s ++ '}' :: r = s' ++ '}' :: r' → '}' ∉ s' → ¬ s.length < s'.length := by
      intro s s' r r' h h1 hlt
      rcases List.append_eq_append_iff.1 h with ⟨d, e1, e2⟩ | ⟨d, e1, e2⟩
      · cases d with
        | nil => simp at e1; rw [e1] at hlt; omega
        | cons x d =>
          simp only [List.cons_append, List.cons.injEq] at e2
          obtain ⟨rfl, _⟩ := e2
          exact h1 (by rw [e1]; simp)
      · have := congrArg List.length e1
        simp at this
        omega
    have a := key2 e2 hs'.1
    have b := key2 e2.symm hs.1
    omega
  obtain ⟨e3, e4⟩ := List.append_inj e2 hl2
  simp only [List.cons.injEq, true_and] at e4
  exact ⟨e1, e3, e4⟩

/-- **The pieces of a message are unique**, so that `format_pieces` says what the result is. -/
theorem pieces_unique : ∀ {ps ps' : List (Str × Str)} {message last last' : Str}, Pieces message ps last → Pieces message ps' last' →
    ps = ps' ∧ last = last'
  | [], [], _, _, _, ⟨h1, _, _⟩, ⟨h2, _, _⟩ => ⟨rfl, by rw [render] at h1 h2; rw [← h1, ← h2]⟩
  | [], (t, s) :: ps', _, _, last', ⟨h1, h3, _⟩, ⟨h2, _, _⟩ => by
    simp only [render] at h1 h2
    exact absurd ⟨t, s, render (fun spec => '{' :: spec ++ ['}']) ps' last', by rw [← h1, h2]; simp⟩ h3
  | (t, s) :: ps, [], _, last, _, ⟨h1, _, _⟩, ⟨h2, h3, _⟩ => by
    simp only [render] at h1 h2
    exact absurd ⟨t, s, render (fun spec => '{' :: spec ++ ['}']) ps last, by rw [← h2, h1]; simp⟩ h3
  | (t, s) :: ps, (t', s') :: ps', _, _, _, ⟨h1, h3, h5⟩, ⟨h2, h4, h6⟩ => by
    have a := h5 _ List.mem_cons_self
    have b := h6 _ List.mem_cons_self
    rw [render] at h1 h2
    obtain ⟨rfl, rfl, e⟩ := first_unique (t := t) (t' := t') (s := s) (s' := s') (by
        have := h1.symm.trans h2
        simpa using this) ⟨a.1, a.2.1⟩ ⟨b.1, b.2.1⟩ a.2.2 b.2.2
    obtain ⟨rfl, rfl⟩ := pieces_unique ⟨rfl, h3, fun p hp => h5 p (List.mem_cons_of_mem _ hp)⟩
      ⟨e, h4, fun p hp => h6 p (List.mem_cons_of_mem _ hp)⟩
    exact ⟨rfl, rfl⟩

/-- A spec is kept if the parameter is not known or does not have the required kind of type. -/
theorem spec_kept (params : Str → Option Ty) (spec : Str) (h : ∀ n, params n = none) : formatSpec params spec = '{' :: spec ++ ['}'] := by
  unfold formatSpec
  split
  · simp [formatKwargs, h]
  · simp [formatArgs, h]
  · simp [formatArg, h]

/-- **Without known types the message is unchanged.** -/
theorem format_unknown (params : Str → Option Ty) (h : ∀ n, params n = none) (message : Str) : format params message = some message := by
  obtain ⟨ps, last, h1, h2⟩ := format_pieces params message
  rw [h2, h1.1]
  congr 1
  have : formatSpec params = fun spec => '{' :: spec ++ ['}'] := funext fun spec => spec_kept params spec h
  rw [this]

/-- **What a spec is replaced with**: the name of the type, the types of the fields of a tuple, or the names and types of the fields of a named
tuple without those of the excluded type; in all other cases it is kept. -/
theorem spec_value (params : Str → Option Ty) (n : Str) :
    (n.head? ≠ some '*' → formatSpec params n = match params n with | some t => t.name | none => '{' :: n ++ ['}']) ∧
    (n.head? ≠ some '*' → ∀ ty fields, params n = some ⟨ty, .tuple fields⟩ → formatSpec params ('*' :: n) = joinComma fields) ∧
    (n.head? ≠ some '*' → (∀ ty fields, params n ≠ some ⟨ty, .tuple fields⟩) → formatSpec params ('*' :: n) = '{' :: '*' :: n ++ ['}']) ∧
    ('!' ∉ n → ∀ ty fields excluded, params n = some ⟨ty, .namedTuple fields⟩ → formatSpec params ('*' :: '*' :: n ++ '!' :: excluded) =
      joinComma ((fields.filter fun f => f.2 ≠ excluded).map fun f => f.1 ++ [':', ' '] ++ f.2)) ∧
    ('!' ∉ n → ∀ ty fields, params n = some ⟨ty, .namedTuple fields⟩ → formatSpec params ('*' :: '*' :: n) =
      joinComma ((fields.filter fun f => f.2 ≠ []).map fun f => f.1 ++ [':', ' '] ++ f.2)) := by
  refine ⟨?_, ?_, ?_, ?_, ?_⟩
  · intro h
    unfold formatSpec
    split
    · simp at h
    · simp at h
    · unfold formatArg
      cases params n <;> rfl
  · intro h ty fields hp
    unfold formatSpec
    split
    · next e => simp at e; rw [e] at h; simp at h
    · next e => simp at e; subst e; simp [formatArgs, hp]
    · next _ e => exact absurd rfl (e n)
  · intro h hp
    unfold formatSpec
    split
    · next e => simp at e; rw [e] at h; simp at h
    · next e =>
      simp at e; subst e
      unfold formatArgs
      split
      · next ty fields he => exact absurd he (hp ty fields)
      · rfl
    · next _ e => exact absurd rfl (e n)
  · intro h ty fields excluded hp
    have hs : splitBang (n ++ '!' :: excluded) = (n, excluded) := by
      unfold splitBang
      have : (n ++ '!' :: excluded).findIdx? (· == '!') = some n.length := by
        rw [List.findIdx?_eq_some_iff_getElem]
        refine ⟨by simp, by simp, ?_⟩
        intro j hj
        rw [List.getElem_append_left hj]
        simp only [Bool.not_eq_true, beq_eq_false_iff_ne]
        intro e
        exact h (e ▸ List.getElem_mem hj)
      rw [this]
      simp
    show formatKwargs params (n ++ '!' :: excluded) = _
    unfold formatKwargs
    rw [hs]
    dsimp only
    rw [hp]
  · intro h ty fields hp
    have hs : splitBang n = (n, []) := by
      unfold splitBang
      have : n.findIdx? (· == '!') = none := by
        rw [List.findIdx?_eq_none_iff]
        intro x hx
        simp only [beq_eq_false_iff_ne]
        rintro rfl
        exact h hx
      rw [this]
    show formatKwargs params n = _
    unfold formatKwargs
    rw [hs]
    dsimp only
    rw [hp]

/-! ## Examples -/

def exParams (n : Str) : Option Ty :=
  if n = ['x'] then some ⟨"INT".toList, .plain⟩
  else if n = ['a'] then some ⟨"tuple<A,B>".toList, .tuple [['A'], ['B']]⟩
  else if n = ['k'] then some ⟨"named".toList, .namedTuple [(['p'], ['A']), (['q'], ['U'])]⟩
  else none

example : format exParams "{ {x} {*a} {**k!U} {y} }".toList = some "{ INT A, B p: A {y} }".toList ∧
    format exParams "{{x}}".toList = some "{INT}".toList ∧ format exParams "no }{x".toList = some "no }{x".toList ∧
    format (fun _ => none) "a {x} b".toList = some "a {x} b".toList := by decide +kernel

example : Pieces ['a', '{', 'x', '}', '{'] [(['a'], ['x'])] ['{'] := by
  refine ⟨rfl, ?_, ?_⟩
  · apply noPair_of
    intro a b hab _ h
    have := (List.getElem?_eq_some_iff.1 h).1
    simp at this
    omega
  · intro p hp
    rw [List.mem_singleton] at hp
    subst hp
    refine ⟨by decide, by decide, ?_⟩
    apply noPair_of
    intro a b hab _ h
    have := (List.getElem?_eq_some_iff.1 h).1
    simp at this
    omega

end Verif.ParamFormat
