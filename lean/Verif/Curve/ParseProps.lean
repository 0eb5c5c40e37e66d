import Verif.Curve.ParseSpec

/-! # C96: the text form of curves -/

namespace Verif.Curve

variable {D : Type} {atod : List Char → Option D} {sep : Char}

theorem findChar_some {c : Char} : ∀ {s a b : List Char}, findChar c s = some (a, b) ↔ s = a ++ c :: b ∧ c ∉ a
  | [], a, b => by simp [findChar]
  | d :: s, a, b => by
    simp only [findChar]
    by_cases h : d = c
    · rw [if_pos h]
      constructor
      · intro e
        simp only [Option.some.injEq, Prod.mk.injEq] at e
        obtain ⟨rfl, rfl⟩ := e
        exact ⟨by rw [h]; rfl, by simp⟩
      · rintro ⟨e, hn⟩
        cases a with
        | nil => simp only [List.nil_append, List.cons.injEq] at e; rw [e.2]
        | cons x a =>
          simp only [List.cons_append, List.cons.injEq] at e
          exact absurd (by rw [← e.1, h]; simp) hn
    · rw [if_neg h, Option.map_eq_some_iff]
      constructor
      · rintro ⟨⟨a', b'⟩, h1, h2⟩
        simp only [Prod.mk.injEq] at h2
        obtain ⟨rfl, rfl⟩ := h2
        obtain ⟨e, hn⟩ := findChar_some.1 h1
        refine ⟨by rw [e]; rfl, ?_⟩
        rw [List.mem_cons]
        rintro (e' | e')
        · exact h e'.symm
        · exact hn e'
      · rintro ⟨e, hn⟩
        cases a with
        | nil => simp only [List.nil_append, List.cons.injEq] at e; exact absurd e.1 h
        | cons x a =>
          simp only [List.cons_append, List.cons.injEq] at e
          obtain ⟨rfl, e⟩ := e
          exact ⟨(a, b), findChar_some.2 ⟨e, fun e' => hn (List.mem_cons_of_mem _ e')⟩, rfl⟩

/-- A point is read iff it stands there. -/
theorem parsePoint_iff (hsep : sep ≠ '}') {s rest : List Char} {p : D × D} :
    parsePoint atod sep s = .ok (p, rest) ↔ ∃ xy, PointOk atod sep xy p ∧ s = pointText sep xy ++ rest := by
  constructor
  · intro h
    unfold parsePoint at h
    split at h
    · next s' =>
      split at h
      · cases h
      · next xs ys hx =>
        split at h
        · cases h
        · next inside rest' hi =>
          split at h
          · cases h
          · next hl =>
            split at h
            · cases h
            · next x hax =>
              split at h
              · cases h
              · next y hay =>
                simp only [Except.ok.injEq, Prod.mk.injEq] at h
                obtain ⟨rfl, rfl⟩ := h
                obtain ⟨e1, n1⟩ := findChar_some.1 hx
                obtain ⟨e2, n2⟩ := findChar_some.1 hi
                -- `inside` is longer than `xs`
                have hlen : xs.length ≤ inside.length := by omega
                have e3 : xs ++ sep :: ys = inside ++ '}' :: rest' := by rw [← e1, ← e2]
                have e4 : inside = xs ++ inside.drop xs.length := by
                  have h1 : xs = inside.take xs.length := by
                    have := congrArg (List.take xs.length) e3
                    rw [List.take_left, List.take_append_of_le_length hlen] at this
                    exact this
                  conv => lhs; rw [← List.take_append_drop xs.length inside]
                  rw [← h1]
                generalize inside.drop xs.length = tl at e4 hay
                subst e4
                rw [List.append_assoc, List.append_cancel_left_eq] at e3
                cases tl with
                | nil =>
                  simp only [List.nil_append, List.cons.injEq] at e3
                  exact absurd e3.1 hsep
                | cons d tl =>
                  simp only [List.cons_append, List.cons.injEq] at e3
                  obtain ⟨rfl, e3⟩ := e3
                  simp only [List.mem_append, List.mem_cons, not_or] at n2
                  refine ⟨(xs, tl), ⟨n1, n2.1, n2.2.2, hax, hay⟩, ?_⟩
                  rw [e2]
                  simp [pointText]
    · cases h
  · rintro ⟨⟨xs, ys⟩, ⟨h1, h2, h3, h4, h5⟩, rfl⟩
    dsimp only at h1 h2 h3 h4 h5
    have e1 : findChar sep (xs ++ sep :: (ys ++ '}' :: rest)) = some (xs, ys ++ '}' :: rest) := findChar_some.2 ⟨rfl, h1⟩
    have e2 : findChar '}' (xs ++ sep :: (ys ++ '}' :: rest)) = some (xs ++ sep :: ys, rest) := by
      refine findChar_some.2 ⟨by simp, ?_⟩
      simp only [List.mem_append, List.mem_cons, not_or]
      exact ⟨h2, fun e => hsep e.symm, h3⟩
    have e0 : pointText sep (xs, ys) ++ rest = '{' :: (xs ++ sep :: (ys ++ '}' :: rest)) := by simp [pointText]
    rw [e0]
    unfold parsePoint
    simp only [e1, e2]
    rw [if_neg (by simp)]
    simp [h4, h5]

/-- The text after the first point. -/
def moreText (sep : Char) : List (List Char × List Char) → List Char
  | [] => []
  | xy :: xys => sep :: pointText sep xy ++ moreText sep xys

theorem joinWith_more (xy : List Char × List Char) (xys : List (List Char × List Char)) :
    joinWith sep ((xy :: xys).map (pointText sep)) = pointText sep xy ++ moreText sep xys := by
  induction xys generalizing xy with
  | nil => simp [joinWith, moreText]
  | cons a xys ih =>
    have := ih a
    simp only [List.map_cons] at this ⊢
    simp [joinWith, moreText, this]

/-- The loop reads all points. -/
theorem parseLoop_iff (hsep : sep ≠ '}') : ∀ (fuel : Nat) (s : List Char) (acc points : List (D × D)) (rest : List Char), s.length ≤ fuel →
    (parseLoop atod sep fuel s acc = .ok (points, rest) ↔
      ∃ xys ps, List.Forall₂ (PointOk atod sep) xys ps ∧ points = acc ++ ps ∧ s = moreText sep xys ++ rest ∧ rest.head? ≠ some sep)
  | 0, s, acc, points, rest, hl => by
    have : s = [] := List.length_eq_zero_iff.1 (by omega)
    subst this
    simp only [parseLoop, Except.ok.injEq, Prod.mk.injEq]
    constructor
    · rintro ⟨rfl, rfl⟩
      exact ⟨[], [], .nil, by simp, by simp [moreText], by simp⟩
    · rintro ⟨xys, ps, h1, h2, h3, h4⟩
      cases h1 with
      | nil =>
        simp only [moreText, List.nil_append] at h3
        exact ⟨by simp [h2], h3⟩
      | cons => simp [moreText] at h3
  | fuel + 1, [], acc, points, rest, hl => by
    simp only [parseLoop, Except.ok.injEq, Prod.mk.injEq]
    constructor
    · rintro ⟨rfl, rfl⟩
      exact ⟨[], [], .nil, by simp, by simp [moreText], by simp⟩
    · rintro ⟨xys, ps, h1, h2, h3, h4⟩
      cases h1 with
      | nil =>
        simp only [moreText, List.nil_append] at h3
        exact ⟨by simp [h2], h3⟩
      | cons => simp [moreText] at h3
  | fuel + 1, c :: s, acc, points, rest, hl => by
    simp only [parseLoop]
    by_cases hc : c = sep
    · rw [if_pos hc]
      have hc' := hc.symm
      subst hc'
      cases hp : parsePoint atod sep s with
      | error e =>
        simp only [reduceCtorEq, false_iff]
        rintro ⟨xys, ps, h1, h2, h3, h4⟩
        cases h1 with
        | nil =>
          simp only [moreText, List.nil_append] at h3
          rw [← h3] at h4
          simp at h4
        | @cons xy p xys ps hx hf =>
          simp only [moreText, List.cons_append, List.cons.injEq, true_and, List.append_assoc] at h3
          have := (parsePoint_iff (atod := atod) hsep).2 ⟨xy, hx, h3⟩
          rw [hp] at this
          cases this
      | ok r =>
        obtain ⟨p, s'⟩ := r
        obtain ⟨xy, hx, hs⟩ := (parsePoint_iff hsep).1 hp
        have hlen : s'.length ≤ fuel := by
          rw [hs] at hl
          simp at hl
          omega
        dsimp only
        refine (parseLoop_iff hsep fuel s' (acc ++ [p]) points rest hlen).trans ?_
        constructor
        · rintro ⟨xys, ps, h1, h2, h3, h4⟩
          refine ⟨xy :: xys, p :: ps, .cons hx h1, by simp [h2], ?_, h4⟩
          rw [hs, h3]
          simp [moreText]
        · rintro ⟨xys, ps, h1, h2, h3, h4⟩
          cases h1 with
          | nil =>
            simp only [moreText, List.nil_append] at h3
            rw [← h3] at h4
            simp at h4
          | @cons xy' p' xys ps hx' hf =>
            simp only [moreText, List.cons_append, List.cons.injEq, true_and, List.append_assoc] at h3
            have := (parsePoint_iff (atod := atod) hsep).2 ⟨xy', hx', h3⟩
            rw [hp] at this
            simp only [Except.ok.injEq, Prod.mk.injEq] at this
            obtain ⟨rfl, rfl⟩ := this
            exact ⟨xys, ps, hf, by simp [h2], rfl, h4⟩
    · rw [if_neg hc]
      simp only [Except.ok.injEq, Prod.mk.injEq]
      constructor
      · rintro ⟨rfl, rfl⟩
        exact ⟨[], [], .nil, by simp, by simp [moreText], by simpa using hc⟩
      · rintro ⟨xys, ps, h1, h2, h3, h4⟩
        cases h1 with
        | nil =>
          simp only [moreText, List.nil_append] at h3
          exact ⟨by simp [h2], h3⟩
        | @cons xy' p' xys ps hx' hf =>
          simp only [moreText, List.cons_append, List.cons.injEq] at h3
          exact absurd h3.1 hc

theorem parseEnd_iff {s : List Char} : parseEnd s = .ok () ↔ s = ['}', ')'] := by
  unfold parseEnd
  split <;> simp_all

theorem parseType_paren {name : List Char} {t : CurveType} (h : parseType name = some t) : '(' ∉ name := by
  unfold parseType at h
  repeat' split at h
  all_goals first | (cases h; done) | skip
  all_goals (rename_i e; rw [e]; decide)

/-- **The parser accepts exactly the texts of curves, and gives their type and control points.** -/
theorem parse_iff {text : List Char} {type : CurveType} {points : List (D × D)} :
    parse atod sep text = .ok (type, points) ↔ IsText atod sep text type points := by
  by_cases hv : sep = ';' ∨ sep = '|'
  swap
  · have : parse atod sep text = .error .invalidSeparator := by
      unfold parse
      rw [if_pos (by simpa using hv)]
    rw [this]
    simp only [reduceCtorEq, false_iff]
    exact fun h => hv h.1
  have hsep : sep ≠ '}' := by rcases hv with rfl | rfl <;> decide
  unfold parse
  rw [if_neg (by rcases hv with rfl | rfl <;> decide)]
  constructor
  · intro h
    split at h
    · cases h
    next name s hf =>
    split at h
    · cases h
    next ty hty =>
    split at h
    swap
    · cases h
    next s' =>
    split at h
    · cases h
    next p s2 hp =>
    split at h
    · cases h
    next ps s3 hl =>
    split at h
    · cases h
    next he =>
    simp only [Except.ok.injEq, Prod.mk.injEq] at h
    obtain ⟨rfl, rfl⟩ := h
    obtain ⟨e1, _⟩ := findChar_some.1 hf
    obtain ⟨xy, hx, e2⟩ := (parsePoint_iff hsep).1 hp
    obtain ⟨xys, qs, h1, h2, h3, h4⟩ := (parseLoop_iff hsep _ _ _ _ _ (Nat.le_refl _)).1 hl
    rw [parseEnd_iff] at he
    subst he
    refine ⟨hv, name, xy :: xys, hty, by simp, ?_, ?_⟩
    · rw [h2]; exact .cons hx h1
    · rw [joinWith_more, e1, e2, h3]
      simp
  · rintro ⟨_, name, xys, hty, hne, hf, rfl⟩
    cases hf with
    | nil => exact absurd rfl hne
    | @cons xy p xys ps hx hf =>
      rw [joinWith_more]
      have e1 : findChar '(' (name ++ "({".toList ++ (pointText sep xy ++ moreText sep xys) ++ "})".toList) =
          some (name, '{' :: (pointText sep xy ++ (moreText sep xys ++ ['}', ')']))) :=
        findChar_some.2 ⟨by simp, parseType_paren hty⟩
      have e2 : parsePoint atod sep (pointText sep xy ++ (moreText sep xys ++ ['}', ')'])) = .ok (p, moreText sep xys ++ ['}', ')']) :=
        (parsePoint_iff hsep).2 ⟨xy, hx, rfl⟩
      have e3 := (parseLoop_iff (atod := atod) hsep _ (moreText sep xys ++ ['}', ')']) [p] ([p] ++ ps) ['}', ')'] (Nat.le_refl _)).2
        ⟨xys, ps, hf, rfl, rfl, by rcases hv with rfl | rfl <;> decide⟩
      simp only [e1, hty, e2, e3, parseEnd]
      rfl

/-- **A curve is read back from its text**, if the text of each coordinate is read back and has no separator nor bracket. -/
theorem parse_toString {fmt : D → List Char} {type : CurveType} {points : List (D × D)} (hne : points ≠ [])
    (hf : ∀ p ∈ points, ∀ d, (d = p.1 ∨ d = p.2) → atod (fmt d) = some d ∧ ';' ∉ fmt d ∧ '}' ∉ fmt d) :
    parse atod ';' (curveToString fmt type points) = .ok (type, points) := by
  rw [parse_iff]
  refine ⟨.inl rfl, type.name, points.map fun p => (fmt p.1, fmt p.2), by cases type <;> decide, by simpa using hne, ?_, ?_⟩
  · rw [List.forall₂_map_left_iff, List.forall₂_same]
    intro p hp
    obtain ⟨a1, a2, a3⟩ := hf p hp p.1 (.inl rfl)
    obtain ⟨b1, _, b3⟩ := hf p hp p.2 (.inr rfl)
    exact ⟨a2, a3, b3, a1, b1⟩
  · unfold curveToString
    rw [List.map_map]
    have : (points.map (pointToString fmt)) = points.map (pointText ';' ∘ fun p => (fmt p.1, fmt p.2)) := by
      apply List.map_congr_left
      intro p _
      simp [pointToString, pointText]
    rw [this]
    simp

/-- The loop over the separators. -/
theorem findSepLoop_eq (curve : List Char) : ∀ (allowed : List Char) (used : Option Char), findSepLoop curve allowed used =
    match allowed.filter (· ∈ curve), used with
    | [], u => some u
    | [a], none => some (some a)
    | _, _ => none
  | [], used => by simp [findSepLoop]
  | a :: allowed, used => by
    have ih := fun u => findSepLoop_eq curve allowed u
    by_cases h : a ∈ curve
    · simp only [findSepLoop, h, if_true, List.filter_cons, decide_true]
      cases used with
      | some u => cases allowed.filter (· ∈ curve) <;> rfl
      | none =>
        dsimp only
        rw [ih]
        cases allowed.filter (· ∈ curve) with
        | nil => rfl
        | cons b l => cases l <;> rfl
    · simp only [findSepLoop, h, if_false, List.filter_cons, decide_false, Bool.false_eq_true]
      exact ih used

/-- **The separator used is the only allowed one in the text, or the first allowed one if there is none.** -/
theorem findSeparatorUsed_iff {allowed curve : List Char} (hd : allowed.Nodup) {c : Char} : findSeparatorUsed allowed curve = some c ↔
    (c ∈ allowed ∧ c ∈ curve ∧ ∀ d ∈ allowed, d ∈ curve → d = c) ∨ (allowed.head? = some c ∧ ∀ d ∈ allowed, d ∉ curve) := by
  cases allowed with
  | nil => simp [findSeparatorUsed]
  | cons a allowed =>
    have hmem : ∀ d, d ∈ (a :: allowed).filter (· ∈ curve) ↔ d ∈ a :: allowed ∧ d ∈ curve := by
      intro d; rw [List.mem_filter]; simp
    have hnd : ((a :: allowed).filter (· ∈ curve)).Nodup := hd.filter _
    unfold findSeparatorUsed
    dsimp only
    rw [findSepLoop_eq]
    match hf : (a :: allowed).filter (· ∈ curve) with
    | [] =>
      rw [hf] at hmem
      simp only [Option.map_some, Option.getD_none, Option.some.injEq, List.head?_cons]
      constructor
      · intro e
        exact .inr ⟨e, fun d h1 h2 => by have := (hmem d).2 ⟨h1, h2⟩; cases this⟩
      · rintro (⟨h1, h2, _⟩ | ⟨h1, _⟩)
        · have := (hmem c).2 ⟨h1, h2⟩; cases this
        · exact h1
    | [b] =>
      rw [hf] at hmem
      simp only [Option.map_some, Option.getD_some, Option.some.injEq]
      have hb := (hmem b).1 (by simp)
      constructor
      · rintro rfl
        refine .inl ⟨hb.1, hb.2, fun d h1 h2 => ?_⟩
        have := (hmem d).2 ⟨h1, h2⟩
        simpa using this
      · rintro (⟨h1, h2, h3⟩ | ⟨_, h2⟩)
        · exact h3 b hb.1 hb.2
        · exact absurd hb.2 (h2 b hb.1)
    | b :: b' :: l =>
      rw [hf] at hmem hnd
      simp only [Option.map_none, reduceCtorEq, false_iff]
      have hb := (hmem b).1 (by simp)
      have hb' := (hmem b').1 (by simp)
      have hne : b ≠ b' := by
        rintro rfl
        simp at hnd
      rintro (⟨_, _, h3⟩ | ⟨_, h2⟩)
      · exact hne ((h3 b hb.1 hb.2).trans (h3 b' hb'.1 hb'.2).symm)
      · exact h2 b hb.1 hb.2

/-! ## Cases -/

/-- Digits for the cases. -/
def digits : List Char → Option Nat
  | [c] => if c.isDigit then some (c.toNat - '0'.toNat) else none
  | _ => none

example : parse digits ';' "Log1pPWLCurve({{0;1};{2;3}})".toList = .ok (.log1p, [(0, 1), (2, 3)]) ∧
    parse digits '|' "LogP1PWLCurve({{0|1}|{2|3}})".toList = .ok (.log1p, [(0, 1), (2, 3)]) ∧
    parse digits ';' "PWLCurve({{0;1};{2}3})".toList = .error .missingSeparator ∧
    parse digits ';' "PWLCurve({{0;1}}) ".toList = .error .trailingJunk ∧
    parse digits ';' "PWLCurve({{0;1}x)".toList = .error .missingCloseCurlyList ∧
    findSeparatorUsed [';', '|'] "PWLCurve({{0|1}})".toList = some '|' ∧
    findSeparatorUsed [';', '|'] "PWLCurve({{0|1;2}})".toList = none := by decide +kernel

/-- The hypotheses of `parse_toString` for digits. -/
def digitText (n : Nat) : List Char := [Char.ofNat (n + '0'.toNat)]

example : ∀ n < 10, digits (digitText n) = some n ∧ ';' ∉ digitText n ∧ '}' ∉ digitText n := by decide +kernel

end Verif.Curve
