import Verif.Naming.NamingSpec
import Mathlib.Tactic.ByContra

namespace Verif.Naming

theorem formatLoop_eq (m : Bool) : ∀ (p : List Segment) (ret : List Char),
    formatLoop m p ret = ret ++ p.flatMap (fun s => ['/'] ++ s.name ++ (if m && s.isIndex then kIndexMarker else [])) := by
  intro p
  induction p with
  | nil => intro ret; simp [formatLoop]
  | cons s p ih =>
    intro ret
    rw [formatLoop, ih, List.flatMap_cons]
    cases h : (m && s.isIndex) <;> simp

theorem formatId_eq (p : List Segment) : formatId p = pathText p := by
  induction p with
  | nil => rfl
  | cons s p ih =>
    rw [formatId, ih]
    simp [pathText, segText, kIndexMarker]

theorem fullName_markers (p : List Segment) : fullName p true = pathText p := by
  rw [fullName, formatLoop_eq]
  simp [pathText, segText, kIndexMarker]
  rfl

theorem fullName_plain (p : List Segment) : fullName p false = p.flatMap (fun s => '/' :: s.name) := by
  rw [fullName, formatLoop_eq]
  simp

theorem child_eq : ∀ (c p : List Segment), child p c = p ++ c := by
  intro c
  induction c with
  | nil => intro p; simp [child]
  | cons s c ih => intro p; rw [child, ih]; simp

/-- The text of a segment without its slash. -/
def body (s : Segment) : List Char := s.name ++ (if s.isIndex then ['[', ':', ']'] else [])

theorem segText_eq (s : Segment) : segText s = '/' :: body s := by simp [segText, body]

theorem pathText_cons (s : Segment) (p : List Segment) : pathText (s :: p) = '/' :: (body s ++ pathText p) := by
  simp [pathText, segText_eq]

/-- A plain segment. -/
def Plain (s : Segment) : Prop := '/' ∉ s.name ∧ (s.isIndex = false → ¬ ['[', ':', ']'] <:+ s.name)

theorem not_mem_body {s : Segment} (h : Plain s) : '/' ∉ body s := by
  unfold body
  rw [List.mem_append]
  rintro (h1 | h1)
  · exact h.1 h1
  · cases hi : s.isIndex with
    | true => rw [hi] at h1; simp at h1
    | false => rw [hi] at h1; simp at h1

theorem parseSegment_body {s : Segment} (h : Plain s) : parseSegment (body s) = s := by
  obtain ⟨n, i⟩ := s
  cases i with
  | true =>
    unfold parseSegment body
    rw [if_pos (by
      rw [List.isSuffixOf_iff_suffix]
      exact List.suffix_append _ _)]
    simp [kIndexMarker]
  | false =>
    unfold parseSegment body
    rw [if_neg (by
      rw [List.isSuffixOf_iff_suffix]
      simpa [kIndexMarker] using h.2 rfl)]
    simp

theorem body_parseSegment (t : List Char) : body (parseSegment t) = t := by
  unfold parseSegment
  by_cases h : kIndexMarker.isSuffixOf t = true
  · rw [if_pos h]
    obtain ⟨u, rfl⟩ := List.isSuffixOf_iff_suffix.1 h
    simp [body, kIndexMarker]
  · rw [if_neg h]
    simp [body]

theorem plain_parseSegment {t : List Char} (ht : '/' ∉ t) : Plain (parseSegment t) := by
  unfold parseSegment
  by_cases h : kIndexMarker.isSuffixOf t = true
  · rw [if_pos h]
    exact ⟨fun hm => ht (List.mem_of_mem_take hm), fun hf => by cases hf⟩
  · rw [if_neg h]
    exact ⟨ht, fun _ hs => h (List.isSuffixOf_iff_suffix.2 hs)⟩

theorem findIdx_slash {a : List Char} (ha : '/' ∉ a) (b : List Char) :
    (a ++ '/' :: b).findIdx? (· == '/') = some a.length := by
  induction a with
  | nil => simp [List.findIdx?_cons]
  | cons c a ih =>
    have hc : c ≠ '/' := fun h => ha (by simp [h])
    rw [List.cons_append, List.findIdx?_cons, if_neg (by simpa using hc), ih (fun h => ha (by simp [h]))]
    simp

theorem findIdx_none {a : List Char} (ha : '/' ∉ a) : a.findIdx? (· == '/') = none := by
  rw [List.findIdx?_eq_none_iff]
  intro x hx
  by_contra hc
  simp at hc
  exact ha (hc ▸ hx)

theorem split_slash (t : List Char) : '/' ∉ t ∨ ∃ a b, t = a ++ '/' :: b ∧ '/' ∉ a := by
  induction t with
  | nil => left; simp
  | cons c t ih =>
    by_cases hc : c = '/'
    · right; exact ⟨[], t, by simp [hc], by simp⟩
    · rcases ih with h | ⟨a, b, h1, h2⟩
      · left
        simp only [List.mem_cons, not_or]
        exact ⟨fun h => hc h.symm, h⟩
      · right
        refine ⟨c :: a, b, by rw [h1]; rfl, ?_⟩
        simp only [List.mem_cons, not_or]
        exact ⟨fun h => hc h.symm, h2⟩

theorem parseLoop_step_some {a : List Char} (ha : '/' ∉ a) (b : List Char) (fuel : Nat) (parsed : List Segment) :
    parseLoop (fuel + 1) (a ++ '/' :: b) parsed = parseLoop fuel b (parsed ++ [parseSegment a]) := by
  cases h : a ++ '/' :: b with
  | nil => simp at h
  | cons c s =>
    have h1 := findIdx_slash ha b
    rw [h] at h1
    rw [parseLoop, h1]
    simp only
    rw [← h]
    congr 1
    · rw [List.drop_append]
      simp
    · simp

theorem parseLoop_step_none {a : List Char} (ha : '/' ∉ a) (hne : a ≠ []) (fuel : Nat) (parsed : List Segment) :
    parseLoop (fuel + 1) a parsed = some (parsed ++ [parseSegment a]) := by
  cases a with
  | nil => exact absurd rfl hne
  | cons c s => rw [parseLoop, findIdx_none ha]

/-- What the loop parses: the texts of plain segments, each followed by a slash, except that the slash after the last one may be
absent if its text is not empty. -/
theorem parseLoop_exact : ∀ (fuel : Nat) (s : List Char) (parsed : List Segment), s.length ≤ fuel →
    ∃ p, parseLoop fuel s parsed = some (parsed ++ p) ∧ (∀ x ∈ p, Plain x) ∧
      ('/' :: s = pathText p ++ ['/'] ∨ ('/' :: s = pathText p ∧ ∀ x, p.getLast? = some x → body x ≠ [])) := by
  intro fuel
  induction fuel with
  | zero =>
    intro s parsed hs
    have : s = [] := List.length_eq_zero_iff.1 (by omega)
    subst this
    exact ⟨[], by simp [parseLoop], by simp, Or.inl rfl⟩
  | succ fuel ih =>
    intro s parsed hs
    rcases split_slash s with h | ⟨a, b, rfl, ha⟩
    · by_cases hne : s = []
      · subst hne
        exact ⟨[], by simp [parseLoop], by simp, Or.inl rfl⟩
      · refine ⟨[parseSegment s], parseLoop_step_none h hne fuel parsed, ?_, Or.inr ⟨?_, ?_⟩⟩
        · simpa using plain_parseSegment h
        · rw [pathText_cons, body_parseSegment]; simp [pathText]
        · intro x hx
          have : parseSegment s = x := by simpa using hx
          rw [← this, body_parseSegment]; exact hne
    · rw [parseLoop_step_some ha]
      rw [List.length_append, List.length_cons] at hs
      obtain ⟨p, h1, h2, h3⟩ := ih b (parsed ++ [parseSegment a]) (by omega)
      refine ⟨parseSegment a :: p, by rw [h1]; simp, ?_, ?_⟩
      · intro x hx
        rcases List.mem_cons.1 hx with rfl | hx
        · exact plain_parseSegment ha
        · exact h2 x hx
      · rw [pathText_cons, body_parseSegment]
        rcases h3 with h3 | ⟨h3, h4⟩
        · left
          rw [h3]; simp
        · right
          refine ⟨by rw [h3], ?_⟩
          intro x hx
          cases p with
          | nil => simp [pathText] at h3
          | cons y p => exact h4 x (by simpa [List.getLast?_cons_cons] using hx)

/-- Texts of plain paths determine the path. -/
theorem pathText_inj : ∀ (p q : List Segment), (∀ x ∈ p, Plain x) → (∀ x ∈ q, Plain x) →
    pathText p = pathText q → p = q := by
  have key : ∀ (a b u v : List Char), '/' ∉ a → '/' ∉ b → (u = [] ∨ ∃ u', u = '/' :: u') → (v = [] ∨ ∃ v', v = '/' :: v') →
      a ++ u = b ++ v → a = b ∧ u = v := by
    intro a
    induction a with
    | nil =>
      intro b u v _ hb hu hv h
      cases b with
      | nil => exact ⟨rfl, h⟩
      | cons c b =>
        rcases hu with rfl | ⟨u', rfl⟩
        · cases h
        · simp at h; exact absurd (by simp [← h.1]) hb
    | cons c a ih =>
      intro b u v ha hb hu hv h
      cases b with
      | nil =>
        rcases hv with rfl | ⟨v', rfl⟩
        · cases h
        · simp at h; exact absurd (by simp [h.1]) ha
      | cons d b =>
        simp at h
        obtain ⟨h1, h2⟩ := ih b u v (fun x => ha (by simp [x])) (fun x => hb (by simp [x])) hu hv h.2
        exact ⟨by rw [h.1, h1], h2⟩
  intro p
  induction p with
  | nil =>
    intro q _ _ h
    cases q with
    | nil => rfl
    | cons s q => rw [pathText_cons] at h; cases h
  | cons s p ih =>
    intro q hp hq h
    cases q with
    | nil => rw [pathText_cons] at h; cases h
    | cons t q =>
      rw [pathText_cons, pathText_cons] at h
      have hs : ∀ r : List Segment, pathText r = [] ∨ ∃ u', pathText r = '/' :: u' := by
        intro r
        cases r with
        | nil => left; rfl
        | cons x r => right; exact ⟨_, pathText_cons x r⟩
      obtain ⟨h1, h2⟩ := key _ _ _ _ (not_mem_body (hp s (by simp))) (not_mem_body (hq t (by simp))) (hs p) (hs q)
        (List.cons.inj h).2
      rw [ih q (fun x hx => hp x (by simp [hx])) (fun x hx => hq x (by simp [hx])) h2]
      rw [← parseSegment_body (hp s (by simp)), h1, parseSegment_body (hq t (by simp))]

/-! ## Joining -/

theorem join_inj (sep : List Char) (scan : List Char → List Char × Option (List Char)) (good : List Char → Prop)
    (h1 : ∀ n r, good n → scan (n ++ (sep ++ r)) = (n, some r)) (h2 : ∀ n, good n → scan n = (n, none)) :
    ∀ (p q : List (List Char)), (∀ x ∈ p, good x) → (∀ x ∈ q, good x) → p ≠ [] → q ≠ [] → join sep p = join sep q →
      p = q := by
  intro p
  induction p with
  | nil => intro q _ _ h; exact absurd rfl h
  | cons a p ih =>
    intro q hp hq _ hq0 h
    cases q with
    | nil => exact absurd rfl hq0
    | cons b q =>
      have ga := hp a (by simp)
      have gb := hq b (by simp)
      cases p with
      | nil =>
        cases q with
        | nil => exact congrArg (· :: []) h
        | cons b' q =>
          simp only [join] at h
          have e := (congrArg scan h).symm.trans (h2 a ga)
          rw [h1 b _ gb] at e
          cases congrArg Prod.snd e
      | cons a' p =>
        cases q with
        | nil =>
          simp only [join] at h
          have e := (congrArg scan h).trans (h2 b gb)
          rw [h1 a _ ga] at e
          cases congrArg Prod.snd e
        | cons b' q =>
          simp only [join] at h
          have := h1 a (join sep (a' :: p)) ga
          rw [h, h1 b _ gb] at this
          simp only [Prod.mk.injEq, Option.some.injEq] at this
          obtain ⟨e1, e2⟩ := this
          rw [e1, ih (b' :: q) (fun x hx => hp x (by simp [hx])) (fun x hx => hq x (by simp [hx])) (by simp) (by simp) e2.symm]

/-- Scan up to a character. -/
def scanChar (c : Char) : List Char → List Char × Option (List Char)
  | [] => ([], none)
  | d :: s => if d = c then ([], some s) else (d :: (scanChar c s).1, (scanChar c s).2)

theorem scanChar_some (c : Char) (n r : List Char) (h : c ∉ n) : scanChar c (n ++ ([c] ++ r)) = (n, some r) := by
  induction n with
  | nil => simp [scanChar]
  | cons d n ih =>
    have hd : d ≠ c := fun e => h (by simp [e])
    rw [List.cons_append, scanChar, if_neg hd, ih (fun e => h (by simp [e]))]

theorem scanChar_none (c : Char) (n : List Char) (h : c ∉ n) : scanChar c n = (n, none) := by
  induction n with
  | nil => rfl
  | cons d n ih =>
    have hd : d ≠ c := fun e => h (by simp [e])
    rw [scanChar, if_neg hd, ih (fun e => h (by simp [e]))]

/-- Scan up to two underscores. -/
def scanDouble : List Char → List Char × Option (List Char)
  | [] => ([], none)
  | [d] => ([d], none)
  | d :: e :: s =>
    if d = '_' ∧ e = '_' then ([], some s) else (d :: (scanDouble (e :: s)).1, (scanDouble (e :: s)).2)

theorem HasDouble.cons {n : List Char} (d : Char) (h : HasDouble n) : HasDouble (d :: n) := by
  obtain ⟨a, b, rfl⟩ := h
  exact ⟨d :: a, b, rfl⟩

theorem scanDouble_some : ∀ (n r : List Char), ¬ HasDouble n → n.getLast? ≠ some '_' →
    scanDouble (n ++ (['_', '_'] ++ r)) = (n, some r)
  | [], r, _, _ => by simp [scanDouble]
  | [d], r, _, hl => by
    have hd : d ≠ '_' := by simpa using hl
    simp [scanDouble, hd]
  | d :: e :: n, r, h, hl => by
    have hde : ¬ (d = '_' ∧ e = '_') := by
      rintro ⟨rfl, rfl⟩
      exact h ⟨[], n, rfl⟩
    have ih := scanDouble_some (e :: n) r (fun x => h (x.cons d)) (by simpa [List.getLast?_cons_cons] using hl)
    rw [List.cons_append, List.cons_append, scanDouble, if_neg hde]
    rw [List.cons_append] at ih
    rw [ih]

theorem scanDouble_none : ∀ (n : List Char), ¬ HasDouble n → scanDouble n = (n, none)
  | [], _ => rfl
  | [d], _ => rfl
  | d :: e :: n, h => by
    have hde : ¬ (d = '_' ∧ e = '_') := by
      rintro ⟨rfl, rfl⟩
      exact h ⟨[], n, rfl⟩
    rw [scanDouble, if_neg hde, scanDouble_none (e :: n) (fun x => h (x.cons d))]

/-- Scan one field of a GoogleSQL path. -/
def scanSql : List Char → List Char × Option (List Char)
  | '(' :: s =>
    match scanChar ')' s with
    | (a, some (_ :: r)) => ('(' :: (a ++ [')']), some r)
    | (a, _) => ('(' :: (a ++ [')']), none)
  | s => scanChar '.' s

theorem replaceChar_not_mem {c : Char} (b : List Char) : ∀ {s : List Char}, c ∉ s → replaceChar c b s = s := by
  intro s
  induction s with
  | nil => intro _; rfl
  | cons d s ih =>
    intro h
    rw [replaceChar, if_neg (fun e => h (by simp [e])), ih (fun e => h (by simp [e]))]
    rfl

theorem replaceChar_append (c : Char) (b : List Char) (s t : List Char) :
    replaceChar c b (s ++ t) = replaceChar c b s ++ replaceChar c b t := by
  induction s with
  | nil => rfl
  | cons d s ih => rw [List.cons_append, replaceChar, replaceChar, ih, List.append_assoc]

theorem replaceChar_flat (d : Char) : ∀ (p : List Segment), (∀ s ∈ p, '/' ∉ s.name) → ∀ (n : List Char), '/' ∉ n →
    replaceChar '/' [d] (n ++ p.flatMap (fun s => '/' :: s.name)) = join [d] (n :: p.map Segment.name) := by
  intro p
  induction p with
  | nil =>
    intro _ n hn
    simp only [List.flatMap_nil, List.append_nil, List.map_nil, join]
    exact replaceChar_not_mem _ hn
  | cons s p ih =>
    intro hp n hn
    have := ih (fun x hx => hp x (by simp [hx])) s.name (hp s (by simp))
    rw [replaceChar_append, replaceChar_not_mem _ hn, List.flatMap_cons, List.cons_append, replaceChar, if_pos rfl, this]
    simp only [List.map_cons, join]

theorem popLoop_spec : ∀ l : List Segment, ∃ a, l = a ++ popLoop l ∧ (∀ s ∈ a, s.isIndex = false) ∧
    (popLoop l = [] ∨ ∃ s r, popLoop l = s :: r ∧ s.isIndex = true) := by
  intro l
  induction l with
  | nil => exact ⟨[], rfl, by simp, Or.inl rfl⟩
  | cons s l ih =>
    rw [popLoop]
    by_cases h : s.isIndex = true
    · rw [if_pos h]
      exact ⟨[], rfl, by simp, Or.inr ⟨s, l, rfl, h⟩⟩
    · rw [if_neg h]
      obtain ⟨a, h1, h2, h3⟩ := ih
      refine ⟨s :: a, by rw [List.cons_append, ← h1], ?_, h3⟩
      intro x hx
      rcases List.mem_cons.1 hx with rfl | hx
      · simpa using h
      · exact h2 x hx

/-- The parent of a column: everything after it is not an index. -/
theorem columnParent_spec (p : List Segment) : ∃ a, p = columnParent p ++ a ∧ (∀ s ∈ a, s.isIndex = false) ∧
    EndsWithIndex (columnParent p) := by
  obtain ⟨a, h1, h2, h3⟩ := popLoop_spec p.reverse
  refine ⟨a.reverse, ?_, by simpa using h2, ?_⟩
  · rw [columnParent, ← List.reverse_append, ← h1, List.reverse_reverse]
  · rcases h3 with h3 | ⟨s, r, h3, h4⟩
    · left; rw [columnParent, h3]; rfl
    · right; exact ⟨r.reverse, s, by rw [columnParent, h3]; simp, h4⟩

theorem longest_of_tail {q a : List Segment} (ha : ∀ s ∈ a, s.isIndex = false) {q' : List Segment}
    (h : q' <+: q ++ a) (he : EndsWithIndex q') : q'.length ≤ q.length := by
  by_contra hc
  rcases he with rfl | ⟨r, s, rfl, hs⟩
  · simp at hc
  · rw [List.length_append, List.length_singleton] at hc
    obtain ⟨t, ht⟩ := h
    have hget : (q ++ a)[r.length]? = some s := by
      rw [← ht]
      simp
    rw [List.getElem?_append_right (by omega)] at hget
    have := ha s (List.mem_of_getElem? hget)
    rw [hs] at this
    cases this

end Verif.Naming
