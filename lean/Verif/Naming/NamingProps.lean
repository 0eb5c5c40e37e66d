import Verif.Naming.NamingLemmas

/-!
# Properties of paths, protopath ids and naming policies
-/

namespace Verif.Naming

/-! ## C128: protopath ids -/

/-- Parsing never fails to finish; it accepts exactly the empty string and strings beginning with a slash. -/
theorem parse_accepts (s : List Char) : (∃ p, parseId s = some (some p)) ↔ s = [] ∨ s.head? = some '/' := by
  unfold parseId
  cases s with
  | nil => simp
  | cons c s =>
    simp only
    by_cases h : c ≠ '/'
    · rw [if_pos h]; simp [h]
    · rw [if_neg h]
      have h : c = '/' := Classical.not_not.1 h
      obtain ⟨p, hp, -⟩ := parseLoop_exact s.length s [] (Nat.le_refl _)
      rw [hp]
      simp [h]

theorem parse_total (s : List Char) : ∃ r, parseId s = some r := by
  unfold parseId
  cases s with
  | nil => exact ⟨_, rfl⟩
  | cons c s =>
    simp only
    by_cases h : c ≠ '/'
    · rw [if_pos h]; exact ⟨_, rfl⟩
    · rw [if_neg h]
      obtain ⟨p, hp, -⟩ := parseLoop_exact s.length s [] (Nat.le_refl _)
      rw [hp]; exact ⟨_, rfl⟩

/-- The texts that are parsed as the path `p`: the text of `p` followed by a slash, and the text of `p` itself unless its last
segment is an empty one. -/
theorem parse_exact (s : List Char) (p : List Segment) : parseId s = some (some p) ↔
    PlainNames p ∧ (s = pathText p ++ ['/'] ∨ (s = pathText p ∧ p.getLast? ≠ some ⟨[], false⟩)) := by
  have hbody : ∀ x : Segment, body x ≠ [] ↔ x ≠ ⟨[], false⟩ := by
    rintro ⟨n, i⟩
    cases i <;> simp [body]
  have fwd : ∀ (s : List Char) (p : List Segment), parseId s = some (some p) → PlainNames p ∧
      (s = pathText p ++ ['/'] ∨ (s = pathText p ∧ p.getLast? ≠ some ⟨[], false⟩)) := by
    intro s p h
    unfold parseId at h
    cases s with
    | nil =>
      simp only [Option.some.injEq] at h
      subst h
      exact ⟨by simp [PlainNames], Or.inr ⟨rfl, by simp⟩⟩
    | cons c s =>
      simp only at h
      by_cases hc : c ≠ '/'
      · rw [if_pos hc] at h; cases h
      · rw [if_neg hc] at h
        have hc : c = '/' := Classical.not_not.1 hc
        subst hc
        obtain ⟨q, h1, h2, h3⟩ := parseLoop_exact s.length s [] (Nat.le_refl _)
        rw [h1] at h
        simp only [List.nil_append, Option.map_some, Option.some.injEq] at h
        subst h
        refine ⟨h2, ?_⟩
        rcases h3 with h3 | ⟨h3, h4⟩
        · exact Or.inl h3
        · exact Or.inr ⟨h3, fun he => (hbody _).1 (h4 _ he) rfl⟩
  refine ⟨fwd s p, ?_⟩
  rintro ⟨hp, hs⟩
  have hacc : s = [] ∨ s.head? = some '/' := by
    cases p with
    | nil => rcases hs with rfl | ⟨rfl, -⟩ <;> simp [pathText]
    | cons x p => rcases hs with rfl | ⟨rfl, -⟩ <;> (right; rw [pathText_cons]; rfl)
  obtain ⟨q, hq⟩ := (parse_accepts s).2 hacc
  rw [hq]
  obtain ⟨h1, h2⟩ := fwd s q hq
  have hlast : ∀ (u v : List Segment), PlainNames u → PlainNames v → pathText u ++ ['/'] = pathText v →
      v.getLast? = some ⟨[], false⟩ := by
    intro u v hu hv h
    have : pathText (u ++ [⟨[], false⟩]) = pathText v := by
      rw [← h]; simp [pathText, segText]
    have := pathText_inj _ _ (by
      intro x hx
      rcases List.mem_append.1 hx with hx | hx
      · exact hu x hx
      · have : x = ⟨[], false⟩ := by simpa using hx
        subst this
        exact ⟨by simp, by simp⟩) hv this
    rw [← this]; simp
  have : q = p := by
    rcases hs with hs | ⟨hs, hs'⟩ <;> rcases h2 with h2 | ⟨h2, h2'⟩
    · exact pathText_inj _ _ h1 hp (List.append_cancel_right (h2.symm.trans hs))
    · exact absurd (hlast p q hp h1 (hs.symm.trans h2)) h2'
    · exact absurd (hlast q p h1 hp (h2.symm.trans hs)) hs'
    · exact pathText_inj _ _ h1 hp (h2.symm.trans hs)
  rw [this]

/-- Formatting writes the text, and parsing the text gives the path back exactly for plain names and a last segment which is not
empty. -/
theorem round_trip (p : List Segment) : formatId p = pathText p ∧
    (parseId (formatId p) = some (some p) ↔ PlainNames p ∧ p.getLast? ≠ some ⟨[], false⟩) := by
  refine ⟨formatId_eq p, ?_⟩
  rw [formatId_eq, parse_exact]
  constructor
  · rintro ⟨h, h1 | h1⟩
    · have := congrArg List.length h1
      simp at this
    · exact ⟨h, h1.2⟩
  · rintro ⟨h, h1⟩
    exact ⟨h, Or.inr ⟨rfl, h1⟩⟩

/-- Different paths with plain names have different ids. -/
theorem ids_distinct (p q : List Segment) (hp : PlainNames p) (hq : PlainNames q) (h : formatId p = formatId q) : p = q := by
  rw [formatId_eq, formatId_eq] at h
  exact pathText_inj p q hp hq h

/-- `foo[:]/bar`. -/
def samplePath : List Segment := [⟨['f', 'o', 'o'], true⟩, ⟨['b', 'a', 'r'], false⟩]

example : parseId "/foo[:]/bar/".toList = some (some samplePath) := by decide +kernel

example : PlainNames samplePath ∧ samplePath.getLast? ≠ some ⟨[], false⟩ := by
  refine ⟨?_, by decide⟩
  intro s hs
  simp [samplePath] at hs
  rcases hs with rfl | rfl
  · exact ⟨by decide, by simp⟩
  · exact ⟨by decide, fun _ => by decide⟩

/-- A name ending with the index marker is read back as an index. -/
example : parseId (formatId [⟨['a', '[', ':', ']'], false⟩]) = some (some [⟨['a'], true⟩]) := by decide

/-! ## C129: operations on paths -/

/-- `RemovePrefix` succeeds exactly for prefixes and removes them. -/
theorem remove_prefix (p pre r : List Segment) : removePrefix p pre = some r ↔ p = pre ++ r := by
  unfold removePrefix
  by_cases h : p.take pre.length ≠ pre
  · rw [if_pos h]
    constructor
    · intro h1; cases h1
    · rintro rfl
      exact absurd (by simp) h
  · rw [if_neg h]
    have h : p.take pre.length = pre := Classical.not_not.1 h
    constructor
    · intro h1
      cases h1
      exact (List.take_append_drop pre.length p).symm.trans (by rw [h])
    · rintro rfl
      simp

/-- `Child`, `Column` and `Size` append. -/
theorem child_column_size (p c : List Segment) (name : List Char) :
    child p c = p ++ c ∧ column p c = p ++ c ∧ removePrefix (child p c) p = some c ∧
    sizeOfPath p c = p ++ c ++ [⟨['@', 's', 'i', 'z', 'e'], false⟩] ∧
    sizeOfName p name = p ++ (if name = [] then [] else [⟨name, false⟩]) ++ [⟨['@', 's', 'i', 'z', 'e'], false⟩] := by
  refine ⟨child_eq c p, rfl, (remove_prefix _ _ _).2 (child_eq c p), ?_, ?_⟩
  · rw [sizeOfPath, child_eq]; rfl
  · rw [sizeOfName]
    by_cases h : name = []
    · rw [if_pos h, if_pos h]; simp [column, kSizeColumnName]
    · rw [if_neg h, if_neg h, child_eq]; rfl

/-- The table of a column is the longest beginning of the path that ends with an index, or the root. -/
theorem column_parent (p : List Segment) : IsParentIndex (fun _ => True) p (columnParent p) := by
  obtain ⟨a, h1, h2, h3⟩ := columnParent_spec p
  refine ⟨⟨a, h1.symm⟩, trivial, h3, ?_⟩
  intro q' hq' _ he
  rw [h1] at hq'
  exact longest_of_tail h2 hq' he

/-- The parent of a table is the longest proper beginning that ends with an index, or the root; the root has no parent. -/
theorem table_parent (p : List Segment) : (tableParent p = none ↔ p = []) ∧
    ∀ q, tableParent p = some q → IsParentIndex (fun q => q ≠ p) p q := by
  unfold tableParent
  cases hr : p.reverse with
  | nil =>
    have : p = [] := List.reverse_eq_nil_iff.1 hr
    exact ⟨by simp [this], fun q hq => by cases hq⟩
  | cons s rest =>
    have hp : p = rest.reverse ++ [s] := by
      have := congrArg List.reverse hr
      simpa using this
    have hne : p ≠ [] := by rw [hp]; simp
    refine ⟨by simp [hne], ?_⟩
    intro q hq
    simp only [Option.some.injEq] at hq
    by_cases hs : s.isIndex = true
    · rw [if_pos hs] at hq
      have hq : q = columnParent rest.reverse := by rw [← hq, columnParent, List.reverse_reverse]
      obtain ⟨a, h1, h2, h3⟩ := columnParent_spec rest.reverse
      rw [← hq] at h1 h3
      refine ⟨⟨a ++ [s], by rw [hp, h1]; simp⟩, ?_, h3, ?_⟩
      · intro he
        have := congrArg List.length (he.trans hp)
        rw [h1] at this
        simp at this
      · intro q' hq' hne' he
        refine longest_of_tail h2 (q := q) ?_ he
        rw [← h1]
        obtain ⟨t, ht⟩ := hq'
        rw [hp] at ht
        rcases List.eq_nil_or_concat t with rfl | ⟨t', x, rfl⟩
        · exact absurd (by rw [hp]; simpa using ht) hne'
        · rw [List.concat_eq_append, ← List.append_assoc] at ht
          exact ⟨t', (List.append_inj' ht rfl).1⟩
    · rw [if_neg hs] at hq
      have hq : q = columnParent p := by rw [← hq, columnParent, hr]
      obtain ⟨a, h1, h2, h3⟩ := columnParent_spec p
      rw [← hq] at h1 h3
      refine ⟨⟨a, h1.symm⟩, ?_, h3, ?_⟩
      · rintro rfl
        rcases h3 with h3 | ⟨r, s', h3, h4⟩
        · exact hne h3
        · have e := hp.symm.trans h3
          have := (List.append_inj' e rfl).2
          simp at this
          rw [this] at hs
          exact hs h4
      · intro q' hq' _ he
        rw [h1] at hq'
        exact longest_of_tail h2 hq' he

example : tableParent samplePath = some [⟨['f', 'o', 'o'], true⟩] ∧
    tableParent [⟨['f', 'o', 'o'], true⟩] = some [] := by decide

/-! ## C130: naming policies -/

/-- `GetPolicy` finds exactly the six policies, under their names. -/
theorem get_policy (name : String) (pol : Policy) : getPolicy name = some pol ↔ pol.name = name := by
  unfold getPolicy
  constructor
  · intro h
    repeat' split at h
    all_goals first
      | (cases h; rename_i hn; exact hn.symm)
      | cases h
  · intro h
    subst h
    cases pol <;> decide +kernel

theorem join_names_inj (p q : List Segment) (sep : List Char) (f : Segment → List Char)
    (scan : List Char → List Char × Option (List Char)) (good : List Char → Prop)
    (h1 : ∀ n r, good n → scan (n ++ (sep ++ r)) = (n, some r)) (h2 : ∀ n, good n → scan n = (n, none))
    (h0 : ¬ good []) (hp : ∀ s ∈ p, good (f s)) (hq : ∀ s ∈ q, good (f s))
    (h : join sep (p.map f) = join sep (q.map f)) : p.map f = q.map f := by
  have hnil : ∀ l : List Segment, (∀ s ∈ l, good (f s)) → join sep (l.map f) = [] → l = [] := by
    intro l hl hj
    match l, hl, hj with
    | [], _, _ => rfl
    | [s], hl, hj =>
      simp only [List.map_cons, List.map_nil, join] at hj
      exact absurd (hj ▸ hl s (by simp)) h0
    | s :: t :: l, hl, hj =>
      simp only [List.map_cons, join] at hj
      have : f s = [] := (List.append_eq_nil_iff.1 hj).1
      exact absurd (this ▸ hl s (by simp)) h0
  cases p with
  | nil => rw [hnil q hq h.symm]
  | cons s p =>
    cases q with
    | nil => exact absurd (hnil _ hp h) (by simp)
    | cons t q =>
      refine join_inj sep scan good h1 h2 _ _ ?_ ?_ (by simp) (by simp) h
      · intro x hx
        obtain ⟨y, hy, rfl⟩ := List.mem_map.1 hx
        exact hp y hy
      · intro x hx
        obtain ⟨y, hy, rfl⟩ := List.mem_map.1 hx
        exact hq y hy

/-- The `default` policy separates paths with different names without slashes, and forgets which segments are indices. -/
theorem default_names (p q : List Segment) (hp : ∀ s ∈ p, '/' ∉ s.name) (hq : ∀ s ∈ q, '/' ∉ s.name) :
    Policy.default_.format p = Policy.default_.format q ↔ SameNames p q := by
  simp only [Policy.format]
  rw [fullName_plain, fullName_plain]
  constructor
  · intro h
    have step : ∀ l : List Segment, (∀ s ∈ l, '/' ∉ s.name) →
        replaceChar '/' ['/'] (l.flatMap (fun s => '/' :: s.name)) = join ['/'] ([] :: l.map Segment.name) := by
      intro l hl
      simpa using replaceChar_flat '/' l hl [] (by simp)
    have e := (step p hp).symm.trans ((congrArg (replaceChar '/' ['/']) h).trans (step q hq))
    have := join_inj ['/'] (scanChar '/') (fun n => '/' ∉ n) (fun n r hn => scanChar_some '/' n r hn)
      (fun n hn => scanChar_none '/' n hn) _ _ (by
        intro x hx
        rcases List.mem_cons.1 hx with rfl | hx
        · simp
        · obtain ⟨y, hy, rfl⟩ := List.mem_map.1 hx
          exact hp y hy) (by
        intro x hx
        rcases List.mem_cons.1 hx with rfl | hx
        · simp
        · obtain ⟨y, hy, rfl⟩ := List.mem_map.1 hx
          exact hq y hy) (by simp) (by simp) e
    exact (List.cons.inj this).2
  · intro h
    have e : ∀ l : List Segment, l.flatMap (fun s => '/' :: s.name) = (l.map Segment.name).flatMap (fun n => '/' :: n) := by
      intro l; rw [List.flatMap_map]
    rw [e, e, h]

/-- The `single_underscore` policy joins the names with underscores; it separates names without slashes and underscores. -/
theorem single_underscore_names (p q : List Segment)
    (hp : ∀ s ∈ p, s.name ≠ [] ∧ '/' ∉ s.name ∧ '_' ∉ s.name) (hq : ∀ s ∈ q, s.name ≠ [] ∧ '/' ∉ s.name ∧ '_' ∉ s.name) :
    Policy.singleUnderscore.format p = Policy.singleUnderscore.format q ↔ SameNames p q := by
  have hform : ∀ l : List Segment, (∀ s ∈ l, '/' ∉ s.name) → singleUnderscore l = join ['_'] (l.map Segment.name) := by
    intro l hl
    unfold singleUnderscore
    rw [fullName_plain]
    cases l with
    | nil => rfl
    | cons s l =>
      rw [List.flatMap_cons, List.cons_append]
      exact replaceChar_flat '_' l (fun x hx => hl x (by simp [hx])) s.name (hl s (by simp))
  simp only [Policy.format]
  rw [hform p (fun s hs => (hp s hs).2.1), hform q (fun s hs => (hq s hs).2.1)]
  constructor
  · intro h
    exact join_names_inj p q ['_'] Segment.name (scanChar '_') (fun n => n ≠ [] ∧ '_' ∉ n)
      (fun n r hn => scanChar_some '_' n r hn.2) (fun n hn => scanChar_none '_' n hn.2) (by simp)
      (fun s hs => ⟨(hp s hs).1, (hp s hs).2.2⟩) (fun s hs => ⟨(hq s hs).1, (hq s hs).2.2⟩) h
  · intro h
    exact congrArg (join ['_']) h

/-- The `double_underscore` policy separates plain fields whose names have no two adjacent underscores and do not end with one. -/
theorem double_underscore_names (p q : List Segment)
    (hp : ∀ s ∈ p, s.name ≠ [] ∧ '/' ∉ s.name ∧ ¬ IsExt s ∧ ¬ HasDouble s.name ∧ s.name.getLast? ≠ some '_')
    (hq : ∀ s ∈ q, s.name ≠ [] ∧ '/' ∉ s.name ∧ ¬ IsExt s ∧ ¬ HasDouble s.name ∧ s.name.getLast? ≠ some '_') :
    Policy.doubleUnderscore.format p = Policy.doubleUnderscore.format q ↔ SameNames p q := by
  have hform : ∀ l : List Segment, (∀ s ∈ l, '/' ∉ s.name ∧ ¬ IsExt s) →
      doubleUnderscore l = join ['_', '_'] (l.map Segment.name) := by
    intro l hl
    unfold doubleUnderscore
    congr 1
    apply List.map_congr_left
    intro s hs
    rw [replaceChar_not_mem _ (hl s hs).1, mangle, consumePrefix, if_neg]
    rw [List.isPrefixOf_iff_prefix]
    exact (hl s hs).2
  simp only [Policy.format]
  rw [hform p (fun s hs => ⟨(hp s hs).2.1, (hp s hs).2.2.1⟩), hform q (fun s hs => ⟨(hq s hs).2.1, (hq s hs).2.2.1⟩)]
  constructor
  · intro h
    exact join_names_inj p q ['_', '_'] Segment.name scanDouble
      (fun n => n ≠ [] ∧ ¬ HasDouble n ∧ n.getLast? ≠ some '_')
      (fun n r hn => scanDouble_some n r hn.2.1 hn.2.2) (fun n hn => scanDouble_none n hn.2.1) (by simp)
      (fun s hs => ⟨(hp s hs).1, (hp s hs).2.2.2⟩) (fun s hs => ⟨(hq s hs).1, (hq s hs).2.2.2⟩) h
  · intro h
    exact congrArg (join ['_', '_']) h

/-- Without the conditions on underscores two fields can get one name. -/
theorem double_underscore_counterexample :
    Policy.doubleUnderscore.format [⟨['a', '_'], false⟩, ⟨['b'], false⟩] =
      Policy.doubleUnderscore.format [⟨['a'], false⟩, ⟨['_', 'b'], false⟩] := by decide

theorem sqlField_cases (s : Segment) :
    (IsExt s ∧ ∃ r, s.name = ['E', 'x', 't', ':', ':'] ++ r ∧ sqlField s = '(' :: (r ++ [')'])) ∨
    (¬ IsExt s ∧ sqlField s = s.name) := by
  unfold sqlField consumePrefix
  by_cases h : IsExt s
  · left
    refine ⟨h, ?_⟩
    obtain ⟨r, hr⟩ := h
    rw [if_pos (show kExtensionFieldPrefix.isPrefixOf s.name = true from List.isPrefixOf_iff_prefix.2 ⟨r, hr⟩)]
    exact ⟨r, hr.symm, by rw [← hr]; simp [kExtensionFieldPrefix]⟩
  · right
    refine ⟨h, ?_⟩
    rw [if_neg (show ¬ kExtensionFieldPrefix.isPrefixOf s.name = true from fun e => h (List.isPrefixOf_iff_prefix.1 e))]

/-- The `googlesql` policy separates plain fields and extensions under the conditions of `SqlName`. -/
theorem googlesql_names (p q : List Segment) (hp : ∀ s ∈ p, SqlName s) (hq : ∀ s ∈ q, SqlName s) :
    Policy.googleSql.format p = Policy.googleSql.format q ↔ SameNames p q := by
  simp only [Policy.format, googleSql]
  have hplain : ∀ s : Segment, SqlName s → ¬ IsExt s → ∀ t, scanSql (s.name ++ t) = scanChar '.' (s.name ++ t) := by
    intro s hs he t
    obtain ⟨h1, -, h2⟩ := hs
    cases hn : s.name with
    | nil => exact absurd hn h1
    | cons c n =>
      have hc : c ≠ '(' := by
        have := (h2 he).2
        rw [hn] at this
        simpa using this
      rw [List.cons_append, scanSql]
      intro u hu
      exact hc (List.cons.inj hu).1
  have h1 : ∀ n r, (∃ s, SqlName s ∧ sqlField s = n) → scanSql (n ++ (['.'] ++ r)) = (n, some r) := by
    rintro n r ⟨s, hs, rfl⟩
    rcases sqlField_cases s with ⟨he, x, h1, h2⟩ | ⟨he, h2⟩
    · have hx : ')' ∉ x := fun hm => hs.2.1 he (by rw [h1]; simp [hm])
      rw [h2, List.cons_append, scanSql, List.append_assoc, scanChar_some ')' x _ hx]
      rfl
    · rw [h2, hplain s hs he, scanChar_some '.' _ _ (hs.2.2 he).1]
  have h2 : ∀ n, (∃ s, SqlName s ∧ sqlField s = n) → scanSql n = (n, none) := by
    rintro n ⟨s, hs, rfl⟩
    rcases sqlField_cases s with ⟨he, x, h1, h2⟩ | ⟨he, h2⟩
    · have hx : ')' ∉ x := fun hm => hs.2.1 he (by rw [h1]; simp [hm])
      have := scanChar_some ')' x [] hx
      rw [List.append_nil] at this
      rw [h2, scanSql, this]
    · have := hplain s hs he []
      rw [List.append_nil] at this
      rw [h2, this, scanChar_none '.' _ (hs.2.2 he).1]
  have hinj : ∀ s t : Segment, SqlName s → SqlName t → sqlField s = sqlField t → s.name = t.name := by
    intro s t hs ht h
    rcases sqlField_cases s with ⟨he, x, h1, h2⟩ | ⟨he, h2⟩ <;>
    rcases sqlField_cases t with ⟨he', y, h1', h2'⟩ | ⟨he', h2'⟩
    · rw [h2, h2'] at h
      rw [h1, h1', List.append_cancel_right (List.cons.inj h).2]
    · rw [h2, h2'] at h
      have := (ht.2.2 he').2
      rw [← h] at this
      simp at this
    · rw [h2, h2'] at h
      have := (hs.2.2 he).2
      rw [h] at this
      simp at this
    · rw [← h2, ← h2', h]
  constructor
  · intro h
    have e := join_names_inj p q ['.'] sqlField scanSql (fun n => ∃ s, SqlName s ∧ sqlField s = n) h1 h2 (by
      rintro ⟨s, hs, h⟩
      rcases sqlField_cases s with ⟨he, x, -, h2⟩ | ⟨he, h2⟩
      · rw [h2] at h; cases h
      · rw [h2] at h; exact hs.1 h) (fun s hs => ⟨s, hp s hs, rfl⟩) (fun s hs => ⟨s, hq s hs, rfl⟩) h
    clear h h1 h2
    induction p generalizing q with
    | nil =>
      cases q with
      | nil => rfl
      | cons t q => cases e
    | cons s p ih =>
      cases q with
      | nil => cases e
      | cons t q =>
        obtain ⟨e1, e2⟩ := List.cons.inj e
        have := ih q (fun x hx => hp x (by simp [hx])) (fun x hx => hq x (by simp [hx])) e2
        show s.name :: p.map Segment.name = t.name :: q.map Segment.name
        rw [hinj s t (hp s (by simp)) (hq t (by simp)) e1, this]
  · intro h
    have e : ∀ l : List Segment, l.map sqlField = (l.map Segment.name).map (fun n => sqlField ⟨n, false⟩) := by
      intro l
      rw [List.map_map]
      rfl
    rw [e, e, h]

/-- The `leaf_only` policy gives the last name, except for size columns, which keep the default name. -/
theorem leaf_only (p : List Segment) (s : Segment) (hs : '/' ∉ s.name) : Policy.leafOnly.format (p ++ [s]) =
    if ['@', 's', 'i', 'z', 'e'] <:+ s.name then Policy.default_.format (p ++ [s]) else s.name := by
  simp only [Policy.format, leafOnly]
  have hfull : fullName (p ++ [s]) false = fullName p false ++ '/' :: s.name := by
    rw [fullName_plain, fullName_plain]; simp
  have hsuf : kSizeColumnName.isSuffixOf (fullName (p ++ [s]) false) = true ↔ ['@', 's', 'i', 'z', 'e'] <:+ s.name := by
    rw [List.isSuffixOf_iff_suffix, hfull]
    constructor
    · intro h
      rcases List.suffix_or_suffix_of_suffix h (List.suffix_append (fullName p false ++ ['/']) s.name |>.trans (by simp)) with h' | h'
      · exact h'
      · rcases Nat.lt_or_ge s.name.length 5 with hl | hl
        · exfalso
          obtain ⟨t, ht⟩ := h'
          obtain ⟨u, hu⟩ := h
          rw [← ht, ← List.append_assoc] at hu
          rcases List.eq_nil_or_concat t with rfl | ⟨t', x, rfl⟩
          · have := congrArg List.length ht
            simp [kSizeColumnName] at this
            omega
          · have e : (u ++ t') ++ [x] ++ s.name = (fullName p false ++ ['/']) ++ s.name := by simpa using hu
            have e := List.append_cancel_right e
            have : x = '/' := by simpa using (List.append_inj' e rfl).2
            subst this
            have : '/' ∈ kSizeColumnName := by rw [← ht]; simp
            exact absurd this (by decide)
        · have := h'.length_le
          exact (h'.eq_of_length (by simp [kSizeColumnName] at this ⊢; omega)) ▸ List.suffix_refl _
    · intro h
      exact h.trans (List.suffix_append_of_suffix (List.suffix_cons _ _))
  by_cases h : ['@', 's', 'i', 'z', 'e'] <:+ s.name
  · rw [if_pos (hsuf.2 h), if_pos h]
  · rw [if_neg (fun e => h (hsuf.1 e)), if_neg h, hfull, afterLastSlash]
    have : (fullName p false ++ '/' :: s.name).reverse = s.name.reverse ++ '/' :: (fullName p false).reverse := by simp
    rw [this, findIdx_slash (by simpa using hs)]
    simp only [List.length_reverse]
    rw [List.length_append, List.length_cons]
    rw [show (fullName p false).length + (s.name.length + 1) - s.name.length = (fullName p false ++ ['/']).length by simp; omega]
    rw [show fullName p false ++ '/' :: s.name = (fullName p false ++ ['/']) ++ s.name by simp]
    simp

/-- The `protopath_id` policy keeps everything: C128. -/
theorem protopath_id_names (p q : List Segment) (hp : PlainNames p) (hq : PlainNames q) :
    Policy.protopathId.format p = Policy.protopathId.format q ↔ p = q :=
  ⟨ids_distinct p q hp hq, fun h => by rw [h]⟩

/-- `Ext::a.B` and `c`. -/
def extPath : List Segment := [⟨['E', 'x', 't', ':', ':', 'a', '.', 'B'], false⟩, ⟨['c'], false⟩]

example : Policy.googleSql.format extPath = "(a.B).c".toList ∧ Policy.doubleUnderscore.format extPath = "a_b__c".toList := by
  decide +kernel

example : ∀ s ∈ extPath, SqlName s := by
  intro s hs
  simp [extPath] at hs
  rcases hs with rfl | rfl
  · exact ⟨by simp, fun _ => by decide, fun h => absurd (by exact ⟨['a', '.', 'B'], rfl⟩) h⟩
  · exact ⟨by simp, fun _ => by decide, fun _ => by decide⟩

example : Policy.leafOnly.format samplePath = ['b', 'a', 'r'] ∧ Policy.default_.format samplePath = "/foo/bar".toList := by
  decide +kernel

end Verif.Naming
