import Verif.Text.SplitModel
import Verif.Text.SplitSpec
import Verif.Text.FindLemmas
import Mathlib.Data.List.Induction

/-!
# strings.split and strings.join
-/

namespace Verif.Text

theorem splitLoop_sep {sep : List Nat} (hne : sep ≠ []) (e : Bool) : ∀ fuel s, s.length < fuel →
    ∃ ps, splitLoop (fun rest => delimFind sep rest e) fuel s = some ps ∧ SplitBy sep s ps := by
  intro fuel
  induction fuel with
  | zero => intro s hs; omega
  | succ fuel ih =>
    intro s hs
    rw [splitLoop]
    have hd : delimFind sep s e = match svFind sep s with
        | some i => (i, sep.length)
        | none => (s.length, 0) := by
      unfold delimFind
      rw [if_neg (fun h => hne h.1)]
      rfl
    have hsp := svFind_spec sep s
    rw [hd]
    cases hf : svFind sep s with
    | none =>
      rw [hf] at hsp
      dsimp only
      rw [if_pos rfl]
      exact ⟨_, rfl, SplitBy.last _ hsp⟩
    | some i =>
      rw [hf] at hsp
      obtain ⟨⟨a, b, rfl, rfl⟩, hfirst⟩ := hsp
      have hpos := List.length_pos_iff.2 hne
      dsimp only
      rw [if_neg (by simp only [List.length_append]; omega)]
      have hdrop : (a ++ sep ++ b).drop (a.length + sep.length) = b := by rw [← List.length_append, List.drop_left]
      have htake : (a ++ sep ++ b).take a.length = a := by rw [List.append_assoc, List.take_left]
      rw [hdrop, htake]
      obtain ⟨ps, h1, h2⟩ := ih b (by simp only [List.length_append] at hs; omega)
      rw [h1]
      exact ⟨_, rfl, SplitBy.more _ _ _ hfirst h2⟩

theorem splitLoop_empty : ∀ fuel s, s ≠ [] → s.length < fuel →
    splitLoop (fun rest => delimFind [] rest false) fuel s = some (s.map fun c => [c]) := by
  intro fuel
  induction fuel with
  | zero => intro s _ hs; omega
  | succ fuel ih =>
    intro s hne hs
    rw [splitLoop]
    have hd : delimFind [] s false = (1, 0) := by unfold delimFind; rw [if_pos ⟨rfl, rfl⟩]
    rw [hd]
    dsimp only
    match s, hne with
    | [c], _ => rfl
    | c :: d :: s, _ =>
      rw [if_neg (by simp)]
      simp only [Nat.add_zero, List.drop_succ_cons, List.drop_zero, List.take_succ_cons, List.take_zero]
      rw [ih (d :: s) (by simp) (by simp at hs ⊢; omega)]
      rfl

/-- Splitting a string by a non-empty separator. -/
theorem split_separator (v : View) (hv : v.null = false) (sep : List Nat) (hne : sep ≠ []) :
    ∃ ps, newSplits (some sep) v = some ps ∧ SplitBy sep v.bytes ps := by
  unfold newSplits strSplit
  dsimp only
  rw [hv]
  exact splitLoop_sep hne _ _ _ (by omega)

/-- An empty separator splits into single bytes. -/
theorem split_empty_separator (v : View) (hv : v.null = false) :
    newSplits (some []) v = some (if v.bytes = [] then [[]] else v.bytes.map fun c => [c]) := by
  unfold newSplits strSplit
  dsimp only
  rw [hv]
  by_cases h : v.bytes = []
  · rw [if_pos h, h]
    rfl
  · rw [if_neg h]
    have : decide (v.bytes = []) = false := by simpa using h
    rw [this]
    exact splitLoop_empty _ _ h (by omega)

/-! ## Words -/

theorem splitSpace_iff {c : Nat} : splitSpace c = true ↔ IsSplitSpace c := by
  unfold splitSpace IsSplitSpace
  simp
  omega

theorem findIdx?_append_none {p : Nat → Bool} {s : List Nat} (h : s.findIdx? p = none) : ∀ c ∈ s, p c = false := by
  simpa using List.findIdx?_eq_none_iff.1 h

theorem findIdx?_split {p : Nat → Bool} {s : List Nat} {i : Nat} (h : s.findIdx? p = some i) :
    ∃ a c b, s = a ++ c :: b ∧ a.length = i ∧ p c = true ∧ ∀ x ∈ a, p x = false := by
  induction s generalizing i with
  | nil => cases h
  | cons d s ih =>
    rw [List.findIdx?_cons] at h
    cases hd : p d with
    | true =>
      rw [hd] at h
      cases h
      exact ⟨[], d, s, rfl, rfl, hd, by simp⟩
    | false =>
      rw [hd] at h
      cases hs : s.findIdx? p with
      | none => rw [hs] at h; cases h
      | some j =>
        rw [hs] at h
        cases h
        obtain ⟨a, c, b, rfl, rfl, h1, h2⟩ := ih hs
        refine ⟨d :: a, c, b, rfl, rfl, h1, ?_⟩
        intro x hx
        rcases List.mem_cons.1 hx with rfl | hx
        · exact hd
        · exact h2 x hx

theorem splitLoop_words : ∀ fuel s, s.length < fuel →
    ∃ ps, splitLoop anyCharFind fuel s = some ps ∧ Words IsSplitSpace s (ps.filter (· ≠ [])) := by
  intro fuel
  induction fuel with
  | zero => intro s hs; omega
  | succ fuel ih =>
    intro s hs
    rw [splitLoop]
    unfold anyCharFind
    cases hf : s.findIdx? splitSpace with
    | none =>
      dsimp only
      rw [if_pos rfl]
      refine ⟨_, rfl, ?_⟩
      have hn := findIdx?_append_none hf
      cases s with
      | nil => exact Words.nil
      | cons c s =>
        have := Words.word (space := IsSplitSpace) (c :: s) [] [] (by simp)
          (fun d hd hsd => absurd (splitSpace_iff.2 hsd) (by rw [hn d hd]; simp)) (by simp) Words.nil
        simpa using this
    | some i =>
      obtain ⟨a, c, b, rfl, rfl, h1, h2⟩ := findIdx?_split hf
      dsimp only
      rw [if_neg (by simp)]
      have hdrop : (a ++ c :: b).drop (a.length + 1) = b := by
        rw [List.drop_append, List.drop_eq_nil_of_le (by omega), Nat.add_sub_cancel_left]; rfl
      rw [hdrop, List.take_left]
      obtain ⟨ps, h3, h4⟩ := ih b (by simp at hs; omega)
      have h3' : splitLoop anyCharFind fuel b = some ps := h3
      unfold anyCharFind at h3'
      rw [h3']
      refine ⟨_, rfl, ?_⟩
      have hskip := Words.skip c b _ (splitSpace_iff.1 h1) h4
      by_cases ha : a = []
      · subst ha
        simpa using hskip
      · rw [List.filter_cons, if_pos (by simpa using ha)]
        refine Words.word a (c :: b) _ ha ?_ ?_ hskip
        · intro d hd hsd
          have := splitSpace_iff.2 hsd
          rw [h2 d hd] at this
          cases this
        · intro d hd
          cases hd
          exact splitSpace_iff.1 h1

/-- Without a separator the parts are the words. -/
theorem split_words (v : View) (hv : v.null = true → v.bytes = []) : ∃ ps, newSplits none v = some ps ∧ Words IsSplitSpace v.bytes ps := by
  unfold newSplits strSplitSpaces
  dsimp only
  cases h : v.null with
  | true =>
    rw [hv h]
    exact ⟨[], rfl, Words.nil⟩
  | false =>
    obtain ⟨ps, h1, h2⟩ := splitLoop_words (v.bytes.length + 1) v.bytes (by omega)
    rw [if_neg (by simp), h1]
    exact ⟨_, rfl, h2⟩

/-! ## The array -/

/-- The parts of a row. -/
def rowSplits (sep : Option (List Nat)) : Option View → Option (List (List Nat))
  | none => some []
  | some v => newSplits sep v

theorem splitRows_spec (sep : Option (List Nat)) : ∀ (rows : List (Option View)) (last : Nat) (pts : List Nat) (out : List (List Nat)),
    splitRows sep last rows = some (pts, out) → ∃ pss, rows.mapM (rowSplits sep) = some pss ∧ out = pss.flatten ∧ pts.length = rows.length ∧
      ∀ i, i < rows.length → pts[i]? = some (last + ((pss.take (i + 1)).map List.length).sum) := by
  intro rows
  induction rows with
  | nil =>
    intro last pts out h
    cases h
    exact ⟨[], rfl, rfl, rfl, by intro i hi; simp at hi⟩
  | cons r rows ih =>
    intro last pts out h
    have hstep : ∃ parts, rowSplits sep r = some parts ∧ (splitRows sep (last + parts.length) rows).map (fun r => ((last + parts.length) :: r.1, parts ++ r.2)) = some (pts, out) := by
      cases r with
      | none => exact ⟨[], rfl, by simpa [splitRows] using h⟩
      | some v =>
        rw [splitRows] at h
        unfold rowSplits
        cases hn : newSplits sep v with
        | none => rw [hn] at h; cases h
        | some parts => rw [hn] at h; exact ⟨parts, hn, h⟩
    obtain ⟨parts, h1, h2⟩ := hstep
    cases h3 : splitRows sep (last + parts.length) rows with
    | none => rw [h3] at h2; cases h2
    | some q =>
      obtain ⟨qp, qo⟩ := q
      rw [h3] at h2
      simp only [Option.map_some, Option.some.injEq, Prod.mk.injEq] at h2
      obtain ⟨rfl, rfl⟩ := h2
      obtain ⟨pss, g1, g2, g3, g4⟩ := ih _ _ _ h3
      refine ⟨parts :: pss, ?_, ?_, ?_, ?_⟩
      · rw [List.mapM_cons, h1, g1]; rfl
      · rw [g2]; rfl
      · simp [g3]
      · intro i hi
        cases i with
        | zero => simp
        | succ i =>
          rw [List.getElem?_cons_succ, g4 i (by simp at hi; omega)]
          simp only [List.take_succ_cons, List.map_cons, List.sum_cons]
          congr 1
          omega

theorem newSplits_some (sep : Option (List Nat)) (v : View) (hv : v.null = true → v.bytes = []) : ∃ ps, newSplits sep v = some ps := by
  cases sep with
  | none => obtain ⟨ps, h, _⟩ := split_words v hv; exact ⟨ps, h⟩
  | some s =>
    cases h : v.null with
    | true => exact ⟨[], by unfold newSplits strSplit; dsimp only; rw [h]; rfl⟩
    | false =>
      by_cases hs : s = []
      · subst hs; exact ⟨_, split_empty_separator v h⟩
      · obtain ⟨ps, h, _⟩ := split_separator v h s hs; exact ⟨ps, h⟩

theorem splitRows_some (sep : Option (List Nat)) : ∀ (rows : List (Option View)) (last : Nat),
    (∀ v, some v ∈ rows → v.null = true → v.bytes = []) → ∃ r, splitRows sep last rows = some r := by
  intro rows
  induction rows with
  | nil => intro last _; exact ⟨_, rfl⟩
  | cons r rows ih =>
    intro last h
    cases r with
    | none =>
      obtain ⟨q, hq⟩ := ih last (fun v hv => h v (by simp [hv]))
      exact ⟨_, by rw [splitRows, hq]; rfl⟩
    | some v =>
      obtain ⟨ps, hps⟩ := newSplits_some sep v (h v (by simp))
      obtain ⟨q, hq⟩ := ih (last + ps.length) (fun v hv => h v (by simp [hv]))
      exact ⟨_, by rw [splitRows, hps]; dsimp only; rw [hq]; rfl⟩

/-- The edge maps the parts to their strings: the split points are the running numbers of parts, the `i`-th group of the result are the
parts of the `i`-th string, and a missing string has none. -/
theorem split_edge (sep : Option (List Nat)) (rows : List (Option View)) (hv : ∀ v, some v ∈ rows → v.null = true → v.bytes = []) :
    ∃ pts out pss, splitOp sep rows = some (pts, out) ∧ rows.mapM (rowSplits sep) = some pss ∧ pss.length = rows.length ∧
      out = pss.flatten ∧ pts.length = rows.length + 1 ∧
      ∀ i, i ≤ rows.length → pts[i]? = some ((pss.take i).map List.length).sum := by
  obtain ⟨⟨q, o⟩, hr⟩ := splitRows_some sep rows 0 hv
  obtain ⟨pss, h1, h2, h3, h4⟩ := splitRows_spec sep rows 0 q o hr
  refine ⟨0 :: q, o, pss, by unfold splitOp; rw [hr]; rfl, h1, ?_, h2, by simp [h3], ?_⟩
  · have : ∀ (l : List (Option View)) (m : List (List (List Nat))), l.mapM (rowSplits sep) = some m → m.length = l.length := by
      intro l
      induction l with
      | nil => intro m hm; cases hm; rfl
      | cons x l ih =>
        intro m hm
        rw [List.mapM_cons] at hm
        cases hx : rowSplits sep x with
        | none => rw [hx] at hm; cases hm
        | some y =>
          rw [hx] at hm
          cases hl : l.mapM (rowSplits sep) with
          | none => rw [hl] at hm; cases hm
          | some z =>
            rw [hl] at hm
            cases hm
            simp [ih z hl]
    exact this rows pss h1
  · intro i hi
    cases i with
    | zero => simp
    | succ i =>
      rw [List.getElem?_cons_succ, h4 i (by omega)]
      simp

/-! ## Texts -/

/-- Splitting a text by a non-empty text splits its code points. -/
theorem splitBy_encs {sep : List Nat} (hsep : IsText sep) (hne : sep ≠ []) {x : List Nat} {ps : List (List Nat)} (h : SplitBy (encs sep) x ps) :
    ∀ s, IsText s → x = encs s → ∃ qs, ps = qs.map encs ∧ SplitBy sep s qs := by
  induction h with
  | last x hno =>
    intro s hs hx
    refine ⟨[s], by rw [hx]; rfl, SplitBy.last _ ?_⟩
    intro i hi
    subst hx
    exact hno _ ((occursAt_encs hsep hs hne _).2 ⟨i, hi, rfl⟩)
  | more a b ps hfirst _ ih =>
    intro s hs hx
    obtain ⟨s1, s2, rfl, rfl, rfl⟩ := encs_infix hsep hs hne hx.symm
    have hs' := IsText.append.1 hs
    obtain ⟨qs, rfl, hq⟩ := ih s2 hs'.2 rfl
    refine ⟨s1 :: qs, rfl, SplitBy.more _ _ _ ?_ hq⟩
    intro i hi hocc
    rw [hx] at hfirst
    refine hfirst _ ?_ ((occursAt_encs hsep hs hne _).2 ⟨i, hocc, rfl⟩)
    have h1 : off (s1 ++ sep ++ s2) i < off (s1 ++ sep ++ s2) s1.length :=
      off_mono hi (by simp only [List.length_append]; omega)
    have h2 : off (s1 ++ sep ++ s2) s1.length = (encs s1).length := by
      unfold off; rw [List.append_assoc, List.take_left]
    unfold off at h1 h2
    omega

theorem split_text (s sep : List Nat) (hs : IsText s) (hsep : IsText sep) (hne : sep ≠ []) :
    ∃ qs, newSplits (some (encs sep)) ⟨encs s, false⟩ = some (qs.map encs) ∧ SplitBy sep s qs := by
  obtain ⟨ps, h1, h2⟩ := split_separator ⟨encs s, false⟩ rfl (encs sep) (fun e => hne (encs_eq_nil.1 e))
  obtain ⟨qs, rfl, h3⟩ := splitBy_encs hsep hne h2 s hs rfl
  exact ⟨qs, h1, h3⟩

/-- An empty separator does not split a text into texts: the two bytes of `é` are separated. -/
theorem split_text_counterexample : newSplits (some []) ⟨encs [233], false⟩ = some [[0xC3], [0xA9]] ∧ ¬ ∃ u, IsText u ∧ encs u = [0xC3] := by
  refine ⟨by decide +kernel, ?_⟩
  rintro ⟨u, hu, he⟩
  cases u with
  | nil => cases he
  | cons c u =>
    have hc := hu.head
    have h1 := u8Next_enc hc (encs u)
    rw [← encs_cons, he] at h1
    have h2 : u8Next [0xC3] = (none, 1) := rfl
    rw [h2] at h1
    cases h1

/-- An empty string has one empty part, unless its string view has a null pointer. -/
theorem split_null_counterexample : newSplits (some [44]) ⟨[], false⟩ = some [[]] ∧ newSplits (some [44]) ⟨[], true⟩ = some [] := by
  decide +kernel

/-! ## Joining -/

theorem strJoin_spec (sep : List Nat) : ∀ ps, Joined sep ps (strJoin sep ps) := by
  intro ps
  induction ps with
  | nil => exact Joined.none
  | cons p ps ih =>
    cases ps with
    | nil => exact Joined.one p
    | cons q ps => exact Joined.more p q ps _ ih

/-- Joining: missing if a part is missing. -/
theorem join_spec (sep : List Nat) (parts : List (Option (List Nat))) :
    (∀ ps, parts = ps.map some → ∃ r, joinOp sep parts = some r ∧ Joined sep ps r) ∧ (none ∈ parts → joinOp sep parts = none) := by
  unfold joinOp
  constructor
  · rintro ps rfl
    rw [if_pos (by simp)]
    refine ⟨_, rfl, ?_⟩
    have : (ps.map some).map (fun o : Option (List Nat) => o.getD []) = ps := by
      rw [List.map_map]; simp [Function.comp_def]
    rw [this]
    exact strJoin_spec sep ps
  · intro h
    rw [if_neg]
    intro hall
    have := List.all_eq_true.1 hall none h
    cases this

theorem splitBy_ne {α : Type} {sep s : List α} {ps : List (List α)} (h : SplitBy sep s ps) : ps ≠ [] := by
  cases h <;> simp

/-- Joining the parts of a string gives the string. -/
theorem join_split (v : View) (hv : v.null = false) (sep : List Nat) (hne : sep ≠ []) :
    ∃ ps, newSplits (some sep) v = some ps ∧ joinOp sep (ps.map some) = some v.bytes := by
  obtain ⟨ps, h1, h2⟩ := split_separator v hv sep hne
  refine ⟨ps, h1, ?_⟩
  clear h1
  generalize v.bytes = s at h2
  unfold joinOp
  rw [if_pos (by simp)]
  have hm : (ps.map some).map (fun o : Option (List Nat) => o.getD []) = ps := by
    rw [List.map_map]; simp [Function.comp_def]
  rw [hm]
  congr 1
  induction h2 with
  | last s _ => rfl
  | more a b ps _ hb ih =>
    have ih' := ih (by rw [List.map_map]; simp [Function.comp_def])
    cases ps with
    | nil => exact absurd rfl (splitBy_ne hb)
    | cons q ps => rw [strJoin, ih']; simp

/-- Splitting the joined parts gives the parts back, if the separator is one byte that does not stand in them. -/
theorem split_join (c : Nat) (p : List Nat) (ps : List (List Nat)) (h : ∀ q ∈ p :: ps, c ∉ q) :
    ∃ r, joinOp [c] ((p :: ps).map some) = some r ∧ newSplits (some [c]) ⟨r, false⟩ = some (p :: ps) := by
  obtain ⟨r, h1, h2⟩ := (join_spec [c] ((p :: ps).map some)).1 (p :: ps) rfl
  refine ⟨r, h1, ?_⟩
  obtain ⟨qs, h3, h4⟩ := split_separator ⟨r, false⟩ rfl [c] (by simp)
  rw [h3]
  congr 1
  clear h1 h3
  dsimp only at h4
  have hno : ∀ q : List Nat, c ∉ q → ∀ i, ¬ OccursAt [c] q i := by
    rintro q hq i ⟨a, b, rfl, _⟩
    exact hq (by simp)
  induction ps generalizing p r qs with
  | nil =>
    cases h2
    cases h4 with
    | last => rfl
    | more a b => exact absurd (show c ∈ a ++ [c] ++ b by simp) (h _ (by simp))
  | cons q ps ih =>
    cases h2 with
    | more _ _ _ s hs =>
      have hp := h p (by simp)
      generalize hg : p ++ [c] ++ s = g at h4
      cases h4 with
      | last _ hn => exact absurd ⟨p, s, hg.symm, rfl⟩ (hn p.length)
      | more a b us hfirst hb =>
        have e1 : ¬ p.length < a.length := fun hl => hfirst _ hl ⟨p, s, hg.symm, rfl⟩
        have e2 : ¬ a.length < p.length := by
          intro hl
          have hx := congrArg (fun l => l[a.length]?) hg
          simp only [List.append_assoc] at hx
          rw [List.getElem?_append_left hl, List.getElem?_append_right (Nat.le_refl _), Nat.sub_self] at hx
          simp only [List.singleton_append, List.getElem?_cons_zero] at hx
          exact hp (List.mem_of_getElem? hx)
        rw [List.append_assoc, List.append_assoc] at hg
        obtain ⟨rfl, hg2⟩ := List.append_inj hg (by omega)
        have hg3 := List.append_cancel_left hg2
        subst hg3
        rw [ih q (fun x hx => h x (by simp [List.mem_cons.1 hx])) s hs us hb]

example : newSplits (some [44]) ⟨[97, 44, 44, 98], false⟩ = some [[97], [], [98]] := by decide +kernel
example : newSplits none ⟨[32, 97, 98, 9, 10, 99], false⟩ = some [[97, 98], [99]] := by decide +kernel
example : splitOp (some [44]) [some ⟨[97, 44, 98], false⟩, none, some ⟨[99], false⟩] = some ([0, 2, 2, 3], [[97], [98], [99]]) := by decide +kernel

end Verif.Text
