import Verif.Sig.BindLemmas

/-!
# C38: argument binding
-/

namespace Verif.Sig

variable {V E : Type}

/-- The keywords that name no parameter left after `n` positional arguments. -/
def badKeywords (s : Signature V) (n : Nat) (kw : List (List Nat × E)) : List (List Nat) :=
  (kw.map (·.1)).filter (fun k => k ∉ (s.positionals.drop n).map Param.name)

/-- The names of the parameters without value. -/
def missingNames (lit : V → E) (s : Signature V) (n : Nat) (kw : List (List Nat × E)) : List (List Nat) :=
  ((s.positionals.drop n).filter (fun p => (fallback lit kw p).isNone)).map Param.name

open Classical in
theorem bind_eq (lit : V → E) {s : Signature V} (hv : Valid s) (args : List E) {kw : List (List Nat × E)}
    (hk : (kw.map (·.1)).Nodup) : bindArguments lit s args kw =
      match (s.positionals.take args.length).find? (fun p => (find kw p.name).isSome) with
      | some p => .error (.multiple p.name)
      | none =>
        if s.positionals.length < args.length ∧ ¬ s.takesMore then .error (.tooMany s.positionals.length args.length)
        else if badKeywords s args.length kw ≠ [] then .error (unexpectedError (badKeywords s args.length kw))
        else if missingNames lit s args.length kw ≠ [] then .error (.missing (missingNames lit s args.length kw))
        else .ok (args ++ (s.positionals.drop args.length).filterMap (fallback lit kw)) := by
  obtain ⟨va, h1, h2, h3, h4⟩ := split_params hv
  unfold bindArguments
  rw [h1, bindPositional_eq h2 h3]
  cases hf : (s.positionals.take args.length).find? (fun p => (find kw p.name).isSome) with
  | some p => rfl
  | none =>
    have hbad : ∀ {used : List (List Nat)},
        (∀ k, k ∈ used ↔ k ∈ ([] : List (List Nat)) ∨ ∃ p ∈ s.positionals.drop args.length, p.name = k ∧ (find kw k).isSome) →
        (kw.map (·.1)).filter (fun k => k ∉ used) = badKeywords s args.length kw := by
      intro used hu
      unfold badKeywords
      apply List.filter_congr
      intro k hkk
      have hg : (find kw k).isSome := by
        rw [find_isSome hk]
        obtain ⟨⟨a, b⟩, hab, rfl⟩ := List.mem_map.1 hkk
        exact ⟨b, hab⟩
      simp only [decide_eq_decide, not_iff_not, hu, hg, and_true, List.not_mem_nil, false_or, List.mem_map]
    have fin : ∀ {va' : List (Param V)}, (va' = [] ∨ ∃ v, va' = [v] ∧ v.kind = .variadic) →
        (do
          if (([] : List E) ≠ []) then throw (Err.tooMany args.length args.length)
          let (res, miss, used) ← bindKeyword lit kw (s.positionals.drop args.length ++ va') args [] []
          let bad := (kw.map (·.1)).filter (fun k => k ∉ used)
          if bad ≠ [] then throw (unexpectedError bad)
          if miss ≠ [] then throw (.missing miss)
          return res : Except Err (List E)) =
        if badKeywords s args.length kw ≠ [] then .error (unexpectedError (badKeywords s args.length kw))
        else if missingNames lit s args.length kw ≠ [] then .error (.missing (missingNames lit s args.length kw))
        else .ok (args ++ (s.positionals.drop args.length).filterMap (fallback lit kw)) := by
      intro va' hva'
      obtain ⟨u, e1, e2⟩ := bindKeyword_eq (lit := lit) (kw := kw) hva' (pos := s.positionals.drop args.length) (res := args)
        (miss := []) (used := []) (fun p hp => h2 p (List.mem_of_mem_drop hp))
      rw [e1]
      simp only [ne_eq, not_true, if_false, bind, Except.bind, pure, Except.pure, hbad e2, List.nil_append]
      by_cases hb : badKeywords s args.length kw = []
      · by_cases hm : missingNames lit s args.length kw = []
        · have hm' := hm
          unfold missingNames at hm'
          simp [hb, hm, hm']
        · have hm' := hm
          unfold missingNames at hm'
          simp only [hb, not_true, if_false]
          rw [if_pos hm, if_pos hm']
          rfl
      · rw [if_pos hb, if_pos hb]
        rfl
    dsimp only
    by_cases hl : args.length ≤ s.positionals.length
    · rw [if_pos hl, if_neg (by omega)]
      exact fin h3
    · rw [if_neg hl]
      by_cases hva : va = []
      · rw [if_pos hva, if_pos ⟨by omega, by rw [h4]; simpa using hva⟩]
        have hd : args.drop s.positionals.length ≠ [] := by
          intro h
          have := congrArg List.length h
          simp at this; omega
        have hlen : (args.take s.positionals.length).length = s.positionals.length := by simp; omega
        simp only [List.nil_append, bind, Except.bind, ne_eq, hd, not_false_eq_true, if_true]
        rw [hlen]
        rfl
      · rw [if_neg hva, if_neg (by rw [h4]; simp [hva])]
        have := fin (va' := []) (Or.inl rfl)
        rw [List.append_nil, List.drop_eq_nil_of_le (by omega)] at this
        rw [List.drop_eq_nil_of_le (by omega)]
        exact this

/-- `ValidateSignature` accepts exactly the well-formed signatures. -/
theorem validate_iff (s : Signature V) : validate s = .ok () ↔ Valid s := validate_iff'

theorem no_dup_iff {s : Signature V} {args : List E} {kw : List (List Nat × E)} (hk : (kw.map (·.1)).Nodup) :
    (s.positionals.take args.length).find? (fun p => (find kw p.name).isSome) = none ↔
      ∀ (i : Nat) (p : Param V), s.positionals[i]? = some p → i < args.length → ¬ Given kw p.name := by
  rw [List.find?_eq_none]
  constructor
  · intro h i p hp hi
    rw [← find_isSome hk]
    refine h p ?_
    rw [List.mem_iff_getElem?]
    exact ⟨i, by rw [List.getElem?_take_of_lt hi, hp]⟩
  · intro h p hp
    obtain ⟨i, hi⟩ := List.mem_iff_getElem?.1 hp
    rw [find_isSome hk]
    rw [List.getElem?_take] at hi
    split at hi
    · exact h i p hi (by assumption)
    · cases hi

theorem names_inj {s : Signature V} (hv : Valid s) {i j : Nat} {p q : Param V} (hp : s.positionals[i]? = some p)
    (hq : s.positionals[j]? = some q) (h : p.name = q.name) : i = j := by
  have hn : (s.positionals.map Param.name).Nodup := by
    refine List.Nodup.sublist ?_ hv.unique
    exact List.Sublist.map _ List.filter_sublist
  rw [List.nodup_iff_getElem?_ne_getElem?] at hn
  have hi := (List.getElem?_eq_some_iff.1 hp).1
  have hj := (List.getElem?_eq_some_iff.1 hq).1
  rcases Nat.lt_trichotomy i j with hij | hij | hij
  · exact absurd (by simp [hp, hq, h]) (hn i j hij (by simpa using hj))
  · exact hij
  · exact absurd (by simp [hp, hq, h]) (hn j i hij (by simpa using hi))

theorem bad_nil {s : Signature V} {args : List E} {kw : List (List Nat × E)}
    (hd : ∀ (i : Nat) (p : Param V), s.positionals[i]? = some p → i < args.length → ¬ Given kw p.name) (k : List Nat) :
    k ∈ badKeywords s args.length kw ↔ Given kw k ∧ ¬ ∃ p ∈ s.positionals, p.name = k := by
  unfold badKeywords
  simp only [List.mem_filter, List.mem_map, decide_eq_true_eq]
  have hg : (∃ a, a ∈ kw ∧ a.1 = k) ↔ Given kw k := by
    constructor
    · rintro ⟨⟨a, b⟩, h, rfl⟩; exact ⟨b, h⟩
    · rintro ⟨b, h⟩; exact ⟨_, h, rfl⟩
  rw [hg]
  constructor
  · rintro ⟨h1, h2⟩
    refine ⟨h1, ?_⟩
    rintro ⟨p, hp, rfl⟩
    obtain ⟨i, hi⟩ := List.mem_iff_getElem?.1 hp
    by_cases hl : i < args.length
    · exact hd i p hi hl h1
    · refine h2 ⟨p, List.mem_iff_getElem?.2 ⟨i - args.length, ?_⟩, rfl⟩
      rw [List.getElem?_drop, show args.length + (i - args.length) = i from by omega, hi]
  · rintro ⟨h1, h2⟩
    refine ⟨h1, ?_⟩
    rintro ⟨p, hp, h⟩
    exact h2 ⟨p, List.mem_of_mem_drop hp, h⟩

theorem fallback_none {lit : V → E} {kw : List (List Nat × E)} (hk : (kw.map (·.1)).Nodup) {p : Param V} :
    (fallback lit kw p).isNone = true ↔ ¬ Given kw p.name ∧ p.dflt = none := by
  unfold fallback
  cases h : find kw p.name with
  | some e =>
    have := (find_isSome hk).1 (by rw [h]; rfl : (find kw p.name).isSome = true)
    simp [this]
  | none =>
    have := (find_none hk).1 h
    simp [this]

theorem missing_mem {lit : V → E} {s : Signature V} {n : Nat} {kw : List (List Nat × E)} (hk : (kw.map (·.1)).Nodup)
    (k : List Nat) : k ∈ missingNames lit s n kw ↔
      ∃ (i : Nat) (p : Param V), s.positionals[i]? = some p ∧ n ≤ i ∧ ¬ Given kw p.name ∧ p.dflt = none ∧ p.name = k := by
  unfold missingNames
  simp only [List.mem_map, List.mem_filter, fallback_none hk]
  constructor
  · rintro ⟨p, ⟨h1, h2, h3⟩, rfl⟩
    obtain ⟨i, hi⟩ := List.mem_iff_getElem?.1 h1
    rw [List.getElem?_drop] at hi
    exact ⟨n + i, p, hi, by omega, h2, h3, rfl⟩
  · rintro ⟨i, p, h1, h2, h3, h4, rfl⟩
    refine ⟨p, ⟨List.mem_iff_getElem?.2 ⟨i - n, ?_⟩, h3, h4⟩, rfl⟩
    rw [List.getElem?_drop, show n + (i - n) = i from by omega, h1]

theorem filterMap_get {α β : Type} {f : α → Option β} : ∀ {l : List α}, (∀ a ∈ l, (f a).isSome) → ∀ i : Nat,
    (l.filterMap f)[i]? = l[i]?.bind f := by
  intro l
  induction l with
  | nil => simp
  | cons a l ih =>
    intro h i
    obtain ⟨b, hb⟩ := Option.isSome_iff_exists.1 (h a (by simp))
    rw [List.filterMap_cons, hb]
    cases i with
    | zero => simp [hb]
    | succ i => simpa using ih (fun x hx => h x (by simp [hx])) i

/-- `BindArguments` succeeds exactly on the acceptable calls; the result has the argument of each positional parameter
at the position of the parameter, followed by the arguments of the variadic parameter. -/
theorem bind_ok_iff (lit : V → E) {s : Signature V} (hv : Valid s) (args : List E) {kw : List (List Nat × E)}
    (hk : (kw.map (·.1)).Nodup) (r : List E) :
    bindArguments lit s args kw = .ok r ↔
      Accepts s args kw ∧ s.positionals.length ≤ r.length ∧
      (∀ (i : Nat) (p : Param V), s.positionals[i]? = some p → ∃ e, r[i]? = some e ∧ IsArg lit args kw i p e) ∧
      r.drop s.positionals.length = args.drop s.positionals.length := by
  rw [bind_eq lit hv args hk]
  have acc : Accepts s args kw ↔
      (s.positionals.take args.length).find? (fun p => (find kw p.name).isSome) = none ∧
      ¬ (s.positionals.length < args.length ∧ ¬ s.takesMore) ∧ badKeywords s args.length kw = [] ∧
      missingNames lit s args.length kw = [] := by
    rw [no_dup_iff hk]
    constructor
    · rintro ⟨h1, h2, h3, h4⟩
      refine ⟨h1, ?_, ?_, ?_⟩
      · rintro ⟨h, h'⟩
        rcases h2 with h2 | h2
        · omega
        · exact h' h2
      · rw [List.eq_nil_iff_forall_not_mem]
        intro k hkk
        rw [bad_nil h1] at hkk
        exact hkk.2 (h4 k hkk.1)
      · rw [List.eq_nil_iff_forall_not_mem]
        intro k hkk
        rw [missing_mem hk] at hkk
        obtain ⟨i, p, a, b, c, d, _⟩ := hkk
        rcases h3 i p a b with h | h
        · exact c h
        · rw [d] at h; cases h
    · rintro ⟨h1, h2, h3, h4⟩
      refine ⟨h1, ?_, ?_, ?_⟩
      · by_cases h : args.length ≤ s.positionals.length
        · exact Or.inl h
        · exact Or.inr (Classical.byContradiction fun h' => h2 ⟨by omega, h'⟩)
      · intro i p hp hi
        apply Classical.byContradiction
        intro hn
        rw [not_or] at hn
        have : p.name ∈ missingNames lit s args.length kw :=
          (missing_mem hk _).2 ⟨i, p, hp, hi, hn.1, by simpa using hn.2, rfl⟩
        rw [h4] at this
        cases this
      · intro k hg
        apply Classical.byContradiction
        intro hn
        have := (bad_nil h1 k).2 ⟨hg, hn⟩
        rw [h3] at this
        cases this
  have res : Accepts s args kw → ∀ r, (r = args ++ (s.positionals.drop args.length).filterMap (fallback lit kw) ↔
      s.positionals.length ≤ r.length ∧
      (∀ (i : Nat) (p : Param V), s.positionals[i]? = some p → ∃ e, r[i]? = some e ∧ IsArg lit args kw i p e) ∧
      r.drop s.positionals.length = args.drop s.positionals.length) := by
    intro ha
    have hall : ∀ p ∈ s.positionals.drop args.length, (fallback lit kw p).isSome := by
      intro p hp
      obtain ⟨i, hi⟩ := List.mem_iff_getElem?.1 hp
      rw [List.getElem?_drop] at hi
      apply Classical.byContradiction
      intro hn
      rw [Option.not_isSome_iff_eq_none, ← Option.isNone_iff_eq_none, fallback_none hk] at hn
      rcases ha.filled _ p hi (by omega) with h | h
      · exact hn.1 h
      · rw [hn.2] at h; cases h
    have hget := filterMap_get hall
    have hlen : ((s.positionals.drop args.length).filterMap (fallback lit kw)).length =
        s.positionals.length - args.length := by
      have : ∀ l : List (Param V), (∀ p ∈ l, (fallback lit kw p).isSome) → (l.filterMap (fallback lit kw)).length = l.length := by
        intro l
        induction l with
        | nil => simp
        | cons a l ih =>
          intro h
          obtain ⟨b, hb⟩ := Option.isSome_iff_exists.1 (h a (by simp))
          rw [List.filterMap_cons, hb]
          simpa using ih (fun x hx => h x (by simp [hx]))
      rw [this _ hall, List.length_drop]
    have props : s.positionals.length ≤ (args ++ (s.positionals.drop args.length).filterMap (fallback lit kw)).length ∧
        (∀ (i : Nat) (p : Param V), s.positionals[i]? = some p → ∃ e,
          (args ++ (s.positionals.drop args.length).filterMap (fallback lit kw))[i]? = some e ∧ IsArg lit args kw i p e) ∧
        (args ++ (s.positionals.drop args.length).filterMap (fallback lit kw)).drop s.positionals.length =
          args.drop s.positionals.length := by
      refine ⟨by rw [List.length_append, hlen]; omega, ?_, ?_⟩
      · intro i p hp
        rw [List.getElem?_append]
        by_cases hi : i < args.length
        · rw [if_pos hi]
          exact ⟨args[i], List.getElem?_eq_getElem hi, Or.inl (List.getElem?_eq_getElem hi)⟩
        · rw [if_neg hi, hget, List.getElem?_drop, show args.length + (i - args.length) = i from by omega, hp]
          simp only [Option.bind_some]
          unfold fallback
          cases hf : find kw p.name with
          | some e => exact ⟨e, rfl, Or.inr (Or.inl ⟨by omega, (find_some hk).1 hf⟩)⟩
          | none =>
            have hng := (find_none hk).1 hf
            rcases ha.filled i p hp (by omega) with h | h
            · exact absurd h hng
            · obtain ⟨v, hv'⟩ := Option.isSome_iff_exists.1 h
              exact ⟨lit v, by simp [hv'], Or.inr (Or.inr ⟨by omega, hng, v, hv', rfl⟩)⟩
      · rw [List.drop_append]
        by_cases hl : args.length ≤ s.positionals.length
        · rw [List.drop_eq_nil_of_le hl, List.nil_append, List.drop_eq_nil_of_le]
          rw [hlen]; omega
        · rw [List.drop_eq_nil_of_le (as := s.positionals) (i := args.length) (by omega)]
          simp
    intro r
    constructor
    · rintro rfl; exact props
    · rintro ⟨h1, h2, h3⟩
      apply List.ext_getElem?
      intro i
      by_cases hi : i < s.positionals.length
      · have hp : s.positionals[i]? = some s.positionals[i] := List.getElem?_eq_getElem hi
        obtain ⟨e, he, hie⟩ := h2 i _ hp
        obtain ⟨e', he', hie'⟩ := props.2.1 i _ hp
        rw [he, he']
        congr 1
        have hkey : ∀ {n : List Nat} {a b : E}, (n, a) ∈ kw → (n, b) ∈ kw → a = b := by
          intro n a b h h'
          have := (find_some hk).2 h
          rw [(find_some hk).2 h'] at this
          exact (Option.some.inj this).symm
        rcases hie with h | ⟨h, h'⟩ | ⟨h, h', v, hv1, hv2⟩ <;> rcases hie' with g | ⟨g, g'⟩ | ⟨g, g', w, hw1, hw2⟩
        · rw [h] at g; exact Option.some.inj g
        · have := (List.getElem?_eq_some_iff.1 h).1; omega
        · have := (List.getElem?_eq_some_iff.1 h).1; omega
        · have := (List.getElem?_eq_some_iff.1 g).1; omega
        · exact hkey h' g'
        · exact absurd ⟨_, h'⟩ g'
        · have := (List.getElem?_eq_some_iff.1 g).1; omega
        · exact absurd ⟨_, g'⟩ h'
        · rw [hv1] at hw1; cases hw1; rw [hv2, hw2]
      · have : ∀ l : List E, l[i]? = (l.drop s.positionals.length)[i - s.positionals.length]? := by
          intro l
          rw [List.getElem?_drop, show s.positionals.length + (i - s.positionals.length) = i from by omega]
        rw [this, this, h3, props.2.2]
  constructor
  · intro h
    have ha : Accepts s args kw ∧ r = args ++ (s.positionals.drop args.length).filterMap (fallback lit kw) := by
      rw [acc]
      cases hf : (s.positionals.take args.length).find? (fun p => (find kw p.name).isSome) with
      | some p => rw [hf] at h; cases h
      | none =>
        rw [hf] at h
        dsimp only at h
        split at h
        · cases h
        · rename_i h1
          split at h
          · cases h
          · rename_i h2
            split at h
            · cases h
            · rename_i h3
              cases h
              exact ⟨⟨rfl, h1, not_not.1 h2, not_not.1 h3⟩, rfl⟩
    exact ⟨ha.1, (res ha.1 r).1 ha.2⟩
  · rintro ⟨ha, hr⟩
    have hr' := (res ha r).2 hr
    obtain ⟨h1, h2, h3, h4⟩ := acc.1 ha
    rw [h1]
    dsimp only
    rw [if_neg h2, if_neg (by simp [h3]), if_neg (by simp [h4]), hr']

/-- What the error of a rejected call says: which argument is given twice, how many positional arguments are allowed,
the sorted list of all unknown keywords, or the list of all parameters without argument. -/
theorem bind_error (lit : V → E) {s : Signature V} (hv : Valid s) (args : List E) {kw : List (List Nat × E)}
    (hk : (kw.map (·.1)).Nodup) (e : Err) (h : bindArguments lit s args kw = .error e) :
    (∃ i p, s.positionals[i]? = some p ∧ i < args.length ∧ Given kw p.name ∧ e = .multiple p.name) ∨
    (s.positionals.length < args.length ∧ ¬ s.takesMore ∧ e = .tooMany s.positionals.length args.length) ∨
    (∃ ns, e = .unexpected ns ∧ ns ≠ [] ∧ ns.Pairwise (· ≤ ·) ∧ ns.Nodup ∧
      ∀ k, k ∈ ns ↔ Given kw k ∧ ¬ ∃ p ∈ s.positionals, p.name = k) ∨
    (∃ ns, e = .missing ns ∧ ns ≠ [] ∧ ns.Sublist (s.positionals.map Param.name) ∧
      ∀ k, k ∈ ns ↔ ∃ (i : Nat) (p : Param V), s.positionals[i]? = some p ∧ args.length ≤ i ∧ ¬ Given kw p.name ∧ p.dflt = none ∧
        p.name = k) := by
  rw [bind_eq lit hv args hk] at h
  cases hf : (s.positionals.take args.length).find? (fun p => (find kw p.name).isSome) with
  | some p =>
    rw [hf] at h
    left
    have hg := List.find?_some hf
    rw [find_isSome hk] at hg
    obtain ⟨i, hi⟩ := List.mem_iff_getElem?.1 (List.mem_of_find?_eq_some hf)
    rw [List.getElem?_take] at hi
    split at hi
    · exact ⟨i, p, hi, by assumption, hg, by cases h; rfl⟩
    · cases hi
  | none =>
    rw [hf] at h
    have hd := (no_dup_iff hk).1 hf
    dsimp only at h
    right
    split at h
    · rename_i h1
      left
      exact ⟨h1.1, h1.2, by cases h; rfl⟩
    · right
      split at h
      · rename_i hne
        left
        have hnd : (badKeywords s args.length kw).Nodup := List.Nodup.sublist List.filter_sublist hk
        cases h
        unfold unexpectedError
        split
        · rename_i h1
          refine ⟨_, rfl, hne, ?_, hnd, bad_nil hd⟩
          obtain ⟨a, ha⟩ := List.length_eq_one_iff.1 h1
          rw [ha]; simp
        · have hp := List.mergeSort_perm (badKeywords s args.length kw) (fun a b => decide (a ≤ b))
          refine ⟨_, rfl, ?_, ?_, hp.nodup_iff.2 hnd, fun k => ?_⟩
          · intro h0
            rw [h0] at hp
            exact hne hp.symm.eq_nil
          · have := List.pairwise_mergeSort (le := fun a b : List Nat => decide (a ≤ b))
              (by intro a b c; simpa using List.le_trans) (by intro a b; simpa using List.le_total a b)
              (badKeywords s args.length kw)
            simpa using this
          · rw [hp.mem_iff]; exact bad_nil hd k
      · right
        split at h
        · rename_i hne
          cases h
          refine ⟨_, rfl, hne, ?_, fun k => missing_mem hk k⟩
          exact List.Sublist.map _ (List.filter_sublist.trans (List.drop_sublist _ _))
        · cases h

/-- The outcome, including the error message, does not depend on the iteration order of the hash map of keyword
arguments. -/
theorem bind_order (lit : V → E) {s : Signature V} (hv : Valid s) (args : List E) {kw kw' : List (List Nat × E)}
    (hk : (kw.map (·.1)).Nodup) (hp : kw.Perm kw') : bindArguments lit s args kw = bindArguments lit s args kw' := by
  have hk' : (kw'.map (·.1)).Nodup := (hp.map _).nodup_iff.1 hk
  have hfind : find kw = find kw' := by
    funext n
    cases h : find kw n with
    | some e => exact ((find_some hk').2 (hp.mem_iff.1 ((find_some hk).1 h))).symm
    | none =>
      cases h' : find kw' n with
      | none => rfl
      | some e => rw [(find_some hk).2 (hp.mem_iff.2 ((find_some hk').1 h'))] at h; cases h
  have hb : (badKeywords s args.length kw).Perm (badKeywords s args.length kw') := (hp.map _).filter _
  have hm : missingNames lit s args.length kw = missingNames lit s args.length kw' := by
    unfold missingNames fallback; rw [hfind]
  have hu : unexpectedError (badKeywords s args.length kw) = unexpectedError (badKeywords s args.length kw') := by
    unfold unexpectedError
    rw [hb.length_eq]
    split
    · rename_i h1
      obtain ⟨a, ha⟩ := List.length_eq_one_iff.1 h1
      rw [ha] at hb ⊢
      rw [List.perm_singleton.1 hb]
    · congr 1
      have p1 := List.mergeSort_perm (badKeywords s args.length kw) (fun a b => decide (a ≤ b))
      have p2 := List.mergeSort_perm (badKeywords s args.length kw') (fun a b => decide (a ≤ b))
      have s1 := List.pairwise_mergeSort (le := fun a b : List Nat => decide (a ≤ b))
        (by intro a b c; simpa using List.le_trans) (by intro a b; simpa using List.le_total a b)
      refine List.Perm.eq_of_pairwise ?_ (s1 _) (s1 _) (p1.trans (hb.trans p2.symm))
      intro a b _ _ h1 h2
      exact List.le_antisymm (by simpa using h1) (by simpa using h2)
  rw [bind_eq lit hv args hk, bind_eq lit hv args hk', hu, hm, hfind]
  have : fallback lit kw = fallback lit kw' := by funext p; unfold fallback; rw [hfind]
  rw [this]
  have he : badKeywords s args.length kw ≠ [] ↔ badKeywords s args.length kw' ≠ [] := by
    rw [ne_eq, ne_eq, not_iff_not]
    constructor
    · intro h; rw [h] at hb; exact hb.symm.eq_nil
    · intro h; rw [h] at hb; exact hb.eq_nil
  simp only [he]

/-- The bound arguments have a number of dependencies the operator accepts. -/
theorem bind_deps_count (lit : V → E) {s : Signature V} (hv : Valid s) (args : List E) {kw : List (List Nat × E)}
    (hk : (kw.map (·.1)).Nodup) (r : List E) (h : bindArguments lit s args kw = .ok r) :
    validateDepsCount s r.length = .ok () := by
  obtain ⟨ha, hl, _, hd⟩ := (bind_ok_iff lit hv args hk r).1 h
  obtain ⟨va, h1, h2, h3, h4⟩ := split_params hv
  have hlen : r.length - s.positionals.length = args.length - s.positionals.length := by
    have := congrArg List.length hd
    simpa using this
  have hroom := ha.room
  rw [h4] at hroom
  unfold validateDepsCount
  rcases h3 with rfl | ⟨v, rfl, hvk⟩
  · rw [List.append_nil] at h1
    have hlast : hasVariadic s = false := by
      unfold hasVariadic
      cases hg : s.params.getLast? with
      | none => rfl
      | some p =>
        have := h2 p (by rw [← h1]; exact List.mem_of_getLast? hg)
        simp [this]
    rw [hlast, h1]
    simp only [Bool.false_eq_true, if_false, true_and]
    rw [if_neg]
    simp at hroom
    omega
  · have hlast : hasVariadic s = true := by
      unfold hasVariadic
      rw [h1]
      simp [hvk]
    have hpl : s.params.length = s.positionals.length + 1 := by rw [h1]; simp [Signature.positionals]
    simp only [hlast, if_true, hpl]
    rw [if_neg]
    simp
    omega

/-! ### Examples -/

/-- `"x, y=, *z"` with the default value `7`. -/
def exSig : Signature Nat :=
  ⟨[⟨[120], none, .positional⟩, ⟨[121], some 7, .positional⟩, ⟨[122], none, .variadic⟩], [], []⟩

theorem exSig_valid : Valid exSig := (validate_iff exSig).1 rfl

example : bindArguments (lit := id) exSig [1] [] = .ok [1, 7] := by rfl
example : bindArguments (lit := id) exSig [] [([121], 5), ([120], 4)] = .ok [4, 5] := by rfl
example : bindArguments (lit := id) exSig [1, 2, 3, 4] [] = .ok [1, 2, 3, 4] := by rfl
example : bindArguments (lit := id) exSig [] [([121], 5)] = .error (.missing [[120]]) := by rfl
example : bindArguments (lit := id) exSig [1] [([120], 5)] = .error (.multiple [120]) := by rfl
example : Accepts exSig [1] [([121], 5)] :=
  ((bind_ok_iff id exSig_valid [1] (kw := [([121], 5)]) (by simp) [1, 5]).1 rfl).1
example : ∃ ns, bindArguments (lit := id) exSig [1] [([113], 5), ([112], 6)] = .error (.unexpected ns) := ⟨_, rfl⟩

end Verif.Sig
