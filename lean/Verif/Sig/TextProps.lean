import Verif.Sig.SigLemmas

/-!
# C39: textual signatures
-/

namespace Verif.Sig
open Verif.Str

variable {V : Type}

/-- An ASCII white space character. -/
def Blank (c : Nat) : Prop := c ∈ [9, 10, 11, 12, 13, 32]

/-- A text that does not begin or end with white space. -/
def Trimmed (t : List Nat) : Prop :=
  (∀ c, t.head? = some c → ¬ Blank c) ∧ (∀ c, t.getLast? = some c → ¬ Blank c)

/-- The default values of a signature, in order. -/
def Signature.defaults {V : Type} (s : Signature V) : List V := s.params.filterMap Param.dflt

theorem isSpace_iff {c : Nat} : isSpace c = true ↔ Blank c := by
  unfold isSpace Blank
  simp only [Bool.or_eq_true, Bool.and_eq_true, decide_eq_true_eq, List.mem_cons, List.not_mem_nil, or_false]
  omega

theorem isSpace_false {c : Nat} (h : ¬ Blank c) : isSpace c = false := by
  rw [← isSpace_iff] at h
  simpa using h

theorem stripLeading_self {t : List Nat} (h : ∀ c, t.head? = some c → ¬ Blank c) : stripLeading t = t := by
  cases t with
  | nil => rfl
  | cons c t => simp [stripLeading, isSpace_false (h c rfl)]

theorem stripTrailing_self {t : List Nat} (h : ∀ c, t.getLast? = some c → ¬ Blank c) : stripTrailing t = t := by
  have : stripLeading t.reverse = t.reverse := stripLeading_self (by simpa using h)
  unfold stripLeading at this
  rw [stripTrailing, this, List.reverse_reverse]

theorem strip_self {t : List Nat} (h : Trimmed t) : strip t = t := by
  rw [strip, stripLeading_self h.1, stripTrailing_self h.2]

theorem head_dropWhile {t : List Nat} {c : Nat} (h : (t.dropWhile isSpace).head? = some c) : ¬ Blank c := by
  rw [← isSpace_iff]
  induction t with
  | nil => simp at h
  | cons x t ih =>
    rw [List.dropWhile_cons] at h
    split at h
    · exact ih h
    · simp at h; subst h; assumption

theorem trimmed_stripTrailing {t : List Nat} (h : ∀ c, t.head? = some c → ¬ Blank c) : Trimmed (stripTrailing t) := by
  constructor
  · intro c hc
    unfold stripTrailing at hc
    rw [List.head?_reverse] at hc
    have hsuf : (t.reverse.dropWhile isSpace) <:+ t.reverse := List.dropWhile_suffix _
    obtain ⟨u, hu⟩ := hsuf
    apply h c
    have : t = (t.reverse.dropWhile isSpace).reverse ++ u.reverse := by
      rw [← List.reverse_append, hu, List.reverse_reverse]
    rw [this, List.head?_append, List.head?_reverse, hc]
    rfl
  · intro c hc
    unfold stripTrailing at hc
    rw [List.getLast?_reverse] at hc
    exact head_dropWhile hc

theorem trimmed_strip (t : List Nat) : Trimmed (strip t) := trimmed_stripTrailing (fun _ h => head_dropWhile h)

theorem ident_chars {n : List Nat} (h : Ident n) : ∀ c ∈ n, LetterOrDigit c := by
  obtain ⟨c, cs, rfl, h1, h2⟩ := h
  intro x hx
  rcases List.mem_cons.1 hx with rfl | hx
  · exact Or.inl h1
  · exact h2 x hx

theorem char_facts {c : Nat} (h : LetterOrDigit c) : ¬ Blank c ∧ c ≠ 58 ∧ c ≠ 124 ∧ c ≠ 44 ∧ c ≠ 42 ∧ c ≠ 61 := by
  unfold LetterOrDigit Letter at h
  unfold Blank
  simp only [List.mem_cons, List.not_mem_nil, or_false]
  omega

theorem ident_ne {n : List Nat} (h : Ident n) : n ≠ [] := by
  obtain ⟨c, cs, rfl, _⟩ := h; simp

/-- The characters of a printed parameter. -/
theorem showParam_chars {p : Param V} (h : Ident p.name) : ∀ c ∈ showParam p, c ≠ 44 ∧ c ≠ 124 ∧ ¬ Blank c := by
  intro c hc
  unfold showParam star equals at hc
  simp only [List.mem_append] at hc
  rcases hc with (hc | hc) | hc
  · split at hc
    · simp at hc; subst hc; simp [Blank]
    · cases hc
  · have := char_facts (ident_chars h c hc)
    exact ⟨this.2.2.2.1, this.2.2.1, this.1⟩
  · split at hc
    · simp at hc; subst hc; simp [Blank]
    · cases hc

theorem showParam_ne {p : Param V} (h : Ident p.name) : showParam p ≠ [] := by
  unfold showParam
  have := ident_ne h
  simp [this]

theorem showParam_trimmed {p : Param V} (h : Ident p.name) : Trimmed (showParam p) :=
  ⟨fun c hc => (showParam_chars h c (List.mem_of_head? hc)).2.2,
   fun c hc => (showParam_chars h c (List.mem_of_getLast? hc)).2.2⟩

theorem stripTrailing_ident {n : List Nat} (h : Ident n) : stripTrailing n = n :=
  stripTrailing_self (fun c hc => (char_facts (ident_chars h c (List.mem_of_getLast? hc))).1)

theorem stripLeading_ident {n m : List Nat} (h : Ident n) : stripLeading (n ++ m) = n ++ m := by
  refine stripLeading_self (fun c hc => ?_)
  obtain ⟨d, ds, rfl, h1, _⟩ := h
  simp at hc; subst hc
  exact (char_facts (Or.inl h1)).1

theorem parse_core {n : List Nat} (h : Ident n) (k : Kind) (v : Option V) (ds : List V) :
    (if (n ++ if v.isSome = true then [equals] else []).getLast? = some equals then
      match v.toList ++ ds with
      | [] => (Except.error (Err.noDefault (stripTrailing
          ((n ++ if v.isSome = true then [equals] else []).take
            ((n ++ if v.isSome = true then [equals] else []).length - 1)))) : Except Err (Param V × List V))
      | w :: ws => .ok (⟨stripTrailing ((n ++ if v.isSome = true then [equals] else []).take
            ((n ++ if v.isSome = true then [equals] else []).length - 1)), some w, k⟩, ws)
    else .ok (⟨n ++ if v.isSome = true then [equals] else [], none, k⟩, v.toList ++ ds)) = .ok (⟨n, v, k⟩, ds) := by
  cases v with
  | some w =>
    simp only [Option.isSome_some, if_true]
    rw [if_pos (by simp)]
    simp only [Option.toList_some, List.singleton_append, List.length_append, List.length_singleton, Nat.add_sub_cancel,
      List.take_left]
    rw [stripTrailing_ident h]
  | none =>
    simp only [Option.isSome_none, Bool.false_eq_true, if_false, List.append_nil, Option.toList_none, List.nil_append]
    rw [if_neg]
    intro hl
    exact (char_facts (ident_chars h _ (List.mem_of_getLast? hl))).2.2.2.2.2 rfl

theorem parse_show {p : Param V} (h : Ident p.name) (hk : p.kind = .positional ∨ p.kind = .variadic) (ds : List V)
    {t : List Nat} (ht : strip t = showParam p) : parseParam t (p.dflt.toList ++ ds) = .ok (p, ds) := by
  obtain ⟨n, v, k⟩ := p
  unfold parseParam
  rw [ht]
  dsimp only at h hk
  rcases hk with rfl | rfl
  · have hh : ¬ ((showParam ⟨n, v, Kind.positional⟩).head? = some star) := by
      unfold showParam
      obtain ⟨d, ds, rfl, h1, _⟩ := h
      simp
      exact (char_facts (Or.inl h1)).2.2.2.2.1
    simp only [hh, if_false]
    have hs : showParam ⟨n, v, Kind.positional⟩ = n ++ if v.isSome = true then [equals] else [] := by
      simp [showParam]
    rw [hs]
    exact parse_core h _ v ds
  · have hh : (showParam ⟨n, v, Kind.variadic⟩).head? = some star := by
      simp [showParam]
    simp only [hh, if_true]
    have hs : (showParam ⟨n, v, Kind.variadic⟩).drop 1 = n ++ if v.isSome = true then [equals] else [] := by
      simp [showParam]
    rw [hs, stripLeading_ident h]
    exact parse_core h _ v ds

theorem split_no {c : Nat} : ∀ {t : List Nat}, c ∉ t → split c t = [t] := by
  intro t
  induction t with
  | nil => intro _; rfl
  | cons x t ih =>
    intro h
    simp at h
    rw [split, if_neg (fun hh => h.1 hh.symm), ih h.2]

theorem split_append {c : Nat} {u : List Nat} : ∀ {t : List Nat}, c ∉ t → split c (t ++ c :: u) = t :: split c u := by
  intro t
  induction t with
  | nil => intro _; simp [split]
  | cons x t ih =>
    intro h
    simp at h
    rw [List.cons_append, split, if_neg (fun hh => h.1 hh.symm), ih h.2]

theorem split_show : ∀ {ps : List (Param V)} {p : Param V} {u : List Nat}, 44 ∉ u → (∀ q ∈ p :: ps, Ident q.name) →
    split comma (u ++ showParam p ++ showParams false ps) =
      (u ++ showParam p) :: ps.map (fun q => space :: showParam q) := by
  intro ps
  induction ps with
  | nil =>
    intro p u hu h
    rw [showParams, List.append_nil, split_no]
    · rfl
    · intro hc
      rcases List.mem_append.1 hc with hc | hc
      · exact hu hc
      · exact (showParam_chars (h p (by simp)) _ hc).1 rfl
  | cons q ps ih =>
    intro p u hu h
    have e : u ++ showParam p ++ showParams false (q :: ps) =
        (u ++ showParam p) ++ comma :: ([space] ++ showParam q ++ showParams false ps) := by
      simp [showParams]
    rw [e, split_append, ih (by simp [space]) (fun r hr => h r (by simp at hr ⊢; exact Or.inr hr))]
    · simp
    · intro hc
      rcases List.mem_append.1 hc with hc | hc
      · exact hu hc
      · exact (showParam_chars (h p (by simp)) _ hc).1 rfl

theorem parseParams_show : ∀ {ps : List (Param V)} {ts : List (List Nat)} {ds : List V},
    (∀ p ∈ ps, Ident p.name ∧ (p.kind = .positional ∨ p.kind = .variadic)) → ts.map strip = ps.map showParam →
    parseParams ts (ps.filterMap Param.dflt ++ ds) = .ok (ps, ds) := by
  intro ps
  induction ps with
  | nil => intro ts ds _ h; simp at h; subst h; rfl
  | cons p ps ih =>
    intro ts ds h ht
    cases ts with
    | nil => simp at ht
    | cons t ts =>
      simp at ht
      have e : (p :: ps).filterMap Param.dflt ++ ds = p.dflt.toList ++ (ps.filterMap Param.dflt ++ ds) := by
        cases hd : p.dflt <;> simp [List.filterMap_cons, hd]
      rw [e, parseParams, parse_show (h p (by simp)).1 (h p (by simp)).2 _ ht.1]
      dsimp only
      rw [ih (fun q hq => h q (by simp [hq])) ht.2]

theorem showParams_chars : ∀ {ps : List (Param V)} {b : Bool}, (∀ p ∈ ps, Ident p.name) → 124 ∉ showParams b ps := by
  intro ps
  induction ps with
  | nil => intro b _; simp [showParams]
  | cons p ps ih =>
    intro b h hc
    rw [showParams] at hc
    rcases List.mem_append.1 hc with hc | hc
    · rcases List.mem_append.1 hc with hc | hc
      · cases b <;> simp [comma, space] at hc
      · exact (showParam_chars (h p (by simp)) _ hc).2.1 rfl
    · exact ih (fun q hq => h q (by simp [hq])) hc

theorem showParams_getLast : ∀ {ps : List (Param V)} {b : Bool}, (∀ p ∈ ps, Ident p.name) →
    ∀ c, (showParams b ps).getLast? = some c → ¬ Blank c := by
  intro ps
  induction ps with
  | nil => intro b _ c hc; simp [showParams] at hc
  | cons p ps ih =>
    intro b h c hc
    rw [showParams, List.getLast?_append, List.getLast?_append] at hc
    cases hl : (showParams false ps).getLast? with
    | some d =>
      rw [hl] at hc; simp at hc; subst hc
      exact ih (fun q hq => h q (by simp [hq])) _ hl
    | none =>
      rw [hl] at hc
      cases hl2 : (showParam p).getLast? with
      | none => exact absurd (List.getLast?_eq_none_iff.1 hl2) (showParam_ne (h p (by simp)))
      | some d =>
        rw [hl2] at hc; simp at hc; subst hc
        exact (showParam_trimmed (h p (by simp))).2 _ hl2

theorem body_strip {ps : List (Param V)} (h : ∀ p ∈ ps, Ident p.name) : Trimmed (showParams true ps) := by
  refine ⟨fun c hc => ?_, showParams_getLast h⟩
  cases ps with
  | nil => simp [showParams] at hc
  | cons p ps =>
    simp only [showParams, if_true, List.nil_append] at hc
    rw [List.head?_append] at hc
    cases hl2 : (showParam p).head? with
    | none => exact absurd (List.head?_eq_none_iff.1 hl2) (showParam_ne (h p (by simp)))
    | some d =>
      rw [hl2] at hc; simp at hc; subst hc
      exact (showParam_trimmed (h p (by simp))).1 _ hl2

theorem strip_space {t : List Nat} : strip (space :: t) = strip t := by
  simp [strip, stripLeading, space, isSpace]

theorem takeWhile_all {c : Nat} {t u : List Nat} (h : c ∉ t) : (t ++ c :: u).takeWhile (· ≠ c) = t := by
  induction t with
  | nil => simp
  | cons x t ih =>
    simp at h
    simp [Ne.symm h.1, List.takeWhile_cons]
    simpa using ih h.2

theorem dropWhile_all {c : Nat} {t u : List Nat} (h : c ∉ t) : (t ++ c :: u).dropWhile (· ≠ c) = c :: u := by
  induction t with
  | nil => simp
  | cons x t ih =>
    simp at h
    simp [Ne.symm h.1, List.dropWhile_cons]
    simpa using ih h.2

theorem takeWhile_self {c : Nat} {t : List Nat} (h : c ∉ t) : t.takeWhile (· ≠ c) = t := by
  induction t with
  | nil => simp
  | cons x t ih =>
    simp at h
    simp [Ne.symm h.1, List.takeWhile_cons]
    simpa using ih h.2

theorem auxName_aux {n o : List Nat} (hn : Trimmed n) (hc : colon ∉ n) : auxPolicyName (auxPolicy n o) = n := by
  unfold auxPolicyName auxPolicy
  by_cases h : o = []
  · rw [if_neg (by simp [h]), takeWhile_self hc, strip_self hn]
  · rw [if_pos h, List.append_assoc, List.singleton_append, takeWhile_all hc, strip_self hn]

theorem auxOpts_aux {n o : List Nat} (ho : Trimmed o) (hc : colon ∉ n) : auxPolicyOptions (auxPolicy n o) = o := by
  unfold auxPolicyOptions auxPolicy
  by_cases h : o = []
  · rw [if_neg (by simp [h]; exact hc), h]
  · rw [if_pos h, if_pos (by simp), List.append_assoc, List.singleton_append, dropWhile_all hc]
    exact strip_self ho

theorem aux_head {n o : List Nat} (hn : Trimmed n) : ∀ c, (auxPolicy n o).head? = some c → ¬ Blank c := by
  intro c hc
  unfold auxPolicy at hc
  cases n with
  | nil =>
    split at hc
    · simp [colon] at hc; subst hc; simp [Blank]
    · simp at hc
  | cons x n =>
    have : some x = some c := by
      split at hc <;> simpa using hc
    exact hn.1 c (by simpa using this)

/-- Printing a well-formed signature and parsing the text with its default values gives the signature back. -/
theorem make_show (s : Signature V) (hv : Valid s) (hn : Trimmed s.auxName) (ho : Trimmed s.auxOpts) :
    make (showSpec s) s.defaults = .ok s := by
  obtain ⟨ps, n, o⟩ := s
  have hid : ∀ p ∈ ps, Ident p.name := hv.names
  have hkd : ∀ p ∈ ps, p.kind = .positional ∨ p.kind = .variadic := by
    intro p hp
    obtain ⟨i, hi⟩ := List.mem_iff_getElem?.1 hp
    rcases hv.kinds i p hi with h | ⟨h, _⟩
    · exact Or.inl h
    · exact Or.inr h
  have hbar : bar ∉ showParams true ps := showParams_chars (b := true) hid
  have hbody : strip (showParams true ps) = showParams true ps := strip_self (body_strip hid)
  have hparse : parseParams (if showParams true ps ≠ [] then split comma (showParams true ps) else [])
      (ps.filterMap Param.dflt) = .ok (ps, []) := by
    have := parseParams_show (ds := []) (ps := ps) (ts := if showParams true ps ≠ [] then split comma (showParams true ps) else [])
      (fun p hp => ⟨hid p hp, hkd p hp⟩) ?_
    · simpa using this
    · cases ps with
      | nil => simp [showParams]
      | cons p ps =>
        have e : showParams true (p :: ps) = [] ++ showParam p ++ showParams false ps := by simp [showParams]
        have hne : showParams true (p :: ps) ≠ [] := by
          rw [e]; simp [showParam_ne (hid p (by simp))]
        rw [if_pos hne, e, split_show (by simp) hid]
        simp only [List.nil_append, List.map_cons, List.map_map, strip_self (showParam_trimmed (hid p (by simp)))]
        congr 1
        apply List.map_congr_left
        intro q hq
        simp only [Function.comp, strip_space]
        exact strip_self (showParam_trimmed (hid q (by simp [hq])))
  have hval : validate (⟨ps, n, o⟩ : Signature V) = .ok () := validate_iff'.2 hv
  unfold make showSpec Signature.defaults
  dsimp only
  dsimp only at hn ho
  have hc : colon ∉ n := hv.aux
  by_cases ha : auxPolicy n o = []
  · have hno : n = [] ∧ o = [] := by
      unfold auxPolicy at ha
      split at ha
      · simp at ha
      · rename_i h; exact ⟨ha, by simpa using h⟩
    obtain ⟨rfl, rfl⟩ := hno
    have hnb : ¬ bar ∈ showParams true ps := hbar
    simp only [ha, ne_eq, not_true, if_false, List.append_nil, hnb]
    simp only [← ne_eq]
    rw [takeWhile_self hbar, hbody, hparse]
    simp only [ne_eq, not_true, if_false]
    rw [hval]
  · have hb : bar ∈ showParams true ps ++ (if auxPolicy n o ≠ [] then [bar] ++ auxPolicy n o else []) := by
      simp [ha]
    simp only [ha, ne_eq, not_false_eq_true, if_true] at hb ⊢
    simp only [hb, if_true]
    simp only [← ne_eq]
    rw [List.singleton_append, takeWhile_all hbar, dropWhile_all hbar, hbody, List.drop_one, List.tail_cons,
      stripLeading_self (aux_head hn), auxName_aux hn hc, auxOpts_aux ho hc, hparse]
    simp only [ne_eq, not_true, if_false]
    rw [hval]

theorem parseParams_defaults : ∀ {ts : List (List Nat)} {ds ds' : List V} {ps : List (Param V)},
    parseParams ts ds = .ok (ps, ds') → ds = ps.filterMap Param.dflt ++ ds' ∧ ps.length = ts.length := by
  intro ts
  induction ts with
  | nil => intro ds ds' ps h; simp [parseParams] at h; obtain ⟨rfl, rfl⟩ := h; simp
  | cons t ts ih =>
    intro ds ds' ps h
    rw [parseParams] at h
    cases hp : parseParam t ds with
    | error e => rw [hp] at h; cases h
    | ok r =>
      obtain ⟨p, ds1⟩ := r
      rw [hp] at h
      dsimp only at h
      cases hq : parseParams ts ds1 with
      | error e => rw [hq] at h; cases h
      | ok r2 =>
        obtain ⟨ps2, ds2⟩ := r2
        rw [hq] at h
        simp at h
        obtain ⟨rfl, rfl⟩ := h
        obtain ⟨h1, h2⟩ := ih hq
        have : ds = p.dflt.toList ++ ds1 := by
          unfold parseParam at hp
          dsimp only at hp
          generalize (if (strip t).head? = some star then stripLeading ((strip t).drop 1) else strip t) = d at hp
          split at hp
          · cases ds with
            | nil => cases hp
            | cons v ds => simp at hp; obtain ⟨rfl, rfl⟩ := hp; rfl
          · simp at hp; obtain ⟨rfl, rfl⟩ := hp; rfl
        refine ⟨?_, by simp [h2]⟩
        rw [this, h1]
        cases hd : p.dflt <;> simp [List.filterMap_cons, hd]

/-- A signature made from a text is well formed, has exactly the given default values, and its policy is trimmed. -/
theorem make_valid (spec : List Nat) (ds : List V) (s : Signature V) (h : make spec ds = .ok s) :
    Valid s ∧ s.defaults = ds ∧ Trimmed s.auxName ∧ Trimmed s.auxOpts := by
  unfold make at h
  dsimp only at h
  split at h
  · cases h
  · rename_i ps ds' hp
    split at h
    · cases h
    · rename_i hne
      split at h
      · cases h
      · rename_i hv
        cases h
        have hnil : ds' = [] := by simpa using hne
        subst hnil
        have hnilT : Trimmed [] := ⟨by simp, by simp⟩
        refine ⟨validate_iff'.1 hv, ?_, ?_, ?_⟩
        · have := (parseParams_defaults hp).1
          simp [Signature.defaults, this]
        · dsimp only
          split
          · exact trimmed_strip _
          · exact hnilT
        · dsimp only
          split
          · unfold auxPolicyOptions
            split
            · exact trimmed_strip _
            · exact hnilT
          · exact hnilT

/-- The printed form of a parsed signature parses to the same signature. -/
theorem make_show_make (spec : List Nat) (ds : List V) (s : Signature V) (h : make spec ds = .ok s) :
    make (showSpec s) ds = .ok s := by
  obtain ⟨hv, hd, hn, ho⟩ := make_valid spec ds s h
  rw [← hd]
  exact make_show s hv hn ho

/-- Different well-formed signatures have different texts or different default values. -/
theorem show_injective (s t : Signature V) (hs : Valid s) (ht : Valid t) (hsn : Trimmed s.auxName)
    (hso : Trimmed s.auxOpts) (htn : Trimmed t.auxName) (hto : Trimmed t.auxOpts) (h : showSpec s = showSpec t)
    (hd : s.defaults = t.defaults) : s = t := by
  have h1 := make_show s hs hsn hso
  rw [h, hd, make_show t ht htn hto] at h1
  exact (Except.ok.inj h1).symm

/-- The bytes of a Lean string. -/
def bytes (s : String) : List Nat := s.toList.map Char.toNat

example : make (bytes " x,y = ,* z | p : o ") [7] =
    .ok ⟨[⟨[120], none, .positional⟩, ⟨[121], some 7, .positional⟩, ⟨[122], none, .variadic⟩], [112], [111]⟩ := by rfl
example : showSpec (V := Nat) ⟨[⟨[120], none, .positional⟩, ⟨[121], some 7, .positional⟩, ⟨[122], none, .variadic⟩],
    [112], [111]⟩ = bytes "x, y=, *z|p:o" := by decide
example : make (V := Nat) (bytes "*z, x") [] = .error .variadicNotLast := by rfl
example : make (V := Nat) (bytes "x=") [] = .error (.noDefault [120]) := by rfl

/-- Without the condition on white space the policy is not kept: a policy name `" a"` is printed as it is, and
trimmed when it is read. -/
example : make (V := Nat) (showSpec (V := Nat) ⟨[], [32, 97], []⟩) [] = .ok ⟨[], [97], []⟩ := by rfl

end Verif.Sig
