import Verif.Text.FormatModel
import Verif.Text.FormatSpec
import Verif.Text.SplitProps

/-!
# strings.format
-/

namespace Verif.Text

theorem isIdentifier_iff {s : List Nat} : isIdentifier s = true ↔ Ident s := by
  cases s with
  | nil => simp [isIdentifier, Ident]
  | cons c s =>
    have ha : ∀ d, ((decide (d = 95)) || isAlpha d) = true ↔ IdentStart d := by
      intro d
      unfold isAlpha IdentStart
      simp
      omega
    have hb : ∀ d, ((decide (d = 95)) || isAlnum d) = true ↔ IdentStart d ∨ (48 ≤ d ∧ d ≤ 57) := by
      intro d
      unfold isAlnum isAlpha IdentStart
      simp
      omega
    unfold isIdentifier Ident
    rw [Bool.and_eq_true, ha, List.all_eq_true]
    constructor
    · rintro ⟨h1, h2⟩
      exact ⟨c, s, rfl, h1, fun d hd => (hb d).1 (h2 d hd)⟩
    · rintro ⟨_, _, h, h1, h2⟩
      cases h
      exact ⟨h1, fun d hd => (hb d).2 (h2 d hd)⟩

theorem ident_no {s : List Nat} (h : Ident s) : ∀ d ∈ s, d ≠ 58 ∧ d ≠ 123 ∧ d ≠ 125 := by
  obtain ⟨c, t, rfl, h1, h2⟩ := h
  intro d hd
  unfold IdentStart at *
  rcases List.mem_cons.1 hd with rfl | hd
  · omega
  · have := h2 d hd; omega

/-- The first `}`. -/
theorem svFind_brace {a b : List Nat} (h : 125 ∉ a) : svFind [125] (a ++ 125 :: b) = some a.length := by
  induction a with
  | nil =>
    show (if [125].isPrefixOf (125 :: b) = true then some 0 else (svFind [125] b).map (· + 1)) = some 0
    rw [if_pos (by simp)]
  | cons c a ih =>
    have hc : c ≠ 125 := fun e => h (by simp [e])
    show (if [125].isPrefixOf (c :: (a ++ 125 :: b)) = true then some 0 else (svFind [125] (a ++ 125 :: b)).map (· + 1)) = some (a.length + 1)
    rw [if_neg (by simp; exact fun e => hc e.symm), ih (fun e => h (by simp [e]))]
    rfl

theorem svFind_brace_some {s : List Nat} {n : Nat} (h : svFind [125] s = some n) : ∃ a b, s = a ++ 125 :: b ∧ a.length = n ∧ 125 ∉ a := by
  have := svFind_spec [125] s
  rw [h] at this
  obtain ⟨⟨a, b, rfl, rfl⟩, h2⟩ := this
  refine ⟨a, b, by simp, rfl, ?_⟩
  intro hm
  obtain ⟨x, y, rfl⟩ := List.append_of_mem hm
  exact h2 x.length (by simp) ⟨x, y ++ [125] ++ b, by simp, rfl⟩

theorem parseArg_iff {arg name format : List Nat} : parseArg arg = some (name, format) ↔
    Ident name ∧ ((arg = name ∧ format = []) ∨ arg = name ++ 58 :: format) := by
  unfold parseArg
  dsimp only
  constructor
  · intro h
    split at h
    · rename_i hi
      simp only [Option.some.injEq, Prod.mk.injEq] at h
      obtain ⟨rfl, rfl⟩ := h
      refine ⟨isIdentifier_iff.1 hi, ?_⟩
      have hsplit := List.takeWhile_append_dropWhile (p := fun c : Nat => decide (c ≠ 58)) (l := arg)
      have hdrop : arg.drop (arg.takeWhile (fun c : Nat => decide (c ≠ 58))).length = arg.dropWhile (fun c : Nat => decide (c ≠ 58)) := by
        conv_lhs => rw [← hsplit]
        rw [List.drop_append, List.drop_eq_nil_of_le (by simp), hsplit, Nat.sub_self]; simp
      rw [hdrop]
      cases hd : arg.dropWhile (fun c : Nat => decide (c ≠ 58)) with
      | nil => rw [hd, List.append_nil] at hsplit; exact Or.inl ⟨hsplit.symm, rfl⟩
      | cons c r =>
        have hc : c = 58 := by
          have := List.head?_dropWhile_not (fun c : Nat => decide (c ≠ 58)) arg
          rw [hd] at this
          simpa using this
        rw [hd, hc] at hsplit
        exact Or.inr hsplit.symm
    · cases h
  · rintro ⟨hi, h⟩
    have hno : ∀ c ∈ name, decide (c ≠ 58) = true := fun c hc => by simpa using (ident_no hi c hc).1
    rcases h with ⟨rfl, rfl⟩ | rfl
    · have : arg.takeWhile (fun c : Nat => decide (c ≠ 58)) = arg := by
        have h1 := List.takeWhile_append_of_pos (l₂ := []) hno
        simpa using h1
      rw [this, if_pos (isIdentifier_iff.2 hi)]
      simp
    · have : (name ++ 58 :: format).takeWhile (fun c : Nat => decide (c ≠ 58)) = name := by
        rw [List.takeWhile_append_of_pos hno]; simp
      rw [this, if_pos (isIdentifier_iff.2 hi), List.drop_left]
      rfl

/-- Both stages and the processing, as one function of the specification. -/
def renderAll {V : Type} (index : List Nat → Option Nat) (values : List V) (fmt : V → List Nat → Option (List Nat))
    (r : List Nat × List (List Nat × List Nat)) : Option (List Nat) :=
  match r.2.mapM (fun a => (parseArg a.1).map fun p => (p, a.2)) with
  | none => none
  | some l => (processArgs index values fmt l).map (r.1 ++ ·)

/-- The value of a name with a format. -/
def valueOf {V : Type} (index : List Nat → Option Nat) (values : List V) (fmt : V → List Nat → Option (List Nat)) (name format : List Nat) :
    Option (List Nat) :=
  match index name with
  | none => none
  | some i => match values[i]? with
    | none => none
    | some v => fmt v format

section
variable {V : Type} (index : List Nat → Option Nat) (values : List V) (fmt : V → List Nat → Option (List Nat))

theorem processArgs_cons (name format text : List Nat) (args : List ((List Nat × List Nat) × List Nat)) :
    processArgs index values fmt (((name, format), text) :: args) = match valueOf index values fmt name format with
      | none => none
      | some txt => (processArgs index values fmt args).map fun r => txt ++ text ++ r := by
  rw [processArgs]
  unfold valueOf
  cases index name with
  | none => rfl
  | some i =>
    dsimp only
    cases values[i]? with
    | none => rfl
    | some v => rfl

theorem renderAll_push (c : Nat) (r : List Nat × List (List Nat × List Nat)) :
    renderAll index values fmt (c :: r.1, r.2) = (renderAll index values fmt r).map (c :: ·) := by
  unfold renderAll
  dsimp only
  cases r.2.mapM (fun a => (parseArg a.1).map fun p => (p, a.2)) with
  | none => rfl
  | some l =>
    dsimp only
    cases processArgs index values fmt l with
    | none => rfl
    | some x => rfl

theorem renderAll_arg (arg : List Nat) (r : List Nat × List (List Nat × List Nat)) (out : List Nat) :
    renderAll index values fmt ([], (arg, r.1) :: r.2) = some out ↔ ∃ name format txt x, parseArg arg = some (name, format) ∧
      valueOf index values fmt name format = some txt ∧ renderAll index values fmt r = some x ∧ out = txt ++ x := by
  unfold renderAll
  dsimp only
  rw [List.mapM_cons]
  cases hp : parseArg arg with
  | none => simp
  | some p =>
    obtain ⟨name, format⟩ := p
    cases hm : r.2.mapM (fun a => (parseArg a.1).map fun p => (p, a.2)) with
    | none => simp
    | some l =>
      simp only [Option.map_some, Option.pure_def, Option.bind_eq_bind, Option.bind_some]
      rw [processArgs_cons]
      cases hv : valueOf index values fmt name format with
      | none =>
        simp only [Option.map_none, reduceCtorEq, false_iff]
        rintro ⟨n, f, txt, x, h1, h2, _⟩
        cases h1
        rw [hv] at h2
        cases h2
      | some txt =>
        cases hx : processArgs index values fmt l with
        | none => simp
        | some x =>
          simp only [Option.map_some, List.nil_append, Option.some.injEq]
          constructor
          · rintro rfl
            exact ⟨name, format, txt, _, rfl, hv, rfl, by simp⟩
          · rintro ⟨n, f, t, y, h1, h2, h3, h4⟩
            cases h1
            rw [hv] at h2
            cases h2
            rw [h4, ← h3]
            simp

/-- The parser and the processing render the specification. -/
theorem renders_of : ∀ fuel spec r out, parseTexts fuel spec = some r → renderAll index values fmt r = some out →
    Renders (valueOf index values fmt) spec out := by
  intro fuel spec
  fun_induction parseTexts fuel spec with
  | case1 =>
    intro r out h h2
    cases h
    cases h2
    exact Renders.nil
  | case2 => intro r out h; cases h
  | case3 fuel spec ih =>
    intro r out h h2
    cases hp : parseTexts fuel spec with
    | none => rw [hp] at h; cases h
    | some q =>
      rw [hp] at h
      cases h
      rw [renderAll_push] at h2
      cases hq : renderAll index values fmt q with
      | none => rw [hq] at h2; cases h2
      | some x =>
        rw [hq] at h2
        cases h2
        exact Renders.left _ _ (ih q x hp hq)
  | case4 => intro r out h; cases h
  | case5 fuel spec _ n hn ih =>
    intro r out h h2
    obtain ⟨a, b, rfl, rfl, hno⟩ := svFind_brace_some hn
    have hdrop : (a ++ 125 :: b).drop (a.length + 1) = b := by
      rw [List.drop_append, List.drop_eq_nil_of_le (by omega), Nat.add_sub_cancel_left]; rfl
    rw [hdrop] at h ih
    cases hp : parseTexts fuel b with
    | none => rw [hp] at h; cases h
    | some q =>
      rw [hp, List.take_left] at h
      cases h
      obtain ⟨name, format, txt, x, h3, h4, h5, rfl⟩ := (renderAll_arg index values fmt _ _ _).1 h2
      obtain ⟨hi, hc⟩ := parseArg_iff.1 h3
      have hr := ih q x hp h5
      rcases hc with ⟨rfl, rfl⟩ | rfl
      · exact Renders.arg _ _ _ _ hi h4 hr
      · have := Renders.argFormat name format txt b x hi (fun e => hno (by simp [e])) h4 hr
        simpa using this
  | case6 fuel spec ih =>
    intro r out h h2
    cases hp : parseTexts fuel spec with
    | none => rw [hp] at h; cases h
    | some q =>
      rw [hp] at h
      cases h
      rw [renderAll_push] at h2
      cases hq : renderAll index values fmt q with
      | none => rw [hq] at h2; cases h2
      | some x =>
        rw [hq] at h2
        cases h2
        exact Renders.right _ _ (ih q x hp hq)
  | case7 => intro r out h; cases h
  | case8 fuel c spec h123 h123' h125 h125' ih =>
    intro r out h h2
    cases hp : parseTexts fuel spec with
    | none => rw [hp] at h; cases h
    | some q =>
      rw [hp] at h
      cases h
      rw [renderAll_push] at h2
      cases hq : renderAll index values fmt q with
      | none => rw [hq] at h2; cases h2
      | some x =>
        rw [hq] at h2
        cases h2
        exact Renders.char _ _ _ (by rintro rfl; exact h123' rfl) (by rintro rfl; exact h125' rfl) (ih q x hp hq)

theorem parseTexts_char {fuel c : Nat} {spec : List Nat} (h1 : c ≠ 123) (h2 : c ≠ 125) :
    parseTexts (fuel + 1) (c :: spec) = (parseTexts fuel spec).map fun r => (c :: r.1, r.2) := by
  rw [parseTexts]
  all_goals simp_all

theorem parseTexts_arg {fuel : Nat} {a b : List Nat} (ha : 125 ∉ a) (h0 : ∀ t, a ≠ 123 :: t) :
    parseTexts (fuel + 1) (123 :: (a ++ 125 :: b)) = (parseTexts fuel b).map fun r => ([], (a, r.1) :: r.2) := by
  have hdrop : (a ++ 125 :: b).drop (a.length + 1) = b := by
    rw [List.drop_append, List.drop_eq_nil_of_le (by omega), Nat.add_sub_cancel_left]; rfl
  rw [parseTexts]
  · rw [svFind_brace ha]
    dsimp only
    rw [hdrop, List.take_left]
  · intro t ht
    cases a with
    | nil => cases ht
    | cons x a => exact h0 a (by simp at ht; rw [ht.1])

/-- Everything that can be rendered is parsed and processed. -/
theorem of_renders {spec out : List Nat} (h : Renders (valueOf index values fmt) spec out) : ∀ fuel, spec.length ≤ fuel →
    ∃ r, parseTexts fuel spec = some r ∧ renderAll index values fmt r = some out := by
  induction h with
  | nil => intro fuel _; exact ⟨([], []), by cases fuel <;> rfl, rfl⟩
  | char c s r h1 h2 _ ih =>
    intro fuel hf
    cases fuel with
    | zero => simp at hf
    | succ fuel =>
      obtain ⟨q, g1, g2⟩ := ih fuel (by simp at hf; omega)
      exact ⟨_, by rw [parseTexts_char h1 h2, g1]; rfl, by rw [renderAll_push, g2]; rfl⟩
  | left s r _ ih =>
    intro fuel hf
    cases fuel with
    | zero => simp at hf
    | succ fuel =>
      obtain ⟨q, g1, g2⟩ := ih fuel (by simp at hf; omega)
      exact ⟨_, by rw [parseTexts, g1]; rfl, by rw [renderAll_push, g2]; rfl⟩
  | right s r _ ih =>
    intro fuel hf
    cases fuel with
    | zero => simp at hf
    | succ fuel =>
      obtain ⟨q, g1, g2⟩ := ih fuel (by simp at hf; omega)
      exact ⟨_, by rw [parseTexts, g1]; rfl, by rw [renderAll_push, g2]; rfl⟩
  | arg name txt s r hi hv _ ih =>
    intro fuel hf
    cases fuel with
    | zero => simp at hf
    | succ fuel =>
      obtain ⟨q, g1, g2⟩ := ih fuel (by simp at hf; omega)
      refine ⟨_, ?_, (renderAll_arg index values fmt name q _).2 ⟨name, [], txt, r, parseArg_iff.2 ⟨hi, Or.inl ⟨rfl, rfl⟩⟩, hv, g2, rfl⟩⟩
      rw [List.cons_append, parseTexts_arg (fun e => (ident_no hi _ e).2.2 rfl) (by rintro t rfl; exact (ident_no hi 123 (by simp)).2.1 rfl), g1]
      rfl
  | argFormat name format txt s r hi hno hv _ ih =>
    intro fuel hf
    cases fuel with
    | zero => simp at hf
    | succ fuel =>
      obtain ⟨q, g1, g2⟩ := ih fuel (by simp at hf; omega)
      refine ⟨_, ?_, (renderAll_arg index values fmt (name ++ 58 :: format) q _).2 ⟨name, format, txt, r, parseArg_iff.2 ⟨hi, Or.inr rfl⟩, hv, g2, rfl⟩⟩
      rw [show 123 :: name ++ 58 :: format ++ 125 :: s = 123 :: ((name ++ 58 :: format) ++ 125 :: s) by simp, parseTexts_arg, g1]
      · rfl
      · intro e
        rcases List.mem_append.1 e with e | e
        · exact (ident_no hi _ e).2.2 rfl
        · rcases List.mem_cons.1 e with e | e
          · cases e
          · exact hno e
      · intro t ht
        have hi' := hi
        obtain ⟨c, u, hcu, _⟩ := hi'
        rw [hcu] at ht
        simp at ht
        exact (ident_no hi c (by rw [hcu]; simp)).2.1 ht.1

end

/-- The value of a name: that of the argument at the position of the name. -/
def argValue {V : Type} (fmt : V → List Nat → Option (List Nat)) (names : List (List Nat)) (values : List V) (name format : List Nat) : Option (List Nat) :=
  match (names.zip values).find? (fun p => p.1 = name) with
  | none => none
  | some p => fmt p.2 format

theorem valueOf_eq {V : Type} (fmt : V → List Nat → Option (List Nat)) : ∀ (names : List (List Nat)) (values : List V), names.length = values.length →
    valueOf (fun n => names.findIdx? (· = n)) values fmt = argValue fmt names values := by
  intro names values h
  funext name format
  unfold valueOf argValue
  have key : ∀ (names : List (List Nat)) (values : List V), names.length = values.length →
      (match names.findIdx? (fun x => decide (x = name)) with
        | none => (none : Option V)
        | some i => values[i]?) = ((names.zip values).find? (fun p => decide (p.1 = name))).map Prod.snd := by
    intro names
    induction names with
    | nil => intro values _; rfl
    | cons n names ih =>
      intro values hl
      cases values with
      | nil => simp at hl
      | cons v values =>
        have := ih values (by simpa using hl)
        rw [List.findIdx?_cons, List.zip_cons_cons, List.find?_cons]
        by_cases hn : n = name
        · simp [hn]
        · simp only [hn, decide_false, Bool.false_eq_true, if_false]
          rw [← this]
          cases names.findIdx? (fun x => decide (x = name)) with
          | none => rfl
          | some i => simp
  have hk := key names values h
  dsimp only
  cases hf : names.findIdx? (fun x => decide (x = name)) with
  | none =>
    rw [hf] at hk
    cases hz : (names.zip values).find? (fun p => decide (p.1 = name)) with
    | none => rfl
    | some p => rw [hz] at hk; cases hk
  | some i =>
    rw [hf] at hk
    dsimp only at hk ⊢
    rw [hk]
    cases hz : (names.zip values).find? (fun p => decide (p.1 = name)) with
    | none => rfl
    | some p => rfl

/-- The names: the parts between commas; none for an empty string. -/
theorem arg_names (s : List Nat) : ∃ ns, argNames s = some ns ∧ (s = [] → ns = []) ∧ (s ≠ [] → SplitBy [44] s ns) := by
  unfold argNames
  by_cases h : s = []
  · rw [if_pos h]; exact ⟨[], rfl, fun _ => rfl, fun h' => absurd h h'⟩
  · rw [if_neg h]
    obtain ⟨ps, h1, h2⟩ := split_separator ⟨s, false⟩ rfl [44] (by simp)
    exact ⟨ps, h1, fun h' => absurd h' h, fun _ => h2⟩

/-- Formatting succeeds exactly if the names are distinct, there are as many as values, and the specification renders; the result is the
rendered specification. -/
theorem format_renders {V : Type} (fmt : V → List Nat → Option (List Nat)) (spec names : List Nat) (values : List V) (out : List Nat) :
    formatOp fmt spec names values = some out ↔ ∃ ns, argNames names = some ns ∧ ns.Nodup ∧ ns.length = values.length ∧
      Renders (argValue fmt ns values) spec out := by
  obtain ⟨ns, hn, _⟩ := arg_names names
  unfold formatOp
  rw [hn]
  dsimp only
  have hrender : processParsed (fun n => ns.findIdx? (· = n)) values fmt (parseFormat spec) =
      match parseTexts spec.length spec with
      | none => none
      | some r => renderAll (fun n => ns.findIdx? (· = n)) values fmt r := by
    unfold parseFormat renderAll processParsed
    cases parseTexts spec.length spec with
    | none => rfl
    | some r =>
      obtain ⟨t, args⟩ := r
      dsimp only
      cases args.mapM (fun a => (parseArg a.1).map fun p => (p, a.2)) with
      | none => rfl
      | some l => rfl
  by_cases hd : ns.Nodup
  · rw [if_neg (by simpa using hd)]
    by_cases hl : ns.length = values.length
    · rw [if_neg (by simpa using hl), hrender]
      have hve := valueOf_eq fmt ns values hl
      constructor
      · intro h
        refine ⟨ns, rfl, hd, hl, ?_⟩
        cases hp : parseTexts spec.length spec with
        | none => rw [hp] at h; cases h
        | some r =>
          rw [hp] at h
          rw [← hve]
          exact renders_of _ values fmt _ _ _ _ hp h
      · rintro ⟨ns', h1, _, _, h2⟩
        cases h1
        rw [← hve] at h2
        obtain ⟨r, g1, g2⟩ := of_renders _ values fmt h2 spec.length (Nat.le_refl _)
        rw [g1]
        exact g2
    · rw [if_pos hl]
      constructor
      · intro h; cases h
      · rintro ⟨ns', h1, _, h2, _⟩
        cases h1
        exact absurd h2 hl
  · rw [if_pos hd]
    constructor
    · intro h; cases h
    · rintro ⟨ns', h1, h2, _⟩
      cases h1
      exact absurd h2 hd

/-- A string with doubled braces is formatted to itself. -/
theorem format_escape {V : Type} (fmt : V → List Nat → Option (List Nat)) (s : List Nat) :
    formatOp fmt (s.flatMap fun c => if c = 123 ∨ c = 125 then [c, c] else [c]) [] ([] : List V) = some s := by
  refine (format_renders fmt _ _ _ _).2 ⟨[], rfl, List.nodup_nil, rfl, ?_⟩
  induction s with
  | nil => exact Renders.nil
  | cons c s ih =>
    rw [List.flatMap_cons]
    by_cases h : c = 123 ∨ c = 125
    · rw [if_pos h]
      rcases h with rfl | rfl
      · exact Renders.left _ _ ih
      · exact Renders.right _ _ ih
    · rw [if_neg h]
      exact Renders.char _ _ _ (fun e => h (Or.inl e)) (fun e => h (Or.inr e)) ih

/-- Values by name; the format after a colon: "a{{{x:f}b{y}}}" -/
example : formatOp (fun (v : Nat) f => some (v :: f)) [97, 123, 123, 123, 120, 58, 102, 125, 98, 123, 121, 125, 125, 125] [121, 44, 120] [200, 201] =
    some [97, 123, 201, 102, 98, 200, 125] := by decide +kernel

end Verif.Text
