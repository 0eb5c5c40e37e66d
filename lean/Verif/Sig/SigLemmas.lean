import Verif.Sig.SigSpec

/-!
# Lemmas about signatures
-/

namespace Verif.Sig
open Verif.Str

variable {V E : Type}

theorem checkNames_iff : ∀ {ps : List (Param V)}, checkNames ps = .ok () ↔ ∀ p ∈ ps, Str.Ident p.name := by
  intro ps
  induction ps with
  | nil => simp [checkNames]
  | cons p ps ih =>
    rw [checkNames]
    by_cases h : isIdentifier p.name = true
    · rw [if_pos h, ih]
      have := (is_identifier_iff p.name).1 h
      simp [this]
    · rw [if_neg h]
      have := mt (is_identifier_iff p.name).2 h
      simp [this]

theorem checkUnique_iff : ∀ {ps : List (Param V)} {seen : List (List Nat)}, checkUnique seen ps = .ok () ↔
    (ps.map Param.name).Nodup ∧ ∀ p ∈ ps, p.name ∉ seen := by
  intro ps
  induction ps with
  | nil => simp [checkUnique]
  | cons p ps ih =>
    intro seen
    rw [checkUnique]
    by_cases h : p.name ∈ seen
    · simp [h]
    · rw [if_neg h, ih]
      simp only [List.map_cons, List.nodup_cons, List.mem_map, List.mem_cons, not_or, forall_eq_or_imp]
      constructor
      · rintro ⟨h1, h2⟩
        exact ⟨⟨fun ⟨q, hq, hn⟩ => (h2 q hq).1 hn, h1⟩, h, fun q hq => (h2 q hq).2⟩
      · rintro ⟨⟨h1, h2⟩, _, h3⟩
        exact ⟨h2, fun q hq => ⟨fun hn => h1 ⟨q, hq, hn⟩, h3 q hq⟩⟩

theorem checkKinds_iff : ∀ {ps : List (Param V)}, checkKinds ps = .ok () ↔
    ∀ p ∈ ps, p.kind = .positional ∨ p.kind = .variadic := by
  intro ps
  induction ps with
  | nil => simp [checkKinds]
  | cons p ps ih =>
    rw [checkKinds]
    by_cases h : p.kind ≠ .positional ∧ p.kind ≠ .variadic
    · simp [h]
    · rw [if_neg h, ih]
      simp only [List.mem_cons, forall_eq_or_imp]
      have : p.kind = .positional ∨ p.kind = .variadic := by
        by_cases h1 : p.kind = .positional
        · exact Or.inl h1
        · by_cases h2 : p.kind = .variadic
          · exact Or.inr h2
          · exact absurd ⟨h1, h2⟩ h
      simp [this]

/-- All the parameters but the last are positional, the last is positional or a variadic without default. -/
inductive Shape : List (Param V) → Prop
  | pos {pos : List (Param V)} : (∀ p ∈ pos, p.kind = .positional) → Shape pos
  | var {pos : List (Param V)} {v : Param V} : (∀ p ∈ pos, p.kind = .positional) → v.kind = .variadic → v.dflt = none →
      Shape (pos ++ [v])

/-- Once a positional parameter has a default, so have the following ones. -/
def Suffix (ps : List (Param V)) : Prop :=
  ∀ (i j : Nat) (p q : Param V), i < j → ps[i]? = some p → ps[j]? = some q → p.dflt.isSome →
    q.kind = .positional → q.dflt.isSome

theorem shape_cons {p : Param V} {ps : List (Param V)} (h : Shape ps) (hp : p.kind = .positional) : Shape (p :: ps) := by
  cases h with
  | pos h => exact .pos (by simp [hp]; exact h)
  | var h1 h2 h3 =>
    rename_i pos v
    have : p :: (pos ++ [v]) = (p :: pos) ++ [v] := rfl
    rw [this]
    exact .var (by simp [hp]; exact h1) h2 h3

theorem shape_of_check : ∀ {ps : List (Param V)}, checkKinds ps = .ok () → checkVariadic ps = .ok () → Shape ps := by
  intro ps
  induction ps with
  | nil => intro _ _; exact .pos (by simp)
  | cons p ps ih =>
    intro hk hv
    have hk' := checkKinds_iff.1 hk
    cases ps with
    | nil =>
      rcases hk' p (by simp) with h | h
      · exact .pos (by simpa using h)
      · have : ([p] : List (Param V)) = [] ++ [p] := rfl
        rw [this]
        refine .var (by simp) h ?_
        simp only [checkVariadic, checkVariadicLoop, List.getLast?_singleton, h, true_and] at hv
        split at hv
        · cases hv
        · rename_i hn
          cases hd : p.dflt with
          | none => rfl
          | some x => rw [hd] at hn; simp at hn
    | cons q ps =>
      have hp : p.kind ≠ .variadic := by
        intro hp
        simp [checkVariadic, checkVariadicLoop, hp] at hv
      have hpp : p.kind = .positional := by
        rcases hk' p (by simp) with h | h
        · exact h
        · exact absurd h hp
      refine shape_cons (ih ?_ ?_) hpp
      · exact checkKinds_iff.2 (fun r hr => hk' r (by simp at hr ⊢; exact Or.inr hr))
      · rw [checkVariadic, checkVariadicLoop, if_neg hp] at hv
        rw [checkVariadic]
        rw [List.getLast?_cons_cons] at hv
        exact hv

theorem check_of_shape : ∀ {ps : List (Param V)}, Shape ps → checkKinds ps = .ok () ∧ checkVariadic ps = .ok () := by
  have key : ∀ {pos : List (Param V)} {v : List (Param V)}, (∀ p ∈ pos, p.kind = .positional) → v.length ≤ 1 →
      checkVariadicLoop (pos ++ v) = .ok () := by
    intro pos
    induction pos with
    | nil =>
      intro v _ hv
      match v with
      | [] => rfl
      | [_] => rfl
      | _ :: _ :: _ => simp at hv
    | cons p pos ih =>
      intro v hp hv
      have := ih (v := v) (fun q hq => hp q (by simp [hq])) hv
      cases h : pos ++ v with
      | nil => simp [h, checkVariadicLoop]
      | cons q r =>
        rw [List.cons_append, h, checkVariadicLoop, if_neg, ← h, this]
        rw [hp p (by simp)]; decide
  intro ps h
  cases h with
  | pos h =>
    refine ⟨checkKinds_iff.2 (fun p hp => Or.inl (h p hp)), ?_⟩
    have := key (v := []) h (by simp)
    rw [List.append_nil] at this
    rw [checkVariadic, this]
    cases hl : ps.getLast? with
    | none => rfl
    | some p =>
      have := h p (List.mem_of_getLast? hl)
      simp [this]
  | var h1 h2 h3 =>
    rename_i pos v
    refine ⟨checkKinds_iff.2 (fun p hp => ?_), ?_⟩
    · rcases List.mem_append.1 hp with h | h
      · exact Or.inl (h1 p h)
      · simp at h; subst h; exact Or.inr h2
    · rw [checkVariadic, key (v := [v]) h1 (by simp)]
      simp [h3]

theorem checkDefaults_iff : ∀ {ps : List (Param V)} {had : Bool}, Shape ps → (checkDefaults had ps = .ok () ↔
    Suffix ps ∧ (had = true → ∀ p ∈ ps, p.kind = .positional → p.dflt.isSome)) := by
  intro ps
  induction ps with
  | nil => intro had _; simp [checkDefaults, Suffix]
  | cons p ps ih =>
    intro had hs
    rw [checkDefaults]
    by_cases hp : p.kind = .positional
    · have hs' : Shape ps := by
        obtain ⟨a, b⟩ := check_of_shape hs
        refine shape_of_check (checkKinds_iff.2 fun q hq => checkKinds_iff.1 a q (by simp [hq])) ?_
        cases ps with
        | nil => rfl
        | cons q ps =>
          rw [checkVariadic, checkVariadicLoop, if_neg (by rw [hp]; decide), List.getLast?_cons_cons] at b
          exact b
      have suf : Suffix (p :: ps) ↔ Suffix ps ∧ (p.dflt.isSome → ∀ q ∈ ps, q.kind = .positional → q.dflt.isSome) := by
        constructor
        · intro h
          refine ⟨fun i j a b hij ha hb => h (i + 1) (j + 1) a b (by omega) (by simpa using ha) (by simpa using hb), ?_⟩
          intro hd q hq hk
          obtain ⟨k, hk', hk2⟩ := List.getElem_of_mem hq
          exact h 0 (k + 1) p q (by omega) (by simp) (by simp [hk', hk2]) hd hk
        · rintro ⟨h1, h2⟩ i j a b hij ha hb hd hk
          cases j with
          | zero => omega
          | succ j =>
            cases i with
            | zero =>
              simp at ha hb
              subst ha
              exact h2 hd b (List.mem_of_getElem? hb) hk
            | succ i => exact h1 i j a b (by omega) (by simpa using ha) (by simpa using hb) hd hk
      rw [if_neg (by simp [hp]), suf]
      cases hd : p.dflt with
      | none =>
        simp only [Option.isNone_none, if_true, Option.isSome_none, Bool.false_eq_true, false_implies, and_true]
        cases had with
        | true => simp [hp, hd]
        | false => rw [if_neg (by simp), ih hs']; simp
      | some x =>
        simp only [Option.isNone_some, Bool.false_eq_true, if_false, Option.isSome_some, true_implies]
        rw [ih hs']
        constructor
        · rintro ⟨h1, h2⟩
          refine ⟨⟨h1, h2 rfl⟩, fun _ q hq hk => ?_⟩
          rcases List.mem_cons.1 hq with h | h
          · subst h; rw [hd]; rfl
          · exact h2 rfl q h hk
        · rintro ⟨⟨h1, h2⟩, _⟩
          exact ⟨h1, fun _ => h2⟩
    · rw [if_pos hp]
      have hps : ps = [] ∧ p.kind = .variadic := by
        have hk : p.kind = .variadic := by
          rcases checkKinds_iff.1 (check_of_shape hs).1 p (by simp) with h | h
          · exact absurd h hp
          · exact h
        refine ⟨?_, hk⟩
        cases ps with
        | nil => rfl
        | cons q r =>
          have := (check_of_shape hs).2
          simp [checkVariadic, checkVariadicLoop, hk] at this
      obtain ⟨rfl, hk⟩ := hps
      simp only [true_iff]
      refine ⟨fun i j a b hij ha hb => ?_, fun _ q hq h => ?_⟩
      · cases j with
        | zero => omega
        | succ j => simp at hb
      · simp at hq; subst hq; exact absurd h hp

theorem shape_iff {ps : List (Param V)} : Shape ps ↔ ∀ (i : Nat) (p : Param V), ps[i]? = some p →
    p.kind = .positional ∨ (p.kind = .variadic ∧ p.dflt = none ∧ i + 1 = ps.length) := by
  constructor
  · intro h i p hi
    cases h with
    | pos h => exact Or.inl (h p (List.mem_of_getElem? hi))
    | var h1 h2 h3 =>
      rename_i pos v
      rw [List.getElem?_append] at hi
      split at hi
      · exact Or.inl (h1 p (List.mem_of_getElem? hi))
      · rename_i hge
        have : i - pos.length = 0 := by
          have := (List.getElem?_eq_some_iff.1 hi).1
          simp at this; omega
        rw [this] at hi
        simp at hi
        subst hi
        exact Or.inr ⟨h2, h3, by simp; omega⟩
  · intro h
    rcases List.eq_nil_or_concat ps with hn | ⟨pos, v, rfl⟩
    · subst hn; exact .pos (by simp)
    · rw [List.concat_eq_append] at h ⊢
      have hpos : ∀ p ∈ pos, p.kind = .positional := by
        intro p hp
        obtain ⟨i, hi, hip⟩ := List.getElem_of_mem hp
        rcases h i p (by rw [List.getElem?_append_left hi, ← hip]; exact List.getElem?_eq_getElem hi) with h | ⟨_, _, h⟩
        · exact h
        · simp at h; omega
      rcases h pos.length v (by simp) with h | ⟨h2, h3, _⟩
      · refine .pos (fun p hp => ?_)
        rcases List.mem_append.1 hp with hp | hp
        · exact hpos p hp
        · simp at hp; subst hp; exact h
      · exact .var hpos h2 h3

theorem checkAux_iff {n : List Nat} : checkAux n = .ok () ↔ 58 ∉ n := by
  unfold checkAux colon
  split <;> simp_all

theorem bind_unit {x : Except Err Unit} {y : Unit → Except Err Unit} :
    (x >>= y) = .ok () ↔ x = .ok () ∧ y () = .ok () := by
  cases x with
  | error e => simp [bind, Except.bind]
  | ok u => cases u; simp [bind, Except.bind]

theorem validate_iff' {s : Signature V} : validate s = .ok () ↔ Valid s := by
  unfold validate
  simp only [bind_unit]
  rw [checkNames_iff, checkUnique_iff, checkAux_iff]
  constructor
  · rintro ⟨h1, h2, h3, h4, h5, h6⟩
    have hs := shape_of_check h3 h5
    exact ⟨h1, h2.1, shape_iff.1 hs, ((checkDefaults_iff hs).1 h4).1, h6⟩
  · rintro ⟨h1, h2, h3, h4, h5⟩
    have hs := shape_iff.2 h3
    exact ⟨h1, ⟨h2, by simp⟩, (check_of_shape hs).1, (checkDefaults_iff hs).2 ⟨h4, by simp⟩, (check_of_shape hs).2, h5⟩

end Verif.Sig
