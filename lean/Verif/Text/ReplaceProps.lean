import Verif.Text.ReplaceModel
import Verif.Text.ReplaceSpec
import Verif.Text.FindLemmas

/-!
# strings.replace
-/

namespace Verif.Text

theorem replaceTail_eq {s : List Nat} {o : Nat} (h : o ≤ s.length) : replaceTail s o = some (s.drop o) := by
  unfold replaceTail; rw [if_pos h]

/-- The counter and the limit: equal, or the counter is larger than the rest of the string. -/
def Counts (k : Option Nat) (count n : Nat) : Prop := match k with
  | some m => count = m
  | none => n < count

theorem Counts.pred {k : Option Nat} {count n m : Nat} (h : Counts k (count + 1) n) (hm : m < n) : Counts (k.map (· - 1)) count m := by
  cases k with
  | none => simp only [Counts, Option.map_none] at *; omega
  | some j => simp only [Counts, Option.map_some] at *; omega

theorem Counts.ne {k : Option Nat} {count n : Nat} (h : Counts k (count + 1) n) : k ≠ some 0 := by
  rintro rfl
  simp [Counts] at h

theorem svFindFrom_spec {s sub : List Nat} {o : Nat} (h : o ≤ s.length) : match svFindFrom s sub o with
    | none => ∀ i, ¬ OccursAt sub (s.drop o) i
    | some p => ∃ j, p = o + j ∧ OccursAt sub (s.drop o) j ∧ ∀ i, i < j → ¬ OccursAt sub (s.drop o) i := by
  unfold svFindFrom
  rw [if_pos h]
  have := svFind_spec sub (s.drop o)
  cases hf : svFind sub (s.drop o) with
  | none => rw [hf] at this; exact this
  | some j => rw [hf] at this; exact ⟨j, by dsimp only [Option.map_some]; omega, this⟩

theorem replaceLoop_spec {s old new : List Nat} (hne : old ≠ []) : ∀ fuel count o k, o ≤ s.length → s.length - o < fuel →
    Counts k count (s.length - o) →
    ∃ r, replaceLoop s old new fuel count o = some r ∧ Replaced old new k (s.drop o) r := by
  intro fuel
  induction fuel with
  | zero => intro count o k ho hf; omega
  | succ fuel ih =>
    intro count o k ho hf hk
    cases count with
    | zero =>
      rw [replaceLoop, replaceTail_eq ho]
      refine ⟨_, rfl, ?_⟩
      cases k with
      | none => simp [Counts] at hk
      | some m => simp only [Counts] at hk; subst hk; exact Replaced.limit _
    | succ count =>
      rw [replaceLoop]
      have hs := svFindFrom_spec (sub := old) ho
      cases hf' : svFindFrom s old o with
      | none =>
        rw [hf'] at hs
        rw [replaceTail_eq ho]
        exact ⟨_, rfl, Replaced.done _ _ hs⟩
      | some p =>
        rw [hf'] at hs
        obtain ⟨j, rfl, hocc, hfirst⟩ := hs
        obtain ⟨a, b, hab, rfl⟩ := hocc
        have hlen : s.length - o = a.length + old.length + b.length := by
          have := congrArg List.length hab
          simp only [List.length_drop, List.length_append] at this; omega
        have hpos := List.length_pos_iff.2 hne
        have hdrop : s.drop (o + a.length + old.length) = b := by
          rw [Nat.add_assoc, ← List.drop_drop, hab, ← List.length_append, List.drop_left]
        have hk' : Counts (k.map (· - 1)) count (s.length - (o + a.length + old.length)) := hk.pred (by omega)
        obtain ⟨r, hr, hrep⟩ := ih count (o + a.length + old.length) (k.map (· - 1)) (by omega) (by omega) hk'
        have hsub := svSubstr_eq (s := s) (b := o) (e := o + a.length) (by omega) (by omega)
        rw [hab, List.append_assoc, Nat.add_sub_cancel_left, List.take_left] at hsub
        dsimp only
        rw [hsub, hr]
        refine ⟨_, rfl, ?_⟩
        rw [hdrop] at hrep
        rw [hab] at hfirst ⊢
        exact Replaced.step _ _ _ _ hk.ne hfirst hrep

theorem spreadLoop_bytes {s new : List Nat} : ∀ fuel count o k, o ≤ s.length → s.length - o < fuel →
    Counts k (count + 1) (s.length - o) →
    ∃ r, spreadLoop s new (fun _ => 1) fuel count o = some r ∧ Spread new k (s.drop o) (new ++ r) := by
  intro fuel
  induction fuel with
  | zero => intro count o k ho hf; omega
  | succ fuel ih =>
    intro count o k ho hf hk
    rcases Nat.lt_or_ge o s.length with hlt | hge
    · have hd : s.drop o = s[o] :: s.drop (o + 1) := List.drop_eq_getElem_cons hlt
      cases count with
      | zero =>
        rw [spreadLoop, replaceTail_eq ho]
        refine ⟨_, rfl, ?_⟩
        cases k with
        | none => simp only [Counts] at hk; omega
        | some m =>
          rw [hd]
          refine Spread.step _ _ _ _ hk.ne ?_
          simp only [Counts] at hk
          subst hk
          exact Spread.limit _
      | succ count =>
        rw [spreadLoop, if_pos hlt]
        obtain ⟨r, hr, hsp⟩ := ih count (o + 1) (k.map (· - 1)) (by omega) (by omega) (hk.pred (by omega))
        have hsub := svSubstr_eq (s := s) (b := o) (e := o + 1) (by omega) (by omega)
        push_cast at hsub
        push_cast
        rw [hd] at hsub
        rw [hsub, hr]
        refine ⟨_, rfl, ?_⟩
        rw [hd]
        have := Spread.step (new := new) k s[o] (s.drop (o + 1)) _ hk.ne hsp
        rw [Nat.add_sub_cancel_left, List.take_succ_cons, List.take_zero, List.append_assoc, List.singleton_append]
        exact this
    · have ho' : o = s.length := by omega
      have hd : s.drop o = [] := List.drop_eq_nil_of_le hge
      have : spreadLoop s new (fun _ => 1) (fuel + 1) count o = some [] := by
        cases count with
        | zero => rw [spreadLoop, replaceTail_eq ho, hd]
        | succ count => rw [spreadLoop, if_neg (by omega), replaceTail_eq ho, hd]
      refine ⟨[], this, ?_⟩
      rw [hd, List.append_nil]
      exact Spread.last _ hk.ne

theorem counts_of {maxSubs : Option Int} {n : Nat} (hn : n < 2 ^ 63 - 1) : Counts (limitOf maxSubs) (replaceCount maxSubs) n := by
  unfold limitOf replaceCount
  cases maxSubs with
  | none => exact hn
  | some v =>
    dsimp only
    by_cases h : v < 0
    · rw [if_pos h, if_neg (by omega)]; exact hn
    · rw [if_neg h, if_pos (by omega)]; rfl

/-- Replacing in bytes. -/
theorem bytes_replace (s old new : List Nat) (maxSubs : Option Int) (hs : s.length < 2 ^ 63 - 1) :
    ∃ r, bytesReplace s old new maxSubs = some r ∧ ReplacedBy old new (limitOf maxSubs) s r := by
  unfold bytesReplace replaceImpl
  by_cases h : old = []
  · rw [if_pos h]
    have hc := counts_of (maxSubs := maxSubs) hs
    cases hk : replaceCount maxSubs with
    | zero =>
      rw [replaceTail_eq (Nat.zero_le _)]
      refine ⟨_, rfl, fun _ => ?_, fun h' => absurd h h'⟩
      rw [hk] at hc
      cases hl : limitOf maxSubs with
      | none => rw [hl] at hc; simp [Counts] at hc
      | some m => rw [hl] at hc; simp only [Counts] at hc; subst hc; exact Spread.limit _
    | succ count =>
      rw [hk] at hc
      obtain ⟨r, h1, h2⟩ := spreadLoop_bytes (s := s) (new := new) (s.length + 1) count 0 (limitOf maxSubs) (Nat.zero_le _) (by omega) (by simpa using hc)
      dsimp only
      rw [h1]
      exact ⟨_, rfl, fun _ => h2, fun h' => absurd h h'⟩
  · rw [if_neg h]
    obtain ⟨r, h1, h2⟩ := replaceLoop_spec (s := s) (new := new) h (s.length + 1) (replaceCount maxSubs) 0 (limitOf maxSubs) (Nat.zero_le _)
      (by omega) (by simpa using counts_of hs)
    exact ⟨r, h1, fun h' => absurd h' h, fun _ => h2⟩

/-- Replacing the encoded text gives the encoded result. -/
theorem replaced_encs {old new : List Nat} (ho : IsText old) (hne : old ≠ []) {k : Option Nat} {x y : List Nat}
    (h : Replaced (encs old) (encs new) k x y) : ∀ s, IsText s → x = encs s → ∃ r, y = encs r ∧ Replaced old new k s r := by
  induction h with
  | limit x => intro s _ hx; exact ⟨s, hx, Replaced.limit _⟩
  | done k x hno =>
    intro s hs hx
    refine ⟨s, hx, Replaced.done _ _ ?_⟩
    intro i hi
    subst hx
    exact hno _ ((occursAt_encs ho hs hne _).2 ⟨i, hi, rfl⟩)
  | step k a b y hk hfirst _ ih =>
    intro s hs hx
    obtain ⟨s1, s2, rfl, rfl, rfl⟩ := encs_infix ho hs hne hx.symm
    have hs' := IsText.append.1 hs
    obtain ⟨r, rfl, hr⟩ := ih s2 hs'.2 rfl
    refine ⟨s1 ++ new ++ r, by simp only [encs_append], Replaced.step _ _ _ _ hk ?_ hr⟩
    intro i hi hocc
    rw [hx] at hfirst
    refine hfirst _ ?_ ((occursAt_encs ho hs hne _).2 ⟨i, hocc, rfl⟩)
    have hi' : (s1 ++ old ++ s2).take i = s1.take i := by
      rw [List.append_assoc, List.take_append_of_le_length (by omega)]
    rw [hi']
    have : s1 = s1.take i ++ s1.drop i := (List.take_append_drop i s1).symm
    have h2 : (encs s1).length = (encs (s1.take i)).length + (encs (s1.drop i)).length := by
      conv_lhs => rw [this, encs_append, List.length_append]
    have h3 : 0 < (encs (s1.drop i)).length := encs_length_pos (by
      intro h0
      have := congrArg List.length h0
      simp at this; omega)
    omega

theorem spreadLoop_text {new : List Nat} : ∀ (p s : List Nat), IsText s → ∀ fuel count k, (encs s).length < fuel →
    Counts k (count + 1) s.length →
    ∃ r, spreadLoop (encs (p ++ s)) (encs new) (fun r => (u8Next r).2) fuel count (encs p).length = some (encs r) ∧ Spread new k s (new ++ r) := by
  intro p s
  induction s generalizing p with
  | nil =>
    intro _ fuel count k hf hk
    have hd : (encs p).drop (encs p).length = [] := List.drop_eq_nil_of_le (Nat.le_refl _)
    refine ⟨[], ?_, by rw [List.append_nil]; exact Spread.last _ hk.ne⟩
    rw [List.append_nil]
    cases fuel with
    | zero => omega
    | succ fuel =>
      cases count with
      | zero => rw [spreadLoop, replaceTail_eq (Nat.le_refl _), hd]; rfl
      | succ count => rw [spreadLoop, if_neg (Nat.lt_irrefl _), replaceTail_eq (Nat.le_refl _), hd]; rfl
  | cons c s ih =>
    intro hs fuel count k hf hk
    have hc := hs.head
    have hpos := List.length_pos_iff.2 (enc_ne c)
    have hlen : (encs (p ++ c :: s)).length = (encs p).length + (enc c).length + (encs s).length := by
      rw [encs_append, encs_cons]; simp only [List.length_append]; omega
    have hd : (encs (p ++ c :: s)).drop (encs p).length = enc c ++ encs s := by rw [encs_append, List.drop_left, encs_cons]
    rw [encs_cons, List.length_append] at hf
    cases fuel with
    | zero => omega
    | succ fuel =>
      cases count with
      | zero =>
        rw [spreadLoop, replaceTail_eq (by omega), hd]
        refine ⟨c :: s, by rw [encs_cons], Spread.step _ _ _ _ hk.ne ?_⟩
        cases k with
        | none => simp only [Counts, List.length_cons] at hk; omega
        | some m => simp only [Counts] at hk; subst hk; exact Spread.limit _
      | succ count =>
        rw [spreadLoop, if_pos (by omega), hd, u8Next_enc hc]
        dsimp only
        obtain ⟨r, hr, hsp⟩ := ih (p ++ [c]) hs.tail fuel count (k.map (· - 1)) (by omega) (hk.pred (by simp))
        have hp : (encs (p ++ [c])).length = (encs p).length + (enc c).length := by
          rw [encs_append, encs_cons, encs_nil]; simp
        rw [hp, List.append_assoc, List.singleton_append] at hr
        have hsub := svSubstr_eq (s := encs (p ++ c :: s)) (b := (encs p).length) (e := (encs p).length + (enc c).length) (by omega) (by omega)
        rw [hd, Nat.add_sub_cancel_left, List.take_left] at hsub
        push_cast at hsub
        rw [hsub, hr]
        refine ⟨c :: (new ++ r), by simp only [encs_append, encs_cons, List.append_assoc], ?_⟩
        exact Spread.step _ _ _ _ hk.ne hsp

/-- Replacing in texts replaces code points. -/
theorem text_replace (s old new : List Nat) (maxSubs : Option Int) (hs : IsText s) (ho : IsText old)
    (hn : (encs s).length < 2 ^ 63 - 1) :
    ∃ r, textReplace (encs s) (encs old) (encs new) maxSubs = some (encs r) ∧ ReplacedBy old new (limitOf maxSubs) s r := by
  unfold textReplace replaceImpl
  have hls := length_le_encs s
  by_cases h : old = []
  · rw [if_pos (encs_eq_nil.2 h)]
    have hc := counts_of (maxSubs := maxSubs) (n := s.length) (by omega)
    cases hk : replaceCount maxSubs with
    | zero =>
      rw [replaceTail_eq (Nat.zero_le _)]
      refine ⟨s, rfl, fun _ => ?_, fun h' => absurd h h'⟩
      rw [hk] at hc
      cases hl : limitOf maxSubs with
      | none => rw [hl] at hc; simp [Counts] at hc
      | some m => rw [hl] at hc; simp only [Counts] at hc; subst hc; exact Spread.limit _
    | succ count =>
      rw [hk] at hc
      obtain ⟨r, h1, h2⟩ := spreadLoop_text (new := new) [] s hs ((encs s).length + 1) count (limitOf maxSubs) (by omega) hc
      rw [List.nil_append, encs_nil, List.length_nil] at h1
      dsimp only
      rw [h1]
      exact ⟨new ++ r, by rw [encs_append]; rfl, fun _ => h2, fun h' => absurd h h'⟩
  · rw [if_neg (fun e => h (encs_eq_nil.1 e))]
    obtain ⟨r, h1, h2⟩ := replaceLoop_spec (s := encs s) (new := encs new) (fun e => h (encs_eq_nil.1 e)) ((encs s).length + 1)
      (replaceCount maxSubs) 0 (limitOf maxSubs) (Nat.zero_le _) (by omega) (by simpa using counts_of hn)
    rw [List.drop_zero] at h2
    obtain ⟨q, rfl, hq⟩ := replaced_encs ho h h2 s hs rfl
    exact ⟨q, h1, fun h' => absurd h' h, fun _ => hq⟩

/-- The result is determined. -/
theorem replaced_unique {α : Type} {old new : List α} (hne : old ≠ []) {k : Option Nat} {s r : List α} (h : Replaced old new k s r) :
    ∀ r', Replaced old new k s r' → r = r' := by
  induction h with
  | limit s =>
    intro r' h'
    cases h' with
    | limit => rfl
    | done => rfl
    | step _ _ _ _ h1 => exact absurd rfl h1
  | done k s hno =>
    intro r' h'
    cases h' with
    | limit => rfl
    | done => rfl
    | step _ a b => exact absurd ⟨a, b, rfl, rfl⟩ (hno a.length)
  | step k a b r hk hfirst _ ih =>
    intro r' h'
    generalize hs : a ++ old ++ b = s at h'
    cases h' with
    | limit => exact absurd rfl hk
    | done _ _ hno => exact absurd ⟨a, b, hs.symm, rfl⟩ (hno a.length)
    | step _ a' b' r' _ hfirst' hrep =>
      have h1 : ¬ a.length < a'.length := fun hlt => hfirst' _ hlt ⟨a, b, hs.symm, rfl⟩
      have h2 : ¬ a'.length < a.length := fun hlt => hfirst _ hlt ⟨a', b', hs, rfl⟩
      rw [List.append_assoc, List.append_assoc] at hs
      obtain ⟨rfl, h3⟩ := List.append_inj hs (by omega)
      have := List.append_cancel_left h3
      subst this
      rw [ih _ hrep]

example : bytesReplace [97, 97, 97, 98, 97, 97] [97, 97] [120] none = some [120, 97, 98, 120] := by decide +kernel
example : bytesReplace [97, 98] [] [45] (some 2) = some [45, 97, 45, 98] := by decide +kernel
example : textReplace (encs [233, 0x20AC]) [] (encs [45]) (some (-1)) = some (encs [45, 233, 45, 0x20AC, 45]) := by decide +kernel

end Verif.Text
