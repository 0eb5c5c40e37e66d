import Verif.FModel.FModelProps

/-!
# Which forest models can be created
-/

namespace Verif.FModel

/-- Placeholders of an expression are among the given names, and there are no leaves. -/
def OnlyNames (names : Key → Prop) (e : E) : Prop :=
  ∀ t ∈ tips e, match t with
    | .lit _ => True
    | .src (.leaf _) => False
    | .src (.ph k) => names k

/-- The documented requirements on the arguments of `ForestModel::Create`. -/
structure Acceptable (a : Args) : Prop where
  names : a.inputs.Nodup
  apart : ∀ n ∈ a.inputs, ∀ s ∈ a.submodelIds, s.1 ≠ n
  required : ∀ k ∈ a.required, 0 ≤ k ∧ k < a.inputs.length
  expression : OnlyNames (fun k => k ∈ a.inputs ∨ ∃ s ∈ a.submodelIds, s.1 = k) a.expression
  used : ∀ s ∈ a.submodelIds, Tip.src (.ph s.1) ∈ tips a.expression
  filters : ∀ fs, a.oob = some fs → ∀ f ∈ fs, OnlyNames (fun k => k ∈ a.inputs) f
  bags : a.submodelIds ≠ [] → ∃ n, 0 < n ∧ (∀ s ∈ a.submodelIds, s.2.length = n) ∧
    ∀ fs, a.oob = some fs → fs.length = n

theorem lookup_isSome_iff (l : List (Key × List Int)) (k : Key) :
    (l.lookup k).isSome = true ↔ ∃ s ∈ l, s.1 = k := by
  induction l with
  | nil => simp
  | cons q l ih =>
    obtain ⟨k0, s0⟩ := q
    rw [List.lookup_cons]
    by_cases h : k = k0
    · subst h
      simp
    · rw [show (k == k0) = false from beq_false_of_ne h]
      simp only
      rw [ih]
      simp only [List.mem_cons, or_and_right, exists_or, exists_eq_left]
      constructor
      · exact Or.inr
      · rintro (h1 | h1)
        · exact absurd h1.symm h
        · exact h1

theorem validateTips_iff (a : Args) (l : List Tip) : validateTips a l = .ok () ↔
    ∀ t ∈ l, match t with
      | .lit _ => True
      | .src (.leaf _) => False
      | .src (.ph k) => k ∈ a.inputs ∨ ∃ s ∈ a.submodelIds, s.1 = k := by
  induction l with
  | nil => simp [validateTips]
  | cons t l ih =>
    rw [List.forall_mem_cons]
    match t with
    | .lit v => rw [validateTips, ih]; simp
    | .src (.leaf k) => rw [validateTips]; simp
    | .src (.ph k) =>
      rw [validateTips]
      have hc : ((a.submodelIds.lookup k).isSome || a.inputs.contains k) = true ↔
          (k ∈ a.inputs ∨ ∃ s ∈ a.submodelIds, s.1 = k) := by
        rw [Bool.or_eq_true, lookup_isSome_iff, List.contains_iff_mem, or_comm]
      by_cases h : ((a.submodelIds.lookup k).isSome || a.inputs.contains k) = true
      · rw [if_pos h, ih]
        exact ⟨fun h2 => ⟨hc.1 h, h2⟩, fun h2 => h2.2⟩
      · rw [if_neg h]
        exact ⟨fun h2 => (nomatch h2), fun h2 => absurd (hc.2 h2.1) h⟩

theorem validateOobTips_iff (a : Args) (l : List Tip) : validateOobTips a l = .ok () ↔
    ∀ t ∈ l, match t with
      | .lit _ => True
      | .src (.leaf _) => False
      | .src (.ph k) => k ∈ a.inputs := by
  induction l with
  | nil => simp [validateOobTips]
  | cons t l ih =>
    rw [List.forall_mem_cons]
    match t with
    | .lit v => rw [validateOobTips, ih]; simp
    | .src (.leaf k) => rw [validateOobTips]; simp
    | .src (.ph k) =>
      rw [validateOobTips]
      by_cases h : a.inputs.contains k = true
      · rw [if_pos h, ih]
        exact ⟨fun h2 => ⟨List.contains_iff_mem.1 h, h2⟩, fun h2 => h2.2⟩
      · rw [if_neg h]
        exact ⟨fun h2 => (nomatch h2), fun h2 => absurd (List.contains_iff_mem.2 h2.1) h⟩

theorem validateOob_iff (a : Args) (fs : List E) : validateOob a fs = .ok () ↔
    ∀ f ∈ fs, OnlyNames (fun k => k ∈ a.inputs) f := by
  induction fs with
  | nil => simp [validateOob]
  | cons f fs ih =>
    rw [List.forall_mem_cons, validateOob]
    have h := validateOobTips_iff a (visited f)
    have hv : (∀ t ∈ visited f, match t with
      | .lit _ => True
      | .src (.leaf _) => False
      | .src (.ph k) => k ∈ a.inputs) ↔ OnlyNames (fun k => k ∈ a.inputs) f := by
      unfold OnlyNames visited
      simp only [List.mem_dedup]
    rw [hv] at h
    rw [← h, ← ih]
    cases validateOobTips a (visited f) with
    | error e => simp
    | ok u => simp

theorem validateInputs_iff (a : Args) : validateInputs a = .ok () ↔
    (∀ n ∈ a.inputs, ∀ s ∈ a.submodelIds, s.1 ≠ n) ∧ ∀ k ∈ a.required, 0 ≤ k ∧ k < a.inputs.length := by
  unfold validateInputs
  by_cases h1 : (a.inputs.any fun n => (a.submodelIds.lookup n).isSome) = true
  · rw [if_pos h1]
    constructor
    · intro h; cases h
    · rintro ⟨h, -⟩
      obtain ⟨n, h2, h3⟩ := List.any_eq_true.1 h1
      obtain ⟨s, h4, h5⟩ := (lookup_isSome_iff _ _).1 h3
      exact absurd h5 (h n h2 s h4)
  · rw [if_neg h1]
    have h1' : ∀ n ∈ a.inputs, ∀ s ∈ a.submodelIds, s.1 ≠ n := by
      intro n hn s hs he
      exact h1 (List.any_eq_true.2 ⟨n, hn, (lookup_isSome_iff _ _).2 ⟨s, hs, he⟩⟩)
    by_cases h2 : (a.required.any fun k => decide (k < 0 ∨ a.inputs.length ≤ k)) = true
    · rw [if_pos h2]
      constructor
      · intro h; cases h
      · rintro ⟨-, h⟩
        obtain ⟨k, h3, h4⟩ := List.any_eq_true.1 h2
        have := h k h3
        have h4 := of_decide_eq_true h4
        omega
    · rw [if_neg h2]
      refine ⟨fun _ => ⟨h1', ?_⟩, fun _ => rfl⟩
      intro k hk
      by_contra hc
      exact h2 (List.any_eq_true.2 ⟨k, hk, decide_eq_true (by omega)⟩)

theorem validateExpression_iff (a : Args) : validateExpression a = .ok () ↔
    OnlyNames (fun k => k ∈ a.inputs ∨ ∃ s ∈ a.submodelIds, s.1 = k) a.expression ∧
      ∀ s ∈ a.submodelIds, Tip.src (.ph s.1) ∈ tips a.expression := by
  unfold validateExpression
  have h := validateTips_iff a (visited a.expression)
  have hv : (∀ t ∈ visited a.expression, match t with
      | .lit _ => True
      | .src (.leaf _) => False
      | .src (.ph k) => k ∈ a.inputs ∨ ∃ s ∈ a.submodelIds, s.1 = k) ↔
      OnlyNames (fun k => k ∈ a.inputs ∨ ∃ s ∈ a.submodelIds, s.1 = k) a.expression := by
    unfold OnlyNames visited
    simp only [List.mem_dedup]
  rw [hv] at h
  have hall : (a.submodelIds.all fun s => (visited a.expression).contains (.src (.ph s.1))) = true ↔
      ∀ s ∈ a.submodelIds, Tip.src (.ph s.1) ∈ tips a.expression := by
    rw [List.all_eq_true]
    simp only [List.contains_iff_mem, visited, List.mem_dedup]
  rw [← h, ← hall]
  cases validateTips a (visited a.expression) with
  | error e => simp
  | ok u =>
    simp only [true_and]
    split
    · rename_i h1; exact ⟨fun _ => h1, fun _ => rfl⟩
    · rename_i h1; exact ⟨fun h2 => (nomatch h2), fun h2 => absurd h2 h1⟩

theorem analyzeTips_ok (ids : List (Key × List Int)) (n : Nat) (hn : 0 < n)
    (hids : ∀ k s, ids.lookup k = some s → s.length = n) :
    ∀ (l : List Tip) (bags : Nat), bags = 0 ∨ bags = n → ∃ r, analyzeTips ids l bags = .ok r := by
  intro l
  induction l with
  | nil => intro bags _; exact ⟨_, rfl⟩
  | cons t l ih =>
    intro bags hb
    have hother : ∃ r, (match analyzeTips ids l bags with
        | .error e => .error e
        | .ok (b, sn, pn) => .ok (b, sn, t :: pn) : Except Err (Nat × List Key × List Tip)) = .ok r := by
      obtain ⟨⟨b, sn, pn⟩, h⟩ := ih bags hb
      rw [h]; exact ⟨_, rfl⟩
    match t, hother with
    | .lit v, hother => rw [analyzeTips]; exact hother; all_goals simp
    | .src (.leaf k), hother => rw [analyzeTips]; exact hother; all_goals simp
    | .src (.ph k), hother =>
      rw [analyzeTips]
      cases hk : ids.lookup k with
      | none => simp only; exact hother
      | some s =>
        have hl := hids k s hk
        simp only
        rw [if_neg (by
          rw [List.isEmpty_iff]
          rintro rfl
          rw [List.length_nil] at hl; omega), if_neg (by omega)]
        obtain ⟨⟨b, sn, pn⟩, h⟩ := ih s.length (Or.inr hl)
        rw [h]; exact ⟨_, rfl⟩

theorem bagParams_ok (key : Key) (bag : Nat) : ∀ (ids : List (Key × List Int)) (i : Nat),
    (∀ s ∈ ids, bag < s.2.length) → ∃ r, bagParams key bag ids i = .ok r := by
  intro ids
  induction ids with
  | nil => intro i _; exact ⟨_, rfl⟩
  | cons q ids ih =>
    intro i h
    obtain ⟨k, s⟩ := q
    rw [bagParams, List.getElem?_eq_getElem (h (k, s) (by simp))]
    obtain ⟨r, hr⟩ := ih (i + 1) (fun x hx => h x (by simp [hx]))
    simp only
    rw [hr]; exact ⟨_, rfl⟩

theorem bagLoop_ok (a : Args) (key : Key) (n : Nat) (hlen : ∀ s ∈ a.submodelIds, s.2.length = n) :
    ∀ (todo : List (Option E)) (bag i : Nat), bag + todo.length ≤ n →
      ∃ r, bagLoop a key todo bag i = .ok r ∧ r.1.length = todo.length := by
  intro todo
  induction todo with
  | nil => intro bag i _; exact ⟨_, rfl, rfl⟩
  | cons f todo ih =>
    intro bag i h
    rw [List.length_cons] at h
    obtain ⟨⟨ps, ids⟩, hp⟩ := bagParams_ok key bag a.submodelIds i
      (fun s hs => by rw [hlen s hs]; omega)
    obtain ⟨⟨bs, more⟩, h1, h2⟩ := ih (bag + 1) (i + ids.length) (by omega)
    rw [bagLoop, hp]
    simp only
    rw [h1]
    exact ⟨_, rfl, by simpa using h2⟩

theorem handleBags_ok (a : Args) (key : Key) (n : Nat) (hn : 0 < n)
    (hlen : ∀ s ∈ a.submodelIds, s.2.length = n) (hoob : ∀ fs, a.oob = some fs → fs.length = n) :
    ∃ p, handleBags a key n = .ok p := by
  have hf : (bagFilters n a.oob).length = n := by
    unfold bagFilters
    cases ho : a.oob with
    | none => simp
    | some fs => simpa using hoob fs ho
  obtain ⟨⟨bs, ids⟩, h1, h2⟩ := bagLoop_ok a key n hlen (bagFilters n a.oob) 0 0 (by omega)
  unfold handleBags
  rw [h1]
  cases bs with
  | nil => rw [hf] at h2; simp at h2; omega
  | cons b bs => exact ⟨_, rfl⟩

/-- `Create` succeeds exactly for the documented arguments: distinct input names which are not names of submodels, enough
inputs for the forest, an expression and filters without leaves and unknown placeholders, every submodel used, and the
same positive number of bags for all submodels and filters.  `hused`: lowering the expression does not remove a submodel
(otherwise its number of bags is not looked at). -/
theorem create_accepts (a : Args) (low : E) (hk : (a.submodelIds.map Prod.fst).Nodup)
    (hused : ∀ s ∈ a.submodelIds, Tip.src (.ph s.1) ∈ tips low) :
    (∃ m, create a low = .ok m) ↔ Acceptable a := by
  constructor
  · rintro ⟨m, hc⟩
    have hbags : a.submodelIds ≠ [] → ∃ n, 0 < n ∧ (∀ s ∈ a.submodelIds, s.2.length = n) ∧
        ∀ fs, a.oob = some fs → fs.length = n := by
      intro hsub
      have hb := bag_counts hc hsub
      obtain ⟨key, s0, rest, info, p, hids, -, hoob, -, rfl⟩ := create_info hc hsub
      have hlen : ∀ s ∈ a.submodelIds, s.2.length = info.bagCount ∧ 0 < info.bagCount := fun s hs =>
        hb s.1 s.2 (lookup_of_mem hk hs) (hused s hs)
      exact ⟨info.bagCount, (hlen (key, s0) (by rw [hids]; simp)).2, fun s hs => (hlen s hs).1, hoob⟩
    unfold create at hc
    split at hc
    · cases hc
    · rename_i hnd
      cases h1 : validateInputs a with
      | error e => rw [h1] at hc; cases hc
      | ok u =>
        rw [h1] at hc
        simp only at hc
        cases h2 : validateExpression a with
        | error e => rw [h2] at hc; cases hc
        | ok u2 =>
          rw [h2] at hc
          simp only at hc
          cases h3 : validateOob a (a.oob.getD []) with
          | error e => rw [h3] at hc; cases hc
          | ok u3 =>
            obtain ⟨i1, i2⟩ := (validateInputs_iff a).1 h1
            obtain ⟨e1, e2⟩ := (validateExpression_iff a).1 h2
            have o := (validateOob_iff a _).1 h3
            refine ⟨Classical.not_not.1 hnd, i1, i2, e1, e2, ?_, hbags⟩
            intro fs hfs
            rw [hfs] at o
            exact o
  · intro h
    unfold create
    rw [if_neg (by simpa using h.names), (validateInputs_iff a).2 ⟨h.apart, h.required⟩]
    simp only
    rw [(validateExpression_iff a).2 ⟨h.expression, h.used⟩]
    simp only
    rw [(validateOob_iff a _).2 (by
      intro f hf
      cases ho : a.oob with
      | none => rw [ho] at hf; cases hf
      | some fs => rw [ho] at hf; exact h.filters fs ho f hf)]
    simp only
    unfold initModel
    match hs : a.submodelIds with
    | [] => exact ⟨_, rfl⟩
    | (key, s0) :: rest =>
      simp only
      obtain ⟨n, hn, hl, ho⟩ := h.bags (by rw [hs]; simp)
      have hids : ∀ k s, a.submodelIds.lookup k = some s → s.length = n := by
        intro k s hks
        obtain ⟨l1, l2, hll, -⟩ := List.lookup_eq_some_iff.1 hks
        exact hl (k, s) (by rw [hll]; simp)
      obtain ⟨⟨b, sn, pn⟩, hr⟩ := analyzeTips_ok a.submodelIds n hn hids (visited low) 0 (Or.inl rfl)
      have hb : b = n := by
        obtain ⟨-, a2, a3, -, -, -⟩ := analyzeTips_spec a.submodelIds _ _ _ _ _ hr
        have hmem0 : (key, s0) ∈ a.submodelIds := by rw [hs]; simp
        have hlk := lookup_of_mem hk hmem0
        have hmem : key ∈ sn := (a2 key).2 ⟨by
          rw [visited, List.mem_dedup]; exact hused (key, s0) hmem0, s0, hlk⟩
        rw [← (a3 key hmem s0 hlk).1]
        exact hids key s0 hlk
      subst hb
      have hi : analyze a low = .ok ⟨plainSum low, max b 1, sn, pn⟩ := by unfold analyze; rw [hr]
      rw [hi]
      simp only
      have hmax : max b 1 = b := by omega
      rw [hmax]
      rw [if_neg (by
        unfold oobSizeOk
        cases hoo : a.oob with
        | none => simp
        | some fs => simpa using ho fs hoo)]
      obtain ⟨p, hp⟩ := handleBags_ok a key b hn hl ho
      by_cases h1 : (plainSum low && a.oob.isNone) = true
      · rw [if_pos h1]; exact ⟨_, rfl⟩
      · rw [if_neg h1]
        by_cases h2 : (b == 1 && a.oob.isNone) = true
        · rw [if_pos h2]; exact ⟨_, rfl⟩
        · rw [if_neg h2, hp]; exact ⟨_, rfl⟩

example : Acceptable sampleArgs := by
  refine (create_accepts sampleArgs sampleArgs.expression (by decide) (by decide)).1 ⟨_, rfl⟩

example : ¬ Acceptable { sampleArgs with submodelIds := [(0, [3, 4]), (1, [5, 6])] } := by
  intro h
  have := h.used (1, [5, 6]) (by simp)
  revert this
  decide

end Verif.FModel
