import Verif.Io.LoaderLemmas

/-!
# Input loaders load the values that they promise (C98)

A loader that keeps the contract `Implements` may be bound to all slots that fit its types; the loaders of the library keep it, for the
value given here, if their parts do.
-/

namespace Verif.Io

variable {I J Q V : Type} [DecidableEq Q]

/-- **A loader can be bound iff it has all names with the types of the slots.**  The bound loader then sets these slots and no others. -/
theorem bind_iff {l : Loader I Q V} {value : I → Name → Option V} (hl : Implements l value) {slots : Slots Q}
    (hn : (slots.map (·.1)).Nodup) (ho : (slots.map (·.2.2)).Nodup) :
    ((bind l slots).isSome ↔ ∀ s ∈ slots, l.typeOf s.1 = some s.2.1) ∧ ∀ b, bind l slots = some b → LoadsInto b value slots := by
  by_cases h : ∀ s ∈ slots, l.typeOf s.1 = some s.2.1
  · obtain ⟨b, hb, hload⟩ := bind_loads hl ⟨hn, ho, h⟩
    refine ⟨⟨fun _ => h, fun _ => by simp [hb]⟩, ?_⟩
    intro b' hb'
    rw [hb] at hb'
    cases hb'
    exact hload
  · have hnone : bind l slots = none := bind_none hn (by
      apply Classical.byContradiction
      intro hc
      exact h fun s hs => Classical.byContradiction fun he => hc ⟨s, hs, he⟩)
    exact ⟨⟨fun hs => by simp [hnone] at hs, fun hs => absurd hs h⟩, fun b hb => by simp [hnone] at hb⟩

/-- **A chain gives every name the value of the first loader that has it.** -/
theorem chain_spec (ls : List (Loader I Q V × (I → Name → Option V))) (h : ∀ p ∈ ls, Implements p.1 p.2) :
    Implements (chainLoader (ls.map (·.1))) (chainValue ls) := by
  intro slots hne hf
  obtain ⟨bs, h1, h2, h3⟩ := chain_loop ls h slots hf
  have hl : bindInputLoaderList (ls.map (·.1)) slots = some bs := by simp [bindInputLoaderList, h1]
  simp only [chainLoader, hl]
  match bs, h2, h3 with
  | [], _, h3 => exact absurd (h3 rfl) hne
  | [b], h2, _ =>
    rw [invoke_one] at h2
    exact ⟨b, rfl, h2⟩
  | b :: c :: bs, h2, _ => exact ⟨_, rfl, h2⟩

/-- **A filter hides the other names and changes no value.** -/
theorem filter_spec (filter : Name → Bool) {l : Loader I Q V} {value : I → Name → Option V} (hl : Implements l value) :
    Implements (filteringLoader filter l) value ∧
    ∀ name, (filteringLoader filter l).typeOf name = if filter name then l.typeOf name else none := by
  refine ⟨?_, fun _ => rfl⟩
  intro slots _ hf
  refine bind_loads hl ⟨hf.1, hf.2.1, fun s hs => ?_⟩
  have := hf.2.2 s hs
  simp only [filteringLoader] at this
  split at this
  · exact this
  · cases this

/-- **Accessors: the loader exists iff the names differ, and then each name has the value of its accessor.** -/
theorem accessors_spec (accs : List (Name × Q × (I → V))) :
    ((buildAccessorsLoader accs).isSome ↔ (accs.map (·.1)).Nodup) ∧
    ∀ l, buildAccessorsLoader accs = some l → Implements l (accessorsValue accs) ∧
      ∀ a ∈ accs, l.typeOf a.1 = some a.2.1 ∧ ∀ input, accessorsValue accs input a.1 = some (a.2.2 input) := by
  have hd := dup_iff (accs.map (·.1)) [] List.nodup_nil
  simp only [List.not_mem_nil, not_false_eq_true, implies_true, and_true] at hd
  unfold buildAccessorsLoader
  by_cases hn : (accs.map (·.1)).Nodup
  · rw [if_pos (hd.2 hn)]
    refine ⟨by simp [hn], ?_⟩
    intro l hl
    cases hl
    refine ⟨accessors_implements hn, fun a ha => ⟨?_, fun input => ?_⟩⟩
    · simp only [accessorsLoader, find_accessor hn ha, Option.map_some]
    · simp only [accessorsValue, find_accessor hn ha, Option.map_some]
  · rw [if_neg fun h => hn (hd.1 h)]
    exact ⟨by simp [hn], by simp⟩

/-- **A delegating loader has the names of the other one after the prefix, with the values for the part of the input.** -/
theorem delegating_spec (pre : Name) (accessor : I → J) {l : Loader J Q V} {value : J → Name → Option V} (hl : Implements l value) :
    ∃ value' : I → Name → Option V, Implements (delegatingLoader pre accessor l) value' ∧
      (∀ input name, value' input (pre ++ name) = value (accessor input) name) ∧
      (∀ name, (delegatingLoader pre accessor l).typeOf (pre ++ name) = l.typeOf name) ∧
      ∀ name, ¬ pre <+: name → (delegatingLoader pre accessor l).typeOf name = none := by
  refine ⟨_, delegating_implements hl, ?_, ?_, ?_⟩
  · intro input name
    have : consumePrefix pre (pre ++ name) = some name := consumePrefix_iff.2 rfl
    simp only [this]
  · intro name
    have : consumePrefix pre (pre ++ name) = some name := consumePrefix_iff.2 rfl
    simp only [delegatingLoader, this]
  · intro name hp
    have : consumePrefix pre name = none := by
      cases hc : consumePrefix pre name with
      | none => rfl
      | some r => exact absurd ⟨r, (consumePrefix_iff.1 hc).symm⟩ hp
    simp only [delegatingLoader, this]

/-- **A dynamic loader gives every name to the loader of its key**, in whatever order the groups come. -/
theorem dynamic_spec {K : Type} [DecidableEq K] {factory : K → Option (Loader I Q V)} {value : K → I → Name → Option V}
    (hfac : ∀ k l, factory k = some l → Implements l (value k)) (name2key : Name → Option K)
    {order : List (K × Slots Q) → List (K × Slots Q)} (hord : ∀ gs, (order gs).Perm gs) :
    ∃ value' : I → Name → Option V, Implements (dynamicLoader factory name2key order) value' ∧
      ∀ input name k, name2key name = some k → value' input name = value k input name :=
  ⟨_, dynamic_implements hfac name2key hord, fun input name k hk => by simp only [hk]⟩

/-- **A wildcard loader has all names that have a key, with the value of the accessor for the key.** -/
theorem wildcard_spec {K : Type} (out : Q) (accessor : I → K → Option V) (name2key : Name → Option K)
    {sort : List (K × Nat) → List (K × Nat)} (hsort : ∀ l, (sort l).Perm l) :
    ∃ value : I → Name → Option V, Implements (wildcardLoader out accessor name2key sort) value ∧
      (∀ name k, name2key name = some k → (wildcardLoader out accessor name2key sort).typeOf name = some out ∧
        ∀ input, value input name = accessor input k) ∧
      ∀ name, name2key name = none → (wildcardLoader out accessor name2key sort).typeOf name = none := by
  refine ⟨_, wildcard_implements out accessor name2key hsort, ?_, ?_⟩
  · intro name k hk
    refine ⟨by simp [wildcardLoader, hk], fun input => by simp only [hk]⟩
  · intro name hk
    simp [wildcardLoader, hk]

/-- **With a callback the value must have the type of the key**; then it is the value that was passed to the callback. -/
theorem callback_spec {K : Type} (accessor : I → K → Option (Q × V)) (name2key : Name → Option K) (key2type : K → Option Q)
    {sort : List (K × Q × Nat) → List (K × Q × Nat)} (hsort : ∀ l, (sort l).Perm l) :
    ∃ value : I → Name → Option V, Implements (callbackLoader accessor name2key key2type sort) value ∧
      ∀ name k, name2key name = some k → (callbackLoader accessor name2key key2type sort).typeOf name = key2type k ∧
        ∀ input v, value input name = some v ↔ ∃ t, key2type k = some t ∧ accessor input k = some (t, v) := by
  refine ⟨_, callback_implements accessor name2key key2type hsort, ?_⟩
  intro name k hk
  refine ⟨by simp only [callbackLoader, hk], ?_⟩
  intro input v
  simp only [hk]
  cases ha : accessor input k with
  | none => simp
  | some tv =>
    obtain ⟨t, w⟩ := tv
    dsimp only
    by_cases ht : key2type k = some t
    · rw [if_pos ht, ht]
      constructor
      · intro h
        cases h
        exact ⟨t, rfl, rfl⟩
      · rintro ⟨t', h1, h2⟩
        cases h1
        cases h2
        rfl
    · rw [if_neg ht]
      constructor
      · intro h
        cases h
      · rintro ⟨t', h1, h2⟩
        cases h2
        exact absurd h1 ht

/-- **The key of a name is the text that gives the name in the format**, if the format is a plain `%s` between two texts (and
`kUniqueString` does not occur earlier). -/
theorem name_to_key_partial (f : Format) (hw : f.width = 0) (hp : f.prec = none)
    (hu : ∀ k, k < f.pre.length → ¬ kUniqueString <+: (f.pre ++ kUniqueString ++ f.suf).drop k) :
    ∃ fn, makeNameToKeyFn f = some fn ∧ ∀ name key, fn name = some key ↔ strFormat f key = name := by
  have hfmt : ∀ s, strFormat f s = f.pre ++ s ++ f.suf := by
    intro s
    simp [strFormat, hw, hp]
  have hfind : findText kUniqueString (strFormat f kUniqueString) = some f.pre.length := by
    rw [hfmt]
    exact findText_at (by decide) f.pre hu
  unfold makeNameToKeyFn
  simp only [hfind]
  have h1 : (strFormat f kUniqueString).take f.pre.length = f.pre := by
    rw [hfmt, List.append_assoc]
    exact List.take_left
  have h2 : (strFormat f kUniqueString).drop (f.pre.length + kUniqueString.length) = f.suf := by
    rw [hfmt, ← List.length_append]
    exact List.drop_left
  rw [h1, h2]
  refine ⟨_, rfl, ?_⟩
  intro name key
  rw [hfmt]
  constructor
  · intro h
    cases hc : consumePrefix f.pre name with
    | none => simp [hc] at h
    | some r =>
      simp only [hc] at h
      rw [consumeSuffix_iff] at h
      rw [consumePrefix_iff.1 hc, h, List.append_assoc]
  · rintro rfl
    have : consumePrefix f.pre (f.pre ++ key ++ f.suf) = some (key ++ f.suf) := consumePrefix_iff.2 (by simp)
    simp only [this]
    exact consumeSuffix_iff.2 rfl

/-- With a width the key of a name is not the text that gave the name. -/
theorem width_counterexample :
    ∃ fn, makeNameToKeyFn { pre := ['x'], suf := [], width := 5 } = some fn ∧
      fn (strFormat { pre := ['x'], suf := [], width := 5 } ['a']) = some [' ', ' ', ' ', ' ', 'a'] :=
  ⟨_, rfl, by decide +kernel⟩

/-- With a precision the condition of the `DCHECK` in `MakeNameToKeyFn` does not hold. -/
theorem precision_counterexample : (makeNameToKeyFn { pre := ['x'], suf := [], prec := some 3 }).isNone = true := by decide +kernel

/-! ## Examples -/

/-- Accessors for two names of a pair. -/
def exAccs : List (Name × Bool × (Nat × Nat → Nat)) := [(['a'], true, fun p => p.1), (['b'], false, fun p => p.2)]

def exSlots : Slots Bool := [(['b'], false, 7), (['a'], true, 3)]

example : ((buildAccessorsLoader exAccs).bind fun l => (bind l exSlots).bind fun b => (b (10, 20) fun _ => 0).map fun f => (f 3, f 7, f 8)) =
    some (10, 20, 0) := by decide +kernel

example : ((bind (chainLoader [accessorsLoader exAccs, accessorsLoader [(['b'], false, fun _ => 5), (['c'], true, fun p => p.1 + p.2)]])
    ((['c'], true, 9) :: exSlots)).bind fun b => (b (10, 20) fun _ => 0).map fun f => (f 3, f 7, f 9)) = some (10, 20, 30) := by decide +kernel

example : (bind (chainLoader [accessorsLoader exAccs]) [(['b'], true, 7)]).isSome = false := by decide +kernel

example : ((bind (delegatingLoader ['p', '.'] (fun n : Nat => (n, n + 1)) (filteringLoader (fun n => n == ['b']) (accessorsLoader exAccs)))
    [(['p', '.', 'b'], false, 1)]).bind fun b => (b 4 fun _ => 0).map fun f => f 1) = some 5 := by decide +kernel

example : ((bind (dynamicLoader (fun k : Bool => if k then some (accessorsLoader exAccs) else some (accessorsLoader [(['c'], true, fun _ => 1)]))
    (fun n => some (n != ['c'])) List.reverse) ((['c'], true, 9) :: exSlots)).bind fun b => (b (10, 20) fun _ => 0).map fun f => (f 3, f 7, f 9)) =
    some (10, 20, 1) := by decide +kernel

example : ((bind (wildcardLoader true (fun (i : Nat) (k : Name) => if k.length < 3 then some (i + k.length) else none)
    (fun n => consumePrefix ['m'] n) List.reverse) [(['m', 'a', 'b'], true, 1), (['m'], true, 2)]).bind fun b =>
      (b 10 fun _ => 0).map fun f => (f 1, f 2)) = some (12, 10) := by decide +kernel

example : ((bind (callbackLoader (fun (i : Nat) (k : Name) => some (k.length == 1, i)) (fun n => consumePrefix ['m'] n) (fun k => some (k != []))
    id) [(['m', 'a'], true, 1), (['m'], false, 2)]).bind fun b => (b 10 fun _ => 0).map fun f => (f 1, f 2)) = some (10, 10) := by decide +kernel

example : ((makeNameToKeyFn { pre := ['x', '['], suf := [']'] }).bind fun fn => fn ['x', '[', 'q', ']']) = some ['q'] := by decide +kernel

/-- The hypothesis of `name_to_key_partial` holds for a prefix without the first character of `kUniqueString`. -/
example (pre suf : Name) (h : 'u' ∉ pre) : ∀ k, k < pre.length → ¬ kUniqueString <+: (pre ++ kUniqueString ++ suf).drop k := by
  rintro k hk ⟨r, hr⟩
  have h0 : (pre ++ kUniqueString ++ suf)[k]? = some 'u' := by
    have := congrArg (fun l => l[0]?) hr
    simp only [List.getElem?_drop, Nat.add_zero] at this
    rw [← this]
    rfl
  rw [List.append_assoc, List.getElem?_append_left hk] at h0
  exact h (List.mem_of_getElem? h0)

end Verif.Io
