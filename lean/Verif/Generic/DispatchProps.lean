import Verif.Generic.DispatchLemmas

/-! # C94: which overload generic and dispatch operators select -/

namespace Verif.Generic

variable {T : Type} [DecidableEq T] {nothing : T} {tuple : List T → T}

/-- The environment is determined for the placeholders of the condition. -/
theorem env_unique {sig : List Param} {uses : List Nat} {inputs : List (Option T)} {env env' : Nat → T} (hu : ∀ n ∈ uses, n ∈ sig.map (·.name))
    (hs : ValidSig sig) (hn : some nothing ∉ inputs) (h : Env tuple sig uses inputs env) (h' : Env tuple sig uses inputs env') :
    ∀ n ∈ uses, env n = env' n := by
  intro n hm
  rw [← (parse_env hs hn hu).2 env h n hm, (parse_env hs hn hu).2 env' h' n hm]

/-- **An overload is ready iff the inputs fit its signature and the types that its condition uses are known; it matches iff the condition holds
for these types.** -/
theorem overload_eval {o : Overload T} (ho : o.Valid) {inputs : List (Option T)} (hn : some nothing ∉ inputs) :
    ∃ seq, makeSeq nothing inputs = some seq ∧ ((o.eval nothing tuple seq).1 = true ↔ Ready tuple o inputs) ∧
      (((o.eval nothing tuple seq).1 = true ∧ (o.eval nothing tuple seq).2 = true) ↔ Matches tuple o inputs) := by
  refine ⟨enc nothing inputs, by rw [makeSeq_spec, if_neg hn], ?_, ?_⟩
  · exact (parse_env ho.sig hn ho.uses).1
  · have h := parse_env (tuple := tuple) (inputs := inputs) ho.sig hn ho.uses
    constructor
    · rintro ⟨h1, h2⟩
      obtain ⟨env, he⟩ := h.1.1 h1
      refine ⟨env, he, ?_⟩
      rw [← h2]
      exact ho.closed _ _ _ _ fun n hm => (h.2 env he n hm).symm
    · rintro ⟨env, he, hc⟩
      refine ⟨h.1.2 ⟨env, he⟩, ?_⟩
      rw [← hc]
      exact ho.closed _ _ _ _ fun n hm => h.2 env he n hm

omit [DecidableEq T] in
theorem matches_ready {o : Overload T} {inputs : List (Option T)} (h : Matches tuple o inputs) : Ready tuple o inputs :=
  ⟨h.choose, h.choose_spec.1⟩

/-- Readiness of the overload at an index. -/
def ReadyAt (tuple : List T → T) (os : List (Overload T)) (inputs : List (Option T)) (i : Nat) : Prop := ∃ o, os[i]? = some o ∧ Ready tuple o inputs

/-- Match of the overload at an index. -/
def MatchesAt (tuple : List T → T) (os : List (Overload T)) (inputs : List (Option T)) (i : Nat) : Prop := ∃ o, os[i]? = some o ∧ Matches tuple o inputs

theorem generic_selects {os : List (Overload T)} (ho : ∀ o ∈ os, o.Valid) {inputs : List (Option T)} (hn : some nothing ∉ inputs) :
    Selects os.length (ReadyAt tuple os inputs) (MatchesAt tuple os inputs) (genericChoice nothing tuple os inputs) := by
  have e : genericChoice nothing tuple os inputs = getOverload (os.map (·.eval nothing tuple (enc nothing inputs))) := by
    unfold genericChoice
    rw [makeSeq_spec, if_neg hn]
  rw [e]
  have hl : os.length = (os.map (·.eval nothing tuple (enc nothing inputs))).length := by simp
  rw [hl]
  have key : ∀ (j : Nat) x, (os.map (·.eval nothing tuple (enc nothing inputs)))[j]? = some x →
      ∃ o : Overload T, os[j]? = some o ∧ x = o.eval nothing tuple (enc nothing inputs) ∧ o.Valid := by
    intro j x hx
    rw [List.getElem?_map, Option.map_eq_some_iff] at hx
    obtain ⟨o, h1, h2⟩ := hx
    exact ⟨o, h1, h2.symm, ho o (List.mem_of_getElem? h1)⟩
  apply getOverload_selects
  · intro j x hx
    obtain ⟨o, h1, rfl, hv⟩ := key j x hx
    obtain ⟨seq, h2, h3, _⟩ := overload_eval (nothing := nothing) (tuple := tuple) hv hn
    rw [makeSeq_spec, if_neg hn] at h2
    cases h2
    rw [h3]
    constructor
    · intro h; exact ⟨o, h1, h⟩
    · rintro ⟨o', h4, h5⟩
      rw [h1] at h4; cases h4; exact h5
  · intro j x hx
    obtain ⟨o, h1, rfl, hv⟩ := key j x hx
    obtain ⟨seq, h2, _, h3⟩ := overload_eval (nothing := nothing) (tuple := tuple) hv hn
    rw [makeSeq_spec, if_neg hn] at h2
    cases h2
    unfold both
    rw [Bool.and_eq_true, h3]
    constructor
    · intro h; exact ⟨o, h1, h⟩
    · rintro ⟨o', h4, h5⟩
      rw [h1] at h4; cases h4; exact h5

omit [DecidableEq T] in
theorem matchesAt_readyAt {os : List (Overload T)} {inputs : List (Option T)} (j : Nat) (h : MatchesAt tuple os inputs j) : ReadyAt tuple os inputs j := by
  obtain ⟨o, h1, h2⟩ := h
  exact ⟨o, h1, matches_ready h2⟩

/-- **The choice of a generic operator.**  An input of the type `NOTHING` is refused.  Otherwise two overloads that match make the choice
ambiguous; if an overload is not ready the choice is not decided; else the overload that matches is found, if there is one. -/
theorem generic_choice {os : List (Overload T)} (ho : ∀ o ∈ os, o.Valid) (inputs : List (Option T)) (c : Choice) :
    genericChoice nothing tuple os inputs = c ↔
      if some nothing ∈ inputs then c = .badInput
      else Selects os.length (ReadyAt tuple os inputs) (MatchesAt tuple os inputs) c := by
  split
  · next h =>
    unfold genericChoice
    rw [makeSeq_spec, if_pos h]
    exact eq_comm
  · next h =>
    have hs := generic_selects (tuple := tuple) ho h
    constructor
    · rintro rfl; exact hs
    · exact fun h' => selects_unique matchesAt_readyAt hs h'

omit [DecidableEq T] in
theorem bindsV_refines {sig : List Param} {uses : List Nat} {inputs inputs' : List (Option T)} {bs : List (Nat × T)}
    (h : BindsV tuple uses sig inputs bs) (hr : Refines inputs inputs') : BindsV tuple uses sig inputs' bs := by
  induction h generalizing inputs' with
  | nil =>
    have : inputs' = [] := List.length_eq_zero_iff.1 hr.1.symm
    subst this
    exact .nil
  | @pos n ps x xs bs t hx hb ih =>
    cases inputs' with
    | nil => exact absurd hr.1 (by simp)
    | cons x' xs' =>
      refine .pos ?_ (ih ⟨by simpa using hr.1, fun i s h => hr.2 (i + 1) s h⟩)
      intro hu
      have := hr.2 0 t (by simp [hx hu])
      simpa using this
  | @var n xs t hx =>
    refine .var ?_
    intro hu
    obtain ⟨ts, rfl, rfl⟩ := hx hu
    refine ⟨ts, ?_, rfl⟩
    apply List.ext_getElem?
    intro i
    by_cases hi : i < ts.length
    · rw [hr.2 i ts[i] (by simp [hi])]
      simp [hi]
    · have := hr.1
      rw [List.length_map] at this
      rw [List.getElem?_eq_none (by omega), List.getElem?_eq_none (by simp; omega)]

theorem env_refines {sig : List Param} {uses : List Nat} {inputs inputs' : List (Option T)} {env : Nat → T}
    (h : Env tuple sig uses inputs env) (hr : Refines inputs inputs') : Env tuple sig uses inputs' env := by
  refine env_of_bindsV (bindsV_refines (bindsV_of_env h) hr) ?_
  intro n t hm _
  obtain ⟨p, _, hp⟩ := List.mem_map.1 hm
  cases hp
  rfl

theorem matches_refines {o : Overload T} (ho : o.Valid) {inputs inputs' : List (Option T)} (hr : Refines inputs inputs')
    (hn' : some nothing ∉ inputs') (h : Ready tuple o inputs) : Matches tuple o inputs ↔ Matches tuple o inputs' := by
  constructor
  · rintro ⟨env, he, hc⟩
    exact ⟨env, env_refines he hr, hc⟩
  · rintro ⟨env', he', hc⟩
    obtain ⟨env, he⟩ := h
    refine ⟨env, he, ?_⟩
    rw [← hc]
    exact ho.closed _ _ _ _ (env_unique ho.uses ho.sig hn' (env_refines he hr) he')

theorem refines_nothing {inputs inputs' : List (Option T)} (hr : Refines inputs inputs') (hn' : some nothing ∉ inputs') : some nothing ∉ inputs := by
  intro h
  obtain ⟨i, hi, he⟩ := List.mem_iff_getElem.1 h
  have := hr.2 i nothing (by simp [hi, he])
  exact hn' (List.mem_of_getElem? this)

/-- **A decision does not change when the types of more inputs become known.** -/
theorem generic_monotone {os : List (Overload T)} (ho : ∀ o ∈ os, o.Valid) {inputs inputs' : List (Option T)} (hr : Refines inputs inputs')
    (hn' : some nothing ∉ inputs') (hd : genericChoice nothing tuple os inputs ≠ .undecided) :
    genericChoice nothing tuple os inputs' = genericChoice nothing tuple os inputs := by
  have hn := refines_nothing hr hn'
  refine selects_unique matchesAt_readyAt (generic_selects (tuple := tuple) ho hn') ?_
  refine selects_mono (fun j _ => matchesAt_readyAt j) ?_ ?_ hd (generic_selects (tuple := tuple) ho hn)
  · rintro j _ ⟨o, h1, env, he⟩
    exact ⟨o, h1, env, env_refines he hr⟩
  · rintro j _ ⟨o, h1, h2⟩
    have := matches_refines (ho o (List.mem_of_getElem? h1)) hr hn' h2
    constructor
    · rintro ⟨o', h3, h4⟩
      rw [h1] at h3; cases h3
      exact ⟨o, h1, this.1 h4⟩
    · rintro ⟨o', h3, h4⟩
      rw [h1] at h3; cases h3
      exact ⟨o, h1, this.2 h4⟩

/-- **If all the types are known and the inputs fit all the signatures, there is a decision.** -/
theorem generic_decides {os : List (Overload T)} (ho : ∀ o ∈ os, o.Valid) (ts : List T) (hfit : ∀ o ∈ os, ∃ bs, Binds o.sig ts bs)
    : genericChoice nothing tuple os (ts.map some) ≠ .undecided := by
  intro h
  rw [generic_choice ho] at h
  split at h
  · cases h
  · next hn =>
    obtain ⟨j, hj, hr⟩ := h.1
    apply hr
    refine ⟨os[j], List.getElem?_eq_getElem hj, ?_⟩
    have hv := ho os[j] (List.getElem_mem hj)
    obtain ⟨bs, hb⟩ := hfit os[j] (List.getElem_mem hj)
    suffices hs : ∃ vs, BindsV tuple os[j].uses os[j].sig (ts.map some) vs by
      obtain ⟨vs, hv'⟩ := hs
      exact (parse_env hv.sig hn hv.uses).1.1 ((parseOp_iff hv.sig hn).2 ⟨vs, hv'⟩)
    clear hr hn hv h hfit
    generalize os[j].sig = sig at hb
    generalize os[j].uses = uses
    induction hb with
    | nil => exact ⟨_, .nil⟩
    | @pos n ps x xs bs _ ih =>
      obtain ⟨vs, hv⟩ := ih
      exact ⟨_, .pos (fun _ => rfl) hv⟩
    | @var n xs => exact ⟨_, .var fun _ => ⟨xs, rfl, rfl⟩⟩

/-- The overload of a choice. -/
def Choice.get (os : List (Overload T)) : Choice → Option (Overload T)
  | .found i => os[i]?
  | _ => none

/-- What is selected, in terms of the overload itself. -/
def selected (nothing : T) (tuple : List T → T) (os : List (Overload T)) (inputs : List (Option T)) : Option (Overload T) :=
  (genericChoice nothing tuple os inputs).get os

theorem perm_small {α : Type} {l l' : List α} (h : l.Perm l') (hl : l.length ≤ 1) : l = l' := by
  cases l with
  | nil => exact (List.nil_perm.1 h).symm
  | cons a l =>
    cases l with
    | nil => exact (List.singleton_perm.1 h).symm ▸ rfl
    | cons b l => simp at hl

/-- **The selected overload does not depend on the order of the overloads**, nor does the kind of the other outcomes. -/
theorem generic_perm {os os' : List (Overload T)} (hp : os.Perm os') (inputs : List (Option T)) :
    selected nothing tuple os inputs = selected nothing tuple os' inputs ∧
    ∀ c, (∀ i, c ≠ .found i) → (genericChoice nothing tuple os inputs = c ↔ genericChoice nothing tuple os' inputs = c) := by
  unfold selected genericChoice
  cases hm : makeSeq nothing inputs with
  | none => exact ⟨rfl, fun c _ => Iff.rfl⟩
  | some seq =>
    dsimp only
    let ev : Overload T → Bool × Bool := fun o => o.eval nothing tuple seq
    have hpm : (os.map ev).Perm (os'.map ev) := hp.map ev
    have hcount := hpm.countP_eq both
    have hall : (os.map ev).all (·.1) = (os'.map ev).all (·.1) := by
      rw [Bool.eq_iff_iff, List.all_eq_true, List.all_eq_true]
      exact ⟨fun h x hx => h x (hpm.mem_iff.2 hx), fun h x hx => h x (hpm.mem_iff.1 hx)⟩
    have key : ∀ l : List (Overload T), (l.map ev).findIdx? both = l.findIdx? (fun o => both (ev o)) := by
      intro l
      rw [List.findIdx?_map]
      rfl
    show (getOverload (os.map ev)).get os = (getOverload (os'.map ev)).get os' ∧
      ∀ c, (∀ i, c ≠ .found i) → (getOverload (os.map ev) = c ↔ getOverload (os'.map ev) = c)
    rw [getOverload_eq, getOverload_eq, ← hcount, ← hall]
    by_cases h2 : 2 ≤ (os.map ev).countP both
    · rw [if_pos h2, if_pos h2]
      exact ⟨rfl, fun c _ => Iff.rfl⟩
    · rw [if_neg h2, if_neg h2]
      by_cases h3 : (os.map ev).all (·.1) = true
      · rw [if_pos h3, if_pos h3, key, key]
        have hfil : (os.filter fun o => both (ev o)).Perm (os'.filter fun o => both (ev o)) := hp.filter _
        have hlen : (os.filter fun o => both (ev o)).length ≤ 1 := by
          rw [List.countP_map, List.countP_eq_length_filter] at h2
          have e : (os.filter (both ∘ ev)) = os.filter fun o => both (ev o) := rfl
          rw [e] at h2
          omega
        have hsame := perm_small hfil hlen
        have hidx : ∀ l : List (Overload T), (foundOr (l.findIdx? (fun o => both (ev o)))).get l =
            (l.filter fun o => both (ev o)).head? := by
          intro l
          rw [List.head?_filter]
          cases hf : l.findIdx? (fun o => both (ev o)) with
          | none =>
            rw [List.findIdx?_eq_none_iff] at hf
            symm
            dsimp only [foundOr, Choice.get]
            rw [List.find?_eq_none]
            intro x hx
            simp [hf x hx]
          | some i =>
            rw [List.findIdx?_eq_some_iff_getElem] at hf
            obtain ⟨hi, h4, h5⟩ := hf
            symm
            dsimp only [foundOr, Choice.get]
            rw [List.getElem?_eq_getElem hi, List.find?_eq_some_iff_getElem]
            refine ⟨h4, i, hi, rfl, ?_⟩
            intro j hj
            simpa using h5 j hj
        refine ⟨by rw [hidx, hidx, hsame], ?_⟩
        intro c hc
        have hnone : ∀ l : List (Overload T), (foundOr (l.findIdx? (fun o => both (ev o))) = c) ↔
            (l.filter (fun o => both (ev o)) = [] ∧ c = .noMatch) := by
          intro l
          cases hf : l.findIdx? (fun o => both (ev o)) with
          | none =>
            rw [List.findIdx?_eq_none_iff] at hf
            dsimp only [foundOr, Choice.get]
            constructor
            · rintro rfl
              refine ⟨?_, rfl⟩
              rw [List.filter_eq_nil_iff]
              intro x hx
              simp [hf x hx]
            · rintro ⟨_, rfl⟩; rfl
          | some i =>
            dsimp only [foundOr, Choice.get]
            constructor
            · intro h; exact absurd h.symm (hc i)
            · rintro ⟨h, _⟩
              rw [List.findIdx?_eq_some_iff_getElem] at hf
              obtain ⟨hi, h4, _⟩ := hf
              rw [List.filter_eq_nil_iff] at h
              exact absurd h4 (h _ (List.getElem_mem hi))
        rw [hnone, hnone, hsame]
      · rw [if_neg h3, if_neg h3]
        exact ⟨rfl, fun c _ => Iff.rfl⟩

/-! ## DispatchOperator -/

theorem firstCond_loop : ∀ (cs : List Bool) (i : Nat), (firstCond i cs).1 = (firstLoop i true (cs.map (true, ·))).1 ∧
    (firstCond i cs).2.any id = (firstLoop i true (cs.map (true, ·))).2.2.any both
  | [], i => ⟨rfl, rfl⟩
  | c :: cs, i => by
    cases c with
    | false => simpa [firstCond, firstLoop] using firstCond_loop cs (i + 1)
    | true =>
      refine ⟨by simp [firstCond, firstLoop], ?_⟩
      simp only [firstCond, firstLoop, if_true, List.map_cons, List.any_map]
      congr 1

theorem dispatchOverload_eq (size : Nat) (cs : List Bool) : dispatchOverload size true cs =
    if 2 ≤ (cs.map ((true : Bool), ·)).countP both then .ambiguous
    else if ((cs.map ((true : Bool), ·)).findIdx? both).getD cs.length < size then .found (((cs.map ((true : Bool), ·)).findIdx? both).getD cs.length)
    else .noMatch := by
  obtain ⟨h1, _, h3⟩ := firstLoop_eq (cs.map ((true : Bool), ·)) 0 true
  obtain ⟨h4, h5⟩ := firstCond_loop cs 0
  unfold dispatchOverload
  dsimp only
  rw [h4, h5, h1]
  by_cases h : 2 ≤ (cs.map ((true : Bool), ·)).countP both
  · rw [if_pos h, if_pos (c := (firstLoop 0 true (cs.map ((true : Bool), ·))).2.2.any both = true) (h3.2 h)]
    rfl
  · rw [if_neg h, if_neg (c := (firstLoop 0 true (cs.map ((true : Bool), ·))).2.2.any both = true) (fun e => h (h3.1 e))]
    simp

theorem dispatchSelects_unique {n : Nat} {d : Bool} {R : Prop} {M : Nat → Prop} {a b : Choice} (ha : DispatchSelects n d R M a)
    (hb : DispatchSelects n d R M b) : a = b := by
  cases a <;> cases b <;> simp only [DispatchSelects] at ha hb <;> try rfl
  all_goals try exact ha.elim
  all_goals try exact hb.elim
  all_goals grind

/-- **The choice of a dispatch operator.**  Nothing is decided before all types that any of the conditions uses are known; then two
conditions that hold make it ambiguous, else the one that holds selects, else the default operator if there is one. -/
theorem dispatch_choice {sig : List Param} {os : List (List Nat × ((Nat → T) → List T → Bool))} (hs : ValidSig sig)
    (hu : ∀ o ∈ os, ∀ n ∈ o.1, n ∈ sig.map (·.name)) (hc : ∀ o ∈ os, Closed o.1 o.2) (hasDefault : Bool) (inputs : List (Option T)) (c : Choice) :
    dispatchChoice nothing tuple sig os hasDefault inputs = c ↔
      if some nothing ∈ inputs then c = .badInput
      else DispatchSelects os.length hasDefault (∃ env, Env tuple sig (os.flatMap (·.1)) inputs env)
        (fun (i : Nat) => ∃ (o : List Nat × ((Nat → T) → List T → Bool)) (env : Nat → T), os[i]? = some o ∧ Env tuple sig (os.flatMap (·.1)) inputs env ∧
          o.2 env [] = true) c := by
  split
  · next h =>
    unfold dispatchChoice
    rw [makeSeq_spec, if_pos h]
    exact eq_comm
  next h =>
  have hu' : ∀ n ∈ os.flatMap (·.1), n ∈ sig.map (·.name) := by
    intro n hm
    obtain ⟨o, ho, hn⟩ := List.mem_flatMap.1 hm
    exact hu o ho n hn
  have hp := parse_env (tuple := tuple) hs h hu'
  generalize hRdef : (∃ env, Env tuple sig (os.flatMap (·.1)) inputs env) = R at hp
  generalize hMdef : (fun (i : Nat) => ∃ (o : List Nat × ((Nat → T) → List T → Bool)) (env : Nat → T), os[i]? = some o ∧ Env tuple sig (os.flatMap (·.1)) inputs env ∧ o.2 env [] = true) = M
  have e : dispatchChoice nothing tuple sig os hasDefault inputs = dispatchOverload (os.length + if hasDefault then 1 else 0)
      (parseOp nothing tuple (patternOf (os.flatMap (·.1)) sig) (enc nothing inputs)).1
      (os.map fun o => o.2 (envOf nothing (os.flatMap (·.1)) sig (parseOp nothing tuple (patternOf (os.flatMap (·.1)) sig) (enc nothing inputs)).2)
        (enc nothing inputs)) := by
    unfold dispatchChoice
    rw [makeSeq_spec, if_neg h]
  rw [e]
  by_cases hR : R
  · have hr : (parseOp nothing tuple (patternOf (os.flatMap (·.1)) sig) (enc nothing inputs)).1 = true := hp.1.2 hR
    obtain ⟨env, he⟩ := hRdef ▸ hR
    have hM : ∀ (j : Nat) (o : List Nat × ((Nat → T) → List T → Bool)), os[j]? = some o → (o.2 (envOf nothing (os.flatMap (·.1)) sig (parseOp nothing tuple (patternOf (os.flatMap (·.1)) sig)
        (enc nothing inputs)).2) (enc nothing inputs) = true ↔ M j) := by
      intro j o ho
      have hmem := List.mem_of_getElem? ho
      have heq : ∀ env', Env tuple sig (os.flatMap (·.1)) inputs env' → o.2 (envOf nothing (os.flatMap (·.1)) sig (parseOp nothing tuple
          (patternOf (os.flatMap (·.1)) sig) (enc nothing inputs)).2) (enc nothing inputs) = o.2 env' [] := fun env' he' =>
        hc o hmem _ _ _ _ fun n hn => hp.2 env' he' n (List.mem_flatMap.2 ⟨o, hmem, hn⟩)
      rw [← hMdef]
      constructor
      · intro h1
        exact ⟨o, env, ho, he, by rw [← heq env he]; exact h1⟩
      · rintro ⟨o', env', h1, h2, h3⟩
        rw [ho] at h1; cases h1
        rw [heq env' h2]; exact h3
    have hsel := getOverload_selects ((os.map fun o => o.2 (envOf nothing (os.flatMap (·.1)) sig (parseOp nothing tuple (patternOf
        (os.flatMap (·.1)) sig) (enc nothing inputs)).2) (enc nothing inputs)).map (true, ·)) (fun j => j < os.length) (fun j => j < os.length ∧ M j)
      (by
        intro j x hx
        have hl := (List.getElem?_eq_some_iff.1 hx).1
        rw [List.length_map, List.length_map] at hl
        rw [List.getElem?_map, Option.map_eq_some_iff] at hx
        obtain ⟨b, _, rfl⟩ := hx
        simp [hl])
      (by
        intro j x hx
        have hl := (List.getElem?_eq_some_iff.1 hx).1
        rw [List.length_map, List.length_map] at hl
        rw [List.map_map, List.getElem?_map, Option.map_eq_some_iff] at hx
        obtain ⟨o, h1, rfl⟩ := hx
        simp only [both, Function.comp, Bool.true_and]
        rw [hM j o h1]
        exact ⟨fun h => ⟨hl, h⟩, fun h => h.2⟩)
    rw [List.length_map, List.length_map] at hsel
    rw [hr]
    have hcs := List.length_map (as := os) (fun o => o.2 (envOf nothing (os.flatMap (·.1)) sig (parseOp nothing tuple (patternOf
        (os.flatMap (·.1)) sig) (enc nothing inputs)).2) (enc nothing inputs))
    generalize (os.map fun o => o.2 (envOf nothing (os.flatMap (·.1)) sig (parseOp nothing tuple (patternOf
        (os.flatMap (·.1)) sig) (enc nothing inputs)).2) (enc nothing inputs)) = cs at hsel hcs
    rw [dispatchOverload_eq]
    rw [getOverload_eq] at hsel
    have hall : (cs.map ((true : Bool), ·)).all (·.1) = true := by simp
    rw [hall] at hsel
    have hMR : DispatchSelects os.length hasDefault R M (if 2 ≤ (cs.map ((true : Bool), ·)).countP both then .ambiguous
        else if ((cs.map ((true : Bool), ·)).findIdx? both).getD cs.length < os.length + (if hasDefault then 1 else 0) then
          .found (((cs.map ((true : Bool), ·)).findIdx? both).getD cs.length) else .noMatch) := by
      by_cases h2 : 2 ≤ (cs.map ((true : Bool), ·)).countP both
      · rw [if_pos h2] at hsel ⊢
        obtain ⟨i, j, h3, h4, h5, h6⟩ := hsel
        exact ⟨hR, i, j, h3, h4, h5.2, h6.2⟩
      · rw [if_neg h2, if_pos rfl] at hsel
        rw [if_neg h2]
        cases hf : (cs.map ((true : Bool), ·)).findIdx? both with
        | some i =>
          rw [hf] at hsel
          obtain ⟨h3, h4, h5, _⟩ := hsel
          rw [Option.getD_some, if_pos (by omega)]
          exact ⟨hR, .inl ⟨h3, h4.2, fun j hj hm => h5 j hj ⟨hj, hm⟩⟩⟩
        | none =>
          rw [hf] at hsel
          obtain ⟨_, h4⟩ := hsel
          rw [Option.getD_none, hcs]
          cases hasDefault with
          | false =>
            rw [if_neg (by simp)]
            exact ⟨hR, rfl, fun j hj hm => h4 j hj ⟨hj, hm⟩⟩
          | true =>
            rw [if_pos (by simp)]
            exact ⟨hR, .inr ⟨rfl, rfl, fun j hj hm => h4 j hj ⟨hj, hm⟩⟩⟩
    constructor
    · rintro rfl
      exact hMR
    · intro hcd
      exact dispatchSelects_unique hMR hcd
  · have hr : (parseOp nothing tuple (patternOf (os.flatMap (·.1)) sig) (enc nothing inputs)).1 = false := by
      rw [← Bool.not_eq_true]
      exact fun h1 => hR (hp.1.1 h1)
    rw [hr]
    have : dispatchOverload (os.length + if hasDefault then 1 else 0) false (os.map fun o => o.2 (envOf nothing (os.flatMap (·.1)) sig
      (parseOp nothing tuple (patternOf (os.flatMap (·.1)) sig) (enc nothing inputs)).2) (enc nothing inputs)) = .undecided := rfl
    rw [this]
    cases c with
    | undecided => exact ⟨fun _ => hR, fun _ => rfl⟩
    | found i => exact ⟨fun h => (by cases h), fun h => absurd h.1 hR⟩
    | ambiguous => exact ⟨fun h => (by cases h), fun h => absurd h.1 hR⟩
    | noMatch => exact ⟨fun h => (by cases h), fun h => absurd h.1 hR⟩
    | badInput => exact ⟨fun h => (by cases h), fun h => h.elim⟩

/-- **The decision of a dispatch operator does not change when the types of more inputs become known.** -/
theorem dispatch_monotone {sig : List Param} {os : List (List Nat × ((Nat → T) → List T → Bool))} (hs : ValidSig sig)
    (hu : ∀ o ∈ os, ∀ n ∈ o.1, n ∈ sig.map (·.name)) (hc : ∀ o ∈ os, Closed o.1 o.2) (hasDefault : Bool) {inputs inputs' : List (Option T)}
    (hr : Refines inputs inputs') (hn' : some nothing ∉ inputs')
    (hd : dispatchChoice nothing tuple sig os hasDefault inputs ≠ .undecided) :
    dispatchChoice nothing tuple sig os hasDefault inputs' = dispatchChoice nothing tuple sig os hasDefault inputs := by
  have hn := refines_nothing hr hn'
  have hu' : ∀ n ∈ os.flatMap (·.1), n ∈ sig.map (·.name) := by
    intro n hm
    obtain ⟨o, ho, hn⟩ := List.mem_flatMap.1 hm
    exact hu o ho n hn
  have h1 := (dispatch_choice (nothing := nothing) (tuple := tuple) hs hu hc hasDefault inputs _).1 rfl
  rw [if_neg hn] at h1
  rw [dispatch_choice hs hu hc hasDefault inputs', if_neg hn']
  generalize dispatchChoice nothing tuple sig os hasDefault inputs = c at hd h1 ⊢
  have hR : ∃ env, Env tuple sig (os.flatMap (·.1)) inputs env := by
    cases c with
    | found i => exact h1.1
    | ambiguous => exact h1.1
    | noMatch => exact h1.1
    | undecided => exact absurd rfl hd
    | badInput => exact h1.elim
  have hR' : ∃ env, Env tuple sig (os.flatMap (·.1)) inputs' env := ⟨_, env_refines hR.choose_spec hr⟩
  have hM : (fun (i : Nat) => ∃ (o : List Nat × ((Nat → T) → List T → Bool)) (env : Nat → T), os[i]? = some o ∧ Env tuple sig (os.flatMap (·.1)) inputs env ∧
      o.2 env [] = true) = (fun (i : Nat) => ∃ (o : List Nat × ((Nat → T) → List T → Bool)) (env : Nat → T), os[i]? = some o ∧
        Env tuple sig (os.flatMap (·.1)) inputs' env ∧ o.2 env [] = true) := by
    funext i
    rw [eq_iff_iff]
    constructor
    · rintro ⟨o, env, h2, h3, h4⟩
      exact ⟨o, env, h2, env_refines h3 hr, h4⟩
    · rintro ⟨o, env', h2, h3, h4⟩
      obtain ⟨env, he⟩ := hR
      refine ⟨o, env, h2, he, ?_⟩
      rw [← h4]
      have hmem := List.mem_of_getElem? h2
      exact hc o hmem _ _ _ _ fun n hm => env_unique hu' hs hn' (env_refines he hr) h3 n (List.mem_flatMap.2 ⟨o, hmem, hm⟩)
  rw [hM] at h1
  have e1 := eq_true hR
  have e2 := eq_true hR'
  rw [e1] at h1
  rw [e2]
  exact h1

/-! ## Cases -/

/-- Types for the cases. -/
inductive Ty
  | nothing | int | float | tuple (n : Nat)
  deriving DecidableEq

/-- Tuples by their number of fields. -/
def tup (l : List Ty) : Ty := .tuple l.length

/-- `(x, *y)` where `x` is an integer. -/
def oInt : Overload Ty := ⟨[⟨0, false⟩, ⟨1, true⟩], [0], fun e _ => e 0 == .int⟩

/-- `(x, y)` where `x` is a float and `y` an integer. -/
def oFloat : Overload Ty := ⟨[⟨0, false⟩, ⟨1, false⟩], [0, 1], fun e _ => e 0 == .float && e 1 == .int⟩

/-- `(x)` where `x` is a float. -/
def oOne : Overload Ty := ⟨[⟨0, false⟩], [0], fun e _ => e 0 == .float⟩

theorem validSig_small : ValidSig oInt.sig ∧ ValidSig oFloat.sig ∧ ValidSig oOne.sig := by
  refine ⟨⟨by decide, ?_⟩, ⟨by decide, ?_⟩, ⟨by decide, ?_⟩⟩
  all_goals
    intro i p h hl
    match i with
    | 0 => simp [oInt, oFloat, oOne] at h; subst h; rfl
    | i + 1 => simp [oInt, oFloat, oOne] at hl <;> omega

theorem oInt_valid : oInt.Valid := ⟨validSig_small.1, by decide, fun _ _ _ _ h => by simp [oInt, h 0 (by simp [oInt])]⟩
theorem oFloat_valid : oFloat.Valid :=
  ⟨validSig_small.2.1, by decide, fun _ _ _ _ h => by simp [oFloat, h 0 (by simp [oFloat]), h 1 (by simp [oFloat])]⟩
theorem oOne_valid : oOne.Valid := ⟨validSig_small.2.2, by decide, fun _ _ _ _ h => by simp [oOne, h 0 (by simp [oOne])]⟩

/-- Decided, undecided and changed to decided; the order does not matter. -/
example : genericChoice .nothing tup [oInt, oFloat] [some .int, some .int] = .found 0 ∧
    genericChoice .nothing tup [oFloat, oInt] [some .int, some .int] = .found 1 ∧
    genericChoice .nothing tup [oInt, oFloat] [some .float, none] = .undecided ∧
    genericChoice .nothing tup [oInt, oFloat] [some .float, some .int] = .found 1 ∧
    genericChoice .nothing tup [oInt, oFloat] [some .float, some .float] = .noMatch ∧
    genericChoice .nothing tup [oInt, oInt] [some .int, none] = .ambiguous ∧
    genericChoice .nothing tup [oInt] [some .nothing] = .badInput := by decide +kernel

/-- The hypotheses of monotonicity can be met by a choice that is decided although an input is not known. -/
example : (∀ o ∈ [oInt], o.Valid) ∧ Refines [some Ty.int, none] [some .int, some .float] ∧ some Ty.nothing ∉ [some Ty.int, some .float] ∧
    genericChoice .nothing tup [oInt] [some .int, none] = .found 0 := by
  refine ⟨fun o h => by rw [List.mem_singleton] at h; exact h ▸ oInt_valid, ⟨rfl, ?_⟩, by decide, by decide +kernel⟩
  intro i t h
  match i with
  | 0 => simpa using h
  | 1 => simp at h
  | i + 2 => simp at h

/-- The hypotheses of `generic_decides`. -/
example : ∀ o ∈ [oInt, oFloat], o.Valid ∧ ∃ bs, Binds o.sig [Ty.float, .int] bs := by
  intro o h
  rcases List.mem_cons.1 h with rfl | h
  · exact ⟨oInt_valid, _, .pos .var⟩
  · rw [List.mem_singleton] at h
    subst h
    exact ⟨oFloat_valid, _, .pos (.pos .nil)⟩

/-- A dispatch operator with a default. -/
example : dispatchChoice .nothing tup [⟨0, false⟩, ⟨1, true⟩] [([0], fun e _ => e 0 == .int), ([1], fun e _ => e 1 == .tuple 2)] true
      [some .float, some .int] = .found 2 ∧
    dispatchChoice .nothing tup [⟨0, false⟩, ⟨1, true⟩] [([0], fun e _ => e 0 == .int), ([1], fun e _ => e 1 == .tuple 2)] true
      [some .int, none] = .undecided ∧
    dispatchChoice .nothing tup [⟨0, false⟩, ⟨1, true⟩] [([0], fun e _ => e 0 == .int), ([1], fun e _ => e 1 == .tuple 2)] true
      [some .int, some .int, some .int] = .ambiguous := by decide +kernel

/-- **An overload whose signature does not fit the number of the inputs keeps the operator undecided**, although all types are known and
another overload matches; no further knowledge can change this. -/
theorem generic_misfit_counterexample : (∀ o ∈ [oInt, oOne], o.Valid) ∧ Matches tup oInt [some Ty.int, some .int] ∧
    ¬ Matches tup oOne [some Ty.int, some .int] ∧ genericChoice .nothing tup [oInt, oOne] [some .int, some .int] = .undecided := by
  refine ⟨?_, ?_, ?_, by decide +kernel⟩
  · intro o h
    rcases List.mem_cons.1 h with rfl | h
    · exact oInt_valid
    · rw [List.mem_singleton] at h
      exact h ▸ oOne_valid
  · refine ⟨fun _ => .int, ⟨_, .pos .var, ?_⟩, rfl⟩
    intro n a hm hu
    rcases List.mem_cons.1 hm with h | h
    · cases h; exact .one _
    · rw [List.mem_singleton] at h
      cases h
      simp [oInt] at hu
  · rintro ⟨env, ⟨bs, hb, _⟩, _⟩
    unfold oOne at hb
    cases hb with
    | pos h => cases h

/-- A condition that reads the leaf `input_qtype_sequence`. -/
def oLeaf : Overload Ty := ⟨[⟨0, true⟩], [], fun _ seq => seq.contains .nothing⟩

/-- **Conditions that read the leaf with all the types are not monotone**: a decision is revised when a type becomes known. -/
theorem generic_leaf_counterexample : genericChoice .nothing tup [oLeaf] [some .int, none] = .found 0 ∧
    genericChoice .nothing tup [oLeaf] [some .int, some .int] = .noMatch := by decide +kernel

end Verif.Generic
