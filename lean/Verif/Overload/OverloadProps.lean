import Verif.Overload.OverloadLemmas
import Verif.QType.CommonProps

/-!
# Properties of the lookup of QExpr operators
-/

namespace Verif.Overload

/-! ## C91: overload resolution -/

/-- **C91.** `FindMatchingSignature` gives the signature with exactly the requested types (up to derived types), else the applicable
one that can be cast to all other applicable ones; it reports that there is none or that there is no best one exactly in the other
cases. -/
theorem find_matching {T : Type} [DecidableEq T] {cast : T → T → Bool} {E : T → Prop} (ho : CastOrder cast E) (decay : T → T)
    (inputs : List T) (output : T) (sigs : List (Sig T)) (hs : ∀ s ∈ sigs, ∀ x ∈ s.inputs, E x) (r : Found (Sig T)) :
    findMatching cast decay inputs output sigs = r ↔ Resolves cast decay inputs output (· ∈ sigs) r := by
  have h := findMatching_resolves ho decay inputs output sigs hs
  constructor
  · rintro rfl; exact h
  · intro h'
    exact resolves_unique ho decay inputs output (S := (· ∈ sigs)) hs h h'

/-- **C91.** The result does not depend on the order in which the signatures were registered. -/
theorem find_matching_perm {T : Type} [DecidableEq T] {cast : T → T → Bool} {E : T → Prop} (ho : CastOrder cast E) (decay : T → T)
    (inputs : List T) (output : T) {sigs sigs' : List (Sig T)} (hp : sigs.Perm sigs') (hs : ∀ s ∈ sigs, ∀ x ∈ s.inputs, E x) :
    findMatching cast decay inputs output sigs = findMatching cast decay inputs output sigs' := by
  rw [find_matching ho decay inputs output sigs hs]
  refine resolves_congr decay inputs output (fun s => (hp.mem_iff).symm) ?_
  exact findMatching_resolves ho decay inputs output sigs' (fun s h => hs s (hp.mem_iff.mpr h))

/-- The hypothesis of these theorems holds for `CanCastImplicitly` on all types that exist. -/
theorem castOrder_qtype {reg : QType.Registry} (hr : reg.Ok) :
    CastOrder (fun a b => QType.canCast reg true (some a) (some b)) (fun q => q.Exists reg) :=
  ⟨fun _ ha => (QType.canCast_partial_order hr true ha ha ha).1,
    fun _ _ ha hb => (QType.canCast_partial_order hr true ha hb ha).2.1,
    fun _ _ _ ha hb hc => (QType.canCast_partial_order hr true ha hb hc).2.2⟩

/-- `f(i32, i32)` finds `f(i32, f32)` rather than `f(f32, f32)`, and is ambiguous with `f(f32, i32)` as well. -/
example :
    let i := QType.QTy.plain .i32
    let f := QType.QTy.plain .f32
    let cast := fun a b => QType.canCast QType.sampleRegistry true (some a) (some b)
    findMatching cast id [i, i] f [⟨[f, f], f⟩, ⟨[i, f], f⟩] = .ok ⟨[i, f], f⟩ ∧
    findMatching cast id [i, i] f [⟨[f, f], f⟩, ⟨[i, f], f⟩, ⟨[f, i], f⟩] = .ambiguous ∧
    findMatching cast id [i, i] f [⟨[f, f], f⟩, ⟨[i, f], f⟩, ⟨[f, i], f⟩, ⟨[i, i], f⟩] = .ok ⟨[i, i], f⟩ ∧
    findMatching cast id [i, i] i [⟨[f, f], f⟩] = .notFound := by decide +kernel

/-! ## C92: registration -/

theorem runInserts_spec {T : Type} [DecidableEq T] : ∀ (cs before : List (Call T)) (f : Family T), FamInv f before →
    ∃ ss f', runInserts f cs = some (ss, f') ∧ FamInv f' (before ++ cs) ∧ ss.length = cs.length ∧
      ∀ (i : Nat) (h : i < cs.length), ss[i]? = some (expectedStatus (before ++ cs.take i) cs[i])
  | [], before, f, h => ⟨[], f, rfl, by simpa using h, rfl, by simp⟩
  | c :: cs, before, f, h => by
    obtain ⟨f1, e1, h1⟩ := insert_spec h c
    obtain ⟨ss, f2, e2, h2, h3, h4⟩ := runInserts_spec cs (before ++ [c]) f1 h1
    refine ⟨expectedStatus before c :: ss, f2, by simp only [runInserts, e1, e2], by simpa using h2, by simp [h3], ?_⟩
    intro i hi
    cases i with
    | zero => simp
    | succ i =>
      have := h4 i (by simpa using hi)
      simpa using this

/-- **C92.** Registrations of operators under one name never crash.  A registration succeeds iff its priority is in range and no
operator with the same input types and priority was registered before. -/
theorem insert_status {T : Type} [DecidableEq T] (calls : List (Call T)) :
    ∃ statuses f, runInserts Family.empty calls = some (statuses, f) ∧ statuses.length = calls.length ∧
      ∀ (i : Nat) (h : i < calls.length), statuses[i]? = some (expectedStatus (calls.take i) calls[i]) := by
  obtain ⟨ss, f, e, _, h3, h4⟩ := runInserts_spec calls [] Family.empty famInv_empty
  exact ⟨ss, f, e, h3, by simpa using h4⟩

/-- What a lookup finds among the operators in effect. -/
def LookupSpec {T : Type} [DecidableEq T] (cast : T → T → Bool) (decay : T → T) (inputs : List T) (output : T) (calls : List (Call T))
    (r : Found (Op T)) : Prop :=
  (∃ o, current inputs calls = some o ∧ o.sig.output = output ∧ r = .ok o) ∨
  ((¬ ∃ o, current inputs calls = some o ∧ o.sig.output = output) ∧
    match r with
    | .ok o => current o.sig.inputs calls = some o ∧ Resolves cast decay inputs output (CurrentSig calls) (.ok o.sig)
    | .notFound => Resolves cast decay inputs output (CurrentSig calls) .notFound
    | .ambiguous => Resolves cast decay inputs output (CurrentSig calls) .ambiguous)

theorem resolve_spec {T : Type} [DecidableEq T] {cast : T → T → Bool} {E : T → Prop} (ho : CastOrder cast E) (decay : T → T)
    (inputs : List T) (output : T) {f : Family T} {calls : List (Call T)} (h : FamInv f calls)
    (hs : ∀ c ∈ calls, ∀ x ∈ c.op.sig.inputs, E x) :
    ∃ r, f.resolve cast decay inputs output = some r ∧
      match r with
      | .ok o => current o.sig.inputs calls = some o ∧ Resolves cast decay inputs output (CurrentSig calls) (.ok o.sig)
      | .notFound => Resolves cast decay inputs output (CurrentSig calls) .notFound
      | .ambiguous => Resolves cast decay inputs output (CurrentSig calls) .ambiguous := by
  have hE : ∀ s ∈ f.supported, ∀ x ∈ s.inputs, E x := by
    intro s hm
    obtain ⟨o, h1, rfl⟩ := (h.sigs s).mp hm
    obtain ⟨c, hc, rfl⟩ := (current_inputs h1).2
    exact hs c hc
  have hr := resolves_congr (cast := cast) decay inputs output h.sigs (findMatching_resolves ho decay inputs output f.supported hE)
  unfold Family.resolve
  generalize findMatching cast decay inputs output f.supported = m at hr
  cases m with
  | notFound => exact ⟨.notFound, rfl, hr⟩
  | ambiguous => exact ⟨.ambiguous, rfl, hr⟩
  | ok s =>
    obtain ⟨o, h1, h2⟩ := hr.1
    have hop := h.op s.inputs
    rw [h1] at hop
    dsimp only
    cases hl : lookupRec s.inputs f.records with
    | none => rw [hl] at hop; cases hop
    | some rec =>
      rw [hl] at hop
      simp only [Option.bind_some] at hop
      refine ⟨.ok o, by simp [hop], ?_, ?_⟩
      · rw [h2]; exact h1
      · rw [h2]; exact hr

/-- **C92.** A lookup after any registrations with priorities in range, successful or not, never crashes.  It finds the operator in
effect for exactly these input types, if it has the requested output type; else the operator in effect with the signature given by
the overload resolution among the operators in effect. -/
theorem get_operator {T : Type} [DecidableEq T] {cast : T → T → Bool} {E : T → Prop} (ho : CastOrder cast E) (decay : T → T)
    (inputs : List T) (output : T) (calls : List (Call T)) (hs : ∀ c ∈ calls, ∀ x ∈ c.op.sig.inputs, E x)
    (hp : ∀ c ∈ calls, c.priority < 2) :
    ∃ statuses f r, runInserts Family.empty calls = some (statuses, f) ∧ f.getOperator cast decay inputs output = some r ∧
      LookupSpec cast decay inputs output calls r := by
  obtain ⟨ss, f, e, h, _, _⟩ := runInserts_spec calls [] Family.empty famInv_empty
  rw [List.nil_append] at h
  obtain ⟨r, hr1, hr2⟩ := resolve_spec ho decay inputs output h hs
  have hop := h.op inputs
  suffices hk : ∃ r, f.getOperator cast decay inputs output = some r ∧ LookupSpec cast decay inputs output calls r by
    obtain ⟨r, h1, h2⟩ := hk
    exact ⟨ss, f, r, e, h1, h2⟩
  unfold Family.getOperator
  cases hl : lookupRec inputs f.records with
  | none =>
    rw [hl] at hop
    refine ⟨r, hr1, Or.inr ⟨?_, hr2⟩⟩
    rintro ⟨o, h1, _⟩
    rw [← hop] at h1
    cases h1
  | some rec =>
    rw [hl] at hop
    obtain ⟨op, mask⟩ := rec
    simp only [Option.bind_some] at hop
    cases op with
    | none =>
      -- the record was made by a call
      exfalso
      obtain ⟨c, hc, hk⟩ := h.known inputs _ hl
      have hfirst : firstOp inputs c.priority calls ≠ none := by
        unfold firstOp
        intro hn
        rw [Option.map_eq_none_iff, List.find?_eq_none] at hn
        have := hn c hc
        simp [hk] at this
      have h2 := hp c hc
      have : current inputs calls ≠ none := by
        unfold current
        cases e1 : firstOp inputs 1 calls with
        | some o => simp
        | none =>
          have : c.priority = 0 := by
            by_contra hne
            have : c.priority = 1 := by omega
            rw [this] at hfirst
            exact hfirst e1
          rw [this] at hfirst
          exact hfirst
      exact this hop.symm
    | some o =>
      dsimp only
      by_cases c : o.sig.output = output
      · rw [if_pos c]
        exact ⟨.ok o, rfl, Or.inl ⟨o, hop.symm, c, rfl⟩⟩
      · rw [if_neg c]
        refine ⟨r, hr1, Or.inr ⟨?_, hr2⟩⟩
        rintro ⟨o', h1, h2⟩
        rw [← hop] at h1
        cases h1
        exact c h2

/-- With a lower and a higher priority the higher one is in effect whatever the order is. -/
example : let lo : Call Nat := ⟨⟨1, ⟨[5], 6⟩⟩, 0⟩; let hi : Call Nat := ⟨⟨2, ⟨[5], 7⟩⟩, 1⟩
    current [5] [lo, hi] = some hi.op ∧ current [5] [hi, lo] = some hi.op ∧
    (runInserts Family.empty [lo, hi, lo]).map (fun r => (r.1, r.2.supported)) = some ([.ok, .ok, .alreadyExists], [⟨[5], 7⟩]) ∧
    ((runInserts Family.empty [hi, lo]).bind fun r => r.2.getOperator (fun a b => a == b) id [5] 7) = some (.ok hi.op) := by
  decide +kernel

/-- Without the condition on the priorities, a failed registration leaves a record without operator, and a lookup with its input types
follows a null pointer. -/
theorem get_operator_counterexample : ∃ (f : Family Nat),
    runInserts Family.empty [⟨⟨1, ⟨[5], 6⟩⟩, 2⟩] = some ([.badPriority], f) ∧
    ∀ (cast : Nat → Nat → Bool) (decay : Nat → Nat) (output : Nat), f.getOperator cast decay [5] output = none := by
  refine ⟨⟨[([5], ⟨none, []⟩)], []⟩, rfl, ?_⟩
  intro cast decay output
  rfl

/-! ### The registry -/

/-- A call of the registry. -/
inductive RegCall (T : Type)
  | operator (name : Nat) (c : Call T)
  | family (name id : Nat)

/-- Several calls of the registry. -/
def runRegistry {T : Type} [DecidableEq T] (isName : Nat → Bool) (fs : Families T) : List (RegCall T) → Option (Families T)
  | [] => some fs
  | .operator name c :: cs => match registerOperator isName fs name c.op c.priority with
    | none => none
    | some r => runRegistry isName r.2 cs
  | .family name id :: cs => runRegistry isName (registerFamily isName fs name id).2 cs

/-- What is registered under a name: the first call decides the kind of the family; later calls of the other kind do nothing. -/
inductive Kind (T : Type)
  | nothing
  | other (id : Nat)
  | operators (calls : List (Call T))

/-- The effect of a call on one name. -/
def Kind.step {T : Type} (isName : Nat → Bool) (name : Nat) (k : Kind T) : RegCall T → Kind T
  | .operator n c => if n = name ∧ isName n = true then
      match k with
      | .nothing => .operators [c]
      | .other id => .other id
      | .operators cs => .operators (cs ++ [c])
    else k
  | .family n id => if n = name ∧ isName n = true then
      match k with
      | .nothing => .other id
      | k => k
    else k

/-- The family agrees with the calls. -/
def Agrees {T : Type} [DecidableEq T] : Option (AnyFamily T) → Kind T → Prop
  | none, .nothing => True
  | some (.other id), .other id' => id = id'
  | some (.combined f), .operators cs => ∃ ss, runInserts Family.empty cs = some (ss, f)
  | _, _ => False

theorem step_operator_ne {T : Type} {isName : Nat → Bool} {n name : Nat} (k : Kind T) (c : Call T) (h : ¬ (name = n ∧ isName name = true)) :
    Kind.step isName n k (.operator name c) = k := by
  unfold Kind.step
  exact if_neg h

theorem step_family_ne {T : Type} {isName : Nat → Bool} {n name : Nat} (k : Kind T) (id : Nat) (h : ¬ (name = n ∧ isName name = true)) :
    Kind.step isName n k (.family name id) = k := by
  unfold Kind.step
  exact if_neg h

theorem lookupFam_store {T : Type} (name n : Nat) (f : AnyFamily T) : ∀ (fs : Families T),
    lookupFam n (storeFam name f fs) = if name = n then some f else lookupFam n fs
  | [] => by simp [storeFam, lookupFam]
  | (k, g) :: fs => by
    unfold storeFam
    by_cases h : k = name
    · rw [if_pos h]
      subst h
      simp only [lookupFam]
      by_cases h2 : k = n
      · simp [h2]
      · simp [h2]
    · rw [if_neg h]
      simp only [lookupFam, lookupFam_store name n f fs]
      by_cases h2 : k = n
      · subst h2
        simp only [if_true]
        rw [if_neg (fun e : name = k => h e.symm)]
      · simp [h2]

theorem runInserts_append {T : Type} [DecidableEq T] (c : Call T) : ∀ (cs : List (Call T)) (f f' : Family T) (ss : List Status),
    runInserts f cs = some (ss, f') → ∀ s f'', f'.insert c.op c.priority = some (s, f'') →
    runInserts f (cs ++ [c]) = some (ss ++ [s], f'')
  | [], f, f', ss, e, s, f'', e2 => by
    simp only [runInserts, Option.some.injEq, Prod.mk.injEq] at e
    obtain ⟨rfl, rfl⟩ := e
    simp [runInserts, e2]
  | d :: cs, f, f', ss, e, s, f'', e2 => by
    simp only [runInserts] at e
    cases h : f.insert d.op d.priority with
    | none => rw [h] at e; cases e
    | some r =>
      obtain ⟨s1, f1⟩ := r
      rw [h] at e
      dsimp only at e
      cases h2 : runInserts f1 cs with
      | none => rw [h2] at e; cases e
      | some r2 =>
        obtain ⟨ss2, f2⟩ := r2
        rw [h2] at e
        simp only [Option.some.injEq, Prod.mk.injEq] at e
        obtain ⟨rfl, rfl⟩ := e
        have := runInserts_append c cs f1 f2 ss2 h2 s f'' e2
        simp [runInserts, h, this]

theorem runRegistry_spec {T : Type} [DecidableEq T] (isName : Nat → Bool) : ∀ (cs : List (RegCall T)) (fs : Families T) (k : Nat → Kind T),
    (∀ n, Agrees (lookupFam n fs) (k n)) →
    ∃ fs', runRegistry isName fs cs = some fs' ∧ ∀ n, Agrees (lookupFam n fs') (cs.foldl (Kind.step isName n) (k n))
  | [], fs, k, h => ⟨fs, rfl, h⟩
  | .operator name c :: cs, fs, k, h => by
    have key : ∃ r, registerOperator isName fs name c.op c.priority = some r ∧
        ∀ n, Agrees (lookupFam n r.2) (Kind.step isName n (k n) (.operator name c)) := by
      unfold registerOperator
      by_cases hn : isName name = true
      · rw [if_neg (by simp [hn])]
        have hne : ∀ (g : AnyFamily T) n, name ≠ n → Agrees (lookupFam n (storeFam name g fs)) (Kind.step isName n (k n) (.operator name c)) := by
          intro g n hnn
          rw [lookupFam_store, if_neg hnn, step_operator_ne _ _ (fun x => hnn x.1)]
          exact h n
        have ha := h name
        cases hl : lookupFam name fs with
        | none =>
          rw [hl] at ha
          cases hk : k name with
          | nothing =>
            obtain ⟨f', e, _⟩ := insert_spec (famInv_empty (T := T)) c
            refine ⟨(expectedStatus [] c, storeFam name (.combined f') fs), by simp only [e, Option.map_some], ?_⟩
            intro n
            by_cases hnn : name = n
            · subst hnn
              simp only [lookupFam_store, if_true, Kind.step, hn, and_self, hk]
              exact ⟨[expectedStatus [] c], by simp only [runInserts, e]⟩
            · exact hne _ n hnn
          | other _ => rw [hk] at ha; cases ha
          | operators _ => rw [hk] at ha; cases ha
        | some g =>
          rw [hl] at ha
          cases g with
          | other id =>
            refine ⟨_, rfl, ?_⟩
            intro n
            by_cases hnn : name = n
            · subst hnn
              cases hk : k name with
              | nothing => rw [hk] at ha; cases ha
              | other id' =>
                simp only [Kind.step, hn, and_self, if_true, hl]
                rw [hk] at ha
                exact ha
              | operators _ => rw [hk] at ha; cases ha
            · rw [step_operator_ne _ _ (fun x => hnn x.1)]
              exact h n
          | combined f =>
            cases hk : k name with
            | nothing => rw [hk] at ha; cases ha
            | other _ => rw [hk] at ha; cases ha
            | operators calls =>
              rw [hk] at ha
              obtain ⟨ss, e⟩ := ha
              obtain ⟨ss', f', e', hinv, _⟩ := runInserts_spec calls [] Family.empty famInv_empty
              rw [e] at e'
              simp only [Option.some.injEq, Prod.mk.injEq] at e'
              obtain ⟨rfl, rfl⟩ := e'
              rw [List.nil_append] at hinv
              obtain ⟨f2, e2, _⟩ := insert_spec hinv c
              refine ⟨(expectedStatus calls c, storeFam name (.combined f2) fs), by simp only [e2, Option.map_some], ?_⟩
              intro n
              by_cases hnn : name = n
              · subst hnn
                simp only [lookupFam_store, if_true, Kind.step, hn, and_self, hk]
                exact ⟨_, runInserts_append c calls _ _ _ e _ _ e2⟩
              · exact hne _ n hnn
      · rw [if_pos (by simp [hn])]
        refine ⟨_, rfl, ?_⟩
        intro n
        rw [step_operator_ne _ _ (fun x => hn x.2)]
        exact h n
    obtain ⟨r, e, h'⟩ := key
    obtain ⟨fs', e', h''⟩ := runRegistry_spec isName cs r.2 _ h'
    exact ⟨fs', by simp only [runRegistry, e, e'], h''⟩
  | .family name id :: cs, fs, k, h => by
    have key : ∀ n, Agrees (lookupFam n (registerFamily isName fs name id).2) (Kind.step isName n (k n) (.family name id)) := by
      intro n
      unfold registerFamily
      by_cases hn : isName name = true
      · rw [if_neg (by simp [hn])]
        have ha := h name
        cases hl : lookupFam name fs with
        | none =>
          rw [hl] at ha
          dsimp only
          rw [lookupFam_store]
          by_cases hnn : name = n
          · subst hnn
            cases hk : k name with
            | nothing => simp [Kind.step, hn, Agrees]
            | other _ => rw [hk] at ha; cases ha
            | operators _ => rw [hk] at ha; cases ha
          · rw [if_neg hnn, step_family_ne _ _ (fun x => hnn x.1)]
            exact h n
        | some g =>
          dsimp only
          by_cases hnn : name = n
          · subst hnn
            cases hk : k name with
            | nothing => rw [hl, hk] at ha; cases g <;> cases ha
            | other _ => rw [hk] at ha; simpa [Kind.step, hn] using ha
            | operators _ => rw [hk] at ha; simpa [Kind.step, hn] using ha
          · rw [step_family_ne _ _ (fun x => hnn x.1)]
            exact h n
      · rw [if_pos (by simp [hn]), step_family_ne _ _ (fun x => hn x.2)]
        exact h n
    obtain ⟨fs', e', h''⟩ := runRegistry_spec isName cs _ _ key
    exact ⟨fs', by simp only [runRegistry, e'], h''⟩

/-- **C92.** What is registered under a name depends only on the calls with this name: the first one decides whether it is a family of
its own or a set of operators, and those of the other kind have no effect. -/
theorem registry_names {T : Type} [DecidableEq T] (isName : Nat → Bool) (calls : List (RegCall T)) :
    ∃ fs, runRegistry isName [] calls = some fs ∧ ∀ name, Agrees (lookupFam name fs) (calls.foldl (Kind.step isName name) .nothing) :=
  runRegistry_spec isName calls [] (fun _ => .nothing) (fun _ => trivial)

/-- **C92.** A lookup under a name that belongs to operators. -/
theorem registry_lookup {T : Type} [DecidableEq T] {cast : T → T → Bool} {E : T → Prop} (ho : CastOrder cast E) (decay : T → T)
    (isName : Nat → Bool) (calls : List (RegCall T)) (name : Nat) (mine : List (Call T)) (inputs : List T) (output : T)
    (hk : calls.foldl (Kind.step isName name) .nothing = .operators mine)
    (hs : ∀ c ∈ mine, ∀ x ∈ c.op.sig.inputs, E x) (hp : ∀ c ∈ mine, c.priority < 2) :
    ∃ fs r, runRegistry isName [] calls = some fs ∧ lookupOperator cast decay fs name inputs output = some r ∧
      LookupSpec cast decay inputs output mine r := by
  obtain ⟨fs, e, h⟩ := registry_names isName calls
  have ha := h name
  rw [hk] at ha
  obtain ⟨ss, f, r, e2, e3, h3⟩ := get_operator ho decay inputs output mine hs hp
  cases hl : lookupFam name fs with
  | none => rw [hl] at ha; cases ha
  | some g =>
    cases g with
    | other _ => rw [hl] at ha; cases ha
    | combined f' =>
      rw [hl] at ha
      obtain ⟨ss', e4⟩ := ha
      rw [e2] at e4
      simp only [Option.some.injEq, Prod.mk.injEq] at e4
      obtain ⟨rfl, rfl⟩ := e4
      exact ⟨fs, r, e, by simp only [lookupOperator, hl]; exact e3, h3⟩

example : ([RegCall.operator 1 ⟨⟨1, ⟨[5], 6⟩⟩, 0⟩, .family 2 8, .family 1 9, .operator 1 ⟨⟨2, ⟨[7], 6⟩⟩, 0⟩, .operator 2 ⟨⟨3, ⟨[], 6⟩⟩, 0⟩]
    : List (RegCall Nat)).foldl (Kind.step (fun _ => true) 1) .nothing = .operators [⟨⟨1, ⟨[5], 6⟩⟩, 0⟩, ⟨⟨2, ⟨[7], 6⟩⟩, 0⟩] := rfl

end Verif.Overload
