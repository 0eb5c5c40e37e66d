import Verif.HigherOrder.HigherOrderModel

/-!
# Properties of the type inference of operators that take operators (C174)
-/

namespace Verif.HigherOrder

variable {V E : Type}

/-! ## Specification -/

/-- More is known in the second than in the first, and nothing else. -/
inductive Le : Attr V → Attr V → Prop
  | refl (a : Attr V) : Le a a
  | bot (a : Attr V) : Le .unknown a
  | value (t : Ty) (v : V) : Le (.typed t) (.literal t v)

/-- The same for lists. -/
inductive LeAll : List (Attr V) → List (Attr V) → Prop
  | nil : LeAll [] []
  | cons {a b : Attr V} {as bs : List (Attr V)} : Le a b → LeAll as bs → LeAll (a :: as) (b :: bs)

/-- A value agrees with what is known about it. -/
def Agrees (hasTy : V → Ty → Prop) (v : V) : Attr V → Prop
  | .unknown => True
  | .typed t => hasTy v t
  | .literal t w => v = w ∧ hasTy v t

/-- The same for lists. -/
inductive AgreeAll (hasTy : V → Ty → Prop) : List V → List (Attr V) → Prop
  | nil : AgreeAll hasTy [] []
  | cons {v : V} {a : Attr V} {vs : List V} {as : List (Attr V)} :
    Agrees hasTy v a → AgreeAll hasTy vs as → AgreeAll hasTy (v :: vs) (a :: as)

/-- The type that an operator infers is the type of what it computes. -/
def Sound (hasTy : V → Ty → Prop) (o : Op V E) (eval : List V → Option V) : Prop :=
  ∀ (as : List (Attr V)) (a : Attr V) (t : Ty) (vs : List V) (r : V),
    o.infer as = .ok a → a.ty = some t → AgreeAll hasTy vs as → eval vs = some r → hasTy r t

/-- `seq.reduce` on the elements of a sequence. -/
def reduceValues (eval : List V → Option V) : V → List V → Option V
  | acc, [] => some acc
  | acc, v :: vs => match eval [acc, v] with
    | none => none
    | some acc => reduceValues eval acc vs

/-- The states that a loop can get into. -/
inductive Reach (eval : List V → Option V) (rest : List V) : V → V → Prop
  | start (s : V) : Reach eval rest s s
  | step {s u w : V} : Reach eval rest s u → eval (u :: rest) = some w → Reach eval rest s w

/-! ## Facts -/

theorem Le.ty {a b : Attr V} (h : Le a b) {t : Ty} (ha : a.ty = some t) : b.ty = some t := by
  cases h with
  | refl => exact ha
  | bot => simp [Attr.ty] at ha
  | value => simpa [Attr.ty] using ha

theorem Le.val {a b : Attr V} (h : Le a b) {v : V} (ha : a.value = some v) : b.value = some v := by
  cases h with
  | refl => exact ha
  | bot => simp [Attr.value] at ha
  | value => simp [Attr.value] at ha

theorem ty_literal (t : Ty) (v : V) : (Attr.literal t v).ty = some t := rfl

theorem value_literal (t : Ty) (v : V) : (Attr.literal t v).value = some v := rfl

theorem LeAll.length {as bs : List (Attr V)} (h : LeAll as bs) : as.length = bs.length := by
  induction h with
  | nil => rfl
  | cons _ _ ih => simp [ih]

theorem elementTypes_ok {i : Nat} {args : List (Attr V)} {ts : List Ty} :
    (elementTypes i args : Except (Err E) _) = .ok ts ↔ args.map Attr.ty = ts.map (fun t => some (.seq t)) := by
  induction args generalizing i ts with
  | nil => cases ts <;> simp [elementTypes]
  | cons a rest ih =>
    unfold elementTypes
    split
    · rename_i t h
      cases hr : (elementTypes (i + 1) rest : Except (Err E) _) with
      | error e =>
        constructor
        · intro h'; simp at h'
        · intro h'
          cases ts with
          | nil => simp at h'
          | cons u us =>
            simp at h'
            have := (ih (i := i + 1) (ts := us)).2 (by simpa using h'.2)
            rw [hr] at this; simp at this
      | ok us =>
        have hu := ih.1 hr
        constructor
        · intro h'; simp at h'; subst h'; simp [h, hu]
        · intro h'
          cases ts with
          | nil => simp at h'
          | cons w ws =>
            simp only [List.map_cons, List.cons.injEq, h, Option.some.injEq, Ty.seq.injEq] at h'
            have := (ih (i := i + 1) (ts := ws)).2 h'.2
            rw [hr] at this
            simp at this
            simp [h'.1, this]
    · rename_i h
      constructor
      · intro h'; simp at h'
      · intro h'
        cases ts with
        | nil => simp at h'
        | cons w ws =>
          simp only [List.map_cons, List.cons.injEq] at h'
          exact absurd h'.1 (h w)

theorem seq_known {args : List (Attr V)} {ts : List Ty} (h : args.map Attr.ty = ts.map (fun t => some (.seq t))) :
    args.any (fun a => a.ty.isNone) = false := by
  rw [List.any_eq_false]
  intro a ha
  have : a.ty ∈ args.map Attr.ty := List.mem_map_of_mem ha
  rw [h, List.mem_map] at this
  obtain ⟨t, _, ht⟩ := this
  simp [← ht]

theorem attr_literal {a : Attr V} {t : Ty} {v : V} (h : a.ty = some t) (hv : a.value = some v) : a = .literal t v := by
  cases a <;> simp_all [Attr.ty, Attr.value]

/-! ## What is inferred -/

/-- `seq.map` calls the operator on the types of the elements exactly when the operator is a literal and there is at least one argument and all are
sequences: then this is what it does. -/
theorem seqMap_calls (asOp : V → Op V E) (v : V) {args : List (Attr V)} {ts : List Ty} (hne : args ≠ [])
    (hts : args.map Attr.ty = ts.map (fun t => some (.seq t))) :
    seqMap asOp (.literal .operator v :: args) =
      match callOp (asOp v) (ts.map .typed) with
      | .error e => .err e
      | .ok a => match a.ty with
        | none => .crash
        | some t => .attr (.typed (.seq t)) := by
  have h2 : 1 ≤ args.length := by cases args <;> simp_all
  have hc : acceptsCount 2 true (args.length + 1) = true := by simp [acceptsCount]; omega
  simp only [seqMap, List.length_cons, hc, Bool.not_true, ty_literal, value_literal, Option.isSome_some, Option.isNone_some, seq_known hts,
    (elementTypes_ok (E := E) (i := 1)).2 hts]
  simp only [Bool.false_eq_true, if_false, ne_eq, not_true_eq_false, decide_false, Bool.and_false]
  cases callOp (asOp v) (ts.map .typed) with
  | error e => rfl
  | ok a => cases a <;> rfl

/-- A type is inferred for `seq.map` exactly when the operator is a literal, all arguments are sequences, and the operator has an output type for
the types of the elements. -/
theorem seqMap_known (asOp : V → Op V E) (op : Attr V) (args : List (Attr V)) (b : Attr V) (hb : b ≠ .unknown) :
    seqMap asOp (op :: args) = .attr b ↔
      args ≠ [] ∧ ∃ (v : V) (ts : List Ty) (a : Attr V) (t : Ty), op = .literal .operator v ∧ args.map Attr.ty = ts.map (fun t => some (.seq t)) ∧
        callOp (asOp v) (ts.map .typed) = .ok a ∧ a.ty = some t ∧ b = .typed (.seq t) := by
  constructor
  · intro h
    have hne : args ≠ [] := by
      intro he; subst he; simp [seqMap, acceptsCount] at h
    refine ⟨hne, ?_⟩
    have h2 : 1 ≤ args.length := by cases args <;> simp_all
    have hc : acceptsCount 2 true (args.length + 1) = true := by simp [acceptsCount]; omega
    have hrun := h
    simp only [seqMap, List.length_cons, hc, Bool.not_true, Bool.false_eq_true, if_false] at h
    split at h
    · simp at h
    split at h
    · simp at h
    rename_i h1 h3
    split at h
    · simp at h; exact absurd h.symm hb
    split at h
    · simp at h
    rename_i ts hts
    split at h
    · simp at h; exact absurd h.symm hb
    rename_i hop
    obtain ⟨t, ht⟩ : ∃ t, op.ty = some t := by cases ho : op.ty <;> simp_all
    obtain ⟨v, hv⟩ : ∃ v, op.value = some v := by cases ho : op.value <;> simp_all
    have hto : t = .operator := by simpa [ht] using h1
    subst hto
    have hlit := attr_literal ht hv
    subst hlit
    have hts' := elementTypes_ok.1 hts
    rw [seqMap_calls asOp v hne hts'] at hrun
    cases hcall : callOp (asOp v) (ts.map .typed) with
    | error e => rw [hcall] at hrun; simp at hrun
    | ok a =>
      rw [hcall] at hrun
      cases hty : a.ty with
      | none => simp [hty] at hrun
      | some u =>
        simp only [hty, Outcome.attr.injEq] at hrun
        exact ⟨v, ts, a, u, rfl, hts', hcall, hty, hrun.symm⟩
  · rintro ⟨hne, v, ts, a, t, rfl, hts, hcall, hty, rfl⟩
    rw [seqMap_calls asOp v hne hts, hcall]
    simp [hty]

/-- `seq.map` follows a null pointer exactly when the operator has no output type for the known types of the elements. -/
theorem seqMap_crash (asOp : V → Op V E) (op : Attr V) (args : List (Attr V)) :
    seqMap asOp (op :: args) = .crash ↔
      args ≠ [] ∧ ∃ (v : V) (ts : List Ty), op = .literal .operator v ∧ args.map Attr.ty = ts.map (fun t => some (.seq t)) ∧
        callOp (asOp v) (ts.map .typed) = .ok .unknown := by
  constructor
  · intro h
    have hne : args ≠ [] := by
      intro he; subst he; simp [seqMap, acceptsCount] at h
    refine ⟨hne, ?_⟩
    have h2 : 1 ≤ args.length := by cases args <;> simp_all
    have hc : acceptsCount 2 true (args.length + 1) = true := by simp [acceptsCount]; omega
    have hrun := h
    simp only [seqMap, List.length_cons, hc, Bool.not_true, Bool.false_eq_true, if_false] at h
    split at h
    · simp at h
    split at h
    · simp at h
    rename_i h1 h3
    split at h
    · simp at h
    split at h
    · simp at h
    rename_i ts hts
    split at h
    · simp at h
    rename_i hop
    obtain ⟨t, ht⟩ : ∃ t, op.ty = some t := by cases ho : op.ty <;> simp_all
    obtain ⟨v, hv⟩ : ∃ v, op.value = some v := by cases ho : op.value <;> simp_all
    have hto : t = .operator := by simpa [ht] using h1
    subst hto
    have hlit := attr_literal ht hv
    subst hlit
    have hts' := elementTypes_ok.1 hts
    rw [seqMap_calls asOp v hne hts'] at hrun
    cases hcall : callOp (asOp v) (ts.map .typed) with
    | error e => rw [hcall] at hrun; simp at hrun
    | ok a =>
      rw [hcall] at hrun
      cases hty : a.ty with
      | some u => simp [hty] at hrun
      | none =>
        have : a = .unknown := by cases a <;> simp_all [Attr.ty]
        subst this
        exact ⟨v, ts, rfl, hts', hcall⟩
  · rintro ⟨hne, v, ts, rfl, hts, hcall⟩
    rw [seqMap_calls asOp v hne hts, hcall]
    rfl

/-- A type is inferred for `seq.reduce` exactly when the type of `initial` is known, and the operator, as far as it and the type of the sequence
are known, is a literal operator of two arguments whose output type for `initial` and an element is the type of `initial`. -/
theorem seqReduce_known (asOp : V → Op V E) (op seq initial b : Attr V) (hb : b ≠ .unknown) :
    seqReduce asOp [op, seq, initial] = .attr b ↔
      ∃ s, initial.ty = some s ∧ b = .typed s ∧ (op.ty = none ∨ op.ty = some .operator) ∧ (seq.ty = none ∨ ∃ t, seq.ty = some (.seq t)) ∧
        (∀ t, op.ty ≠ none → seq.ty = some (.seq t) → ∃ v a, op.value = some v ∧
          acceptsCount (asOp v).params.length (asOp v).variadic 2 = true ∧ (asOp v).infer [.typed s, .typed t] = .ok a ∧ a.ty = some s) := by
  unfold seqReduce
  rcases ho : op.ty with _ | o <;> rcases hs : seq.ty with _ | (_ | _ | _ | t) <;> rcases hi : initial.ty with _ | s <;>
    simp [eq_comm (a := b)] <;> try grind

/-- The type of a loop is the type of its state, and is known exactly when that of the state is and the condition and the body, as far as they
infer a type, give `OPTIONAL_UNIT` and the type of the state. -/
theorem whileLoop_known (l : Loop V E) (state : Attr V) (rest : List (Attr V)) (b : Attr V) (hb : b ≠ .unknown) :
    whileLoop l (state :: rest) = .attr b ↔
      acceptsCount l.params l.variadic (rest.length + 1) = true ∧ ∃ (t : Ty) (c d : Attr V), state.ty = some t ∧ b = .typed t ∧
        l.cond.infer (.typed t :: rest) = .ok c ∧ (c.ty = none ∨ c.ty = some .optionalUnit) ∧
        l.body.infer (.typed t :: rest) = .ok d ∧ (d.ty = none ∨ d.ty = some t) := by
  unfold whileLoop
  cases hc : acceptsCount l.params l.variadic (rest.length + 1) with
  | false => simp [hc]
  | true =>
    simp only [List.length_cons, hc, Bool.not_true, Bool.false_eq_true, if_false, true_and]
    cases hs : state.ty with
    | none => simp [eq_comm (a := b)]; exact fun h => hb h.symm
    | some t =>
      simp only [Option.some.injEq]
      cases hcond : l.cond.infer (.typed t :: rest) with
      | error e =>
        constructor
        · intro h; simp at h
        · rintro ⟨u, c, d, rfl, _, h2, _⟩; rw [hcond] at h2; cases h2
      | ok c =>
        cases hbody : l.body.infer (.typed t :: rest) with
        | error e =>
          have : ∀ o : Outcome V E, o = .err .wrongCondition ∨ o = .err (.inner e) → o ≠ .attr b := by rintro o (rfl | rfl) <;> simp
          constructor
          · intro h; exfalso; revert h
            simp only; split <;> simp
          · rintro ⟨u, c', d, rfl, _, _, _, h, _⟩; rw [hbody] at h; cases h
        | ok d =>
          constructor
          · intro h
            simp only at h
            split at h
            · simp at h
            · split at h
              · simp at h
              · rename_i h1 h2
                simp at h
                refine ⟨t, c, d, rfl, h.symm, hcond, ?_, hbody, ?_⟩
                · cases hct : c.ty <;> simp_all
                · cases hdt : d.ty <;> simp_all
          · rintro ⟨u, c', d', rfl, rfl, h1, h2, h3, h4⟩
            rw [hcond] at h1; rw [hbody] at h3; cases h1; cases h3
            rcases h2 with h2 | h2 <;> rcases h4 with h4 | h4 <;> simp [h2, h4]

/-- A loop reads the first of no arguments exactly when it is called without arguments and its signature is one variadic parameter. -/
theorem whileLoop_crash (l : Loop V E) (inputs : List (Attr V)) (hl : 0 < l.params ∨ l.variadic = true) :
    whileLoop l inputs = .crash ↔ inputs = [] ∧ l.params = 0 ∧ l.variadic = true := by
  unfold whileLoop
  cases inputs with
  | nil =>
    cases hc : acceptsCount l.params l.variadic 0 with
    | false =>
      simp [hc]
      intro h0
      simp [acceptsCount, h0] at hc
    | true =>
      simp [hc]
      simp [acceptsCount] at hc
      grind
  | cons state rest =>
    simp only [List.length_cons, reduceCtorEq, false_and, iff_false]
    repeat' split
    all_goals simp

/-! ## More knowledge does not change what is inferred -/

theorem seqMap_mono (asOp : V → Op V E) {as bs : List (Attr V)} (h : LeAll as bs) {x y : Attr V} (hx : seqMap asOp as = .attr x)
    (hy : seqMap asOp bs = .attr y) : Le x y := by
  by_cases hu : x = .unknown
  · subst hu; exact .bot y
  cases h with
  | nil => simp [seqMap, acceptsCount] at hx
  | @cons a b as bs hab hrest =>
    obtain ⟨hne, v, ts, c, t, rfl, hts, hcall, hty, rfl⟩ := (seqMap_known asOp _ _ _ hu).1 hx
    have hb : b = .literal .operator v := by cases hab; rfl
    subst hb
    have hts' : bs.map Attr.ty = ts.map (fun t => some (.seq t)) := by
      clear hx hy hcall hne
      induction hrest generalizing ts with
      | nil => exact hts
      | @cons a b as bs h1 _ ih =>
        cases ts with
        | nil => simp at hts
        | cons u us =>
          simp only [List.map_cons, List.cons.injEq] at hts ⊢
          exact ⟨h1.ty hts.1, ih us hts.2⟩
    have hne' : bs ≠ [] := by
      intro he; subst he; cases hrest; exact hne rfl
    rw [(seqMap_known asOp _ _ (.typed (.seq t)) (by simp)).2 ⟨hne', v, ts, c, t, rfl, hts', hcall, hty, rfl⟩] at hy
    cases hy
    exact .refl _

theorem seqReduce_mono (asOp : V → Op V E) {as bs : List (Attr V)} (h : LeAll as bs) {x y : Attr V} (hx : seqReduce asOp as = .attr x)
    (hy : seqReduce asOp bs = .attr y) : Le x y := by
  by_cases hu : x = .unknown
  · subst hu; exact .bot y
  match h with
  | .cons (a := op) (b := op') h1 (.cons (a := seq) (b := seq') h2 (.cons (a := ini) (b := ini') h3 .nil)) =>
    obtain ⟨s, hs, rfl, _⟩ := (seqReduce_known asOp _ _ _ _ hu).1 hx
    have hs' := h3.ty hs
    by_cases hv : y = .unknown
    · subst hv
      exfalso
      revert hy
      simp only [seqReduce, hs']
      repeat' split
      all_goals simp_all
    · obtain ⟨s', h4, rfl, _⟩ := (seqReduce_known asOp _ _ _ _ hv).1 hy
      rw [hs'] at h4; cases h4
      exact .refl _
  | .nil => simp [seqReduce] at hx
  | .cons _ .nil => simp [seqReduce] at hx
  | .cons _ (.cons _ .nil) => simp [seqReduce] at hx
  | .cons _ (.cons _ (.cons _ (.cons _ _))) => simp [seqReduce] at hx

theorem whileLoop_mono (l : Loop V E) {as bs : List (Attr V)} (h : LeAll as bs) {x y : Attr V} (hx : whileLoop l as = .attr x)
    (hy : whileLoop l bs = .attr y) : Le x y := by
  by_cases hu : x = .unknown
  · subst hu; exact .bot y
  cases h with
  | nil => exfalso; revert hx; unfold whileLoop; split <;> simp
  | @cons a b as bs hab hrest =>
    obtain ⟨_, t, c, d, hs, rfl, _⟩ := (whileLoop_known l _ _ _ hu).1 hx
    have hs' := hab.ty hs
    by_cases hv : y = .unknown
    · subst hv
      exfalso
      revert hy
      unfold whileLoop
      simp only [hs']
      repeat' split
      all_goals simp
    · obtain ⟨_, t', c', d', h4, rfl, _⟩ := (whileLoop_known l _ _ _ hv).1 hy
      rw [hs'] at h4; cases h4
      exact .refl _

/-- **C174.**  What is inferred for `seq.map`, `seq.reduce` and a while loop is neither withdrawn nor changed when more becomes known about the
inputs, whatever the operators do that they are given; for `core.apply` this holds if it does for the operator. -/
theorem inferred_stays (asOp : V → Op V E) (l : Loop V E) {as bs : List (Attr V)} (h : LeAll as bs) (x y : Attr V) :
    (seqMap asOp as = .attr x → seqMap asOp bs = .attr y → Le x y) ∧
    (seqReduce asOp as = .attr x → seqReduce asOp bs = .attr y → Le x y) ∧
    (whileLoop l as = .attr x → whileLoop l bs = .attr y → Le x y) ∧
    ((∀ v cs ds c d, LeAll cs ds → (asOp v).infer cs = .ok c → (asOp v).infer ds = .ok d → Le c d) →
      coreApply asOp as = .attr x → coreApply asOp bs = .attr y → Le x y) := by
  refine ⟨seqMap_mono asOp h, seqReduce_mono asOp h, whileLoop_mono l h, ?_⟩
  intro hm hx hy
  cases h with
  | nil => simp [coreApply] at hx
  | @cons a b as bs hab hrest =>
    cases hta : a.ty with
    | none => simp [coreApply, hta] at hx; subst hx; exact .bot y
    | some t =>
      have htb := hab.ty hta
      by_cases ht : t = .operator
      · cases hva : a.value with
        | none => simp [coreApply, hta, hva, ht] at hx
        | some v =>
          have hvb := hab.val hva
          simp only [coreApply, hta, hva, ht] at hx
          simp only [coreApply, htb, hvb, ht] at hy
          cases hia : (asOp v).infer as with
          | error e => simp [hia] at hx
          | ok c =>
            cases hib : (asOp v).infer bs with
            | error e => simp [hib] at hy
            | ok d =>
              simp [hia] at hx; simp [hib] at hy
              subst hx; subst hy
              exact hm v as bs _ _ hrest hia hib
      · simp [coreApply, hta, ht] at hx

/-! ## The values have the inferred types -/

/-- **C174.**  `seq.reduce` of elements of the type of the sequence, if all its arguments are known, has the inferred type for every number of elements. -/
theorem reduce_sound (asOp : V → Op V E) (hasTy : V → Ty → Prop) (eval : List V → Option V) (o : V) {seq initial b : Attr V} {t : Ty}
    (hs : Sound hasTy (asOp o) eval) (hseq : seq.ty = some (.seq t))
    (hrun : seqReduce asOp [.literal .operator o, seq, initial] = .attr b) (hb : b ≠ .unknown) :
    ∃ s, b = .typed s ∧ ∀ (acc : V) (vs : List V) (r : V), hasTy acc s → (∀ v ∈ vs, hasTy v t) → reduceValues eval acc vs = some r →
      hasTy r s := by
  obtain ⟨s, _, rfl, _, _, h⟩ := (seqReduce_known asOp _ _ _ _ hb).1 hrun
  obtain ⟨v, a, hv, _, hinf, hty⟩ := h t (by simp [Attr.ty]) hseq
  simp [Attr.value] at hv
  subst hv
  refine ⟨s, rfl, ?_⟩
  intro acc vs
  induction vs generalizing acc with
  | nil => intro r h1 _ h; simp [reduceValues] at h; exact h ▸ h1
  | cons v vs ih =>
    intro r h1 h2 h
    unfold reduceValues at h
    split at h
    · simp at h
    · rename_i acc' hacc
      exact ih acc' r (hs _ _ _ _ _ hinf hty (.cons h1 (.cons (h2 v (by simp)) .nil)) hacc) (fun w hw => h2 w (by simp [hw])) h

/-- **C174.**  The state of a loop keeps the inferred type in every iteration, if the body infers a type.  Missing: a body that
infers none, for which nothing is checked before the loop is compiled. -/
theorem loop_sound_partial (l : Loop V E) (hasTy : V → Ty → Prop) (eval : List V → Option V) {state b : Attr V} {rest : List (Attr V)}
    (hs : Sound hasTy l.body eval) (hrun : whileLoop l (state :: rest) = .attr b) (hb : b ≠ .unknown)
    (hknown : ∀ t d, state.ty = some t → l.body.infer (.typed t :: rest) = .ok d → d.ty ≠ none) :
    ∃ s, b = .typed s ∧ ∀ (first : V) (vs : List V) (r : V), hasTy first s → AgreeAll hasTy vs rest → Reach eval vs first r → hasTy r s := by
  obtain ⟨_, t, c, d, ht, rfl, _, _, hd, hdt⟩ := (whileLoop_known l _ _ _ hb).1 hrun
  refine ⟨t, rfl, ?_⟩
  intro first vs r h1 h2 h3
  induction h3 with
  | start => exact h1
  | step _ he ih => exact hs _ _ _ _ _ hd (hdt.resolve_left (hknown t d ht hd)) (.cons ih h2) he

theorem bindArgs_ok {params : List (Option (Ty × V))} {variadic : Bool} {args r : List (Attr V)}
    (h : (bindArgs params variadic args : Except (Err E) _) = .ok r) :
    r = args ++ (params.drop args.length).filterMap (fun d => d.map fun p => .literal p.1 p.2) := by
  fun_induction bindArgs (E := E) params variadic args generalizing r with
  | case1 => simp at h; simp [h]
  | case2 => simp at h
  | case3 _ _ _ _ _ _ hr ih => simp at h; subst h; simp [← ih hr]
  | case4 => simp at h
  | case5 _ _ _ _ hr ih => simp at h; subst h; have := ih hr; simp at this; simp [← this]
  | case6 => simp at h
  | case7 => simp at h

theorem AgreeAll.append {hasTy : V → Ty → Prop} {vs ws : List V} {as bs : List (Attr V)} (h1 : AgreeAll hasTy vs as)
    (h2 : AgreeAll hasTy ws bs) : AgreeAll hasTy (vs ++ ws) (as ++ bs) := by
  induction h1 with
  | nil => exact h2
  | cons h _ ih => exact .cons h ih

theorem AgreeAll.defaults {hasTy : V → Ty → Prop} : ∀ (ds : List (Option (Ty × V))), (∀ p, some p ∈ ds → hasTy p.2 p.1) →
    AgreeAll hasTy (ds.filterMap (fun d => d.map Prod.snd)) (ds.filterMap (fun d => d.map fun p => Attr.literal p.1 p.2))
  | [], _ => .nil
  | none :: ds, h => by simpa using AgreeAll.defaults ds (fun p hp => h p (by simp [hp]))
  | some p :: ds, h => by
    have hp : Agrees hasTy p.2 (.literal p.1 p.2) := ⟨rfl, h p (by simp)⟩
    simpa using AgreeAll.cons hp (AgreeAll.defaults ds (fun p hp => h p (by simp [hp])))

/-- **C174.**  Every element that `seq.map` computes has the type of the elements of the inferred sequence.  The operator gets the elements and the
default values of the parameters without an argument. -/
theorem map_sound (asOp : V → Op V E) (hasTy : V → Ty → Prop) (eval : List V → Option V) (o : V) {args : List (Attr V)} {b : Attr V}
    (hs : Sound hasTy (asOp o) eval) (hd : ∀ p, some p ∈ (asOp o).params → hasTy p.2 p.1)
    (hrun : seqMap asOp (.literal .operator o :: args) = .attr b) (hb : b ≠ .unknown) :
    ∃ (ts : List Ty) (t : Ty), args.map Attr.ty = ts.map (fun t => some (.seq t)) ∧ b = .typed (.seq t) ∧
      ∀ (vs : List V) (r : V), AgreeAll hasTy vs (ts.map .typed) →
        eval (vs ++ ((asOp o).params.drop args.length).filterMap (fun d => d.map Prod.snd)) = some r → hasTy r t := by
  obtain ⟨_, v, ts, a, t, hv, hts, hcall, hty, rfl⟩ := (seqMap_known asOp _ _ _ hb).1 hrun
  cases hv
  refine ⟨ts, t, hts, rfl, ?_⟩
  intro vs r h1 h2
  have hlen : args.length = ts.length := by simpa using congrArg List.length hts
  unfold callOp at hcall
  cases hbind : (bindArgs (asOp o).params (asOp o).variadic (ts.map .typed) : Except (Err E) _) with
  | error e => rw [hbind] at hcall; simp at hcall
  | ok deps =>
    rw [hbind] at hcall
    simp only at hcall
    have hdeps := bindArgs_ok hbind
    rw [List.length_map, ← hlen] at hdeps
    cases hinf : (asOp o).infer deps with
    | error e => simp [hinf] at hcall
    | ok c =>
      simp [hinf] at hcall; subst hcall
      refine hs _ _ _ _ _ hinf hty ?_ h2
      rw [hdeps]
      exact h1.append (.defaults _ (fun p hp => hd p (List.mem_of_mem_drop hp)))

/-! ## Where it does not hold -/

/-- The operators of the examples: `add : (base 1, base 1) → base 1` with a default value, one without an output type, and one whose second
argument has to be a literal. -/
def exAdd : Op Nat Unit where
  params := [none, some (.base 1, 7)]
  variadic := false
  infer
    | [a, b] => if a.ty = none ∨ b.ty = none then .ok .unknown else if a.ty = some (.base 1) ∧ b.ty = some (.base 1) then .ok (.typed (.base 1)) else .error ()
    | _ => .error ()

def exVague : Op Nat Unit := ⟨[none], false, fun _ => .ok .unknown⟩

def exNth : Op Nat Unit where
  params := [none, none]
  variadic := false
  infer
    | [a, .literal _ _] => .ok a
    | [_, .unknown] => .ok .unknown
    | _ => .error ()

def exCond : Op Nat Unit := ⟨[none, none], false, fun _ => .ok (.typed .optionalUnit)⟩

def exOps : Nat → Op Nat Unit
  | 0 => exAdd
  | 1 => exVague
  | _ => exNth

/-- `seq.map` of an operator that infers no type follows a null pointer, where `core.map` infers nothing (map_operator.cc:132-134). -/
theorem seqMap_null_counterexample : seqMap exOps [.literal .operator 1, .typed (.seq (.base 1))] = .crash := by decide

/-- A loop whose signature is `*args` is made and can be called with no arguments: it reads the first one. -/
theorem whileLoop_empty_counterexample : whileLoop ⟨0, true, exCond, exCond⟩ ([] : List (Attr Nat)) = .crash := by decide

/-- A type is inferred for a loop whose body needs a literal; on the types alone, which is what the compiler has
(dynamic_compiled_operator.cc:59-71), the body is an error. -/
theorem whileLoop_literal_counterexample :
    whileLoop ⟨2, false, exCond, exNth⟩ [.typed (.base 1), .literal (.base 1) 5] = .attr (.typed (.base 1)) ∧
    exNth.infer [.typed (.base 1), .typed (.base 1)] = .error () := ⟨by decide, rfl⟩

/-! ## Examples -/

example : seqMap exOps [.literal .operator 0, .typed (.seq (.base 1)), .typed (.seq (.base 1))] = .attr (.typed (.seq (.base 1))) := by decide
example : seqMap exOps [.literal .operator 0, .typed (.seq (.base 1))] = .attr (.typed (.seq (.base 1))) := by decide
example : seqMap exOps [.unknown, .typed (.seq (.base 1)), .typed (.base 1)] = .err (.notSequence 3) := by decide
example : seqMap exOps [.literal .operator 0, .typed (.seq (.base 2))] = .err (.inner ()) := by decide
example : seqMap exOps [.typed .operator, .unknown] = .err .notLiteral := by decide
example : seqMap exOps [.literal .operator 0] = .err .badCount := by decide
example : seqReduce exOps [.literal .operator 0, .typed (.seq (.base 1)), .literal (.base 1) 3] = .attr (.typed (.base 1)) := by decide
example : seqReduce exOps [.unknown, .unknown, .literal (.base 2) 3] = .attr (.typed (.base 2)) := by decide
example : seqReduce exOps [.literal .operator 1, .typed (.seq (.base 1)), .typed (.base 1)] = .err .notBinary := by decide
example : whileLoop ⟨2, false, exCond, exAdd⟩ [.literal (.base 1) 3, .typed (.base 1)] = .attr (.typed (.base 1)) := by decide
example : whileLoop ⟨2, false, exAdd, exAdd⟩ [.literal (.base 1) 3, .typed (.base 1)] = .err .wrongCondition := by decide
example : coreApply exOps [.literal .operator 0, .typed (.base 1), .unknown] = .attr .unknown := by decide
example : LeAll [Attr.unknown, .typed (.base 1)] [.literal .operator 0, .literal (.base 1) 4] := .cons (.bot _) (.cons (.value _ _) .nil)

/-- The hypotheses of `reduce_sound`, `loop_sound_partial` and `map_sound` hold for `add`. -/
theorem exSound : Sound (fun _ t => t = .base 1) exAdd (fun vs => match vs with | [a, b] => some (a + b) | _ => none) := by
  intro as a t vs r h1 h2 _ _
  match as, h1 with
  | [x, y], h1 =>
    simp only [exAdd] at h1
    split at h1
    · cases h1; simp [Attr.ty] at h2
    · split at h1
      · cases h1; simpa [Attr.ty, eq_comm] using h2
      · cases h1
  | [], h1 => simp [exAdd] at h1
  | [_], h1 => simp [exAdd] at h1
  | _ :: _ :: _ :: _, h1 => simp [exAdd] at h1

example : reduceValues (fun vs : List Nat => match vs with | [a, b] => some (a + b) | _ => none) 3 [4, 5] = some 12 := by decide

end Verif.HigherOrder
