import Verif.BackendOp.BackendOpSpec
import Verif.Generic.DispatchProps

/-! # C170: type inference of backend operators and restricted lambda operators -/

namespace Verif.BackendOp

open Verif.Generic

variable {T : Type} [DecidableEq T] {nothing : T} {tuple : List T → T}

omit [DecidableEq T] in
theorem validCount_iff : ∀ {sig : List Param} (_ : ValidSig sig) (inputs : List (Option T)),
    validCount sig inputs.length = true ↔ ∃ bs, Binds sig inputs bs
  | [], _, inputs => by
    constructor
    · intro h
      have : inputs = [] := by
        simp [validCount] at h
        exact h
      subst this
      exact ⟨_, .nil⟩
    · rintro ⟨bs, h⟩
      cases h
      rfl
  | [⟨n, true⟩], _, inputs => by
    constructor
    · intro _; exact ⟨_, .var⟩
    · intro _; simp [validCount]
  | [⟨n, false⟩], _, inputs => by
    constructor
    · intro h
      simp [validCount] at h
      match inputs, h with
      | [], h => simp at h
      | [x], _ => exact ⟨_, .pos .nil⟩
      | _ :: _ :: _, h => simp at h
    · rintro ⟨bs, h⟩
      cases h with
      | pos h => cases h; rfl
  | ⟨n, v⟩ :: q :: ps, hv, inputs => by
    obtain ⟨h1, h2, _⟩ := validSig_tail hv
    have hv' : v = false := h2 (by simp)
    subst hv'
    have ih := fun xs : List (Option T) => validCount_iff h1 xs
    have key : ∀ k, validCount (⟨n, false⟩ :: q :: ps) (k + 1) = validCount (q :: ps) k := by
      intro k
      simp only [validCount, List.getLast?_cons_cons, List.length_cons]
      cases ((q :: ps).getLast?.map (·.variadic)).getD false <;> simp
    cases inputs with
    | nil =>
      constructor
      · intro h
        simp only [validCount, List.getLast?_cons_cons, List.length_cons, List.length_nil] at h
        cases hx : (((q :: ps).getLast?.map (·.variadic)).getD false) <;> simp [hx] at h
      · rintro ⟨bs, h⟩; cases h
    | cons x xs =>
      rw [List.length_cons, key, ih xs]
      constructor
      · rintro ⟨bs, h⟩; exact ⟨_, .pos h⟩
      · rintro ⟨bs, h⟩
        cases h with
        | pos h => exact ⟨_, h⟩

omit [DecidableEq T] in
theorem binds_unique {sig : List Param} {inputs : List (Option T)} {bs bs' : List (Nat × Arg (Option T))} (h : Binds sig inputs bs)
    (h' : Binds sig inputs bs') : bs = bs' := by
  induction h generalizing bs' with
  | nil => cases h'; rfl
  | pos _ ih => cases h' with | pos h' => rw [ih h']
  | var => cases h'; rfl

omit [DecidableEq T] in
theorem is_one {x : Option T} {t : T} : Arg.Is tuple (.one x) t ↔ x = some t := by
  constructor
  · intro h; cases h; rfl
  · rintro rfl; exact .one t

omit [DecidableEq T] in
theorem is_many {xs : List (Option T)} {t : T} : Arg.Is tuple (.many xs) t ↔ ∃ ts : List T, xs = ts.map some ∧ t = tuple ts := by
  constructor
  · intro h; cases h; exact ⟨_, rfl, rfl⟩
  · rintro ⟨ts, rfl, rfl⟩; exact .many ts

theorem extract_spec {sig : List Param} {inputs : List (Option T)} {bs : List (Nat × Arg (Option T))} (h : Binds sig inputs bs)
    (hn : some nothing ∉ inputs) : ∃ params, extract nothing tuple sig (enc nothing inputs) = some params ∧
      ∀ n t, (n, t) ∈ params ↔ ∃ a, (n, a) ∈ bs ∧ a.Is tuple t := by
  induction h with
  | nil => exact ⟨[], rfl, by simp⟩
  | @pos m ps x xs bs hb ih =>
    obtain ⟨r, h1, h2⟩ := ih (fun h => hn (List.mem_cons_of_mem _ h))
    have hx : x ≠ some nothing := fun h => hn (h ▸ List.mem_cons_self)
    refine ⟨if x.getD nothing = nothing then r else (m, x.getD nothing) :: r, by rw [enc_cons, extract, h1]; rfl, ?_⟩
    intro n t
    have hrest : (∃ a, (n, a) ∈ (m, Arg.one x) :: bs ∧ a.Is tuple t) ↔ (n = m ∧ x = some t) ∨ ∃ a, (n, a) ∈ bs ∧ a.Is tuple t := by
      constructor
      · rintro ⟨a, ha, hi⟩
        rcases List.mem_cons.1 ha with h | h
        · cases h; exact .inl ⟨rfl, is_one.1 hi⟩
        · exact .inr ⟨a, h, hi⟩
      · rintro (⟨rfl, rfl⟩ | ⟨a, h, hi⟩)
        · exact ⟨_, List.mem_cons_self, .one t⟩
        · exact ⟨a, List.mem_cons_of_mem _ h, hi⟩
    rw [hrest, ← h2]
    cases x with
    | none => simp
    | some u =>
      have hu : u ≠ nothing := fun h => hx (by rw [h])
      simp only [Option.getD_some, if_neg hu, List.mem_cons, Prod.mk.injEq, Option.some.injEq]
      constructor
      · rintro (⟨a, b⟩ | h)
        · exact .inl ⟨a, b.symm⟩
        · exact .inr h
      · rintro (⟨a, b⟩ | h)
        · exact .inl ⟨a, b.symm⟩
        · exact .inr h
  | @var m xs =>
    have hany : ((enc nothing xs).any fun t => decide (t = nothing)) = true ↔ none ∈ xs := by
      rw [← mem_enc hn, List.any_eq_true]
      constructor
      · rintro ⟨t, h1, h2⟩
        have := of_decide_eq_true h2
        exact this ▸ h1
      · intro h; exact ⟨nothing, h, by simp⟩
    refine ⟨if (enc nothing xs).any (fun t => t = nothing) then [] else [(m, tuple (enc nothing xs))], by rw [extract]; rfl, ?_⟩
    intro n t
    have hrest : (∃ a, (n, a) ∈ [(m, Arg.many xs)] ∧ a.Is tuple t) ↔ n = m ∧ ∃ ts : List T, xs = ts.map some ∧ t = tuple ts := by
      constructor
      · rintro ⟨a, ha, hi⟩
        rw [List.mem_singleton] at ha
        cases ha
        exact ⟨rfl, is_many.1 hi⟩
      · rintro ⟨rfl, h⟩
        exact ⟨_, List.mem_singleton.2 rfl, is_many.2 h⟩
    rw [hrest]
    by_cases hx : none ∈ xs
    · rw [if_pos (hany.2 hx)]
      constructor
      · intro h; cases h
      · rintro ⟨_, ts, rfl, _⟩
        simp at hx
    · rw [if_neg (fun h => hx (hany.1 h))]
      rw [List.mem_singleton, Prod.mk.injEq]
      refine and_congr_right fun _ => ?_
      have e := enc_some (nothing := nothing) hx
      constructor
      · rintro rfl; exact ⟨_, e, rfl⟩
      · rintro ⟨ts, rfl, rfl⟩
        congr 1
        unfold enc
        rw [List.map_map]
        exact (List.map_id' ts).symm ▸ rfl

section

variable {sig : List Param} {cs : List (Constraint T)} {out : OutExpr T}

theorem eval_spec (hv : Valid sig cs out) {inputs : List (Option T)} (hn : some nothing ∉ inputs) {c : Constraint T} (hc : c ∈ cs) :
    ((c.eval nothing tuple sig (enc nothing inputs)).1 = true ↔ Known tuple sig inputs c) ∧
    ((c.eval nothing tuple sig (enc nothing inputs)).1 = true → (c.eval nothing tuple sig (enc nothing inputs)).2 = true →
      Holds tuple sig inputs c) ∧
    ((c.eval nothing tuple sig (enc nothing inputs)).1 = true → (c.eval nothing tuple sig (enc nothing inputs)).2 = false →
      Fails tuple sig inputs c) := by
  have h := parse_env (tuple := tuple) hv.validSig hn (hv.uses c hc)
  refine ⟨h.1, ?_, ?_⟩
  all_goals
    intro h1 h2
    obtain ⟨env, he⟩ := h.1.1 h1
    refine ⟨env, he, ?_⟩
    rw [← h2]
    exact hv.closed c hc _ _ _ _ fun n hm => (h.2 env he n hm).symm

theorem out_spec (hv : Valid sig cs out) {inputs : List (Option T)} (hn : some nothing ∉ inputs) :
    ((out.eval nothing tuple sig (enc nothing inputs)).1 = true ↔ ∃ t, Output tuple sig inputs out t) ∧
    ((out.eval nothing tuple sig (enc nothing inputs)).1 = true →
      Output tuple sig inputs out (out.eval nothing tuple sig (enc nothing inputs)).2) := by
  have h := parse_env (tuple := tuple) hv.validSig hn hv.outUses
  refine ⟨?_, ?_⟩
  · show (parseOp nothing tuple (patternOf out.uses sig) (enc nothing inputs)).1 = true ↔ _
    rw [h.1]
    constructor
    · rintro ⟨env, he⟩; exact ⟨_, env, he, rfl⟩
    · rintro ⟨_, env, he, _⟩; exact ⟨env, he⟩
  · intro h1
    obtain ⟨env, he⟩ := h.1.1 h1
    exact ⟨env, he, hv.outClosed _ _ _ _ fun n hm => (h.2 env he n hm).symm⟩

/-- A constraint does not hold and fail at the same time. -/
theorem holds_not_fails (hv : Valid sig cs out) {inputs : List (Option T)} (hn : some nothing ∉ inputs) {c : Constraint T} (hc : c ∈ cs)
    (h : Holds tuple sig inputs c) : ¬ Fails tuple sig inputs c := by
  rintro ⟨env', he', hf⟩
  obtain ⟨env, he, ht⟩ := h
  rw [hv.closed c hc env env' [] [] (env_unique (hv.uses c hc) hv.validSig hn he he'), hf] at ht
  cases ht

theorem output_unique (hv : Valid sig cs out) {inputs : List (Option T)} (hn : some nothing ∉ inputs) {t t' : T}
    (h : Output tuple sig inputs out t) (h' : Output tuple sig inputs out t') : t = t' := by
  obtain ⟨env, he, rfl⟩ := h
  obtain ⟨env', he', rfl⟩ := h'
  exact hv.outClosed env env' [] [] (env_unique hv.outUses hv.validSig hn he he')

theorem loop_spec (hv : Valid sig cs out) {inputs : List (Option T)} (hn : some nothing ∉ inputs) : ∀ (l : List (Constraint T)) (ready : Bool),
    (∀ c ∈ l, c ∈ cs) → match constraintLoop ready (l.map fun c => (c.message, c.eval nothing tuple sig (enc nothing inputs))) with
    | .inl m => ∃ pre c post, l = pre ++ c :: post ∧ c.message = m ∧ Fails tuple sig inputs c ∧ ∀ c' ∈ pre, ¬ Fails tuple sig inputs c'
    | .inr r => (∀ c ∈ l, ¬ Fails tuple sig inputs c) ∧ (r = true ↔ ready = true ∧ ∀ c ∈ l, Holds tuple sig inputs c) ∧
        (r = false → ready = false ∨ ∃ c ∈ l, ¬ Known tuple sig inputs c)
  | [], ready, _ => by simp [constraintLoop]
  | c :: l, ready, hm => by
    obtain ⟨h1, h2, h3⟩ := eval_spec (tuple := tuple) hv hn (hm c List.mem_cons_self)
    rw [List.map_cons]
    generalize hev : c.eval nothing tuple sig (enc nothing inputs) = ev at h1 h2 h3
    obtain ⟨r, b⟩ := ev
    cases r with
    | false =>
      rw [constraintLoop]
      have ih := loop_spec hv hn l false (fun c hc => hm c (List.mem_cons_of_mem _ hc))
      have hk : ¬ Known tuple sig inputs c := fun h => by simpa using h1.2 h
      have hnf : ¬ Fails tuple sig inputs c := fun ⟨env, he, _⟩ => hk ⟨env, he⟩
      simp only [Bool.not_false, if_true]
      cases hl : constraintLoop false (l.map fun c => (c.message, c.eval nothing tuple sig (enc nothing inputs))) with
      | inl m =>
        rw [hl] at ih
        obtain ⟨pre, d, post, e, e2, e3, e4⟩ := ih
        refine ⟨c :: pre, d, post, by rw [e]; rfl, e2, e3, ?_⟩
        intro c' hc'
        rcases List.mem_cons.1 hc' with rfl | h
        · exact hnf
        · exact e4 c' h
      | inr r =>
        rw [hl] at ih
        obtain ⟨e1, e2, e3⟩ := ih
        have hr : r = false := by
          cases r with
          | false => rfl
          | true => exact absurd (e2.1 rfl).1 (by simp)
        subst hr
        refine ⟨?_, ?_, fun _ => .inr ⟨c, List.mem_cons_self, hk⟩⟩
        · intro c' hc'
          rcases List.mem_cons.1 hc' with rfl | h
          · exact hnf
          · exact e1 c' h
        · constructor
          · intro h; cases h
          · rintro ⟨_, h⟩
            obtain ⟨env, he, _⟩ := h c List.mem_cons_self
            exact absurd ⟨env, he⟩ hk
    | true =>
      cases b with
      | false =>
        rw [constraintLoop]
        simp only [Bool.not_true, Bool.not_false, if_true, Bool.false_eq_true, if_false]
        exact ⟨[], c, l, rfl, rfl, h3 rfl rfl, fun _ h => by cases h⟩
      | true =>
        rw [constraintLoop]
        have ih := loop_spec hv hn l ready (fun c hc => hm c (List.mem_cons_of_mem _ hc))
        have hh := h2 rfl rfl
        have hnf := holds_not_fails hv hn (hm c List.mem_cons_self) hh
        simp only [Bool.not_true, Bool.false_eq_true, if_false]
        cases hl : constraintLoop ready (l.map fun c => (c.message, c.eval nothing tuple sig (enc nothing inputs))) with
        | inl m =>
          rw [hl] at ih
          obtain ⟨pre, d, post, e, e2, e3, e4⟩ := ih
          refine ⟨c :: pre, d, post, by rw [e]; rfl, e2, e3, ?_⟩
          intro c' hc'
          rcases List.mem_cons.1 hc' with rfl | h
          · exact hnf
          · exact e4 c' h
        | inr r =>
          rw [hl] at ih
          obtain ⟨e1, e2, e3⟩ := ih
          refine ⟨?_, ?_, ?_⟩
          · intro c' hc'
            rcases List.mem_cons.1 hc' with rfl | h
            · exact hnf
            · exact e1 c' h
          · rw [e2]
            simp [hh]
          · intro h
            rcases e3 h with h | ⟨c', h, h'⟩
            · exact .inl h
            · exact .inr ⟨c', List.mem_cons_of_mem _ h, h'⟩

theorem inferFn_spec (hv : Valid sig cs out) {inputs : List (Option T)} (hn : some nothing ∉ inputs) (hb : ∃ bs, Binds sig inputs bs) :
    Infers nothing tuple sig cs out inputs (inferFn nothing tuple sig cs out (enc nothing inputs)) := by
  have hl := loop_spec (tuple := tuple) hv hn cs true (fun _ h => h)
  unfold inferFn
  cases hr : constraintLoop true (cs.map fun c => (c.message, c.eval nothing tuple sig (enc nothing inputs))) with
  | inl m =>
    rw [hr] at hl
    obtain ⟨bs, hb⟩ := hb
    obtain ⟨params, hp, hp'⟩ := extract_spec (tuple := tuple) hb hn
    dsimp only
    rw [hp]
    refine ⟨hl, ?_⟩
    intro n t
    rw [hp']
    constructor
    · rintro ⟨a, h1, h2⟩; exact ⟨bs, a, hb, h1, h2⟩
    · rintro ⟨bs', a, h0, h1, h2⟩
      rw [binds_unique h0 hb] at h1
      exact ⟨a, h1, h2⟩
  | inr ready =>
    rw [hr] at hl
    obtain ⟨h1, h2, h3⟩ := hl
    obtain ⟨o1, o2⟩ := out_spec (tuple := tuple) hv hn
    dsimp only
    cases ready with
    | false =>
      refine ⟨h1, .inl ?_⟩
      rcases h3 rfl with h | h
      · cases h
      · exact h
    | true =>
      have hh := (h2.1 rfl).2
      cases ho : (out.eval nothing tuple sig (enc nothing inputs)).1 with
      | false =>
        refine ⟨h1, .inr ?_⟩
        rw [← o1, ho]
        simp
      | true =>
        have := o2 ho
        simp only [Bool.and_self, Bool.not_true, Bool.false_eq_true, if_false]
        by_cases e : (out.eval nothing tuple sig (enc nothing inputs)).2 = nothing
        · rw [if_pos e]
          rw [e] at this
          exact ⟨hh, this⟩
        · rw [if_neg e]
          exact ⟨hh, this, e⟩

/-- **What a backend operator infers.**  A wrong number of inputs and inputs of the type `NOTHING` are errors.  Otherwise the first constraint that
fails for types that are known is an error, with the types of exactly the parameters that are known; if none fails and something is not known there
is no type yet; else the type is the value of the inference expression, and `NOTHING` is an error. -/
theorem infer_spec (hv : Valid sig cs out) (inputs : List (Option T)) :
    ((¬ ∃ bs, Binds sig inputs bs) → inferAttributes nothing tuple sig cs out inputs = .badCount) ∧
    ((∃ bs, Binds sig inputs bs) → some nothing ∈ inputs → inferAttributes nothing tuple sig cs out inputs = .badInput) ∧
    ((∃ bs, Binds sig inputs bs) → some nothing ∉ inputs →
      Infers nothing tuple sig cs out inputs (inferAttributes nothing tuple sig cs out inputs)) := by
  have h := validCount_iff hv.validSig inputs
  unfold inferAttributes
  refine ⟨?_, ?_, ?_⟩
  · intro hb
    rw [← h, Bool.not_eq_true] at hb
    rw [hb]; rfl
  · intro hb hn
    rw [h.2 hb, makeSeq_spec, if_pos hn]
    rfl
  · intro hb hn
    rw [h.2 hb, makeSeq_spec, if_neg hn]
    exact inferFn_spec hv hn hb

omit [DecidableEq T] in
theorem split_unique {P : Constraint T → Prop} : ∀ {l pre pre' : List (Constraint T)} {c c' : Constraint T} {post post' : List (Constraint T)},
    l = pre ++ c :: post → l = pre' ++ c' :: post' → P c → P c' → (∀ d ∈ pre, ¬ P d) → (∀ d ∈ pre', ¬ P d) → c = c'
  | _, [], [], _, _, _, _, h, h', _, _, _, _ => by rw [h] at h'; simp at h'; exact h'.1
  | _, [], d :: pre', _, _, _, _, h, h', hc, _, _, hp' => by
    rw [h] at h'; simp at h'
    exact absurd (h'.1 ▸ hc) (hp' d List.mem_cons_self)
  | _, d :: pre, [], _, _, _, _, h, h', _, hc', hp, _ => by
    rw [h'] at h; simp at h
    exact absurd (h.1 ▸ hc') (hp d List.mem_cons_self)
  | _, d :: pre, d' :: pre', _, _, _, _, h, h', hc, hc', hp, hp' => by
    rw [h] at h'; simp at h'
    exact split_unique rfl h'.2 hc hc' (fun d hd => hp d (List.mem_cons_of_mem _ hd)) (fun d hd => hp' d (List.mem_cons_of_mem _ hd))

/-- **There is one right outcome**, but for the order of the types of the parameters in an error. -/
theorem infers_unique (hv : Valid sig cs out) {inputs : List (Option T)} (hn : some nothing ∉ inputs) {a b : Outcome T}
    (ha : Infers nothing tuple sig cs out inputs a) (hb : Infers nothing tuple sig cs out inputs b) : a.kind = b.kind := by
  have hknown : ∀ c, Holds tuple sig inputs c → Known tuple sig inputs c := fun c ⟨env, he, _⟩ => ⟨env, he⟩
  have nofail : (∀ c ∈ cs, Holds tuple sig inputs c) → ∀ c ∈ cs, ¬ Fails tuple sig inputs c :=
    fun h c hc => holds_not_fails hv hn hc (h c hc)
  have viol : ∀ {m params}, Infers nothing tuple sig cs out inputs (.violated m params) → ¬ ∀ c ∈ cs, ¬ Fails tuple sig inputs c := by
    rintro m params ⟨⟨pre, c, post, e, _, hf, _⟩, _⟩ h
    exact h c (by rw [e]; simp) hf
  have unk : ∀ {t}, Infers nothing tuple sig cs out inputs .unknown → (∀ c ∈ cs, Holds tuple sig inputs c) → ¬ Output tuple sig inputs out t := by
    rintro t ⟨_, h | h⟩ hh ho
    · obtain ⟨c, hc, hk⟩ := h
      exact hk (hknown c (hh c hc))
    · exact h ⟨t, ho⟩
  cases a <;> cases b
  case qtype.qtype t t' => rw [output_unique hv hn ha.2.1 hb.2.1]
  case qtype.unknown => exact absurd ha.2.1 (unk hb ha.1)
  case qtype.violated => exact absurd (nofail ha.1) (viol hb)
  case qtype.noOutput => exact absurd (output_unique hv hn ha.2.1 hb.2) ha.2.2
  case unknown.qtype => exact absurd hb.2.1 (unk ha hb.1)
  case unknown.unknown => rfl
  case unknown.violated => exact absurd ha.1 (viol hb)
  case unknown.noOutput => exact absurd hb.2 (unk ha hb.1)
  case violated.qtype => exact absurd (nofail hb.1) (viol ha)
  case violated.unknown => exact absurd hb.1 (viol ha)
  case violated.violated =>
    obtain ⟨⟨pre, c, post, e, rfl, hf, hp⟩, _⟩ := ha
    obtain ⟨⟨pre', c', post', e', rfl, hf', hp'⟩, _⟩ := hb
    rw [split_unique (P := Fails tuple sig inputs) e e' hf hf' hp hp']
    rfl
  case violated.noOutput => exact absurd (nofail hb.1) (viol ha)
  case noOutput.qtype => exact absurd (output_unique hv hn hb.2.1 ha.2) hb.2.2
  case noOutput.unknown => exact absurd ha.2 (unk hb ha.1)
  case noOutput.violated => exact absurd (nofail ha.1) (viol hb)
  case noOutput.noOutput => rfl
  all_goals first | exact ha.elim | exact hb.elim

theorem fits_of_qtype (hv : Valid sig cs out) {inputs : List (Option T)} (h : inferAttributes nothing tuple sig cs out inputs ≠ .badCount) :
    ∃ bs, Binds sig inputs bs :=
  Classical.byContradiction fun hb => h ((infer_spec hv inputs).1 hb)

omit [DecidableEq T] in
theorem binds_refines {sig : List Param} {inputs inputs' : List (Option T)} (hv : ValidSig sig) (hr : Refines inputs inputs')
    (h : ∃ bs, Binds sig inputs bs) : ∃ bs, Binds sig inputs' bs := by
  rw [← validCount_iff hv] at h ⊢
  rw [← hr.1]
  exact h

/-- **An inferred type does not change, and an error stays an error, when the types of more inputs become known.** -/
theorem infer_monotone (hv : Valid sig cs out) {inputs inputs' : List (Option T)} (hr : Refines inputs inputs') (hn' : some nothing ∉ inputs') :
    (∀ t, inferAttributes nothing tuple sig cs out inputs = .qtype t → inferAttributes nothing tuple sig cs out inputs' = .qtype t) ∧
    (∀ m params, inferAttributes nothing tuple sig cs out inputs = .violated m params →
      ∃ m' params', inferAttributes nothing tuple sig cs out inputs' = .violated m' params') ∧
    (inferAttributes nothing tuple sig cs out inputs = .noOutput → inferAttributes nothing tuple sig cs out inputs' = .noOutput) := by
  have hn := refines_nothing hr hn'
  have hmono : ∀ c, Holds tuple sig inputs c → Holds tuple sig inputs' c := fun c ⟨env, he, h⟩ => ⟨env, env_refines he hr, h⟩
  have fmono : ∀ c, Fails tuple sig inputs c → Fails tuple sig inputs' c := fun c ⟨env, he, h⟩ => ⟨env, env_refines he hr, h⟩
  have omono : ∀ t, Output tuple sig inputs out t → Output tuple sig inputs' out t := fun t ⟨env, he, h⟩ => ⟨env, env_refines he hr, h⟩
  have step : ∀ x, inferAttributes nothing tuple sig cs out inputs = x → x ≠ .badCount → Infers nothing tuple sig cs out inputs x ∧
      Infers nothing tuple sig cs out inputs' (inferAttributes nothing tuple sig cs out inputs') := by
    rintro x rfl hx
    have hb := fits_of_qtype hv hx
    exact ⟨(infer_spec hv inputs).2.2 hb hn, (infer_spec hv inputs').2.2 (binds_refines hv.validSig hr hb) hn'⟩
  refine ⟨?_, ?_, ?_⟩
  · intro t h
    obtain ⟨h1, h2⟩ := step _ h (by simp)
    have h3 : Infers nothing tuple sig cs out inputs' (.qtype t) := ⟨fun c hc => hmono c (h1.1 c hc), omono t h1.2.1, h1.2.2⟩
    have := infers_unique hv hn' h2 h3
    cases hx : inferAttributes nothing tuple sig cs out inputs' <;> rw [hx] at this <;> simp [Outcome.kind] at this
    rw [this]
  · intro m params h
    obtain ⟨⟨⟨pre, c, post, e, _, hf, _⟩, _⟩, h2⟩ := step _ h (by simp)
    have hc : c ∈ cs := by rw [e]; simp
    cases hx : inferAttributes nothing tuple sig cs out inputs' with
    | violated m' params' => exact ⟨m', params', rfl⟩
    | qtype t => rw [hx] at h2; exact absurd (fmono c hf) (holds_not_fails hv hn' hc (h2.1 c hc))
    | noOutput => rw [hx] at h2; exact absurd (fmono c hf) (holds_not_fails hv hn' hc (h2.1 c hc))
    | unknown => rw [hx] at h2; exact absurd (fmono c hf) (h2.1 c hc)
    | badInput => rw [hx] at h2; exact h2.elim
    | badCount => rw [hx] at h2; exact h2.elim
  · intro h
    obtain ⟨h1, h2⟩ := step _ h (by simp)
    have h3 : Infers nothing tuple sig cs out inputs' .noOutput := ⟨fun c hc => hmono c (h1.1 c hc), omono _ h1.2⟩
    have := infers_unique hv hn' h2 h3
    cases hx : inferAttributes nothing tuple sig cs out inputs' <;> rw [hx] at this <;> simp [Outcome.kind] at this

omit [DecidableEq T] in
theorem env_of_known {sig : List Param} {ts : List T} {bs : List (Nat × Arg (Option T))} (hb : Binds sig (ts.map some) bs) (uses : List Nat) :
    ∃ vs, BindsV tuple uses sig (ts.map some) vs := by
  generalize hi : ts.map some = inputs at hb
  induction hb generalizing ts with
  | nil => exact ⟨_, .nil⟩
  | @pos n ps x xs bs _ ih =>
    cases ts with
    | nil => simp at hi
    | cons t ts =>
      simp only [List.map_cons, List.cons.injEq] at hi
      obtain ⟨rfl, h⟩ := hi
      obtain ⟨vs, hv⟩ := ih h
      exact ⟨_, .pos (fun _ => rfl) hv⟩
  | @var n xs => exact ⟨_, .var fun _ => ⟨ts, hi.symm, rfl⟩⟩

/-- **If all types are known there is a type or an error.** -/
theorem infer_decides (hv : Valid sig cs out) (ts : List T) : inferAttributes nothing tuple sig cs out (ts.map some) ≠ .unknown := by
  intro h
  have hb := fits_of_qtype hv (nothing := nothing) (tuple := tuple) (inputs := ts.map some) (by rw [h]; simp)
  by_cases hn : some nothing ∈ ts.map some
  · rw [(infer_spec hv _).2.1 hb hn] at h
    cases h
  · have hs := (infer_spec (tuple := tuple) hv _).2.2 hb hn
    rw [h] at hs
    obtain ⟨bs, hb⟩ := hb
    have key : ∀ uses, (∀ n ∈ uses, n ∈ sig.map (·.name)) → ∃ env, Env tuple sig uses (ts.map some) env := by
      intro uses hu
      exact (parse_env hv.validSig hn hu).1.1 ((parseOp_iff hv.validSig hn).2 (env_of_known hb uses))
    rcases hs.2 with ⟨c, hc, hk⟩ | ho
    · exact hk (key c.uses (hv.uses c hc))
    · obtain ⟨env, he⟩ := key out.uses hv.outUses
      exact ho ⟨_, env, he, rfl⟩

/-- **A restricted lambda operator infers what the lambda operator does if the constraints hold**; a constraint that fails is the error of the backend
operator, and there is no type as long as the types that a constraint uses are not known, whatever the lambda operator infers. -/
theorem restricted_spec {unit : T} (hu : unit ≠ nothing) (hv : Valid sig cs ⟨[], fun _ _ => unit⟩) (base : List (Option T) → Outcome T)
    {inputs : List (Option T)} (hb : ∃ bs, Binds sig inputs bs) (hn : some nothing ∉ inputs) :
    ((∀ c ∈ cs, Holds tuple sig inputs c) → restrictedAttributes nothing unit tuple sig cs base inputs = base inputs) ∧
    ((∃ c ∈ cs, Fails tuple sig inputs c) → ∃ m params, restrictedAttributes nothing unit tuple sig cs base inputs = .violated m params ∧
      Infers nothing tuple sig cs ⟨[], fun _ _ => unit⟩ inputs (.violated m params)) ∧
    ((∀ c ∈ cs, ¬ Fails tuple sig inputs c) → (∃ c ∈ cs, ¬ Known tuple sig inputs c) →
      restrictedAttributes nothing unit tuple sig cs base inputs = .unknown) := by
  have hs := inferFn_spec (tuple := tuple) hv hn hb
  have hout : Output tuple sig inputs ⟨[], fun _ _ => unit⟩ unit := by
    obtain ⟨bs, hb⟩ := hb
    exact ⟨fun _ => unit, ⟨bs, hb, fun _ _ _ h => by cases h⟩, rfl⟩
  have hdef : restrictedAttributes nothing unit tuple sig cs base inputs =
      match inferFn nothing tuple sig cs ⟨[], fun _ _ => unit⟩ (enc nothing inputs) with
      | .qtype _ => base inputs
      | other => other := by
    unfold restrictedAttributes
    rw [(validCount_iff hv.validSig inputs).2 hb, makeSeq_spec, if_neg hn]
    rfl
  rw [hdef]
  refine ⟨?_, ?_, ?_⟩
  · intro h
    have := infers_unique hv hn hs (b := .qtype unit) ⟨h, hout, hu⟩
    cases hx : inferFn nothing tuple sig cs ⟨[], fun _ _ => unit⟩ (enc nothing inputs) <;> rw [hx] at this <;> simp [Outcome.kind] at this
  · rintro ⟨c, hc, hf⟩
    cases hx : inferFn nothing tuple sig cs ⟨[], fun _ _ => unit⟩ (enc nothing inputs) with
    | violated m params => exact ⟨m, params, rfl, hx ▸ hs⟩
    | qtype t => rw [hx] at hs; exact absurd hf (holds_not_fails hv hn hc (hs.1 c hc))
    | noOutput => rw [hx] at hs; exact absurd hf (holds_not_fails hv hn hc (hs.1 c hc))
    | unknown => rw [hx] at hs; exact absurd hf (hs.1 c hc)
    | badInput => rw [hx] at hs; exact hs.elim
    | badCount => rw [hx] at hs; exact hs.elim
  · intro h1 h2
    have := infers_unique hv hn hs (b := .unknown) ⟨h1, .inl h2⟩
    cases hx : inferFn nothing tuple sig cs ⟨[], fun _ _ => unit⟩ (enc nothing inputs) <;> rw [hx] at this <;> simp [Outcome.kind] at this

omit [DecidableEq T] in
/-- **`Make` succeeds iff all placeholders are parameters.** -/
theorem make_iff : makeOk sig cs out = true ↔ (∀ c ∈ cs, ∀ n ∈ c.uses, n ∈ sig.map (·.name)) ∧ ∀ n ∈ out.uses, n ∈ sig.map (·.name) := by
  unfold makeOk undefinedNames
  rw [List.isEmpty_iff, List.filter_eq_nil_iff]
  simp only [List.mem_append, List.mem_flatMap, Bool.not_eq_true', Bool.not_eq_false, List.contains_iff_mem]
  constructor
  · intro h
    exact ⟨fun c hc n hn => h n (.inl ⟨c, hc, hn⟩), fun n hn => h n (.inr hn)⟩
  · rintro ⟨h1, h2⟩ n (⟨c, hc, hn⟩ | hn)
    · exact h1 c hc n hn
    · exact h2 n hn

end

/-! ## Examples -/

/-- Types. -/
inductive Ty
  | nothing | int | text | tuple (n : Nat)
  deriving DecidableEq

def tup (l : List Ty) : Ty := .tuple l.length

/-- `x` must be an integer (message 7), `*args` must have at most one element (message 8); the result has the type of `x`. -/
def exSig : List Param := [⟨0, false⟩, ⟨1, true⟩]
def exCs : List (Constraint Ty) := [⟨[0], fun e _ => e 0 == .int, 7⟩, ⟨[1], fun e _ => e 1 == .tuple 0 || e 1 == .tuple 1, 8⟩]
def exOut : OutExpr Ty := ⟨[0], fun e _ => e 0⟩

theorem ex_valid : Valid exSig exCs exOut where
  validSig := by
    refine ⟨by decide, ?_⟩
    intro i p h hl
    match i, h, hl with
    | 0, h, _ => cases h; rfl
    | 1, _, hl => simp [exSig] at hl
    | n + 2, _, hl => simp only [exSig, List.length_cons, List.length_nil] at hl; omega
  uses := by decide
  closed := by
    intro c hc
    simp only [exCs, List.mem_cons, List.not_mem_nil, or_false] at hc
    rcases hc with rfl | rfl
    · intro e e' s s' h; simp [h 0 (by simp)]
    · intro e e' s s' h; simp [h 1 (by simp)]
  outUses := by decide
  outClosed := fun e e' _ _ h => h 0 (by simp [exOut])

example : inferAttributes .nothing tup exSig exCs exOut [some .int, some .text] = .qtype .int ∧
    inferAttributes .nothing tup exSig exCs exOut [some .int, none] = .unknown ∧
    inferAttributes .nothing tup exSig exCs exOut [some .text, none] = .violated 7 [(0, .text)] ∧
    inferAttributes .nothing tup exSig exCs exOut [none, some .int, some .int] = .violated 8 [(1, .tuple 2)] ∧
    inferAttributes .nothing tup exSig exCs exOut [] = .badCount ∧
    inferAttributes .nothing tup exSig exCs exOut [some .nothing] = .badInput ∧
    makeOk exSig exCs exOut = true ∧ makeOk exSig exCs ⟨[2], fun e _ => e 2⟩ = false := by decide +kernel

/-- An earlier constraint can fail when more is known: the error is another one. -/
example : Refines [none, some Ty.int, some .int] [some .text, some .int, some .int] ∧
    inferAttributes .nothing tup exSig exCs exOut [some .text, some .int, some .int] = .violated 7 [(0, .text), (1, .tuple 2)] := by
  refine ⟨⟨rfl, ?_⟩, by decide +kernel⟩
  intro i t h
  match i, h with
  | 0, h => cases h
  | 1, h => exact h
  | 2, h => exact h
  | n + 3, h => simp at h

example : restrictedAttributes .nothing .text tup exSig exCs (fun _ => .qtype .text) [some .int] = .qtype .text ∧
    restrictedAttributes .nothing .text tup exSig exCs (fun _ => .qtype .text) [none] = .unknown ∧
    restrictedAttributes .nothing .text tup exSig exCs (fun _ => .qtype .text) [some .text] = .violated 7 [(0, .text), (1, .tuple 0)] := by
  decide +kernel

end Verif.BackendOp
