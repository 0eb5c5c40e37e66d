import Mathlib.Tactic.ByContra
import Verif.Generic.DispatchSpec

namespace Verif.Generic

variable {T : Type} [DecidableEq T] {nothing : T} {tuple : List T → T}

/-- The sequence of types with `nothing` for those not known. -/
def enc (nothing : T) (inputs : List (Option T)) : List T := inputs.map (·.getD nothing)

omit [DecidableEq T] in
theorem enc_cons (x : Option T) (xs : List (Option T)) : enc nothing (x :: xs) = x.getD nothing :: enc nothing xs := rfl

theorem makeSeq_spec : ∀ (inputs : List (Option T)), makeSeq nothing inputs =
    if some nothing ∈ inputs then none else some (enc nothing inputs)
  | [] => by simp [makeSeq, enc]
  | none :: rest => by
    simp only [makeSeq, makeSeq_spec rest, List.mem_cons, reduceCtorEq, false_or]
    split <;> simp [enc]
  | some t :: rest => by
    simp only [makeSeq, makeSeq_spec rest, List.mem_cons, Option.some.injEq]
    by_cases h : t = nothing
    · simp [h]
    · have h' : ¬ nothing = t := fun e => h e.symm
      simp only [h, h', if_false, false_or]
      split <;> simp [enc]

omit [DecidableEq T] in
theorem getD_eq_nothing {x : Option T} (h : x ≠ some nothing) : x.getD nothing = nothing ↔ x = none := by
  cases x with
  | none => simp
  | some t =>
    simp only [Option.getD_some, reduceCtorEq, iff_false]
    exact fun e => h (by rw [e])

omit [DecidableEq T] in
theorem mem_enc {inputs : List (Option T)} (h : some nothing ∉ inputs) : nothing ∈ enc nothing inputs ↔ none ∈ inputs := by
  unfold enc
  rw [List.mem_map]
  constructor
  · rintro ⟨x, hx, e⟩
    have : x ≠ some nothing := fun e' => h (e' ▸ hx)
    rw [getD_eq_nothing this] at e
    exact e ▸ hx
  · intro hx
    exact ⟨none, hx, rfl⟩

omit [DecidableEq T] in
theorem enc_some : ∀ {inputs : List (Option T)}, none ∉ inputs → inputs = (enc nothing inputs).map some
  | [], _ => rfl
  | none :: _, h => absurd List.mem_cons_self h
  | some t :: rest, h => by
    have := enc_some (inputs := rest) (fun e : none ∈ rest => h (List.mem_cons_of_mem _ e))
    rw [enc_cons, List.map_cons, ← this]
    rfl

/-- The values of the used parameters in order. -/
def vals (uses : List Nat) (bs : List (Nat × T)) : List T := (bs.filter fun b => b.1 ∈ uses).map (·.2)

/-- A binding with values. -/
inductive BindsV (tuple : List T → T) (uses : List Nat) : List Param → List (Option T) → List (Nat × T) → Prop
  | nil : BindsV tuple uses [] [] []
  | pos {n ps x xs bs t} : (n ∈ uses → x = some t) → BindsV tuple uses ps xs bs → BindsV tuple uses (⟨n, false⟩ :: ps) (x :: xs) ((n, t) :: bs)
  | var {n xs t} : (n ∈ uses → ∃ ts, xs = ts.map some ∧ t = tuple ts) → BindsV tuple uses [⟨n, true⟩] xs [(n, t)]

omit [DecidableEq T] in
theorem bindsV_of_env {sig : List Param} {uses : List Nat} {inputs : List (Option T)} {env : Nat → T} (h : Env tuple sig uses inputs env) :
    BindsV tuple uses sig inputs (sig.map fun p => (p.name, env p.name)) := by
  obtain ⟨bs, hb, he⟩ := h
  induction hb with
  | nil => exact .nil
  | @pos n ps x xs bs _ ih =>
    refine .pos ?_ (ih fun m a hm hu => he m a (List.mem_cons_of_mem _ hm) hu)
    intro hu
    have h1 := he n _ List.mem_cons_self hu
    generalize env n = t at h1
    cases h1
    rfl
  | @var n xs =>
    refine .var ?_
    intro hu
    have h1 := he n _ List.mem_cons_self hu
    generalize env n = t at h1
    generalize ha : Arg.many xs = a at h1
    cases h1 with
    | one => cases ha
    | many ts => cases ha; exact ⟨ts, rfl, rfl⟩

omit [DecidableEq T] in
theorem bindsV_names {sig : List Param} {uses : List Nat} {inputs : List (Option T)} {bs : List (Nat × T)}
    (h : BindsV tuple uses sig inputs bs) : bs.map (·.1) = sig.map (·.name) := by
  induction h with
  | nil => rfl
  | pos _ _ ih => simp [ih]
  | var _ => rfl

/-- An environment that agrees with a binding. -/
theorem env_of_bindsV {sig : List Param} {uses : List Nat} {inputs : List (Option T)} {bs : List (Nat × T)}
    (h : BindsV tuple uses sig inputs bs) {env : Nat → T} (he : ∀ n t, (n, t) ∈ bs → n ∈ uses → env n = t) :
    Env tuple sig uses inputs env := by
  induction h with
  | nil => exact ⟨[], .nil, fun _ _ h => by cases h⟩
  | @pos n ps x xs bs t hx hb ih =>
    obtain ⟨as, h1, h2⟩ := ih fun m s hm hu => he m s (List.mem_cons_of_mem _ hm) hu
    refine ⟨_, .pos h1, ?_⟩
    intro m a hm hu
    rcases List.mem_cons.1 hm with hm | hm
    · cases hm
      rw [he n t List.mem_cons_self hu, hx hu]
      exact .one t
    · exact h2 m a hm hu
  | @var n xs t hx =>
    refine ⟨_, .var, ?_⟩
    intro m a hm hu
    rw [List.mem_singleton] at hm
    cases hm
    obtain ⟨ts, rfl, rfl⟩ := hx hu
    rw [he n _ List.mem_cons_self hu]
    exact .many ts

theorem validSig_tail {p : Param} {ps : List Param} (h : ValidSig (p :: ps)) : ValidSig ps ∧ (ps ≠ [] → p.variadic = false) ∧ p.name ∉ ps.map (·.name) := by
  obtain ⟨h1, h2⟩ := h
  rw [List.map_cons, List.nodup_cons] at h1
  refine ⟨⟨h1.2, fun i q hq hl => h2 (i + 1) q hq (by simpa using hl)⟩, ?_, h1.1⟩
  intro hne
  refine h2 0 p rfl ?_
  have := List.length_pos_iff.2 hne
  simp only [List.length_cons]
  omega

/-- The loop of the parser accepts what can be bound. -/
theorem parse_of_binds {sig : List Param} {uses : List Nat} {inputs : List (Option T)} {bs : List (Nat × T)}
    (h : BindsV tuple uses sig inputs bs) (hn : some nothing ∉ inputs) : ∀ outs,
    parseLoop nothing tuple (patternOf uses sig) (enc nothing inputs) outs = (true, [], outs ++ vals uses bs) := by
  induction h with
  | nil => intro outs; simp [patternOf, parseLoop, enc, vals]
  | @pos n ps x xs bs t hx hb ih =>
    intro outs
    have hn' : some nothing ∉ xs := fun e => hn (List.mem_cons_of_mem _ e)
    by_cases hu : n ∈ uses
    · obtain rfl := hx hu
      have ht : t ≠ nothing := fun e => hn (e ▸ List.mem_cons_self)
      have e : parseLoop nothing tuple (patternOf uses (⟨n, false⟩ :: ps)) (enc nothing (some t :: xs)) outs =
          parseLoop nothing tuple (patternOf uses ps) (enc nothing xs) (outs ++ [t]) := by
        simp [patternOf, hu, enc_cons, parseLoop, ht]
      rw [e, ih hn']
      simp [vals, hu]
    · have e : parseLoop nothing tuple (patternOf uses (⟨n, false⟩ :: ps)) (enc nothing (x :: xs)) outs =
          parseLoop nothing tuple (patternOf uses ps) (enc nothing xs) outs := by
        simp [patternOf, hu, enc_cons, parseLoop]
      rw [e, ih hn']
      simp [vals, hu]
  | @var n xs t hx =>
    intro outs
    by_cases hu : n ∈ uses
    · obtain ⟨ts, rfl, rfl⟩ := hx hu
      have h1 : nothing ∉ enc nothing (ts.map some) := by
        rw [mem_enc hn]; simp
      have h2 : enc nothing (ts.map some) = ts := by
        simp [enc, Function.comp_def]
      simp only [patternOf, hu, if_true, parseLoop, if_neg h1]
      simp [vals, hu, h2]
    · simp [patternOf, hu, parseLoop, vals]

/-- What the loop of the parser accepts can be bound. -/
theorem binds_of_parse : ∀ {sig : List Param} {uses : List Nat} {inputs : List (Option T)} {outs outs' : List T}, ValidSig sig →
    some nothing ∉ inputs → parseLoop nothing tuple (patternOf uses sig) (enc nothing inputs) outs = (true, [], outs') →
    ∃ bs, BindsV tuple uses sig inputs bs
  | [], uses, inputs, outs, outs', _, _, h => by
    simp only [patternOf, parseLoop, Prod.mk.injEq, true_and] at h
    have : inputs = [] := by
      cases inputs with
      | nil => rfl
      | cons x xs => rw [enc_cons] at h; cases h.1
    subst this
    exact ⟨[], .nil⟩
  | ⟨n, true⟩ :: ps, uses, inputs, outs, outs', hv, hn, h => by
    obtain ⟨_, h2, _⟩ := validSig_tail hv
    have hps : ps = [] := by
      by_contra hne
      have := h2 hne
      cases this
    subst hps
    by_cases hu : n ∈ uses
    · simp only [patternOf, hu, if_true, parseLoop] at h
      split at h
      · cases h
      · next hm =>
        rw [mem_enc hn] at hm
        exact ⟨_, .var (t := tuple (enc nothing inputs)) fun _ => ⟨_, enc_some hm, rfl⟩⟩
    · exact ⟨_, .var (t := nothing) fun hu' => absurd hu' hu⟩
  | ⟨n, false⟩ :: ps, uses, [], outs, outs', hv, hn, h => by
    by_cases hu : n ∈ uses
    · simp only [patternOf, hu, if_true, enc, List.map_nil, parseLoop] at h
      cases h
    · simp only [patternOf, hu, if_false, enc, List.map_nil, parseLoop] at h
      cases h
  | ⟨n, false⟩ :: ps, uses, x :: xs, outs, outs', hv, hn, h => by
    obtain ⟨h1, _, _⟩ := validSig_tail hv
    have hn' : some nothing ∉ xs := fun e => hn (List.mem_cons_of_mem _ e)
    by_cases hu : n ∈ uses
    · have e : parseLoop nothing tuple (patternOf uses (⟨n, false⟩ :: ps)) (enc nothing (x :: xs)) outs =
          if x.getD nothing = nothing then (false, x.getD nothing :: enc nothing xs, outs)
          else parseLoop nothing tuple (patternOf uses ps) (enc nothing xs) (outs ++ [x.getD nothing]) := by
        simp [patternOf, hu, enc_cons, parseLoop]
      rw [e] at h
      split at h
      · cases h
      · next hne =>
        obtain ⟨bs, hb⟩ := binds_of_parse h1 hn' h
        cases x with
        | none => exact absurd rfl hne
        | some t => exact ⟨_, .pos (fun _ => rfl) hb⟩
    · have e : parseLoop nothing tuple (patternOf uses (⟨n, false⟩ :: ps)) (enc nothing (x :: xs)) outs =
          parseLoop nothing tuple (patternOf uses ps) (enc nothing xs) outs := by
        simp [patternOf, hu, enc_cons, parseLoop]
      rw [e] at h
      obtain ⟨bs, hb⟩ := binds_of_parse h1 hn' h
      exact ⟨_, .pos (t := nothing) (fun hu' => absurd hu' hu) hb⟩

omit [DecidableEq T] in
theorem vals_length {sig : List Param} {uses : List Nat} {inputs : List (Option T)} {bs : List (Nat × T)}
    (h : BindsV tuple uses sig inputs bs) : (vals uses bs).length = fieldCount (patternOf uses sig) := by
  induction h with
  | nil => rfl
  | @pos n ps x xs bs t hx hb ih =>
    by_cases hu : n ∈ uses
    · simp only [vals, fieldCount, patternOf, hu, List.filter_cons, List.length_map, List.length_cons] at ih ⊢
      simp [ih]
    · simp only [vals, fieldCount, patternOf, hu, List.filter_cons, List.length_map] at ih ⊢
      simp [ih]
  | @var n xs t hx =>
    by_cases hu : n ∈ uses
    · simp [vals, fieldCount, patternOf, hu]
    · simp [vals, fieldCount, patternOf, hu]

theorem parseOp_ready {sig : List Param} {uses : List Nat} {inputs : List (Option T)} {bs : List (Nat × T)}
    (h : BindsV tuple uses sig inputs bs) (hn : some nothing ∉ inputs) :
    parseOp nothing tuple (patternOf uses sig) (enc nothing inputs) = (true, vals uses bs) := by
  unfold parseOp
  rw [parse_of_binds h hn]
  simp [← vals_length h]

theorem parseOp_iff {sig : List Param} {uses : List Nat} {inputs : List (Option T)} (hv : ValidSig sig) (hn : some nothing ∉ inputs) :
    (parseOp nothing tuple (patternOf uses sig) (enc nothing inputs)).1 = true ↔ ∃ bs, BindsV tuple uses sig inputs bs := by
  constructor
  · intro h
    unfold parseOp at h
    dsimp only at h
    split at h
    · next hc =>
      rw [Bool.and_eq_true, List.isEmpty_iff] at hc
      refine binds_of_parse (nothing := nothing) (outs := []) (outs' := (parseLoop nothing tuple (patternOf uses sig) (enc nothing inputs) []).2.2) hv hn ?_
      exact Prod.ext hc.1 (Prod.ext hc.2 rfl)
    · cases h
  · rintro ⟨bs, h⟩
    rw [parseOp_ready h hn]

/-- The fields of the placeholders. -/
theorem envOf_vals {sig : List Param} {uses : List Nat} {inputs : List (Option T)} {bs : List (Nat × T)}
    (h : BindsV tuple uses sig inputs bs) (hv : ValidSig sig) :
    ∀ n t, (n, t) ∈ bs → n ∈ uses → envOf nothing uses sig (vals uses bs) n = t := by
  suffices hs : ∀ n t, (n, t) ∈ bs → n ∈ uses → ∃ j, fieldOf uses n sig = some j ∧ (vals uses bs)[j]? = some t by
    intro n t hm hu
    obtain ⟨j, h1, h2⟩ := hs n t hm hu
    simp [envOf, h1, h2]
  induction h with
  | nil => intro n t h; cases h
  | @pos n ps x xs bs t hx hb ih =>
    intro m s hm hu
    obtain ⟨h1, _, h3⟩ := validSig_tail hv
    rcases List.mem_cons.1 hm with hm | hm
    · cases hm
      exact ⟨0, by simp [fieldOf, hu], by simp [vals, hu]⟩
    · obtain ⟨j, h4, h5⟩ := ih h1 m s hm hu
      have hne : n ≠ m := by
        rintro rfl
        apply h3
        rw [← bindsV_names hb]
        exact List.mem_map_of_mem (f := (·.1)) hm
      by_cases hun : n ∈ uses
      · refine ⟨j + 1, by simp [fieldOf, hne, h4, hun], ?_⟩
        simp only [vals] at h5 ⊢
        simpa [hun] using h5
      · refine ⟨j, by simp [fieldOf, hne, h4, hun], ?_⟩
        simp only [vals] at h5 ⊢
        simpa [hun] using h5
  | @var n xs t hx =>
    intro m s hm hu
    rw [List.mem_singleton] at hm
    cases hm
    exact ⟨0, by simp [fieldOf, hu], by simp [vals, hu]⟩

/-- The parser and the environment of the resolved expression. -/
theorem parse_env {sig : List Param} {uses : List Nat} {inputs : List (Option T)} (hv : ValidSig sig) (hn : some nothing ∉ inputs)
    (hu : ∀ n ∈ uses, n ∈ sig.map (·.name)) :
    ((parseOp nothing tuple (patternOf uses sig) (enc nothing inputs)).1 = true ↔ ∃ env, Env tuple sig uses inputs env) ∧
    ∀ env, Env tuple sig uses inputs env → ∀ n ∈ uses,
      envOf nothing uses sig (parseOp nothing tuple (patternOf uses sig) (enc nothing inputs)).2 n = env n := by
  constructor
  · rw [parseOp_iff hv hn]
    constructor
    · rintro ⟨bs, h⟩
      exact ⟨_, env_of_bindsV h (envOf_vals (nothing := nothing) h hv)⟩
    · rintro ⟨env, h⟩
      exact ⟨_, bindsV_of_env h⟩
  · intro env h n hn'
    have hb := bindsV_of_env h
    rw [parseOp_ready hb hn]
    obtain ⟨p, hp, rfl⟩ := List.mem_map.1 (hu n hn')
    exact envOf_vals hb hv _ _ (List.mem_map.2 ⟨p, hp, rfl⟩) hn'

/-! ## The choice -/

/-- Both values. -/
def both (x : Bool × Bool) : Bool := x.1 && x.2

theorem secondLoop_eq : ∀ (rs : List (Bool × Bool)) (more ready : Bool),
    secondLoop more ready rs = (more || rs.any both, ready && rs.all (·.1))
  | [], more, ready => by simp [secondLoop]
  | (r, c) :: rs, more, ready => by
    cases r <;> simp [secondLoop, secondLoop_eq rs, both, Bool.or_assoc]

theorem firstLoop_eq : ∀ (rs : List (Bool × Bool)) (i : Nat) (ready : Bool),
    (firstLoop i ready rs).1 = (rs.findIdx? both).map (· + i) ∧
    ((firstLoop i ready rs).2.1 && (firstLoop i ready rs).2.2.all (·.1)) = (ready && rs.all (·.1)) ∧
    ((firstLoop i ready rs).2.2.any both = true ↔ 2 ≤ rs.countP both)
  | [], i, ready => by simp [firstLoop]
  | (r, c) :: rs, i, ready => by
    cases r with
    | false =>
      obtain ⟨h1, h2, h3⟩ := firstLoop_eq rs (i + 1) false
      simp only [firstLoop, Bool.false_eq_true, if_false]
      refine ⟨?_, ?_, ?_⟩
      · rw [h1, List.findIdx?_cons]
        simp only [both, Bool.false_and, Bool.false_eq_true, if_false, Option.map_map]
        congr 1
        funext x
        simp only [Function.comp]
        omega
      · rw [h2]; simp
      · rw [h3, List.countP_cons]; simp [both]
    | true =>
      cases c with
      | false =>
        obtain ⟨h1, h2, h3⟩ := firstLoop_eq rs (i + 1) ready
        simp only [firstLoop, Bool.false_eq_true, if_false, if_true]
        refine ⟨?_, ?_, ?_⟩
        · rw [h1, List.findIdx?_cons]
          simp only [both, Bool.and_false, Bool.false_eq_true, if_false, Option.map_map]
          congr 1
          funext x
          simp only [Function.comp]
          omega
        · rw [h2]; simp
        · rw [h3, List.countP_cons]; simp [both]
      | true =>
        simp only [firstLoop, if_true]
        refine ⟨by simp [List.findIdx?_cons, both], by simp, ?_⟩
        rw [List.countP_cons, List.any_eq_true]
        have : 2 ≤ rs.countP both + (if both (true, true) = true then 1 else 0) ↔ 0 < rs.countP both := by
          rw [if_pos (by rfl)]
          omega
        rw [this, List.countP_pos_iff]

/-- The outcome if all are ready and at most one matches. -/
def foundOr : Option Nat → Choice
  | some i => .found i
  | none => .noMatch

/-- `GetOverload` without loops. -/
theorem getOverload_eq (rs : List (Bool × Bool)) : getOverload rs =
    if 2 ≤ rs.countP both then .ambiguous
    else if rs.all (·.1) then foundOr (rs.findIdx? both)
    else .undecided := by
  obtain ⟨h1, h2, h3⟩ := firstLoop_eq rs 0 true
  unfold getOverload
  dsimp only
  rw [secondLoop_eq]
  simp only [Bool.false_or, h2, Bool.true_and, h1]
  by_cases hc : 2 ≤ rs.countP both
  · rw [if_pos hc, if_pos (h3.2 hc)]
  · rw [if_neg hc, if_neg (fun e => hc (h3.1 e))]
    cases ha : rs.all (·.1)
    · simp
    · cases hf : rs.findIdx? both <;> simp [foundOr]

theorem two_le_countP {α : Type} (p : α → Bool) : ∀ (l : List α), 2 ≤ l.countP p ↔
    ∃ i j, i < j ∧ j < l.length ∧ (∃ a, l[i]? = some a ∧ p a = true) ∧ (∃ a, l[j]? = some a ∧ p a = true)
  | [] => by
    constructor
    · intro h; simp at h
    · rintro ⟨i, j, _, h, _⟩; simp at h
  | a :: l => by
    rw [List.countP_cons]
    have ih := two_le_countP p l
    constructor
    · intro h
      by_cases ha : p a = true
      · rw [if_pos ha] at h
        have : 0 < l.countP p := by omega
        obtain ⟨b, hb, hpb⟩ := List.countP_pos_iff.1 this
        obtain ⟨j, hj, hjb⟩ := List.mem_iff_getElem.1 hb
        exact ⟨0, j + 1, by omega, by simpa using hj, ⟨a, rfl, ha⟩, ⟨b, by simp [hj, hjb], hpb⟩⟩
      · rw [if_neg ha] at h
        obtain ⟨i, j, h1, h2, h3, h4⟩ := ih.1 h
        exact ⟨i + 1, j + 1, by omega, by simpa using h2, by simpa using h3, by simpa using h4⟩
    · rintro ⟨i, j, h1, h2, h3, h4⟩
      cases j with
      | zero => omega
      | succ j =>
        cases i with
        | zero =>
          obtain ⟨b, hb, hpb⟩ := h3
          simp only [List.getElem?_cons_zero, Option.some.injEq] at hb
          subst hb
          rw [if_pos hpb]
          obtain ⟨c, hc, hpc⟩ := h4
          rw [List.getElem?_cons_succ] at hc
          have : 0 < l.countP p := List.countP_pos_iff.2 ⟨c, List.mem_of_getElem? hc, hpc⟩
          omega
        | succ i =>
          have := ih.2 ⟨i, j, by omega, by simpa using h2, by simpa using h3, by simpa using h4⟩
          omega

/-- The choice is the one of the specification. -/
theorem getOverload_selects (rs : List (Bool × Bool)) (R M : Nat → Prop) (hR : ∀ j x, rs[j]? = some x → (x.1 = true ↔ R j))
    (hM : ∀ j x, rs[j]? = some x → (both x = true ↔ M j)) : Selects rs.length R M (getOverload rs) := by
  have hget : ∀ j, j < rs.length → ∃ x, rs[j]? = some x := fun j h => ⟨_, List.getElem?_eq_getElem h⟩
  have htwo : 2 ≤ rs.countP both ↔ ∃ i j, i < j ∧ j < rs.length ∧ M i ∧ M j := by
    rw [two_le_countP]
    constructor
    · rintro ⟨i, j, h1, h2, ⟨a, ha, hpa⟩, ⟨b, hb, hpb⟩⟩
      exact ⟨i, j, h1, h2, (hM i a ha).1 hpa, (hM j b hb).1 hpb⟩
    · rintro ⟨i, j, h1, h2, h3, h4⟩
      obtain ⟨a, ha⟩ := hget i (by omega)
      obtain ⟨b, hb⟩ := hget j h2
      exact ⟨i, j, h1, h2, ⟨a, ha, (hM i a ha).2 h3⟩, ⟨b, hb, (hM j b hb).2 h4⟩⟩
  have hall : rs.all (·.1) = true ↔ ∀ j < rs.length, R j := by
    rw [List.all_eq_true]
    constructor
    · intro h j hj
      obtain ⟨x, hx⟩ := hget j hj
      exact (hR j x hx).1 (h x (List.mem_of_getElem? hx))
    · intro h x hx
      obtain ⟨j, hj, hjx⟩ := List.mem_iff_getElem.1 hx
      exact (hR j x (by simp [hj, hjx])).2 (h j hj)
  rw [getOverload_eq]
  by_cases h1 : 2 ≤ rs.countP both
  · rw [if_pos h1]
    exact htwo.1 h1
  · rw [if_neg h1]
    rw [htwo] at h1
    by_cases h2 : rs.all (·.1) = true
    · rw [if_pos h2]
      cases hf : rs.findIdx? both with
      | none =>
        refine ⟨hall.1 h2, ?_⟩
        intro j hj hm
        obtain ⟨x, hx⟩ := hget j hj
        rw [List.findIdx?_eq_none_iff] at hf
        have := hf x (List.mem_of_getElem? hx)
        rw [(hM j x hx).2 hm] at this
        cases this
      | some i =>
        rw [List.findIdx?_eq_some_iff_getElem] at hf
        obtain ⟨hi, h3, _⟩ := hf
        have hmi : M i := (hM i _ (List.getElem?_eq_getElem hi)).1 h3
        refine ⟨hi, hmi, ?_, hall.1 h2⟩
        intro j hj hm
        by_contra hne
        rcases Nat.lt_or_gt_of_ne hne with h | h
        · exact h1 ⟨j, i, h, hi, hm, hmi⟩
        · exact h1 ⟨i, j, h, hj, hmi, hm⟩
    · rw [if_neg h2]
      refine ⟨?_, h1⟩
      rw [hall] at h2
      by_contra hc
      apply h2
      intro j hj
      by_contra hr
      exact hc ⟨j, hj, hr⟩

theorem selects_unique {n : Nat} {R M : Nat → Prop} (hMR : ∀ j, M j → R j) {c d : Choice} (hc : Selects n R M c) (hd : Selects n R M d) : c = d := by
  have noFound : ∀ i, Selects n R M (.found i) → ¬ Selects n R M .ambiguous := by
    rintro i ⟨_, _, h3, _⟩ ⟨a, b, h4, h5, h6, h7⟩
    have e1 := h3 a (by omega) h6
    have e2 := h3 b h5 h7
    omega
  have fu : ∀ i, Selects n R M (.found i) → ¬ Selects n R M .undecided := by
    rintro i ⟨_, _, _, h3⟩ ⟨⟨j, h4, h5⟩, _⟩
    exact h5 (h3 j h4)
  have fn : ∀ i, Selects n R M (.found i) → ¬ Selects n R M .noMatch := by
    rintro i ⟨h1, h2, _, _⟩ ⟨_, h⟩
    exact h i h1 h2
  have an : Selects n R M .ambiguous → ¬ Selects n R M .noMatch := by
    rintro ⟨i, j, h1, h2, h3, _⟩ ⟨_, h⟩
    exact h i (by omega) h3
  have au : Selects n R M .ambiguous → ¬ Selects n R M .undecided := fun h ⟨_, h'⟩ => h' h
  have un : Selects n R M .undecided → ¬ Selects n R M .noMatch := by
    rintro ⟨⟨j, h4, h5⟩, _⟩ ⟨h, _⟩
    exact h5 (h j h4)
  cases c with
  | badInput => cases hc
  | found i =>
    cases d with
    | found j => rw [hd.2.2.1 i hc.1 hc.2.1]
    | undecided => exact absurd hd (fu i hc)
    | ambiguous => exact absurd hd (noFound i hc)
    | noMatch => exact absurd hd (fn i hc)
    | badInput => cases hd
  | undecided =>
    cases d with
    | found j => exact absurd hc (fu j hd)
    | undecided => rfl
    | ambiguous => exact absurd hc (au hd)
    | noMatch => exact absurd hd (un hc)
    | badInput => cases hd
  | ambiguous =>
    cases d with
    | found j => exact absurd hc (noFound j hd)
    | undecided => exact absurd hd (au hc)
    | ambiguous => rfl
    | noMatch => exact absurd hd (an hc)
    | badInput => cases hd
  | noMatch =>
    cases d with
    | found j => exact absurd hc (fn j hd)
    | undecided => exact absurd hc (un hd)
    | ambiguous => exact absurd hc (an hd)
    | noMatch => rfl
    | badInput => cases hd

/-- More knowledge does not change a choice. -/
theorem selects_mono {n : Nat} {R M R' M' : Nat → Prop} (hMR : ∀ j < n, M j → R j) (hR : ∀ j < n, R j → R' j)
    (hM : ∀ j < n, R j → (M j ↔ M' j)) {c : Choice} (hu : c ≠ .undecided) (h : Selects n R M c) : Selects n R' M' c := by
  cases c with
  | badInput => exact h
  | undecided => exact absurd rfl hu
  | found i =>
    obtain ⟨h1, h2, h3, h4⟩ := h
    exact ⟨h1, (hM i h1 (h4 i h1)).1 h2, fun j hj hm => h3 j hj ((hM j hj (h4 j hj)).2 hm), fun j hj => hR j hj (h4 j hj)⟩
  | ambiguous =>
    obtain ⟨i, j, h1, h2, h3, h4⟩ := h
    exact ⟨i, j, h1, h2, (hM i (by omega) (hMR i (by omega) h3)).1 h3, (hM j h2 (hMR j h2 h4)).1 h4⟩
  | noMatch =>
    obtain ⟨h1, h2⟩ := h
    exact ⟨fun j hj => hR j hj (h1 j hj), fun j hj hm => h2 j hj ((hM j hj (h1 j hj)).2 hm)⟩

end Verif.Generic
