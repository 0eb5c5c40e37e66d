import Verif.Serial.OnceLemmas
import Verif.Serial.TotalLemmas
import Verif.Serial.DecProps

/-!
# The encoder (C46)
-/

namespace Verif.Serial
open Verif.Expr
variable {V A X E : Type}

theorem finish_events (s : Enc V A X) : kinds s.finish.events = indexed s.steps := by
  simp [Enc.finish, Container.events, indexed]

theorem run_container {o : Opts V A X E} {s : Enc V A X} {st : Store V A X E} (h : Good o s st) :
    decodeContainer o s.finish = .ok (st.values, st.exprs) := by
  refine (decode_container o s.finish).2.2 ?_ (Or.inr rfl) st (by rw [finish_events]; exact h.run)
  unfold hintsOf
  rw [List.filterMap_eq_nil_iff]
  intro e he
  simp only [Enc.finish, Container.events, List.zipIdx_nil, List.map_nil, List.nil_append, List.append_nil, List.mem_map] at he
  obtain ⟨x, hx, rfl⟩ := he
  have := List.fst_mem_of_mem_zipIdx hx
  simp [h.lens.2 _ this]

theorem good_init (o : Opts V A X E) : Good o (Enc.init : Enc V A X) Store.init :=
  ⟨rfl, ⟨rfl, by intro k hk; simp [Enc.init] at hk⟩, by intro v i h; simp [Enc.init] at h, by intro v i h; simp [Enc.init] at h,
    by intro v i h; simp [Enc.init] at h⟩

section
variable [DecidableEq V] [DecidableEq A]

/-- Decoding what was encoded: after any sequence of `EncodeValue` and `EncodeExpr` calls, of which some may fail, the decoder
returns exactly the values and the expressions of the successful calls, in order, provided that each value decoder inverts its
value encoder for one level.  Expressions keep their structure, attributes, operators and literals. -/
theorem round_trip (o : Opts V A X E) (plan : V → Plan V A X E) (hl : Lawful o plan) (hi : o.infer = true) (fuel : Nat)
    (calls : List (Item V A)) (hv : ∀ e, .expr (some e) ∈ calls → Valid o e) (s : Enc V A X) (rs : List (Except (EncErr E) Nat))
    (h : encodeAll plan fuel calls Enc.init = some (s, rs)) :
    decodeContainer o s.finish = .ok (encodedValues calls rs, encodedExprs calls rs) := by
  obtain ⟨st, h1, _, h3, h4⟩ := encodeAll_sound hl hi calls Enc.init Store.init s rs (good_init o) rfl (by
    intro x hx
    cases x with
    | value v => trivial
    | expr e =>
      cases e with
      | none => trivial
      | some e => exact hv e hx) h
  rw [run_container h1, h3, h4]
  rfl

/-- `EncodeToContainerBuilder` and `Encode` — serialization/encode.cc:43-63: the calls up to the first error. -/
def encodeUntil (plan : V → Plan V A X E) (fuel : Nat) : List (Item V A) → Enc V A X → Option (Except (EncErr E) (Enc V A X))
  | [], s => some (.ok s)
  | x :: xs, s =>
    match encode plan fuel x s with
    | none => none
    | some (_, .error e) => some (.error e)
    | some (s, .ok _) => encodeUntil plan fuel xs s

/-- `Encode(values, exprs)`. -/
def encodeApi (plan : V → Plan V A X E) (fuel : Nat) (values : List V) (exprs : List (Option (Ex V A))) :
    Option (Except (EncErr E) (Container X)) :=
  (encodeUntil plan fuel (values.map .value ++ exprs.map .expr) Enc.init).map (fun r => r.map Enc.finish)

theorem encodeUntil_all (plan : V → Plan V A X E) (fuel : Nat) : ∀ (calls : List (Item V A)) (s s' : Enc V A X),
    encodeUntil plan fuel calls s = some (.ok s') → ∃ rs, encodeAll plan fuel calls s = some (s', rs) ∧
      rs.length = calls.length ∧ ∀ r ∈ rs, ∃ i, r = .ok i := by
  intro calls
  induction calls with
  | nil => intro s s' h; cases h; exact ⟨[], rfl, rfl, by simp⟩
  | cons x xs ih =>
    intro s s' h
    simp only [encodeUntil] at h
    rcases h1 : encode plan fuel x s with _ | ⟨s1, e | i⟩
    · rw [h1] at h; cases h
    · rw [h1] at h; cases h
    · rw [h1] at h
      obtain ⟨rs, h2, h3, h4⟩ := ih s1 s' h
      exact ⟨.ok i :: rs, by simp [encodeAll, h1, h2], by simp [h3], by simpa using h4⟩

theorem all_ok {T : Type} : ∀ (calls : List (Item V A)) (rs : List (Except T Nat)), rs.length = calls.length →
    (∀ r ∈ rs, ∃ i, r = .ok i) → encodedValues calls rs = valuesOf calls ∧ encodedExprs calls rs = exprsOf calls := by
  intro calls
  induction calls with
  | nil => intro rs _ _; simp [encodedValues, encodedExprs, valuesOf, exprsOf]
  | cons x xs ih =>
    intro rs hl hr
    cases rs with
    | nil => cases hl
    | cons r rs =>
      obtain ⟨i, rfl⟩ := hr r (by simp)
      obtain ⟨h1, h2⟩ := ih rs (by simpa using hl) (fun r h => hr r (by simp [h]))
      unfold encodedValues valuesOf at h1 ⊢
      unfold encodedExprs exprsOf at h2 ⊢
      rw [List.zip_cons_cons]
      rcases x with v | (_ | e) <;> simp [h1, h2]

theorem valuesOf_api (values : List V) (exprs : List (Option (Ex V A))) :
    valuesOf (values.map .value ++ exprs.map .expr : List (Item V A)) = values := by
  unfold valuesOf
  rw [List.filterMap_append, List.filterMap_map, List.filterMap_map]
  simp [Function.comp_def]

theorem exprsOf_api (values : List V) (exprs : List (Option (Ex V A))) :
    exprsOf (values.map .value ++ exprs.map .expr : List (Item V A)) = exprs.filterMap id := by
  unfold exprsOf
  rw [List.filterMap_append, List.filterMap_map, List.filterMap_map]
  simp only [Function.comp_def, List.filterMap_none, List.nil_append]
  rfl

/-- `Decode(Encode(values, exprs))` gives back the values and expressions. -/
theorem encode_decode (o : Opts V A X E) (plan : V → Plan V A X E) (hl : Lawful o plan) (hi : o.infer = true) (fuel : Nat)
    (values : List V) (exprs : List (Ex V A)) (hv : ∀ e ∈ exprs, Valid o e) (c : Container X)
    (h : encodeApi plan fuel values (exprs.map some) = some (.ok c)) : decodeContainer o c = .ok (values, exprs) := by
  unfold encodeApi at h
  rw [Option.map_eq_some_iff] at h
  obtain ⟨r, h1, h2⟩ := h
  cases r with
  | error e => cases h2
  | ok s =>
    cases h2
    obtain ⟨rs, h3, h4, h5⟩ := encodeUntil_all plan fuel _ _ _ h1
    have := round_trip o plan hl hi fuel _ (by
      intro e he
      rcases List.mem_append.1 he with h | h
      · obtain ⟨v, _, h⟩ := List.mem_map.1 h; cases h
      · obtain ⟨x, hx, h⟩ := List.mem_map.1 h
        obtain ⟨y, hy, rfl⟩ := List.mem_map.1 hx
        cases h
        exact hv _ hy) s rs h3
    obtain ⟨h6, h7⟩ := all_ok _ rs h4 h5
    rw [this, h6, h7, valuesOf_api, exprsOf_api]
    simp [List.filterMap_map, Function.comp_def]

/-- Encoding terminates without undefined behaviour (in particular `known_exprs_.at` finds the expression), the error
"node dependencies must to be pre-serialized" never occurs, and encoding succeeds if all value encoders involved do. -/
theorem encode_succeeds (plan : V → Plan V A X E) (rank : V → Nat) (hf : Finite plan rank) (S : V → Prop) (hS : Closed plan S)
    (R fuel : Nat) (hfuel : 2 * R + 1 ≤ fuel) : ∀ (calls : List (Item V A)) (s : Enc V A X), (∀ x ∈ calls, Below rank R x) →
    ∃ s' rs, encodeAll plan fuel calls s = some (s', rs) ∧ rs.length = calls.length ∧
      (∀ r ∈ rs, r ≠ .error .notPreSerialized) ∧
      ∀ (i : Nat) (x : Item V A), calls[i]? = some x → Within S x → ∃ j, rs[i]? = some (.ok j) := by
  intro calls
  induction calls with
  | nil => intro s _; exact ⟨s, [], rfl, rfl, by simp, by simp⟩
  | cons x xs ih =>
    intro s hb
    obtain ⟨s1, r, h1, _, h3⟩ := encode_total hS hf R fuel hfuel x s (hb x (by simp))
    obtain ⟨s2, rs, h4, h5, h6, h7⟩ := ih s1 (fun y hy => hb y (by simp [hy]))
    refine ⟨s2, r :: rs, by simp [encodeAll, h1, h4], by simp [h5], ?_, ?_⟩
    · intro r' hr'
      rcases List.mem_cons.1 hr' with h | h
      · subst h; intro h; rw [h] at h3; exact h3
      · exact h6 r' h
    · intro i y hy hw
      cases i with
      | zero =>
        simp at hy
        subst hy
        cases r with
        | ok j => exact ⟨j, rfl⟩
        | error e => cases e <;> first | exact h3.elim | exact absurd hw h3
      | succ i => simpa using h7 i y (by simpa using hy) hw

/-- Every value, every expression node and every codec is written at most once: sharing is preserved. -/
theorem written_once (o : Opts V A X E) (plan : V → Plan V A X E) (hl : Lawful o plan) (hi : o.infer = true)
    (rank : V → Nat) (hf : Finite plan rank) (fuel : Nat) (calls : List (Item V A))
    (hv : ∀ e, .expr (some e) ∈ calls → Valid o e) (s : Enc V A X) (rs : List (Except (EncErr E) Nat))
    (h : encodeAll plan fuel calls Enc.init = some (s, rs)) :
    ∃ st, Store.init.run o (kinds s.finish.events) = some st ∧
      (∀ i j v, st.value? i = some v → st.value? j = some v → i = j) ∧
      (∀ i j e, st.expr? i = some e → st.expr? j = some e → i = j) ∧
      (∀ i j c d, st.codec? i = some c → st.codec? j = some d → c.name = d.name → i = j) := by
  obtain ⟨st, h1, _, h3, h4⟩ := encodeAll_sound hl hi calls Enc.init Store.init s rs (good_init o) rfl (by
    intro x hx
    cases x with
    | value v => trivial
    | expr e =>
      cases e with
      | none => trivial
      | some e => exact hv e hx) h
  have ht := encodeAll_once hf calls Enc.init s rs ⟨by simp [Enc.init], by simp [Enc.init], by simp [Enc.init],
    by intro i k hk; simp [Enc.init] at hk⟩ h
  have hw := (run_wrote s.steps.length s.steps rfl st h1.run).2
  have uniq : ∀ {K : Type} (m : List (K × Nat)), (m.map (·.1)).Nodup → ∀ k i j, (k, i) ∈ m → (k, j) ∈ m → i = j := by
    intro K m hm k i j hi hj
    have := List.inj_on_of_nodup_map hm hi hj rfl
    cases this
    rfl
  refine ⟨st, by rw [finish_events]; exact h1.run, ?_, ?_, ?_⟩
  · have key : ∀ i v, st.value? i = some v → (v, i) ∈ s.values := by
      intro i v hv
      have hv' := hv
      unfold Store.value? at hv
      split at hv
      · rename_i w c hc
        obtain ⟨k, hk, hwr⟩ := hw i _ hc
        obtain ⟨p, hp⟩ := hwr.1 w rfl
        have := ht.logged i k hk
        rw [hp] at this
        obtain ⟨u, hu⟩ := this
        have := h1.values u i hu
        rw [hv'] at this
        cases this
        exact hu
      · cases hv
    exact fun i j v hi hj => uniq _ ht.values v i j (key i v hi) (key j v hj)
  · have key : ∀ i v, st.expr? i = some v → (v, i) ∈ s.exprs := by
      intro i v hv
      have hv' := hv
      unfold Store.expr? at hv
      split at hv
      · rename_i w c hc
        obtain ⟨k, hk, hwr⟩ := hw i _ hc
        have hlog := ht.logged i k hk
        have : ∃ e, (e, i) ∈ s.exprs := by
          rcases hwr.2.1 w rfl with ⟨j, hp⟩ | ⟨j, hp⟩ | ⟨j, hp⟩ | ⟨j, is, hp⟩ <;> rw [hp] at hlog <;> exact hlog
        obtain ⟨u, hu⟩ := this
        have := h1.exprs u i hu
        rw [hv'] at this
        cases this
        exact hu
      · cases hv
    exact fun i j v hi hj => uniq _ ht.exprs v i j (key i v hi) (key j v hj)
  · have key : ∀ i c, st.codec? i = some c → (c.name, i) ∈ s.codecs := by
      intro i c hv
      unfold Store.codec? at hv
      split at hv
      · rename_i x d hc
        obtain ⟨k, hk, hwr⟩ := hw i _ hc
        have hp := hwr.2.2 c hv
        have := ht.logged i k hk
        rw [hp] at this
        exact this
      · cases hv
    intro i j c d hi hj hn
    have h5 := key i c hi
    rw [hn] at h5
    exact uniq _ ht.codecs d.name i j h5 (key j d hj)

end

/-! ## Example: a language with integers, pairs, operators and lambda operators -/

/-- The depth of a value. -/
def exRank : Val → Nat
  | .int _ => 0
  | .op _ => 0
  | .pair a b => max (exRank a) (exRank b) + 1
  | .lam _ => 1

theorem sub_body {n : Nat} {m : Ex Val Nat} (h : Sub m (body n)) :
    m = body n ∨ m = .mk (.leaf [n]) 0 [] ∨ m = .mk (.literal (.int n)) 1 [] := by
  cases h with
  | refl => exact .inl rfl
  | dep h hd =>
    simp only [body, Expr.deps, List.mem_cons, List.not_mem_nil, or_false] at hd
    rcases hd with rfl | rfl
    · cases h with
      | refl => exact .inr (.inl rfl)
      | dep _ hd => simp [Expr.deps] at hd
    · cases h with
      | refl => exact .inr (.inr rfl)
      | dep _ hd => simp [Expr.deps] at hd

theorem ex_valid (n : Nat) : Valid exOpts (body n) := by
  refine ⟨.op _ _ _ ?_ rfl, ?_⟩
  · intro d hd
    simp only [List.mem_cons, List.not_mem_nil, or_false] at hd
    rcases hd with rfl | rfl
    · exact .leaf [n]
    · exact .literal (G := exLang) (.int n)
  · intro m w hm hl
    rcases sub_body hm with rfl | rfl | rfl
    · cases hl; rfl
    · cases hl
    · cases hl

theorem ex_lawful : Lawful exOpts exPlan where
  inverse := by
    intro v name h
    cases v with
    | int n =>
      cases h
      refine ⟨_, exDec1, rfl, rfl, fun p hp => ?_⟩
      have : 2 * n = p.ext := Except.ok.inj hp
      simp [exDec1, ← this]
    | op n =>
      cases h
      refine ⟨_, exDec1, rfl, rfl, fun p hp => ?_⟩
      have : 2 * n + 1 = p.ext := Except.ok.inj hp
      simp [exDec1, ← this]
      omega
    | pair a b => cases h; exact ⟨_, exDec2, rfl, rfl, fun _ _ => rfl⟩
    | lam n => cases h; exact ⟨_, exDec2, rfl, rfl, fun _ _ => rfl⟩
  valid := by
    intro v e h
    cases v with
    | int n => cases h
    | op n => cases h
    | pair a b => simp [exPlan] at h
    | lam n =>
      simp [exPlan] at h
      subst h
      exact ex_valid n

theorem ex_finite : Finite exPlan exRank where
  value := by
    intro v w h
    cases v with
    | int n => cases h
    | op n => cases h
    | pair a b => simp [exPlan] at h; simp only [exRank]; rcases h with rfl | rfl <;> omega
    | lam n => simp [exPlan] at h
  expr := by
    intro v e n w h hs hu
    cases v with
    | int n => cases h
    | op n => cases h
    | pair a b => simp [exPlan] at h
    | lam k =>
      simp [exPlan] at h
      subst h
      rcases sub_body hs with rfl | rfl | rfl <;> rcases hu with hu | hu <;> cases hu <;> simp [exRank]

theorem ex_closed : Closed exPlan (fun _ => True) where
  codec := by intro v _; cases v <;> exact ⟨_, rfl⟩
  ext := by intro v _; cases v <;> exact ⟨_, rfl⟩
  value := fun _ _ _ _ => trivial
  null := by intro v _; cases v <;> simp [exPlan]
  expr := fun _ _ _ _ _ _ _ _ => trivial

/-- A pair that shares its components, and an expression that applies a lambda operator to its own literal. -/
def exCalls : List (Item Val Nat) :=
  [.value (.pair (.int 7) (.pair (.int 7) (.lam 7))), .expr none,
   .expr (some (.mk (.op (.lam 7)) 1 [.mk (.literal (.int 7)) 1 []]))]

theorem ex_calls_valid (e : Ex Val Nat) (he : .expr (some e) ∈ exCalls) : Valid exOpts e := by
  simp [exCalls] at he
  subst he
  refine ⟨.op _ _ _ ?_ rfl, ?_⟩
  · intro d hd
    rw [List.mem_singleton.1 hd]
    exact .literal (G := exLang) (.int 7)
  · intro m w hm hl
    cases hm with
    | refl => cases hl; rfl
    | dep h hd =>
      simp only [Expr.deps, List.mem_cons, List.not_mem_nil, or_false] at hd
      subst hd
      cases h with
      | refl => cases hl
      | dep _ hd => simp [Expr.deps] at hd

/-- Two codecs, five values, four expression nodes and two outputs are written; the call with a null pointer fails. -/
example : (encodeAll exPlan 9 exCalls Enc.init).map (fun p => (p.1.steps.length, p.2.map Except.toOption)) =
    some (13, [some 9, none, some 11]) := by decide +kernel

example (s : Enc Val Nat Nat) (rs) (h : encodeAll exPlan 9 exCalls Enc.init = some (s, rs)) :
    decodeContainer exOpts s.finish = .ok (encodedValues exCalls rs, encodedExprs exCalls rs) :=
  round_trip exOpts exPlan ex_lawful rfl 9 exCalls ex_calls_valid s rs h

/-- All calls of the history terminate, and those without null pointers succeed. -/
example : ∀ x ∈ exCalls, Below exRank 4 x := by
  intro x hx
  simp only [exCalls, List.mem_cons, List.not_mem_nil, or_false] at hx
  rcases hx with rfl | rfl | rfl
  · show exRank _ < 4
    decide
  · trivial
  · intro n w hn hu
    cases hn with
    | refl => rcases hu with hu | hu <;> cases hu; decide
    | dep h hd =>
      simp only [Expr.deps, List.mem_cons, List.not_mem_nil, or_false] at hd
      subst hd
      cases h with
      | refl => rcases hu with hu | hu <;> cases hu; decide
      | dep _ hd => simp [Expr.deps] at hd

end Verif.Serial
