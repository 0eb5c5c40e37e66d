import Verif.Serial.EncLemmas
import Mathlib.Data.List.Nodup
import Mathlib.Tactic.ByContra

/-!
# The encoder writes nothing twice
-/

namespace Verif.Serial
open Verif.Expr
variable {V A X E : Type}

/-- The step at an index is recorded in the maps of the encoder. -/
def Logged (s : Enc V A X) (i : Nat) : Kind X → Prop
  | .value _ => ∃ v, (v, i) ∈ s.values
  | .codec n => (n, i) ∈ s.codecs
  | .literal _ => ∃ e, (e, i) ∈ s.exprs
  | .leaf _ => ∃ e, (e, i) ∈ s.exprs
  | .placeholder _ => ∃ e, (e, i) ∈ s.exprs
  | .op _ _ => ∃ e, (e, i) ∈ s.exprs
  | _ => True

/-- Keys are unique and all steps are recorded. -/
structure Tidy (s : Enc V A X) : Prop where
  values : (s.values.map (·.1)).Nodup
  exprs : (s.exprs.map (·.1)).Nodup
  codecs : (s.codecs.map (·.1)).Nodup
  logged : ∀ (i : Nat) (k : Step X), s.steps[i]? = some k → Logged s i k.kind

theorem Tidy.nest {s : Enc V A X} (h : Tidy s) (n : Nat) : Tidy { s with nesting := n } :=
  ⟨h.values, h.exprs, h.codecs, fun i k hk => by
    have := h.logged i k hk
    cases hkk : k.kind <;> rw [hkk] at this <;> exact this⟩

/-- What has been added in between. -/
structure New (rank : V → Nat) (a b : Nat) (s s' : Enc V A X) : Prop where
  values : ∀ p ∈ s'.values, p ∈ s.values ∨ rank p.1 < a
  exprs : ∀ p ∈ s'.exprs, p ∈ s.exprs ∨ ∀ w, Uses p.1 w → rank w < b

theorem New.refl {rank : V → Nat} {a b : Nat} (s : Enc V A X) : New rank a b s s := ⟨fun _ h => .inl h, fun _ h => .inl h⟩

theorem New.trans {rank : V → Nat} {a b : Nat} {x y z : Enc V A X} (h : New rank a b x y) (h' : New rank a b y z) :
    New rank a b x z :=
  ⟨fun p hp => (h'.values p hp).elim (h.values p) .inr, fun p hp => (h'.exprs p hp).elim (h.exprs p) .inr⟩

theorem New.mono {rank : V → Nat} {a b a' b' : Nat} {x y : Enc V A X} (h : New rank a b x y) (ha : a ≤ a') (hb : b ≤ b') :
    New rank a' b' x y :=
  ⟨fun p hp => (h.values p hp).imp id (fun h => by omega), fun p hp => (h.exprs p hp).imp id (fun h w hw => by have := h w hw; omega)⟩

theorem Logged.mono {s s' : Enc V A X} (hv : ∀ p ∈ s.values, p ∈ s'.values) (he : ∀ p ∈ s.exprs, p ∈ s'.exprs)
    (hc : ∀ p ∈ s.codecs, p ∈ s'.codecs) {i : Nat} {k : Kind X} (h : Logged s i k) : Logged s' i k := by
  cases k with
  | value p => obtain ⟨v, h⟩ := h; exact ⟨v, hv _ h⟩
  | codec n => exact hc _ h
  | literal _ => obtain ⟨v, h⟩ := h; exact ⟨v, he _ h⟩
  | leaf _ => obtain ⟨v, h⟩ := h; exact ⟨v, he _ h⟩
  | placeholder _ => obtain ⟨v, h⟩ := h; exact ⟨v, he _ h⟩
  | op _ _ => obtain ⟨v, h⟩ := h; exact ⟨v, he _ h⟩
  | outValue _ => trivial
  | outExpr _ => trivial
  | unset => trivial

theorem snoc_logged {s s' : Enc V A X} (h : Tidy s) {k : Kind X} (hs : s'.steps = s.steps ++ [⟨none, k⟩])
    (hv : ∀ p ∈ s.values, p ∈ s'.values) (he : ∀ p ∈ s.exprs, p ∈ s'.exprs) (hc : ∀ p ∈ s.codecs, p ∈ s'.codecs)
    (hk : Logged s' s.steps.length k) : ∀ (i : Nat) (k : Step X), s'.steps[i]? = some k → Logged s' i k.kind := by
  intro i j hj
  rw [hs] at hj
  by_cases hi : i < s.steps.length
  · rw [List.getElem?_append_left hi] at hj
    exact (h.logged i j hj).mono hv he hc
  · rw [List.getElem?_append_right (by omega)] at hj
    have hi' : i - s.steps.length = 0 := by
      by_contra hne
      rw [List.getElem?_eq_none (by simp; omega)] at hj
      cases hj
    rw [hi'] at hj
    have : i = s.steps.length := by omega
    subst this
    cases hj
    exact hk

theorem assoc_none {K : Type} [DecidableEq K] {m : List (K × Nat)} {k : K} (h : assoc m k = none) : k ∉ m.map (·.1) := by
  unfold assoc at h
  rw [Option.map_eq_none_iff, List.find?_eq_none] at h
  intro hk
  obtain ⟨p, hp, rfl⟩ := List.mem_map.1 hk
  exact h p hp (by simp)

section
variable [DecidableEq V] [DecidableEq A]

/-- A method that keeps the encoder tidy. -/
def OnceRec (rank : V → Nat) (rec : Item V A → Enc V A X → Res V A X E Nat) : Prop :=
  ∀ x s s' r, Tidy s → rec x s = some (s', r) → Tidy s' ∧
    match x with
    | .value v => New rank (rank v + 1) (rank v) s s'
    | .expr e => ∀ R, Below rank R (.expr e) → New rank R R s s'

theorem encodeCodec_once {rank : V → Nat} {a b : Nat} {s : Enc V A X} (h : Tidy s) (n : List Nat) :
    Tidy (encodeCodec s n).1 ∧ New rank a b s (encodeCodec s n).1 := by
  unfold encodeCodec
  cases ha : assoc s.codecs n with
  | some i => exact ⟨h, New.refl s⟩
  | none =>
    refine ⟨⟨h.values, h.exprs, ?_, ?_⟩, ⟨fun _ h => .inl h, fun _ h => .inl h⟩⟩
    · simp only [List.map_cons, List.nodup_cons]
      exact ⟨assoc_none ha, h.codecs⟩
    · exact snoc_logged h (k := .codec n) rfl (fun _ h => h) (fun _ h => h) (fun _ h => List.mem_cons_of_mem _ h)
        (List.mem_cons_self)

theorem encodeParts_once {rank : V → Nat} {rec : Item V A → Enc V A X → Res V A X E Nat} (hr : OnceRec rank rec) {R : Nat} :
    ∀ (ps : List (Item V A)) (s s' : Enc V A X) (r), Tidy s → (∀ x ∈ ps, Below rank R x) →
      encodeParts rec ps s = some (s', r) → Tidy s' ∧ New rank R R s s' := by
  intro ps
  induction ps with
  | nil => intro s s' r h _ he; cases he; exact ⟨h, New.refl s⟩
  | cons p ps ih =>
    intro s s' r h hb he
    simp only [encodeParts] at he
    rcases h1 : rec p s with _ | ⟨s1, r1⟩
    · rw [h1] at he; cases he
    · obtain ⟨h2, h3⟩ := hr p s s1 r1 h h1
      have h3' : New rank R R s s1 := by
        have hp := hb p (by simp)
        cases p with
        | value v =>
          have hp : rank v < R := hp
          exact h3.mono (by omega) (by omega)
        | expr e => exact h3 R hp
      rw [h1] at he
      cases r1 with
      | error e => cases he; exact ⟨h2, h3'⟩
      | ok i =>
        dsimp only at he
        rcases h4 : encodeParts rec ps s1 with _ | ⟨s2, r2⟩
        · rw [h4] at he; cases he
        · obtain ⟨h5, h6⟩ := ih s1 s2 r2 h2 (fun x hx => hb x (by simp [hx])) h4
          rw [h4] at he
          cases r2 with
          | error e => cases he; exact ⟨h5, h3'.trans h6⟩
          | ok ve =>
            obtain ⟨vs, es⟩ := ve
            cases p <;> cases he <;> exact ⟨h5, h3'.trans h6⟩

theorem valueIndex_once {plan : V → Plan V A X E} {rank : V → Nat} (hf : Finite plan rank)
    {rec : Item V A → Enc V A X → Res V A X E Nat} (hr : OnceRec rank rec) {v : V} {s s' : Enc V A X} {r} (h : Tidy s)
    (he : valueIndex plan rec v s = some (s', r)) : Tidy s' ∧ New rank (rank v + 1) (rank v) s s' := by
  unfold valueIndex at he
  cases ha : assoc s.values v with
  | some i => rw [ha] at he; cases he; exact ⟨h, New.refl s⟩
  | none =>
    rw [ha] at he
    dsimp only at he
    unfold runPlan at he
    cases hc : (plan v).codec with
    | error e =>
      rw [hc] at he
      cases he
      exact ⟨h.nest _, ⟨fun _ h => .inl h, fun _ h => .inl h⟩⟩
    | ok name =>
      rw [hc] at he
      dsimp only at he
      obtain ⟨h1, h2⟩ := encodeCodec_once (rank := rank) (a := rank v) (b := rank v) (h.nest (s.nesting + 1)) name
      rcases hs1 : encodeCodec { s with nesting := s.nesting + 1 } name with ⟨s1, c⟩
      rw [hs1] at he h1 h2
      dsimp only at he h1 h2
      rcases h4 : encodeParts rec (plan v).parts s1 with _ | ⟨s2, r2⟩
      · rw [h4] at he; cases he
      · obtain ⟨h5, h6⟩ := encodeParts_once hr (R := rank v) (plan v).parts s1 s2 r2 h1 (by
          intro x hx
          cases x with
          | value w => exact hf.value v w hx
          | expr e =>
            cases e with
            | none => trivial
            | some e => intro n w hn hu; exact hf.expr v e n w hx hn hu) h4
        have h7 : New rank (rank v) (rank v) s s2 := by
          have := h2.trans h6
          exact ⟨this.values, this.exprs⟩
        have h8 := h7.mono (Nat.le_succ _) (Nat.le_refl _)
        have herr : ∀ n, Tidy { s2 with nesting := n } ∧ New rank (rank v + 1) (rank v) s { s2 with nesting := n } :=
          fun n => ⟨h5.nest n, ⟨h8.values, h8.exprs⟩⟩
        rw [h4] at he
        cases r2 with
        | error e => cases he; exact herr _
        | ok ve =>
          obtain ⟨vs, es⟩ := ve
          dsimp only at he
          cases hx : (plan v).ext with
          | error e => rw [hx] at he; cases he; exact herr _
          | ok x =>
            rw [hx] at he
            cases he
            have hnot : v ∉ s2.values.map (·.1) := by
              intro hv
              obtain ⟨p, hp, hpv⟩ := List.mem_map.1 hv
              rcases h7.values p hp with h | h
              · exact assoc_none ha (List.mem_map.2 ⟨p, h, hpv⟩)
              · rw [hpv] at h; omega
            refine ⟨⟨?_, h5.exprs, h5.codecs, ?_⟩, ⟨?_, h8.exprs⟩⟩
            · simp only [List.map_cons, List.nodup_cons]
              exact ⟨hnot, h5.values⟩
            · exact snoc_logged h5 (k := .value ⟨vs, es, some c, x⟩) rfl (fun _ h => List.mem_cons_of_mem _ h) (fun _ h => h)
                (fun _ h => h) ⟨v, List.mem_cons_self⟩
            · intro p hp
              rcases List.mem_cons.1 hp with h | h
              · right; rw [h]; exact Nat.lt_succ_self _
              · exact h8.values p h

theorem addExpr_once {s : Enc V A X} (h : Tidy s) {n : Ex V A} (hn : n ∉ s.exprs.map (·.1)) {k : Kind X}
    (hk : Logged (addExpr s n k) s.steps.length k) : Tidy (addExpr s n k) := by
  refine ⟨h.values, ?_, h.codecs, ?_⟩
  · unfold addExpr
    simp only [List.map_cons, List.nodup_cons]
    exact ⟨hn, h.exprs⟩
  · exact snoc_logged h (k := k) rfl (fun _ h => h) (fun _ h => List.mem_cons_of_mem _ h) (fun _ h => h) hk

theorem encodeNode_once {rank : V → Nat} {rec : Item V A → Enc V A X → Res V A X E Nat} (hr : OnceRec rank rec) {n : Ex V A}
    {s s' : Enc V A X} {r} (h : Tidy s) (he : encodeNode rec n s = some (s', r)) :
    Tidy s' ∧ ∀ R, (∀ w, Uses n w → rank w < R) → New rank R R s s' := by
  unfold encodeNode at he
  split at he
  · cases he; exact ⟨h, fun R _ => New.refl s⟩
  · rename_i hk
    have hk : n ∉ s.exprs.map (·.1) := assoc_none (by simpa using hk)
    have hnew : ∀ (t : Enc V A X) (k : Kind X) (R : Nat), (∀ w, Uses n w → rank w < R) → New rank R R t (addExpr t n k) := by
      intro t k R hR
      refine ⟨fun _ h => .inl h, fun p hp => ?_⟩
      rcases List.mem_cons.1 hp with h | h
      · right; rw [h]; exact hR
      · left; exact h
    cases hl : n.label with
    | leaf k =>
      rw [hl] at he
      cases he
      exact ⟨addExpr_once h hk ⟨n, List.mem_cons_self⟩, hnew s _⟩
    | placeholder k =>
      rw [hl] at he
      cases he
      exact ⟨addExpr_once h hk ⟨n, List.mem_cons_self⟩, hnew s _⟩
    | literal v =>
      rw [hl] at he
      dsimp only at he
      rcases h1 : rec (.value v) s with _ | ⟨s1, r1⟩
      · rw [h1] at he; cases he
      · obtain ⟨h2, h3⟩ := hr _ s s1 r1 h h1
        dsimp only at h3
        have hk1 : n ∉ s1.exprs.map (·.1) := by
          intro hv
          obtain ⟨p, hp, hpv⟩ := List.mem_map.1 hv
          rcases h3.exprs p hp with h | h
          · exact hk (List.mem_map.2 ⟨p, h, hpv⟩)
          · have := h v (by rw [hpv]; exact Or.inl hl)
            omega
        have h4 : ∀ R, (∀ w, Uses n w → rank w < R) → New rank R R s s1 := fun R hR =>
          h3.mono (hR v (Or.inl hl)) (by have := hR v (Or.inl hl); omega)
        rw [h1] at he
        cases r1 with
        | error e => cases he; exact ⟨h2, h4⟩
        | ok i =>
          cases he
          exact ⟨addExpr_once h2 hk1 ⟨n, List.mem_cons_self⟩, fun R hR => (h4 R hR).trans (hnew s1 _ R hR)⟩
    | op v =>
      rw [hl] at he
      dsimp only at he
      rcases h1 : rec (.value v) s with _ | ⟨s1, r1⟩
      · rw [h1] at he; cases he
      · obtain ⟨h2, h3⟩ := hr _ s s1 r1 h h1
        dsimp only at h3
        have hk1 : n ∉ s1.exprs.map (·.1) := by
          intro hv
          obtain ⟨p, hp, hpv⟩ := List.mem_map.1 hv
          rcases h3.exprs p hp with h | h
          · exact hk (List.mem_map.2 ⟨p, h, hpv⟩)
          · have := h v (by rw [hpv]; exact Or.inr hl)
            omega
        have h4 : ∀ R, (∀ w, Uses n w → rank w < R) → New rank R R s s1 := fun R hR =>
          h3.mono (hR v (Or.inr hl)) (by have := hR v (Or.inr hl); omega)
        rw [h1] at he
        cases r1 with
        | error e => cases he; exact ⟨h2, h4⟩
        | ok i =>
          dsimp only at he
          cases hd : depIndices s1 n.deps with
          | none => rw [hd] at he; cases he; exact ⟨h2, h4⟩
          | some ds =>
            rw [hd] at he
            cases he
            exact ⟨addExpr_once h2 hk1 ⟨n, List.mem_cons_self⟩, fun R hR => (h4 R hR).trans (hnew s1 _ R hR)⟩

theorem encodeNodes_once {rank : V → Nat} {rec : Item V A → Enc V A X → Res V A X E Nat} (hr : OnceRec rank rec) :
    ∀ (ns : List (Ex V A)) (s s' : Enc V A X) (r), Tidy s → encodeNodes rec ns s = some (s', r) →
    Tidy s' ∧ ∀ R, (∀ n ∈ ns, ∀ w, Uses n w → rank w < R) → New rank R R s s' := by
  intro ns
  induction ns with
  | nil => intro s s' r h he; cases he; exact ⟨h, fun R _ => New.refl s⟩
  | cons n ns ih =>
    intro s s' r h he
    simp only [encodeNodes] at he
    rcases h1 : encodeNode rec n s with _ | ⟨s1, r1⟩
    · rw [h1] at he; cases he
    · obtain ⟨h2, h3⟩ := encodeNode_once hr h h1
      rw [h1] at he
      cases r1 with
      | error e => cases he; exact ⟨h2, fun R hR => h3 R (hR n (by simp))⟩
      | ok u =>
        obtain ⟨h4, h5⟩ := ih s1 s' r h2 he
        exact ⟨h4, fun R hR => (h3 R (hR n (by simp))).trans (h5 R (fun m hm => hR m (by simp [hm])))⟩

theorem exprIndex_once {rank : V → Nat} {rec : Item V A → Enc V A X → Res V A X E Nat} (hr : OnceRec rank rec) {e : Ex V A}
    {s s' : Enc V A X} {r} (h : Tidy s) (he : exprIndex rec e s = some (s', r)) :
    Tidy s' ∧ ∀ R, Below rank R (.expr (some e)) → New rank R R s s' := by
  unfold exprIndex at he
  cases ha : assoc s.exprs e with
  | some i => rw [ha] at he; cases he; exact ⟨h, fun R _ => New.refl s⟩
  | none =>
    rw [ha] at he
    obtain ⟨nodes, hn1, hn2⟩ := visitorOrder_spec e
    rw [hn1] at he
    dsimp only at he
    rcases h1 : encodeNodes rec nodes { s with nesting := s.nesting + 1 } with _ | ⟨s1, r1⟩
    · rw [h1] at he; cases he
    · obtain ⟨h2, h3⟩ := encodeNodes_once hr nodes _ s1 r1 (h.nest _) h1
      have h4 : ∀ n R, Below rank R (.expr (some e)) → New rank R R s { s1 with nesting := n } := by
        intro n R hR
        have := h3 R (fun m hm w hw => hR m w ((hn2 m).1 hm) hw)
        exact ⟨this.values, this.exprs⟩
      rw [h1] at he
      cases r1 with
      | error e => cases he; exact ⟨h2.nest _, h4 _⟩
      | ok u =>
        dsimp only at he
        cases ha2 : assoc s1.exprs e with
        | none => rw [ha2] at he; cases he
        | some i => rw [ha2] at he; cases he; exact ⟨h2.nest _, h4 _⟩

theorem tidy_out {s : Enc V A X} (h : Tidy s) {k : Kind X} (hk : ∀ t : Enc V A X, Logged t s.steps.length k) :
    Tidy (s.add k) :=
  ⟨h.values, h.exprs, h.codecs, snoc_logged h rfl (fun _ h => h) (fun _ h => h) (fun _ h => h) (hk _)⟩

theorem encode_once {plan : V → Plan V A X E} {rank : V → Nat} (hf : Finite plan rank) :
    ∀ fuel, OnceRec rank (encode plan fuel) := by
  intro fuel
  induction fuel with
  | zero => intro x s s' r _ h; cases h
  | succ fuel ih =>
    intro x s s' r h he
    cases x with
    | value v =>
      simp only [encode] at he
      rcases h1 : valueIndex plan (encode plan fuel) v s with _ | ⟨s1, r1⟩
      · rw [h1] at he; cases he
      · obtain ⟨h2, h3⟩ := valueIndex_once hf ih h h1
        rw [h1] at he
        cases r1 with
        | error e => cases he; exact ⟨h2, h3⟩
        | ok i =>
          dsimp only at he
          split at he
          · cases he; exact ⟨tidy_out h2 (fun _ => trivial), ⟨h3.values, h3.exprs⟩⟩
          · cases he; exact ⟨h2, h3⟩
    | expr e =>
      cases e with
      | none => cases he; exact ⟨h, fun R _ => New.refl s⟩
      | some e =>
        simp only [encode] at he
        rcases h1 : exprIndex (encode plan fuel) e s with _ | ⟨s1, r1⟩
        · rw [h1] at he; cases he
        · obtain ⟨h2, h3⟩ := exprIndex_once ih h h1
          rw [h1] at he
          cases r1 with
          | error e => cases he; exact ⟨h2, h3⟩
          | ok i =>
            dsimp only at he
            split at he
            · cases he
              exact ⟨tidy_out h2 (fun _ => trivial), fun R hR => ⟨(h3 R hR).values, (h3 R hR).exprs⟩⟩
            · cases he; exact ⟨h2, h3⟩

theorem encodeAll_once {plan : V → Plan V A X E} {rank : V → Nat} (hf : Finite plan rank) {fuel : Nat} :
    ∀ (calls : List (Item V A)) (s s' : Enc V A X) (rs), Tidy s → encodeAll plan fuel calls s = some (s', rs) → Tidy s' := by
  intro calls
  induction calls with
  | nil => intro s s' rs h he; cases he; exact h
  | cons x xs ih =>
    intro s s' rs h he
    simp only [encodeAll] at he
    rcases h1 : encode plan fuel x s with _ | ⟨s1, r⟩
    · rw [h1] at he; cases he
    · rw [h1] at he
      dsimp only at he
      rcases h2 : encodeAll plan fuel xs s1 with _ | ⟨s2, rs'⟩
      · rw [h2] at he; cases he
      · rw [h2] at he
        cases he
        exact ih s1 s2 rs' (encode_once hf fuel x s s1 r h h1).1 h2

end

/-- The kind of step that can have written a cell. -/
def Wrote (k : Kind X) : Option (VoE V A) × Option (Codec V A X E) → Prop
  | (x, c) =>
    (∀ v, x = some (.val v) → ∃ p, k = .value p) ∧
    (∀ e, x = some (.expr e) → (∃ j, k = .literal j) ∨ (∃ j, k = .leaf j) ∨ (∃ j, k = .placeholder j) ∨ ∃ j is, k = .op j is) ∧
    (∀ d, c = some d → k = .codec d.name)

theorem write_new {st st' : Store V A X E} {x : VoE V A} (h : (st.push none none).write st.cells.length x = some st') :
    st'.cells = st.cells ++ [(some x, none)] := by
  rw [push_write] at h; cases h; rfl

theorem step_wrote {o : Opts V A X E} {st st' : Store V A X E} {k : Kind X} (h : st.step o st.cells.length k = some st') :
    ∃ c, st'.cells = st.cells ++ [c] ∧ Wrote k c := by
  rw [step_new] at h
  cases k with
  | literal j =>
    cases j with
    | none => cases h
    | some j =>
      simp only [Store.apply, Option.bind_eq_bind, Option.bind_eq_some_iff] at h
      obtain ⟨v, _, w, _, h⟩ := h
      exact ⟨_, write_new h, by simp [Wrote]⟩
  | leaf j =>
    cases j with
    | none => cases h
    | some j => exact ⟨_, write_new h, by simp [Wrote]⟩
  | placeholder j =>
    cases j with
    | none => cases h
    | some j => exact ⟨_, write_new h, by simp [Wrote]⟩
  | op j is =>
    cases j with
    | none => cases h
    | some j =>
      simp only [Store.apply, Option.bind_eq_bind, Option.bind_eq_some_iff] at h
      obtain ⟨v, _, h⟩ := h
      split at h
      · simp only [Option.bind_eq_some_iff] at h
        obtain ⟨w, _, e, _, h⟩ := h
        exact ⟨_, write_new h, by simp [Wrote]⟩
      · cases h
  | value p =>
    simp only [Store.apply, Option.bind_eq_bind, Option.bind_eq_some_iff] at h
    obtain ⟨vs, _, es, _, h⟩ := h
    cases hc : p.codec with
    | none =>
      simp only [hc, Option.bind_eq_some_iff] at h
      obtain ⟨v, _, h⟩ := h
      exact ⟨_, write_new h, by simp [Wrote]⟩
    | some j =>
      simp only [hc, Option.bind_eq_some_iff] at h
      obtain ⟨v, _, w, _, h⟩ := h
      exact ⟨_, write_new h, by simp [Wrote]⟩
  | codec n =>
    simp only [Store.apply, Option.bind_eq_bind, Option.bind_eq_some_iff] at h
    obtain ⟨f, _, h⟩ := h
    cases hf : f n with
    | error e => rw [hf] at h; cases h
    | ok dec =>
      rw [hf] at h
      dsimp only at h
      rw [push_writeCodec] at h
      cases h
      exact ⟨_, rfl, by simp [Wrote]⟩
  | outValue j =>
    simp only [Store.apply, Option.bind_eq_bind, Option.bind_eq_some_iff] at h
    obtain ⟨v, _, h⟩ := h
    cases h
    exact ⟨_, rfl, by simp [Wrote]⟩
  | outExpr j =>
    simp only [Store.apply, Option.bind_eq_bind, Option.bind_eq_some_iff] at h
    obtain ⟨v, _, h⟩ := h
    cases h
    exact ⟨_, rfl, by simp [Wrote]⟩
  | unset =>
    cases h
    exact ⟨_, rfl, by simp [Wrote]⟩

theorem run_wrote {o : Opts V A X E} : ∀ (n : Nat) (steps : List (Step X)), steps.length = n → ∀ (st : Store V A X E),
    Store.init.run o (indexed steps) = some st → st.cells.length = steps.length ∧
    ∀ (i : Nat) (c) , st.cells[i]? = some c → ∃ k, steps[i]? = some k ∧ Wrote k.kind c := by
  intro n
  induction n with
  | zero =>
    intro steps hn st h
    have : steps = [] := List.length_eq_zero_iff.1 hn
    subst this
    cases h
    exact ⟨rfl, by intro i c h; simp [Store.init] at h⟩
  | succ n ih =>
    intro steps hn st h
    rcases List.eq_nil_or_concat steps with h0 | ⟨l, x, rfl⟩
    · rw [h0] at hn; cases hn
    · rw [List.concat_eq_append] at hn h ⊢
      rw [indexed_snoc, run_append] at h
      obtain ⟨st1, h1, h2⟩ := Option.bind_eq_some_iff.1 h
      obtain ⟨h3, h4⟩ := ih l (by simpa using hn) st1 h1
      have h2 : (st1.step o l.length x.kind) = some st := by
        have h2 : (do (← st1.step o l.length x.kind).run o []) = some st := h2
        cases hs : st1.step o l.length x.kind with
        | none => rw [hs] at h2; cases h2
        | some t => rw [hs] at h2; exact h2
      rw [← h3] at h2
      obtain ⟨c, h5, h6⟩ := step_wrote h2
      refine ⟨by rw [h5]; simp [h3], ?_⟩
      intro i d hd
      rw [h5] at hd
      by_cases hi : i < st1.cells.length
      · rw [List.getElem?_append_left hi] at hd
        obtain ⟨k, hk, hw⟩ := h4 i d hd
        exact ⟨k, by rw [List.getElem?_append_left (by omega)]; exact hk, hw⟩
      · rw [List.getElem?_append_right (by omega)] at hd
        have hi' : i - st1.cells.length = 0 := by
          by_contra hne
          rw [List.getElem?_eq_none (by simp; omega)] at hd
          cases hd
        rw [hi'] at hd
        cases hd
        exact ⟨x, by rw [List.getElem?_append_right (by omega), show i - l.length = 0 by omega]; rfl, h6⟩

end Verif.Serial
