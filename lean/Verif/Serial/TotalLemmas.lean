import Verif.Serial.EncLemmas

/-!
# The encoder terminates, without undefined behaviour, and succeeds if the value encoders do
-/

namespace Verif.Serial
open Verif.Expr
variable {V A X E : Type} [DecidableEq V] [DecidableEq A]

/-- Expressions stay known. -/
def KeepsExprs (s s' : Enc V A X) : Prop := ∀ e, (assoc s.exprs e).isSome → (assoc s'.exprs e).isSome

theorem KeepsExprs.trans {a b c : Enc V A X} (h : KeepsExprs a b) (h' : KeepsExprs b c) : KeepsExprs a c :=
  fun e he => h' e (h e he)

/-- Errors of value encoders. -/
def FromPlan (S : V → Prop) (x : Item V A) {T : Type} : Except (EncErr E) T → Prop
  | .ok _ => True
  | .error .notPreSerialized => False
  | .error _ => ¬ Within S x

/-- The method ends with a proper result for the arguments in question. -/
def TotalRec (S : V → Prop) (rank : V → Nat) (R : Nat) (rec : Item V A → Enc V A X → Res V A X E Nat) : Prop :=
  ∀ x s, Below rank R x → ∃ s' r, rec x s = some (s', r) ∧ KeepsExprs s s' ∧ FromPlan S x r

/-- The same for values only. -/
def TotalVal (S : V → Prop) (rank : V → Nat) (R : Nat) (rec : Item V A → Enc V A X → Res V A X E Nat) : Prop :=
  ∀ v s, rank v < R → ∃ s' r, rec (.value v) s = some (s', r) ∧ KeepsExprs s s' ∧ FromPlan S (.value v : Item V A) r

theorem assoc_cons {K : Type} [DecidableEq K] (m : List (K × Nat)) (k k' : K) (i : Nat) :
    assoc ((k, i) :: m) k' = if k = k' then some i else assoc m k' := by
  unfold assoc
  rw [List.find?_cons]
  by_cases h : k = k' <;> simp [h]

theorem encodeCodec_exprs (s : Enc V A X) (n : List Nat) : (encodeCodec s n).1.exprs = s.exprs := by
  unfold encodeCodec; split <;> rfl

theorem encodeParts_total {S : V → Prop} {rank : V → Nat} {rec : Item V A → Enc V A X → Res V A X E Nat} :
    ∀ (ps : List (Item V A)), (∀ x ∈ ps, ∀ s, ∃ s' r, rec x s = some (s', r) ∧ KeepsExprs s s' ∧ FromPlan S x r) →
    ∀ (s : Enc V A X), ∃ s' r, encodeParts rec ps s = some (s', r) ∧ KeepsExprs s s' ∧
      (r ≠ .error .notPreSerialized) ∧ ((∀ x ∈ ps, Within S x) → ∃ ve, r = .ok ve) := by
  intro ps
  induction ps with
  | nil => intro _ s; exact ⟨s, _, rfl, fun _ h => h, by simp, fun _ => ⟨_, rfl⟩⟩
  | cons p ps ih =>
    intro hr s
    obtain ⟨s1, r1, h1, h2, h3⟩ := hr p (by simp) s
    simp only [encodeParts, h1]
    cases r1 with
    | error e =>
      refine ⟨s1, _, rfl, h2, ?_, ?_⟩
      · intro h; cases h; exact h3
      · intro hw
        have hp := hw p (by simp)
        cases e with
        | notPreSerialized => exact h3.elim
        | null => exact absurd hp h3
        | other e => exact absurd hp h3
    | ok i =>
      obtain ⟨s2, r2, h4, h5, h6, h7⟩ := ih (fun x hx => hr x (by simp [hx])) s1
      simp only [h4]
      cases r2 with
      | error e =>
        refine ⟨s2, _, rfl, h2.trans h5, ?_, ?_⟩
        · intro h; cases h; exact h6 rfl
        · intro hw
          obtain ⟨ve, h⟩ := h7 (fun x hx => hw x (by simp [hx]))
          cases h
      | ok ve =>
        obtain ⟨vs, es⟩ := ve
        cases p with
        | value v => exact ⟨s2, _, rfl, h2.trans h5, by simp, fun _ => ⟨_, rfl⟩⟩
        | expr e => exact ⟨s2, _, rfl, h2.trans h5, by simp, fun _ => ⟨_, rfl⟩⟩

theorem valueIndex_total {plan : V → Plan V A X E} {S : V → Prop} (hS : Closed plan S) {rank : V → Nat}
    (hf : Finite plan rank) {R : Nat} {rec : Item V A → Enc V A X → Res V A X E Nat} (hr : TotalRec S rank R rec)
    (v : V) (hv : rank v < R + 1) (s : Enc V A X) :
    ∃ s' r, valueIndex plan rec v s = some (s', r) ∧ KeepsExprs s s' ∧ FromPlan S (.value v : Item V A) r := by
  unfold valueIndex
  cases ha : assoc s.values v with
  | some i => exact ⟨s, _, rfl, fun _ h => h, trivial⟩
  | none =>
    dsimp only
    unfold runPlan
    cases hc : (plan v).codec with
    | error e =>
      refine ⟨_, _, rfl, fun _ h => h, ?_⟩
      intro hw
      obtain ⟨n, hn⟩ := hS.codec v hw
      rw [hc] at hn
      cases hn
    | ok name =>
      dsimp only
      obtain ⟨s2, r2, h4, h5, h6, h7⟩ := encodeParts_total (rank := rank) (S := S) (rec := rec) (plan v).parts (by
        intro x hx s
        apply hr x s
        cases x with
        | value w => have := hf.value v w hx; show rank w < R; omega
        | expr e =>
          cases e with
          | none => trivial
          | some e => intro n w hn hu; have := hf.expr v e n w hx hn hu; omega)
        (encodeCodec { s with nesting := s.nesting + 1 } name).1
      rw [h4]
      have hk : KeepsExprs s s2 := by
        intro e he
        apply h5 e
        rw [encodeCodec_exprs]
        exact he
      have hall : S v → ∀ x ∈ (plan v).parts, Within S x := by
        intro hv x hx
        cases x with
        | value w => exact hS.value v w hv hx
        | expr e =>
          cases e with
          | none => exact hS.null v hv hx
          | some e => intro n w hn hu; exact hS.expr v e n w hv hx hn hu
      cases r2 with
      | error e =>
        refine ⟨_, _, rfl, hk, ?_⟩
        cases e with
        | notPreSerialized => exact h6 rfl
        | null => intro hv; obtain ⟨ve, h⟩ := h7 (hall hv); cases h
        | other e => intro hv; obtain ⟨ve, h⟩ := h7 (hall hv); cases h
      | ok ve =>
        obtain ⟨vs, es⟩ := ve
        dsimp only
        cases hx : (plan v).ext with
        | error e =>
          refine ⟨_, _, rfl, hk, ?_⟩
          intro hw
          obtain ⟨n, hn⟩ := hS.ext v hw
          rw [hx] at hn
          cases hn
        | ok x => exact ⟨_, _, rfl, hk, trivial⟩

theorem depIndices_total (s : Enc V A X) : ∀ (ds : List (Ex V A)), (∀ d ∈ ds, (assoc s.exprs d).isSome) →
    ∃ is, depIndices s ds = some is := by
  intro ds
  induction ds with
  | nil => intro _; exact ⟨[], rfl⟩
  | cons d ds ih =>
    intro h
    obtain ⟨is, h1⟩ := ih (fun x hx => h x (by simp [hx]))
    obtain ⟨i, hi⟩ := Option.isSome_iff_exists.1 (h d (by simp))
    exact ⟨i :: is, by simp [depIndices, hi, h1]⟩

theorem encodeNode_total {S : V → Prop} {rank : V → Nat} {R : Nat} {rec : Item V A → Enc V A X → Res V A X E Nat}
    (hr : TotalVal S rank R rec) (n : Ex V A) (hn : ∀ w, Uses n w → rank w < R) (s : Enc V A X)
    (hd : ∀ d ∈ n.deps, (assoc s.exprs d).isSome) :
    ∃ s' r, encodeNode rec n s = some (s', r) ∧ KeepsExprs s s' ∧ r ≠ .error .notPreSerialized ∧
      ((∀ w, Uses n w → S w) → r = .ok ()) ∧ (r = .ok () → (assoc s'.exprs n).isSome) := by
  unfold encodeNode
  have hadd : ∀ (t : Enc V A X) (k : Kind X), KeepsExprs t (addExpr t n k) ∧ (assoc (addExpr t n k).exprs n).isSome := by
    intro t k
    unfold addExpr
    refine ⟨?_, by simp [assoc_cons]⟩
    intro e he
    dsimp only
    rw [assoc_cons]
    split
    · rfl
    · exact he
  split
  · rename_i hk
    exact ⟨s, _, rfl, fun _ h => h, by simp, fun _ => rfl, fun _ => hk⟩
  · cases hl : n.label with
    | leaf k => exact ⟨_, _, rfl, (hadd s _).1, by simp, fun _ => rfl, fun _ => (hadd s _).2⟩
    | placeholder k => exact ⟨_, _, rfl, (hadd s _).1, by simp, fun _ => rfl, fun _ => (hadd s _).2⟩
    | literal v =>
      obtain ⟨s1, r1, h1, h2, h3⟩ := hr v s (hn v (Or.inl hl))
      simp only [h1]
      cases r1 with
      | error e =>
        refine ⟨s1, _, rfl, h2, ?_, ?_, by simp⟩
        · intro h; cases h; exact h3
        · intro hw
          cases e with
          | notPreSerialized => exact h3.elim
          | null => exact absurd (hw v (Or.inl hl)) h3
          | other e => exact absurd (hw v (Or.inl hl)) h3
      | ok i => exact ⟨_, _, rfl, h2.trans (hadd s1 _).1, by simp, fun _ => rfl, fun _ => (hadd s1 _).2⟩
    | op v =>
      obtain ⟨s1, r1, h1, h2, h3⟩ := hr v s (hn v (Or.inr hl))
      simp only [h1]
      cases r1 with
      | error e =>
        refine ⟨s1, _, rfl, h2, ?_, ?_, by simp⟩
        · intro h; cases h; exact h3
        · intro hw
          cases e with
          | notPreSerialized => exact h3.elim
          | null => exact absurd (hw v (Or.inr hl)) h3
          | other e => exact absurd (hw v (Or.inr hl)) h3
      | ok i =>
        obtain ⟨is, his⟩ := depIndices_total s1 n.deps (fun d hd' => h2 d (hd d hd'))
        simp only [his]
        exact ⟨_, _, rfl, h2.trans (hadd s1 _).1, by simp, fun _ => rfl, fun _ => (hadd s1 _).2⟩

theorem encodeNodes_total {S : V → Prop} {rank : V → Nat} {R : Nat} {rec : Item V A → Enc V A X → Res V A X E Nat}
    (hr : TotalVal S rank R rec) : ∀ (rest done : List (Ex V A)) (s : Enc V A X),
    (∀ n ∈ rest, ∀ w, Uses n w → rank w < R) → (∀ n ∈ done, (assoc s.exprs n).isSome) →
    (∀ i n, (done ++ rest)[i]? = some n → ∀ d ∈ n.deps, d ∈ (done ++ rest).take i) →
    ∃ s' r, encodeNodes rec rest s = some (s', r) ∧ KeepsExprs s s' ∧ r ≠ .error .notPreSerialized ∧
      ((∀ n ∈ rest, ∀ w, Uses n w → S w) → r = .ok ()) ∧ (r = .ok () → ∀ n ∈ done ++ rest, (assoc s'.exprs n).isSome) := by
  intro rest
  induction rest with
  | nil =>
    intro done s _ hdone _
    exact ⟨s, _, rfl, fun _ h => h, by simp, fun _ => rfl, fun _ n hn => hdone n (by simpa using hn)⟩
  | cons n rest ih =>
    intro done s hu hdone hord
    have hdeps : ∀ d ∈ n.deps, (assoc s.exprs d).isSome := by
      intro d hd
      have := hord done.length n (by simp) d hd
      rw [List.take_append_of_le_length (by simp), List.take_length] at this
      exact hdone d this
    obtain ⟨s1, r1, h1, h2, h3, h4, h5⟩ := encodeNode_total hr n (hu n (by simp)) s hdeps
    simp only [encodeNodes, h1]
    cases r1 with
    | error e =>
      refine ⟨s1, _, rfl, h2, ?_, ?_, by simp⟩
      · intro h; cases h; exact h3 rfl
      · intro hw
        have := h4 (hw n (by simp))
        cases this
    | ok u =>
      obtain ⟨s2, r2, g1, g2, g3, g4, g5⟩ := ih (done ++ [n]) s1 (fun m hm => hu m (by simp [hm]))
        (by intro m hm
            rcases List.mem_append.1 hm with h | h
            · exact h2 m (hdone m h)
            · rw [List.mem_singleton.1 h]; exact h5 rfl)
        (by simpa [List.append_assoc] using hord)
      refine ⟨s2, r2, g1, h2.trans g2, g3, fun hw => g4 (fun m hm => hw m (by simp [hm])), ?_⟩
      intro h m hm
      exact g5 h m (by simpa [List.append_assoc] using hm)

theorem visitorOrder_ordered (e : Ex V A) : ∃ nodes, visitorOrder e = some nodes ∧ (∀ n, n ∈ nodes ↔ Sub n e) ∧ nodes.Nodup ∧
    ∀ (i : Nat) (n : Ex V A), nodes[i]? = some n → ∀ d ∈ n.deps, d ∈ nodes.take i := by
  obtain ⟨po, h1, h2⟩ := visitor_order e
  obtain ⟨po', h3, h4, h5, _, h7, _⟩ := post_order e
  rw [h1] at h3
  cases h3
  refine ⟨_, h2, h5, h4, ?_⟩
  intro i n hi d hd
  obtain ⟨ix, _, h8, h9⟩ := h7 i n hi
  have : some d ∈ ix.map (fun k => po.nodes[k]?) := by rw [h8]; exact List.mem_map.2 ⟨d, hd, rfl⟩
  obtain ⟨k, hk, hkd⟩ := List.mem_map.1 this
  have hlt := h9 k hk
  rw [List.mem_take_iff_getElem]
  have hlen : k < po.nodes.length := (List.getElem?_eq_some_iff.1 hkd).1
  exact ⟨k, by omega, (List.getElem?_eq_some_iff.1 hkd).2⟩

theorem exprIndex_total {S : V → Prop} {rank : V → Nat} {R : Nat} {rec : Item V A → Enc V A X → Res V A X E Nat}
    (hr : TotalVal S rank R rec) (e : Ex V A) (he : ∀ n w, Sub n e → Uses n w → rank w < R) (s : Enc V A X) :
    ∃ s' r, exprIndex rec e s = some (s', r) ∧ KeepsExprs s s' ∧ FromPlan S (.expr (some e)) r := by
  unfold exprIndex
  cases ha : assoc s.exprs e with
  | some i => exact ⟨s, _, rfl, fun _ h => h, trivial⟩
  | none =>
    obtain ⟨nodes, hn1, hn2, _, hn3⟩ := visitorOrder_ordered e
    simp only [hn1]
    obtain ⟨s1, r1, h1, h2, h3, h4, h5⟩ := encodeNodes_total hr nodes [] { s with nesting := s.nesting + 1 }
      (fun n hn w hw => he n w ((hn2 n).1 hn) hw) (by simp) (by simpa using hn3)
    simp only [h1]
    cases r1 with
    | error err =>
      refine ⟨_, _, rfl, h2, ?_⟩
      have hne : ¬ Within S (.expr (some e) : Item V A) := by
        intro hw
        have := h4 (fun n hn w hu => hw n w ((hn2 n).1 hn) hu)
        cases this
      cases err with
      | notPreSerialized => exact h3 rfl
      | null => exact hne
      | other _ => exact hne
    | ok u =>
      obtain ⟨i, hi⟩ := Option.isSome_iff_exists.1 (h5 rfl e (by simpa using (hn2 e).2 (.refl e)))
      simp only [hi]
      exact ⟨_, _, rfl, h2, trivial⟩

theorem encode_expr_total {plan : V → Plan V A X E} {S : V → Prop} {rank : V → Nat} {R fuel : Nat}
    (hr : TotalVal S rank R (encode plan fuel)) (e : Option (Ex V A)) (s : Enc V A X) (he : Below rank R (.expr e)) :
    ∃ s' r, encode plan (fuel + 1) (.expr e) s = some (s', r) ∧ KeepsExprs s s' ∧ FromPlan S (.expr e) r := by
  cases e with
  | none => exact ⟨s, _, rfl, fun _ h => h, fun h => h⟩
  | some e =>
    obtain ⟨s1, r1, h1, h2, h3⟩ := exprIndex_total hr e he s
    simp only [encode, h1]
    cases r1 with
    | error err => exact ⟨s1, _, rfl, h2, by cases err <;> exact h3⟩
    | ok i =>
      refine ⟨_, _, rfl, ?_, trivial⟩
      intro e he
      have := h2 e he
      split <;> exact this

theorem encode_value_total {plan : V → Plan V A X E} {S : V → Prop} (hS : Closed plan S) {rank : V → Nat}
    (hf : Finite plan rank) : ∀ (R fuel : Nat), 2 * R ≤ fuel → TotalVal S rank R (encode plan fuel) := by
  intro R
  induction R with
  | zero => intro _ _ v s h; omega
  | succ R ih =>
    intro fuel hfuel v s hv
    obtain ⟨f, rfl⟩ : ∃ f, fuel = f + 2 := ⟨fuel - 2, by omega⟩
    have hrec : TotalRec S rank R (encode plan (f + 1)) := by
      intro x t hx
      cases x with
      | value w => exact ih (f + 1) (by omega) w t hx
      | expr e => exact encode_expr_total (ih f (by omega)) e t hx
    obtain ⟨s1, r1, h1, h2, h3⟩ := valueIndex_total hS hf hrec v hv s
    rw [show f + 2 = (f + 1) + 1 from rfl]
    rw [encode]
    simp only [h1]
    cases r1 with
    | error err => exact ⟨s1, _, rfl, h2, by cases err <;> exact h3⟩
    | ok i =>
      refine ⟨_, _, rfl, ?_, trivial⟩
      intro e he
      have := h2 e he
      split <;> exact this

theorem encode_total {plan : V → Plan V A X E} {S : V → Prop} (hS : Closed plan S) {rank : V → Nat} (hf : Finite plan rank)
    (R fuel : Nat) (h : 2 * R + 1 ≤ fuel) : TotalRec S rank R (encode plan fuel) := by
  intro x s hx
  cases x with
  | value v => exact encode_value_total hS hf R fuel (by omega) v s hx
  | expr e =>
    obtain ⟨f, rfl⟩ : ∃ f, fuel = f + 1 := ⟨fuel - 1, by omega⟩
    exact encode_expr_total (encode_value_total hS hf R f (by omega)) e s hx

end Verif.Serial
