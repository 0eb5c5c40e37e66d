import Verif.Forest.ForestSpec
import Mathlib.Data.List.Perm.Subperm
import Mathlib.Data.List.Nodup
import Mathlib.Tactic.ByContra

namespace Verif.Forest

variable {C A : Type}

theorem accepts_iff (f : Filter) (tag : Tag) : f.accepts tag = true ↔ f.Selects tag := by
  simp [Filter.accepts, Filter.Selects, and_assoc]

theorem childOk_iff (t : Tree C A) (r : Ref) :
    childOk t r = true ↔ (∀ i, r = .leaf i → i < t.adjustments.length) ∧ (∀ i, r = .split i → i < t.splits.length) := by
  cases r <;> simp [childOk]

/-- All children are in range. -/
def Closed (t : Tree C A) : Prop := ∀ n ∈ t.splits, childOk t n.ifFalse = true ∧ childOk t n.ifTrue = true

theorem closed_iff (t : Tree C A) : Closed t ↔
    (∀ n ∈ t.splits, ∀ i, (n.ifFalse = .leaf i ∨ n.ifTrue = .leaf i) → i < t.adjustments.length) ∧
    (∀ n ∈ t.splits, ∀ i, (n.ifFalse = .split i ∨ n.ifTrue = .split i) → i < t.splits.length) := by
  simp only [Closed, childOk_iff]
  constructor
  · intro h
    refine ⟨fun n hn i hi => ?_, fun n hn i hi => ?_⟩
    · rcases hi with hi | hi
      · exact (h n hn).1.1 i hi
      · exact (h n hn).2.1 i hi
    · rcases hi with hi | hi
      · exact (h n hn).1.2 i hi
      · exact (h n hn).2.2 i hi
  · rintro ⟨h1, h2⟩ n hn
    exact ⟨⟨fun i hi => h1 n hn i (.inl hi), fun i hi => h2 n hn i (.inl hi)⟩,
      ⟨fun i hi => h1 n hn i (.inr hi), fun i hi => h2 n hn i (.inr hi)⟩⟩

theorem wellFormed_iff (t : Tree C A) : WellFormed t ↔
    0 ≤ t.tag.submodel ∧ 0 ≤ t.tag.step ∧ t.adjustments.length = t.splits.length + 1 ∧ Closed t := by
  rw [closed_iff]
  exact ⟨fun h => ⟨h.submodel, h.step, h.regions, h.leaf, h.split⟩, fun ⟨a, b, c, d, e⟩ => ⟨a, b, c, d, e⟩⟩

theorem root_ok {t : Tree C A} (h : t.adjustments.length = t.splits.length + 1) : childOk t t.root = true := by
  unfold Tree.root
  split
  · simp [childOk]; omega
  · rename_i hne
    cases hs : t.splits with
    | nil => simp [hs] at hne
    | cons a l => simp [childOk, hs]

/-! ### The walk -/

theorem walk_safe {ev : C → Bool} {t : Tree C A} (hc : Closed t) :
    ∀ (fuel : Nat) (r : Ref), childOk t r = true →
      walk ev t fuel r ≠ .outOfBounds ∧ ∀ i, walk ev t fuel r = .leaf i → Path ev t r i ∧ i < t.adjustments.length := by
  intro fuel
  induction fuel with
  | zero =>
    intro r hr
    cases r with
    | leaf i =>
      refine ⟨by simp [walk], fun j hj => ?_⟩
      simp only [walk, Walk.leaf.injEq] at hj
      subst hj
      exact ⟨.leaf i, by simpa [childOk] using hr⟩
    | split k => simp [walk]
  | succ fuel ih =>
    intro r hr
    cases r with
    | leaf i =>
      refine ⟨by simp [walk], fun j hj => ?_⟩
      simp only [walk, Walk.leaf.injEq] at hj
      subst hj
      exact ⟨.leaf i, by simpa [childOk] using hr⟩
    | split k =>
      have hk : k < t.splits.length := by simpa [childOk] using hr
      have hn : t.splits[k]? = some t.splits[k] := List.getElem?_eq_getElem hk
      have hcn := hc _ (List.getElem_mem hk)
      simp only [walk, hn]
      by_cases he : ev t.splits[k].cond = true
      · simp only [he, if_true]
        have h := ih _ hcn.2
        exact ⟨h.1, fun i hi => ⟨.yes hn he (h.2 i hi).1, (h.2 i hi).2⟩⟩
      · simp only [he]
        have h := ih _ hcn.1
        exact ⟨h.1, fun i hi => ⟨.no hn (by simpa using he) (h.2 i hi).1, (h.2 i hi).2⟩⟩

theorem path_unique {ev : C → Bool} {t : Tree C A} {r : Ref} {i j : Nat}
    (h1 : Path ev t r i) (h2 : Path ev t r j) : i = j := by
  induction h1 with
  | leaf i => cases h2; rfl
  | yes hn he _ ih =>
    cases h2 with
    | yes hn' he' h => rw [hn] at hn'; cases hn'; exact ih h
    | no hn' he' h => rw [hn] at hn'; cases hn'; simp [he] at he'
  | no hn he _ ih =>
    cases h2 with
    | yes hn' he' h => rw [hn] at hn'; cases hn'; simp [he] at he'
    | no hn' he' h => rw [hn] at hn'; cases hn'; exact ih h

theorem walk_of_path {ev : C → Bool} {t : Tree C A} {r : Ref} {i : Nat} (h : Path ev t r i) :
    ∃ n, ∀ fuel, n ≤ fuel → walk ev t fuel r = .leaf i := by
  induction h with
  | leaf i => exact ⟨0, fun fuel _ => by cases fuel <;> rfl⟩
  | yes hn he _ ih =>
    obtain ⟨n, hn'⟩ := ih
    refine ⟨n + 1, fun fuel hf => ?_⟩
    obtain ⟨f, rfl⟩ : ∃ f, fuel = f + 1 := ⟨fuel - 1, by omega⟩
    simp only [walk, hn, he, if_true]
    exact hn' f (by omega)
  | no hn he _ ih =>
    obtain ⟨n, hn'⟩ := ih
    refine ⟨n + 1, fun fuel hf => ?_⟩
    obtain ⟨f, rfl⟩ : ∃ f, fuel = f + 1 := ⟨fuel - 1, by omega⟩
    simp only [walk, hn, he]
    exact hn' f (by omega)

/-! ### Chains of split nodes and termination -/

theorem below_trans {t : Tree C A} {a b c : Nat} (h1 : Below t a b) (h2 : Below t b c) : Below t a c := by
  induction h2 with
  | child h => exact .step h1 h
  | step _ h ih => exact .step ih h

theorem child_lt {t : Tree C A} (hc : Closed t) {k j : Nat} (h : Child t k j) : j < t.splits.length := by
  obtain ⟨n, hn, h⟩ := h
  have := hc n (List.mem_of_getElem? hn)
  simp only [childOk_iff] at this
  rcases h with h | h
  · exact this.1.2 j h
  · exact this.2.2 j h

/-- A chain of `Child` steps in an acyclic tree is not longer than the number of split nodes. -/
theorem chain_length {t : Tree C A} (hc : Closed t) (ha : Acyclic t) {l : List Nat}
    (hl : l.IsChain (Child t)) (hr : ∀ k ∈ l.head?, k < t.splits.length ∧ (k = 0 ∨ Below t 0 k)) :
    l.length ≤ t.splits.length := by
  have hbelow : ∀ (l : List Nat), l.IsChain (Child t) → (∀ k ∈ l.head?, k < t.splits.length ∧ (k = 0 ∨ Below t 0 k)) →
      (∀ x ∈ l, x < t.splits.length ∧ (x = 0 ∨ Below t 0 x)) ∧ l.Pairwise (Below t) := by
    intro l
    induction l with
    | nil => intro _ _; simp
    | cons a l ih =>
      intro hl hr
      have ha' := hr a (by simp)
      have hl' : l.IsChain (Child t) := by cases l with
        | nil => simp
        | cons c l => exact (List.isChain_cons_cons.1 hl).2
      have hstep : ∀ b ∈ l.head?, Child t a b := by
        intro b hb
        cases l with
        | nil => simp at hb
        | cons c l =>
          simp only [List.head?_cons, Option.mem_def, Option.some.injEq] at hb
          subst hb
          exact (List.isChain_cons_cons.1 hl).1
      have h := ih hl' (fun b hb => ⟨child_lt hc (hstep b hb), .inr (by
        rcases ha'.2 with h0 | h0
        · exact .child (h0 ▸ hstep b hb)
        · exact .step h0 (hstep b hb))⟩)
      refine ⟨?_, ?_⟩
      · intro x hx
        rcases List.mem_cons.1 hx with rfl | hx
        · exact ha'
        · exact h.1 x hx
      · refine List.pairwise_cons.2 ⟨?_, h.2⟩
        intro x hx
        cases l with
        | nil => simp at hx
        | cons c l =>
          have hac : Below t a c := .child (hstep c (by simp))
          rcases List.mem_cons.1 hx with rfl | hx
          · exact hac
          · exact below_trans hac ((List.pairwise_cons.1 h.2).1 x hx)
  obtain ⟨hmem, hpw⟩ := hbelow l hl hr
  have hnd : l.Nodup := by
    refine (List.Pairwise.and_mem.1 hpw).imp ?_
    rintro a b ⟨ham, _, hab⟩ rfl
    rcases (hmem a ham).2 with h0 | h0
    · subst h0; exact ha.1 hab
    · exact ha.2 a h0 hab
  have hsub : l ⊆ List.range t.splits.length := fun x hx => List.mem_range.2 (hmem x hx).1
  simpa using (List.Nodup.subperm hnd hsub).length_le

theorem walk_running_chain {ev : C → Bool} {t : Tree C A} :
    ∀ (fuel : Nat) (k : Nat), walk ev t fuel (.split k) = .running →
      ∃ l : List Nat, l.length = fuel + 1 ∧ l.head? = some k ∧ l.IsChain (Child t) := by
  intro fuel
  induction fuel with
  | zero => intro k _; exact ⟨[k], rfl, rfl, by simp⟩
  | succ fuel ih =>
    intro k h
    simp only [walk] at h
    split at h
    · simp at h
    · rename_i n hn
      generalize hr : (if ev n.cond = true then n.ifTrue else n.ifFalse) = r at h
      have hmem : n.ifFalse = r ∨ n.ifTrue = r := by
        split at hr
        · exact .inr hr
        · exact .inl hr
      cases r with
      | leaf i => cases fuel <;> simp [walk] at h
      | split j =>
        obtain ⟨l, h1, h2, h3⟩ := ih j h
        cases l with
        | nil => simp at h2
        | cons b l =>
          simp only [List.head?_cons, Option.some.injEq] at h2
          subst h2
          exact ⟨k :: b :: l, by simp at h1 ⊢; omega, rfl, List.isChain_cons_cons.2 ⟨⟨n, hn, hmem⟩, h3⟩⟩

theorem walk_terminates {ev : C → Bool} {t : Tree C A} (hw : WellFormed t) (ha : Acyclic t) {fuel : Nat}
    (hf : t.splits.length ≤ fuel) :
    ∃ i, walk ev t fuel t.root = .leaf i ∧ Path ev t t.root i ∧ i < t.adjustments.length := by
  obtain ⟨-, -, hreg, hc⟩ := (wellFormed_iff t).1 hw
  have hs := walk_safe (ev := ev) hc fuel t.root (root_ok hreg)
  cases hwk : walk ev t fuel t.root with
  | leaf i => exact ⟨i, rfl, hs.2 i hwk⟩
  | outOfBounds => exact absurd hwk hs.1
  | running =>
    exfalso
    by_cases he : t.splits.isEmpty = true
    · simp only [Tree.root, he, if_true] at hwk
      cases fuel <;> simp [walk] at hwk
    · simp only [Tree.root, he] at hwk
      obtain ⟨l, h1, h2, h3⟩ := walk_running_chain fuel 0 hwk
      have hpos : 0 < t.splits.length := by
        cases h : t.splits with
        | nil => simp [h] at he
        | cons a l => simp
      have := chain_length hc ha h3 (by
        intro k hk
        rw [h2] at hk
        cases hk
        exact ⟨hpos, .inl rfl⟩)
      omega

/-! ### `Initialize` -/

variable {Q : Type} [DecidableEq Q]

/-- The map has one type for every input. -/
def KeysOk (req : List (Nat × Q)) : Prop := (req.map Prod.fst).Nodup

/-- No input is used with two types. -/
def Consistent (req : List (Nat × Q)) : Prop := ∀ id q q', (id, q) ∈ req → (id, q') ∈ req → q = q'

theorem find_key {req : List (Nat × Q)} {id : Nat} {e : Nat × Q}
    (h : req.find? (fun e => e.1 == id) = some e) : e ∈ req ∧ e.1 = id :=
  ⟨List.mem_of_find?_eq_some h, by simpa using List.find?_some h⟩

theorem addSignatures_spec : ∀ (sigs req : List (Nat × Q)), Consistent req → KeysOk req →
    (∀ req', addSignatures sigs req = .ok req' →
      Consistent (req ++ sigs) ∧ KeysOk req' ∧ ∀ e, e ∈ req' ↔ e ∈ req ++ sigs) ∧
    (∀ e, addSignatures sigs req = .error e → e = .types ∧ ¬ Consistent (req ++ sigs)) := by
  intro sigs
  induction sigs with
  | nil =>
    intro req hc hk
    refine ⟨fun req' h => ?_, fun e h => by simp [addSignatures] at h⟩
    simp only [addSignatures, Except.ok.injEq] at h
    subst h
    simp [hc, hk]
  | cons s rest ih =>
    obtain ⟨id, q⟩ := s
    intro req hc hk
    simp only [addSignatures]
    cases hf : req.find? (fun e => e.1 == id) with
    | some e =>
      obtain ⟨id', q'⟩ := e
      obtain ⟨hm, rfl⟩ := find_key hf
      by_cases hq : q' = q
      · subst hq
        simp only [ne_eq, not_true, if_false]
        have hset : ∀ e : Nat × Q, e ∈ req ++ (id', q') :: rest ↔ e ∈ req ++ rest := by
          intro e
          simp only [List.mem_append, List.mem_cons]
          constructor
          · rintro (h | rfl | h)
            · exact .inl h
            · exact .inl hm
            · exact .inr h
          · rintro (h | h)
            · exact .inl h
            · exact .inr (.inr h)
        have hcons : Consistent (req ++ (id', q') :: rest) ↔ Consistent (req ++ rest) := by
          simp only [Consistent, hset]
        obtain ⟨h1, h2⟩ := ih req hc hk
        refine ⟨fun req' h => ?_, fun e h => ?_⟩
        · obtain ⟨a, b, c⟩ := h1 req' h
          exact ⟨hcons.2 a, b, fun e => (c e).trans (hset e).symm⟩
        · obtain ⟨a, b⟩ := h2 e h
          exact ⟨a, fun h => b (hcons.1 h)⟩
      · simp only [ne_eq, hq, not_false_eq_true, if_true]
        refine ⟨fun req' h => by simp at h, fun e h => ?_⟩
        simp only [Except.error.injEq] at h
        refine ⟨h.symm, fun hcons => hq (hcons id' q' q ?_ ?_)⟩
        · simp [hm]
        · simp
    | none =>
      simp only
      have hnone : ∀ e ∈ req, e.1 ≠ id := by simpa using hf
      have hc' : Consistent (req ++ [(id, q)]) := by
        intro i a b ha hb
        simp only [List.mem_append, List.mem_singleton, Prod.mk.injEq] at ha hb
        rcases ha with ha | ⟨rfl, rfl⟩ <;> rcases hb with hb | ⟨h1, h2⟩
        · exact hc i a b ha hb
        · exact absurd h1 (hnone _ ha)
        · exact absurd rfl (hnone _ hb)
        · exact h2.symm
      have hk' : KeysOk (req ++ [(id, q)]) := by
        simp only [KeysOk, List.map_append, List.map_cons, List.map_nil]
        refine List.nodup_append.2 ⟨hk, by simp, ?_⟩
        intro a ha b hb
        simp only [List.mem_singleton] at hb
        subst hb
        obtain ⟨e, he, rfl⟩ := List.mem_map.1 ha
        exact hnone e he
      have := ih (req ++ [(id, q)]) hc' hk'
      simpa [List.append_assoc] using this

theorem initNodes_spec (sig : C → List (Nat × Q)) (t : Tree C A) :
    ∀ (nodes : List (SplitNode C)) (req : List (Nat × Q)), Consistent req → KeysOk req →
    (∀ req', initNodes sig t nodes req = .ok req' →
      (∀ n ∈ nodes, childOk t n.ifFalse = true ∧ childOk t n.ifTrue = true) ∧
      Consistent (req ++ nodes.flatMap fun n => sig n.cond) ∧ KeysOk req' ∧
      ∀ e, e ∈ req' ↔ e ∈ req ++ nodes.flatMap fun n => sig n.cond) ∧
    (∀ e, initNodes sig t nodes req = .error e →
      ¬ ((∀ n ∈ nodes, childOk t n.ifFalse = true ∧ childOk t n.ifTrue = true) ∧
      Consistent (req ++ nodes.flatMap fun n => sig n.cond))) := by
  intro nodes
  induction nodes with
  | nil =>
    intro req hc hk
    refine ⟨fun req' h => ?_, fun e h => by simp [initNodes] at h⟩
    simp only [initNodes, Except.ok.injEq] at h
    subst h
    simp [hc, hk]
  | cons n rest ih =>
    intro req hc hk
    simp only [initNodes]
    by_cases hch : (childOk t n.ifFalse && childOk t n.ifTrue) = true
    · rw [if_neg (not_not.2 hch)]
      have hch' : childOk t n.ifFalse = true ∧ childOk t n.ifTrue = true := by simpa using hch
      have hs := addSignatures_spec (sig n.cond) req hc hk
      cases ha : addSignatures (sig n.cond) req with
      | error e =>
        refine ⟨fun req' h => by simp at h, fun e' h hh => (hs.2 e ha).2 ?_⟩
        intro i a b h1 h2
        exact hh.2 i a b (by simp only [List.flatMap_cons, ← List.append_assoc]; exact List.mem_append_left _ h1)
          (by simp only [List.flatMap_cons, ← List.append_assoc]; exact List.mem_append_left _ h2)
      | ok req1 =>
        obtain ⟨h1, h2, h3⟩ := hs.1 req1 ha
        have hc1 : Consistent req1 := by
          intro i a b ha' hb'
          exact h1 i a b ((h3 _).1 ha') ((h3 _).1 hb')
        have hset : ∀ e : Nat × Q, e ∈ req1 ++ rest.flatMap (fun n => sig n.cond) ↔
            e ∈ req ++ (n :: rest).flatMap (fun n => sig n.cond) := by
          intro e
          simp only [List.mem_append, h3, List.flatMap_cons]
          simp only [or_assoc]
        have hcons : Consistent (req1 ++ rest.flatMap (fun n => sig n.cond)) ↔
            Consistent (req ++ (n :: rest).flatMap (fun n => sig n.cond)) := by
          simp only [Consistent, hset]
        obtain ⟨g1, g2⟩ := ih req1 hc1 h2
        refine ⟨fun req' h => ?_, fun e h hh => g2 e h ⟨fun m hm => hh.1 m (List.mem_cons_of_mem _ hm), hcons.2 hh.2⟩⟩
        obtain ⟨a, b, c, d⟩ := g1 req' h
        refine ⟨?_, hcons.1 b, c, fun e => (d e).trans (hset e)⟩
        intro m hm
        rcases List.mem_cons.1 hm with rfl | hm
        · exact hch'
        · exact a m hm
    · rw [if_pos hch]
      refine ⟨fun req' h => by simp at h, fun e _ hh => hch ?_⟩
      have := hh.1 n (by simp)
      simp [this.1, this.2]

/-- The signatures of all conditions in the forest. -/
def allSigs (sig : C → List (Nat × Q)) (trees : List (Tree C A)) : List (Nat × Q) :=
  trees.flatMap fun t => t.splits.flatMap fun n => sig n.cond

theorem mem_allSigs (sig : C → List (Nat × Q)) (trees : List (Tree C A)) (id : Nat) (q : Q) :
    (id, q) ∈ allSigs sig trees ↔ Uses sig trees id q := by
  simp [allSigs, Uses]

theorem initTrees_spec (sig : C → List (Nat × Q)) :
    ∀ (trees : List (Tree C A)) (m : Meta Q), Consistent m.required → KeysOk m.required →
    (∀ m', initTrees sig trees m = .ok m' →
      (∀ t ∈ trees, WellFormed t) ∧ Consistent (m.required ++ allSigs sig trees) ∧ KeysOk m'.required ∧
      (∀ e, e ∈ m'.required ↔ e ∈ m.required ++ allSigs sig trees) ∧
      m'.submodelCount = trees.foldl (fun c t => max c (t.tag.submodel + 1)) m.submodelCount ∧
      m'.stepCount = trees.foldl (fun c t => max c (t.tag.step + 1)) m.stepCount) ∧
    (∀ e, initTrees sig trees m = .error e →
      ¬ ((∀ t ∈ trees, WellFormed t) ∧ Consistent (m.required ++ allSigs sig trees))) := by
  intro trees
  induction trees with
  | nil =>
    intro m hc hk
    refine ⟨fun m' h => ?_, fun e h => by simp [initTrees] at h⟩
    simp only [initTrees, Except.ok.injEq] at h
    subst h
    simp [allSigs, hc, hk]
  | cons t rest ih =>
    intro m hc hk
    have hflat : allSigs sig (t :: rest) = (t.splits.flatMap fun n => sig n.cond) ++ allSigs sig rest := by
      simp [allSigs]
    have hn := initNodes_spec sig t t.splits m.required hc hk
    simp only [initTrees]
    cases hi : initTree sig m t with
    | error e =>
      refine ⟨fun m' h => by simp at h, fun e' _ hh => ?_⟩
      obtain ⟨w1, w2, w3, w4⟩ := (wellFormed_iff t).1 (hh.1 t (by simp))
      simp only [initTree] at hi
      rw [if_neg (by omega), if_neg (by omega), if_neg (by omega)] at hi
      split at hi
      · rename_i e'' hin
        refine hn.2 e'' hin ⟨w4, ?_⟩
        intro i a b h1 h2
        refine hh.2 i a b ?_ ?_ <;> rw [hflat, ← List.append_assoc]
        · exact List.mem_append_left _ h1
        · exact List.mem_append_left _ h2
      · simp at hi
    | ok m1 =>
      simp only [initTree] at hi
      split at hi
      · simp at hi
      split at hi
      · simp at hi
      split at hi
      · simp at hi
      split at hi
      · simp at hi
      rename_i w1 w2 w3 req hin
      simp only [Except.ok.injEq] at hi
      obtain ⟨a, b, c, d⟩ := hn.1 req hin
      have hreq : m1.required = req := by rw [← hi]
      have hwf : WellFormed t := (wellFormed_iff t).2 ⟨by omega, by omega, by omega, a⟩
      have hc1 : Consistent m1.required := by
        rw [hreq]
        intro i x y hx hy
        exact b i x y ((d _).1 hx) ((d _).1 hy)
      have hset : ∀ e : Nat × Q, e ∈ m1.required ++ allSigs sig rest ↔ e ∈ m.required ++ allSigs sig (t :: rest) := by
        intro e
        rw [hreq, hflat]
        simp only [List.mem_append, d, or_assoc]
      have hcons : Consistent (m1.required ++ allSigs sig rest) ↔ Consistent (m.required ++ allSigs sig (t :: rest)) := by
        simp only [Consistent, hset]
      obtain ⟨g1, g2⟩ := ih m1 hc1 (by rw [hreq]; exact c)
      refine ⟨fun m' h => ?_, fun e h hh => g2 e h ⟨fun u hu => hh.1 u (List.mem_cons_of_mem _ hu), hcons.2 hh.2⟩⟩
      obtain ⟨x1, x2, x3, x4, x5, x6⟩ := g1 m' h
      refine ⟨?_, hcons.1 x2, x3, fun e => (x4 e).trans (hset e), ?_, ?_⟩
      · intro u hu
        rcases List.mem_cons.1 hu with rfl | hu
        · exact hwf
        · exact x1 u hu
      · rw [x5, ← hi]; rfl
      · rw [x6, ← hi]; rfl

theorem foldl_max_le (f : Tree C A → Int) : ∀ (trees : List (Tree C A)) (c : Int),
    c ≤ trees.foldl (fun c t => max c (f t)) c ∧ (∀ t ∈ trees, f t ≤ trees.foldl (fun c t => max c (f t)) c) ∧
    (trees.foldl (fun c t => max c (f t)) c = c ∨ ∃ t ∈ trees, trees.foldl (fun c t => max c (f t)) c = f t) := by
  intro trees
  induction trees with
  | nil => intro c; simp
  | cons t rest ih =>
    intro c
    obtain ⟨h1, h2, h3⟩ := ih (max c (f t))
    simp only [List.foldl_cons]
    refine ⟨by omega, ?_, ?_⟩
    · intro u hu
      rcases List.mem_cons.1 hu with rfl | hu
      · omega
      · exact h2 u hu
    · rcases h3 with h3 | ⟨u, hu, h3⟩
      · rw [h3]
        rcases Int.le_total c (f t) with h | h
        · right; exact ⟨t, by simp, by omega⟩
        · left; omega
      · right; exact ⟨u, List.mem_cons_of_mem _ hu, h3⟩

end Verif.Forest
