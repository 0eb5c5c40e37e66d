import Verif.Forest.ObliviousModel
import Verif.Forest.ProperLemmas

/-!
# Lemmas about `ToObliviousTree`
-/

namespace Verif.Forest

variable {C A M : Type}

/-- The tree has all leaves at depth `n`, and the conditions at depth `i` agree with entry `i` of the list. -/
def BT.Perfect (agree : C → C → Prop) : List C → BT C A → Prop
  | [], .leaf _ => True
  | [], .node _ _ _ => False
  | _ :: _, .leaf _ => False
  | c :: cs, .node c' f g => agree c c' ∧ f.Perfect agree cs ∧ g.Perfect agree cs

/-- The traversal as a recursion: the layers afterwards and the tree seen. -/
def recObl (condEq : C → C → Bool) (t : Tree C A) : Nat → Nat → Ref → List C → Option (List C × BT C A)
  | 0, _, .leaf i, layers => (t.adjustments[i]?).map fun a => (layers, .leaf a)
  | _ + 1, _, .leaf _, _ => none
  | 0, _, .split _, _ => none
  | k + 1, d, .split j, layers =>
    match t.splits[j]? with
    | none => none
    | some n =>
      let next (layers : List C) : Option (List C × BT C A) :=
        match recObl condEq t k (d + 1) n.ifFalse layers with
        | none => none
        | some (layers, f) =>
          match recObl condEq t k (d + 1) n.ifTrue layers with
          | none => none
          | some (layers, g) => some (layers, .node n.cond f g)
      if layers.length = d then next (layers ++ [n.cond])
      else
        match layers[d]? with
        | none => none
        | some c => if condEq c n.cond then next layers else none

/-- The number of nodes of a tree of depth `k`. -/
def cost : Nat → Nat
  | 0 => 1
  | k + 1 => 1 + cost k + cost k

theorem recObl_prefix (condEq : C → C → Bool) (t : Tree C A) : ∀ (k d : Nat) (r : Ref) (layers layers' : List C) (b : BT C A),
    recObl condEq t k d r layers = some (layers', b) → d ≤ layers.length →
    layers <+: layers' ∧ layers'.length = max layers.length (d + k) := by
  intro k
  induction k with
  | zero =>
    intro d r layers layers' b h hd
    cases r with
    | leaf i =>
      simp only [recObl, Option.map_eq_some_iff] at h
      obtain ⟨a, -, h⟩ := h
      cases h
      exact ⟨List.prefix_refl _, by omega⟩
    | split j => simp [recObl] at h
  | succ k ih =>
    intro d r layers layers' b h hd
    cases r with
    | leaf i => simp [recObl] at h
    | split j =>
      simp only [recObl] at h
      cases hn : t.splits[j]? with
      | none => simp [hn] at h
      | some n =>
        simp only [hn] at h
        have key : ∀ L : List C, d + 1 ≤ L.length →
            (match recObl condEq t k (d + 1) n.ifFalse L with
              | none => none
              | some (layers, f) =>
                match recObl condEq t k (d + 1) n.ifTrue layers with
                | none => none
                | some (layers, g) => some (layers, BT.node n.cond f g)) = some (layers', b) →
            L <+: layers' ∧ layers'.length = max L.length (d + 1 + k) := by
          intro L hL h
          cases h1 : recObl condEq t k (d + 1) n.ifFalse L with
          | none => simp [h1] at h
          | some p =>
            obtain ⟨L1, f⟩ := p
            simp only [h1] at h
            obtain ⟨p1, l1⟩ := ih (d + 1) n.ifFalse L L1 f h1 hL
            cases h2 : recObl condEq t k (d + 1) n.ifTrue L1 with
            | none => simp [h2] at h
            | some p =>
              obtain ⟨L2, g⟩ := p
              simp only [h2, Option.some.injEq, Prod.mk.injEq] at h
              obtain ⟨p2, l2⟩ := ih (d + 1) n.ifTrue L1 L2 g h2 (by have := p1.length_le; omega)
              obtain ⟨rfl, -⟩ := h
              exact ⟨p1.trans p2, by omega⟩
        by_cases he : layers.length = d
        · rw [if_pos he] at h
          obtain ⟨p, l⟩ := key (layers ++ [n.cond]) (by simp; omega) h
          refine ⟨(List.prefix_append _ _).trans p, ?_⟩
          simp only [List.length_append, List.length_singleton] at l
          omega
        · rw [if_neg he] at h
          have hlt : d < layers.length := by omega
          simp only [List.getElem?_eq_getElem hlt] at h
          by_cases hc : condEq layers[d] n.cond = true
          · rw [if_pos hc] at h
            obtain ⟨p, l⟩ := key layers (by omega) h
            exact ⟨p, by omega⟩
          · rw [if_neg hc] at h; cases h

/-- What the traversal has checked. -/
theorem recObl_sound {condEq : C → C → Bool} {t : Tree C A} {agree : C → C → Prop} (hrefl : ∀ c, agree c c)
    (heq : ∀ a b, condEq a b = true → agree a b) : ∀ (k d : Nat) (r : Ref) (layers layers' : List C) (b : BT C A),
    recObl condEq t k d r layers = some (layers', b) → d ≤ layers.length →
    Denotes t r b ∧ b.Perfect agree ((layers'.drop d).take k) := by
  intro k
  induction k with
  | zero =>
    intro d r layers layers' b h hd
    cases r with
    | leaf i =>
      simp only [recObl, Option.map_eq_some_iff] at h
      obtain ⟨a, ha, h⟩ := h
      cases h
      exact ⟨.leaf ha, by simp [BT.Perfect]⟩
    | split j => simp [recObl] at h
  | succ k ih =>
    intro d r layers layers' b h hd
    cases r with
    | leaf i => simp [recObl] at h
    | split j =>
      have hpre := recObl_prefix condEq t (k + 1) d (.split j) layers layers' b h hd
      simp only [recObl] at h
      cases hn : t.splits[j]? with
      | none => simp [hn] at h
      | some n =>
        simp only [hn] at h
        have key : ∀ L : List C, d + 1 ≤ L.length → (∃ c, L[d]? = some c ∧ agree c n.cond) →
            (match recObl condEq t k (d + 1) n.ifFalse L with
              | none => none
              | some (layers, f) =>
                match recObl condEq t k (d + 1) n.ifTrue layers with
                | none => none
                | some (layers, g) => some (layers, BT.node n.cond f g)) = some (layers', b) →
            Denotes t (.split j) b ∧ b.Perfect agree ((layers'.drop d).take (k + 1)) := by
          intro L hL hcd h
          cases h1 : recObl condEq t k (d + 1) n.ifFalse L with
          | none => simp [h1] at h
          | some p =>
            obtain ⟨L1, f⟩ := p
            simp only [h1] at h
            have hp1 := recObl_prefix condEq t k (d + 1) n.ifFalse L L1 f h1 hL
            have hs1 := ih (d + 1) n.ifFalse L L1 f h1 hL
            cases h2 : recObl condEq t k (d + 1) n.ifTrue L1 with
            | none => simp [h2] at h
            | some p =>
              obtain ⟨L2, g⟩ := p
              simp only [h2, Option.some.injEq, Prod.mk.injEq] at h
              have hL1 : d + 1 ≤ L1.length := by have := hp1.1.length_le; omega
              have hp2 := recObl_prefix condEq t k (d + 1) n.ifTrue L1 L2 g h2 hL1
              have hs2 := ih (d + 1) n.ifTrue L1 L2 g h2 hL1
              obtain ⟨rfl, rfl⟩ := h
              refine ⟨.node hn hs1.1 hs2.1, ?_⟩
              obtain ⟨c, hc, hag⟩ := hcd
              have hc2 : L2[d]? = some c := by
                have hdl : d < L.length := by omega
                have := (hp1.1.trans hp2.1).getElem hdl
                rw [List.getElem?_eq_getElem hdl] at hc
                rw [List.getElem?_eq_getElem (by have := (hp1.1.trans hp2.1).length_le; omega)]
                rw [← hc, this]
              have hdrop : (L2.drop d).take (k + 1) = c :: (L2.drop (d + 1)).take k := by
                rw [List.drop_eq_getElem_cons (by have := (hp1.1.trans hp2.1).length_le; omega), List.take_succ_cons]
                congr 1
                rw [List.getElem?_eq_getElem (by have := (hp1.1.trans hp2.1).length_le; omega)] at hc2
                simpa using hc2
              rw [hdrop]
              refine ⟨hag, ?_, hs2.2⟩
              -- the layers at this depth were already complete after the false branch
              have hsame : (L1.drop (d + 1)).take k = (L2.drop (d + 1)).take k := by
                obtain ⟨s, rfl⟩ := hp2.1
                rw [List.drop_append_of_le_length hL1, List.take_append_of_le_length]
                rw [List.length_drop]
                omega
              rw [← hsame]
              exact hs1.2
        by_cases he : layers.length = d
        · rw [if_pos he] at h
          exact key (layers ++ [n.cond]) (by simp; omega) ⟨n.cond, by simp [← he], hrefl _⟩ h
        · rw [if_neg he] at h
          have hlt : d < layers.length := by omega
          simp only [List.getElem?_eq_getElem hlt] at h
          by_cases hc : condEq layers[d] n.cond = true
          · rw [if_pos hc] at h
            exact key layers (by omega) ⟨_, List.getElem?_eq_getElem hlt, heq _ _ hc⟩ h
          · rw [if_neg hc] at h; cases h

/-- The loop with the stack follows the recursion. -/
theorem traverse_rec (condEq : C → C → Bool) (scale : A → A → M) {t : Tree C A} (hc : Closed t) (depth : Nat) :
    ∀ (k d : Nat) (r : Ref) (stack : List (Ref × Nat)) (layers : List C) (adj : List M) (fuel : Nat),
      d + k = depth → childOk t r = true → d ≤ layers.length →
      (recObl condEq t k d r layers = none →
        traverse condEq scale t depth (cost k + fuel) ((r, d) :: stack) layers adj = some none) ∧
      (∀ layers' b, recObl condEq t k d r layers = some (layers', b) →
        traverse condEq scale t depth (cost k + fuel) ((r, d) :: stack) layers adj =
          traverse condEq scale t depth fuel stack layers' (adj ++ b.leaves.map (scale · t.weight))) := by
  intro k
  induction k with
  | zero =>
    intro d r stack layers adj fuel hd hr hl
    cases r with
    | leaf i =>
      simp only [childOk, decide_eq_true_eq] at hr
      refine ⟨fun h => by simp [recObl, hr] at h, fun layers' b h => ?_⟩
      simp only [recObl, List.getElem?_eq_getElem hr, Option.map_some, Option.some.injEq, Prod.mk.injEq] at h
      obtain ⟨rfl, rfl⟩ := h
      rw [cost, Nat.add_comm 1 fuel, traverse, if_neg (by omega)]
      simp [hr, BT.leaves]
    | split j =>
      refine ⟨fun _ => ?_, fun layers' b h => by simp [recObl] at h⟩
      rw [cost, Nat.add_comm 1 fuel, traverse, if_pos (by omega)]
  | succ k ih =>
    intro d r stack layers adj fuel hd hr hl
    cases r with
    | leaf i =>
      refine ⟨fun _ => ?_, fun layers' b h => by simp [recObl] at h⟩
      rw [cost, show 1 + cost k + cost k + fuel = (cost k + cost k + fuel) + 1 by omega, traverse, if_pos (by omega)]
    | split j =>
      simp only [childOk, decide_eq_true_eq] at hr
      have hch := hc _ (List.getElem_mem hr)
      rw [cost, show 1 + cost k + cost k + fuel = (cost k + (cost k + fuel)) + 1 by omega, traverse, if_neg (by omega)]
      simp only [recObl, List.getElem?_eq_getElem hr, Option.bind_eq_bind, Option.bind_some]
      generalize t.splits[j] = n at hch
      have key : ∀ L : List C, d + 1 ≤ L.length →
          ((match recObl condEq t k (d + 1) n.ifFalse L with
            | none => none
            | some (layers, f) =>
              match recObl condEq t k (d + 1) n.ifTrue layers with
              | none => none
              | some (layers, g) => some (layers, BT.node n.cond f g)) = none →
            traverse condEq scale t depth (cost k + (cost k + fuel)) ((n.ifFalse, d + 1) :: (n.ifTrue, d + 1) :: stack) L adj
              = some none) ∧
          ∀ layers' b, (match recObl condEq t k (d + 1) n.ifFalse L with
            | none => none
            | some (layers, f) =>
              match recObl condEq t k (d + 1) n.ifTrue layers with
              | none => none
              | some (layers, g) => some (layers, BT.node n.cond f g)) = some (layers', b) →
            traverse condEq scale t depth (cost k + (cost k + fuel)) ((n.ifFalse, d + 1) :: (n.ifTrue, d + 1) :: stack) L adj
              = traverse condEq scale t depth fuel stack layers' (adj ++ b.leaves.map (scale · t.weight)) := by
        intro L hL
        have i1 := ih (d + 1) n.ifFalse ((n.ifTrue, d + 1) :: stack) L adj (cost k + fuel) (by omega) hch.1 hL
        cases h1 : recObl condEq t k (d + 1) n.ifFalse L with
        | none => exact ⟨fun _ => i1.1 h1, fun _ _ h => by simp at h⟩
        | some p =>
          obtain ⟨L1, f⟩ := p
          have hp1 := recObl_prefix condEq t k (d + 1) n.ifFalse L L1 f h1 hL
          rw [i1.2 L1 f h1]
          have i2 := ih (d + 1) n.ifTrue stack L1 (adj ++ f.leaves.map (scale · t.weight)) fuel (by omega) hch.2
            (by have := hp1.1.length_le; omega)
          cases h2 : recObl condEq t k (d + 1) n.ifTrue L1 with
          | none => exact ⟨fun _ => i2.1 h2, fun _ _ h => by simp [h2] at h⟩
          | some p =>
            obtain ⟨L2, g⟩ := p
            refine ⟨fun h => by simp [h2] at h, fun layers' b h => ?_⟩
            simp only [h2, Option.some.injEq, Prod.mk.injEq] at h
            obtain ⟨rfl, rfl⟩ := h
            rw [i2.2 L2 g h2]
            simp [BT.leaves]
      by_cases he : layers.length = d
      · simp only [he, if_true]
        exact key _ (by simp; omega)
      · simp only [he, if_false]
        have hlt : d < layers.length := by omega
        simp only [List.getElem?_eq_getElem hlt, Option.bind_some]
        by_cases hq : condEq layers[d] n.cond = true
        · simp only [hq, Bool.not_true, Bool.false_eq_true, if_false, if_true]
          exact key _ (by omega)
        · simp only [Bool.not_eq_true] at hq
          simp [hq]

/-- A perfect tree with agreeing layers passes. -/
theorem recObl_complete {condEq : C → C → Bool} {t : Tree C A} (agree : C → C → Prop)
    (hsym : ∀ a b, agree a b → agree b a) (htr : ∀ a b c, agree a b → agree b c → agree a c)
    (heq : ∀ a b, agree a b → condEq a b = true) :
    ∀ (cs : List C) (d : Nat) (r : Ref) (layers : List C) (b : BT C A), Denotes t r b → b.Perfect agree cs →
      d ≤ layers.length → (∀ i, ∀ c, cs[i]? = some c → ∀ c', layers[d + i]? = some c' → agree c c') →
      ∃ layers', recObl condEq t cs.length d r layers = some (layers', b) ∧
        ∀ i, ∀ c, cs[i]? = some c → ∀ c', layers'[d + i]? = some c' → agree c c' := by
  intro cs
  induction cs with
  | nil =>
    intro d r layers b hb hp hd _
    cases hb with
    | leaf ha => exact ⟨layers, by simp [recObl, ha], by simp⟩
    | node => simp [BT.Perfect] at hp
  | cons c0 cs ih =>
    intro d r layers b hb hp hd hag
    cases hb with
    | leaf ha => simp [BT.Perfect] at hp
    | @node j n f g hn h1 h2 =>
      obtain ⟨hc0, hp1, hp2⟩ := hp
      have key : ∀ L : List C, d + 1 ≤ L.length → (∀ i, ∀ c, (c0 :: cs)[i]? = some c → ∀ c', L[d + i]? = some c' → agree c c') →
          ∃ layers', (match recObl condEq t cs.length (d + 1) n.ifFalse L with
            | none => none
            | some (layers, f) =>
              match recObl condEq t cs.length (d + 1) n.ifTrue layers with
              | none => none
              | some (layers, g) => some (layers, BT.node n.cond f g)) = some (layers', BT.node n.cond f g) ∧
            ∀ i, ∀ c, (c0 :: cs)[i]? = some c → ∀ c', layers'[d + i]? = some c' → agree c c' := by
        intro L hL hag
        obtain ⟨L1, e1, a1⟩ := ih (d + 1) n.ifFalse L f h1 hp1 hL (by
          intro i c hc c' hc'
          exact hag (i + 1) c hc c' (by rw [← hc']; congr 1; omega))
        have p1 := recObl_prefix condEq t cs.length (d + 1) n.ifFalse L L1 f e1 hL
        obtain ⟨L2, e2, a2⟩ := ih (d + 1) n.ifTrue L1 g h2 hp2 (by have := p1.1.length_le; omega) a1
        have p2 := recObl_prefix condEq t cs.length (d + 1) n.ifTrue L1 L2 g e2 (by have := p1.1.length_le; omega)
        refine ⟨L2, by simp [e1, e2], ?_⟩
        intro i c hc c' hc'
        cases i with
        | zero =>
          refine hag 0 c hc c' ?_
          simp only [Nat.add_zero] at hc' ⊢
          have hpre := p1.1.trans p2.1
          have hdl : d < L.length := by omega
          have := hpre.getElem hdl
          rw [List.getElem?_eq_getElem (by have := hpre.length_le; omega)] at hc'
          rw [List.getElem?_eq_getElem hdl, this]
          exact hc'
        | succ i => exact a2 i c (by simpa using hc) c' (by rw [← hc']; congr 1; omega)
      simp only [List.length_cons, recObl, hn]
      by_cases he : layers.length = d
      · rw [if_pos he]
        refine key _ (by simp; omega) ?_
        intro i c hc c' hc'
        cases i with
        | zero =>
          simp only [List.getElem?_cons_zero, Option.some.injEq] at hc
          subst hc
          simp only [Nat.add_zero, ← he, List.getElem?_concat_length, Option.some.injEq] at hc'
          subst hc'
          exact hc0
        | succ i =>
          rw [List.getElem?_eq_none (by simp; omega)] at hc'
          cases hc'
      · rw [if_neg he]
        have hlt : d < layers.length := by omega
        simp only [List.getElem?_eq_getElem hlt]
        have hq : condEq layers[d] n.cond = true :=
          heq _ _ (htr _ _ _ (hsym _ _ (hag 0 c0 rfl layers[d] (List.getElem?_eq_getElem hlt))) hc0)
        rw [if_pos hq]
        exact key layers (by omega) hag

theorem perfect_leaves {agree : C → C → Prop} : ∀ (cs : List C) (b : BT C A), b.Perfect agree cs →
    b.leaves.length = 2 ^ cs.length := by
  intro cs
  induction cs with
  | nil => intro b h; cases b with
    | leaf a => rfl
    | node => simp [BT.Perfect] at h
  | cons c cs ih =>
    intro b h
    cases b with
    | leaf a => simp [BT.Perfect] at h
    | node c' f g =>
      obtain ⟨-, h1, h2⟩ := h
      simp [BT.leaves, ih f h1, ih g h2, Nat.pow_succ]; omega

theorem isPowerOf2_pow (d : Nat) : isPowerOf2 (2 ^ d) = true := by
  simp [isPowerOf2, Nat.and_two_pow_sub_one_eq_mod]

theorem ctz_pow : ∀ (fuel d : Nat), d < fuel → ctz fuel (2 ^ d) = d := by
  intro fuel
  induction fuel with
  | zero => intro d h; omega
  | succ fuel ih =>
    intro d h
    cases d with
    | zero => simp [ctz]
    | succ d =>
      rw [ctz, if_neg (by rw [Nat.pow_succ]; omega), show 2 ^ (d + 1) / 2 = 2 ^ d by rw [Nat.pow_succ]; omega, ih d (by omega)]

theorem ctz32_pow {d : Nat} (h : d < 32) : ctz32 (2 ^ d) = some d := by
  have hlt : 2 ^ d < 2 ^ 32 := Nat.pow_lt_pow_right (by omega) h
  rw [ctz32, Nat.mod_eq_of_lt hlt, if_neg (by have := Nat.two_pow_pos d; omega), ctz_pow 32 d h]

end Verif.Forest
