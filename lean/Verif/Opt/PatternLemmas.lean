import Verif.Opt.PatternSpec
import Verif.Expr.TransformProps

/-!
# Compiling and matching patterns
-/

namespace Verif.Opt
open Verif.Expr
variable {O V A E N : Type} [DecidableEq O] [DecidableEq V] [DecidableEq A] [DecidableEq N]

theorem lookup_append {T : Type} (m : List (Expr O V A × T)) (n x : Expr O V A) (t : T) :
    lookup (m ++ [(n, t)]) x = (lookup m x).or (if n = x then some t else none) := by
  unfold lookup
  rw [List.find?_append]
  cases List.find? (fun e => decide (e.1 = x)) m with
  | some e => simp
  | none => by_cases h : n = x <;> simp [h]

/-- The layout of the memory: the dependencies of unfolded nodes follow each other. -/
def Lay (name : O → N) (M : List (Expr O V A)) : List (Nat × Nat × N) → Nat → Nat → Prop
  | [], next, fin => next = fin
  | (mi, ar, nm) :: acts, next, fin => mi < next ∧ (∃ node o, M[mi]? = some node ∧ node.label = .op o ∧
      nm = name o ∧ ar = node.deps.length ∧ ∀ t, t < ar → M[next + t]? = node.deps[t]?) ∧
      Lay name M acts (next + ar) fin

theorem Lay.le {name : O → N} {M : List (Expr O V A)} : ∀ {acts : List (Nat × Nat × N)} {next fin : Nat},
    Lay name M acts next fin → next ≤ fin := by
  intro acts
  induction acts with
  | nil => intro next fin h; exact Nat.le_of_eq h
  | cons a acts ih =>
    obtain ⟨mi, ar, nm⟩ := a
    intro next fin h
    have := ih h.2.2
    omega

theorem Lay.mono {name : O → N} {M L : List (Expr O V A)} : ∀ {acts : List (Nat × Nat × N)} {next fin : Nat},
    Lay name M acts next fin → fin ≤ M.length → Lay name (M ++ L) acts next fin := by
  intro acts
  induction acts with
  | nil => intro next fin h _; exact h
  | cons a acts ih =>
    obtain ⟨mi, ar, nm⟩ := a
    rintro next fin ⟨h1, ⟨node, o, h2, h3, h4, h5, h6⟩, h7⟩ hf
    have hle := h7.le
    refine ⟨h1, ⟨node, o, ?_, h3, h4, h5, ?_⟩, ih h7 hf⟩
    · rw [List.getElem?_append_left (List.getElem?_eq_some_iff.1 h2).1]; exact h2
    · intro t ht
      rw [List.getElem?_append_left (by omega)]; exact h6 t ht

theorem Lay.snoc {name : O → N} {M : List (Expr O V A)} {mi ar fin fin' : Nat} {nm : N} :
    ∀ {acts : List (Nat × Nat × N)} {next : Nat}, Lay name M acts next fin →
    Lay name M [(mi, ar, nm)] fin fin' → Lay name M (acts ++ [(mi, ar, nm)]) next fin' := by
  intro acts
  induction acts with
  | nil => intro next h h2; cases h; exact h2
  | cons a acts ih =>
    obtain ⟨mi, ar, nm⟩ := a
    rintro next ⟨h1, h2, h3⟩ h4
    exact ⟨h1, h2, ih h3 h4⟩

/-- State of the compilation after `i` nodes. -/
structure CInv (name : O → N) (ms : Matchers O V A) (src : Expr O V A) (i : Nat) (c : Comp O V A N) : Prop where
  le : i ≤ c.memory.length
  root : c.memory[0]? = some src
  lay : Lay name c.memory c.plan.unfold 1 c.memory.length
  seen : ∀ (j : Nat) n, j < i → c.memory[j]? = some n → ∃ s, lookup c.seen n = some s ∧ (s = j ∨ (j, s) ∈ c.plan.same)
  first : ∀ n s, lookup c.seen n = some s → c.memory[s]? = some n ∧ s < i ∧
    match n.label with
    | .literal _ => (s, n) ∈ c.plan.fixed
    | .placeholder k => ∀ p, findMatcher ms k = some p → (s, p) ∈ c.plan.preds
    | .op o => (s, n.deps.length, name o) ∈ c.plan.unfold ∧ ∀ d ∈ n.deps, d ∈ c.memory
    | .leaf _ => False
  fixed : ∀ a ∈ c.plan.fixed, c.memory[a.1]? = some a.2 ∧ ∃ v, a.2.label = .literal v
  same : ∀ a ∈ c.plan.same, ∃ n, c.memory[a.1]? = some n ∧ c.memory[a.2]? = some n
  preds : ∀ a ∈ c.plan.preds, ∃ n k, c.memory[a.1]? = some n ∧ n.label = .placeholder k ∧ findMatcher ms k = some a.2
  sub : ∀ n ∈ c.memory, Sub n src

theorem sub_of_dep {s n d : Expr O V A} (h : Sub n s) (hd : d ∈ n.deps) : Sub d s := by
  revert hd
  induction h with
  | refl => exact fun hd => .dep (.refl d) hd
  | dep _ h2 ih => exact fun hd => .dep (ih hd) h2

theorem getElem?_append_some {α : Type} {l l' : List α} {j : Nat} {a : α} (h : l[j]? = some a) :
    (l ++ l')[j]? = some a := by
  rw [List.getElem?_append_left (List.getElem?_eq_some_iff.1 h).1]; exact h

theorem compileStep_inv {name : O → N} {ms : Matchers O V A} {src node : Expr O V A} {i : Nat} {c c' : Comp O V A N}
    (h : CInv name ms src i c) (hi : c.memory[i]? = some node) (hs : compileStep (E := E) name ms i node c = .ok c') :
    CInv name ms src (i + 1) c' ∧ c'.memory = c.memory ++ (if (lookup c.seen node).isNone then node.deps else []) ∨
    CInv name ms src (i + 1) c' ∧ c'.memory = c.memory := by
  have hil := (List.getElem?_eq_some_iff.1 hi).1
  unfold compileStep at hs
  cases hl : lookup c.seen node with
  | some j =>
    rw [hl] at hs
    cases hs
    right
    refine ⟨⟨by show i + 1 ≤ c.memory.length; omega, h.root, h.lay, ?_, ?_, h.fixed, ?_, h.preds, h.sub⟩, rfl⟩
    · intro k n hk hn
      by_cases hki : k = i
      · subst hki
        have : n = node := by
          have hn' : c.memory[k]? = some n := hn
          rw [hi] at hn'; simpa using hn'.symm
        subst this
        exact ⟨j, hl, Or.inr (by simp)⟩
      · obtain ⟨s, h1, h2⟩ := h.seen k n (by omega) hn
        refine ⟨s, h1, h2.imp id (fun h => ?_)⟩
        exact List.mem_append_left _ h
    · intro n s hn
      obtain ⟨h1, h2, h3⟩ := h.first n s hn
      exact ⟨h1, by omega, h3⟩
    · intro a ha
      rcases List.mem_append.1 ha with ha | ha
      · exact h.same a ha
      · have : a = (i, j) := by simpa using ha
        subst this
        exact ⟨node, hi, (h.first node j hl).1⟩
  | none =>
    rw [hl] at hs
    dsimp only at hs
    have hseen' : ∀ n s, lookup (c.seen ++ [(node, i)]) n = some s ↔ lookup c.seen n = some s ∨ (n = node ∧ s = i) := by
      intro n s
      rw [lookup_append]
      by_cases hn : node = n
      · subst hn
        rw [hl]; simp [eq_comm]
      · rw [if_neg hn]
        have hn' : ¬ n = node := fun h => hn h.symm
        simp [hn']
    have hseenI : ∀ (k : Nat) n, k < i + 1 → c.memory[k]? = some n →
        ∃ s, lookup (c.seen ++ [(node, i)]) n = some s ∧ (s = k ∨ (k, s) ∈ c.plan.same) := by
      intro k n hk hn
      by_cases hki : k = i
      · subst hki
        have : n = node := by rw [hi] at hn; simpa using hn.symm
        subst this
        exact ⟨k, (hseen' _ _).2 (Or.inr ⟨rfl, rfl⟩), Or.inl rfl⟩
      · obtain ⟨s, h1, h2⟩ := h.seen k n (by omega) hn
        exact ⟨s, (hseen' _ _).2 (Or.inl h1), h2⟩
    cases hlab : node.label with
    | leaf k => rw [hlab] at hs; cases hs
    | literal v =>
      rw [hlab] at hs
      cases hs
      right
      refine ⟨⟨by show i + 1 ≤ c.memory.length; omega, h.root, h.lay, hseenI, ?_, ?_, h.same, h.preds, h.sub⟩, rfl⟩
      · intro n s hn
        rcases (hseen' n s).1 hn with hn | ⟨rfl, rfl⟩
        · obtain ⟨h1, h2, h3⟩ := h.first n s hn
          refine ⟨h1, by omega, ?_⟩
          cases hnl : n.label with
          | literal _ => rw [hnl] at h3; exact List.mem_append_left _ h3
          | placeholder k => rw [hnl] at h3; exact h3
          | op o => rw [hnl] at h3; exact h3
          | leaf k => rw [hnl] at h3; exact h3
        · refine ⟨hi, by omega, ?_⟩
          rw [hlab]
          show (s, n) ∈ c.plan.fixed ++ [(s, n)]
          simp
      · intro a ha
        rcases List.mem_append.1 ha with ha | ha
        · exact h.fixed a ha
        · have : a = (i, node) := by simpa using ha
          subst this
          exact ⟨hi, v, hlab⟩
    | placeholder k =>
      rw [hlab] at hs
      dsimp only at hs
      cases hf : findMatcher ms k with
      | none =>
        rw [hf] at hs
        cases hs
        right
        refine ⟨⟨by show i + 1 ≤ c.memory.length; omega, h.root, h.lay, hseenI, ?_, h.fixed, h.same, h.preds, h.sub⟩, rfl⟩
        intro n s hn
        rcases (hseen' n s).1 hn with hn | ⟨rfl, rfl⟩
        · obtain ⟨h1, h2, h3⟩ := h.first n s hn
          exact ⟨h1, by omega, h3⟩
        · refine ⟨hi, by omega, ?_⟩
          rw [hlab]
          dsimp only
          rw [hf]; simp
      | some p =>
        rw [hf] at hs
        cases hs
        right
        refine ⟨⟨by show i + 1 ≤ c.memory.length; omega, h.root, h.lay, hseenI, ?_, h.fixed, h.same, ?_, h.sub⟩, rfl⟩
        · intro n s hn
          rcases (hseen' n s).1 hn with hn | ⟨rfl, rfl⟩
          · obtain ⟨h1, h2, h3⟩ := h.first n s hn
            refine ⟨h1, by omega, ?_⟩
            cases hnl : n.label with
            | literal _ => rw [hnl] at h3; exact h3
            | placeholder k => rw [hnl] at h3; exact fun q hq => List.mem_append_left _ (h3 q hq)
            | op o => rw [hnl] at h3; exact h3
            | leaf k => rw [hnl] at h3; exact h3
          · refine ⟨hi, by omega, ?_⟩
            rw [hlab]
            dsimp only
            rw [hf]
            intro q hq
            cases hq
            simp
        · intro a ha
          rcases List.mem_append.1 ha with ha | ha
          · exact h.preds a ha
          · have : a = (i, p) := by simpa using ha
            subst this
            exact ⟨node, k, hi, hlab, hf⟩
    | op o =>
      rw [hlab] at hs
      cases hs
      left
      refine ⟨⟨?_, getElem?_append_some h.root, ?_, ?_, ?_, ?_, ?_, ?_, ?_⟩, by simp⟩
      · show i + 1 ≤ (c.memory ++ node.deps).length
        simp; omega
      · show Lay name (c.memory ++ node.deps) (c.plan.unfold ++ [(i, node.deps.length, name o)]) 1 (c.memory ++ node.deps).length
        refine Lay.snoc (h.lay.mono (Nat.le_refl _)) ⟨hil, ⟨node, o, getElem?_append_some hi, hlab, rfl, rfl, ?_⟩, ?_⟩
        · intro t ht
          rw [List.getElem?_append_right (by omega)]
          congr 1; omega
        · show c.memory.length + node.deps.length = (c.memory ++ node.deps).length
          simp
      · intro k n hk hn
        refine hseenI k n hk ?_
        rwa [List.getElem?_append_left (by omega)] at hn
      · intro n s hn
        rcases (hseen' n s).1 hn with hn | ⟨rfl, rfl⟩
        · obtain ⟨h1, h2, h3⟩ := h.first n s hn
          refine ⟨getElem?_append_some h1, by omega, ?_⟩
          cases hnl : n.label with
          | literal _ => rw [hnl] at h3; exact h3
          | placeholder k => rw [hnl] at h3; exact h3
          | op o => rw [hnl] at h3; exact ⟨List.mem_append_left _ h3.1, fun d hd => List.mem_append_left _ (h3.2 d hd)⟩
          | leaf k => rw [hnl] at h3; exact h3
        · refine ⟨getElem?_append_some hi, by omega, ?_⟩
          rw [hlab]
          exact ⟨List.mem_append_right _ (by simp), fun d hd => List.mem_append_right _ hd⟩
      · intro a ha
        exact ⟨getElem?_append_some (h.fixed a ha).1, (h.fixed a ha).2⟩
      · intro a ha
        obtain ⟨n, h1, h2⟩ := h.same a ha
        exact ⟨n, getElem?_append_some h1, getElem?_append_some h2⟩
      · intro a ha
        obtain ⟨n, k, h1, h2⟩ := h.preds a ha
        exact ⟨n, k, getElem?_append_some h1, h2⟩
      · intro n hn
        rcases List.mem_append.1 hn with hn | hn
        · exact h.sub n hn
        · exact sub_of_dep (h.sub node (List.mem_of_getElem? hi)) hn

theorem sizes_append (a b : List (Expr O V A)) : Expr.sizes (a ++ b) = Expr.sizes a + Expr.sizes b := by
  induction a with
  | nil => simp [Expr.sizes]
  | cons d a ih => simp only [List.cons_append, Expr.sizes, ih]; omega

theorem size_eq (n : Expr O V A) : n.size = 1 + Expr.sizes n.deps := by
  cases n; simp [Expr.size, Expr.deps]

/-- The loop ends and has visited everything, or finds a leaf. -/
theorem compileLoop_inv {name : O → N} {ms : Matchers O V A} {src : Expr O V A} : ∀ (fuel i : Nat) (c : Comp O V A N),
    CInv name ms src i c → Expr.sizes (c.memory.drop i) < fuel →
    (∃ c', compileLoop (E := E) name ms fuel i c = some (.ok c') ∧ CInv name ms src c'.memory.length c') ∨
    (compileLoop (E := E) name ms fuel i c = some (.error .leaves) ∧ ∃ n k, Sub n src ∧ n.label = .leaf k) := by
  intro fuel
  induction fuel with
  | zero => intro i c _ h; omega
  | succ fuel ih =>
    intro i c h hf
    rw [compileLoop]
    cases hi : c.memory[i]? with
    | none =>
      left
      have : i = c.memory.length := by
        have h1 := List.getElem?_eq_none_iff.1 hi
        have := h.le; omega
      subst this
      exact ⟨c, rfl, h⟩
    | some node =>
      dsimp only
      have hil := (List.getElem?_eq_some_iff.1 hi).1
      have hdrop : c.memory.drop i = node :: c.memory.drop (i + 1) := by
        rw [List.drop_eq_getElem_cons hil]
        congr 1
        rw [List.getElem?_eq_getElem hil] at hi
        simpa using hi
      have hsz : Expr.sizes (c.memory.drop i) = node.size + Expr.sizes (c.memory.drop (i + 1)) := by
        rw [hdrop, Expr.sizes]
      have hns := size_eq node
      cases hs : compileStep (E := E) name ms i node c with
      | error e =>
        right
        dsimp only
        unfold compileStep at hs
        cases hl : lookup c.seen node with
        | some j => rw [hl] at hs; cases hs
        | none =>
          rw [hl] at hs
          dsimp only at hs
          cases hlab : node.label with
          | leaf k =>
            rw [hlab] at hs
            cases hs
            exact ⟨rfl, node, k, h.sub node (List.mem_of_getElem? hi), hlab⟩
          | literal v => rw [hlab] at hs; cases hs
          | op o => rw [hlab] at hs; cases hs
          | placeholder k =>
            rw [hlab] at hs
            dsimp only at hs
            split at hs <;> cases hs
      | ok c' =>
        dsimp only
        rcases compileStep_inv h hi hs with ⟨h1, h2⟩ | ⟨h1, h2⟩
        · refine ih (i + 1) c' h1 ?_
          rw [h2, List.drop_append_of_le_length (by omega), sizes_append]
          split
          · omega
          · have : Expr.sizes ([] : List (Expr O V A)) = 0 := rfl
            omega
        · refine ih (i + 1) c' h1 ?_
          rw [h2]; omega

/-! ## Matching -/

theorem writeDeps_eq : ∀ (ds : List (Expr O V A)) (i : Nat) (mem : List (Option (Expr O V A))), i + ds.length ≤ mem.length →
    ∃ mem', writeDeps ds i mem = some mem' ∧ mem'.length = mem.length ∧
      ∀ j, mem'[j]? = if i ≤ j ∧ j < i + ds.length then (ds[j - i]?).map some else mem[j]? := by
  intro ds
  induction ds with
  | nil =>
    intro i mem _
    refine ⟨mem, rfl, rfl, fun j => ?_⟩
    rw [if_neg (by simp)]
  | cons d ds ih =>
    intro i mem h
    rw [List.length_cons] at h
    rw [writeDeps, if_pos (by omega)]
    obtain ⟨mem', h1, h2, h3⟩ := ih (i + 1) (mem.set i (some d)) (by rw [List.length_set]; omega)
    refine ⟨mem', h1, by rw [h2, List.length_set], fun j => ?_⟩
    rw [h3, List.length_cons]
    by_cases hj : j = i
    · subst hj
      rw [if_neg (by omega), if_pos (by omega), List.getElem?_set_self (by omega)]
      simp
    · by_cases hj2 : i + 1 ≤ j ∧ j < i + 1 + ds.length
      · rw [if_pos hj2, if_pos (by omega)]
        have : j - i = (j - (i + 1)) + 1 := by omega
        rw [this, List.getElem?_cons_succ]
      · rw [if_neg hj2, if_neg (by omega), List.getElem?_set_ne (by omega)]

/-- What the unfold actions have checked. -/
def Unfolded (name : O → N) (M : List (Expr O V A)) (R : List (Option (Expr O V A))) (acts : List (Nat × Nat × N)) : Prop :=
  ∀ a ∈ acts, ∃ node r o' off, M[a.1]? = some node ∧ R[a.1]? = some (some r) ∧ r.label = .op o' ∧ name o' = a.2.2 ∧
    r.deps.length = a.2.1 ∧ node.deps.length = a.2.1 ∧
    ∀ t, t < a.2.1 → M[off + t]? = node.deps[t]? ∧ R[off + t]? = (r.deps[t]?).map some

theorem unfoldLoop_sound {name : O → N} {M : List (Expr O V A)} : ∀ (acts : List (Nat × Nat × N)) (next : Nat)
    (mem : List (Option (Expr O V A))), Lay name M acts next M.length → mem.length = M.length →
    (∀ j, j < next → ∃ n, mem[j]? = some (some n)) →
    unfoldLoop name acts next mem = some none ∨
    ∃ R, unfoldLoop name acts next mem = some (some R) ∧ R.length = M.length ∧
      (∀ j, j < next → R[j]? = mem[j]?) ∧ (∀ j, j < M.length → ∃ n, R[j]? = some (some n)) ∧ Unfolded name M R acts := by
  intro acts
  induction acts with
  | nil =>
    intro next mem hl hm hfill
    cases hl
    exact Or.inr ⟨mem, rfl, hm, fun _ _ => rfl, hfill, by intro a ha; cases ha⟩
  | cons a acts ih =>
    obtain ⟨mi, ar, nm⟩ := a
    rintro next mem ⟨h1, ⟨node, o, h2, h3, h4, h5, h6⟩, h7⟩ hm hfill
    obtain ⟨r, hr⟩ := hfill mi h1
    rw [unfoldLoop, hr]
    dsimp only
    cases hlab : r.label with
    | leaf k => exact Or.inl rfl
    | placeholder k => exact Or.inl rfl
    | literal v => exact Or.inl rfl
    | op o' =>
      dsimp only
      by_cases hc : r.deps.length ≠ ar ∨ name o' ≠ nm
      · rw [if_pos hc]; exact Or.inl rfl
      · rw [if_neg hc]
        push Not at hc
        have hle := h7.le
        obtain ⟨mem', w1, w2, w3⟩ := writeDeps_eq r.deps next mem (by rw [hc.1]; omega)
        rw [w1]
        dsimp only
        rw [hc.1] at w3 ⊢
        have hfill' : ∀ j, j < next + ar → ∃ n, mem'[j]? = some (some n) := by
          intro j hj
          rw [w3]
          by_cases hjn : next ≤ j ∧ j < next + ar
          · rw [if_pos hjn]
            exact ⟨r.deps[j - next]'(by omega), by rw [List.getElem?_eq_getElem (by omega)]; rfl⟩
          · rw [if_neg hjn]
            exact hfill j (by omega)
        rcases ih (next + ar) mem' h7 (by omega) hfill' with h | ⟨R, e1, e2, e3, e4, e5⟩
        · exact Or.inl h
        · right
          refine ⟨R, e1, e2, ?_, e4, ?_⟩
          · intro j hj
            rw [e3 j (by omega), w3, if_neg (by omega)]
          · intro a ha
            rcases List.mem_cons.1 ha with rfl | ha
            · refine ⟨node, r, o', next, h2, ?_, hlab, hc.2, hc.1, h5.symm, ?_⟩
              · rw [e3 mi (by omega), w3, if_neg (by omega)]; exact hr
              · intro t ht
                replace ht : t < ar := ht
                refine ⟨h6 t ht, ?_⟩
                rw [e3 _ (by omega), w3, if_pos (by omega)]
                congr 2; omega
            · exact e5 a ha

theorem unfoldLoop_complete {name : O → N} {M : List (Expr O V A)} {src : Expr O V A} {φ : Expr O V A → Expr O V A}
    (hφ : Instance name src φ) (hsub : ∀ n ∈ M, Sub n src) : ∀ (acts : List (Nat × Nat × N)) (next : Nat)
    (mem : List (Option (Expr O V A))), Lay name M acts next M.length → mem.length = M.length →
    (∀ j, j < next → mem[j]? = (M[j]?).map (fun n => some (φ n))) →
    unfoldLoop name acts next mem = some (some (M.map (fun n => some (φ n)))) := by
  intro acts
  induction acts with
  | nil =>
    intro next mem hl hm hfill
    cases hl
    rw [unfoldLoop]
    congr 2
    apply List.ext_getElem?
    intro j
    rw [List.getElem?_map]
    by_cases hj : j < M.length
    · exact hfill j hj
    · rw [List.getElem?_eq_none (by omega), List.getElem?_eq_none (by omega)]; rfl
  | cons a acts ih =>
    obtain ⟨mi, ar, nm⟩ := a
    rintro next mem ⟨h1, ⟨node, o, h2, h3, h4, h5, h6⟩, h7⟩ hm hfill
    have hr := hfill mi h1
    rw [h2] at hr
    have hn := hφ node (hsub node (List.mem_of_getElem? h2))
    rw [h3] at hn
    obtain ⟨o', q1, q2, q3⟩ := hn
    rw [unfoldLoop, hr]
    dsimp only [Option.map_some]
    rw [q1]
    dsimp only
    have hlen : (φ node).deps.length = ar := by rw [q3, List.length_map, h5]
    rw [if_neg (by rw [hlen, h4, q2]; simp)]
    have hle := h7.le
    obtain ⟨mem', w1, w2, w3⟩ := writeDeps_eq (φ node).deps next mem (by rw [hlen]; omega)
    rw [w1]
    dsimp only
    rw [hlen] at w3 ⊢
    refine ih (next + ar) mem' h7 (by omega) ?_
    intro j hj
    rw [w3]
    by_cases hjn : next ≤ j ∧ j < next + ar
    · rw [if_pos hjn, q3, List.getElem?_map]
      have := h6 (j - next) (by omega)
      rw [show next + (j - next) = j by omega] at this
      rw [this, Option.map_map]
      rfl
    · rw [if_neg hjn]
      exact hfill j (by omega)

theorem checkAll_eq {α : Type} {check : α → Option Bool} : ∀ {l : List α}, (∀ a ∈ l, ∃ b, check a = some b) →
    (checkAll check l = some true ∧ ∀ a ∈ l, check a = some true) ∨
    (checkAll check l = some false ∧ ∃ a ∈ l, check a = some false) := by
  intro l
  induction l with
  | nil => intro _; exact Or.inl ⟨rfl, by simp⟩
  | cons a l ih =>
    intro h
    obtain ⟨b, hb⟩ := h a (by simp)
    rw [checkAll, hb]
    cases b with
    | false => exact Or.inr ⟨rfl, a, by simp, hb⟩
    | true =>
      dsimp only
      rcases ih (fun x hx => h x (List.mem_cons_of_mem _ hx)) with ⟨h1, h2⟩ | ⟨h1, x, h2, h3⟩
      · left
        refine ⟨h1, ?_⟩
        intro x hx
        rcases List.mem_cons.1 hx with rfl | hx
        · exact hb
        · exact h2 x hx
      · exact Or.inr ⟨h1, x, List.mem_cons_of_mem _ h2, h3⟩

theorem sub_mem {name : O → N} {ms : Matchers O V A} {src : Expr O V A} {c : Comp O V A N}
    (h : CInv name ms src c.memory.length c) (hleaf : ∀ n, n ∈ c.memory → n.deps ≠ [] → ∃ o, n.label = .op o)
    {s : Expr O V A} (hs : Sub s src) : s ∈ c.memory := by
  have key : ∀ {s r : Expr O V A}, Sub s r → r ∈ c.memory → s ∈ c.memory := by
    intro s r hsr
    induction hsr with
    | refl => exact id
    | @dep d n _ hd ih =>
      intro hr
      apply ih
      obtain ⟨j, hj⟩ := List.mem_iff_getElem?.1 hr
      obtain ⟨t, ht, _⟩ := h.seen j n (List.getElem?_eq_some_iff.1 hj).1 hj
      have hf := h.first n t ht
      obtain ⟨o, ho⟩ := hleaf n hr (by intro h0; rw [h0] at hd; simp at hd)
      rw [ho] at hf
      exact hf.2.2.2 _ hd
  exact key hs (List.mem_of_getElem? h.root)

end Verif.Opt
