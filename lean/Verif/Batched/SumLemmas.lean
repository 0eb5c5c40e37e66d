import Verif.Batched.RunLemmas

/-!
# Lemmas about several evaluators
-/

namespace Verif.Batched
open Verif.Forest (Cond Tree Filter QT Fl Env Meta FErr Ctx Evaluator fromTrees compileForest i64 treeVal Sums TreeOk)
open Verif.Frames (Frame In InArr Scalar OutSlot Key Mem KeysOk look IsRow Respects)

variable {M : Type}

/-- The partial sums of all outputs. -/
def SumsHold (n : Nat) (v : Filter → Nat → M) : List OutSlot → List Filter → List (In (Val M)) → Prop
  | o :: os, f :: fs, s :: ss => Holds o n (v f) s ∧ SumsHold n v os fs ss
  | [], [], [] => True
  | _, _, _ => False

/-- The arrays in the output slots. -/
def OutsHold (n : Nat) (v : Filter → Nat → M) (outputs : List OutSlot) (groups : List Filter) (arrays : Arrays M) : Prop :=
  ∀ (g : Nat) o flt, outputs[g]? = some o → groups[g]? = some flt → Holds o n (v flt) (arrays o.id)

theorem outsHold_cons {n : Nat} {v : Filter → Nat → M} {o : OutSlot} {os : List OutSlot} {f : Filter} {fs : List Filter}
    {arrays : Arrays M} : OutsHold n v (o :: os) (f :: fs) arrays ↔ Holds o n (v f) (arrays o.id) ∧ OutsHold n v os fs arrays := by
  constructor
  · intro h
    exact ⟨h 0 o f rfl rfl, fun g o' f' h1 h2 => h (g + 1) o' f' (by simpa using h1) (by simpa using h2)⟩
  · rintro ⟨h1, h2⟩ g o' f' h3 h4
    cases g with
    | zero =>
      simp only [List.getElem?_cons_zero, Option.some.injEq] at h3 h4
      subst h3; subst h4
      exact h1
    | succ g => exact h2 g o' f' (by simpa using h3) (by simpa using h4)

theorem sumsHold_start {n : Nat} {v : Filter → Nat → M} {arrays : Arrays M} : ∀ (outputs : List OutSlot) (groups : List Filter),
    outputs.length = groups.length → OutsHold n v outputs groups arrays →
    SumsHold n v outputs groups (outputs.map fun o => arrays o.id) := by
  intro outputs
  induction outputs with
  | nil =>
    intro groups h _
    cases groups with
    | nil => trivial
    | cons _ _ => simp at h
  | cons o os ih =>
    intro groups h hh
    cases groups with
    | nil => simp at h
    | cons f fs =>
      obtain ⟨h1, h2⟩ := outsHold_cons.1 hh
      exact ⟨h1, ih fs (by simpa using h) h2⟩

theorem addToSums_ok [Add M] {n : Nat} {v w : Filter → Nat → M} {arrays : Arrays M} :
    ∀ (outputs : List OutSlot) (groups : List Filter) (sums : List (In (Val M))),
      SumsHold n v outputs groups sums → OutsHold n w outputs groups arrays →
      ∃ sums', addToSums arrays outputs sums = some (.ok sums') ∧
        SumsHold n (fun f i => v f i + w f i) outputs groups sums' := by
  intro outputs
  induction outputs with
  | nil =>
    intro groups sums h _
    cases groups with
    | nil =>
      cases sums with
      | nil => exact ⟨[], rfl, trivial⟩
      | cons _ _ => exact h.elim
    | cons _ _ => cases sums <;> exact h.elim
  | cons o os ih =>
    intro groups sums h hh
    cases groups with
    | nil => cases sums <;> exact h.elim
    | cons f fs =>
      cases sums with
      | nil => exact h.elim
      | cons s ss =>
        obtain ⟨h1, h2⟩ := outsHold_cons.1 hh
        obtain ⟨a, a1, a2⟩ := addFull_ok h.1 h1
        obtain ⟨as, b1, b2⟩ := ih fs ss h.2 h2
        exact ⟨a :: as, by simp only [addToSums, a1, b1], a2, b2⟩

theorem finishSums_ok [Add M] {n : Nat} {v w : Filter → Nat → M} :
    ∀ (outputs : List OutSlot) (groups : List Filter) (sums : List (In (Val M))) (arrays : Arrays M),
      (outputs.map OutSlot.id).Nodup → SumsHold n v outputs groups sums → OutsHold n w outputs groups arrays →
      ∃ arrays', finishSums outputs sums arrays = some (.ok arrays') ∧
        OutsHold n (fun f i => v f i + w f i) outputs groups arrays' ∧
        ∀ t, (∀ o ∈ outputs, o.id ≠ t) → arrays' t = arrays t := by
  intro outputs
  induction outputs with
  | nil =>
    intro groups sums arrays _ h _
    exact ⟨arrays, by simp [finishSums], by intro g o f h1; simp at h1, fun _ _ => rfl⟩
  | cons o os ih =>
    intro groups sums arrays hn h hh
    cases groups with
    | nil => cases sums <;> exact h.elim
    | cons f fs =>
      cases sums with
      | nil => exact h.elim
      | cons s ss =>
        rw [List.map_cons, List.nodup_cons] at hn
        obtain ⟨h1, h2⟩ := outsHold_cons.1 hh
        obtain ⟨a, a1, a2⟩ := addFull_ok h.1 h1
        obtain ⟨arrays', b1, b2, b3⟩ := ih fs ss (fun t => if t = o.id then a else arrays t) hn.2 h.2 (by
          intro g o' f' h3 h4
          have hne : o'.id ≠ o.id := by
            intro he
            exact hn.1 (by rw [← he]; exact List.mem_map_of_mem (List.mem_of_getElem? h3))
          show Holds o' n (w f') (if o'.id = o.id then a else arrays o'.id)
          rw [if_neg hne]
          exact h2 g o' f' h3 h4)
        refine ⟨arrays', by simp only [finishSums, a1, b1], outsHold_cons.2 ⟨?_, b2⟩, ?_⟩
        · rw [b3 o.id (by
            intro o' ho' he
            exact hn.1 (by rw [← he]; exact List.mem_map_of_mem ho'))]
          simpa using a2
        · intro t ht
          rw [b3 t fun o' ho' => ht o' (by simp [ho'])]
          exact if_neg (Ne.symm (ht o (by simp)))

/-- The evaluators after the first one. -/
theorem runRest_ok [Semiring M] {run : RunOracle M → Evaluator M → Arrays M → Option (Except BErr (Arrays M))}
    {oracles : Nat → RunOracle M} {outputs : List OutSlot} {groups : List Filter} {n : Nat} {Good : Arrays M → Prop}
    {Comp : (Filter → Nat → M) → Evaluator M → Prop} (hn : (outputs.map OutSlot.id).Nodup)
    (hrun : ∀ k e val arrays, Good arrays → Comp val e → ∃ arrays', run (oracles k) e arrays = some (.ok arrays') ∧
      (∀ t, (∀ o ∈ outputs, o.id ≠ t) → arrays' t = arrays t) ∧ OutsHold n val outputs groups arrays')
    (hgood : ∀ arrays arrays', Good arrays → (∀ t, (∀ o ∈ outputs, o.id ≠ t) → arrays' t = arrays t) → Good arrays') :
    ∀ (es : List (Evaluator M)) (vals : List (Filter → Nat → M)) (k : Nat) (v : Filter → Nat → M) (sums : List (In (Val M)))
      (arrays : Arrays M), es ≠ [] → List.Forall₂ (fun e val => Comp val e) es vals → SumsHold n v outputs groups sums →
      Good arrays →
      ∃ arrays', runRest run oracles outputs k es sums arrays = some (.ok arrays') ∧
        OutsHold n (fun f i => v f i + (vals.map fun val => val f i).sum) outputs groups arrays' ∧
        ∀ t, (∀ o ∈ outputs, o.id ≠ t) → arrays' t = arrays t := by
  intro es
  induction es with
  | nil => intro vals k v sums arrays h; exact absurd rfl h
  | cons e rest ih =>
    intro vals k v sums arrays _ hf hs hg
    cases hf with
    | @cons _ val _ vals h1 h2 =>
      obtain ⟨arrays1, r1, r2, r3⟩ := hrun k e val arrays hg h1
      cases rest with
      | nil =>
        cases h2
        obtain ⟨arrays', f1, f2, f3⟩ := finishSums_ok outputs groups sums arrays1 hn hs r3
        refine ⟨arrays', by simp only [runRest, r1, List.isEmpty_nil, if_true, f1], ?_, fun t ht => by rw [f3 t ht, r2 t ht]⟩
        simpa using f2
      | cons e' rest =>
        obtain ⟨sums1, s1, s2⟩ := addToSums_ok outputs groups sums hs r3
        obtain ⟨arrays', i1, i2, i3⟩ := ih vals (k + 1) _ sums1 arrays1 (by simp) h2 s2 (hgood _ _ hg r2)
        refine ⟨arrays', ?_, ?_, fun t ht => by rw [i3 t ht, r2 t ht]⟩
        · rw [runRest, r1]
          simp only [List.isEmpty_cons, Bool.false_eq_true, if_false, s1]
          exact i1
        · simpa [add_assoc] using i2

/-! ## Compilation -/

/-- The evaluator computes the sums over the trees `ts`. -/
def EvalOk [Semiring M] (ctx : Ctx) (groups : List Filter) (e : Evaluator M) (ts : List (Tree Cond M)) : Prop :=
  ∀ env, Forest.EnvOk env → Forest.NanOk env ts → ∃ outs, e.eval ctx env = some outs ∧
    ∀ (g : Nat) (f : Filter), groups[g]? = some f → ∃ y, outs[g]? = some y ∧
      Sums (fun acc a w => acc + a * w) (Cond.eval env) f ts 0 y

theorem compileAll_ok [Semiring M] (osig : Nat → List (Nat × QT)) {condEq : Cond → Cond → Bool} (hc : Forest.CondEqOk condEq)
    {o : Forest.Oracles} (ho : o.Ok) {trees : List (Tree Cond M)} {m : Meta QT}
    (hm : fromTrees (Cond.sig osig) trees = .ok m) (ht : ∀ t ∈ trees, TreeOk t) {groups : List Filter} (hne : groups ≠ [])
    (hd : Forest.Separate groups trees) (hs : ∀ t ∈ trees, ∀ n ∈ t.splits, n.cond.Safe ∧ n.cond.Basic osig) :
    ∀ cs : List (List (Tree Cond M)), (∀ ts ∈ cs, ∀ t ∈ ts, t ∈ trees) → ∃ bound, ∀ fuel, bound ≤ fuel →
      ∃ es, compileAll ⟨osig, condEq, o, fuel⟩ groups cs = some (.ok es) ∧
        List.Forall₂ (EvalOk ⟨osig, condEq, o, fuel⟩ groups) es cs := by
  intro cs
  induction cs with
  | nil => intro _; exact ⟨0, fun fuel _ => ⟨[], rfl, .nil⟩⟩
  | cons ts cs ih =>
    intro h
    obtain ⟨b, hb⟩ := ih fun ts' h' => h ts' (by simp [h'])
    have hsub := h ts (by simp)
    obtain ⟨m', hm'⟩ := Forest.fromTrees_sub hm hsub
    obtain ⟨b', hb'⟩ := Forest.forest_evaluator_partial osig hc ho {} ts hm' (fun t h => ht t (hsub t h)) groups hne
      (fun t h => hd t (hsub t h)) (fun _ t h => hs t (hsub t h))
    refine ⟨max b b', fun fuel hf => ?_⟩
    obtain ⟨es, e1, e2⟩ := hb fuel (by omega)
    rcases hb' fuel (by omega) with ⟨h0, -⟩ | ⟨e, c1, c2⟩
    · cases h0
    · refine ⟨e :: es, by simp only [compileAll, hm', c1, e1], .cons ?_ e2⟩
      intro env h1 h2
      obtain ⟨outs, o1, -, o2⟩ := c2 env fun _ => ⟨h1, h2⟩
      exact ⟨outs, o1, o2⟩

end Verif.Batched
