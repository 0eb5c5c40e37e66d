import Verif.Batched.BatchedSpec
import Verif.Frames.IterProps
import Verif.Forest.EvaluatorProps

/-!
# Lemmas about batched evaluation
-/

namespace Verif.Batched
open Verif.Forest (Cond Tree Filter QT Fl Env Meta FErr Ctx Evaluator fromTrees compileForest i64 treeVal Sums TreeOk)
open Verif.Frames (Frame In InArr Scalar OutSlot Key Mem KeysOk look IsRow Respects)
open Verif.Dense (DArr)
open Verif.Arr (Arr)

variable {M : Type}

/-! ## Slots -/

theorem inSlots_length (c : BCtx M) (rs : List (Nat × QT)) : ∀ k, (inSlotsFrom c k rs).length = rs.length := by
  induction rs with
  | nil => intro k; rfl
  | cons r rs ih => intro k; simp [inSlotsFrom, ih]

theorem inSlots_get (c : BCtx M) (rs : List (Nat × QT)) : ∀ (k j : Nat),
    (inSlotsFrom c k rs)[j]? = (rs[j]?).map fun r => ⟨k + j, tyOf r.2, c.opt r.2⟩ := by
  induction rs with
  | nil => intro k j; simp [inSlotsFrom]
  | cons r rs ih =>
    intro k j
    cases j with
    | zero => simp [inSlotsFrom]
    | succ j => simp [inSlotsFrom, ih, Nat.add_assoc, Nat.add_comm 1 j]

theorem inSlots_ids (c : BCtx M) (rs : List (Nat × QT)) : ∀ k,
    (inSlotsFrom c k rs).map Scalar.id = List.range' k rs.length := by
  induction rs with
  | nil => intro k; rfl
  | cons r rs ih => intro k; simp [inSlotsFrom, ih, List.range'_succ]

theorem readFrom_congr {c : BCtx M} {f g : Frame (Val M)} (x : Nat × QT) : ∀ (rs : List (Nat × QT)) (k : Nat),
    (∀ s ∈ inSlotsFrom c k rs, look s.opt (f s.id) = look s.opt (g s.id)) →
    readFrom c f x k rs = readFrom c g x k rs := by
  intro rs
  induction rs with
  | nil => intro k _; rfl
  | cons r rs ih =>
    intro k h
    have h0 := h ⟨k, tyOf r.2, c.opt r.2⟩ (by simp [inSlotsFrom])
    rw [readFrom, readFrom, ih (k + 1) fun s hs => h s (by simp [inSlotsFrom, hs])]
    split
    · simp only [look] at h0
      cases ho : c.opt r.2 <;> cases hf : (f k).1 <;> cases hg : (g k).1 <;> simp_all
    · rfl

theorem readFrom_mem {c : BCtx M} {f : Frame (Val M)} {rs : List (Nat × QT)} (hn : (rs.map Prod.fst).Nodup) :
    ∀ (k j : Nat) (r : Nat × QT), rs[j]? = some r → readFrom c f r k rs = look (c.opt r.2) (f (k + j)) := by
  induction rs with
  | nil => intro k j r h; simp at h
  | cons x rs ih =>
    intro k j r h
    rw [List.map_cons, List.nodup_cons] at hn
    cases j with
    | zero =>
      simp only [List.getElem?_cons_zero, Option.some.injEq] at h
      subst h
      rw [readFrom, if_pos rfl, look]
      cases c.opt x.2 <;> cases h' : (f k).1 <;> simp [h']
    | succ j =>
      simp only [List.getElem?_cons_succ] at h
      have hne : x ≠ r := by
        intro he
        exact hn.1 (by rw [he]; exact List.mem_map_of_mem (List.mem_of_getElem? h))
      rw [readFrom, if_neg hne, ih hn.2 (k + 1) j r h, Nat.add_assoc, Nat.add_comm 1 j]

theorem readFrom_none {c : BCtx M} {f : Frame (Val M)} {x : Nat × QT} (rs : List (Nat × QT)) :
    ∀ k, x ∉ rs → readFrom c f x k rs = none := by
  induction rs with
  | nil => intro k _; rfl
  | cons r rs ih =>
    intro k h
    simp only [List.mem_cons, not_or] at h
    rw [readFrom, if_neg (Ne.symm h.1)]
    exact ih (k + 1) h.2

theorem frameEnv_congr {c : BCtx M} {rs : List (Nat × QT)} {f g : Frame (Val M)}
    (h : ∀ s ∈ inSlotsFrom c 0 rs, look s.opt (f s.id) = look s.opt (g s.id)) :
    frameEnv c rs f = frameEnv c rs g := by
  have : ∀ x, readFrom c f x 0 rs = readFrom c g x 0 rs := fun x => readFrom_congr x rs 0 h
  simp only [frameEnv, this]

/-- `Eval(f, f)` writes the output slots only, and what it writes depends on the input slots only. -/
theorem evalFrame_respects [Semiring M] (c : BCtx M) (b : Batched M) (e : Evaluator M) :
    Respects (inSlotsFrom c 0 b.required) b.outSlots (fun _ => False) (evalFrame c b.required e) := by
  refine ⟨fun _ _ h => h.elim, fun f g h _ s hs => ?_⟩
  simp only [Batched.outSlots, List.mem_map] at hs
  obtain ⟨k, -, rfl⟩ := hs
  simp only [evalFrame, frameEnv_congr h]
  rw [if_neg (by omega), if_neg (by omega)]

/-! ## Rows -/

/-- The conditions of the forest see the row. -/
theorem cond_eval_row {c : BCtx M} {rs : List (Nat × QT)} (hn : (rs.map Prod.fst).Nodup) {arrays : Arrays M}
    {inputSlots : List Nat} {i : Nat} {f : Frame (Val M)}
    (hrow : ∀ (j : Nat) r, rs[j]? = some r → look (c.opt r.2) (f j) = rowRead c arrays inputSlots i r.2 r.1)
    {cond : Cond} (hc : ∀ s ∈ cond.sig c.ctx.osig, s ∈ rs) :
    Cond.eval (frameEnv c rs f) cond = Cond.eval (rowEnv c arrays inputSlots i) cond := by
  have hr : ∀ s ∈ cond.sig c.ctx.osig, readFrom c f s 0 rs = rowRead c arrays inputSlots i s.2 s.1 := by
    intro s hs
    obtain ⟨j, hj⟩ := List.getElem?_of_mem (hc s hs)
    rw [readFrom_mem hn 0 j s hj, Nat.zero_add, hrow j s hj]
  cases cond with
  | interval id l r =>
    have := hr (id, .f32) (by simp [Cond.sig])
    simp only [Cond.eval, frameEnv, rowEnv, this]
  | setF32 id vs d =>
    have := hr (id, .f32) (by simp [Cond.sig])
    simp only [Cond.eval, frameEnv, rowEnv, this]
  | setI64 id vs d =>
    have := hr (id, .i64) (by simp [Cond.sig])
    simp only [Cond.eval, frameEnv, rowEnv, this]
  | other k =>
    simp only [Cond.eval, frameEnv, rowEnv]
    congr 1
    exact List.map_congr_left fun s hs => hr s hs

/-! ## Sums -/

/-- The sum over the trees which the filter selects. -/
noncomputable def valOf [Semiring M] (env : Env) (f : Filter) (trees : List (Tree Cond M)) : M :=
  ((trees.filter fun t => f.accepts t.tag).map (treeVal env)).sum

theorem valOf_append [Semiring M] (env : Env) (f : Filter) (a b : List (Tree Cond M)) :
    valOf env f (a ++ b) = valOf env f a + valOf env f b := by
  simp [valOf, List.sum_append]

theorem sums_congr {A S : Type} {add : S → A → A → S} {ev ev' : Cond → Bool} {f : Filter} {trees : List (Tree Cond A)}
    {acc y : S} (he : ∀ t ∈ trees, ∀ n ∈ t.splits, ev n.cond = ev' n.cond) (h : Sums add ev f trees acc y) :
    Sums add ev' f trees acc y := by
  have hp : ∀ (t : Tree Cond A), (∀ n ∈ t.splits, ev n.cond = ev' n.cond) → ∀ r i, Forest.Path ev t r i →
      Forest.Path ev' t r i := by
    intro t ht r i hp
    induction hp with
    | leaf i => exact .leaf i
    | yes h1 h2 _ ih => exact .yes h1 (by rw [← ht _ (List.mem_of_getElem? h1)]; exact h2) ih
    | no h1 h2 _ ih => exact .no h1 (by rw [← ht _ (List.mem_of_getElem? h1)]; exact h2) ih
  induction h with
  | nil acc => exact .nil acc
  | skip h1 _ ih => exact .skip h1 (ih fun t ht => he t (by simp [ht]))
  | take h1 h2 h3 _ ih =>
    exact .take h1 (hp _ (he _ (by simp)) _ _ h2) h3 (ih fun t ht => he t (by simp [ht]))

/-! ## Chunks -/

theorem chunks_flatten (limit : Int) : ∀ (trees cur : List (Tree Cond M)) (count : Int),
    (chunks limit trees cur count).flatten = cur ++ trees := by
  intro trees
  induction trees with
  | nil =>
    intro cur count
    rw [chunks]
    cases cur <;> simp
  | cons t rest ih =>
    intro cur count
    rw [chunks]
    split
    · simp [ih]
    · simp [ih]

theorem chunks_ne_nil (limit : Int) {trees : List (Tree Cond M)} (h : trees ≠ []) :
    chunks limit trees [] 0 ≠ [] := by
  intro he
  have := chunks_flatten limit trees [] 0
  rw [he] at this
  exact h (by simpa using this.symm)

theorem splitCount_nonneg (trees : List (Tree Cond M)) : 0 ≤ splitCount trees := by
  unfold splitCount
  induction trees with
  | nil => simp
  | cons t rest ih => simp only [List.map_cons, List.sum_cons]; omega

theorem evaluatorCount_ok {splits optimal : Int} (h0 : 0 ≤ splits) (h1 : 0 < optimal) (h2 : splits + optimal < 2 ^ 63)
    : ∃ n, evaluatorCount splits optimal = some n ∧ 1 ≤ n ∧ n ≤ max 1 splits ∧ (splits ≤ optimal → n = 1) ∧
      (optimal < splits → 1 < n) := by
  have hq0 : 0 ≤ (splits + optimal - 1).tdiv optimal := Int.tdiv_nonneg (by omega) (by omega)
  have heq : (splits + optimal - 1).tdiv optimal = (splits + optimal - 1) / optimal :=
    Int.tdiv_eq_ediv_of_nonneg (by omega)
  have hq1 : (splits + optimal - 1) / optimal ≤ splits := by
    by_cases hz : splits = 0
    · subst hz
      rw [Int.ediv_eq_zero_of_lt (by omega) (by omega)]
    · have : splits + optimal - 1 < optimal * (splits + 1) := by
        have : (optimal - 1) * (splits - 1) ≥ 0 := Int.mul_nonneg (by omega) (by omega)
        have e : (optimal - 1) * (splits - 1) = optimal * splits - optimal - splits + 1 := by ring
        have e' : optimal * (splits + 1) = optimal * splits + optimal := by ring
        omega
      have := Int.ediv_lt_of_lt_mul h1 (by rw [Int.mul_comm]; exact this)
      omega
  refine ⟨max 1 ((splits + optimal - 1).tdiv optimal), ?_, by omega, by rw [heq]; omega, ?_, ?_⟩
  · simp only [evaluatorCount, i64]
    rw [if_pos (by omega), Option.bind_eq_bind, Option.bind_some, if_pos (by omega), Option.bind_some,
      if_neg (by omega), heq, if_pos (by omega)]
    simp
  · intro h
    rw [heq]
    have : (splits + optimal - 1) / optimal < 2 := Int.ediv_lt_of_lt_mul h1 (by omega)
    omega
  · intro h
    rw [heq]
    have : 2 ≤ (splits + optimal - 1) / optimal := (Int.le_ediv_iff_mul_le h1).2 (by omega)
    omega

end Verif.Batched
