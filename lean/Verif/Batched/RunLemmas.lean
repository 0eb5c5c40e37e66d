import Verif.Batched.BatchedLemmas

/-!
# Lemmas about running the evaluators on a batch
-/

namespace Verif.Batched
open Verif.Forest (Cond Tree Filter QT Fl Env Meta FErr Ctx Evaluator fromTrees compileForest i64 treeVal Sums TreeOk)
open Verif.Frames (Frame In InArr Scalar OutSlot Key Mem KeysOk look IsRow Respects)
open Verif.Dense (DArr)
open Verif.Arr (Arr)

variable {M : Type}

/-! ## Arrays of sums -/

/-- The array, of the kind of the output slot, holds the sums `v`, all present. -/
def Holds (o : OutSlot) (n : Nat) (v : Nat → M) (a : In (Val M)) : Prop :=
  a.key = (o.sparse, 0) ∧ ∃ d, a.Wraps d ∧ d.bitmap = [] ∧ d.off < 32 ∧ d.values = (List.range n).map fun i => .out (v i)

theorem holds_elems {o : OutSlot} {n : Nat} {v : Nat → M} {a : In (Val M)} (h : Holds o n v a) :
    a.Valid ∧ a.elems = (List.range n).map fun i => some (.out (v i)) := by
  obtain ⟨-, d, h1, h2, h3, h4⟩ := h
  have hlen : d.values.length = n := by rw [h4]; simp
  have hv : d.Valid := ⟨h3, .inl h2⟩
  have he : ∀ i, i < n → Dense.elem d i = some (.out (v i)) := by
    intro i hi
    rw [Dense.elem, if_pos (.inl h2), h4, List.getElem?_map, List.getElem?_range hi]; rfl
  obtain ⟨ty, arr⟩ := a
  cases arr with
  | dense x =>
    simp only [In.Wraps] at h1
    subst h1
    refine ⟨hv, ?_⟩
    simp only [In.elems, Dense.elems, hlen]
    exact List.map_congr_left fun i hi => he i (List.mem_range.1 hi)
  | sparse x =>
    simp only [In.Wraps] at h1
    subst h1
    refine ⟨Arr.ofDense_valid hv, ?_⟩
    simp only [In.elems, Arr.Arr.elems]
    have : (Arr.ofDense d).size = n := hlen
    rw [this]
    exact List.map_congr_left fun i hi => by rw [Arr.ofDense_elem]; exact he i (List.mem_range.1 hi)

theorem holds_of_elems {o : OutSlot} {n : Nat} {v : Nat → M} {a : In (Val M)} {d : DArr (Val M)} (hv : a.Valid)
    (hk : a.key = (o.sparse, 0)) (hw : a.Wraps d) (hb : d.bitmap = [])
    (he : a.elems = (List.range n).map fun i => some (.out (v i))) : Holds o n v a := by
  have hd : d.off < 32 ∧ Dense.elems d = (List.range n).map fun i => some (.out (v i)) := by
    obtain ⟨ty, arr⟩ := a
    cases arr with
    | dense x =>
      simp only [In.Wraps] at hw
      subst hw
      exact ⟨hv.1, he⟩
    | sparse x =>
      simp only [In.Wraps] at hw
      subst hw
      refine ⟨hv.1.1, ?_⟩
      rw [← he]
      rfl
  refine ⟨hk, d, hw, hb, hd.1, ?_⟩
  have hlen : d.values.length = n := by
    have := congrArg List.length hd.2
    simpa [Dense.elems] using this
  apply List.ext_getElem?
  intro i
  have hi := congrArg (fun l => l[i]?) hd.2
  simp only [Dense.elems, List.getElem?_map, hlen] at hi ⊢
  by_cases h : i < n
  · rw [List.getElem?_range h] at hi ⊢
    simp only [Option.map_some, Option.some.injEq] at hi
    rw [Dense.elem, if_pos (.inl hb)] at hi
    exact hi
  · rw [List.getElem?_eq_none (by omega), List.getElem?_eq_none (by simp; omega)]; rfl

theorem addValues_ok [Add M] (v w : Nat → M) : ∀ (l : List Nat),
    addValues (l.map fun i => .out (v i)) (l.map fun i => .out (w i)) = some (l.map fun i => .out (v i + w i)) := by
  intro l
  induction l with
  | nil => rfl
  | cons i l ih => simp only [List.map_cons, addValues, ih, Option.map_some]

theorem addFull_ok [Add M] {o : OutSlot} {n : Nat} {v w : Nat → M} {a b : In (Val M)} (ha : Holds o n v a)
    (hb : Holds o n w b) : ∃ s, addFull a b = some (.ok s) ∧ Holds o n (fun i => v i + w i) s := by
  obtain ⟨ka, d, h1, h2, h3, h4⟩ := ha
  obtain ⟨kb, d', h1', h2', h3', h4'⟩ := hb
  obtain ⟨ty, arr⟩ := a
  obtain ⟨ty', arr'⟩ := b
  cases arr with
  | dense x =>
    cases arr' with
    | dense y =>
      simp only [In.Wraps] at h1 h1'
      subst h1; subst h1'
      simp only [In.key, Prod.mk.injEq] at ka kb
      refine ⟨⟨0, .dense ⟨(List.range n).map fun i => .out (v i + w i), [], 0⟩⟩, ?_, ?_, ?_⟩
      · simp only [addFull, ka.2, kb.2]
        rw [if_neg (by simp), h4, h4', addValues_ok]; rfl
      · simp [In.key, ← ka.1]
      · exact ⟨_, rfl, rfl, Nat.zero_lt_succ 31, rfl⟩
    | sparse y =>
      simp only [In.key, Prod.mk.injEq] at ka kb
      exact absurd (ka.1.trans kb.1.symm) (by simp)
  | sparse x =>
    cases arr' with
    | dense y =>
      simp only [In.key, Prod.mk.injEq] at ka kb
      exact absurd (ka.1.trans kb.1.symm) (by simp)
    | sparse y =>
      simp only [In.Wraps] at h1 h1'
      subst h1; subst h1'
      simp only [In.key, Prod.mk.injEq] at ka kb
      refine ⟨⟨0, .sparse (Arr.ofDense ⟨(List.range n).map fun i => .out (v i + w i), [], 0⟩)⟩, ?_, ?_, ?_⟩
      · simp only [addFull, ka.2, kb.2, Arr.ofDense]
        rw [if_neg (by simp), h4, h4', addValues_ok]; rfl
      · simp [In.key, ← ka.1]
      · exact ⟨_, rfl, rfl, Nat.zero_lt_succ 31, rfl⟩

/-! ## Storing -/

theorem store_other : ∀ (res : List (Nat × In (Val M))) (arrays : Arrays M) (t : Nat), t ∉ res.map (·.1) →
    store arrays res t = arrays t := by
  intro res
  induction res with
  | nil => intro arrays t _; rfl
  | cons p res ih =>
    intro arrays t h
    obtain ⟨s, a⟩ := p
    simp only [List.map_cons, List.mem_cons, not_or] at h
    rw [store, ih _ _ h.2, if_neg h.1]

theorem store_mem : ∀ (res : List (Nat × In (Val M))) (arrays : Arrays M) (s : Nat) (a : In (Val M)),
    (res.map (·.1)).Nodup → (s, a) ∈ res → store arrays res s = a := by
  intro res
  induction res with
  | nil => intro arrays s a _ h; simp at h
  | cons p res ih =>
    intro arrays s a hn h
    obtain ⟨s', a'⟩ := p
    rw [List.map_cons, List.nodup_cons] at hn
    rcases List.mem_cons.1 h with h | h
    · cases h
      rw [store, store_other _ _ _ hn.1, if_pos rfl]
    · rw [store]
      exact ih _ _ _ hn.2 h

/-! ## One evaluator -/

theorem mapM_inputs {inputSlots : List Nat} : ∀ {rs : List (Nat × QT)},
    (∀ r ∈ rs, ∃ s, inputSlots[r.1]? = some s) →
    ∃ inputs, rs.mapM (fun r => inputSlots[r.1]?) = some inputs ∧ inputs.length = rs.length ∧
      ∀ (j : Nat) r, rs[j]? = some r → inputs[j]? = inputSlots[r.1]? := by
  intro rs
  induction rs with
  | nil => intro _; exact ⟨[], rfl, rfl, by simp⟩
  | cons r rs ih =>
    intro h
    obtain ⟨inputs, h1, h2, h3⟩ := ih fun r hr => h r (by simp [hr])
    obtain ⟨s, hs⟩ := h r (by simp)
    refine ⟨s :: inputs, by simp [hs, h1], by simp [h2], ?_⟩
    intro j x hx
    cases j with
    | zero =>
      simp only [List.getElem?_cons_zero, Option.some.injEq] at hx
      subst hx
      simp [hs]
    | succ j => simpa using h3 j x (by simpa using hx)

/-- The frame holds row `i`. -/
def RowIn (c : BCtx M) (required : List (Nat × QT)) (arrays : Arrays M) (inputSlots : List Nat) (i : Nat)
    (f : Frame (Val M)) : Prop :=
  ∀ (j : Nat) r, required[j]? = some r → look (c.opt r.2) (f j) = rowRead c arrays inputSlots i r.2 r.1

/-- The evaluator computes `val flt i` for the output with the filter `flt` in row `i`. -/
def Computes [Semiring M] (c : BCtx M) (required : List (Nat × QT)) (groups : List Filter) (arrays : Arrays M)
    (inputSlots : List Nat) (n : Nat) (val : Filter → Nat → M) (e : Evaluator M) : Prop :=
  ∀ i, i < n → ∀ f, RowIn c required arrays inputSlots i f → ∃ outs, e.eval c.ctx (frameEnv c required f) = some outs ∧
    ∀ (g : Nat) flt, groups[g]? = some flt → outs[g]? = some (val flt i)

theorem runEvaluator_ok [Semiring M] {c : BCtx M} {b : Batched M} {groups : List Filter} {arrays0 arrays : Arrays M}
    {inputSlots : List Nat} {outputs : List OutSlot} {rowCount : Option Nat} {n : Nat} {inputs : List Nat}
    (hb : BatchOk c b.required groups arrays0 inputSlots outputs rowCount n) (hg : b.outputs = groups.length)
    (hin : inputs.length = b.required.length ∧
      ∀ (j : Nat) r, b.required[j]? = some r → inputs[j]? = inputSlots[r.1]?)
    (hsame : ∀ r ∈ b.required, ∀ s, inputSlots[r.1]? = some s → arrays s = arrays0 s)
    {ora : RunOracle M} (ho : OracleOk c b.required arrays0 inputSlots outputs n ora) {e : Evaluator M}
    {val : Filter → Nat → M} (he : Computes c b.required groups arrays0 inputSlots n val e) :
    ∃ arrays', runEvaluator c b inputs outputs (some n) ora e arrays = some (.ok arrays') ∧
      (∀ t, (∀ o ∈ outputs, o.id ≠ t) → arrays' t = arrays t) ∧
      ∀ (g : Nat) o flt, outputs[g]? = some o → groups[g]? = some flt → Holds o n (val flt) (arrays' o.id) := by
  -- the mappings
  have hzip : ∀ m, m ∈ (inputs.map arrays).zip (inSlotsFrom c 0 b.required) ↔
      ∃ (j : Nat) (r : Nat × QT) (s : Nat), b.required[j]? = some r ∧ inputSlots[r.1]? = some s ∧
        m = (arrays0 s, ⟨j, tyOf r.2, c.opt r.2⟩) := by
    intro m
    constructor
    · intro hm
      obtain ⟨j, hj⟩ := List.getElem?_of_mem hm
      rw [List.getElem?_zip_eq_some, List.getElem?_map, inSlots_get, Nat.zero_add] at hj
      obtain ⟨h1, h2⟩ := hj
      cases hr : b.required[j]? with
      | none => rw [hr] at h2; cases h2
      | some r =>
        rw [hr] at h2
        rw [hin.2 j r hr] at h1
        cases hs : inputSlots[r.1]? with
        | none => rw [hs] at h1; cases h1
        | some s =>
          rw [hs] at h1
          simp only [Option.map_some, Option.some.injEq] at h1 h2
          refine ⟨j, r, s, hr, hs, ?_⟩
          rw [← hsame r (List.mem_of_getElem? hr) s hs, h1, h2]
    · rintro ⟨j, r, s, hr, hs, rfl⟩
      apply List.mem_of_getElem? (i := j)
      rw [List.getElem?_zip_eq_some, List.getElem?_map, inSlots_get, Nat.zero_add, hr, hin.2 j r hr, hs]
      simp [hsame r (List.mem_of_getElem? hr) s hs]
  have hki : KeysOk (fun m => m.1.key) ((inputs.map arrays).zip (inSlotsFrom c 0 b.required)) ora.inKeys := by
    refine ⟨ho.in_keys.1, fun k => (ho.in_keys.2 k).trans ?_⟩
    constructor
    · rintro ⟨r, hr, s, hs, hk⟩
      obtain ⟨j, hj⟩ := List.getElem?_of_mem hr
      exact ⟨_, (hzip _).2 ⟨j, r, s, hj, hs, rfl⟩, hk⟩
    · rintro ⟨m, hm, hk⟩
      obtain ⟨j, r, s, hj, hs, rfl⟩ := (hzip m).1 hm
      exact ⟨r, List.mem_of_getElem? hj, s, hs, hk⟩
  have hol : outputs.length = b.outSlots.length := by simp [Batched.outSlots, hb.groups_length, hg]
  have hko : KeysOk (fun m => m.1.key) (outputs.zip b.outSlots) ora.outKeys := by
    refine ⟨ho.out_keys.1, fun k => (ho.out_keys.2 k).trans ?_⟩
    constructor
    · rintro ⟨o, ho, hk⟩
      obtain ⟨g, hg⟩ := List.getElem?_of_mem ho
      have hlt : g < outputs.length := (List.getElem?_eq_some_iff.1 hg).1
      exact ⟨(o, b.outSlots[g]'(by omega)), List.mem_of_getElem? (i := g)
        (by rw [List.getElem?_zip_eq_some]; exact ⟨hg, List.getElem?_eq_getElem _⟩), hk⟩
    · rintro ⟨m, hm, hk⟩
      exact ⟨m.1, (List.of_mem_zip hm).1, hk⟩
  -- creation
  obtain ⟨it, hit⟩ := (Frames.create_iff (outKeys := ora.outKeys) (outputs := outputs) (outSlots := b.outSlots)
      (options := ⟨some n, 64⟩) hki).2 ⟨by rw [List.length_map, inSlots_length, hin.1], hol, by
        intro m hm
        obtain ⟨j, r, s, hj, hs, rfl⟩ := (hzip m).1 hm
        obtain ⟨s', h1, -, -, h4⟩ := hb.inputs r (List.mem_of_getElem? hj)
        rw [hs] at h1
        cases h1
        simpa [In.accepts] using h4, by
        intro m hm
        obtain ⟨h1, h2⟩ := List.of_mem_zip hm
        rw [hb.types _ h1]
        simp only [Batched.outSlots, List.mem_map] at h2
        obtain ⟨g, -, h2⟩ := h2
        rw [← h2], n, by
        intro a ha
        obtain ⟨j, hj⟩ := List.getElem?_of_mem ha
        have hlt := (List.getElem?_eq_some_iff.1 hj).1
        rw [List.length_map] at hlt
        have hz : ((inputs.map arrays).zip (inSlotsFrom c 0 b.required))[j]? =
            some (a, (inSlotsFrom c 0 b.required)[j]'(by rw [inSlots_length]; omega)) := by
          rw [List.getElem?_zip_eq_some]
          exact ⟨hj, List.getElem?_eq_getElem _⟩
        obtain ⟨j', r, s, hj', hs, hm⟩ := (hzip _).1 (List.mem_of_getElem? hz)
        obtain ⟨s', h1, -, h3, -⟩ := hb.inputs r (List.mem_of_getElem? hj')
        rw [hs] at h1
        cases h1
        rw [show a = arrays0 s from congrArg Prod.fst hm]
        exact h3, by simp, by
        intro k hk
        exact (Option.some.inj hk).symm⟩
  obtain ⟨-, -, -, -, -, c6, c7⟩ := Frames.create_ok hki hit
  have hrc : it.rowCount = n := (c6 n rfl).symm
  have hfr : it.frames = min n 64 := by rw [c7, hrc]; rfl
  -- the run
  obtain ⟨res, calls, r1, r2, r3, r4, r5⟩ := Frames.frame_iterator (K := fun _ => False) (base := fun _ => (false, .obj 0))
    (mem := ora.mem) (init := ora.init) hki hko hit (by
      intro a ha
      obtain ⟨j, hj⟩ := List.getElem?_of_mem ha
      have hlt := (List.getElem?_eq_some_iff.1 hj).1
      rw [List.length_map] at hlt
      have hz : ((inputs.map arrays).zip (inSlotsFrom c 0 b.required))[j]? =
          some (a, (inSlotsFrom c 0 b.required)[j]'(by rw [inSlots_length]; omega)) := by
        rw [List.getElem?_zip_eq_some]
        exact ⟨hj, List.getElem?_eq_getElem _⟩
      obtain ⟨j', r, s, hj', hs, hm⟩ := (hzip _).1 (List.mem_of_getElem? hz)
      obtain ⟨s', h1, h2, -, -⟩ := hb.inputs r (List.mem_of_getElem? hj')
      rw [hs] at h1
      cases h1
      rw [show a = arrays0 s from congrArg Prod.fst hm]
      exact h2) (by rw [inSlots_ids]; exact List.nodup_range') (Nat.zero_lt_succ 63) (by simp)
    (evalFrame_respects c b e) (by rw [hrc]; exact ho.mem) (by rw [hfr]; exact ho.init) (by simp) ora.junk
  rw [hrc] at r2 r5
  have hrow : ∀ i f, IsRow ((inputs.map arrays).zip (inSlotsFrom c 0 b.required)) (fun _ => False)
      (fun _ => (false, .obj 0)) i f → RowIn c b.required arrays0 inputSlots i f := by
    intro i f hf j r hr
    obtain ⟨s, hs, -⟩ := hb.inputs r (List.mem_of_getElem? hr)
    have := hf.1 _ ((hzip _).2 ⟨j, r, s, hr, hs, rfl⟩)
    simp only at this
    rw [this, rowRead, hs]; rfl
  have hcalls : ∀ (i : Nat) f, calls[i]? = some f → i < n ∧ RowIn c b.required arrays0 inputSlots i f := by
    intro i f hf
    exact ⟨by have := (List.getElem?_eq_some_iff.1 hf).1; omega, hrow i f (r3 i f hf)⟩
  have hnd : (res.map (·.1)).Nodup := r4.nodup_iff.2 hb.nodup
  refine ⟨store arrays res, ?_, ?_, ?_⟩
  · rw [runEvaluator, hit]
    simp only [r1 (it.rowCount + 1) (by omega)]
    rw [if_pos]
    rw [List.all_eq_true]
    intro f hf
    obtain ⟨i, hi⟩ := List.getElem?_of_mem hf
    obtain ⟨h1, h2⟩ := hcalls i f hi
    obtain ⟨outs, h3, -⟩ := he i h1 f h2
    rw [h3]; rfl
  · intro t ht
    apply store_other
    intro h
    obtain ⟨o, ho, hid⟩ := List.mem_map.1 (r4.mem_iff.1 h)
    exact ht o ho hid
  · intro g o flt hgo hgf
    have hlt : g < outputs.length := (List.getElem?_eq_some_iff.1 hgo).1
    have hslot : b.outSlots[g]? = some ⟨b.required.length + g, 0, false⟩ := by
      simp only [Batched.outSlots, List.getElem?_map]
      rw [List.getElem?_range (by rw [hg, ← hb.groups_length]; exact hlt)]; rfl
    obtain ⟨a, h1, h2, h3, ⟨d, h4, h5⟩, h6⟩ := r5 o ⟨b.required.length + g, 0, false⟩ (List.mem_of_getElem? (i := g)
      (by rw [List.getElem?_zip_eq_some]; exact ⟨hgo, hslot⟩))
    rw [store_mem res arrays o.id a hnd h1]
    refine holds_of_elems h2 (by rw [h3, OutSlot.key, hb.types o (List.mem_of_getElem? hgo)]) h4 (h5 rfl) ?_
    have hget : ∀ i, i < n → ∃ f, calls[i]? = some f := fun i hi =>
      ⟨_, List.getElem?_eq_getElem (by omega)⟩
    rw [h6 (fun i => (calls[i]?).getD fun _ => (false, .obj 0)) (by
      intro i hi
      obtain ⟨f, hf⟩ := hget i hi
      rw [hf]
      exact r3 i f hf)]
    refine List.map_congr_left fun i hi => ?_
    obtain ⟨f, hf⟩ := hget i (List.mem_range.1 hi)
    obtain ⟨k1, k2⟩ := hcalls i f hf
    obtain ⟨outs, k3, k4⟩ := he i k1 f k2
    rw [hf]
    simp only [Option.getD_some, evalFrame]
    rw [if_neg (by omega), k3, Option.bind_some, Nat.add_sub_cancel_left, k4 g flt hgf]
    rfl

end Verif.Batched
