import Verif.Group.IterLemmas
import Mathlib.Data.List.Perm.Subperm

/-! Helper lemmas for `ArrayOpsUtil`. -/

namespace Verif.Group
open Verif.Bits Verif.Bitmap Verif.Dense Verif.Arr

variable {V : Type}

/-- Number of dense rows for a filter. -/
def rowsOf (size : Nat) (f : Filter) : Nat :=
  match f.typ with
  | .full => size
  | .partial' => f.ids.length
  | .empty => 0

/-- What the constructor establishes. -/
structure UtilOk (u : Util V) (size : Nat) (args : List (AArg V)) : Prop where
  sizeEq : u.size = size
  ids : u.ids.Valid size
  dense : DArgsOk (rowsOf size u.ids) u.dense
  stored : ∀ i o, i < size → u.ids.idToOffset i = some o → denseRow u.dense o = row args i
  other : ∀ i, i < size → u.ids.idToOffset i = none →
    row args i = if u.defaultValid then some u.defaults else none

theorem rowsOf_data {a : Arr V} (h : a.Valid) : a.data.values.length = rowsOf a.size a.flt := by
  unfold rowsOf
  cases ht : a.flt.typ with
  | full => exact (valid_full h ht).1
  | partial' => exact valid_partial h ht
  | empty => rw [valid_empty h ht]; rfl

/-- If some required argument bounds the valid ids, then rows outside of its filter are invalid. -/
theorem row_bounds {size : Nat} {args : List (AArg V)} (h : ArgsOk size args) {a : AArg V} (ha : a ∈ args)
    (hb : a.bounds = true) {i : Nat} (hi : i < size) (hn : ¬ a.arr.flt.Has i) : row args i = none := by
  unfold row
  rw [if_neg]
  intro hall
  have := List.all_eq_true.1 hall a ha
  unfold AArg.bounds at hb
  rw [Bool.and_eq_true] at hb
  rw [elem_miss (h a ha).1 hn] at this
  have hopt : a.optional = false := by simpa using hb.1
  rw [hopt, Bool.false_or] at this
  have hm := hb.2
  unfold Arr.hasMissing at hm
  rw [this] at hm
  have hs : 0 < a.arr.size := by rw [(h a ha).2]; omega
  have ht : a.arr.flt.typ ≠ .full := by
    intro ht; exact hn (by unfold Filter.Has; rw [ht]; trivial)
  simp [ht, hs] at hm

/-- If no argument bounds the valid ids, then a row outside of all filters is the default row. -/
theorem row_default {size : Nat} {args : List (AArg V)} (h : ArgsOk size args)
    (hb : ∀ a ∈ args, a.bounds = false) {i : Nat} (hn : ∀ a ∈ args, ¬ a.arr.flt.Has i) :
    row args i = some (args.map (fun a => a.arr.miss)) := by
  have he : ∀ a ∈ args, a.arr.elem i = a.arr.miss := fun a ha => elem_miss (h a ha).1 (hn a ha)
  unfold row
  rw [if_pos]
  · congr 1
    exact List.map_congr_left he
  · rw [List.all_eq_true]
    intro a ha
    rw [he a ha]
    have := hb a ha
    unfold AArg.bounds Arr.hasMissing at this
    cases ho : a.optional with
    | true => rfl
    | false =>
      rw [ho] at this
      simp at this
      simp [this]

theorem denseRow_congr {args : List (AArg V)} {ds : List (Arg V)} {i o : Nat}
    (h : List.Forall₂ (fun (a : AArg V) (d : Arg V) => d.optional = a.optional ∧
      Dense.elem d.arr o = a.arr.elem i) args ds) : denseRow ds o = row args i := by
  have h1 : ds.all (fun a => a.optional || (Dense.elem a.arr o).isSome) =
      args.all (fun a => a.optional || (a.arr.elem i).isSome) := by
    induction h with
    | nil => rfl
    | cons hh _ ih => rw [List.all_cons, List.all_cons, ih, hh.1, hh.2]
  have h2 : ds.map (fun a => Dense.elem a.arr o) = args.map (fun a => a.arr.elem i) := by
    clear h1
    induction h with
    | nil => rfl
    | cons hh _ ih => rw [List.map_cons, List.map_cons, ih, hh.2]
  unfold denseRow row
  rw [h1, h2]

/-- Conversion of all arguments to the filter `ids`. -/
theorem withIds_all (mem : Nat → V) (bmem : Nat → Word) {pe : List Int → List Int → Bool} (hpe : PtrEq pe)
    {size : Nat} {ids : Filter} (hids : ids.Valid size) (m : Arr V → Option V) :
    ∀ {args : List (AArg V)}, ArgsOk size args →
    ∃ ds, args.mapM (fun a => (a.arr.withIds mem bmem pe ids (m a.arr)).bind
        (fun x => some (⟨a.optional, x.data⟩ : Arg V))) = some ds ∧ DArgsOk (rowsOf size ids) ds ∧
      ∀ i o, i < size → ids.idToOffset i = some o →
        List.Forall₂ (fun (a : AArg V) (d : Arg V) => d.optional = a.optional ∧
          Dense.elem d.arr o = a.arr.elem i) args ds := by
  intro args
  induction args with
  | nil => intro _; exact ⟨[], rfl, by intro a ha; simp at ha, fun _ _ _ _ => .nil⟩
  | cons a as ih =>
    intro h
    obtain ⟨ds, e1, e2, e3⟩ := ih (fun x hx => h x (by simp [hx]))
    obtain ⟨hv, hs⟩ := h a (by simp)
    obtain ⟨r, f1, f2, f3, f4, f5, f6⟩ := withIds_spec mem bmem hpe hv (ids := ids) (by rw [hs]; exact hids)
      (m a.arr)
    refine ⟨⟨a.optional, r.data⟩ :: ds, by rw [List.mapM_cons, e1, f1]; rfl, ?_, ?_⟩
    · intro d hd
      rcases List.mem_cons.1 hd with rfl | hd
      · refine ⟨f2.1, ?_⟩
        by_cases h0 : 0 < a.arr.size
        · have := rowsOf_data f2
          rw [f4 h0, f3, hs] at this
          exact this
        · have h0' : a.arr.size = 0 := by omega
          have hr : r = Arr.ofConst a.arr.size (m a.arr) := by
            have := f1
            unfold Arr.withIds at this
            rw [if_pos (Or.inr h0')] at this
            exact (Option.some.inj this).symm
          rw [hr]
          have : rowsOf size ids = 0 := by
            unfold rowsOf
            unfold Filter.Valid at hids
            cases ht : ids.typ <;> rw [ht] at hids <;> simp at hids ⊢ <;> omega
          rw [this]; rfl
      · exact e2 d hd
    · intro i o hi ho
      refine .cons ⟨rfl, ?_⟩ (e3 i o hi ho)
      have hh : ids.Has i := (has_iff hids i).2 (by rw [ho]; rfl)
      rw [← (f6 i (by omega)).1 hh]
      exact (elem_some f2 (by rw [f4 (by omega)]; exact ho)).symm

theorem idToOffset_none {n : Nat} {f : Filter} (h : f.Valid n) {i : Nat} (hn : f.idToOffset i = none) :
    ¬ f.Has i := by
  rw [has_iff h, hn]; simp

theorem make_ok (mem : Nat → V) (bmem : Nat → Word) {pe : List Int → List Int → Bool} (hpe : PtrEq pe)
    {size : Nat} {first : AArg V} {rest : List (AArg V)} (h : ArgsOk size (first :: rest)) :
    ∃ u, Util.make mem bmem pe size first rest = some u ∧ UtilOk u size (first :: rest) := by
  have hother : ∀ (ids : Filter) (i : Nat), i < size →
      ((first :: rest).any AArg.bounds = true → ∃ a ∈ first :: rest, a.bounds = true ∧ ¬ a.arr.flt.Has i) →
      ((first :: rest).any AArg.bounds = false → ∀ a ∈ first :: rest, ¬ a.arr.flt.Has i) →
      row (first :: rest) i = if !((first :: rest).any AArg.bounds) then
        some (if !((first :: rest).any AArg.bounds) then (first :: rest).map (fun a => a.arr.miss) else []) else none := by
    intro ids i hi h1 h2
    cases hb : (first :: rest).any AArg.bounds with
    | true =>
      obtain ⟨a, ha, hab, hn⟩ := h1 hb
      rw [row_bounds h ha hab hi hn]; rfl
    | false =>
      rw [row_default h (by
        intro a ha
        have := List.any_eq_false.1 hb a ha
        simpa using this) (h2 hb)]
      rfl
  unfold Util.make
  split
  · rename_i hsame
    refine ⟨_, rfl, rfl, ?_, ?_, ?_, ?_⟩
    · have := (h first (by simp)).1.2.1
      rw [(h first (by simp)).2] at this; exact this
    all_goals
      have hflt : ∀ a ∈ first :: rest, a.arr.flt = first.arr.flt := by
        intro a ha
        rcases List.mem_cons.1 ha with rfl | ha'
        · rfl
        · have hs := List.all_eq_true.1 hsame a ha'
          have h1 := (h first (by simp)).1.2.1
          have h2 := (h a ha).1.2.1
          rw [(h first (by simp)).2] at h1
          rw [(h a ha).2] at h2
          exact (isSame_spec hpe h1 h2 hs).symm
    · intro d hd
      obtain ⟨a, ha, rfl⟩ := List.mem_map.1 hd
      refine ⟨(h a ha).1.1, ?_⟩
      rw [rowsOf_data (h a ha).1, hflt a ha, (h a ha).2]
    · intro i o hi ho
      apply denseRow_congr
      rw [List.forall₂_map_right_iff, List.forall₂_same]
      intro a ha
      refine ⟨rfl, (elem_some (h a ha).1 ?_).symm⟩
      rw [hflt a ha]; exact ho
    · intro i hi ho
      have hn : ¬ first.arr.flt.Has i := idToOffset_none (h first (by simp)).1.2.1 ho
      refine hother first.arr.flt i hi ?_ ?_
      · intro hb
        obtain ⟨a, ha, hab⟩ := List.any_eq_true.1 hb
        exact ⟨a, ha, hab, by rw [hflt a ha]; exact hn⟩
      · intro _ a ha
        rw [hflt a ha]; exact hn
  · have hfv : ∀ a ∈ first :: rest, a.arr.flt.Valid size := by
      intro a ha
      have := (h a ha).1.2.1
      rw [(h a ha).2] at this; exact this
    have hids : ∃ ids, chooseIds pe first.arr.size first rest = some ids ∧ ids.Valid size ∧
        ∀ i, i < size → ¬ ids.Has i →
          ((first :: rest).any AArg.bounds = true → ∃ a ∈ first :: rest, a.bounds = true ∧ ¬ a.arr.flt.Has i) ∧
          ((first :: rest).any AArg.bounds = false → ∀ a ∈ first :: rest, ¬ a.arr.flt.Has i) := by
      unfold chooseIds
      have hfull : Filter.Valid size .fullF := ⟨rfl, rfl⟩
      split
      · rename_i hb
        set f : AArg V → Filter := fun a => if a.bounds then a.arr.flt else .fullF with hf
        have hv : ∀ a ∈ first :: rest, (f a).Valid size := by
          intro a ha
          rw [hf]; dsimp only
          split
          · exact hfv a ha
          · exact hfull
        obtain ⟨e1, e2, _⟩ := intersect_spec (rest.map f) (f first) (hv first (by simp)) (by
          intro g hg
          obtain ⟨a, ha, rfl⟩ := List.mem_map.1 hg
          exact hv a (by simp [ha]))
        refine ⟨_, rfl, e1, ?_⟩
        intro i hi hn
        refine ⟨fun _ => ?_, fun hb' => by rw [hb'] at hb; simp at hb⟩
        by_contra hne
        apply hn
        apply e2
        intro g hg
        rw [← List.map_cons] at hg
        obtain ⟨a, ha, rfl⟩ := List.mem_map.1 hg
        by_cases hab : a.bounds = true
        · rw [hf]; dsimp only; rw [if_pos hab]
          by_contra hc
          exact hne ⟨a, ha, hab, hc⟩
        · rw [hf]; dsimp only; rw [if_neg hab]; trivial
      · rename_i hb
        obtain ⟨r, e1, e2, e3⟩ := merge_spec hpe (n := size) (rest.map (fun a => a.arr.flt)) first.arr.flt
          (hfv first (by simp)) (by
            intro g hg
            obtain ⟨a, ha, rfl⟩ := List.mem_map.1 hg
            exact hfv a (by simp [ha]))
        rw [(h first (by simp)).2]
        refine ⟨r, e1, e2, ?_⟩
        intro i hi hn
        refine ⟨fun hb' => absurd hb' hb, fun _ a ha hc => hn (e3 i hi ⟨a.arr.flt, ?_, hc⟩)⟩
        rw [← List.map_cons (f := fun (a : AArg V) => a.arr.flt)]
        exact List.mem_map.2 ⟨a, ha, rfl⟩
    obtain ⟨ids, e1, e2, e3⟩ := hids
    obtain ⟨ds, f1, f2, f3⟩ := withIds_all mem bmem hpe e2 (fun a => a.miss) h
    refine ⟨_, by rw [e1]; simp only [Option.bind_eq_bind, Option.bind_some]; rw [f1]; rfl, rfl, e2, f2, ?_, ?_⟩
    · intro i o hi ho
      exact denseRow_congr (f3 i o hi ho)
    · intro i hi ho
      have := e3 i hi (idToOffset_none e2 ho)
      exact hother ids i hi this.1 this.2

theorem makeDense_ok (mem : Nat → V) (bmem : Nat → Word) {pe : List Int → List Int → Bool} (hpe : PtrEq pe)
    {size : Nat} {args : List (AArg V)} (h : ArgsOk size args) (garbage : Bool) :
    ∃ u, Util.makeDense mem bmem pe size args garbage = some u ∧ UtilOk u size args := by
  unfold Util.makeDense
  obtain ⟨ds, f1, f2, f3⟩ := withIds_all mem bmem hpe (ids := .fullF) (size := size) ⟨rfl, rfl⟩
    (fun _ => none) h
  refine ⟨⟨size, .fullF, ds, garbage, []⟩, ?_, rfl, ⟨rfl, rfl⟩, f2, ?_, ?_⟩
  · unfold Arr.toDenseForm
    simp only [Option.bind_eq_bind]
    rw [f1]; rfl
  · intro i o hi ho
    exact denseRow_congr (f3 i o hi ho)
  · intro i hi ho
    simp [Filter.idToOffset, Filter.fullF] at ho

/-! ## Iterate -/

/-- The rows `[x, y)` as (id, row). -/
def irows (args : List (AArg V)) (x y : Int) : List (Int × Option (List (Option V))) :=
  (Arr.gap x y).map (fun z => (z, row args z.toNat))

theorem irows_append {args : List (AArg V)} {a b c : Int} (h1 : a ≤ b) (h2 : b ≤ c) :
    irows args a b ++ irows args b c = irows args a c := by
  unfold irows; rw [← List.map_append, gap_append h1 h2]

theorem expand_rowCall (id : Int) (r : Bool × List (Option V)) :
    (rowCall id r.1 r.2).expand = [(id, if r.1 then some r.2 else none)] := by
  unfold rowCall
  cases r.1 <;> simp [Call.expand]

theorem expand_default (u : Util V) (x y : Int) :
    (u.defaultFn x (y - x)).expand =
      (Arr.gap x y).map (fun z => (z, if u.defaultValid then some u.defaults else none)) := by
  unfold Util.defaultFn Arr.gap
  cases u.defaultValid <;> simp [Call.expand, Function.comp_def]

theorem sparseLoop_spec {u : Util V} {size : Nat} {args : List (AArg V)} (h : UtilOk u size args)
    (ht : u.ids.typ = .partial') : ∀ (rows : List (Row V)) (lo : Nat) (id : Int),
    rows.map Row.meaning = (List.range' lo rows.length).map (fun o => (o, denseRow u.dense o)) →
    lo + rows.length ≤ u.ids.zids.length → 0 ≤ id →
    (∀ (o : Nat) x, u.ids.zids[o]? = some x → (x < id ↔ o < lo)) →
    ∃ calls last, u.sparseLoop rows id = some (calls, last) ∧ id ≤ last ∧
      (∀ (o : Nat) x, u.ids.zids[o]? = some x → (x < last ↔ o < lo + rows.length)) ∧
      (last = id ∨ ∃ o x, o < lo + rows.length ∧ u.ids.zids[o]? = some x ∧ last = x + 1) ∧
      calls.flatMap Call.expand = irows args id last ∧ ∀ c ∈ calls, c.nonempty := by
  intro rows
  induction rows with
  | nil =>
    intro lo id _ _ _ hl
    refine ⟨[], id, rfl, Int.le_refl _, hl, Or.inl rfl, ?_, by simp⟩
    unfold irows; rw [gap_nil (Int.le_refl _)]; rfl
  | cons r rs ih =>
    obtain ⟨o', valid, x⟩ := r
    intro lo id hr hlen h0 hl
    rw [List.length_cons, List.range'_succ, List.map_cons, List.map_cons, List.cons.injEq] at hr
    obtain ⟨hr1, hr2⟩ := hr
    unfold Row.meaning at hr1
    simp only [Prod.mk.injEq] at hr1
    obtain ⟨rfl, hrow⟩ := hr1
    rw [List.length_cons] at hlen
    obtain ⟨newId, hnew⟩ : ∃ n, u.ids.zids[o']? = some n := ⟨_, List.getElem?_eq_getElem (by omega)⟩
    have hinc := h.ids.inc ht
    have hge : id ≤ newId := by have := hl o' newId hnew; omega
    have hb := (fvalid_partial h.ids ht).2.2.2 newId (List.mem_of_getElem? hnew)
    obtain ⟨calls, last, e1, e2, e3, e4, e5, e6⟩ := ih (o' + 1) (newId + 1) hr2 (by omega) (by omega) (by
      intro o y hy
      have := hinc.lt_iff hy hnew
      constructor
      · intro hlt
        rcases Int.lt_or_eq_of_le (show y ≤ newId by omega) with hh | hh
        · have := this.1 hh; omega
        · subst hh
          have := hinc.inj hy hnew; omega
      · intro hlt
        rcases Nat.lt_or_eq_of_le (show o ≤ o' by omega) with hh | hh
        · have := this.2 hh; omega
        · subst hh; rw [hy] at hnew; cases hnew; omega)
    refine ⟨_, _, by rw [Util.sparseLoop, idsOffsetToId_eq, hnew]; simp only [Option.bind_eq_bind,
      Option.bind_some, e1]; rfl, by omega, ?_, ?_, ?_, ?_⟩
    · intro o y hy
      rw [List.length_cons, e3 o y hy]; omega
    · right
      rcases e4 with e4 | ⟨o, y, ho, hy, e4⟩
      · exact ⟨o', newId, by simp, hnew, e4⟩
      · exact ⟨o, y, by rw [List.length_cons]; omega, hy, e4⟩
    · rw [List.flatMap_append, List.flatMap_cons, e5]
      have hstep : irows args newId (newId + 1) = (rowCall newId valid x).expand := by
        rw [expand_rowCall newId (valid, x)]
        unfold irows
        rw [gap_one]
        dsimp only
        rw [hrow]
        simp only [List.map_cons, List.map_nil]
        rw [h.stored newId.toNat o' (by omega) ((idToOffset_iff h.ids ht).2 (by
          rw [hnew]; congr 1; omega))]
      rw [← hstep, irows_append (by omega) e2]
      have hgap : (if id < newId then [u.defaultFn id (newId - id)] else []).flatMap Call.expand =
          irows args id newId := by
        have hg : irows args id newId =
            (Arr.gap id newId).map (fun z => (z, if u.defaultValid then some u.defaults else none)) := by
          unfold irows
          apply List.map_congr_left
          intro z hz
          have hz := mem_gap.1 hz
          have hno : u.ids.idToOffset z.toNat = none := by
            cases hi : u.ids.idToOffset z.toNat with
            | none => rfl
            | some o =>
              have ho := (idToOffset_iff h.ids ht).1 hi
              rw [show ((z.toNat : Nat) : Int) = z by omega] at ho
              have h1 := hl o z ho
              have h2 := hinc.lt_iff ho hnew
              omega
          rw [h.other z.toNat (by omega) hno]
        rw [hg]
        by_cases hlt : id < newId
        · rw [if_pos hlt, List.flatMap_singleton, expand_default]
        · rw [if_neg hlt, gap_nil (by omega)]; rfl
      rw [hgap, irows_append hge (by omega)]
    · intro c hc
      rcases List.mem_append.1 hc with hc | hc
      · split at hc
        · rw [List.mem_singleton] at hc
          subst hc
          unfold Util.defaultFn
          split <;> simp [Call.nonempty] <;> omega
        · simp at hc
      · rcases List.mem_cons.1 hc with rfl | hc
        · unfold rowCall
          split <;> simp [Call.nonempty]
        · exact e6 c hc

theorem drows_shape {ds : List (Arg V)} {rs : List (Row V)} {lo hi : Nat}
    (h : rs.map Row.meaning = drows ds lo hi) : rs.length = hi - lo ∧
    rs.map Row.meaning = (List.range' lo rs.length).map (fun o => (o, denseRow ds o)) := by
  have hl : rs.length = hi - lo := by
    have := congrArg List.length h
    unfold drows at this
    simpa using this
  exact ⟨hl, by rw [hl]; exact h⟩

theorem gap_cast (fr en : Nat) :
    Arr.gap fr en = (List.range' fr (en - fr)).map (fun (i : Nat) => (i : Int)) := by
  unfold Arr.gap
  rw [List.range'_eq_map_range, List.map_map, show ((en : Int) - fr).toNat = en - fr by omega]
  apply List.map_congr_left
  intro i _
  simp

theorem irows_cast (args : List (AArg V)) (fr en : Nat) :
    irows args fr en = (List.range' fr (en - fr)).map (fun (i : Nat) => ((i : Int), row args i)) := by
  unfold irows
  rw [gap_cast, List.map_map]
  apply List.map_congr_left
  intro i _
  simp

theorem lb_zids (f : Filter) (v : Int) : lb f.ids (v + f.off) = lb f.zids v := by
  unfold lb Filter.zids
  induction f.ids with
  | nil => rfl
  | cons x xs ih =>
    rw [List.map_cons, List.takeWhile_cons, List.takeWhile_cons]
    by_cases hx : x < v + f.off
    · have : x - f.off < v := by omega
      simp [hx, this, ih]
    · have : ¬ x - f.off < v := by omega
      simp [hx, this]

theorem iterate_ok {u : Util V} {size : Nat} {args : List (AArg V)} (h : UtilOk u size args) {fr en : Nat}
    (h1 : fr ≤ en) (h2 : en ≤ size) :
    ∃ calls, u.iterate fr en = some calls ∧ calls.flatMap Call.expand = irows args fr en ∧
      ∀ c ∈ calls, c.nonempty := by
  unfold Util.iterate
  cases ht : u.ids.typ with
  | full =>
    rw [if_pos rfl]
    have hd : DArgsOk size u.dense := by
      have := h.dense; unfold rowsOf at this; rw [ht] at this; exact this
    obtain ⟨rs, e1, e2⟩ := denseIterate_spec hd h1 h2
    refine ⟨_, by rw [e1]; rfl, ?_, ?_⟩
    · rw [irows_cast, List.flatMap_map]
      have : rs.flatMap (fun (r : Row V) => (rowCall (r.1 : Int) r.2.1 r.2.2).expand) =
          (rs.map Row.meaning).map (fun p => ((p.1 : Int), p.2)) := by
        rw [List.map_map, List.map_eq_flatMap]
        apply List.flatMap_congr
        intro r _
        rw [expand_rowCall (r.1 : Int) r.2]; rfl
      rw [show (fun (a : Row V) => Call.expand (match a with | (id, valid, args) => rowCall (↑id) valid args)) =
        (fun (r : Row V) => (rowCall (r.1 : Int) r.2.1 r.2.2).expand) from rfl, this, e2]
      unfold drows
      rw [List.map_map]
      apply List.map_congr_left
      intro i hi
      rw [List.mem_range'_1] at hi
      simp only [Function.comp]
      rw [h.stored i i (by omega) (by unfold Filter.idToOffset; rw [ht])]
    · intro c hc
      obtain ⟨r, _, rfl⟩ := List.mem_map.1 hc
      obtain ⟨a, b, c⟩ := r
      dsimp only
      unfold rowCall
      split <;> simp [Call.nonempty]
  | partial' =>
    rw [if_neg (by simp), lb_zids, lb_zids]
    have hinc := h.ids.inc ht
    have hd : DArgsOk u.ids.zids.length u.dense := by
      have := h.dense; unfold rowsOf at this; rw [ht, ← zids_length] at this; exact this
    have hle : lb u.ids.zids fr ≤ lb u.ids.zids en := by
      by_contra hc
      have hlen := lb_le u.ids.zids (fr : Int)
      obtain ⟨x, hx⟩ : ∃ x, u.ids.zids[lb u.ids.zids en]? = some x :=
        ⟨_, List.getElem?_eq_getElem (by omega)⟩
      have a1 := lb_spec hinc (v := (fr : Int)) hx
      have a2 := lb_spec hinc (v := (en : Int)) hx
      omega
    have hlen := lb_le u.ids.zids (en : Int)
    obtain ⟨rs, e1, e2⟩ := denseIterate_spec hd hle hlen
    obtain ⟨hl, hs⟩ := drows_shape e2
    obtain ⟨calls, last, g1, g2, g3, g4, g5, g6⟩ := sparseLoop_spec h ht rs (lb u.ids.zids fr) fr hs (by omega)
      (by omega) (fun o x hx => lb_spec hinc hx)
    have hsum : lb u.ids.zids fr + rs.length = lb u.ids.zids en := by clear g4; omega
    rw [hsum] at g3 g4
    have hlast : last ≤ en := by
      rcases g4 with g4 | ⟨o, x, ho, hx, g4⟩
      · omega
      · have := (lb_spec hinc (v := (en : Int)) hx).2 ho
        omega
    refine ⟨_, by dsimp only; rw [e1]; simp only [Option.bind_eq_bind, Option.bind_some, g1]; rfl, ?_, ?_⟩
    · rw [List.flatMap_append, g5, ← irows_append g2 hlast]
      congr 1
      have hg : irows args last en =
          (Arr.gap last en).map (fun z => (z, if u.defaultValid then some u.defaults else none)) := by
        unfold irows
        apply List.map_congr_left
        intro z hz
        have hz := mem_gap.1 hz
        have hno : u.ids.idToOffset z.toNat = none := by
          cases hi : u.ids.idToOffset z.toNat with
          | none => rfl
          | some o =>
            have ho := (idToOffset_iff h.ids ht).1 hi
            rw [show ((z.toNat : Nat) : Int) = z by omega] at ho
            have a1 := g3 o z ho
            have a2 := lb_spec hinc (v := (en : Int)) ho
            omega
        rw [h.other z.toNat (by omega) hno]
      rw [hg]
      by_cases hlt : last < en
      · rw [if_pos hlt, List.flatMap_singleton, expand_default]
      · rw [if_neg hlt, gap_nil (by omega)]; rfl
    · intro c hc
      rcases List.mem_append.1 hc with hc | hc
      · exact g6 c hc
      · split at hc
        · rw [List.mem_singleton] at hc
          subst hc
          unfold Util.defaultFn
          split <;> simp [Call.nonempty] <;> omega
        · simp at hc
  | empty =>
    rw [if_neg (by simp)]
    have hids : u.ids.ids = [] := by
      have := h.ids; unfold Filter.Valid at this; rw [ht] at this; exact this.1
    have hd : DArgsOk 0 u.dense := by
      have := h.dense; unfold rowsOf at this; rw [ht] at this; exact this
    obtain ⟨rs, e1, e2⟩ := denseIterate_spec hd (Nat.le_refl 0) (Nat.le_refl 0)
    have hrs : rs = [] := by
      have := (drows_shape e2).1
      exact List.eq_nil_of_length_eq_zero (by omega)
    subst hrs
    rw [hids]
    refine ⟨_, by dsimp only [lb, List.takeWhile_nil, List.length_nil]; rw [e1]; rfl, ?_, ?_⟩
    · rw [List.nil_append]
      have hg : irows args fr en =
          (Arr.gap fr en).map (fun z => (z, if u.defaultValid then some u.defaults else none)) := by
        unfold irows
        apply List.map_congr_left
        intro z hz
        have hz := mem_gap.1 hz
        rw [h.other z.toNat (by omega) (by unfold Filter.idToOffset; rw [ht])]
      rw [hg]
      by_cases hlt : (fr : Int) < en
      · rw [if_pos hlt, List.flatMap_singleton, expand_default]
      · rw [if_neg hlt, gap_nil (by omega)]; rfl
    · intro c hc
      rw [List.nil_append] at hc
      split at hc
      · rw [List.mem_singleton] at hc
        subst hc
        unfold Util.defaultFn
        split <;> simp [Call.nonempty] <;> omega
      · simp at hc

/-! ## IterateSimple -/

/-- The valid rows of a list of rows. -/
def onlyValid (l : List (Int × Option (List (Option V)))) : List (Int × List (Option V)) :=
  l.filterMap (fun p => p.2.map (fun x => (p.1, x)))

theorem onlyValid_append (a b : List (Int × Option (List (Option V)))) :
    onlyValid (a ++ b) = onlyValid a ++ onlyValid b := List.filterMap_append

theorem onlyValid_const_some (l : List Int) (d : List (Option V)) :
    onlyValid (l.map (fun z => (z, some d))) = l.map (fun z => (z, d)) := by
  unfold onlyValid
  rw [List.filterMap_map, ← List.filterMap_eq_map]
  rfl

theorem onlyValid_const_none (l : List Int) :
    onlyValid (l.map (fun z => (z, (none : Option (List (Option V)))))) = [] := by
  unfold onlyValid
  rw [List.filterMap_map]
  exact List.filterMap_eq_nil_iff.2 (fun _ _ => rfl)

theorem onlyValid_default (u : Util V) (x y : Int) :
    onlyValid ((Arr.gap x y).map (fun z => (z, if u.defaultValid then some u.defaults else none))) =
      if u.defaultValid then (Arr.gap x y).map (fun i => (i, u.defaults)) else [] := by
  cases u.defaultValid with
  | true => exact onlyValid_const_some _ _
  | false => exact onlyValid_const_none _

theorem simpleLoop_eq (u : Util V) : ∀ (rows : List (Row V)) (id : Int) calls last,
    u.sparseLoop rows id = some (calls, last) →
    u.simpleLoop rows id = some (onlyValid (calls.flatMap Call.expand), last) := by
  intro rows
  induction rows with
  | nil =>
    intro id calls last h
    rw [Util.sparseLoop] at h
    cases h; rfl
  | cons r rs ih =>
    obtain ⟨o, valid, x⟩ := r
    intro id calls last h
    rw [Util.sparseLoop] at h
    cases hn : u.ids.idsOffsetToId o with
    | none => rw [hn] at h; cases h
    | some newId =>
      cases hr : u.sparseLoop rs (newId + 1) with
      | none => rw [hn] at h; simp only [Option.bind_eq_bind, Option.bind_some, hr] at h; cases h
      | some p =>
        obtain ⟨c', l'⟩ := p
        rw [hn] at h
        simp only [Option.bind_eq_bind, Option.bind_some, hr] at h
        cases h
        rw [Util.simpleLoop, hn]
        simp only [Option.bind_eq_bind, Option.bind_some, ih _ _ _ hr]
        congr 2
        rw [List.flatMap_append, List.flatMap_cons, onlyValid_append, onlyValid_append, ← List.append_assoc]
        congr 1
        congr 1
        · by_cases hlt : id < newId
          · rw [if_pos hlt, List.flatMap_singleton, expand_default, onlyValid_default]
          · rw [if_neg hlt, gap_nil (by omega)]
            cases u.defaultValid <;> rfl
        · rw [expand_rowCall newId (valid, x)]
          cases valid <;> rfl

theorem iterateSimple_ok {u : Util V} {size : Nat} {args : List (AArg V)} (h : UtilOk u size args) :
    u.iterateSimple = some (onlyValid (irows args 0 size)) := by
  unfold Util.iterateSimple
  cases ht : u.ids.typ with
  | full =>
    rw [if_pos rfl, h.sizeEq]
    have hd : DArgsOk size u.dense := by
      have := h.dense; unfold rowsOf at this; rw [ht] at this; exact this
    obtain ⟨rs, e1, e2⟩ := denseIterateFromZero_spec hd (Nat.le_refl size)
    rw [e1]
    simp only [Option.bind_eq_bind, Option.bind_some]
    congr 1
    have hc := irows_cast args 0 size
    rw [show ((0 : Nat) : Int) = 0 from rfl] at hc
    rw [hc]
    have : (List.range' 0 (size - 0)).map (fun (i : Nat) => ((i : Int), row args i)) =
        (rs.map Row.meaning).map (fun p => ((p.1 : Int), p.2)) := by
      rw [e2]
      unfold drows
      rw [List.map_map]
      apply List.map_congr_left
      intro i hi
      rw [List.mem_range'_1] at hi
      simp only [Function.comp]
      rw [h.stored i i (by omega) (by unfold Filter.idToOffset; rw [ht])]
    rw [this]
    unfold onlyValid
    rw [List.map_map, List.filterMap_map]
    apply List.filterMap_congr
    intro r _
    obtain ⟨a, b, c⟩ := r
    cases b <;> rfl
  | partial' =>
    rw [if_neg (by simp)]
    have hinc := h.ids.inc ht
    have hd : DArgsOk u.ids.ids.length u.dense := by
      have := h.dense; unfold rowsOf at this; rw [ht] at this; exact this
    obtain ⟨rs, e1, e2⟩ := denseIterateFromZero_spec hd (Nat.le_refl _)
    obtain ⟨hl, hs⟩ := drows_shape e2
    have hbnd := (fvalid_partial h.ids ht).2.2.2
    obtain ⟨calls, last, g1, g2, g3, g4, g5, g6⟩ := sparseLoop_spec h ht rs 0 0 hs
      (by rw [zids_length]; omega) (by omega) (by
        intro o x hx
        have := hbnd x (List.mem_of_getElem? hx)
        omega)
    have hlast : last ≤ size := by
      rcases g4 with g4 | ⟨o, x, ho, hx, g4⟩
      · omega
      · have := hbnd x (List.mem_of_getElem? hx)
        omega
    rw [e1]
    simp only [Option.bind_eq_bind, Option.bind_some]
    rw [simpleLoop_eq u _ _ _ _ g1]
    simp only [Option.bind_some]
    rw [g5, ← irows_append g2 hlast, onlyValid_append, h.sizeEq]
    congr 2
    have hg : irows args last size =
        (Arr.gap last size).map (fun z => (z, if u.defaultValid then some u.defaults else none)) := by
      unfold irows
      apply List.map_congr_left
      intro z hz
      have hz := mem_gap.1 hz
      have hno : u.ids.idToOffset z.toNat = none := by
        cases hi : u.ids.idToOffset z.toNat with
        | none => rfl
        | some o =>
          have ho := (idToOffset_iff h.ids ht).1 hi
          rw [show ((z.toNat : Nat) : Int) = z by omega] at ho
          have a1 := g3 o z ho
          have a2 : o < u.ids.zids.length := by
            by_contra hc
            rw [List.getElem?_eq_none (by omega)] at ho
            cases ho
          rw [zids_length] at a2
          clear g4
          omega
      rw [h.other z.toNat (by omega) hno]
    rw [hg, onlyValid_default]
  | empty =>
    rw [if_neg (by simp)]
    have hids : u.ids.ids = [] := by
      have := h.ids; unfold Filter.Valid at this; rw [ht] at this; exact this.1
    rw [hids, h.sizeEq]
    have hg : irows args 0 size =
        (Arr.gap 0 size).map (fun z => (z, if u.defaultValid then some u.defaults else none)) := by
      unfold irows
      apply List.map_congr_left
      intro z hz
      have hz := mem_gap.1 hz
      rw [h.other z.toNat (by omega) (by unfold Filter.idToOffset; rw [ht])]
    rw [hg, onlyValid_default]
    rfl

theorem estimate_ok {u : Util V} {size : Nat} {args : List (AArg V)} (h : UtilOk u size args) :
    ((List.range size).filter (fun i => (row args i).isSome)).length ≤ u.estimate ∧ u.estimate ≤ size := by
  have hf : ((List.range size).filter (fun i => (row args i).isSome)).length ≤ size := by
    have := (List.filter_sublist (l := List.range size) (p := fun i => (row args i).isSome)).length_le
    simpa using this
  unfold Util.estimate
  rw [h.sizeEq]
  split
  · exact ⟨hf, Nat.le_refl _⟩
  · rename_i hc
    have hnf : u.ids.typ ≠ .full := fun hh => hc (Or.inl hh)
    have hnd : u.defaultValid = false := by
      cases hd : u.defaultValid with
      | true => exact absurd (Or.inr hd) hc
      | false => rfl
    have hno : ∀ i, i < size → u.ids.idToOffset i = none → (row args i).isSome = false := by
      intro i hi ho
      rw [h.other i hi ho, hnd]; rfl
    cases ht : u.ids.typ with
    | full => exact absurd ht hnf
    | empty =>
      have hids : u.ids.ids = [] := by
        have := h.ids; unfold Filter.Valid at this; rw [ht] at this; exact this.1
      rw [hids]
      refine ⟨?_, by simp⟩
      rw [List.length_nil, Nat.le_zero, List.length_eq_zero_iff, List.filter_eq_nil_iff]
      intro i hi
      rw [hno i (List.mem_range.1 hi) (by unfold Filter.idToOffset; rw [ht])]
      simp
    | partial' =>
      have hb := fvalid_partial h.ids ht
      refine ⟨?_, by omega⟩
      have hnd : (((List.range size).filter (fun i => (row args i).isSome)).map
          (fun (i : Nat) => (i : Int))).Nodup := by
        refine List.Nodup.map (fun a b hab => Int.ofNat.inj hab) ?_
        exact (List.nodup_range).filter _
      have hsub := List.subperm_of_subset (l₂ := u.ids.zids) hnd (by
        intro x hx
        obtain ⟨i, hi, rfl⟩ := List.mem_map.1 hx
        rw [List.mem_filter, List.mem_range] at hi
        cases ho : u.ids.idToOffset i with
        | none =>
          have := hno i hi.1 ho
          rw [this] at hi
          exact absurd hi.2 (by simp)
        | some o => exact List.mem_of_getElem? ((idToOffset_iff h.ids ht).1 ho))
      have := hsub.length_le
      rw [List.length_map, zids_length] at this
      exact this

end Verif.Group
