import Verif.Group.MapLemmas

/-!
# Lemmas: the group operations with a mapping
-/

namespace Verif.Group
open Verif.Dense Verif.Arr Verif.Agg

variable {V P A R E S β X : Type}

/-! ## Resets -/

/-- The accumulators and flags after the parent rows. -/
def ResetTo (op : GroupOp V P A R E S β) (prow : Nat → Option (List (Option V))) (l : List Nat) (f : Nat → S) (v : Nat → Bool)
    (f' : Nat → S) (v' : Nat → Bool) : Prop :=
  (∀ i ∈ l, v' i = (v i || (prow i).isSome) ∧ ∀ a, prow i = some a → f' i = op.acc.reset (op.parg a) (f i)) ∧
  (∀ i, i ∉ l → v' i = v i ∧ f' i = f i)

theorem resetTo_cons {op : GroupOp V P A R E S β} {prow : Nat → Option (List (Option V))} {i : Nat} {l : List Nat}
    {f f1 f' : Nat → S} {v v1 v' : Nat → Bool} (hi : i ∉ l) (h : ResetTo op prow l f1 v1 f' v')
    (h1 : v1 i = (v i || (prow i).isSome)) (h2 : ∀ a, prow i = some a → f1 i = op.acc.reset (op.parg a) (f i))
    (h3 : ∀ j, j ≠ i → v1 j = v j ∧ f1 j = f j) : ResetTo op prow (i :: l) f v f' v' := by
  refine ⟨?_, ?_⟩
  · intro j hj
    rcases List.mem_cons.1 hj with rfl | hj
    · obtain ⟨h4, h5⟩ := h.2 j hi
      exact ⟨by rw [h4, h1], fun a ha => by rw [h5, h2 a ha]⟩
    · have hne : j ≠ i := fun hh => hi (hh ▸ hj)
      obtain ⟨h4, h5⟩ := h.1 j hj
      obtain ⟨h6, h7⟩ := h3 j hne
      exact ⟨by rw [h4, h6], fun a ha => by rw [h5 a ha, h7]⟩
  · intro j hj
    rw [List.mem_cons, not_or] at hj
    obtain ⟨h4, h5⟩ := h.2 j hj.2
    obtain ⟨h6, h7⟩ := h3 j hj.1
    exact ⟨by rw [h4, h6], by rw [h5, h7]⟩

theorem denseResets_ok (op : GroupOp V P A R E S β) {prow : Nat → Option (List (Option V))} {n : Nat} :
    ∀ (ps : List (Row V)) (l : List Nat) (f : Nat → S) (v : Nat → Bool),
    ps.map Row.meaning = l.map (fun i => (i, prow i)) → l.Nodup → (∀ i ∈ l, i < n) → (∀ i ∈ l, v i = false) →
    ∃ f' v', op.denseResets ps ⟨(List.range n).map f, (List.range n).map v⟩ =
      some ⟨(List.range n).map f', (List.range n).map v'⟩ ∧ ResetTo op prow l f v f' v'
  | [], [], f, v, _, _, _, _ => ⟨f, v, rfl, fun _ h => (by cases h), fun _ _ => ⟨rfl, rfl⟩⟩
  | [], _ :: _, _, _, h, _, _, _ => by simp at h
  | _ :: _, [], _, _, h, _, _, _ => by simp at h
  | (j, ok, args) :: ps, i :: l, f, v, h, hn, hb, hv => by
    simp only [List.map_cons, List.cons.injEq] at h
    obtain ⟨h1, h2⟩ := h
    simp only [Row.meaning, Prod.mk.injEq] at h1
    obtain ⟨rfl, h1⟩ := h1
    have hj : j < n := hb j (List.mem_cons_self ..)
    have hn := List.nodup_cons.1 hn
    have hvj := hv j (List.mem_cons_self ..)
    have hv' : ∀ i ∈ l, upd v j ok i = false := by
      intro i hi
      unfold upd
      rw [if_neg (fun hh : i = j => hn.1 (hh ▸ hi))]
      exact hv i (List.mem_cons_of_mem _ hi)
    cases ok with
    | false =>
      simp only [Bool.false_eq_true, if_false] at h1
      obtain ⟨f', v', e1, e2⟩ := denseResets_ok op ps l f (upd v j false) h2 hn.2
        (fun i hi => hb i (List.mem_cons_of_mem _ hi)) hv'
      refine ⟨f', v', ?_, resetTo_cons hn.1 e2 (by simp [upd, ← h1, hvj]) (by simp [← h1])
        (fun i hi => ⟨by simp [upd, hi], rfl⟩)⟩
      rw [GroupOp.denseResets]
      simp only [Bool.false_eq_true, if_false, Option.bind_eq_bind, Option.bind_some, wr_map v hj]
      exact e1
    | true =>
      simp only [if_true] at h1
      obtain ⟨f', v', e1, e2⟩ := denseResets_ok op ps l (upd f j (op.acc.reset (op.parg args) (f j))) (upd v j true) h2 hn.2
        (fun i hi => hb i (List.mem_cons_of_mem _ hi)) hv'
      refine ⟨f', v', ?_, resetTo_cons hn.1 e2 (by simp [upd, ← h1]) ?_
        (fun i hi => ⟨by simp [upd, hi], by simp [upd, hi]⟩)⟩
      · rw [GroupOp.denseResets]
        simp only [if_true, Option.bind_eq_bind, Option.bind_some, wr_map v hj, wr_map f hj, get_map f hj]
        exact e1
      · intro a ha
        rw [← h1] at ha
        injection ha with ha
        subst ha
        simp [upd]

theorem resets_ok (op : GroupOp V P A R E S β) {prow : Nat → Option (List (Option V))} {n : Nat} :
    ∀ (l : List Nat) (f : Nat → S) (v : Nat → Bool), l.Nodup → (∀ i ∈ l, i < n) →
    ∃ f' v', op.resets (l.filterMap fun i => (prow i).map fun a => (i, a)) ⟨(List.range n).map f, (List.range n).map v⟩ =
      some ⟨(List.range n).map f', (List.range n).map v'⟩ ∧ ResetTo op prow l f v f' v'
  | [], f, v, _, _ => ⟨f, v, rfl, fun _ h => (by cases h), fun _ _ => ⟨rfl, rfl⟩⟩
  | i :: l, f, v, hn, hb => by
    have hi : i < n := hb i (List.mem_cons_self ..)
    have hn := List.nodup_cons.1 hn
    cases hp : prow i with
    | none =>
      obtain ⟨f', v', e1, e2⟩ := resets_ok op l f v hn.2 (fun i hi => hb i (List.mem_cons_of_mem _ hi))
      refine ⟨f', v', ?_, resetTo_cons hn.1 e2 (by simp [hp]) (by simp [hp]) (fun _ _ => ⟨rfl, rfl⟩)⟩
      rw [List.filterMap_cons]
      simp only [hp, Option.map_none]
      exact e1
    | some a =>
      obtain ⟨f', v', e1, e2⟩ := resets_ok op l (upd f i (op.acc.reset (op.parg a) (f i))) (upd v i true) hn.2
        (fun i hi => hb i (List.mem_cons_of_mem _ hi))
      refine ⟨f', v', ?_, resetTo_cons hn.1 e2 (by simp [upd, hp]) ?_
        (fun i hi => ⟨by simp [upd, hi], by simp [upd, hi]⟩)⟩
      · rw [List.filterMap_cons]
        simp only [hp, Option.map_some]
        rw [GroupOp.resets]
        simp only [Option.bind_eq_bind, Option.bind_some, wr_map v hi, wr_map f hi, get_map f hi]
        exact e1
      · intro b hb
        rw [hp] at hb
        injection hb with hb
        subst hb
        simp [upd]

/-! ## Rows with the parent as first value -/

/-- Rows of the mapping and the child arguments, and the links they stand for. -/
def Decodes (op : GroupOp V P A R E S β) (m : Nat × List (Option V)) (x : Nat × Nat × List (Option V)) : Prop :=
  m.1 = x.1 ∧ op.parentId m.2 = some x.2.1 ∧ m.2.tail = x.2.2

theorem decodes_links (op : GroupOp V P A R E S β) {d : Rows V} {el : Nat → Option V}
    (hid : ∀ c, c < d.nc → ∀ v, el c = some v → 0 ≤ op.idOf v) (hp : d.parentOf = fun c => (el c).map fun v => (op.idOf v).toNat)
    {f : Nat → Option (List (Option V))} (hf : ∀ c, f c = (el c).bind fun v => (d.crow c).map fun a => some v :: a) :
    List.Forall₂ (Decodes op) (validRows f 0 d.nc) d.links := by
  unfold validRows Rows.links
  rw [Nat.sub_zero, ← List.range_eq_range', hp]
  have : ∀ l : List Nat, (∀ c ∈ l, c < d.nc) → List.Forall₂ (Decodes op)
      (l.filterMap fun i => (f i).map fun a => (i, a))
      (l.filterMap fun c => ((el c).map fun v => (op.idOf v).toNat).bind fun i => (d.crow c).map fun a => (c, i, a)) := by
    intro l
    induction l with
    | nil => intro _; exact .nil
    | cons c l ih =>
      intro h
      have ih := ih (fun c hc => h c (List.mem_cons_of_mem _ hc))
      rw [List.filterMap_cons, List.filterMap_cons, hf]
      cases he : el c with
      | none => exact ih
      | some v =>
        cases hc : d.crow c with
        | none => exact ih
        | some a =>
          refine .cons ⟨rfl, ?_, rfl⟩ ih
          have := hid c (h c (List.mem_cons_self ..)) v he
          simp [GroupOp.parentId, Arr.toIdx, Int.not_lt.2 this]
  exact this _ (fun c hc => List.mem_range.1 hc)

theorem mapRows_eq (op : GroupOp V P A R E S β) {n : Nat} (v : Nat → Bool) :
    ∀ {rows : List (Nat × List (Option V))} {L : Links V}, List.Forall₂ (Decodes op) rows L → (∀ x ∈ L, x.2.1 < n) →
    ∀ st, op.mapRows ((List.range n).map v) rows st =
      op.mapAll (L.filter fun x => decide (op.kind = .aggregator) || v x.2.1) st := by
  intro rows L h
  induction h with
  | nil => intro _ st; rfl
  | @cons m x rows L hd _ ih =>
    intro hb st
    obtain ⟨c, i, a⟩ := x
    obtain ⟨c', args⟩ := m
    obtain ⟨h1, h2, h3⟩ := hd
    dsimp only at h1 h2 h3
    subst h1
    have hi : i < n := hb _ (List.mem_cons_self ..)
    have ih := ih (fun x hx => hb x (List.mem_cons_of_mem _ hx))
    rw [GroupOp.mapRows, h2]
    simp only [Option.bind_eq_bind, Option.bind_some, get_map v hi, h3, List.filter_cons]
    by_cases hk : op.kind = .aggregator
    · simp only [hk, decide_true, Bool.true_or, if_true, GroupOp.mapAll]
      congr 1
      funext st
      rw [ih st]
      simp [hk]
    · simp only [hk, decide_false, Bool.false_or, if_false]
      cases hv : v i with
      | true =>
        simp only [if_true, GroupOp.mapAll]
        congr 1
        funext st
        rw [ih st]
        simp [hk]
      | false =>
        simp only [Bool.false_eq_true, if_false]
        rw [ih st]
        simp [hk]

theorem denseMapRows_eq (op : GroupOp V P A R E S β) {n : Nat} (v : Nat → Bool) :
    ∀ (rs : List (Row V)) {L : Links V}, List.Forall₂ (Decodes op) (validOf rs) L → (∀ x ∈ L, x.2.1 < n) →
    ∀ st, op.denseMapRows ((List.range n).map v) rs st = op.mapAll (L.filter fun x => v x.2.1) st := by
  intro rs
  induction rs with
  | nil =>
    intro L h _ st
    cases h
    rfl
  | cons r rs ih =>
    intro L h hb st
    obtain ⟨c, ok, args⟩ := r
    rw [GroupOp.denseMapRows]
    cases ok with
    | false =>
      simp only [Bool.false_eq_true, if_false]
      exact ih h hb st
    | true =>
      have h : List.Forall₂ (Decodes op) ((c, args) :: validOf rs) L := h
      cases h with
      | @cons _ x _ L hd ht =>
        obtain ⟨c', i, a⟩ := x
        obtain ⟨h1, h2, h3⟩ := hd
        dsimp only at h1 h2 h3
        subst h1
        have hi : i < n := hb _ (List.mem_cons_self ..)
        have ih := ih ht (fun x hx => hb x (List.mem_cons_of_mem _ hx))
        simp only [if_true, h2, Option.bind_eq_bind, Option.bind_some, get_map v hi, h3, List.filter_cons]
        cases hv : v i with
        | true =>
          simp only [if_true, GroupOp.mapAll]
          congr 1
          funext st
          exact ih st
        | false =>
          simp only [Bool.false_eq_true, if_false]
          exact ih st

/-- The input of the loops, from the resets. -/
theorem mapIn_of {op : GroupOp V P A R E S β} {d : Rows V} (hd : d.Ok) {f' : Nat → S} {v' : Nat → Bool}
    (h : ResetTo op d.prow (List.range d.np) (fun _ => op.empty) (fun _ => false) f' v') (b : Bool)
    (hb : b = true → op.kind = .aggregator) :
    MapIn op d v' f' (d.links.filter fun x => b || v' x.2.1) := by
  have hv : ∀ i, i < d.np → v' i = (d.prow i).isSome := by
    intro i hi
    rw [(h.1 i (List.mem_range.2 hi)).1]
    rfl
  refine ⟨hv, fun i a hi ha => (h.1 i (List.mem_range.2 hi)).2 a ha, ?_, ?_, ?_, ?_⟩
  · intro x hx
    have := mem_links (List.mem_filter.1 hx).1
    exact hd _ _ this.1 this.2.1
  · intro i hi hvi
    rw [kidsOf_filter _ (fun i => b || v' i) (by simp [hvi]), kids_links]
  · exact (inc_links d).sublist ((List.filter_sublist).map _)
  · intro hk x hx
    have := (List.mem_filter.1 hx).2
    cases b with
    | true => exact absurd (hb rfl) hk
    | false => simpa using this

/-! ## Dense arrays -/

theorem denseMapping_correct {op : GroupOp V P A R E S β} (mem : Nat → β) {d : Rows V} (hd : d.Ok) {pargs cargs : List (Arg V)}
    (hp : DArgs d.np pargs) (hc : DArgs d.nc cargs) (hprow : d.prow = denseRow pargs) (hcrow : d.crow = denseRow cargs)
    {mapping : DArr V} (hm : mapping.Valid) (hms : mapping.values.length = d.nc)
    (hid : ∀ c, c < d.nc → ∀ v, Dense.elem mapping c = some v → 0 ≤ op.idOf v)
    (hpar : d.parentOf = fun c => (Dense.elem mapping c).map fun v => (op.idOf v).toNat) :
    op.Correct d goodDense (op.denseMapping mem d.np d.nc mapping pargs cargs) := by
  obtain ⟨ps, p1, p2⟩ := dense_iterate_from_zero hp (Nat.le_refl _)
  rw [← hprow, ← List.range_eq_range'] at p2
  obtain ⟨f', v', r1, r2⟩ := denseResets_ok op ps (List.range d.np) (fun _ => op.empty) (fun _ => false) p2
    List.nodup_range (fun i hi => List.mem_range.1 hi) (fun _ _ => rfl)
  obtain ⟨rs, q1, q2⟩ := dense_iterate (n := d.nc) (args := ⟨false, mapping⟩ :: cargs) (by
    intro a ha
    rcases List.mem_cons.1 ha with rfl | ha
    · exact ⟨hm, hms⟩
    · exact hc a ha) (Nat.zero_le _) (Nat.le_refl _)
  have hrow : ∀ c, denseRow (⟨false, mapping⟩ :: cargs) c =
      (Dense.elem mapping c).bind fun v => (d.crow c).map fun a => some v :: a := by
    intro c
    rw [hcrow]
    unfold denseRow
    cases he : Dense.elem mapping c with
    | none => simp [he]
    | some v =>
      simp only [List.all_cons, he, Option.isSome_some, Bool.or_true, Bool.true_and, Option.bind_some, List.map_cons]
      split <;> rfl
  have hdec := decodes_links op hid hpar hrow
  have hvo := validOf_eq q2
  unfold validRows at hdec
  rw [← hvo] at hdec
  have hin := mapIn_of hd r2 false (by simp)
  simp only [Bool.false_or] at hin
  obtain ⟨cs, rs', accs, m1, m2⟩ := map_run hin
  have hbound : ∀ x ∈ d.links, x.2.1 < d.np := fun x hx => hd _ _ (mem_links hx).1 (mem_links hx).2.1
  have hre : op.reread mapping.values cs.rows = some cs.rows := by
    have : ∀ (l : List (Nat × Nat)), (∀ x ∈ l, op.split mapping.values x.1 = some x.2) → op.reread mapping.values l = some l := by
      intro l
      induction l with
      | nil => intro _; rfl
      | cons x l ih =>
        intro h
        have ih := ih (fun x hx => h x (List.mem_cons_of_mem _ hx))
        unfold GroupOp.reread at ih ⊢
        rw [List.mapM_cons, ih, h x (List.mem_cons_self ..)]
        rfl
    apply this
    intro x hx
    rw [m2.rows] at hx
    split at hx
    · obtain ⟨y, hy, rfl⟩ := List.mem_map.1 hx
      obtain ⟨h1, h2, _⟩ := mem_links (List.mem_filter.1 hy).1
      rw [hpar] at h2
      obtain ⟨v, hv, h2⟩ := Option.map_eq_some_iff.1 h2
      have h0 := hid _ h1 v hv
      have hval : mapping.values[y.1]? = some v := by
        unfold Dense.elem at hv
        split at hv
        · exact hv
        · cases hv
      dsimp only
      unfold GroupOp.split Arr.toIdx
      rw [hval, Option.bind_some, if_neg (by omega), h2]
    · cases hx
  unfold GroupOp.denseMapping
  rw [p1]
  simp only [Option.bind_eq_bind, Option.bind_some]
  have hrep : ∀ {Y : Type} (y : Y), List.replicate d.np y = (List.range d.np).map fun _ => y := by
    intro Y y
    rw [List.map_const', List.length_range]
  rw [hrep, hrep, r1]
  simp only [Option.bind_some]
  rw [q1]
  simp only [Option.bind_some]
  rw [denseMapRows_eq op v' rs hdec hbound, m1]
  simp only [Option.bind_some]
  rw [hre]
  simp only [Option.bind_some]
  rw [m2.get]
  simp only [Option.bind_some]
  unfold GroupOp.Correct
  rw [← anyErr_iff, ← m2.err]
  cases hl : (op.lastLoop 0 ((List.range d.np).map v') accs).2 with
  | some e => exact ⟨fun _ => ⟨e, rfl⟩, fun hh => absurd rfl hh⟩
  | none =>
    refine ⟨fun hh => (by cases hh), fun _ => ?_⟩
    have hall : ((cs.sets ++ rs' ++ (op.lastLoop 0 ((List.range d.np).map v') accs).1).map Prod.fst).Nodup ∧
        ∀ y, y ∈ cs.sets ++ rs' ++ (op.lastLoop 0 ((List.range d.np).map v') accs).1 ↔ y ∈ op.canon d := by
      rcases m2.out hl with ⟨_, h1, h2, h3⟩ | ⟨_, h1, h2, h3, _⟩
      · rw [h1, h2, h3]
        exact ⟨canon_nodup op d, fun _ => Iff.rfl⟩
      · rw [h3, List.append_nil]
        exact ⟨by rw [h1]; exact nodup_of_inc hin.inc, h2⟩
    obtain ⟨x, x1, x2⟩ := buildDense_spec op mem hall.1 (n := op.outSize d) (fun y hy => canon_bound op d y ((hall.2 y).1 hy))
    rw [expected_of hd hall.1 hall.2] at x2
    refine ⟨x, ?_, x2⟩
    unfold GroupOp.outSize at x1
    dsimp only
    rw [x1]
    rfl

/-! ## Arrays -/

theorem arr_row_cons (m : Arr V) (cargs : List (AArg V)) (c : Nat) :
    row (⟨false, m⟩ :: cargs) c = (m.elem c).bind fun v => (row cargs c).map fun a => some v :: a := by
  unfold row
  cases he : m.elem c with
  | none => simp [he]
  | some v =>
    simp only [List.all_cons, he, Option.isSome_some, Bool.or_true, Bool.true_and, Option.bind_some, List.map_cons]
    split <;> rfl

theorem partialOps_adds (op : GroupOp V P A R E S β) (sets : List (Nat × R)) : Adds op.opt 0 sets (op.partialOps sets) := by
  unfold GroupOp.partialOps
  have : ∀ (l : List (Nat × R)) (k : Nat), Adds op.opt k l
      ((l.zipIdx k).flatMap fun x => [SOp.setByOffset x.2 (op.opt x.1.2), .addId x.1.1]) := by
    intro l
    induction l with
    | nil => intro k; exact Adds.nil _ _
    | cons x l ih =>
      intro k
      rw [List.zipIdx_cons, List.flatMap_cons]
      exact Adds.append (l := [x]) (Adds.one op.opt k x.1 x.2) (ih (k + 1))
  exact this sets 0

theorem fullOps_adds (op : GroupOp V P A R E S β) (rows : List (Nat × Nat)) (rs : List (Nat × R))
    (h : rs.map Prod.fst = rows.map Prod.fst) : Adds op.opt 0 rs (op.fullOps rows rs) := by
  have h1 := Adds.full op.opt 0 (rows.map Prod.fst) (rs.map Prod.snd) (by
    have := congrArg List.length h
    simpa using this)
  have h2 : (rows.map Prod.fst).zip (rs.map Prod.snd) = rs := by
    rw [← h]
    clear h h1
    induction rs with
    | nil => rfl
    | cons x rs ih => simp [ih]
  rw [h2] at h1
  unfold GroupOp.fullOps
  unfold setsFrom at h1
  rw [List.map_map, List.zipIdx_map, List.map_map] at h1
  exact h1

theorem forall₂_length {r : X → Y → Prop} {a : List X} {b : List Y} (h : List.Forall₂ r a b) : a.length = b.length := by
  induction h with
  | nil => rfl
  | cons _ _ ih => simp [ih]

theorem mapping_correct {op : GroupOp V P A R E S β} (env : Env V S β) {d : Rows V} (hd : d.Ok) {pargs cargs : List (AArg V)}
    {mp : Arr V} {pu mu : GUtil V} (hp : GUtilOk pu d.np pargs) (hmu : GUtilOk mu d.nc (⟨false, mp⟩ :: cargs))
    (hprow : d.prow = row pargs) (hcrow : d.crow = row cargs)
    (hid : ∀ c, c < d.nc → ∀ v, mp.elem c = some v → 0 ≤ op.idOf v)
    (hpar : d.parentOf = fun c => (mp.elem c).map fun v => (op.idOf v).toNat) :
    op.Correct d goodArr (op.mapping env d.np d.nc pu mu) := by
  obtain ⟨f', v', r1, r2⟩ := resets_ok op (prow := d.prow) (List.range d.np) (fun _ => op.empty) (fun _ => false)
    List.nodup_range (fun i hi => List.mem_range.1 hi)
  have hdec := decodes_links op hid hpar (f := row (⟨false, mp⟩ :: cargs)) (by
    intro c; rw [arr_row_cons, hcrow])
  have hin := mapIn_of hd r2 (decide (op.kind = .aggregator)) (by simp)
  obtain ⟨cs, rs, accs, m1, m2⟩ := map_run hin
  have hbound : ∀ x ∈ d.links, x.2.1 < d.np := fun x hx => hd _ _ (mem_links hx).1 (mem_links hx).2.1
  have hlen : (d.links.filter fun x => decide (op.kind = .aggregator) || v' x.2.1).length ≤ mu.estimate := by
    refine Nat.le_trans (List.filter_sublist).length_le ?_
    rw [← forall₂_length hdec]
    exact hmu.estimate.1
  have hvr : validRows (row pargs) 0 d.np = (List.range d.np).filterMap fun i => (d.prow i).map fun a => (i, a) := by
    unfold validRows
    rw [Nat.sub_zero, ← List.range_eq_range', hprow]
  have hrep : ∀ {Y : Type} (y : Y), List.replicate d.np y = (List.range d.np).map fun _ => y := by
    intro Y y
    rw [List.map_const', List.length_range]
  unfold GroupOp.mapping
  rw [hp.simple, hmu.simple, hvr, hrep, hrep]
  simp only [Option.bind_eq_bind, Option.bind_some, natIds_cast]
  rw [r1]
  simp only [Option.bind_some]
  rw [mapRows_eq op v' hdec hbound, m1]
  simp only [Option.bind_some]
  unfold GroupOp.Correct
  rw [← anyErr_iff, ← m2.err]
  by_cases hbr : op.kind = .aggregator ∨ (op.kind = .partial' ∧ 4 * mu.estimate > d.nc)
  · rw [if_pos hbr]
    have hnf : op.kind ≠ .full := by rcases hbr with h | ⟨h, _⟩ <;> simp [h]
    have hacc := m2.accs hnf
    rw [← hacc]
    cases hl : (op.lastLoop 0 ((List.range d.np).map v') accs).2 with
    | some e => exact ⟨fun _ => ⟨e, rfl⟩, fun hh => absurd rfl hh⟩
    | none =>
      refine ⟨fun hh => (by cases hh), fun _ => ?_⟩
      have hall : ((cs.sets ++ (op.lastLoop 0 ((List.range d.np).map v') accs).1).map Prod.fst).Nodup ∧
          ∀ y, y ∈ cs.sets ++ (op.lastLoop 0 ((List.range d.np).map v') accs).1 ↔ y ∈ op.canon d := by
        rcases m2.out hl with ⟨_, h1, _, h3⟩ | ⟨h0, h1, h2, h3, h4, _⟩
        · rw [h1, h3]
          exact ⟨canon_nodup op d, fun _ => Iff.rfl⟩
        · have hpk : op.kind = .partial' := by
            rcases hbr with h | ⟨h, _⟩
            · exact absurd h h0
            · exact h
          rw [h4 hpk, List.append_nil] at h1 h2
          rw [h3, List.append_nil]
          exact ⟨by rw [h1]; exact nodup_of_inc hin.inc, h2⟩
      obtain ⟨x, x1, x2⟩ := buildDense_spec op env.rmem hall.1 (n := op.outSize d)
        (fun y hy => canon_bound op d y ((hall.2 y).1 hy))
      rw [expected_of hd hall.1 hall.2] at x2
      refine ⟨.ofDense x, ?_, ofDense_good x2⟩
      unfold GroupOp.outSize at x1
      dsimp only
      rw [x1]
      rfl
  · rw [if_neg hbr]
    have hna : op.kind ≠ .aggregator := fun h => hbr (Or.inl h)
    rw [m2.get]
    simp only [Option.bind_some]
    cases hl : (op.lastLoop 0 ((List.range d.np).map v') accs).2 with
    | some e => exact ⟨fun _ => ⟨e, rfl⟩, fun hh => absurd rfl hh⟩
    | none =>
      refine ⟨fun hh => (by cases hh), fun _ => ?_⟩
      rcases m2.out hl with ⟨h0, _⟩ | ⟨_, h1, h2, _, h4, h5⟩
      · exact absurd h0 hna
      · have hops : ∃ l, Adds op.opt 0 l (if op.kind = .partial' then op.partialOps cs.sets else op.fullOps cs.rows rs) ∧
            l = cs.sets ++ rs := by
          by_cases hpk : op.kind = .partial'
          · rw [if_pos hpk]
            exact ⟨_, partialOps_adds op cs.sets, by rw [h4 hpk, List.append_nil]⟩
          · have hfk : op.kind = .full := by
              cases hk : op.kind with
              | aggregator => exact absurd hk hna
              | partial' => exact absurd hk hpk
              | full => rfl
            rw [if_neg hpk]
            have hs := h5 hfk
            rw [hs, List.nil_append] at h1
            refine ⟨_, fullOps_adds op cs.rows rs ?_, by rw [hs, List.nil_append]⟩
            rw [h1, m2.rows, if_pos hfk, List.map_map]
            rfl
        obtain ⟨l, l1, rfl⟩ := hops
        obtain ⟨x, x1, x2⟩ := buildSparse_spec op env l1 (by rw [h1]; exact hin.inc) (n := d.nc) (cnt := mu.estimate) (by
            intro y hy
            have := canon_bound op d y ((h2 y).1 hy)
            unfold GroupOp.outSize at this
            rwa [if_neg hna] at this) (by
            have := congrArg List.length h1
            simp only [List.length_map] at this
            omega)
        have hos : op.outSize d = d.nc := by unfold GroupOp.outSize; rw [if_neg hna]
        rw [← hos, expected_of hd (by rw [h1]; exact nodup_of_inc hin.inc) h2] at x2
        refine ⟨x, ?_, x2⟩
        dsimp only
        rw [x1]
        rfl

/-! ## Very sparse data -/

theorem upsert_keys (k : Nat) (init : S) (f : S → S) : ∀ (m : List (Nat × S)),
    (upsert k init f m).map Prod.fst = if k ∈ m.map Prod.fst then m.map Prod.fst else m.map Prod.fst ++ [k]
  | [] => rfl
  | (k', s) :: m => by
    rw [upsert]
    by_cases h : k' = k
    · simp [h]
    · rw [if_neg h, List.map_cons, upsert_keys k init f m]
      by_cases hm : k ∈ m.map Prod.fst
      · simp [hm]
      · simp [hm, Ne.symm h]

theorem upsert_nodup (k : Nat) (init : S) (f : S → S) {m : List (Nat × S)} (h : (m.map Prod.fst).Nodup) :
    ((upsert k init f m).map Prod.fst).Nodup := by
  rw [upsert_keys]
  split
  · exact h
  · rename_i hk
    rw [List.nodup_append]
    exact ⟨h, by simp, by rintro a ha b hb rfl; simp at hb; exact hk (hb ▸ ha)⟩

theorem upsert_lookup (k : Nat) (init : S) (f : S → S) (j : Nat) : ∀ (m : List (Nat × S)),
    (upsert k init f m).lookup j = if j = k then some (f ((m.lookup k).getD init)) else m.lookup j
  | [] => by
    by_cases h : j = k
    · simp [upsert, h]
    · simp [upsert, h, List.lookup_cons, show (j == k) = false by simpa using h]
  | (k', s) :: m => by
    rw [upsert]
    by_cases h : k' = k
    · subst h
      simp only [if_true, List.lookup_cons]
      by_cases hj : j = k'
      · simp [hj]
      · simp [hj, show (j == k') = false by simpa using hj]
    · rw [if_neg h, List.lookup_cons, upsert_lookup k init f j m, List.lookup_cons, List.lookup_cons,
        show (k == k') = false by simpa using Ne.symm h]
      by_cases hj : j = k'
      · have : ¬ j = k := fun hh => h (hj ▸ hh)
        subst hj
        simp [h]
      · simp [show (j == k') = false by simpa using hj]

theorem veryMapRows_ok (op : GroupOp V P A R E S β) :
    ∀ {rows : List (Nat × List (Option V))} {L : Links V}, List.Forall₂ (Decodes op) rows L →
    ∀ (m : List (Nat × S)), (m.map Prod.fst).Nodup →
    ∃ m', op.veryMapRows rows m = some m' ∧ (m'.map Prod.fst).Nodup ∧ ∀ j, m'.lookup j =
      if (kidsOf L j).isEmpty then m.lookup j
      else some (((kidsOf L j).map op.child).foldl (fun s a => op.acc.add a s)
        ((m.lookup j).getD (op.acc.reset (op.parg []) op.empty))) := by
  intro rows L h
  induction h with
  | nil => intro m hm; exact ⟨m, rfl, hm, fun j => by simp [kidsOf]⟩
  | @cons r x rows L hd _ ih =>
    intro m hm
    obtain ⟨c, i, a⟩ := x
    obtain ⟨c', args⟩ := r
    obtain ⟨h1, h2, h3⟩ := hd
    dsimp only at h1 h2 h3
    subst h1
    obtain ⟨m', e1, e2, e3⟩ := ih (upsert i (op.acc.reset (op.parg []) op.empty) (op.add c' a) m) (upsert_nodup _ _ _ hm)
    refine ⟨m', ?_, e2, ?_⟩
    · rw [GroupOp.veryMapRows, h2]
      simp only [Option.bind_eq_bind, Option.bind_some, h3]
      exact e1
    · intro j
      rw [e3 j, upsert_lookup, kidsOf_cons]
      by_cases hj : i = j
      · subst hj
        simp only [if_true, List.isEmpty_cons, Bool.false_eq_true, if_false, List.map_cons, List.foldl_cons, Option.getD_some]
        cases hk : kidsOf L i with
        | nil => rfl
        | cons y ys => rfl
      · rw [if_neg hj, if_neg (Ne.symm hj)]

theorem veryResults_ok (op : GroupOp V P A R E S β) : ∀ (l : List (Nat × S)),
    (op.veryResults l).2.isSome = (l.any fun x => err op.acc (op.acc.get x.2).2) ∧
    ((op.veryResults l).2 = none → (op.veryResults l).1 = l.map fun x => (x.1, (op.acc.get x.2).1))
  | [] => ⟨rfl, fun _ => rfl⟩
  | (i, s) :: l => by
    obtain ⟨h1, h2⟩ := veryResults_ok op l
    simp only [GroupOp.veryResults, List.any_cons, err] at h1 ⊢
    cases hs : op.acc.status (op.acc.get s).2 with
    | some e => simp
    | none =>
      simp only [h1, Option.isSome_none, Bool.false_or, true_and, List.map_cons, List.cons.injEq]
      exact h2

theorem sorted_eq {l m : List (Nat × X)} (hl : (l.map Prod.fst).Pairwise (· < ·)) (hm : (m.map Prod.fst).Pairwise (· < ·))
    (h : ∀ y, y ∈ l ↔ y ∈ m) : l = m := by
  have hp : ∀ {l : List (Nat × X)}, (l.map Prod.fst).Pairwise (· < ·) → l.Pairwise fun a b => a.1 < b.1 :=
    fun hh => List.pairwise_map.1 hh
  have hnd : ∀ {l : List (Nat × X)}, (l.map Prod.fst).Pairwise (· < ·) → l.Nodup := fun hh =>
    (hp hh).imp (by rintro a b hab rfl; omega)
  refine List.Perm.eq_of_pairwise (le := fun a b => a.1 < b.1) ?_ (hp hl) (hp hm)
    ((List.perm_ext_iff_of_nodup (hnd hl) (hnd hm)).2 h)
  intro a b _ _ h1 h2
  omega

theorem veryMapping_correct {op : GroupOp V P A R E S β} (hk : op.kind = .aggregator) (env : Env V S β)
    (horder : ∀ l, (env.order l).Perm l) {d : Rows V} (hd : d.Ok) (hprow : ∀ i, d.prow i = some [])
    {cargs : List (AArg V)} {mp : Arr V} {mu : GUtil V} (hmu : GUtilOk mu d.nc (⟨false, mp⟩ :: cargs))
    (hcrow : d.crow = row cargs) (hid : ∀ c, c < d.nc → ∀ v, mp.elem c = some v → 0 ≤ op.idOf v)
    (hpar : d.parentOf = fun c => (mp.elem c).map fun v => (op.idOf v).toNat) :
    op.Correct d goodArr (op.veryMapping env d.np mu) := by
  have hdec := decodes_links op hid hpar (f := row (⟨false, mp⟩ :: cargs)) (by
    intro c; rw [arr_row_cons, hcrow])
  obtain ⟨m, e1, e2, e3⟩ := veryMapRows_ok op hdec [] (by simp)
  have hlook : ∀ j, m.lookup j = if (d.kids j).isEmpty then none
      else some (op.acc.after (op.parg []) ((d.kids j).map op.child) op.empty) := by
    intro j
    rw [e3, kids_links]
    rfl
  have hmem : ∀ x, x ∈ m ↔ x.1 ∈ d.busy d.np ∧ x.2 = op.acc.after (op.parg []) ((d.kids x.1).map op.child) op.empty := by
    intro x
    rw [show x = (x.1, x.2) from rfl, ← lookup_iff e2, hlook, busy_mem]
    dsimp only
    cases hkd : d.kids x.1 with
    | nil => simp
    | cons y ys =>
      have hy : y ∈ d.kids x.1 := by rw [hkd]; exact List.mem_cons_self ..
      have := mem_kids.1 hy
      have hlt := hd _ _ this.1 this.2.1
      simp [hlt, eq_comm]
  have hin : ∀ {i}, i ∈ d.busy d.np → (i, op.acc.after (op.parg []) ((d.kids i).map op.child) op.empty) ∈ m :=
    fun hi => (hmem _).2 ⟨hi, rfl⟩
  have hkeys : ∀ i, i ∈ m.map Prod.fst ↔ i ∈ d.busy d.np := by
    intro i
    rw [List.mem_map]
    constructor
    · rintro ⟨x, hx, rfl⟩
      exact ((hmem x).1 hx).1
    · intro hi
      exact ⟨_, hin hi, rfl⟩
  have hlen : m.length = (d.busy d.np).length := by
    have := ((List.perm_ext_iff_of_nodup e2 (nodup_of_inc (busy_inc d d.np))).2 hkeys).length_eq
    simpa using this
  have hfails : ∀ i, op.fails (op.parg []) (d.kids i) =
      err op.acc (op.acc.get (op.acc.after (op.parg []) ((d.kids i).map op.child) op.empty)).2 := by
    intro i
    simp [GroupOp.fails, GroupOp.groupState, hk]
  have hanyF : op.anyFails d ↔ ∃ i, i < d.np ∧ op.fails (op.parg []) (d.kids i) = true := by
    unfold GroupOp.anyFails
    constructor
    · rintro ⟨i, a, h1, h2, h3⟩
      rw [hprow] at h2
      injection h2 with h2
      subst h2
      exact ⟨i, h1, h3⟩
    · rintro ⟨i, h1, h3⟩
      exact ⟨i, [], h1, hprow i, h3⟩
  obtain ⟨v1, v2⟩ := veryResults_ok op (env.order m)
  have hbad : ((env.order m).any fun x => err op.acc (op.acc.get x.2).2) = op.bad d (d.busy d.np) := by
    rw [Bool.eq_iff_iff, List.any_eq_true]
    unfold GroupOp.bad
    rw [List.any_eq_true]
    constructor
    · rintro ⟨x, hx, h⟩
      have := (hmem x).1 ((horder m).mem_iff.1 hx)
      exact ⟨x.1, this.1, by rw [hfails, ← this.2]; exact h⟩
    · rintro ⟨i, hi, h⟩
      refine ⟨_, (horder m).mem_iff.2 (hin hi), ?_⟩
      rw [hfails] at h
      exact h
  have hbad2 : op.bad d (d.busy d.np) = true ↔ ∃ i ∈ d.busy d.np, op.fails (op.parg []) (d.kids i) = true := by
    unfold GroupOp.bad; rw [List.any_eq_true]
  unfold GroupOp.veryMapping
  rw [hmu.simple]
  simp only [Option.bind_eq_bind, Option.bind_some, natIds_cast]
  rw [e1]
  simp only [Option.bind_some]
  cases hs : (op.veryResults (env.order m)).2 with
  | some e =>
    refine ⟨fun _ => ⟨e, rfl⟩, fun hn => absurd ?_ hn⟩
    rw [hanyF]
    rw [hs, hbad] at v1
    obtain ⟨i, h1, h2⟩ := hbad2.1 v1.symm
    exact ⟨i, busy_lt h1, h2⟩
  | none =>
    rw [hs, hbad] at v1
    have hsorted : ((op.veryResults (env.order m)).1.mergeSort fun a b => decide (a.1 ≤ b.1)) = op.aggs d (d.busy d.np) := by
      rw [v2 hs]
      have hperm := List.mergeSort_perm ((env.order m).map fun x => (x.1, (op.acc.get x.2).1)) fun a b => decide (a.1 ≤ b.1)
      apply sorted_eq
      · have hle := List.pairwise_mergeSort (le := fun a b : Nat × R => decide (a.1 ≤ b.1))
          (by intro a b c h1 h2; simp only [decide_eq_true_eq] at h1 h2 ⊢; omega)
          (by intro a b; simp only [Bool.or_eq_true, decide_eq_true_eq]; omega)
          ((env.order m).map fun x => (x.1, (op.acc.get x.2).1))
        have hnd : ((List.mergeSort ((env.order m).map fun x => (x.1, (op.acc.get x.2).1))
            fun a b => decide (a.1 ≤ b.1)).map Prod.fst).Nodup := by
          rw [(hperm.map Prod.fst).nodup_iff, List.map_map]
          exact (((horder m).map Prod.fst).nodup_iff).2 e2
        rw [List.pairwise_map]
        unfold List.Nodup at hnd
        rw [List.pairwise_map] at hnd
        refine (hle.and hnd).imp ?_
        intro a b hab
        have := of_decide_eq_true hab.1
        have := hab.2
        omega
      · unfold GroupOp.aggs
        rw [List.map_map]
        have := busy_inc d d.np
        simpa [Function.comp_def] using this
      · intro y
        rw [hperm.mem_iff]
        unfold GroupOp.aggs
        simp only [List.mem_map]
        constructor
        · rintro ⟨x, hx, rfl⟩
          have := (hmem x).1 ((horder m).mem_iff.1 hx)
          exact ⟨x.1, this.1, by rw [this.2]; rfl⟩
        · rintro ⟨i, hi, rfl⟩
          exact ⟨_, (horder m).mem_iff.2 (hin hi), rfl⟩
    dsimp only
    rw [hsorted]
    by_cases hlt : (d.busy d.np).length < d.np
    · rw [if_pos (by omega)]
      obtain ⟨i0, hi0, hk0⟩ := busy_notfull hlt
      have hfail : err op.acc (op.acc.get (op.acc.reset (op.parg []) op.empty)).2 = op.fails (op.parg []) (d.kids i0) := by
        rw [hfails, hk0]
        rfl
      have hany : op.anyErr d.kids d.parents = err op.acc (op.acc.get (op.acc.reset (op.parg []) op.empty)).2 := by
        rw [Bool.eq_iff_iff, anyErr_iff, hanyF, hfail]
        constructor
        · rintro ⟨i, h1, h2⟩
          by_cases hki : d.kids i = []
          · rw [hki, ← hk0] at h2; exact h2
          · have : op.bad d (d.busy d.np) = true := hbad2.2 ⟨i, busy_mem.2 ⟨h1, hki⟩, h2⟩
            rw [← v1] at this
            cases this
        · intro h2
          exact ⟨i0, hi0, h2⟩
      exact checked_correct hany.symm (groups_good op hk env hprow (by omega) _ (fun _ => rfl))
    · rw [if_neg (by omega)]
      obtain ⟨x, g1, g2⟩ := groups_good op hk env hprow (cap := m.length) (by omega) none (fun hh => absurd hh hlt)
      rw [g1]
      refine ⟨?_, fun _ => ⟨x, rfl, g2⟩⟩
      rw [hanyF]
      rintro ⟨i, h1, h2⟩
      have : op.bad d (d.busy d.np) = true := hbad2.2 ⟨i, busy_mem.2 ⟨h1, busy_full hlt h1⟩, h2⟩
      rw [← v1] at this
      cases this

end Verif.Group
