import Verif.Forest.RegularModel
import Verif.Forest.ProperLemmas

set_option linter.unusedSimpArgs false

namespace Verif.Forest

variable {C A M : Type}

/-! ### Marks -/

/-- The vector of `L` flags which are set at the positions in `S`. -/
def marks (L : Nat) (S : List Nat) : List Bool := (List.range L).map fun i => decide (i ∈ S)

theorem marks_congr {L : Nat} {S S' : List Nat} (h : ∀ i, i < L → (i ∈ S ↔ i ∈ S')) : marks L S = marks L S' := by
  unfold marks
  apply List.map_congr_left
  intro i hi
  simp only [h i (List.mem_range.1 hi)]

theorem marks_get {L : Nat} {S : List Nat} {i : Nat} (h : i < L) : (marks L S)[i]? = some (decide (i ∈ S)) := by
  simp [marks, h]

theorem testNode_marks (L : Nat) (S : List Nat) (id : Nat) (h : id < L) :
    testNode id (marks L S) = if id ∈ S then .error .duplicated else .ok (marks L (S ++ [id])) := by
  simp only [testNode, marks_get h]
  by_cases hm : id ∈ S
  · simp [hm]
  · simp only [hm, decide_false, Bool.false_eq_true, if_false, Except.ok.injEq]
    apply List.ext_getElem?
    intro i
    rw [List.getElem?_set]
    by_cases hi : i < L
    · rw [marks_get hi, marks_get hi]
      by_cases he : id = i
      · subst he; simp [marks, h]
      · simp [he, Ne.symm he]
    · simp only [marks]
      have : L ≤ i := by omega
      simp [this]
      intro he; omega

theorem modify_append_cons {α : Type} (X : List α) (x : α) (Y : List α) (f : α → α) :
    (X ++ x :: Y).modify X.length f = X ++ f x :: Y := by
  induction X with
  | nil => simp
  | cons a X ih => simp [ih]

/-! ### Filling the compiler -/

/-- The node set for a split. -/
def splitBNode (t : Tree C A) (n : SplitNode C) : BNode C :=
  { left := some (childIndex t n.ifTrue), right := some (childIndex t n.ifFalse), test := some n.cond }

/-- The numbers of the children. -/
def childIds (t : Tree C A) (l : List (SplitNode C)) : List Nat :=
  l.flatMap fun n => [childIndex t n.ifTrue, childIndex t n.ifFalse]

theorem addSplits_spec (t : Tree C A) (L r : Nat) : ∀ (l : List (SplitNode C)) (X : List (BNode C)) (S : List Nat) (vs : List M),
    X.length + l.length + r = L → (∀ e ∈ childIds t l, e < L) → S.Nodup →
    (¬ (S ++ childIds t l).Nodup →
      addSplits t l X.length (⟨X ++ List.replicate (l.length + r) ({} : BNode C), marks L (List.range X.length), marks L S, vs⟩ : Builder C M)
        = .error .duplicated) ∧
    ((S ++ childIds t l).Nodup →
      addSplits t l X.length (⟨X ++ List.replicate (l.length + r) ({} : BNode C), marks L (List.range X.length), marks L S, vs⟩ : Builder C M)
        = .ok ⟨X ++ l.map (splitBNode t) ++ List.replicate r ({} : BNode C), marks L (List.range (X.length + l.length)),
            marks L (S ++ childIds t l), vs⟩) := by
  intro l
  induction l with
  | nil =>
    intro X S vs hL hE hS
    refine ⟨fun h => absurd (by simpa [childIds] using hS) h, fun _ => ?_⟩
    simp [addSplits, childIds]
  | cons n rest ih =>
    intro X S vs hL hE hS
    have hcons : childIds t (n :: rest) = childIndex t n.ifTrue :: childIndex t n.ifFalse :: childIds t rest := by
      simp [childIds]
    rw [hcons] at hE ⊢
    have h1 : childIndex t n.ifTrue < L := hE _ (by simp)
    have h2 : childIndex t n.ifFalse < L := hE _ (by simp)
    have hrest : ∀ e ∈ childIds t rest, e < L := fun e he => hE e (by simp [he])
    simp only [List.length_cons] at hL
    have hid : X.length < L := by omega
    have hrep : List.replicate (rest.length + 1 + r) ({} : BNode C) = ({} : BNode C) :: List.replicate (rest.length + r) ({} : BNode C) := by
      rw [show rest.length + 1 + r = (rest.length + r) + 1 by omega]; rfl
    have hstep : ∀ vs, setNode (⟨X ++ List.replicate (rest.length + 1 + r) ({} : BNode C), marks L (List.range X.length), marks L S, vs⟩ : Builder C M)
        X.length (childIndex t n.ifTrue) (childIndex t n.ifFalse) n.cond =
        if childIndex t n.ifTrue ∈ S then .error .duplicated
        else if childIndex t n.ifFalse ∈ S ++ [childIndex t n.ifTrue] then .error .duplicated
        else .ok ⟨(X ++ [splitBNode t n]) ++ List.replicate (rest.length + r) ({} : BNode C), marks L (List.range (X ++ [splitBNode t n]).length),
          marks L (S ++ [childIndex t n.ifTrue] ++ [childIndex t n.ifFalse]), vs⟩ := by
      intro vs
      simp only [setNode, testNode_marks L _ _ hid, List.mem_range, Nat.lt_irrefl, if_false]
      simp only [bind, Except.bind]
      rw [testNode_marks L _ _ h1]
      by_cases c1 : childIndex t n.ifTrue ∈ S
      · simp only [c1, if_true]
      · simp only [c1, if_false]
        rw [testNode_marks L _ _ h2]
        by_cases c2 : childIndex t n.ifFalse ∈ S ++ [childIndex t n.ifTrue]
        · simp only [c2, if_true]
        · simp only [c2, if_false, pure, Except.pure, hrep, modify_append_cons]
          congr 2
          · simp [splitBNode]
          · rw [← List.range_succ]; simp
    simp only [addSplits, List.length_cons, hstep]
    by_cases c1 : childIndex t n.ifTrue ∈ S
    · refine ⟨fun _ => by simp [c1], fun h => ?_⟩
      exfalso
      have := (List.nodup_append.1 h).2.2 _ c1 _ (by simp : childIndex t n.ifTrue ∈ _)
      exact this rfl
    · by_cases c2 : childIndex t n.ifFalse ∈ S ++ [childIndex t n.ifTrue]
      · refine ⟨fun _ => by simp [c1, c2], fun h => ?_⟩
        exfalso
        have h' : ((S ++ [childIndex t n.ifTrue]) ++ childIndex t n.ifFalse :: childIds t rest).Nodup := by
          simpa using h
        have := (List.nodup_append.1 h').2.2 _ c2 _ (by simp : childIndex t n.ifFalse ∈ _)
        exact this rfl
      · simp only [c1, c2, if_false]
        have hS' : (S ++ [childIndex t n.ifTrue] ++ [childIndex t n.ifFalse]).Nodup := by
          refine List.nodup_append.2 ⟨List.nodup_append.2 ⟨hS, by simp, ?_⟩, by simp, ?_⟩
          · rintro a ha b hb rfl
            simp only [List.mem_singleton] at hb
            subst hb; exact c1 ha
          · rintro a ha b hb rfl
            simp only [List.mem_singleton] at hb
            subst hb; exact c2 ha
        have := ih (X ++ [splitBNode t n]) (S ++ [childIndex t n.ifTrue] ++ [childIndex t n.ifFalse]) vs
          (by simp; omega) hrest hS'
        simp only [List.length_append, List.length_cons, List.length_nil, List.append_assoc, List.cons_append,
          List.nil_append, List.map_cons] at this ⊢
        simp only [show X.length + (0 + 1) = X.length + 1 by omega,
          show X.length + 1 + rest.length = X.length + (rest.length + 1) by omega] at this ⊢
        exact this

theorem addLeaves_spec (t : Tree C A) (scale : A → A → M) (L : Nat) (child : List Bool) :
    ∀ (l : List A) (X : List (BNode C)) (vs : List M), X.length = t.splits.length + vs.length → X.length + l.length = L →
      addLeaves t scale l vs.length (⟨X ++ List.replicate l.length ({} : BNode C), marks L (List.range X.length), child, vs⟩ : Builder C M)
        = .ok ⟨X ++ (List.range' vs.length l.length).map (fun i => { leafId := some i }), marks L (List.range L), child,
            vs ++ l.map (scale · t.weight)⟩ := by
  intro l
  induction l with
  | nil =>
    intro X vs hX hL
    simp only [List.length_nil, Nat.add_zero] at hL
    simp [addLeaves, hL]
  | cons a rest ih =>
    intro X vs hX hL
    simp only [List.length_cons] at hL
    have hid : X.length < L := by omega
    have hstep : setLeaf (⟨X ++ List.replicate (rest.length + 1) ({} : BNode C), marks L (List.range X.length), child, vs⟩ : Builder C M)
        (vs.length + t.splits.length) (scale a t.weight) =
        .ok ⟨(X ++ [{ leafId := some vs.length }]) ++ List.replicate rest.length ({} : BNode C),
          marks L (List.range (X ++ [({ leafId := some vs.length } : BNode C)]).length), child, vs ++ [scale a t.weight]⟩ := by
      rw [show vs.length + t.splits.length = X.length by omega]
      simp only [setLeaf, testNode_marks L _ _ hid, List.mem_range, Nat.lt_irrefl, if_false, bind, Except.bind, pure,
        Except.pure, List.replicate_succ, modify_append_cons]
      congr 2
      · simp
      · rw [← List.range_succ]; simp
    simp only [addLeaves, List.length_cons, hstep]
    have := ih (X ++ [{ leafId := some vs.length }]) (vs ++ [scale a t.weight]) (by simp; omega) (by simp; omega)
    simp only [List.length_append, List.length_cons, List.length_nil, Nat.zero_add] at this
    simp only [List.length_append, List.length_cons, List.length_nil, Nat.zero_add]
    rw [this]
    simp [List.range'_succ]

/-! ### Numbering and filling -/

theorem nodeMapping_splits (t : Tree C A) : ∀ (l : List (SplitNode C)) (Y : List (BNode C)) (cur : Nat),
    nodeMapping (l.map (splitBNode t) ++ Y) cur =
      (List.range' cur l.length).map Ref.split ++ nodeMapping Y (cur + l.length) := by
  intro l
  induction l with
  | nil => intro Y cur; simp
  | cons n rest ih =>
    intro Y cur
    simp only [List.map_cons, List.cons_append, nodeMapping, splitBNode]
    have := ih Y (cur + 1)
    rw [this]
    simp [List.range'_succ, Nat.add_assoc, Nat.add_comm 1]

theorem nodeMapping_leaves : ∀ (ids : List Nat) (cur : Nat),
    nodeMapping (ids.map fun i => ({ leafId := some i } : BNode C)) cur = ids.map Ref.leaf := by
  intro ids
  induction ids with
  | nil => intro cur; rfl
  | cons i ids ih => intro cur; simp [nodeMapping, ih]

/-- The compact form of a node. -/
def compactNode (n : SplitNode C) : Option (Compact1 C) := some ⟨n.cond, n.ifFalse, n.ifTrue⟩

/-- The compact form of a tree. -/
def compactOf (scale : A → A → M) (t : Tree C A) : Compact C M :=
  ⟨t.splits.map compactNode, t.adjustments.map (scale · t.weight)⟩

theorem fillSplits_leaves (mapping : List Ref) : ∀ (ids : List Nat) (id : Nat) (s : List (Option (Compact1 C))),
    fillSplits mapping (ids.map fun i => ({ leafId := some i } : BNode C)) id s = some s := by
  intro ids
  induction ids with
  | nil => intro id s; rfl
  | cons i ids ih => intro id s; simp [fillSplits, ih]

theorem fillSplits_spec (t : Tree C A) (mapping : List Ref)
    (hmap : ∀ r, childOk t r = true → mapping[childIndex t r]? = some r) :
    ∀ (l : List (SplitNode C)) (ids : List Nat) (D : List (Option (Compact1 C))),
      (∀ n ∈ l, childOk t n.ifFalse = true ∧ childOk t n.ifTrue = true) → D.length + l.length = t.splits.length →
      fillSplits mapping (l.map (splitBNode t) ++ ids.map fun i => ({ leafId := some i } : BNode C)) D.length
        (D ++ List.replicate l.length none) = some (D ++ l.map compactNode) := by
  intro l
  induction l with
  | nil => intro ids D _ _; simp [fillSplits_leaves]
  | cons n rest ih =>
    intro ids D hc hD
    simp only [List.length_cons] at hD
    obtain ⟨h1, h2⟩ := hc n (by simp)
    have hself : mapping[D.length]? = some (.split D.length) := hmap (.split D.length) (by simp [childOk]; omega)
    simp only [List.map_cons, List.cons_append]
    rw [fillSplits]
    simp only [splitBNode, Option.bind_eq_bind, Option.bind_some, hmap _ h1, hmap _ h2, hself, List.length_append,
      List.length_replicate, List.length_cons]
    rw [if_pos (by omega)]
    have hset : (D ++ List.replicate (rest.length + 1) none).set D.length (compactNode n) =
        (D ++ [compactNode n]) ++ List.replicate rest.length none := by
      rw [List.set_append_right _ _ (by omega)]
      simp [List.replicate_succ]
    have hcn : some ({ test := n.cond, ifFalse := n.ifFalse, ifTrue := n.ifTrue } : Compact1 C) = compactNode n := rfl
    rw [hcn, hset]
    have := ih ids (D ++ [compactNode n]) (fun m hm => hc m (by simp [hm])) (by simp; omega)
    simp only [List.length_append, List.length_cons, List.length_nil] at this
    rw [this]
    simp

/-! ### Compilation of one tree -/

theorem childIndex_inj {t : Tree C A} {r s : Ref} (hr : childOk t r = true) (hs : childOk t s = true)
    (h : childIndex t r = childIndex t s) : r = s := by
  cases r <;> cases s <;> simp [childIndex, childOk] at * <;> omega

theorem childIds_eq_map (t : Tree C A) : childIds t t.splits = t.childRefs.map (childIndex t) := by
  simp only [childIds, Tree.childRefs]
  induction t.splits with
  | nil => rfl
  | cons n l ih => simp [ih]

theorem root_index {t : Tree C A} : childIndex t t.root = 0 := by
  unfold Tree.root
  split
  · rename_i h
    simp only [List.isEmpty_iff] at h
    simp [childIndex, h]
  · rfl

theorem childRefs_ok {t : Tree C A} (hc : Closed t) {r : Ref} (h : r ∈ t.childRefs) : childOk t r = true := by
  obtain ⟨k, n, hn, h⟩ := mem_childRefs.1 h
  have := hc n (List.mem_of_getElem? hn)
  rcases h with rfl | rfl
  · exact this.1
  · exact this.2

theorem nodup_map_on {α β : Type} {f : α → β} : ∀ {l : List α},
    (∀ x ∈ l, ∀ y ∈ l, f x = f y → x = y) → ((l.map f).Nodup ↔ l.Nodup) := by
  intro l
  induction l with
  | nil => intro _; simp
  | cons a l ih =>
    intro h
    simp only [List.map_cons, List.nodup_cons]
    rw [ih (fun x hx y hy => h x (by simp [hx]) y (by simp [hy]))]
    refine and_congr_left fun _ => not_congr ?_
    constructor
    · intro hm
      obtain ⟨x, hx, he⟩ := List.mem_map.1 hm
      rw [← h x (by simp [hx]) a (by simp) he]
      exact hx
    · exact fun hm => List.mem_map_of_mem hm

theorem root_childRefs_ids {t : Tree C A} (hw : WellFormed t) :
    ([0] ++ childIds t t.splits).Nodup ↔ (t.root :: t.childRefs).Nodup := by
  obtain ⟨-, -, hreg, hc⟩ := (wellFormed_iff t).1 hw
  have : [0] ++ childIds t t.splits = (t.root :: t.childRefs).map (childIndex t) := by
    simp [childIds_eq_map, root_index]
  rw [this]
  apply nodup_map_on
  have hok : ∀ r ∈ t.root :: t.childRefs, childOk t r = true := by
    intro r hr
    rcases List.mem_cons.1 hr with rfl | hr
    · exact root_ok hreg
    · exact childRefs_ok hc hr
  exact fun x hx y hy h => childIndex_inj (hok x hx) (hok y hy) h

theorem childIndex_lt {t : Tree C A} {r : Ref} (h : childOk t r = true) :
    childIndex t r < t.splits.length + t.adjustments.length := by
  cases r <;> simp [childIndex, childOk] at * <;> omega

theorem childIds_length (t : Tree C A) (l : List (SplitNode C)) : (childIds t l).length = 2 * l.length := by
  induction l with
  | nil => rfl
  | cons n l ih => simp only [childIds, List.flatMap_cons, List.length_append] at ih ⊢; simp [ih]; omega

/-- The compiler accepts exactly the proper trees. -/
theorem compileRegular_spec (scale : A → A → M) {t : Tree C A} (hw : WellFormed t) :
    (Proper t → compileRegular scale t = some (.ok (compactOf scale t))) ∧
    (¬ Proper t → compileRegular scale t = some (.error .duplicated)) := by
  obtain ⟨-, -, hreg, hc⟩ := (wellFormed_iff t).1 hw
  have hL : 0 < t.splits.length + t.adjustments.length := by omega
  have hnew : newBuilder C M (t.splits.length + t.adjustments.length) =
      ⟨[] ++ List.replicate (t.splits.length + t.adjustments.length) ({} : BNode C),
        marks (t.splits.length + t.adjustments.length) (List.range ([] : List (BNode C)).length),
        marks (t.splits.length + t.adjustments.length) [0], []⟩ := by
    simp only [newBuilder, hL, if_true, List.nil_append]
    have h0 : ∀ L, List.replicate L false = marks L [] := by
      intro L
      apply List.ext_getElem?
      intro i
      by_cases hi : i < L
      · simp [marks, hi]
      · simp [marks, hi]
    rw [h0]
    have := testNode_marks (t.splits.length + t.adjustments.length) [] 0 hL
    simp only [testNode, marks_get hL, List.not_mem_nil, decide_false, if_false] at this
    simp only [Bool.false_eq_true, if_false, Except.ok.injEq, List.nil_append] at this
    rw [this]
    simp
  have hproper : ([0] ++ childIds t t.splits).Nodup ↔ Proper t := by
    rw [root_childRefs_ids hw, List.nodup_cons]
    exact ⟨fun h => ⟨hw, h.2, h.1⟩, fun h => ⟨h.root, h.once⟩⟩
  have hlt : ∀ e ∈ childIds t t.splits, e < t.splits.length + t.adjustments.length := by
    intro e he
    rw [childIds_eq_map] at he
    obtain ⟨r, hr, rfl⟩ := List.mem_map.1 he
    exact childIndex_lt (childRefs_ok hc hr)
  obtain ⟨s1, s2⟩ := addSplits_spec (M := M) t (t.splits.length + t.adjustments.length) t.adjustments.length t.splits [] [0] []
    (by simp) hlt (by simp)
  rw [hproper] at s1 s2
  constructor
  · intro hp
    have hs := s2 hp
    simp only [List.length_nil] at hs
    have hl := addLeaves_spec t scale (t.splits.length + t.adjustments.length)
      (marks (t.splits.length + t.adjustments.length) ([0] ++ childIds t t.splits)) t.adjustments
      (t.splits.map (splitBNode t)) [] (by simp) (by simp)
    simp only [List.length_nil, List.length_map, List.nil_append] at hl
    simp only [List.nil_append, List.length_nil, Nat.zero_add] at hs
    have hcomp : compileRegular scale t = Builder.compile (⟨t.splits.map (splitBNode t) ++
        (List.range' 0 t.adjustments.length).map (fun i => { leafId := some i }),
        marks (t.splits.length + t.adjustments.length) (List.range (t.splits.length + t.adjustments.length)),
        marks (t.splits.length + t.adjustments.length) ([0] ++ childIds t t.splits),
        t.adjustments.map (scale · t.weight)⟩ : Builder C M) := by
      simp only [compileRegular, hnew, List.nil_append, List.length_nil, hs, hl]
    rw [hcomp]
    have hall : ∀ i, i < t.splits.length + t.adjustments.length → i ∈ [0] ++ childIds t t.splits := by
      have hnd := hproper.2 hp
      have hsub : [0] ++ childIds t t.splits ⊆ List.range (t.splits.length + t.adjustments.length) := by
        intro x hx
        rcases List.mem_append.1 hx with hx | hx
        · simp only [List.mem_singleton] at hx; subst hx; exact List.mem_range.2 hL
        · exact List.mem_range.2 (hlt x hx)
      have hperm := (List.Nodup.subperm hnd hsub).perm_of_length_le (by
        simp [childIds_length, hreg]; omega)
      intro i hi
      exact hperm.mem_iff.2 (List.mem_range.2 hi)
    have hmapping : nodeMapping (t.splits.map (splitBNode t) ++
        (List.range' 0 t.adjustments.length).map (fun i => ({ leafId := some i } : BNode C))) 0 =
        (List.range' 0 t.splits.length).map Ref.split ++ (List.range' 0 t.adjustments.length).map Ref.leaf := by
      rw [nodeMapping_splits, nodeMapping_leaves]
    have hmap : ∀ r, childOk t r = true →
        ((List.range' 0 t.splits.length).map Ref.split ++ (List.range' 0 t.adjustments.length).map Ref.leaf)[childIndex t r]?
          = some r := by
      intro r hr
      cases r with
      | split k =>
        simp only [childOk, decide_eq_true_eq] at hr
        rw [childIndex, List.getElem?_append_left (by simpa using hr)]
        simp [hr]
      | leaf i =>
        simp only [childOk, decide_eq_true_eq] at hr
        rw [childIndex, List.getElem?_append_right (by simp)]
        simp [hr]
    have hfill := fillSplits_spec t _ hmap t.splits (List.range' 0 t.adjustments.length) [] hc (by simp)
    simp only [List.length_nil, List.nil_append] at hfill
    simp only [Builder.compile]
    rw [if_neg, if_neg]
    · simp only [hmapping, List.length_append, List.length_map, List.length_range', Nat.add_sub_cancel, hfill,
        Option.bind_eq_bind, Option.bind_some]
      rfl
    · simp only [List.any_eq_true, not_exists, not_and]
      intro i hi
      simp only [List.length_append, List.length_map, List.length_range', List.mem_range] at hi
      simp only [marks_get hi, List.mem_range, hi, hall i hi]
      simp
    · simp only [List.isEmpty_iff, ← List.length_eq_zero_iff, List.length_append, List.length_map, List.length_range']
      omega
  · intro hp
    have hs := s1 hp
    simp only [List.length_nil, List.nil_append] at hs
    simp only [compileRegular, hnew, List.nil_append, List.length_nil, hs]

/-! ### Prediction -/

theorem predictLoop_denotes (scale : A → A → M) (ev : C → Bool) {t : Tree C A} {r : Ref} {b : BT C A} (h : Denotes t r b) :
    ∀ fuel, b.inner ≤ fuel → predictLoop (compactOf scale t) ev fuel r = some (scale (b.eval ev) t.weight) := by
  induction h with
  | @leaf i a h =>
    intro fuel _
    cases fuel <;> simp [predictLoop, Compact.value, compactOf, h, BT.eval]
  | @node k n f g hn _ _ ih1 ih2 =>
    intro fuel hf
    simp only [BT.inner] at hf
    obtain ⟨m, rfl⟩ : ∃ m, fuel = m + 1 := ⟨fuel - 1, by omega⟩
    simp only [predictLoop, Compact.step, compactOf, List.getElem?_map, hn, Option.map_some, Option.bind_eq_bind,
      Option.bind_some, compactNode, Option.pure_def]
    by_cases he : ev n.cond = true
    · simp only [he, if_true, BT.eval]
      exact ih2 m (by omega)
    · simp only [he, BT.eval]
      exact ih1 m (by omega)

theorem predictLoop_mono {c : Compact C M} {ev : C → Bool} : ∀ (d : Nat) (r : Ref) (v : M),
    predictLoop c ev d r = some v → ∀ d', d ≤ d' → predictLoop c ev d' r = some v := by
  intro d
  induction d with
  | zero =>
    intro r v h d' _
    cases r with
    | leaf i => cases d' <;> exact h
    | split k => simp [predictLoop] at h
  | succ d ih =>
    intro r v h d' hd
    obtain ⟨e, rfl⟩ : ∃ e, d' = e + 1 := ⟨d' - 1, by omega⟩
    cases r with
    | leaf i => exact h
    | split k =>
      simp only [predictLoop, Option.bind_eq_bind, Option.bind_eq_some_iff] at h ⊢
      obtain ⟨r', h1, h2⟩ := h
      exact ⟨r', h1, ih r' v h2 e (by omega)⟩

theorem roundIds_spec (op : M → M → M) (ev : C → Bool) (v : Nat → M) (D : Nat) :
    ∀ (ids : List Nat) (travs : List (Compact C M × Ref)) (acc : M), ids.Nodup →
      (∀ id ∈ ids, ∃ c r, travs[id]? = some (c, r) ∧ predictLoop c ev D r = some (v id)) →
      ∃ ids' travs' l, roundIds op ev ids travs acc = some (ids', travs', l.foldl op acc) ∧ ids'.Sublist ids ∧
        (l ++ ids'.map v).Perm (ids.map v) ∧
        (∀ id ∈ ids', ∃ c r d, D = d + 1 ∧ travs'[id]? = some (c, r) ∧ predictLoop c ev d r = some (v id)) ∧
        (∀ id, id ∉ ids → travs'[id]? = travs[id]?) := by
  intro ids
  induction ids with
  | nil => intro travs acc _ _; exact ⟨[], travs, [], rfl, by simp, by simp, by simp, by simp⟩
  | cons id rest ih =>
    intro travs acc hnd h
    obtain ⟨hni, hnd'⟩ := List.nodup_cons.1 hnd
    obtain ⟨c, r, htr, hp⟩ := h id (by simp)
    cases r with
    | leaf i =>
      have hv : c.value (.leaf i) = some (v id) := by cases D <;> exact hp
      obtain ⟨ids', travs', l, h1, h2, h3, h4, h5⟩ := ih travs (op acc (v id)) hnd' (fun x hx => h x (by simp [hx]))
      refine ⟨ids', travs', v id :: l, ?_, h2.trans (List.sublist_cons_self _ _), ?_, h4, ?_⟩
      · simp only [roundIds, htr, Option.bind_eq_bind, Option.bind_some, hv]
        exact h1
      · simpa using h3.cons (v id)
      · intro x hx
        exact h5 x (fun hm => hx (by simp [hm]))
    | split k =>
      cases D with
      | zero => simp [predictLoop] at hp
      | succ d =>
        simp only [predictLoop, Option.bind_eq_bind, Option.bind_eq_some_iff] at hp
        obtain ⟨r', hr', hp'⟩ := hp
        have hlen : id < travs.length := (List.getElem?_eq_some_iff.1 htr).1
        obtain ⟨ids', travs', l, h1, h2, h3, h4, h5⟩ := ih (travs.set id (c, r')) acc hnd' (by
          intro x hx
          have hne : id ≠ x := by rintro rfl; exact hni hx
          rw [List.getElem?_set_ne hne]
          exact h x (by simp [hx]))
        refine ⟨id :: ids', travs', l, ?_, h2.cons_cons id, ?_, ?_, ?_⟩
        · simp only [roundIds, htr, Option.bind_eq_bind, Option.bind_some, hr', h1]
          rfl
        · simp only [List.map_cons]
          exact List.perm_middle.trans (h3.cons _)
        · intro x hx
          rcases List.mem_cons.1 hx with rfl | hx
          · refine ⟨c, r', d, rfl, ?_, hp'⟩
            rw [h5 x hni, List.getElem?_set_self hlen]
          · exact h4 x hx
        · intro x hx
          simp only [List.mem_cons, not_or] at hx
          rw [h5 x hx.2, List.getElem?_set_ne (Ne.symm hx.1)]

theorem rounds_spec (op : M → M → M) (ev : C → Bool) (v : Nat → M) :
    ∀ (fuel D : Nat) (ids : List Nat) (travs : List (Compact C M × Ref)) (acc : M), ids.Nodup → D < fuel →
      (∀ id ∈ ids, ∃ c r, travs[id]? = some (c, r) ∧ predictLoop c ev D r = some (v id)) →
      ∃ l : List M, rounds op ev fuel ids travs acc = some (l.foldl op acc) ∧ l.Perm (ids.map v) := by
  intro fuel
  induction fuel with
  | zero => intro D ids travs acc _ h; omega
  | succ fuel ih =>
    intro D ids travs acc hnd hD h
    cases ids with
    | nil => exact ⟨[], rfl, by simp⟩
    | cons id ids =>
      obtain ⟨ids', travs', l, h1, h2, h3, h4, -⟩ := roundIds_spec op ev v D (id :: ids) travs acc hnd h
      simp only [rounds, h1, Option.bind_eq_bind, Option.bind_some]
      cases ids' with
      | nil =>
        refine ⟨l, ?_, by simpa using h3⟩
        cases fuel <;> rfl
      | cons id' ids' =>
        obtain ⟨-, -, d, rfl, -, -⟩ := h4 id' (by simp)
        obtain ⟨l', g1, g2⟩ := ih d (id' :: ids') travs' (l.foldl op acc) (h2.nodup hnd) (by omega) (by
          intro x hx
          obtain ⟨c, r, d', hd, a, b⟩ := h4 x hx
          cases hd
          exact ⟨c, r, a, b⟩)
        refine ⟨l ++ l', ?_, (List.Perm.append_left l g2).trans h3⟩
        rw [g1, List.foldl_append]

theorem batch_spec {G : Type} (op : M → M → M) (ev : C → Bool) (filter : G → Bool) (fuel D : Nat) (hD : D < fuel)
    (val : Compact C M → M) (trees : List (Compact C M × G))
    (h : ∀ p ∈ trees, predictLoop p.1 ev D p.1.root = some (val p.1)) (acc : M) :
    ∃ l : List M, batch op ev filter fuel trees acc = some (l.foldl op acc) ∧
      l.Perm ((trees.filter fun p => filter p.2).map fun p => val p.1) := by
  simp only [batch]
  generalize hsel : (trees.filter fun p => filter p.2) = sel
  have hsel' : ∀ p ∈ sel, predictLoop p.1 ev D p.1.root = some (val p.1) := by
    intro p hp
    rw [← hsel] at hp
    exact h p (List.mem_of_mem_filter hp)
  by_cases hne : sel = []
  · subst hne
    exact ⟨[], by cases fuel <;> rfl, by simp⟩
  · obtain ⟨p0, hp0⟩ := List.exists_mem_of_ne_nil sel hne
    obtain ⟨l, h1, h2⟩ := rounds_spec op ev (fun id => (sel[id]?.map fun p => val p.1).getD (val p0.1)) fuel D
      (List.range (sel.map fun p => (p.1, p.1.root)).length) (sel.map fun p => (p.1, p.1.root)) acc List.nodup_range hD (by
        intro id hid
        simp only [List.length_map, List.mem_range] at hid
        refine ⟨sel[id].1, sel[id].1.root, by simp [hid], ?_⟩
        simp only [List.getElem?_eq_getElem hid, Option.map_some, Option.getD_some]
        exact hsel' _ (List.getElem_mem hid))
    refine ⟨l, h1, h2.trans (List.Perm.of_eq ?_)⟩
    apply List.ext_getElem?
    intro i
    simp only [List.length_map, List.getElem?_map]
    by_cases hi : i < sel.length
    · simp [hi]
    · simp [hi]

theorem predictBoosted_spec {G : Type} (op : M → M → M) (ev : C → Bool) (filter : G → Bool) (fuel D : Nat) (hD : D < fuel)
    (val : Compact C M → M) : ∀ (k : Nat) (trees : List (Compact C M × G)), trees.length ≤ k →
    (∀ p ∈ trees, predictLoop p.1 ev D p.1.root = some (val p.1)) → ∀ acc : M,
    ∃ l : List M, predictBoosted op ev filter fuel trees acc = some (l.foldl op acc) ∧
      l.Perm ((trees.filter fun p => filter p.2).map fun p => val p.1) := by
  intro k
  induction k with
  | zero =>
    intro trees hk _ acc
    have : trees = [] := List.length_eq_zero_iff.1 (by omega)
    subst this
    exact ⟨[], by rw [predictBoosted]; rfl, by simp⟩
  | succ k ih =>
    intro trees hk h acc
    match trees with
    | [] => exact ⟨[], by rw [predictBoosted]; rfl, by simp⟩
    | t :: rest =>
      obtain ⟨l1, h1, h2⟩ := batch_spec op ev filter fuel D hD val ((t :: rest).take 16)
        (fun p hp => h p (List.mem_of_mem_take hp)) acc
      obtain ⟨l2, g1, g2⟩ := ih ((t :: rest).drop 16) (by simp at hk ⊢; omega)
        (fun p hp => h p (List.mem_of_mem_drop hp)) (l1.foldl op acc)
      refine ⟨l1 ++ l2, ?_, ?_⟩
      · rw [predictBoosted, h1]
        simp only [Option.bind_eq_bind, Option.bind_some, g1, List.foldl_append]
      · have hsplit : (t :: rest) = (t :: rest).take 16 ++ (t :: rest).drop 16 := (List.take_append_drop _ _).symm
        conv_rhs => rw [hsplit]
        rw [List.filter_append, List.map_append]
        exact h2.append g2

end Verif.Forest
