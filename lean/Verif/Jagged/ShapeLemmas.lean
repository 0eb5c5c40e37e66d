import Verif.Jagged.ShapeSpec
import Verif.Edge.CompLemmas

/-! Helper lemmas for jagged shapes. -/

namespace Verif.Jagged
open Verif.Dense Verif.Edge

theorem sameEdge_refl (e : Edge) : SameEdge e e := ⟨rfl, rfl, fun _ _ => Iff.rfl⟩
theorem sameEdge_symm {a b : Edge} (h : SameEdge a b) : SameEdge b a :=
  ⟨h.1.symm, h.2.1.symm, fun c p => (h.2.2 c p).symm⟩
theorem sameShape_refl : ∀ s : Shape, SameShape s s
  | [] => .nil
  | e :: es => .cons (sameEdge_refl e) (sameShape_refl es)

/-- Child size of the last edge, or `n`. -/
def endSize (n : Int) (s : List Edge) : Int :=
  match s.getLast? with
  | none => n
  | some e => e.childSize

theorem endSize_nil (n : Int) : endSize n [] = n := rfl

theorem endSize_cons (n : Int) (e : Edge) (s : List Edge) : endSize n (e :: s) = endSize e.childSize s := by
  unfold endSize
  cases s with
  | nil => rfl
  | cons f fs =>
    rw [List.getLast?_cons_cons, List.getLast?_eq_getLast_of_ne_nil (List.cons_ne_nil f fs)]

theorem size_eq (s : Shape) : size s = endSize 1 s := rfl

theorem linked_append : ∀ (xs ys : List Edge) (n : Int),
    Linked n (xs ++ ys) ↔ Linked n xs ∧ Linked (endSize n xs) ys := by
  intro xs
  induction xs with
  | nil => intro ys n; simp [Linked, endSize_nil]
  | cons x xs ih =>
    intro ys n
    simp only [List.cons_append, Linked, ih, endSize_cons, and_assoc]

theorem endSize_append (n : Int) (xs ys : List Edge) : endSize n (xs ++ ys) = endSize (endSize n xs) ys := by
  induction xs generalizing n with
  | nil => rfl
  | cons x xs ih => rw [List.cons_append, endSize_cons, endSize_cons, ih]

theorem rows_eq {s : Shape} {k : Nat} (hk : k ≤ s.length) : rows s k = endSize 1 (s.take k) := by
  cases k with
  | zero => rfl
  | succ k =>
    unfold rows endSize
    dsimp only
    rw [List.getLast?_take, if_neg (by omega), show k + 1 - 1 = k by omega,
      List.getElem?_eq_getElem (show k < s.length by omega)]
    rfl

theorem linked_compatible : ∀ (es : List Edge) (e : Edge) (n : Int),
    Linked n (e :: es) ↔ e.parentSize = n ∧ Compatible (e :: es) := by
  intro es
  induction es with
  | nil => intro e n; simp [Linked, Compatible]
  | cons f fs ih =>
    intro e n
    rw [Linked, ih f e.childSize, Compatible]
    constructor
    · rintro ⟨h1, h2, h3⟩; exact ⟨h1, h2.symm, h3⟩
    · rintro ⟨h1, h2, h3⟩; exact ⟨h1, h2.symm, h3⟩

theorem endSize_getLast (e : Edge) (es : List Edge) (n : Int) :
    ((e :: es).getLast (by simp)).childSize = endSize n (e :: es) := by
  unfold endSize
  rw [List.getLast?_eq_getLast_of_ne_nil (by simp)]

theorem fromEdgesLoop_spec (mem : Nat → Int) : ∀ (es : List Edge) (n : Int), (∀ e ∈ es, WF e) →
    (Linked n es ∧ (∀ e ∈ es, TotalMono e) → ∃ r, fromEdgesLoop mem n es = some (.ok r) ∧
      SameShape es r ∧ Linked n r ∧ (∀ x ∈ r, WF x ∧ x.typ = .splitPoints) ∧
      ((∀ e ∈ es, e.typ = .splitPoints) → r = es)) ∧
    (¬ (Linked n es ∧ (∀ e ∈ es, TotalMono e)) → ∃ m, fromEdgesLoop mem n es = some (.error m)) := by
  intro es
  induction es with
  | nil =>
    intro n _
    refine ⟨fun _ => ⟨[], rfl, .nil, trivial, by simp, fun _ => rfl⟩, fun h => ?_⟩
    exact absurd ⟨trivial, by simp⟩ h
  | cons e es ih =>
    intro n hw
    have hwe := hw e (by simp)
    rw [fromEdgesLoop]
    by_cases hp : e.parentSize = n
    · rw [if_neg (by simpa using hp)]
      -- the converted edge
      have hconv : (TotalMono e → ∃ e', (if e.typ ≠ .splitPoints then toSplitPointsEdge mem e else
          some (.ok e)) = some (.ok e') ∧ SameEdge e e' ∧ WF e' ∧ e'.typ = .splitPoints ∧
          (e.typ = .splitPoints → e' = e)) ∧
          (¬ TotalMono e → ∃ m, (if e.typ ≠ .splitPoints then toSplitPointsEdge mem e else
          some (.ok e)) = some (.error m)) := by
        by_cases ht : e.typ = .splitPoints
        · rw [if_neg (by simpa using ht)]
          exact ⟨fun _ => ⟨e, rfl, sameEdge_refl e, hwe, ht, fun _ => rfl⟩,
            fun h => absurd (totalMono_split ht hwe) h⟩
        · rw [if_pos ht]
          obtain ⟨s1, s2⟩ := toSplit_spec mem hwe
          refine ⟨fun h => ?_, s2⟩
          obtain ⟨r, r1, r2, r3, r4, r5, r6⟩ := s1 h
          exact ⟨r, r1, ⟨r4.symm, r5.symm, fun c p => (r6 c p).symm⟩, r3, r2, fun h => absurd h ht⟩
      by_cases hm : TotalMono e
      · obtain ⟨e', c1, c2, c3, c4, c5⟩ := hconv.1 hm
        rw [c1]
        simp only [Option.bind_eq_bind, Option.bind_some]
        obtain ⟨i1, i2⟩ := ih e'.childSize (fun x hx => hw x (by simp [hx]))
        by_cases hrest : Linked e'.childSize es ∧ ∀ e ∈ es, TotalMono e
        · obtain ⟨r, r1, r2, r3, r4, r5⟩ := i1 hrest
          rw [r1]
          refine ⟨fun _ => ⟨e' :: r, rfl, .cons c2 r2, ⟨by rw [← c2.1, hp], r3⟩, ?_, ?_⟩, fun h => ?_⟩
          · intro x hx
            rcases List.mem_cons.1 hx with rfl | hx
            · exact ⟨c3, c4⟩
            · exact r4 x hx
          · intro hs
            rw [c5 (hs e (by simp)), r5 (fun x hx => hs x (by simp [hx]))]
          · refine absurd ⟨⟨hp, by rw [c2.2.1]; exact hrest.1⟩, ?_⟩ h
            intro x hx
            rcases List.mem_cons.1 hx with rfl | hx
            · exact hm
            · exact hrest.2 x hx
        · obtain ⟨m, m1⟩ := i2 hrest
          rw [m1]
          refine ⟨fun h => ?_, fun _ => ⟨m, rfl⟩⟩
          exact absurd ⟨by rw [← c2.2.1]; exact h.1.2, fun x hx => h.2 x (by simp [hx])⟩ hrest
      · obtain ⟨m, m1⟩ := hconv.2 hm
        rw [m1]
        exact ⟨fun h => absurd (h.2 e (by simp)) hm, fun _ => ⟨m, rfl⟩⟩
    · rw [if_pos (by simpa using hp)]
      exact ⟨fun h => absurd h.1.1 hp, fun _ => ⟨_, rfl⟩⟩

theorem fromEdges_spec (mem : Nat → Int) (es : List Edge) (hw : ∀ e ∈ es, WF e) :
    (Linked 1 es ∧ (∀ e ∈ es, TotalMono e) → ∃ r, fromEdges mem es = some (.ok r) ∧
      SameShape es r ∧ ShapeOk r ∧ ((∀ e ∈ es, e.typ = .splitPoints) → r = es)) ∧
    (¬ (Linked 1 es ∧ (∀ e ∈ es, TotalMono e)) → ∃ m, fromEdges mem es = some (.error m)) := by
  obtain ⟨h1, h2⟩ := fromEdgesLoop_spec mem es 1 hw
  unfold fromEdges
  by_cases h0 : es = []
  · rw [if_pos h0]
    subst h0
    refine ⟨fun _ => ⟨[], rfl, .nil, ⟨trivial, by simp⟩, fun _ => rfl⟩, fun h => ?_⟩
    exact absurd ⟨trivial, by simp⟩ h
  · rw [if_neg h0]
    refine ⟨fun h => ?_, h2⟩
    obtain ⟨r, r1, r2, r3, r4, r5⟩ := h1 h
    exact ⟨r, r1, r2, ⟨r3, r4⟩, r5⟩

/-! ## Row relations -/

theorem relComp_bounds : ∀ (s : List Edge) (n : Int), Linked n s → (∀ e ∈ s, WF e) → s ≠ [] →
    ∀ c p, RelComp s c p → (c : Int) < endSize n s ∧ (p : Int) < n := by
  intro s
  induction s with
  | nil => intro n _ _ h; exact absurd rfl h
  | cons e es ih =>
    intro n hl hw _ c p hr
    obtain ⟨m, h1, h2⟩ := hr
    have hb := rel_bounds (hw e (by simp)) h2
    rw [endSize_cons]
    cases es with
    | nil =>
      have : c = m := h1
      subst this
      exact ⟨hb.1, by rw [← hl.1]; exact hb.2⟩
    | cons f fs =>
      have := ih e.childSize hl.2 (fun x hx => hw x (by simp [hx])) (by simp) c m h1
      exact ⟨this.1, by rw [← hl.1]; exact hb.2⟩

theorem relComp_total : ∀ (s : List Edge) (n : Int), Linked n s → (∀ e ∈ s, WF e ∧ e.typ = .splitPoints) →
    ∀ c : Nat, (c : Int) < endSize n s → ∃ p, RelComp s c p := by
  intro s
  induction s with
  | nil => intro n _ _ c _; exact ⟨c, rfl⟩
  | cons e es ih =>
    intro n hl hw c hc
    rw [endSize_cons] at hc
    obtain ⟨m, hm⟩ := ih e.childSize hl.2 (fun x hx => hw x (by simp [hx])) c hc
    have hmb : (m : Int) < e.childSize := by
      cases es with
      | nil =>
        have : c = m := hm
        subst this
        exact hc
      | cons f fs =>
        exact (relComp_bounds (f :: fs) e.childSize hl.2 (fun x hx => (hw x (by simp [hx])).1) (by simp)
          c m hm).2
    obtain ⟨p, hp⟩ := (totalMono_split (hw e (by simp)).2 (hw e (by simp)).1).1 m hmb
    exact ⟨p, m, hm, hp⟩

theorem endSize_nonneg (s : List Edge) (n : Int) (hn : 0 ≤ n) (hw : ∀ e ∈ s, WF e) : 0 ≤ endSize n s := by
  unfold endSize
  cases h : s.getLast? with
  | none => exact hn
  | some e => exact (wf_sizes (hw e (List.mem_of_getLast? h))).2

theorem root_rel {s : Shape} (h : ShapeOk s) (hs : s ≠ []) (c p : Nat) :
    RelComp s c p ↔ p = 0 ∧ (c : Int) < size s := by
  constructor
  · intro hr
    have := relComp_bounds s 1 h.1 (fun e he => (h.2 e he).1) hs c p hr
    exact ⟨by omega, this.1⟩
  · rintro ⟨rfl, hc⟩
    obtain ⟨p, hp⟩ := relComp_total s 1 h.1 h.2 c hc
    have := relComp_bounds s 1 h.1 (fun e he => (h.2 e he).1) hs c p hp
    have : p = 0 := by omega
    subst this
    exact hp

/-- The edge with one group per row. -/
theorem unit_spec {n : Int} (h0 : 0 ≤ n) (hn : n < maxI64) :
    ∃ e, fromUniformGroups n 1 = some (.ok e) ∧ e.typ = .splitPoints ∧ e.parentSize = n ∧ e.childSize = n ∧
      WF e ∧ ∀ c p, Rel e c p ↔ (c = p ∧ (c : Int) < n) := by
  obtain ⟨e, e1, e2, e3, e4, e5, e6⟩ := (fromUniformGroups_spec (g := 1) hn).1
    ⟨h0, by decide, by rw [Int.mul_one]; omega⟩
  refine ⟨e, e1, e2, e3, by rw [e4, Int.mul_one], e5, ?_⟩
  intro c p
  rw [e6, Int.mul_one]
  omega

theorem flat_spec {n : Int} (h0 : 0 ≤ n) (hn : n ≤ maxI64) :
    ∃ e, flatFromSize n = some [e] ∧ e.typ = .splitPoints ∧ e.parentSize = 1 ∧ e.childSize = n ∧
      WF e ∧ ∀ c p, Rel e c p ↔ (p = 0 ∧ (c : Int) < n) := by
  obtain ⟨e, e1, e2, e3, e4, e5, e6⟩ := (fromUniformGroups_spec (n := 1) (g := n) (by decide)).1
    ⟨by decide, h0, by rw [Int.one_mul]; exact hn⟩
  refine ⟨e, by unfold flatFromSize; rw [e1]; rfl, e2, e3, by rw [e4, Int.one_mul], e5, ?_⟩
  intro c p
  rw [e6]
  constructor
  · rintro ⟨h1, h2, h3⟩
    have : p = 0 := by omega
    subst this
    exact ⟨rfl, by simpa using h3⟩
  · rintro ⟨rfl, h⟩
    exact ⟨by decide, by simp, by simpa using h⟩

theorem compose_spec (mem : Nat → Int) {es : List Edge} {n : Int} (hne : es ≠ []) (hl : Linked n es)
    (hw : ∀ e ∈ es, WF e ∧ e.typ = .splitPoints) :
    ∃ r, composeEdges mem es = some (.ok r) ∧ WF r ∧ r.typ = .splitPoints ∧ r.parentSize = n ∧
      r.childSize = endSize n es ∧ ∀ c p, Rel r c p ↔ RelComp es c p := by
  cases es with
  | nil => exact absurd rfl hne
  | cons e es =>
    have hl' := (linked_compatible es e n).1 hl
    obtain ⟨r, r1, r2, r3, r4, r5, r6⟩ := (composeEdges_spec mem e es (fun x hx => (hw x hx).1)).1 hl'.2
    exact ⟨r, r1, r2, r6.2 (fun x hx => (hw x hx).2), by rw [r3, hl'.1],
      by rw [r4, endSize_getLast e es n], r5⟩

theorem shapeOk_parts {s : Shape} (h : ShapeOk s) (a b : Nat) (hab : a ≤ b) :
    Linked (endSize 1 (s.take a)) ((s.drop a).take (b - a)) ∧
    Linked 1 (s.take a) ∧ Linked (endSize 1 (s.take b)) (s.drop b) ∧
    endSize (endSize 1 (s.take a)) ((s.drop a).take (b - a)) = endSize 1 (s.take b) := by
  have h1 : s.take b = s.take a ++ (s.drop a).take (b - a) := by
    have : s.take b = s.take (a + (b - a)) := by rw [show a + (b - a) = b by omega]
    rw [this, List.take_add]
  have h2 := h.1
  rw [← List.take_append_drop b s, linked_append, h1, linked_append] at h2
  refine ⟨h2.1.2, h2.1.1, by rw [h1]; exact h2.2, ?_⟩
  rw [h1, endSize_append]

theorem mem_part {s : Shape} {a k : Nat} {e : Edge} (h : e ∈ (s.drop a).take k) : e ∈ s :=
  List.mem_of_mem_drop (List.mem_of_mem_take h)

theorem flattenDims_spec (mem : Nat → Int) {s : Shape} (h : ShapeOk s) {a b : Nat} (hab : a ≤ b)
    (hb : b ≤ s.length) (hsz : ∀ e ∈ s, e.childSize ≤ maxI64) (hfit : a = b → rows s a < maxI64) :
    ∃ e, flattenDims mem s a b = some (s.take a ++ [e] ++ s.drop b) ∧
      ShapeOk (s.take a ++ [e] ++ s.drop b) ∧ e.parentSize = rows s a ∧ e.childSize = rows s b ∧
      ∀ c p, Rel e c p ↔ (RelComp ((s.drop a).take (b - a)) c p ∧ (c : Int) < rows s b) := by
  obtain ⟨p1, p2, p3, p4⟩ := shapeOk_parts h a b hab
  rw [rows_eq hb, rows_eq (show a ≤ s.length by omega)]
  have hwf : ∀ e ∈ s, WF e := fun e he => (h.2 e he).1
  have hnn : ∀ k, 0 ≤ endSize 1 (s.take k) := fun k =>
    endSize_nonneg _ _ (by decide) (fun e he => hwf e (List.mem_of_mem_take he))
  -- it is enough to give the edge
  have key : ∀ e : Edge, WF e → e.typ = .splitPoints → e.parentSize = endSize 1 (s.take a) →
      e.childSize = endSize 1 (s.take b) →
      (∀ c p, Rel e c p ↔ (RelComp ((s.drop a).take (b - a)) c p ∧ (c : Int) < endSize 1 (s.take b))) →
      flattenDims mem s a b = some (s.take a ++ [e] ++ s.drop b) →
      ∃ e, flattenDims mem s a b = some (s.take a ++ [e] ++ s.drop b) ∧
      ShapeOk (s.take a ++ [e] ++ s.drop b) ∧ e.parentSize = endSize 1 (s.take a) ∧
      e.childSize = endSize 1 (s.take b) ∧
      ∀ c p, Rel e c p ↔ (RelComp ((s.drop a).take (b - a)) c p ∧ (c : Int) < endSize 1 (s.take b)) := by
    intro e k1 k2 k3 k4 k5 k6
    refine ⟨e, k6, ⟨?_, ?_⟩, k3, k4, k5⟩
    · rw [List.append_assoc, linked_append]
      exact ⟨p2, k3, by rw [k4]; exact p3⟩
    · intro x hx
      simp only [List.mem_append, List.mem_singleton] at hx
      rcases hx with (hx | rfl) | hx
      · exact h.2 x (List.mem_of_mem_take hx)
      · exact ⟨k1, k2⟩
      · exact h.2 x (List.mem_of_mem_drop hx)
  by_cases h1 : b - a = 1
  · have ha : a < s.length := by omega
    have hd : s.drop a = s[a] :: s.drop (a + 1) := List.drop_eq_getElem_cons ha
    have hs : (s.drop a).take (b - a) = [s[a]] := by rw [h1, hd]; rfl
    rw [hs] at p1 p4 key ⊢
    have hpar : s[a].parentSize = endSize 1 (s.take a) := p1.1
    have hch : s[a].childSize = endSize 1 (s.take b) := by
      rw [← p4]; rfl
    have hwe := h.2 s[a] (List.getElem_mem ha)
    refine key s[a] hwe.1 hwe.2 hpar hch ?_ ?_
    · intro c p
      rw [relComp_single]
      constructor
      · intro hr; exact ⟨hr, by rw [← hch]; exact (rel_bounds hwe.1 hr).1⟩
      · exact fun hr => hr.1
    · unfold flattenDims
      rw [if_pos ⟨hab, hb⟩, if_pos h1]
      congr 1
      have : b = a + 1 := by omega
      rw [this, List.append_assoc, List.singleton_append, ← hd, List.take_append_drop]
  · by_cases h2 : b - a = s.length
    · have ha0 : a = 0 := by omega
      have hbl : b = s.length := by omega
      subst ha0
      have hall : s.take b = s := by rw [hbl, List.take_length]
      have hpart : (s.drop 0).take (b - 0) = s := by simpa using hall
      rw [hall, hpart] at key ⊢
      obtain ⟨e, e1, e2, e3, e4, e5, e6⟩ := flat_spec (n := endSize 1 s) (by have := hnn b; rwa [hall] at this) (by
        unfold endSize
        cases hg : s.getLast? with
        | none => decide
        | some x => exact hsz x (List.mem_of_getLast? hg))
      refine key e e5 e2 e3 e4 ?_ ?_
      · intro c p
        rw [e6]
        by_cases hs0 : s = []
        · subst hs0
          simp only [endSize_nil, RelComp]
          omega
        · rw [root_rel h hs0, ← size_eq]
          constructor
          · rintro ⟨x, y⟩; exact ⟨⟨x, y⟩, y⟩
          · exact fun x => x.1
      · unfold flattenDims
        rw [if_pos ⟨hab, hb⟩, if_neg h1, if_pos h2, size_eq, e1, hbl, List.drop_length]
        rfl
    · have hflat : flattenDims mem s a b = (flatEdge mem s a b).map (fun e => s.take a ++ [e] ++ s.drop b) := by
        unfold flattenDims
        rw [if_pos ⟨hab, hb⟩, if_neg h1, if_neg h2]
        cases flatEdge mem s a b <;> rfl
      by_cases h3 : a = b
      · subst h3
        have hfit := hfit rfl
        rw [rows_eq hb] at hfit
        obtain ⟨e, e1, e2, e3, e4, e5, e6⟩ := unit_spec (hnn a) hfit
        refine key e e5 e2 e3 e4 ?_ ?_
        · intro c p
          rw [e6, Nat.sub_self, List.take_zero]
          exact Iff.rfl
        · rw [hflat]
          unfold flatEdge
          rw [if_pos rfl]
          have hps : unitParentSize s a = some (endSize 1 (s.take a)) := by
            unfold unitParentSize
            by_cases ha : a = 0
            · subst ha; rfl
            · rw [if_neg ha]
              unfold endSize
              rw [List.getLast?_take, if_neg ha, List.getElem?_eq_getElem (show a - 1 < s.length by omega)]
              rfl
          rw [hps]
          simp only [Option.bind_eq_bind, Option.bind_some]
          rw [e1]
          rfl
      · have hne : (s.drop a).take (b - a) ≠ [] := by
          intro hc
          have := congrArg List.length hc
          simp at this
          omega
        obtain ⟨e, e1, e2, e3, e4, e5, e6⟩ := compose_spec mem hne p1 (fun x hx => h.2 x (mem_part hx))
        refine key e e2 e3 e4 (by rw [e5, p4]) ?_ ?_
        · intro c p
          rw [e6]
          constructor
          · intro hr
            have := (relComp_bounds _ _ p1 (fun x hx => hwf x (mem_part hx)) hne c p hr).1
            rw [p4] at this
            exact ⟨hr, this⟩
          · exact fun x => x.1
        · rw [hflat]
          unfold flatEdge
          rw [if_neg h3, if_pos ⟨hab, hb⟩, e1]
          rfl

/-! ## Equivalence and broadcasting -/

theorem edgesLoop_spec (mem : Nat → Int) : ∀ (s t : List Edge), (∀ e ∈ s, WF e) → (∀ e ∈ t, WF e) →
    s.length ≤ t.length →
    ∃ r, edgesLoop mem s t = some r ∧ (r = true ↔ SameShape s (t.take s.length)) := by
  intro s
  induction s with
  | nil =>
    intro t _ _ _
    exact ⟨true, by unfold edgesLoop; rfl, ⟨fun _ => .nil, fun _ => rfl⟩⟩
  | cons a as ih =>
    intro t hs ht hl
    cases t with
    | nil => simp at hl
    | cons b bs =>
      rw [edgesLoop]
      obtain ⟨r, r1, r2⟩ := isEquivalentTo_spec mem (hs a (by simp)) (ht b (by simp))
      rw [r1]
      simp only [Option.bind_eq_bind, Option.bind_some]
      rw [List.length_cons, List.take_succ_cons]
      unfold SameShape
      rw [List.forall₂_cons]
      cases r with
      | false =>
        refine ⟨false, rfl, ?_⟩
        simp only [Bool.false_eq_true, false_iff]
        rintro ⟨h, _⟩
        exact absurd (r2.2 h) (by simp)
      | true =>
        obtain ⟨r', q1, q2⟩ := ih bs (fun e he => hs e (by simp [he])) (fun e he => ht e (by simp [he]))
          (by simpa using hl)
        refine ⟨r', by simpa using q1, q2.trans ?_⟩
        exact ⟨fun h => ⟨r2.1 rfl, h⟩, fun h => h.2⟩

theorem sizesLoop_spec : ∀ (s t : List Edge), s.length = t.length →
    (sizesLoop s t = .sizesEq ∨ sizesLoop s t = .notEq) ∧
    (sizesLoop s t = .sizesEq ↔ List.Forall₂ (fun a b => a.childSize = b.childSize) s t) := by
  intro s
  induction s with
  | nil =>
    intro t h
    have : t = [] := by simpa using h.symm
    subst this
    exact ⟨Or.inl rfl, by simp [sizesLoop]⟩
  | cons a as ih =>
    intro t h
    cases t with
    | nil => simp at h
    | cons b bs =>
      rw [sizesLoop, List.forall₂_cons]
      obtain ⟨i1, i2⟩ := ih bs (by simpa using h)
      by_cases hc : a.childSize = b.childSize
      · rw [if_neg (by simpa using hc)]
        exact ⟨i1, by rw [i2]; exact ⟨fun h => ⟨hc, h⟩, fun h => h.2⟩⟩
      · rw [if_pos hc]
        exact ⟨Or.inr rfl, by simp [hc]⟩

theorem sameShape_sizes {s t : Shape} (h : SameShape s t) :
    List.Forall₂ (fun a b : Edge => a.childSize = b.childSize) s t := h.imp (fun _ _ h => h.2.1)

/-- An edge with a single parent is determined by its size. -/
theorem single_parent {a b : Edge} (ha : WF a) (hb : WF b) (ta : a.typ = .splitPoints)
    (tb : b.typ = .splitPoints) (pa : a.parentSize = 1) (pb : b.parentSize = 1)
    (h : a.childSize = b.childSize) : SameEdge a b := by
  have key : ∀ e : Edge, WF e → e.typ = .splitPoints → e.parentSize = 1 → ∀ c p,
      Rel e c p ↔ p = 0 ∧ (c : Int) < e.childSize := by
    intro e he te pe c p
    have := root_rel (s := [e]) ⟨⟨pe, trivial⟩, by simp [he, te]⟩ (by simp) c p
    rw [relComp_single] at this
    exact this
  refine ⟨by omega, h, ?_⟩
  intro c p
  rw [key a ha ta pa, key b hb tb pb, h]

theorem first_same {a b : Edge} {as bs : List Edge} (hs : ShapeOk (a :: as)) (ht : ShapeOk (b :: bs))
    (h : a.childSize = b.childSize) : SameEdge a b :=
  single_parent (hs.2 a (by simp)).1 (ht.2 b (by simp)).1 (hs.2 a (by simp)).2 (ht.2 b (by simp)).2
    hs.1.1 ht.1.1 h

theorem forall2_reverse {R : Edge → Edge → Prop} {s t : List Edge} :
    List.Forall₂ R s.reverse t.reverse ↔ List.Forall₂ R s t := List.forall₂_reverse_iff

theorem fast_spec {same : Bool} {s t : Shape} (hs : ShapeOk s) (ht : ShapeOk t) (hsame : same = true → s = t) :
    (fastEquivalenceCheck same s t = .eq → SameShape s t) ∧
    (fastEquivalenceCheck same s t = .notEq → ¬ List.Forall₂ (fun a b : Edge => a.childSize = b.childSize) s t) ∧
    (fastEquivalenceCheck same s t = .sizesEq → s ≠ [] ∧
      List.Forall₂ (fun a b : Edge => a.childSize = b.childSize) s t) := by
  unfold fastEquivalenceCheck
  cases same with
  | true =>
    rw [hsame rfl]
    refine ⟨fun _ => sameShape_refl t, by simp, by simp⟩
  | false =>
    rw [if_neg (by simp)]
    by_cases hl : s.length = t.length
    · rw [if_neg (by simpa using hl)]
      cases hrs : s.reverse with
      | nil =>
        have h1 : s = [] := by simpa using hrs
        subst h1
        have h2 : t = [] := by simpa using hl.symm
        subst h2
        exact ⟨fun _ => .nil, by simp, by simp⟩
      | cons a as =>
        cases hrt : t.reverse with
        | nil =>
          have h1 : t = [] := by simpa using hrt
          subst h1
          have h2 : s = [] := by simpa using hl
          subst h2
          simp at hrs
        | cons b bs =>
          dsimp only
          have hiff : List.Forall₂ (fun a b : Edge => a.childSize = b.childSize) s t ↔
              a.childSize = b.childSize ∧ List.Forall₂ (fun a b : Edge => a.childSize = b.childSize) as bs := by
            rw [← forall2_reverse, hrs, hrt, List.forall₂_cons]
          have hsl : s.length = as.length + 1 := by rw [← List.length_reverse, hrs]; rfl
          have htl : t.length = bs.length + 1 := by rw [← List.length_reverse, hrt]; rfl
          by_cases hc : a.childSize = b.childSize
          · rw [if_neg (by simpa using hc)]
            by_cases h1 : s.length = 1
            · rw [if_pos h1]
              refine ⟨fun _ => ?_, by simp, by simp⟩
              have ha : as = [] := List.length_eq_zero_iff.1 (by omega)
              have hb : bs = [] := List.length_eq_zero_iff.1 (by omega)
              subst ha hb
              have hs1 : s = [a] := by simpa using congrArg List.reverse hrs
              have ht1 : t = [b] := by simpa using congrArg List.reverse hrt
              subst hs1 ht1
              exact .cons (first_same hs ht hc) .nil
            · rw [if_neg h1]
              obtain ⟨i1, i2⟩ := sizesLoop_spec as bs (by omega)
              refine ⟨fun h => ?_, fun h => ?_, fun h => ?_⟩
              · rcases i1 with i1 | i1 <;> rw [i1] at h <;> simp at h
              · rw [hiff]
                rintro ⟨_, h2⟩
                rw [i2.2 h2] at h
                simp at h
              · exact ⟨by intro h0; simp [h0] at hrs, hiff.2 ⟨hc, i2.1 h⟩⟩
          · rw [if_pos hc]
            refine ⟨by simp, fun _ => ?_, by simp⟩
            rw [hiff]
            exact fun h => hc h.1
    · rw [if_pos (by simpa using hl)]
      refine ⟨by simp, fun _ h => hl h.length_eq, by simp⟩

theorem shapesEquivalent_spec (mem : Nat → Int) {same : Bool} {s t : Shape} (hs : ShapeOk s) (ht : ShapeOk t)
    (hsame : same = true → s = t) :
    ∃ r, shapesEquivalent mem same s t = some r ∧ (r = true ↔ SameShape s t) := by
  obtain ⟨f1, f2, f3⟩ := fast_spec hs ht hsame
  unfold shapesEquivalent
  cases hf : fastEquivalenceCheck same s t with
  | notEq => exact ⟨false, rfl, by simpa using fun h => f2 hf (sameShape_sizes h)⟩
  | eq => exact ⟨true, rfl, by simpa using f1 hf⟩
  | sizesEq =>
    dsimp only
    obtain ⟨h0, hfa⟩ := f3 hf
    cases s with
    | nil => exact absurd rfl h0
    | cons a as =>
      cases t with
      | nil => simp at hfa
      | cons b bs =>
        rw [List.forall₂_cons] at hfa
        obtain ⟨r, r1, r2⟩ := edgesLoop_spec mem as bs (fun e he => (hs.2 e (by simp [he])).1)
          (fun e he => (ht.2 e (by simp [he])).1) (by rw [hfa.2.length_eq]; exact Nat.le_refl _)
        refine ⟨r, r1, r2.trans ?_⟩
        unfold SameShape
        rw [List.forall₂_cons, hfa.2.length_eq, List.take_length]
        exact ⟨fun h => ⟨first_same hs ht hfa.1, h⟩, fun h => h.2⟩

theorem isBroadcastableTo_spec (mem : Nat → Int) {same : Bool} {s t : Shape} (hs : ShapeOk s)
    (ht : ShapeOk t) (hsame : same = true → s = t) :
    ∃ r, isBroadcastableTo mem same s t = some r ∧ (r = true ↔ PrefixOf s t) := by
  unfold isBroadcastableTo PrefixOf
  cases same with
  | true =>
    rw [if_pos rfl, hsame rfl, List.take_length]
    exact ⟨true, rfl, by simpa using sameShape_refl t⟩
  | false =>
    rw [if_neg (by simp)]
    by_cases hl : t.length < s.length
    · rw [if_pos hl]
      exact ⟨false, rfl, by simp; omega⟩
    · rw [if_neg hl]
      obtain ⟨r, r1, r2⟩ := edgesLoop_spec mem s t (fun e he => (hs.2 e he).1) (fun e he => (ht.2 e he).1)
        (by omega)
      exact ⟨r, r1, r2.trans ⟨fun h => ⟨by omega, h⟩, fun h => h.2⟩⟩

theorem sameShape_size {s t : List Edge} {n : Int} (h : SameShape s t) : endSize n s = endSize n t := by
  unfold SameShape at h
  induction h generalizing n with
  | nil => rfl
  | cons h1 _ ih => rw [endSize_cons, endSize_cons, ih, h1.2.1]

theorem sameShape_relComp {s t : List Edge} (h : SameShape s t) (c p : Nat) :
    RelComp s c p ↔ RelComp t c p := by
  unfold SameShape at h
  induction h generalizing c p with
  | nil => exact Iff.rfl
  | cons h1 _ ih =>
    simp only [RelComp]
    constructor
    · rintro ⟨m, x, y⟩; exact ⟨m, (ih c m).1 x, (h1.2.2 m p).1 y⟩
    · rintro ⟨m, x, y⟩; exact ⟨m, (ih c m).2 x, (h1.2.2 m p).2 y⟩

theorem getBroadcastEdge_spec (mem : Nat → Int) {s t : Shape} (hs : ShapeOk s) (ht : ShapeOk t)
    (hp : PrefixOf s t) (hfit : s.length = t.length → size s < maxI64) :
    ∃ e, getBroadcastEdge mem s t = some e ∧ WF e ∧ e.parentSize = size s ∧ e.childSize = size t ∧
      ∀ c p, Rel e c p ↔ (RelComp (t.drop s.length) c p ∧ (c : Int) < size t) := by
  obtain ⟨hl, hsame⟩ := hp
  have hsz : size s = endSize 1 (t.take s.length) := sameShape_size hsame
  obtain ⟨p1, p2, p3, p4⟩ := shapeOk_parts ht s.length s.length (Nat.le_refl _)
  have htot : size t = endSize (endSize 1 (t.take s.length)) (t.drop s.length) := by
    rw [← endSize_append, List.take_append_drop]; rfl
  unfold getBroadcastEdge
  by_cases h : s.length = t.length
  · rw [if_pos h]
    have hst : size s = size t := by rw [hsz, h, List.take_length]; rfl
    obtain ⟨e, e1, e2, e3, e4, e5, e6⟩ := unit_spec (n := size s)
      (endSize_nonneg s 1 (by decide) (fun e he => (hs.2 e he).1)) (hfit h)
    rw [e1]
    refine ⟨e, rfl, e5, e3, by rw [e4, hst], ?_⟩
    intro c p
    rw [e6, h, List.drop_length, hst]
    exact Iff.rfl
  · rw [if_neg h, if_pos hl]
    have hne : t.drop s.length ≠ [] := by
      intro hc
      have := congrArg List.length hc
      simp at this
      omega
    obtain ⟨e, e1, e2, e3, e4, e5, e6⟩ := compose_spec mem hne p3 (fun x hx => ht.2 x (List.mem_of_mem_drop hx))
    rw [e1]
    refine ⟨e, rfl, e2, by rw [e4, hsz], by rw [e5, htot], ?_⟩
    intro c p
    rw [e6]
    constructor
    · intro hr
      have := (relComp_bounds _ _ p3 (fun x hx => (ht.2 x (List.mem_of_mem_drop hx)).1) hne c p hr).1
      exact ⟨hr, by rw [htot]; exact this⟩
    · exact fun x => x.1

theorem fromEdgesLoop_append (mem : Nat → Int) : ∀ (s es : List Edge) (n : Int),
    (∀ e ∈ s, e.typ = .splitPoints) → ∀ r, fromEdgesLoop mem n (s ++ es) = some (.ok r) →
    ∃ r', r = s ++ r' ∧ (SameShape (s ++ es) r → SameShape es r') := by
  intro s
  induction s with
  | nil => intro es n _ r _; exact ⟨r, rfl, fun h => h⟩
  | cons e s ih =>
    intro es n ht r hr
    rw [List.cons_append, fromEdgesLoop] at hr
    by_cases hp : e.parentSize ≠ n
    · rw [if_pos hp] at hr; simp at hr
    · rw [if_neg hp, if_neg (by simpa using ht e (by simp))] at hr
      simp only [Option.bind_eq_bind, Option.bind_some] at hr
      cases hl : fromEdgesLoop mem e.childSize (s ++ es) with
      | none => rw [hl] at hr; simp at hr
      | some x =>
        rw [hl] at hr
        cases x with
        | error m => simp at hr
        | ok q =>
          simp only [Option.bind_some, Option.some.injEq, Except.ok.injEq] at hr
          obtain ⟨r', q1, q2⟩ := ih es e.childSize (fun x hx => ht x (by simp [hx])) q hl
          subst hr q1
          refine ⟨r', rfl, fun h => q2 ?_⟩
          unfold SameShape at h ⊢
          rw [List.cons_append, List.forall₂_cons] at h
          exact h.2

theorem sizes_get {s t : List Edge} (h : List.Forall₂ (fun a b : Edge => a.childSize = b.childSize) s t)
    (k : Nat) : s[k]?.map Edge.childSize = t[k]?.map Edge.childSize := by
  induction h generalizing k with
  | nil => rfl
  | cons hx _ ih =>
    cases k with
    | zero => simp [hx]
    | succ k => simpa using ih k

theorem sameShape_trans {s t u : Shape} (h1 : SameShape s t) (h2 : SameShape t u) : SameShape s u := by
  unfold SameShape at *
  induction h1 generalizing u with
  | nil => exact h2
  | cons h _ ih =>
    cases h2 with
    | cons h' h2 =>
      exact .cons ⟨h.1.trans h'.1, h.2.1.trans h'.2.1, fun c p => (h.2.2 c p).trans (h'.2.2 c p)⟩ (ih h2)

end Verif.Jagged
