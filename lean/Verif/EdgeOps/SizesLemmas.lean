import Verif.EdgeOps.PairLemmas

/-! `edge.sizes`. -/

namespace Verif.EdgeOps
open Verif.Bits Verif.Bitmap Verif.Dense Verif.Edge

/-- Differences of consecutive values. -/
def diffs : Int → List Int → List Int
  | _, [] => []
  | prev, v :: vs => (v - prev) :: diffs v vs

theorem diffs_length : ∀ (vs : List Int) (p : Int), (diffs p vs).length = vs.length := by
  intro vs
  induction vs with
  | nil => intro p; rfl
  | cons v vs ih => intro p; rw [diffs, List.length_cons, ih, List.length_cons]

theorem diffs_get : ∀ (vs : List Int) (p : Int) (i : Nat) (a b : Int),
    (p :: vs)[i]? = some a → (p :: vs)[i + 1]? = some b → (diffs p vs)[i]? = some (b - a) := by
  intro vs
  induction vs with
  | nil => intro p i a b h1 h2; simp at h2
  | cons v vs ih =>
    intro p i a b h1 h2
    cases i with
    | zero =>
      simp only [List.getElem?_cons_zero, Option.some.injEq, List.getElem?_cons_succ] at h1 h2
      subst h1; subst h2
      rfl
    | succ i =>
      rw [List.getElem?_cons_succ] at h1 h2
      rw [diffs, List.getElem?_cons_succ]
      exact ih v i a b h1 h2

theorem diffs_nonneg : ∀ (vs : List Int) (p : Int), (p :: vs).Pairwise (· ≤ ·) →
    ∀ d ∈ diffs p vs, 0 ≤ d := by
  intro vs
  induction vs with
  | nil => intro p _ d h; simp [diffs] at h
  | cons v vs ih =>
    intro p h d hd
    rw [List.pairwise_cons] at h
    rw [diffs, List.mem_cons] at hd
    rcases hd with rfl | hd
    · have := h.1 v (by simp); omega
    · exact ih v h.2 d hd

theorem isums_diffs : ∀ (vs : List Int) (p : Int), isums p (diffs p vs) = p :: vs := by
  intro vs
  induction vs with
  | nil => intro p; rfl
  | cons v vs ih =>
    intro p
    rw [diffs, isums, show p + (v - p) = v by omega, ih]

theorem diffLoop_spec {N : Nat} : ∀ (vs : List Int) (prev : Int) (st : List Int × Nat) (pre : List Int),
    Filled st pre N → pre.length + vs.length ≤ N → 0 ≤ prev → (prev :: vs).Pairwise (· ≤ ·) →
    (∀ v ∈ vs, v ≤ maxI64) →
    ∃ st', diffLoop prev vs st = some st' ∧ Filled st' (pre ++ diffs prev vs) N := by
  intro vs
  induction vs with
  | nil => intro prev st pre hf _ _ _ _; exact ⟨st, rfl, by simpa [diffs] using hf⟩
  | cons v vs ih =>
    intro prev st pre hf hl hp hs hm
    rw [List.pairwise_cons] at hs
    have h1 := hs.1 v (by simp)
    have h2 := hm v (by simp)
    rw [List.length_cons] at hl
    rw [diffLoop, chk_ok (by omega) (by omega)]
    simp only [Option.bind_eq_bind, Option.bind_some]
    obtain ⟨st1, e1, e2⟩ := filled_ins hf (by omega) (v - prev)
    rw [e1]
    simp only [Option.bind_some]
    obtain ⟨st2, g1, g2⟩ := ih v st1 _ e2 (by simp; omega) (by omega) hs.2 (fun x hx => hm x (by simp [hx]))
    refine ⟨st2, g1, ?_⟩
    rw [diffs]
    rw [List.append_assoc] at g2
    exact g2

theorem le_last {sp : List Int} (h : SP sp) {m : Int} (hm : sp.getLast? = some m) : ∀ v ∈ sp, v ≤ m := by
  intro v hv
  rw [List.mem_iff_getElem?] at hv
  obtain ⟨i, hi⟩ := hv
  have hlt := (List.getElem?_eq_some_iff.1 hi).1
  rw [List.getLast?_eq_getElem?] at hm
  exact h.mono (by omega) hi hm

/-- On split points, `edge.sizes` gives the differences. -/
theorem edgeSizes_split (mem : Nat → Int) {e : Edge} (hw : WF e) (ht : e.typ = .splitPoints)
    (hm : e.childSize ≤ maxI64) :
    ∃ v vs, e.values.values = v :: vs ∧ v = 0 ∧ edgeSizes mem e = some ⟨diffs v vs, [], 0⟩ := by
  obtain ⟨w1, w2, w3, w4, w5⟩ := (wf_split_iff ht).1 hw
  have hps := (wf_sizes hw).1
  have hle := le_last w3 w5
  cases hvs : e.values.values with
  | nil => rw [hvs] at w3; have := w3.zero; simp at this
  | cons v vs =>
    rw [hvs] at w3 w4 hle
    have hv0 : v = 0 := by have := w3.zero; simpa using this
    refine ⟨v, vs, rfl, hv0, ?_⟩
    have hpn : e.parentSize = (vs.length : Nat) := by rw [List.length_cons] at w4; push_cast at w4; omega
    obtain ⟨st, e1, e2⟩ := diffLoop_spec (N := vs.length) vs v (uninit mem vs.length, 0) []
      (filled_new mem _) (by simp) (by omega) w3.2
      (fun x hx => by have := hle x (by simp [hx]); omega)
    unfold edgeSizes
    rw [ht]
    dsimp only
    rw [hpn, newBuffer_ok]
    simp only [Option.bind_eq_bind, Option.bind_some]
    rw [hvs]
    dsimp only
    rw [e1]
    simp only [Option.bind_some]
    rw [filled_done e2 (by simp [diffs_length])]
    rfl

theorem elem_nobitmap (vs : List Int) (i : Nat) : elem (⟨vs, [], 0⟩ : DArr Int) i = vs[i]? := by
  rw [elem_eq]; simp [pres]

theorem hasChildren_split {e : Edge} (hw : WF e) (ht : e.typ = .splitPoints) {p : Nat} {a b : Int}
    (ha : e.values.values[p]? = some a) (hb : e.values.values[p + 1]? = some b) :
    HasChildren e p (b - a).toNat := by
  obtain ⟨w1, w2, w3, w4, w5⟩ := (wf_split_iff ht).1 hw
  have h0 := w3.nonneg ha
  have h1 := w3.mono (Nat.le_succ p) ha hb
  refine ⟨List.range' a.toNat (b - a).toNat, List.nodup_range', ?_, by simp⟩
  intro c
  rw [rel_split_iff ht w2, List.mem_range'_1]
  unfold SRel
  rw [ha, hb]
  constructor
  · intro h; exact ⟨a, b, rfl, rfl, by omega, by omega⟩
  · rintro ⟨a', b', x1, x2, x3, x4⟩
    simp only [Option.some.injEq] at x1 x2
    omega

/-! ## Mappings -/

/-- The call increments the counter of row `p`. -/
def hits (p : Nat) (x : Nat × Bool × Int) : Bool := x.2.1 && decide (x.2.2 = (p : Int))

theorem countFold_spec : ∀ (l : List (Nat × Bool × Int)) (sizes : List Int),
    (∀ x ∈ l, x.2.1 = true → 0 ≤ x.2.2 ∧ x.2.2 < (sizes.length : Int)) →
    (∀ s ∈ sizes, 0 ≤ s ∧ s + l.length ≤ maxI64) →
    ∃ r, l.foldlM countStep sizes = some r ∧ r.length = sizes.length ∧
      ∀ p : Nat, r[p]? = (sizes[p]?).map (fun s => s + (l.countP (hits p) : Int)) := by
  intro l
  induction l with
  | nil =>
    intro sizes _ _
    refine ⟨sizes, rfl, rfl, ?_⟩
    intro p; simp
  | cons x l ih =>
    intro sizes hx hs
    rw [List.foldlM_cons]
    cases hp : x.2.1 with
    | false =>
      have : countStep sizes x = some sizes := by unfold countStep; rw [hp]; rfl
      rw [this]
      simp only [Option.bind_eq_bind, Option.bind_some]
      obtain ⟨r, e1, e2, e3⟩ := ih sizes (fun y hy => hx y (by simp [hy]))
        (fun s h => by have := hs s h; rw [List.length_cons] at this; push_cast at this; omega)
      refine ⟨r, e1, e2, ?_⟩
      intro p
      rw [e3, List.countP_cons_of_neg (by simp [hits, hp])]
    | true =>
      obtain ⟨h1, h2⟩ := hx x (by simp) hp
      obtain ⟨s0, hs0⟩ : ∃ s, sizes[x.2.2.toNat]? = some s := ⟨_, List.getElem?_eq_getElem (by omega)⟩
      have hr := hs s0 (List.mem_of_getElem? hs0)
      rw [List.length_cons] at hr
      push_cast at hr
      have : countStep sizes x = some (sizes.set x.2.2.toNat (s0 + 1)) := by
        unfold countStep
        rw [hp, if_pos rfl, if_neg (by omega), hs0]
        simp only [Option.bind_eq_bind, Option.bind_some]
        rw [chk_ok (by omega) (by omega)]
        simp only [Option.bind_some]
        rw [wrV_spec (by omega)]
      rw [this]
      simp only [Option.bind_eq_bind, Option.bind_some]
      obtain ⟨r, e1, e2, e3⟩ := ih (sizes.set x.2.2.toNat (s0 + 1))
        (fun y hy => by rw [List.length_set]; exact hx y (by simp [hy]))
        (fun s h => by
          rcases List.mem_or_eq_of_mem_set h with h | rfl
          · have := hs s h; rw [List.length_cons] at this; push_cast at this; omega
          · omega)
      refine ⟨r, e1, by rw [e2, List.length_set], ?_⟩
      intro p
      rw [e3]
      by_cases hpe : x.2.2 = (p : Int)
      · rw [List.countP_cons_of_pos (by simp [hits, hp, hpe])]
        have : x.2.2.toNat = p := by omega
        rw [this] at hs0 ⊢
        have hlt := (List.getElem?_eq_some_iff.1 hs0).1
        rw [List.getElem?_set_self hlt, hs0]
        simp only [Option.map_some, Option.some.injEq]
        push_cast; omega
      · rw [List.countP_cons_of_neg (by simp [hits, hpe]), List.getElem?_set_ne (by omega)]

theorem visits_mem {α : Type} (a : DArr α) (c : Nat) (v : α) :
    (c, true, v) ∈ visits a ↔ elem a c = some v := by
  have h := visits_elems a
  constructor
  · intro hm
    have : (c, some v) ∈ (visits a).map (fun x => (x.1, if x.2.1 then some x.2.2 else none)) :=
      List.mem_map.2 ⟨_, hm, rfl⟩
    rw [h, List.mem_map] at this
    obtain ⟨i, _, hi⟩ := this
    simp only [Prod.mk.injEq] at hi
    obtain ⟨rfl, hi⟩ := hi
    exact hi
  · intro he
    have hlt : c < a.values.length := by
      rw [elem_eq] at he
      split at he
      · exact (List.getElem?_eq_some_iff.1 he).1
      · simp at he
    have : (c, some v) ∈ (List.range a.values.length).map (fun i => (i, elem a i)) :=
      List.mem_map.2 ⟨c, List.mem_range.2 hlt, by rw [he]⟩
    rw [← h, List.mem_map] at this
    obtain ⟨⟨i, b, w⟩, hm, hi⟩ := this
    simp only [Prod.mk.injEq] at hi
    obtain ⟨rfl, hi⟩ := hi
    cases b with
    | false => simp at hi
    | true => simp only [if_true, Option.some.injEq] at hi; subst hi; exact hm

theorem visits_fst {α : Type} (a : DArr α) : (visits a).map Prod.fst = List.range a.values.length := by
  have h := congrArg (List.map Prod.fst) (visits_elems a)
  rw [List.map_map, List.map_map] at h
  have e1 : (Prod.fst ∘ fun x : Nat × Bool × α => (x.1, if x.2.1 then some x.2.2 else none)) = Prod.fst := rfl
  have e2 : (Prod.fst ∘ fun i : Nat => (i, elem a i)) = id := rfl
  rw [e1, e2, List.map_id] at h
  exact h

theorem hasChildren_map {e : Edge} (ht : e.typ = .mapping) (p : Nat) :
    HasChildren e p ((visits e.values).countP (hits p)) := by
  refine ⟨((visits e.values).filter (hits p)).map Prod.fst, ?_, ?_, ?_⟩
  · apply List.Nodup.sublist (List.Sublist.map _ List.filter_sublist)
    rw [visits_fst]
    exact List.nodup_range
  · intro c
    rw [rel_map_iff ht, ← visits_mem, List.mem_map]
    constructor
    · rintro ⟨⟨i, b, v⟩, hm, rfl⟩
      rw [List.mem_filter] at hm
      obtain ⟨h1, h2⟩ := hm
      unfold hits at h2
      simp only [Bool.and_eq_true, decide_eq_true_iff] at h2
      obtain ⟨rfl, rfl⟩ := h2
      exact h1
    · intro h
      exact ⟨_, List.mem_filter.2 ⟨h, by simp [hits]⟩, rfl⟩
  · rw [List.length_map, List.countP_eq_length_filter]

theorem edgeSizes_map (mem : Nat → Int) {e : Edge} (hw : WF e) (ht : e.typ = .mapping)
    (hm : e.childSize ≤ maxI64) :
    ∃ r, edgeSizes mem e = some ⟨r, [], 0⟩ ∧ (r.length : Int) = e.parentSize ∧
      ∀ p : Nat, (p : Int) < e.parentSize → r[p]? = some ((visits e.values).countP (hits p) : Int) := by
  obtain ⟨w1, w2, w3, w4⟩ := (wf_map_iff ht).1 hw
  have hlen : (visits e.values).length = e.values.values.length := by
    rw [← List.length_map (f := Prod.fst), visits_fst, List.length_range]
  obtain ⟨r, e1, e2, e3⟩ := countFold_spec (visits e.values) (List.replicate e.parentSize.toNat 0)
    (by
      rintro ⟨c, b, v⟩ hx hb
      dsimp only at hb ⊢
      subst hb
      rw [List.length_replicate]
      have := w4 c v ((visits_mem _ _ _).1 hx)
      omega)
    (by
      intro s hs
      have := List.eq_of_mem_replicate hs
      subst this
      rw [hlen]
      omega)
  refine ⟨r, ?_, ?_, ?_⟩
  · unfold edgeSizes
    rw [ht]
    dsimp only
    rw [if_neg (by omega), forEach_visits w1]
    simp only [Option.bind_eq_bind, Option.bind_some]
    rw [e1]
    rfl
  · rw [e2, List.length_replicate]; omega
  · intro p hp
    rw [e3, List.getElem?_replicate, if_pos (by omega)]
    simp

end Verif.EdgeOps
