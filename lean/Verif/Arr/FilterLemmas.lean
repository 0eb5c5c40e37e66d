import Verif.Arr.ArraySpec
import Mathlib.Tactic.ByContra

/-! Helper lemmas for id filters. -/

namespace Verif.Arr
open Verif.Dense

/-! ## Strictly increasing lists -/

/-- Strictly increasing. -/
abbrev Inc (l : List Int) : Prop := l.Pairwise (· < ·)

theorem Inc.lt {l : List Int} (h : Inc l) {i j : Nat} {x y : Int} (hij : i < j)
    (hi : l[i]? = some x) (hj : l[j]? = some y) : x < y := by
  obtain ⟨hi1, hi2⟩ := List.getElem?_eq_some_iff.1 hi
  obtain ⟨hj1, hj2⟩ := List.getElem?_eq_some_iff.1 hj
  have := List.pairwise_iff_getElem.1 h i j hi1 hj1 hij
  omega

theorem Inc.le {l : List Int} (h : Inc l) {i j : Nat} {x y : Int} (hij : i ≤ j)
    (hi : l[i]? = some x) (hj : l[j]? = some y) : x ≤ y := by
  rcases Nat.lt_or_eq_of_le hij with hlt | rfl
  · exact Int.le_of_lt (h.lt hlt hi hj)
  · rw [hi] at hj; simp at hj; omega

theorem Inc.inj {l : List Int} (h : Inc l) {i j : Nat} {x : Int}
    (hi : l[i]? = some x) (hj : l[j]? = some x) : i = j := by
  rcases Nat.lt_trichotomy i j with hlt | heq | hgt
  · have := h.lt hlt hi hj; omega
  · exact heq
  · have := h.lt hgt hj hi; omega

theorem Inc.lt_iff {l : List Int} (h : Inc l) {i j : Nat} {x y : Int}
    (hi : l[i]? = some x) (hj : l[j]? = some y) : x < y ↔ i < j := by
  constructor
  · intro hxy
    rcases Nat.lt_or_ge i j with hlt | hge
    · exact hlt
    · have := h.le hge hj hi; omega
  · exact fun hij => h.lt hij hi hj

theorem Inc.getElem_ge {l : List Int} (h : Inc l) {b : Int} (hb : ∀ x ∈ l, b ≤ x) {i : Nat} {x : Int}
    (hi : l[i]? = some x) : b + i ≤ x := by
  induction i generalizing x with
  | zero => have := hb x (List.mem_of_getElem? hi); omega
  | succ i ih =>
    have hl := (List.getElem?_eq_some_iff.1 hi).1
    have h1 := List.getElem?_eq_getElem (show i < l.length by omega)
    have := ih h1
    have := h.lt (Nat.lt_succ_self i) h1 hi
    omega

/-- An increasing list in `[b, b+n)` has at most `n` elements. -/
theorem Inc.length_le {l : List Int} (h : Inc l) {b : Int} {n : Nat} (hb : ∀ x ∈ l, b ≤ x ∧ x < b + n) :
    l.length ≤ n := by
  by_cases hl : l.length = 0
  · omega
  · have h1 := List.getElem?_eq_getElem (show l.length - 1 < l.length by omega)
    have := h.getElem_ge (fun x hx => (hb x hx).1) h1
    have := hb _ (List.mem_of_getElem? h1)
    omega

/-- An increasing list of `n` numbers in `[0, n)` is the whole range. -/
theorem Inc.full {l : List Int} (h : Inc l) {n : Nat} (hb : ∀ x ∈ l, 0 ≤ x ∧ x < (n : Int))
    (hl : l.length = n) {i : Nat} (hi : i < n) : l[i]? = some (i : Int) := by
  have h1 := List.getElem?_eq_getElem (show i < l.length by omega)
  have hlow := h.getElem_ge (fun x hx => (hb x hx).1) h1
  -- the tail above `i` needs room
  have hd : (l.drop i).length ≤ n - i := by
    rw [List.length_drop]; omega
  have hup : l[i] ≤ i := by
    have hinc : Inc (l.drop i) := List.Pairwise.sublist (List.drop_sublist i l) h
    have := Inc.length_le hinc (b := l[i]) (n := (n - l[i]).toNat) (by
      intro x hx
      have hx2 := hb x (List.drop_subset _ _ hx)
      rw [List.mem_iff_getElem?] at hx
      obtain ⟨k, hk⟩ := hx
      rw [List.getElem?_drop] at hk
      have := h.le (show i ≤ i + k by omega) h1 hk
      omega)
    rw [List.length_drop] at this
    have := hb _ (List.mem_of_getElem? h1)
    omega
  rw [h1]
  congr 1
  omega

theorem inc_map_sub {l : List Int} (c : Int) : Inc (l.map (· - c)) ↔ Inc l := by
  unfold Inc
  rw [List.pairwise_map]
  constructor <;> intro h <;> refine h.imp ?_ <;> intro a b hab <;> omega

theorem zids_get (f : Filter) (o : Nat) : f.zids[o]? = f.ids[o]?.map (· - f.off) := by
  unfold Filter.zids; rw [List.getElem?_map]

theorem zids_length (f : Filter) : f.zids.length = f.ids.length := by simp [Filter.zids]

theorem rdId_eq (l : List Int) (off : Int) (i : Nat) : rdId l off i = (l.map (· - off))[i]? := by
  unfold rdId; rw [List.getElem?_map]

theorem idsOffsetToId_eq (f : Filter) (o : Nat) : f.idsOffsetToId o = f.zids[o]? := by
  rw [zids_get]; rfl

/-! ## Lookup -/

theorem lb_le (xs : List Int) (v : Int) : lb xs v ≤ xs.length := by
  unfold lb
  exact (List.takeWhile_sublist _).length_le

/-- `lb` separates the smaller from the other elements. -/
theorem lb_spec {xs : List Int} (h : Inc xs) {v : Int} {i : Nat} {x : Int} (hi : xs[i]? = some x) :
    x < v ↔ i < lb xs v := by
  induction xs generalizing i with
  | nil => simp at hi
  | cons y ys ih =>
    have h' := List.pairwise_cons.1 h
    unfold lb
    by_cases hy : y < v
    · rw [List.takeWhile_cons_of_pos (by simpa using hy), List.length_cons]
      cases i with
      | zero => simp at hi; subst hi; simp [hy]
      | succ i =>
        have := ih h'.2 (by simpa using hi)
        unfold lb at this
        omega
    · rw [List.takeWhile_cons_of_neg (by simpa using hy)]
      have : ¬ x < v := by
        cases i with
        | zero => simp at hi; omega
        | succ i =>
          have := h'.1 x (List.mem_of_getElem? (by simpa using hi))
          omega
      simp [this]

theorem idxOf?_inc {l : List Int} (h : Inc l) {x : Int} {o : Nat} :
    l.idxOf? x = some o ↔ l[o]? = some x := by
  induction l generalizing o with
  | nil => simp
  | cons y ys ih =>
    have h' := List.pairwise_cons.1 h
    rw [List.idxOf?_cons]
    by_cases hy : y = x
    · subst hy
      simp only [beq_self_eq_true, if_true]
      cases o with
      | zero => simp
      | succ o =>
        simp only [List.getElem?_cons_succ]
        constructor
        · intro hc; simp at hc
        · intro hc
          have := h'.1 y (List.mem_of_getElem? hc)
          omega
    · rw [if_neg (by simpa using hy)]
      cases o with
      | zero => simp [hy]
      | succ o => simp [ih h'.2]

theorem idxOf?_none {l : List Int} {x : Int} : l.idxOf? x = none ↔ x ∉ l := List.idxOf?_eq_none_iff

theorem Filter.Valid.inc {n : Nat} {f : Filter} (h : f.Valid n) (ht : f.typ = .partial') : Inc f.zids := by
  unfold Filter.Valid at h; rw [ht] at h; exact h.2.2.1

theorem idToOffset_partial {n : Nat} {f : Filter} (h : f.Valid n) (ht : f.typ = .partial') (id : Nat) :
    f.idToOffset id = f.zids.idxOf? (id : Int) := by
  have hz := h.inc ht
  have hi : Inc f.ids := (inc_map_sub f.off).1 hz
  unfold Filter.idToOffset
  rw [ht]
  dsimp only
  by_cases hm : (id : Int) ∈ f.zids
  · rw [List.mem_iff_getElem?] at hm
    obtain ⟨o, ho⟩ := hm
    rw [(idxOf?_inc hz).2 ho]
    rw [zids_get] at ho
    cases he : f.ids[o]? with
    | none => rw [he] at ho; simp at ho
    | some y =>
      rw [he] at ho
      simp at ho
      have hy : y = id + f.off := by omega
      subst hy
      have hlb : lb f.ids (id + f.off) = o := by
        have h1 := lb_spec hi (v := id + f.off) he
        have hol := (List.getElem?_eq_some_iff.1 he).1
        rcases Nat.lt_trichotomy (lb f.ids (id + f.off)) o with hlt | heq | hgt
        · have hk := List.getElem?_eq_getElem (show lb f.ids (id + f.off) < f.ids.length by omega)
          have h2 := lb_spec hi (v := id + f.off) hk
          have h3 := hi.lt hlt hk he
          omega
        · exact heq
        · omega
      have hol := (List.getElem?_eq_some_iff.1 he).1
      rw [hlb, if_pos ⟨by omega, he⟩]
  · rw [idxOf?_none.2 hm, if_neg]
    rintro ⟨_, h2⟩
    apply hm
    rw [List.mem_iff_getElem?]
    refine ⟨lb f.ids (id + f.off), ?_⟩
    rw [zids_get, h2]; simp

/-! ## The constructor -/

theorem mkFilter_spec {n : Nat} {ids : List Int} {off : Int} (hinc : Inc ids)
    (hb : ∀ x ∈ ids, off ≤ x ∧ x < off + n) :
    (mkFilter n ids off).Valid n ∧
    (∀ i, i < n → ((mkFilter n ids off).Has i ↔ (i : Int) + off ∈ ids)) ∧
    (∀ o i : Nat, ids[o]? = some ((i : Int) + off) → (mkFilter n ids off).idToOffset i = some o) := by
  unfold mkFilter
  by_cases h0 : ids = []
  · rw [if_pos h0]
    subst h0
    refine ⟨⟨rfl, rfl⟩, ?_, ?_⟩
    · intro i _; simp [Filter.Has]
    · intro o i h; simp at h
  · rw [if_neg h0]
    have hz : Inc (ids.map (· - off)) := (inc_map_sub off).2 hinc
    have hzb : ∀ x ∈ ids.map (· - off), 0 ≤ x ∧ x < (n : Int) := by
      intro x hx
      rw [List.mem_map] at hx
      obtain ⟨y, hy, rfl⟩ := hx
      have := hb y hy; omega
    by_cases hl : ids.length = n
    · rw [if_pos hl]
      have hfull := fun i hi => hz.full hzb (by simpa using hl) (i := i) hi
      refine ⟨⟨rfl, rfl⟩, ?_, ?_⟩
      · intro i hi
        simp only [Filter.Has, true_iff]
        have := hfull i hi
        rw [List.getElem?_map] at this
        cases he : ids[i]? with
        | none => rw [he] at this; simp at this
        | some y =>
          rw [he] at this
          simp at this
          have hy : (i : Int) + off = y := by omega
          rw [hy]
          exact List.mem_of_getElem? he
      · intro o i ho
        show some i = some o
        have hol := (List.getElem?_eq_some_iff.1 ho).1
        have := hfull o (by omega)
        rw [List.getElem?_map, ho] at this
        simp at this
        congr 1; omega
    · rw [if_neg hl]
      have hv : (⟨.partial', ids, off⟩ : Filter).Valid n := by
        have hlen := hz.length_le (b := 0) (n := n) (by
          intro x hx; have := hzb x hx; omega)
        rw [List.length_map] at hlen
        exact ⟨h0, by dsimp only; omega, hz, hzb⟩
      refine ⟨hv, ?_, ?_⟩
      · intro i hi
        simp only [Filter.Has, Filter.zids, List.mem_map]
        constructor
        · rintro ⟨y, hy, he⟩
          have : (i : Int) + off = y := by omega
          rw [this]; exact hy
        · intro h; exact ⟨_, h, by omega⟩
      · intro o i ho
        rw [idToOffset_partial hv rfl, idxOf?_inc (hv.inc rfl), zids_get]
        dsimp only
        rw [ho]; simp

/-! ## ForEachCommonId -/

/-- `c` is a common id, with both positions, not before `(i1, i2)`. -/
def Common (a b : List Int) (i1 i2 : Nat) (c : Int × Nat × Nat) : Prop :=
  i1 ≤ c.2.1 ∧ i2 ≤ c.2.2 ∧ a[c.2.1]? = some c.1 ∧ b[c.2.2]? = some c.1

theorem adv_spec {l : List Int} {off bound : Int} (hinc : Inc (l.map (· - off))) {m : Int}
    (hm : (l.map (· - off)).getLast? = some m) (hb : bound ≤ m) :
    ∀ (fuel i : Nat) (id : Int), (l.map (· - off))[i]? = some id → l.length ≤ fuel + i →
    0 < fuel →
    ∃ j id', adv l off bound fuel i id = some (j, id') ∧ i ≤ j ∧
      (l.map (· - off))[j]? = some id' ∧ bound ≤ id' ∧
      (∀ k x, i ≤ k → k < j → (l.map (· - off))[k]? = some x → x < bound) ∧
      (id < bound → i < j) := by
  intro fuel
  induction fuel with
  | zero => intro i id _ _ h; omega
  | succ fuel ih =>
    intro i id hid hf _
    rw [adv]
    have hil := (List.getElem?_eq_some_iff.1 hid).1
    rw [List.length_map] at hil
    by_cases hlt : id < bound
    · rw [if_pos hlt, rdId_eq]
      have hi1 : i + 1 < l.length := by
        by_contra hge
        have : i = l.length - 1 := by omega
        rw [List.getLast?_eq_getElem?, List.length_map, ← this, hid] at hm
        simp at hm; omega
      have hn := List.getElem?_eq_getElem (l := l.map (· - off)) (i := i + 1) (by
        rw [List.length_map]; omega)
      rw [hn]
      simp only [Option.bind_eq_bind, Option.bind_some]
      obtain ⟨j, id', e1, e2, e3, e4, e5, _⟩ := ih (i + 1) _ hn (by omega) (by omega)
      refine ⟨j, id', e1, by omega, e3, e4, ?_, fun _ => by omega⟩
      intro k x hk hkj hx
      by_cases hki : k = i
      · subst hki; rw [hid] at hx; simp at hx; omega
      · exact e5 k x (by omega) hkj hx
    · rw [if_neg hlt]
      exact ⟨i, id, rfl, Nat.le_refl _, hid, by omega, by intros; omega, fun h => absurd h hlt⟩

section
variable {l1 l2 : List Int} {off1 off2 : Int}

/-- Consistency of the loop state. -/
def CInv (l1 : List Int) (off1 : Int) (l2 : List Int) (off2 : Int) (s : CState) : Prop :=
  (l1.map (· - off1))[s.i1]? = some s.id1 ∧ (l2.map (· - off2))[s.i2]? = some s.id2

theorem not_last {l : List Int} {off m : Int} {i : Nat} {id : Int}
    (hm : (l.map (· - off)).getLast? = some m)
    (hid : (l.map (· - off))[i]? = some id) (hlt : id < m) :
    ∃ x, (l.map (· - off))[i + 1]? = some x := by
  have hil := (List.getElem?_eq_some_iff.1 hid).1
  by_cases h : i + 1 < (l.map (· - off)).length
  · exact ⟨_, List.getElem?_eq_getElem h⟩
  · have : i = (l.map (· - off)).length - 1 := by omega
    rw [List.getLast?_eq_getElem?, ← this, hid] at hm
    simp at hm; omega

/-- The calls of a part of the loop: exactly the common ids between the old and the new state. -/
def Emits (a b : List Int) (i1 i2 j1 j2 : Nat) (out : List (Int × Nat × Nat)) : Prop :=
  (∀ c, Common a b i1 i2 c ↔ c ∈ out ∨ Common a b j1 j2 c) ∧
  (∀ c ∈ out, c.2.1 < j1 ∧ c.2.2 < j2) ∧ i1 ≤ j1 ∧ i2 ≤ j2 ∧
  out.Pairwise (fun c d => c.1 < d.1)

theorem Emits.trans {a b : List Int} (ha : Inc a) {i1 i2 j1 j2 k1 k2 : Nat}
    {o1 o2 : List (Int × Nat × Nat)} (h1 : Emits a b i1 i2 j1 j2 o1) (h2 : Emits a b j1 j2 k1 k2 o2) :
    Emits a b i1 i2 k1 k2 (o1 ++ o2) := by
  obtain ⟨a1, a2, a3, a4, a5⟩ := h1
  obtain ⟨b1, b2, b3, b4, b5⟩ := h2
  refine ⟨?_, ?_, by omega, by omega, ?_⟩
  · intro c; rw [a1, b1, List.mem_append, or_assoc]
  · intro c hc
    rcases List.mem_append.1 hc with hc | hc
    · have := a2 c hc; omega
    · exact b2 c hc
  · rw [List.pairwise_append]
    refine ⟨a5, b5, ?_⟩
    intro c hc d hd
    have c1 := (a1 c).2 (Or.inl hc)
    have d1 := (b1 d).2 (Or.inl hd)
    exact ha.lt (by have := a2 c hc; have := d1.1; omega) c1.2.2.1 d1.2.2.1

theorem emits_skip1 {a b : List Int} (hb : Inc b) {i1 i2 j1 : Nat} {id2 : Int} (hij : i1 ≤ j1)
    (h2 : b[i2]? = some id2)
    (h : ∀ (k : Nat) (x : Int), i1 ≤ k → k < j1 → a[k]? = some x → x < id2) :
    Emits a b i1 i2 j1 i2 [] := by
  refine ⟨?_, by simp, hij, Nat.le_refl _, List.Pairwise.nil⟩
  intro c
  simp only [List.not_mem_nil, false_or]
  constructor
  · rintro ⟨c1, c2, c3, c4⟩
    refine ⟨?_, c2, c3, c4⟩
    rcases Nat.lt_or_ge c.2.1 j1 with hlt | hge
    · have := h _ _ c1 hlt c3
      have := hb.le c2 h2 c4
      omega
    · exact hge
  · rintro ⟨c1, c2, c3, c4⟩; exact ⟨by omega, c2, c3, c4⟩

theorem Common.symm {a b : List Int} {i1 i2 : Nat} {c : Int × Nat × Nat} :
    Common a b i1 i2 c ↔ Common b a i2 i1 (c.1, c.2.2, c.2.1) := by
  unfold Common
  constructor <;> rintro ⟨h1, h2, h3, h4⟩ <;> exact ⟨h2, h1, h4, h3⟩

theorem emits_skip2 {a b : List Int} (ha : Inc a) {i1 i2 j2 : Nat} {id1 : Int} (hij : i2 ≤ j2)
    (h1 : a[i1]? = some id1)
    (h : ∀ (k : Nat) (x : Int), i2 ≤ k → k < j2 → b[k]? = some x → x < id1) :
    Emits a b i1 i2 i1 j2 [] := by
  obtain ⟨e1, _, _, _, _⟩ := emits_skip1 (b := a) ha (a := b) hij h1 h
  refine ⟨?_, by simp, Nat.le_refl _, hij, List.Pairwise.nil⟩
  intro c
  rw [Common.symm, e1, Common.symm (a := a)]
  simp

theorem stepEq_spec (ha : Inc (l1.map (· - off1))) (hb : Inc (l2.map (· - off2))) {m1 m2 : Int}
    (hm1 : (l1.map (· - off1)).getLast? = some m1) (hm2 : (l2.map (· - off2)).getLast? = some m2)
    {s : CState} (hs : CInv l1 off1 l2 off2 s) (h1 : s.id1 < min m1 m2) (h2 : s.id2 < min m1 m2) :
    ∃ out s', stepEq l1 off1 l2 off2 s = some (out, s') ∧ CInv l1 off1 l2 off2 s' ∧
      Emits (l1.map (· - off1)) (l2.map (· - off2)) s.i1 s.i2 s'.i1 s'.i2 out ∧
      (s'.i1 + s'.i2 = s.i1 + s.i2 → s' = s ∧ s.id1 ≠ s.id2) := by
  unfold stepEq
  by_cases he : s.id1 = s.id2
  · rw [if_pos he]
    obtain ⟨x, hx⟩ := not_last hm1 hs.1 (by omega)
    obtain ⟨y, hy⟩ := not_last hm2 hs.2 (by omega)
    rw [rdId_eq, rdId_eq, hx, hy]
    simp only [Option.bind_eq_bind, Option.bind_some]
    refine ⟨_, _, rfl, ⟨hx, hy⟩, ?_, ?_⟩
    · dsimp only
      refine ⟨?_, ?_, by omega, by omega, List.pairwise_singleton _ _⟩
      · rintro ⟨id, o1, o2⟩
        simp only [List.mem_singleton, Prod.mk.injEq]
        constructor
        · rintro ⟨c1, c2, c3, c4⟩
          dsimp only at c1 c2 c3 c4
          by_cases h : o1 = s.i1
          · subst h
            have hid : id = s.id1 := by rw [hs.1] at c3; simpa using c3.symm
            left
            refine ⟨hid, rfl, ?_⟩
            apply hb.inj c4
            rw [hs.2, hid, he]
          · by_cases h' : o2 = s.i2
            · subst h'
              have hid : id = s.id2 := by rw [hs.2] at c4; simpa using c4.symm
              exfalso
              apply h
              apply ha.inj c3
              rw [hs.1, hid, he]
            · exact Or.inr ⟨by dsimp only; omega, by dsimp only; omega, c3, c4⟩
        · rintro (⟨r1, r2, r3⟩ | ⟨c1, c2, c3, c4⟩)
          · subst r1; subst r2; subst r3
            exact ⟨Nat.le_refl _, Nat.le_refl _, hs.1, by dsimp only; rw [he]; exact hs.2⟩
          · dsimp only at c1 c2
            exact ⟨by dsimp only; omega, by dsimp only; omega, c3, c4⟩
      · intro c hc
        simp only [List.mem_singleton] at hc
        subst hc
        exact ⟨by simp, by simp⟩
    · dsimp only; intro h; omega
  · rw [if_neg he]
    refine ⟨[], s, rfl, hs, ?_, fun _ => ⟨rfl, he⟩⟩
    exact ⟨fun c => by simp, by simp, Nat.le_refl _, Nat.le_refl _, List.Pairwise.nil⟩

theorem stepAdv_spec (ha : Inc (l1.map (· - off1))) (hb : Inc (l2.map (· - off2))) {m1 m2 : Int}
    (hm1 : (l1.map (· - off1)).getLast? = some m1) (hm2 : (l2.map (· - off2)).getLast? = some m2)
    {s : CState} (hs : CInv l1 off1 l2 off2 s) :
    ∃ s', stepAdv l1 off1 l2 off2 (min m1 m2) s = some s' ∧ CInv l1 off1 l2 off2 s' ∧
      Emits (l1.map (· - off1)) (l2.map (· - off2)) s.i1 s.i2 s'.i1 s'.i2 [] ∧
      (s.id1 < min m1 m2 → s.id2 < min m1 m2 → s.id1 ≠ s.id2 → s.i1 + s.i2 < s'.i1 + s'.i2) := by
  unfold stepAdv
  obtain ⟨j, id', e1, e2, e3, e4, e5, e6⟩ := adv_spec ha hm1 (bound := min (min m1 m2) s.id2)
    (by omega) (l1.length + 1) s.i1 s.id1 hs.1 (by omega) (by omega)
  rw [e1]
  simp only [Option.bind_eq_bind, Option.bind_some]
  have em1 : Emits (l1.map (· - off1)) (l2.map (· - off2)) s.i1 s.i2 j s.i2 [] :=
    emits_skip1 hb e2 hs.2 (fun k x h1 h2 h3 => by have := e5 k x h1 h2 h3; omega)
  by_cases h : s.id2 < min (min m1 m2) id'
  · rw [if_pos h]
    obtain ⟨y, hy⟩ := not_last hm2 hs.2 (by omega)
    rw [rdId_eq, hy]
    simp only [Option.bind_some]
    refine ⟨_, rfl, ⟨e3, hy⟩, ?_, ?_⟩
    · exact Emits.trans ha em1 (emits_skip2 ha (Nat.le_succ _) e3 (by
        intro k x h1 h2 h3
        have : k = s.i2 := by dsimp only at h2; omega
        subst this
        rw [hs.2] at h3
        simp at h3; omega))
    · intro _ _ _; dsimp only; omega
  · rw [if_neg h]
    refine ⟨_, rfl, ⟨e3, hs.2⟩, em1, ?_⟩
    intro g1 g2 g3
    dsimp only
    by_cases hlt : s.id1 < s.id2
    · have := e6 (by omega); omega
    · by_cases hj : s.i1 = j
      · subst hj
        rw [hs.1] at e3
        simp at e3
        omega
      · omega

theorem commonLoop_spec (ha : Inc (l1.map (· - off1))) (hb : Inc (l2.map (· - off2))) {m1 m2 : Int}
    (hm1 : (l1.map (· - off1)).getLast? = some m1) (hm2 : (l2.map (· - off2)).getLast? = some m2) :
    ∀ (fuel : Nat) (s : CState), CInv l1 off1 l2 off2 s →
    l1.length + l2.length < fuel + s.i1 + s.i2 →
    ∃ out s', commonLoop l1 off1 l2 off2 (min m1 m2) fuel s = some (out, s') ∧
      CInv l1 off1 l2 off2 s' ∧
      Emits (l1.map (· - off1)) (l2.map (· - off2)) s.i1 s.i2 s'.i1 s'.i2 out ∧
      (min m1 m2 ≤ s'.id1 ∨ min m1 m2 ≤ s'.id2) := by
  intro fuel
  induction fuel with
  | zero =>
    intro s hs hf
    have := (List.getElem?_eq_some_iff.1 hs.1).1
    have := (List.getElem?_eq_some_iff.1 hs.2).1
    simp only [List.length_map] at *
    omega
  | succ fuel ih =>
    intro s hs hf
    rw [commonLoop]
    by_cases h : s.id1 < min m1 m2 ∧ s.id2 < min m1 m2
    · rw [if_pos h]
      obtain ⟨o1, s1, a1, a2, a3, a4⟩ := stepEq_spec ha hb hm1 hm2 hs h.1 h.2
      rw [a1]
      simp only [Option.bind_eq_bind, Option.bind_some]
      obtain ⟨s2, b1, b2, b3, b4⟩ := stepAdv_spec ha hb hm1 hm2 a2
      rw [b1]
      simp only [Option.bind_some]
      have hprog : s.i1 + s.i2 < s2.i1 + s2.i2 := by
        have x1 := a3.2.2.1
        have x2 := a3.2.2.2.1
        have x3 := b3.2.2.1
        have x4 := b3.2.2.2.1
        by_cases hne : s1.i1 + s1.i2 = s.i1 + s.i2
        · obtain ⟨rfl, hne'⟩ := a4 hne
          exact b4 h.1 h.2 hne'
        · omega
      obtain ⟨o3, s3, c1, c2, c3, c4⟩ := ih s2 b2 (by omega)
      rw [c1]
      simp only [Option.bind_some]
      refine ⟨_, _, rfl, c2, ?_, c4⟩
      have := Emits.trans ha a3 (Emits.trans ha b3 c3)
      simpa using this
    · rw [if_neg h]
      refine ⟨[], s, rfl, hs, ?_, by omega⟩
      exact ⟨fun c => by simp, by simp, Nat.le_refl _, Nat.le_refl _, List.Pairwise.nil⟩

theorem forEachCommonId_spec (ha : Inc (l1.map (· - off1))) (hb : Inc (l2.map (· - off2)))
    (h1 : l1 ≠ []) (h2 : l2 ≠ []) :
    ∃ out, forEachCommonId l1 off1 l2 off2 = some out ∧
      (∀ id o1 o2, (id, o1, o2) ∈ out ↔
        (l1.map (· - off1))[o1]? = some id ∧ (l2.map (· - off2))[o2]? = some id) ∧
      out.Pairwise (fun c d => c.1 < d.1) := by
  have hl1 : 0 < l1.length := List.length_pos_iff.2 h1
  have hl2 : 0 < l2.length := List.length_pos_iff.2 h2
  obtain ⟨x, hx⟩ : ∃ x, (l1.map (· - off1))[0]? = some x :=
    ⟨_, List.getElem?_eq_getElem (by rw [List.length_map]; omega)⟩
  obtain ⟨y, hy⟩ : ∃ y, (l2.map (· - off2))[0]? = some y :=
    ⟨_, List.getElem?_eq_getElem (by rw [List.length_map]; omega)⟩
  obtain ⟨n1, hn1⟩ : ∃ n, l1.getLast? = some n := ⟨_, List.getLast?_eq_some_getLast h1⟩
  obtain ⟨n2, hn2⟩ : ∃ n, l2.getLast? = some n := ⟨_, List.getLast?_eq_some_getLast h2⟩
  have hm1 : (l1.map (· - off1)).getLast? = some (n1 - off1) := by rw [List.getLast?_map, hn1]; rfl
  have hm2 : (l2.map (· - off2)).getLast? = some (n2 - off2) := by rw [List.getLast?_map, hn2]; rfl
  unfold forEachCommonId
  rw [rdId_eq, rdId_eq, hx, hy, hn1, hn2]
  simp only [Option.bind_eq_bind, Option.bind_some]
  obtain ⟨out, s, c1, c2, c3, c4⟩ := commonLoop_spec ha hb hm1 hm2 (l1.length + l2.length + 1)
    ⟨0, x, 0, y⟩ ⟨hx, hy⟩ (by dsimp only; omega)
  rw [c1]
  simp only [Option.bind_some]
  obtain ⟨j1, id1, d1, d2, d3, d4, d5, d6⟩ := adv_spec ha hm1
    (bound := min (n1 - off1) (n2 - off2)) (by omega) (l1.length + 1) s.i1 s.id1 c2.1 (by omega) (by omega)
  obtain ⟨j2, id2, e1, e2, e3, e4, e5, e6⟩ := adv_spec hb hm2
    (bound := min (n1 - off1) (n2 - off2)) (by omega) (l2.length + 1) s.i2 s.id2 c2.2 (by omega) (by omega)
  rw [d1, e1]
  simp only [Option.bind_some]
  have hA : Emits (l1.map (· - off1)) (l2.map (· - off2)) s.i1 s.i2 j1 s.i2 [] := by
    rcases c4 with c4 | c4
    · have hj : s.i1 = j1 := by
        by_contra hne
        have := d5 s.i1 s.id1 (Nat.le_refl _) (by omega) c2.1
        omega
      rw [← hj]
      exact ⟨fun c => by simp, by simp, Nat.le_refl _, Nat.le_refl _, List.Pairwise.nil⟩
    · exact emits_skip1 hb d2 c2.2 (fun k z k1 k2 k3 => by have := d5 k z k1 k2 k3; omega)
  have hB : Emits (l1.map (· - off1)) (l2.map (· - off2)) j1 s.i2 j1 j2 [] :=
    emits_skip2 ha e2 d3 (fun k z k1 k2 k3 => by have := e5 k z k1 k2 k3; omega)
  have hall := Emits.trans ha c3 (Emits.trans ha hA hB)
  rw [List.append_nil, List.append_nil] at hall
  -- at the end only the last position can be common
  have hend : ∀ c, Common (l1.map (· - off1)) (l2.map (· - off2)) j1 j2 c ↔
      c ∈ (if id1 = id2 then [(id1, j1, j2)] else []) := by
    rintro ⟨id, o1, o2⟩
    have hm1' := hm1
    have hm2' := hm2
    rw [List.getLast?_eq_getElem?] at hm1' hm2'
    constructor
    · rintro ⟨g1, g2, g3, g4⟩
      dsimp only at g1 g2 g3 g4
      have ho1 := (List.getElem?_eq_some_iff.1 g3).1
      have ho2 := (List.getElem?_eq_some_iff.1 g4).1
      have q1 := ha.le g1 d3 g3
      have q2 := hb.le g2 e3 g4
      have q3 := ha.le (show o1 ≤ (l1.map (· - off1)).length - 1 by omega) g3 hm1'
      have q4 := hb.le (show o2 ≤ (l2.map (· - off2)).length - 1 by omega) g4 hm2'
      have r1 : id = id1 := by omega
      have r2 : id = id2 := by omega
      have r3 : o1 = j1 := ha.inj g3 (by rw [r1]; exact d3)
      have r4 : o2 = j2 := hb.inj g4 (by rw [r2]; exact e3)
      rw [if_pos (by omega)]
      simp [r1, r3, r4]
    · intro h
      split at h
      · rename_i heq
        simp at h
        obtain ⟨r1, r2, r3⟩ := h
        subst r1; subst r2; subst r3
        exact ⟨Nat.le_refl _, Nat.le_refl _, d3, by dsimp only; rw [heq]; exact e3⟩
      · simp at h
  refine ⟨_, rfl, ?_, ?_⟩
  · intro id o1 o2
    rw [List.mem_append, ← hend, ← hall.1]
    unfold Common
    dsimp only
    constructor
    · rintro ⟨_, _, h3, h4⟩; exact ⟨h3, h4⟩
    · rintro ⟨h3, h4⟩; exact ⟨Nat.zero_le _, Nat.zero_le _, h3, h4⟩
  · rw [List.pairwise_append]
    refine ⟨hall.2.2.2.2, ?_, ?_⟩
    · split <;> simp
    · intro c hc d hd
      have cc := (hall.1 c).2 (Or.inl hc)
      have dd := (hend d).2 hd
      exact ha.lt (by have := hall.2.1 c hc; have := dd.1; omega) cc.2.2.1 dd.2.2.1

end

/-! ## Merge -/

theorem mergeLoop_spec (offA offB : Int) : ∀ (fuel : Nat) (xs ys : List Int),
    xs.length + ys.length < fuel → Inc (xs.map (· - offA)) → Inc (ys.map (· - offB)) →
    ∃ r, mergeLoop offA offB fuel xs ys = some r ∧ r.length ≤ xs.length + ys.length ∧ Inc r ∧
      ∀ v, v ∈ r ↔ v ∈ xs.map (· - offA) ∨ v ∈ ys.map (· - offB) := by
  intro fuel
  induction fuel with
  | zero => intro xs ys h; omega
  | succ fuel ih =>
    intro xs ys hf hx hy
    cases xs with
    | nil =>
      cases ys with
      | nil => exact ⟨[], rfl, by simp, by simp, by simp⟩
      | cons y ys => exact ⟨_, rfl, by simp, hy, by simp⟩
    | cons x xs =>
      cases ys with
      | nil => exact ⟨_, rfl, by simp, hx, by simp⟩
      | cons y ys =>
        rw [mergeLoop]
        simp only [List.map_cons, Inc] at hx hy
        obtain ⟨hx1, hx2⟩ := List.pairwise_cons.1 hx
        obtain ⟨hy1, hy2⟩ := List.pairwise_cons.1 hy
        simp only [List.length_cons] at hf
        have hxs : Inc ((if x - offA = min (x - offA) (y - offB) then xs else x :: xs).map (· - offA)) := by
          split
          · exact hx2
          · simpa using hx
        have hys : Inc ((if y - offB = min (x - offA) (y - offB) then ys else y :: ys).map (· - offB)) := by
          split
          · exact hy2
          · simpa using hy
        obtain ⟨r, r1, r2, r3, r4⟩ := ih _ _ (by split <;> split <;> (try simp only [List.length_cons]) <;> omega) hxs hys
        rw [r1]
        simp only [Option.bind_eq_bind, Option.bind_some]
        refine ⟨_, rfl, ?_, ?_, ?_⟩
        · rw [List.length_cons]
          refine Nat.le_trans (Nat.succ_le_succ r2) ?_
          split <;> split <;> (try simp only [List.length_cons]) <;> omega
        · refine List.pairwise_cons.2 ⟨?_, r3⟩
          intro v hv
          rw [r4] at hv
          rcases hv with hv | hv
          · split at hv
            · have := hx1 v hv; omega
            · simp only [List.map_cons, List.mem_cons] at hv
              rcases hv with rfl | hv
              · omega
              · have := hx1 v hv; omega
          · split at hv
            · have := hy1 v hv; omega
            · simp only [List.map_cons, List.mem_cons] at hv
              rcases hv with rfl | hv
              · omega
              · have := hy1 v hv; omega
        · intro v
          simp only [List.mem_cons, r4, List.map_cons]
          by_cases ha : x - offA = min (x - offA) (y - offB)
          · rw [if_pos ha]
            by_cases hb : y - offB = min (x - offA) (y - offB)
            · rw [if_pos hb]
              constructor
              · rintro (h | h | h)
                · exact Or.inl (Or.inl (by omega))
                · exact Or.inl (Or.inr h)
                · exact Or.inr (Or.inr h)
              · rintro ((h | h) | (h | h))
                · exact Or.inl (by omega)
                · exact Or.inr (Or.inl h)
                · exact Or.inl (by omega)
                · exact Or.inr (Or.inr h)
            · rw [if_neg hb]
              simp only [List.map_cons, List.mem_cons]
              constructor
              · rintro (h | h | h)
                · exact Or.inl (Or.inl (by omega))
                · exact Or.inl (Or.inr h)
                · exact Or.inr h
              · rintro ((h | h) | h)
                · exact Or.inl (by omega)
                · exact Or.inr (Or.inl h)
                · exact Or.inr (Or.inr h)
          · rw [if_neg ha]
            have hb : y - offB = min (x - offA) (y - offB) := by omega
            rw [if_pos hb]
            simp only [List.map_cons, List.mem_cons]
            constructor
            · rintro (h | h | h)
              · exact Or.inr (Or.inl (by omega))
              · exact Or.inl h
              · exact Or.inr (Or.inr h)
            · rintro (h | (h | h))
              · exact Or.inr (Or.inl h)
              · exact Or.inl (by omega)
              · exact Or.inr (Or.inr h)

theorem isSame_spec {pe : List Int → List Int → Bool} (hpe : PtrEq pe) {a b : Filter} {n : Nat}
    (ha : a.Valid n) (hb : b.Valid n) (h : a.isSame pe b = true) : a = b := by
  unfold Filter.isSame at h
  split at h
  · simp at h
  · rename_i ht
    have ht' : a.typ = b.typ := by
      by_contra hne; exact ht hne
    split at h
    · rename_i hp
      simp only [Bool.and_eq_true, decide_eq_true_eq] at h
      have := hpe _ _ h.1
      cases a; cases b; simp_all
    · unfold Filter.Valid at ha hb
      cases a with
      | mk ta ia oa =>
        cases b with
        | mk tb ib ob =>
          simp only at ht' ha hb
          subst ht'
          cases ta <;> simp_all

theorem mergeImpl_spec {pe : List Int → List Int → Bool} (hpe : PtrEq pe) {n : Nat} {a b : Filter}
    (ha : a.Valid n) (hb : b.Valid n) :
    ∃ r, mergeImpl pe n a b = some r ∧ r.Valid n ∧
      ∀ i, i < n → (a.Has i ∨ b.Has i → r.Has i) := by
  unfold mergeImpl
  by_cases h1 : a.typ = .empty ∨ b.typ = .full
  · rw [if_pos h1]
    refine ⟨b, rfl, hb, ?_⟩
    intro i _ h
    rcases h1 with h1 | h1
    · rcases h with h | h
      · unfold Filter.Has at h; rw [h1] at h; exact h.elim
      · exact h
    · unfold Filter.Has; rw [h1]; trivial
  · rw [if_neg h1]
    by_cases h2 : b.typ = .empty ∨ a.typ = .full
    · rw [if_pos h2]
      refine ⟨a, rfl, ha, ?_⟩
      intro i _ h
      rcases h2 with h2 | h2
      · rcases h with h | h
        · exact h
        · unfold Filter.Has at h; rw [h2] at h; exact h.elim
      · unfold Filter.Has; rw [h2]; trivial
    · rw [if_neg h2]
      by_cases h3 : a.isSame pe b = true
      · rw [if_pos h3]
        have := isSame_spec hpe ha hb h3
        subst this
        exact ⟨a, rfl, ha, fun i _ h => h.elim id id⟩
      · rw [if_neg h3]
        by_cases h4 : 4 * max a.ids.length b.ids.length ≥ n
        · rw [if_pos h4]
          exact ⟨.fullF, rfl, ⟨rfl, rfl⟩, fun i _ _ => trivial⟩
        · rw [if_neg h4]
          have hta : a.typ = .partial' := by
            cases h : a.typ with
            | empty => exact absurd (Or.inl h) h1
            | partial' => rfl
            | full => exact absurd (Or.inr h) h2
          have htb : b.typ = .partial' := by
            cases h : b.typ with
            | empty => exact absurd (Or.inl h) h2
            | partial' => rfl
            | full => exact absurd (Or.inr h) h1
          have ha' := ha
          have hb' := hb
          unfold Filter.Valid at ha' hb'
          rw [hta] at ha'
          rw [htb] at hb'
          obtain ⟨r, r1, r2, r3, r4⟩ := mergeLoop_spec a.off b.off (a.ids.length + b.ids.length + 1) a.ids b.ids
            (by omega) ha'.2.2.1 hb'.2.2.1
          rw [r1]
          simp only [Option.bind_eq_bind, Option.bind_some]
          rw [if_pos r2]
          have hbd : ∀ x ∈ r, (0 : Int) ≤ x ∧ x < 0 + (n : Int) := by
            intro x hx
            rw [r4] at hx
            rcases hx with hx | hx
            · have := ha'.2.2.2 x hx; omega
            · have := hb'.2.2.2 x hx; omega
          obtain ⟨m1, m2, _⟩ := mkFilter_spec r3 hbd
          refine ⟨_, rfl, m1, ?_⟩
          intro i hi h
          rw [m2 i hi, Int.add_zero, r4]
          rcases h with h | h
          · unfold Filter.Has at h; rw [hta] at h; exact Or.inl h
          · unfold Filter.Has at h; rw [htb] at h; exact Or.inr h

end Verif.Arr
