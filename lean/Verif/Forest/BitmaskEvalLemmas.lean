import Verif.Forest.BitmaskLemmas

/-!
# Lemmas about the bitmask evaluator: sorted splits and the computation of the masks
-/

namespace Verif.Forest

variable {w : Nat}

/-! ### Sorting -/

theorem keyLt_weak (inc : Bool) {l : List (Fl × SMeta w)} (h : ∀ p ∈ l, p.1 ≠ .nan) : StrictWeak (keyLt inc) l := by
  have hk : ∀ p ∈ l, (if inc = true then p.1 else p.1.neg) ≠ .nan := by
    intro p hp
    cases inc
    · simpa [Fl.neg_nan] using h p hp
    · simpa using h p hp
  constructor
  · intro a ha
    simp only [keyLt, Fl.lt_eq (hk a ha) (hk a ha), Fl.le_refl (hk a ha)]
    simp
  · intro a ha b hb c hc h1 h2
    have ny := hk b hb
    simp only [keyLt, Fl.lt_eq (hk a ha) (hk b hb), Fl.lt_eq (hk b hb) (hk a ha), Fl.lt_eq (hk b hb) (hk c hc),
      Fl.lt_eq (hk c hc) (hk b hb), Fl.lt_eq (hk a ha) (hk c hc), Fl.lt_eq (hk c hc) (hk a ha)] at h1 h2 ⊢
    generalize (if inc = true then a.1 else a.1.neg) = x at *
    generalize (if inc = true then b.1 else b.1.neg) = y at *
    generalize (if inc = true then c.1 else c.1.neg) = z at *
    have t1 := @Fl.le_trans x y z
    have t2 := @Fl.le_trans y z x
    have t3 := @Fl.le_trans z x y
    simp only [Bool.or_eq_true, Bool.not_eq_true', Bool.and_eq_true, Bool.not_eq_false', decide_eq_true_eq] at h1 h2 ⊢
    rcases h1 with h1 | ⟨h1, h1'⟩ <;> rcases h2 with h2 | ⟨h2, h2'⟩
    · left
      cases hzx : Fl.le z x with
      | false => rfl
      | true =>
        rcases Fl.le_total (a := y) (b := z) ny
          (Fl.le_nan hzx).1 with hyz | hzy
        · rw [t2 hyz hzx] at h1; cases h1
        · rw [hzy] at h2; cases h2
    · left
      cases hzx : Fl.le z x with
      | false => rfl
      | true => rw [t2 h2 hzx] at h1; cases h1
    · left
      cases hzx : Fl.le z x with
      | false => rfl
      | true => rw [t3 hzx h1] at h2; cases h2
    · exact .inr ⟨t1 h1 h2, by omega⟩
  · intro a ha b hb c hc h1 h2
    simp only [keyLt, Fl.lt_eq (hk a ha) (hk b hb), Fl.lt_eq (hk b hb) (hk a ha), Fl.lt_eq (hk b hb) (hk c hc),
      Fl.lt_eq (hk c hc) (hk b hb), Fl.lt_eq (hk a ha) (hk c hc), Fl.lt_eq (hk c hc) (hk a ha)] at h1 h2 ⊢
    generalize (if inc = true then a.1 else a.1.neg) = x at *
    generalize (if inc = true then b.1 else b.1.neg) = y at *
    generalize (if inc = true then c.1 else c.1.neg) = z at *
    have t1 := @Fl.le_trans z y x
    have t2 := @Fl.le_trans y x z
    have t3 := @Fl.le_trans x z y
    simp only [Bool.or_eq_false_iff, Bool.not_eq_false', Bool.and_eq_false_iff, Bool.not_eq_true', decide_eq_false_iff_not,
      Bool.not_not] at h1 h2 ⊢
    obtain ⟨h1, h1'⟩ := h1
    obtain ⟨h2, h2'⟩ := h2
    refine ⟨t1 h2 h1, ?_⟩
    cases hxz : Fl.le x z with
    | false => exact .inl rfl
    | true =>
      right
      rw [t3 hxz h2] at h1'
      rw [t2 h1 hxz] at h2'
      simp at h1' h2'
      omega

/-- Merging equal splits keeps what is set for every class of thresholds. -/
theorem dedup_exists (inc : Bool) (P : Fl → Prop) (j i : Nat) : ∀ (l : List (Fl × SMeta w)) (cur : Fl × SMeta w),
    (∃ p ∈ dedup inc cur l, P p.1 ∧ p.2.Sets j i) ↔ ∃ p ∈ cur :: l, P p.1 ∧ p.2.Sets j i := by
  intro l
  induction l with
  | nil => intro cur; simp [dedup]
  | cons x l ih =>
    intro cur
    rw [dedup]
    split
    · rename_i hk
      have hx : cur.1 = x.1 ∧ cur.2.tree = x.2.tree := by
        simp only [keyEq, Bool.and_eq_true, Fl.eq_iff, beq_iff_eq] at hk
        cases inc <;> simp [Fl.neg_inj] at hk <;> exact ⟨hk.1.1, hk.2⟩
      rw [ih]
      simp only [List.exists_mem_cons_iff, SMeta.Sets, BitVec.getLsbD_or, Bool.or_eq_true, ← hx.1, ← hx.2]
      rw [← or_assoc]
      refine or_congr_left ?_
      rw [← and_or_left, ← and_or_left]
    · rw [List.exists_mem_cons_iff, ih, List.exists_mem_cons_iff (l := x :: l)]

theorem dedup_sublist (inc : Bool) : ∀ (l : List (Fl × SMeta w)) (cur : Fl × SMeta w),
    ((dedup inc cur l).map Prod.fst).Sublist ((cur :: l).map Prod.fst) := by
  intro l
  induction l with
  | nil => intro cur; simp [dedup]
  | cons x l ih =>
    intro cur
    rw [dedup]
    split
    · refine (ih _).trans ?_
      simp only [List.map_cons]
      exact (List.Sublist.refl _).cons_cons _ |>.trans (((List.Sublist.refl _).cons _).cons_cons _)
    · simp only [List.map_cons]
      exact (ih x).cons_cons _

theorem dedup_tree (inc : Bool) (n : Nat) : ∀ (l : List (Fl × SMeta w)) (cur : Fl × SMeta w),
    (∀ p ∈ cur :: l, p.2.tree < n) → ∀ p ∈ dedup inc cur l, p.2.tree < n := by
  intro l
  induction l with
  | nil => intro cur h p hp; simp only [dedup] at hp; exact h p hp
  | cons x l ih =>
    intro cur h
    rw [dedup]
    split
    · apply ih
      intro p hp
      rcases List.mem_cons.1 hp with rfl | hp
      · exact h cur (by simp)
      · exact h p (by simp [hp])
    · intro p hp
      rcases List.mem_cons.1 hp with rfl | hp
      · exact h p (by simp)
      · exact ih x (fun q hq => h q (by simp only [List.mem_cons] at hq ⊢; tauto)) p hp

/-- The order of the thresholds after sorting. -/
def Ordered (inc : Bool) (l : List Fl) : Prop :=
  l.Pairwise fun a b => if inc = true then Fl.le a b = true else Fl.le b a = true

theorem sortDedup_spec {o : Oracles} (ho : o.Ok) (inc : Bool) (n : Nat) {l : List (Fl × SMeta w)}
    (h : ∀ p ∈ l, p.1 ≠ .nan ∧ p.2.tree < n) :
    (∀ p ∈ sortDedup o inc l, p.1 ≠ .nan ∧ p.2.tree < n) ∧ Ordered inc ((sortDedup o inc l).map Prod.fst) ∧
    (∀ (P : Fl → Prop) j i, (∃ p ∈ sortDedup o inc l, P p.1 ∧ p.2.Sets j i) ↔ ∃ p ∈ l, P p.1 ∧ p.2.Sets j i) := by
  unfold sortDedup
  split
  · rename_i hl
    refine ⟨h, ?_, fun _ _ _ => Iff.rfl⟩
    match l, hl with
    | [], _ => simp [Ordered]
    | [a], _ => simp [Ordered]
  · have hp := ho.sort_perm (keyLt inc) l
    have hs := ho.sort_sorted (keyLt inc) l (keyLt_weak inc fun p hp => (h p hp).1)
    have h' : ∀ p ∈ o.sort (keyLt inc) l, p.1 ≠ .nan ∧ p.2.tree < n := fun p hq => h p (hp.mem_iff.1 hq)
    have hex : ∀ (P : Fl → Prop) j i, (∃ p ∈ o.sort (keyLt inc) l, P p.1 ∧ p.2.Sets j i) ↔
        ∃ p ∈ l, P p.1 ∧ p.2.Sets j i := by
      intro P j i
      simp only [hp.mem_iff]
    generalize o.sort (keyLt inc) l = s at *
    cases s with
    | nil =>
      refine ⟨by simp, by simp [Ordered], fun P j i => ?_⟩
      rw [← hex]
    | cons x rest =>
      have hsub := dedup_sublist inc rest x
      have hord : Ordered inc ((x :: rest).map Prod.fst) := by
        rw [Ordered, List.pairwise_map]
        refine List.Pairwise.imp_of_mem ?_ hs
        intro a b ha hb hab
        have na := (h' a ha).1
        have nb := (h' b hb).1
        cases inc with
        | true =>
          simp only [keyLt, if_true, Bool.or_eq_false_iff, Fl.lt_eq nb na, Bool.not_eq_false'] at hab
          simp [hab.1]
        | false =>
          simp only [keyLt, Bool.false_eq_true, if_false, Bool.or_eq_false_iff,
            Fl.lt_eq (mt Fl.neg_nan.1 nb) (mt Fl.neg_nan.1 na), Bool.not_eq_false', Fl.neg_le] at hab
          simp [hab.1]
      refine ⟨fun p hq => ⟨?_, dedup_tree inc n rest x (fun q hq => (h' q hq).2) p hq⟩, List.Pairwise.sublist hsub hord,
        fun P j i => ?_⟩
      · have : p.1 ∈ (x :: rest).map Prod.fst := hsub.subset (List.mem_map.2 ⟨p, hq, rfl⟩)
        obtain ⟨q, hq, he⟩ := List.mem_map.1 this
        rw [← he]
        exact (h' q hq).1
      · rw [dedup_exists, ← hex]

/-! ### Application of masks -/

/-- Bit `i` of the mask of tree `j`. -/
def Bit (masks : List (BitVec w)) (j i : Nat) : Prop := ∃ m, masks[j]? = some m ∧ m.getLsbD i = true

/-- The step succeeds on masks for `n` trees and sets exactly the given bits in addition. -/
def Applies (n : Nat) (f : List (BitVec w) → Option (List (BitVec w))) (H : Nat → Nat → Prop) : Prop :=
  ∀ masks, masks.length = n → ∃ masks', f masks = some masks' ∧ masks'.length = n ∧
    ∀ j i, Bit masks' j i ↔ Bit masks j i ∨ H j i

theorem Applies.congr {n : Nat} {f : List (BitVec w) → Option (List (BitVec w))} {H H' : Nat → Nat → Prop}
    (h : Applies n f H) (hH : ∀ j i, H j i ↔ H' j i) : Applies n f H' := by
  intro masks hm
  obtain ⟨m', e, l, hb⟩ := h masks hm
  exact ⟨m', e, l, fun j i => by rw [hb, hH]⟩

theorem Applies.bind {n : Nat} {f g : List (BitVec w) → Option (List (BitVec w))} {H H' : Nat → Nat → Prop}
    (h : Applies n f H) (h' : Applies n g H') : Applies n (fun m => (f m).bind g) (fun j i => H j i ∨ H' j i) := by
  intro masks hm
  obtain ⟨m1, e1, l1, hb1⟩ := h masks hm
  obtain ⟨m2, e2, l2, hb2⟩ := h' m1 l1
  exact ⟨m2, by simp [e1, e2], l2, fun j i => by rw [hb2, hb1, or_assoc]⟩

theorem applies_id (n : Nat) : Applies (w := w) n some (fun _ _ => False) :=
  fun masks hm => ⟨masks, rfl, hm, by simp⟩

theorem applyMeta_applies {n : Nat} {m : SMeta w} (h : m.tree < n) : Applies n (fun masks => applyMeta masks m) m.Sets := by
  intro masks hm
  refine ⟨masks.modify m.tree (· ||| m.mask), by simp [applyMeta, hm, h], by simp [hm], fun j i => ?_⟩
  simp only [Bit, SMeta.Sets, List.getElem?_modify]
  by_cases hj : m.tree = j
  · subst hj
    have hlt : m.tree < masks.length := by omega
    simp [hlt, BitVec.getLsbD_or]
  · simp [hj]

theorem applyAll_applies {n : Nat} : ∀ (l : List (SMeta w)), (∀ m ∈ l, m.tree < n) →
    Applies n (applyAll l) (fun j i => ∃ m ∈ l, m.Sets j i) := by
  intro l
  induction l with
  | nil => intro _; exact (applies_id n).congr (by simp)
  | cons m l ih =>
    intro h
    refine ((applyMeta_applies (h m (by simp))).bind (ih fun x hx => h x (by simp [hx]))).congr fun j i => ?_
    simp

theorem forAll_applies {α : Type} {n : Nat} {f : α → List (BitVec w) → Option (List (BitVec w))}
    {H : α → Nat → Nat → Prop} : ∀ (l : List α), (∀ a ∈ l, Applies n (f a) (H a)) →
    Applies n (forAll f l) (fun j i => ∃ a ∈ l, H a j i) := by
  intro l
  induction l with
  | nil => intro _; exact (applies_id n).congr (by simp)
  | cons a l ih =>
    intro h
    refine ((h a (by simp)).bind (ih fun x hx => h x (by simp [hx]))).congr fun j i => ?_
    simp

/-- In a list in which `c` stays true, `upper_bound` separates. -/
theorem upperBound_exists {α β : Type} (c : α → Bool) (R : β → Prop) : ∀ (L : List (α × β)),
    L.Pairwise (fun a b => c a.1 = true → c b.1 = true) →
    ((∃ m ∈ (L.map Prod.snd).take (upperBound c (L.map Prod.fst)), R m) ↔ ∃ p ∈ L, c p.1 = false ∧ R p.2) := by
  intro L
  induction L with
  | nil => intro _; simp
  | cons p L ih =>
    intro h
    obtain ⟨h1, h2⟩ := List.pairwise_cons.1 h
    simp only [upperBound, List.map_cons, List.takeWhile_cons]
    cases hc : c p.1 with
    | true =>
      simp only [Bool.not_true, Bool.false_eq_true, if_false, List.length_nil, List.take_zero, List.not_mem_nil, false_and,
        exists_false, false_iff, not_exists, not_and]
      intro q hq hcq
      rcases List.mem_cons.1 hq with rfl | hq
      · rw [hc] at hcq; cases hcq
      · rw [h1 q hq hc] at hcq; cases hcq
    | false =>
      have := ih h2
      simp only [upperBound] at this
      simp [this, hc]

theorem processSide_applies {n : Nat} (comp le : Fl → Fl → Bool) (env : Env) (s : Nat × List (Fl × SMeta w))
    (ht : ∀ p ∈ s.2, p.2.tree < n)
    (hord : ∀ v, presentNumber env s.1 = some v → s.2.Pairwise fun a b => comp v a.1 = true → comp v b.1 = true)
    (hle : ∀ v, presentNumber env s.1 = some v → ∀ p ∈ s.2, comp v p.1 = false ↔ le v p.1 = true) :
    Applies n (processSide comp env s)
      (fun j i => ∃ v, presentNumber env s.1 = some v ∧ ∃ p ∈ s.2, le v p.1 = true ∧ p.2.Sets j i) := by
  cases hv : presentNumber env s.1 with
  | none =>
    have hf : processSide comp env s = (some : List (BitVec w) → _) := by funext m; simp [processSide, hv]
    rw [hf]
    exact (applies_id n).congr (by simp)
  | some v =>
    have hf : processSide comp env s =
        applyAll ((s.2.map Prod.snd).take (upperBound (comp v) (s.2.map Prod.fst))) := by
      funext m; simp only [processSide, hv]
    rw [hf]
    refine (applyAll_applies _ ?_).congr fun j i => ?_
    · intro m hm
      obtain ⟨p, hp, rfl⟩ := List.mem_map.1 (List.mem_of_mem_take hm)
      exact ht p hp
    · rw [upperBound_exists (comp v) (fun m => m.Sets j i) s.2 (hord v hv)]
      simp only [Option.some.injEq, exists_eq_left']
      constructor
      · rintro ⟨p, hp, h1, h2⟩; exact ⟨p, hp, (hle v hv p hp).1 h1, h2⟩
      · rintro ⟨p, hp, h1, h2⟩; exact ⟨p, hp, (hle v hv p hp).2 h1, h2⟩

theorem processLeft_applies {n : Nat} (env : Env) (s : Nat × List (Fl × SMeta w))
    (hg : ∀ p ∈ s.2, p.1 ≠ .nan ∧ p.2.tree < n) (hord : Ordered false (s.2.map Prod.fst)) :
    Applies n (processSide (fun v x => Fl.lt x v) env s)
      (fun j i => ∃ v, presentNumber env s.1 = some v ∧ ∃ p ∈ s.2, Fl.le v p.1 = true ∧ p.2.Sets j i) := by
  refine processSide_applies _ Fl.le env s (fun p hp => (hg p hp).2) (fun v hv => ?_) (fun v hv p hp => ?_)
  · rw [Ordered, List.pairwise_map] at hord
    refine List.Pairwise.imp_of_mem ?_ hord
    intro a b ha hb hab h
    simp only [Bool.false_eq_true, if_false] at hab
    have nv := presentNumber_ne hv
    rw [Fl.lt_eq (hg a ha).1 nv] at h
    rw [Fl.lt_eq (hg b hb).1 nv]
    simp only [Bool.not_eq_true'] at h ⊢
    cases hvb : Fl.le v b.1 with
    | false => rfl
    | true => rw [Fl.le_trans hvb hab] at h; cases h
  · rw [Fl.lt_eq (hg p hp).1 (presentNumber_ne hv)]
    simp

theorem processRight_applies {n : Nat} (env : Env) (s : Nat × List (Fl × SMeta w))
    (hg : ∀ p ∈ s.2, p.1 ≠ .nan ∧ p.2.tree < n) (hord : Ordered true (s.2.map Prod.fst)) :
    Applies n (processSide (fun v x => Fl.lt v x) env s)
      (fun j i => ∃ v, presentNumber env s.1 = some v ∧ ∃ p ∈ s.2, Fl.le p.1 v = true ∧ p.2.Sets j i) := by
  refine processSide_applies _ (fun v x => Fl.le x v) env s (fun p hp => (hg p hp).2) (fun v hv => ?_) (fun v hv p hp => ?_)
  · rw [Ordered, List.pairwise_map] at hord
    refine List.Pairwise.imp_of_mem ?_ hord
    intro a b ha hb hab h
    simp only [if_true] at hab
    have nv := presentNumber_ne hv
    rw [Fl.lt_eq nv (hg a ha).1] at h
    rw [Fl.lt_eq nv (hg b hb).1]
    simp only [Bool.not_eq_true'] at h ⊢
    cases hvb : Fl.le b.1 v with
    | false => rfl
    | true => rw [Fl.le_trans hab hvb] at h; cases h
  · rw [Fl.lt_eq (presentNumber_ne hv) (hg p hp).1]
    simp

/-! ### Ranges of equal values -/

theorem setRange_find (v x : Fl) (r : Nat × Nat) (hv : v ≠ .nan) : ∀ m : List (Fl × (Nat × Nat)),
    ((setRange v r m).find? fun p => Fl.eq p.1 x) =
      if Fl.eq v x then some (v, r) else m.find? fun p => Fl.eq p.1 x := by
  intro m
  induction m with
  | nil =>
    simp only [setRange, List.find?_cons]
    cases Fl.eq v x <;> simp
  | cons e m ih =>
    obtain ⟨v', r'⟩ := e
    simp only [setRange]
    by_cases h : Fl.eq v' v = true
    · obtain ⟨rfl, -⟩ := Fl.eq_iff.1 h
      simp only [h, if_true, List.find?_cons]
      cases Fl.eq v' x <;> simp
    · simp only [h, if_false, Bool.false_eq_true, List.find?_cons, ih]
      by_cases h2 : Fl.eq v' x = true
      · obtain ⟨rfl, -⟩ := Fl.eq_iff.1 h2
        have h3 : Fl.eq v v' = false := by
          cases h3 : Fl.eq v v' with
          | false => rfl
          | true =>
            obtain ⟨rfl, -⟩ := Fl.eq_iff.1 h3
            exact absurd h2 h
        simp [h2, h3]
      · simp only [Bool.not_eq_true] at h2
        simp [h2]

/-- What the map of ranges says about the values before position `n`. -/
def RangesOk (values : List Fl) (n : Nat) (m : List (Fl × (Nat × Nat))) : Prop :=
  ∀ x, x ≠ .nan →
    match m.find? fun p => Fl.eq p.1 x with
    | none => ∀ k, k < n → values[k]? ≠ some x
    | some (_, (a, b)) => b ≤ n ∧ ∀ k, values[k]? = some x ↔ a ≤ k ∧ k < b

theorem fillRanges_spec (values : List Fl) (hn : ∀ x ∈ values, x ≠ .nan) (hord : Ordered true values) :
    ∀ (rest : List Fl) (i last : Nat) (m : List (Fl × (Nat × Nat))), i + rest.length = values.length →
      values.drop i = rest → last ≤ i → last < values.length → RangesOk values last m →
      (∀ k, last ≤ k → k < i → values[k]? = values[last]?) →
      (∀ k, k < last → ∀ k', last ≤ k' → k' < values.length → values[k]? ≠ values[k']?) →
      ∃ m', fillRanges values rest i last m = some m' ∧ m' ≠ [] ∧ RangesOk values values.length m' := by
  have hget : ∀ (a b : Nat) (x y : Fl), a ≤ b → values[a]? = some x → values[b]? = some y → Fl.le x y = true := by
    intro a b x y hab hx hy
    obtain ⟨ha, rfl⟩ := List.getElem?_eq_some_iff.1 hx
    obtain ⟨hb, rfl⟩ := List.getElem?_eq_some_iff.1 hy
    rcases Nat.lt_or_eq_of_le hab with h | rfl
    · have := List.pairwise_iff_getElem.1 hord a b ha hb h
      simpa using this
    · exact Fl.le_refl (hn _ (List.getElem_mem _))
  have hne : ∀ v r m, setRange v r m ≠ [] := by
    intro v r m
    cases m with
    | nil => simp [setRange]
    | cons e m => obtain ⟨v', r'⟩ := e; simp only [setRange]; split <;> simp
  -- closing the current group at position `i`
  have hclose : ∀ (i last : Nat) (m : List (Fl × (Nat × Nat))) (hl : last < values.length), last < i → i ≤ values.length →
      RangesOk values last m → (∀ k, last ≤ k → k < i → values[k]? = values[last]?) →
      (∀ k, k < last → ∀ k', last ≤ k' → k' < values.length → values[k]? ≠ values[k']?) →
      (∀ k, i ≤ k → values[k]? ≠ some values[last]) →
      RangesOk values i (setRange values[last] (last, i) m) := by
    intro i last m hl hli hi hm hsame hdiff hafter x hx
    have hvl := hn _ (List.getElem_mem hl)
    rw [setRange_find _ _ _ hvl]
    by_cases he : Fl.eq values[last] x = true
    · obtain ⟨rfl, -⟩ := Fl.eq_iff.1 he
      simp only [he, if_true]
      refine ⟨Nat.le_refl _, fun k => ⟨fun hk => ⟨?_, ?_⟩, fun ⟨h1, h2⟩ => ?_⟩⟩
      · by_contra hc
        exact hdiff k (by omega) last (Nat.le_refl _) hl (by rw [hk, List.getElem?_eq_getElem hl])
      · by_contra hc
        exact hafter k (by omega) hk
      · rw [hsame k h1 h2, List.getElem?_eq_getElem hl]
    · simp only [he, if_false, Bool.false_eq_true]
      have hx' := hm x hx
      have hnl : values[last] ≠ x := fun h => he (Fl.eq_iff.2 ⟨h, hvl⟩)
      cases hf : (m.find? fun p => Fl.eq p.1 x) with
      | none =>
        rw [hf] at hx'
        simp only at hx' ⊢
        intro k hk hkx
        by_cases hkl : k < last
        · exact hx' k hkl hkx
        · rw [hsame k (by omega) hk, List.getElem?_eq_getElem hl, Option.some.injEq] at hkx
          exact hnl hkx
      | some e =>
        obtain ⟨_, a, b⟩ := e
        rw [hf] at hx'
        simp only at hx' ⊢
        exact ⟨by omega, hx'.2⟩
  intro rest
  induction rest with
  | nil =>
    intro i last m hi hd hli hl hm hsame hdiff
    simp only [List.length_nil, Nat.add_zero] at hi
    simp only [fillRanges, List.getElem?_eq_getElem hl, Option.bind_eq_bind, Option.bind_some, Option.pure_def]
    refine ⟨_, rfl, hne _ _ _, ?_⟩
    rw [hi]
    refine hclose values.length last m hl hl (Nat.le_refl _) hm (by rw [hi] at hsame; exact hsame) hdiff ?_
    intro k hk
    rw [List.getElem?_eq_none hk]
    simp
  | cons x rest ih =>
    intro i last m hi hd hli hl hm hsame hdiff
    simp only [List.length_cons] at hi
    have hil : i < values.length := by omega
    have hxi : values[i] = x := by
      have := List.drop_eq_getElem_cons hil
      rw [hd] at this
      exact (List.cons.inj this).1.symm
    have hd' : values.drop (i + 1) = rest := by
      have := List.drop_eq_getElem_cons hil
      rw [hd] at this
      exact (List.cons.inj this).2.symm
    simp only [fillRanges, List.getElem?_eq_getElem hl, Option.bind_eq_bind, Option.bind_some]
    by_cases he : Fl.eq x values[last] = true
    · simp only [he, Bool.not_true, Bool.false_eq_true, if_false]
      obtain ⟨hxl, -⟩ := Fl.eq_iff.1 he
      refine ih (i + 1) last m (by omega) hd' (by omega) hl hm ?_ hdiff
      intro k h1 h2
      rcases Nat.lt_or_eq_of_le (Nat.lt_succ_iff.1 h2) with h | rfl
      · exact hsame k h1 h
      · rw [List.getElem?_eq_getElem hil, List.getElem?_eq_getElem hl, hxi, hxl]
    · simp only [Bool.not_eq_true] at he
      simp only [he, Bool.not_false, if_true]
      have hxl : x ≠ values[last] := by
        intro h
        rw [Fl.eq_iff.2 ⟨h, hxi ▸ hn _ (List.getElem_mem hil)⟩] at he
        cases he
      have hlt : last < i := by
        rcases Nat.lt_or_eq_of_le hli with h | rfl
        · exact h
        · exact absurd hxi.symm hxl
      -- values from `i` on differ from the ones before
      have hgt : ∀ k k', k < i → i ≤ k' → k' < values.length → values[k]? ≠ values[k']? := by
        intro k k' hk hk' hk'l heq
        have h1 : values[k']? = some values[k'] := List.getElem?_eq_getElem hk'l
        rw [h1] at heq
        by_cases hkl : k < last
        · exact hdiff k hkl k' (by omega) hk'l (by rw [heq, h1])
        · rw [hsame k (by omega) hk, List.getElem?_eq_getElem hl, Option.some.injEq] at heq
          have a1 := hget last i values[last] x (by omega) (List.getElem?_eq_getElem hl)
            (by rw [List.getElem?_eq_getElem hil, hxi])
          have a2 := hget i k' x values[k'] hk' (by rw [List.getElem?_eq_getElem hil, hxi]) h1
          rw [← heq] at a2
          exact hxl (Fl.le_antisymm a2 a1)
      refine ih (i + 1) i _ (by omega) hd' (by omega) hil
        (hclose i last m hl hlt (by omega) hm hsame hdiff ?_) ?_ (fun k hk k' h1 h2 => hgt k k' hk h1 h2)
      · intro k hk hkv
        by_cases hkl : k < values.length
        · refine hgt last k hlt hk hkl ?_
          rw [hkv, List.getElem?_eq_getElem hl]
        · rw [List.getElem?_eq_none (by omega)] at hkv
          cases hkv
      · intro k h1 h2
        have : k = i := by omega
        rw [this]

theorem value2range_spec {values : List Fl} (hn : ∀ x ∈ values, x ≠ .nan) (hord : Ordered true values) :
    ∃ m, value2range values = some m ∧ (m = [] ↔ values = []) ∧ RangesOk values values.length m := by
  unfold value2range
  cases hv : values with
  | nil => exact ⟨[], rfl, by simp, fun x _ => by simp⟩
  | cons a l =>
    have hlen : 0 < values.length := by simp [hv]
    obtain ⟨m, h1, h2, h3⟩ := fillRanges_spec values hn hord values 0 0 [] (by omega) (by simp) (Nat.le_refl _) hlen
      (fun x _ => by simp) (fun k _ h => by omega) (fun k h => by omega)
    rw [← hv]
    refine ⟨m, ?_, ?_, h3⟩
    · simp only [hv, List.isEmpty_cons, Bool.false_eq_true, if_false] at h1 ⊢
      exact h1
    · constructor
      · intro h; exact absurd h h2
      · intro h; simp [hv] at h

/-- The splits of `EqSplits` as pairs. -/
structure EqGood (n : Nat) (s : EqSplits w) (L : List (Fl × SMeta w)) : Prop where
  metas : s.metas = L.map Prod.snd
  trees : ∀ p ∈ L, p.2.tree < n
  ranges : RangesOk (L.map Prod.fst) L.length s.ranges

theorem processEq_applies {n : Nat} (env : Env) {s : EqSplits w} {L : List (Fl × SMeta w)} (hg : EqGood n s L) :
    Applies n (processEq env s)
      (fun j i => ∃ v, presentNumber env s.input = some v ∧ ∃ p ∈ L, p.1 = v ∧ p.2.Sets j i) := by
  cases hv : presentNumber env s.input with
  | none =>
    have hf : processEq env s = (some : List (BitVec w) → _) := by funext m; simp [processEq, hv]
    rw [hf]
    exact (applies_id n).congr (by simp)
  | some v =>
    have hr := hg.ranges v (presentNumber_ne hv)
    cases hfd : (s.ranges.find? fun p => Fl.eq p.1 v) with
    | none =>
      have hf : processEq env s = (some : List (BitVec w) → _) := by funext m; simp [processEq, hv, hfd]
      rw [hf]
      refine (applies_id n).congr fun j i => ?_
      simp only [Option.some.injEq, exists_eq_left', false_iff, not_exists, not_and]
      rw [hfd] at hr
      simp only at hr
      intro p hp he
      obtain ⟨k, hk, hkp⟩ := List.mem_iff_getElem.1 hp
      exact absurd (by simp [hk, hkp, he]) (hr k hk)
    | some e =>
      obtain ⟨x, a, b⟩ := e
      rw [hfd] at hr
      simp only at hr
      have hb : b ≤ s.metas.length := by rw [hg.metas]; simpa using hr.1
      have hf : processEq env s = applyAll ((s.metas.take b).drop a) := by
        funext m; simp only [processEq, hv, hfd, hb, if_true]
      rw [hf]
      refine (applyAll_applies _ ?_).congr fun j i => ?_
      · intro m hm
        have := List.mem_of_mem_take (List.mem_of_mem_drop hm)
        rw [hg.metas] at this
        obtain ⟨p, hp, rfl⟩ := List.mem_map.1 this
        exact hg.trees p hp
      · simp only [Option.some.injEq, exists_eq_left']
        have hkey : ∀ k p, L[k]? = some p → (p.1 = v ↔ a ≤ k ∧ k < b) := by
          intro k p hp
          have := hr.2 k
          simp only [List.getElem?_map, hp, Option.map_some, Option.some.injEq] at this
          exact this
        constructor
        · rintro ⟨m, hm, hs⟩
          obtain ⟨k, hk⟩ := List.mem_iff_getElem?.1 hm
          rw [List.getElem?_drop, List.getElem?_take] at hk
          split at hk
          · rename_i hkb
            rw [hg.metas, List.getElem?_map, Option.map_eq_some_iff] at hk
            obtain ⟨p, hp, rfl⟩ := hk
            exact ⟨p, List.mem_of_getElem? hp, (hkey _ p hp).2 ⟨by omega, hkb⟩, hs⟩
          · cases hk
        · rintro ⟨p, hp, he, hs⟩
          obtain ⟨k, hk⟩ := List.mem_iff_getElem?.1 hp
          have hk' := (hkey k p hk).1 he
          refine ⟨p.2, ?_, hs⟩
          rw [List.mem_iff_getElem?]
          refine ⟨k - a, ?_⟩
          rw [List.getElem?_drop, List.getElem?_take, if_pos (by omega), show a + (k - a) = k by omega, hg.metas,
            List.getElem?_map, hk]
          rfl

theorem rangeLoop_applies {n : Nat} (v : Fl) (hv : v ≠ .nan) : ∀ (L : List (SMeta w × Fl × Fl)),
    (∀ p ∈ L, (p.2.1 ≠ .nan ∧ p.2.2 ≠ .nan) ∧ p.1.tree < n) → L.Pairwise (fun a b => Fl.le a.2.1 b.2.1 = true) →
    Applies n (rangeLoop v L) (fun j i => ∃ p ∈ L, (Fl.le p.2.1 v = true ∧ Fl.le v p.2.2 = true) ∧ p.1.Sets j i) := by
  intro L
  induction L with
  | nil => intro _ _; exact (applies_id n).congr (by simp)
  | cons p L ih =>
    obtain ⟨m, l, r⟩ := p
    intro h hp
    obtain ⟨hp1, hp2⟩ := List.pairwise_cons.1 hp
    obtain ⟨⟨nl, nr⟩, ht⟩ := h (m, l, r) (by simp)
    have hih := ih (fun q hq => h q (by simp [hq])) hp2
    have hlt := Fl.lt_eq hv nl
    by_cases h1 : Fl.lt v l = true
    · have hf : rangeLoop v ((m, l, r) :: L) = (some : List (BitVec w) → _) := by funext x; simp [rangeLoop, h1]
      rw [hf]
      refine (applies_id n).congr fun j i => ?_
      rw [h1] at hlt
      simp only [false_iff, not_exists, not_and, and_imp]
      intro q hq hle
      rcases List.mem_cons.1 hq with rfl | hq
      · simp only at hle
        rw [hle] at hlt; cases hlt
      · rw [Fl.le_trans (hp1 q hq) hle] at hlt; cases hlt
    · simp only [Bool.not_eq_true] at h1
      rw [h1] at hlt
      have hlv : Fl.le l v = true := by simpa using hlt.symm
      by_cases h2 : Fl.le v r = true
      · have hf : rangeLoop v ((m, l, r) :: L) = fun x => (applyMeta x m).bind (rangeLoop v L) := by
          funext x; simp [rangeLoop, h1, h2]
        rw [hf]
        refine ((applyMeta_applies ht).bind hih).congr fun j i => ?_
        simp [hlv, h2]
      · have hf : rangeLoop v ((m, l, r) :: L) = rangeLoop v L := by
          funext x; simp [rangeLoop, h1, h2]
        rw [hf]
        refine hih.congr fun j i => ?_
        simp [h2]

theorem processRange_applies {n : Nat} (env : Env) (s : Nat × List (SMeta w × Fl × Fl))
    (h : ∀ p ∈ s.2, (p.2.1 ≠ .nan ∧ p.2.2 ≠ .nan) ∧ p.1.tree < n)
    (hp : s.2.Pairwise (fun a b => Fl.le a.2.1 b.2.1 = true)) :
    Applies n (processRange env s) (fun j i => ∃ v, presentNumber env s.1 = some v ∧
      ∃ p ∈ s.2, (Fl.le p.2.1 v = true ∧ Fl.le v p.2.2 = true) ∧ p.1.Sets j i) := by
  cases hv : presentNumber env s.1 with
  | none =>
    have hf : processRange env s = (some : List (BitVec w) → _) := by funext m; simp [processRange, hv]
    rw [hf]
    exact (applies_id n).congr (by simp)
  | some v =>
    have hf : processRange env s = rangeLoop v s.2 := by funext m; simp only [processRange, hv]
    rw [hf]
    exact (rangeLoop_applies v (presentNumber_ne hv) s.2 h hp).congr fun j i => by simp

theorem processSet_applies {n : Nat} (env : Env) (s : Nat × SetSplits w) (h : s.2.Good n) :
    Applies n (processSet env s) (fun j i => s.2.Hits (env.i s.1) j i) := by
  cases hv : env.i s.1 with
  | none =>
    have hf : processSet env s = applyAll s.2.dflt := by funext m; simp only [processSet, hv]
    rw [hf]
    exact applyAll_applies _ h.dflt
  | some v =>
    cases hfd : (s.2.metas.find? fun p => p.1 == v) with
    | none =>
      have hf : processSet env s = (some : List (BitVec w) → _) := by funext m; simp only [processSet, hv, hfd]
      rw [hf]
      refine (applies_id n).congr fun j i => ?_
      rw [List.find?_eq_none] at hfd
      simp only [SetSplits.Hits, false_iff, not_exists, not_and]
      intro p hp he
      exact absurd he (by simpa using hfd p hp)
    | some e =>
      obtain ⟨k, ms⟩ := e
      have hf : processSet env s = applyAll ms := by funext m; simp only [processSet, hv, hfd]
      rw [hf]
      have hmem := List.mem_of_find?_eq_some hfd
      have hkv : k = v := by simpa using List.find?_some hfd
      refine (applyAll_applies _ (h.metas _ hmem)).congr fun j i => ?_
      simp only [SetSplits.Hits]
      constructor
      · rintro hm
        exact ⟨_, hmem, hkv, hm⟩
      · rintro ⟨p, hp, he, hm⟩
        have : p = (k, ms) := by
          have hinj := h.keys
          obtain ⟨a, ha, rfl⟩ := List.mem_iff_getElem.1 hp
          obtain ⟨b, hb, hbe⟩ := List.mem_iff_getElem.1 hmem
          have := (List.nodup_iff_getElem?_ne_getElem?.1 hinj)
          rcases Nat.lt_trichotomy a b with hab | hab | hab
          · refine absurd ?_ (this a b hab (by simpa using hb))
            simp [ha, hb, hbe, he, hkv]
          · subst hab; exact hbe
          · refine absurd ?_ (this b a hab (by simpa using ha))
            simp [ha, hb, hbe, he, hkv]
        rw [this] at hm
        exact hm

/-! ### All splits -/

/-- The finished splits: sorted, with the pairs behind each `EqSplits`. -/
structure DataGood (n : Nat) (d : SplitsData w) : Prop where
  left : ∀ s ∈ d.left, (∀ p ∈ s.2, p.1 ≠ .nan ∧ p.2.tree < n) ∧ Ordered false (s.2.map Prod.fst)
  right : ∀ s ∈ d.right, (∀ p ∈ s.2, p.1 ≠ .nan ∧ p.2.tree < n) ∧ Ordered true (s.2.map Prod.fst)
  eq : ∀ s ∈ d.eq, ∃ L, EqGood n s L
  range : ∀ s ∈ d.range, (∀ p ∈ s.2, (p.2.1 ≠ .nan ∧ p.2.2 ≠ .nan) ∧ p.1.tree < n) ∧
    s.2.Pairwise (fun a b => Fl.le a.2.1 b.2.1 = true)
  sets : ∀ s ∈ d.sets, s.2.Good n

/-- The splits of one `EqSplits` holding at `v`. -/
def EqSplits.Hits (s : EqSplits w) (n : Nat) (v : Fl) (j i : Nat) : Prop :=
  ∃ L, EqGood n s L ∧ ∃ p ∈ L, p.1 = v ∧ p.2.Sets j i

def SplitsData.IvHits (d : SplitsData w) (n : Nat) (env : Env) (j i : Nat) : Prop :=
  (∃ s ∈ d.left, ∃ v, presentNumber env s.1 = some v ∧ ∃ p ∈ s.2, Fl.le v p.1 = true ∧ p.2.Sets j i) ∨
  (∃ s ∈ d.right, ∃ v, presentNumber env s.1 = some v ∧ ∃ p ∈ s.2, Fl.le p.1 v = true ∧ p.2.Sets j i) ∨
  (∃ s ∈ d.eq, ∃ v, presentNumber env s.input = some v ∧ s.Hits n v j i) ∨
  (∃ s ∈ d.range, ∃ v, presentNumber env s.1 = some v ∧
    ∃ p ∈ s.2, (Fl.le p.2.1 v = true ∧ Fl.le v p.2.2 = true) ∧ p.1.Sets j i)

theorem eqGood_hits {n : Nat} {s : EqSplits w} {L : List (Fl × SMeta w)} (h : EqGood n s L) {v : Fl} (hv : v ≠ .nan)
    (j i : Nat) : s.Hits n v j i ↔ ∃ p ∈ L, p.1 = v ∧ p.2.Sets j i := by
  refine ⟨?_, fun hp => ⟨L, h, hp⟩⟩
  rintro ⟨L', h', p, hp, he, hs⟩
  obtain ⟨k, hk⟩ := List.mem_iff_getElem?.1 hp
  have hlen : L.length = L'.length := by
    have := congrArg List.length h.metas
    rw [h'.metas] at this
    simpa using this.symm
  have hkl : k < L'.length := (List.getElem?_eq_some_iff.1 hk).1
  have r1 := h.ranges v hv
  have r2 := h'.ranges v hv
  have hmem : L'[k]? = some p := hk
  have hp' : L[k]? = some (L[k]'(by omega)) := List.getElem?_eq_getElem _
  refine ⟨L[k]'(by omega), List.getElem_mem _, ?_, ?_⟩
  · cases hf : (s.ranges.find? fun p => Fl.eq p.1 v) with
    | none =>
      rw [hf] at r2
      exact absurd (by simp [hmem, he]) (r2 k hkl)
    | some e =>
      obtain ⟨x, a, b⟩ := e
      rw [hf] at r1 r2
      simp only at r1 r2
      have hab := (r2.2 k).1 (by simp [hmem, he])
      have := (r1.2 k).2 hab
      rw [List.getElem?_map, hp'] at this
      simpa using this
  · have := h.metas.symm.trans h'.metas
    have hk2 := congrArg (fun l => l[k]?) this
    simp only [List.getElem?_map, hp', hmem, Option.map_some, Option.some.injEq] at hk2
    rw [hk2]
    exact hs

/-- `FindTreeMasks` computes for every tree exactly the bits of the splits which hold. -/
theorem findMasks_spec {n : Nat} (env : Env) {d : SplitsData w} (hd : DataGood n d) :
    ∃ masks, findMasks env d n = some masks ∧ masks.length = n ∧
      ∀ j i, Bit masks j i ↔ d.IvHits n env j i ∨ ∃ s ∈ d.sets, s.2.Hits (env.i s.1) j i := by
  have a1 := forAll_applies d.left fun s hs => processLeft_applies (n := n) env s (hd.left s hs).1 (hd.left s hs).2
  have a2 := forAll_applies d.right fun s hs => processRight_applies (n := n) env s (hd.right s hs).1 (hd.right s hs).2
  have a3 := forAll_applies (f := processEq env)
    (H := fun s j i => ∃ v, presentNumber env s.input = some v ∧ s.Hits n v j i) d.eq (fun s hs => by
      obtain ⟨L, hL⟩ := hd.eq s hs
      refine (processEq_applies env hL).congr fun j i => ?_
      constructor
      · rintro ⟨v, hv, h⟩; exact ⟨v, hv, (eqGood_hits hL (presentNumber_ne hv) j i).2 h⟩
      · rintro ⟨v, hv, h⟩; exact ⟨v, hv, (eqGood_hits hL (presentNumber_ne hv) j i).1 h⟩)
  have a4 := forAll_applies d.range fun s hs => processRange_applies (n := n) env s (hd.range s hs).1 (hd.range s hs).2
  have a5 := forAll_applies d.sets fun s hs => processSet_applies (n := n) env s (hd.sets s hs)
  obtain ⟨masks, e, l, hb⟩ := (((a1.bind a2).bind a3).bind a4).bind a5 (List.replicate n 0#w) (by simp)
  refine ⟨masks, ?_, l, fun j i => ?_⟩
  · simp only [findMasks, Option.bind_eq_bind]
    simp only [Option.bind_assoc] at e
    exact e
  · rw [hb]
    have h0 : ¬ Bit (List.replicate n 0#w) j i := by
      rintro ⟨m, hm, hi⟩
      rw [List.getElem?_replicate] at hm
      split at hm
      · cases hm; simp at hi
      · cases hm
    simp only [h0, false_or, SplitsData.IvHits, or_assoc]

/-! ### Finishing -/

theorem rangeSort_spec {o : Oracles} (ho : o.Ok) {L : List (SMeta w × Fl × Fl)} (h : ∀ p ∈ L, p.2.1 ≠ .nan) :
    (o.sort (fun a b => Fl.lt a.2.1 b.2.1) L).Pairwise (fun a b => Fl.le a.2.1 b.2.1 = true) := by
  have hw : StrictWeak (fun a b : SMeta w × Fl × Fl => Fl.lt a.2.1 b.2.1) L := by
    constructor
    · intro a ha
      simp [Fl.lt_eq (h a ha) (h a ha), Fl.le_refl (h a ha)]
    · intro a ha b hb c hc h1 h2
      rw [Fl.lt_eq (h _ ha) (h _ hb)] at h1
      rw [Fl.lt_eq (h _ hb) (h _ hc)] at h2
      rw [Fl.lt_eq (h _ ha) (h _ hc)]
      simp only [Bool.not_eq_true'] at h1 h2 ⊢
      cases hca : Fl.le c.2.1 a.2.1 with
      | false => rfl
      | true =>
        rcases Fl.le_total (h b hb) (h c hc) with hx | hx
        · rw [Fl.le_trans hx hca] at h1; cases h1
        · rw [hx] at h2; cases h2
    · intro a ha b hb c hc h1 h2
      rw [Fl.lt_eq (h _ ha) (h _ hb)] at h1
      rw [Fl.lt_eq (h _ hb) (h _ hc)] at h2
      rw [Fl.lt_eq (h _ ha) (h _ hc)]
      simp only [Bool.not_eq_false'] at h1 h2 ⊢
      exact Fl.le_trans h2 h1
  have hs := ho.sort_sorted _ L hw
  have hp := ho.sort_perm (fun a b : SMeta w × Fl × Fl => Fl.lt a.2.1 b.2.1) L
  refine List.Pairwise.imp_of_mem ?_ hs
  intro a b ha hb hab
  rw [Fl.lt_eq (h b (hp.mem_iff.1 hb)) (h a (hp.mem_iff.1 ha))] at hab
  simpa using hab

theorem or4 {a b c d a' b' c' d' : Prop} : ((a ∨ a') ∨ (b ∨ b') ∨ (c ∨ c') ∨ (d ∨ d')) ↔
    (a ∨ b ∨ c ∨ d) ∨ (a' ∨ b' ∨ c' ∨ d') := by
  rw [or_or_or_comm (a := c), or_or_or_comm (a := b), or_or_or_comm (a := a)]

theorem finishIv_spec {o : Oracles} (ho : o.Ok) (n : Nat) : ∀ (l : List (Nat × IvSplits w)) (d : SplitsData w),
    (∀ e ∈ l, e.2.Good n) → DataGood n d →
    ∃ d', finishIv o l d = some d' ∧ DataGood n d' ∧ d'.sets = d.sets ∧ ∀ env j i, d'.IvHits n env j i ↔
      d.IvHits n env j i ∨ ∃ e ∈ l, ∃ v, presentNumber env e.1 = some v ∧ e.2.Hits v j i := by
  intro l
  induction l with
  | nil => intro d _ hd; exact ⟨d, rfl, hd, rfl, by simp⟩
  | cons e l ih =>
    obtain ⟨input, s⟩ := e
    intro d hl hd
    have hs := hl (input, s) (by simp)
    obtain ⟨l1, l2, l3⟩ := sortDedup_spec ho false n hs.left
    obtain ⟨r1, r2, r3⟩ := sortDedup_spec ho true n hs.right
    obtain ⟨q1, q2, q3⟩ := sortDedup_spec ho true n hs.eq
    obtain ⟨m, m1, m2, m3⟩ := value2range_spec (values := (sortDedup o true s.eq).map Prod.fst) (by
      intro x hx
      obtain ⟨p, hp, rfl⟩ := List.mem_map.1 hx
      exact (q1 p hp).1) q2
    have t1 := rangeSort_spec ho (fun p hp => (hs.range p hp).1.1)
    have t2 := ho.sort_perm (fun a b : SMeta w × Fl × Fl => Fl.lt a.2.1 b.2.1) s.range
    have hEq : EqGood n ⟨input, (sortDedup o true s.eq).map Prod.snd, m⟩ (sortDedup o true s.eq) :=
      ⟨rfl, fun p hp => (q1 p hp).2, by simpa using m3⟩
    have app : ∀ {α : Type} {L : List α} {x : α} {c : Bool} {P : α → Prop}, (∀ p ∈ L, P p) → P x →
        ∀ p ∈ (if c = true then L else L ++ [x]), P p := by
      intro α L x c P h hx p hp
      cases c with
      | true => exact h p hp
      | false =>
        rcases List.mem_append.1 hp with hp | hp
        · exact h p hp
        · rw [List.mem_singleton] at hp; subst hp; exact hx
    have hex : ∀ {α : Type} {L : List α} {x : α} {c : Bool} {P : α → Prop}, (c = true → ¬ P x) →
        ((∃ p ∈ (if c = true then L else L ++ [x]), P p) ↔ (∃ p ∈ L, P p) ∨ P x) := by
      intro α L x c P h
      cases c with
      | true => simp [h rfl]
      | false =>
        simp only [Bool.false_eq_true, if_false, List.mem_append, List.mem_singleton]
        constructor
        · rintro ⟨p, hp | rfl, hP⟩
          · exact .inl ⟨p, hp, hP⟩
          · exact .inr hP
        · rintro (⟨p, hp, hP⟩ | hP)
          · exact ⟨p, .inl hp, hP⟩
          · exact ⟨x, .inr rfl, hP⟩
    simp only [finishIv, m1, Option.bind_eq_bind, Option.bind_some]
    generalize hL : sortDedup o false s.left = left at *
    generalize hR : sortDedup o true s.right = right at *
    generalize hQ : sortDedup o true s.eq = eq at *
    generalize hT : o.sort (fun a b => Fl.lt a.2.1 b.2.1) s.range = range at *
    obtain ⟨d', e1, g1, s1, h1⟩ := ih { d with
      left := if left.isEmpty then d.left else d.left ++ [(input, left)]
      right := if right.isEmpty then d.right else d.right ++ [(input, right)]
      eq := if m.isEmpty then d.eq else d.eq ++ [⟨input, eq.map Prod.snd, m⟩]
      range := if range.isEmpty then d.range else d.range ++ [(input, range)] }
      (fun x hx => hl x (by simp [hx]))
      { left := app hd.left ⟨l1, l2⟩
        right := app hd.right ⟨r1, r2⟩
        eq := app hd.eq ⟨_, hEq⟩
        range := app hd.range ⟨fun p hp => hs.range p (t2.mem_iff.1 hp), t1⟩
        sets := hd.sets }
    refine ⟨d', e1, g1, s1, fun env j i => ?_⟩
    rw [h1]
    have hstep : ({ d with
        left := if left.isEmpty then d.left else d.left ++ [(input, left)]
        right := if right.isEmpty then d.right else d.right ++ [(input, right)]
        eq := if m.isEmpty then d.eq else d.eq ++ [⟨input, eq.map Prod.snd, m⟩]
        range := if range.isEmpty then d.range else d.range ++ [(input, range)] } : SplitsData w).IvHits n env j i ↔
        d.IvHits n env j i ∨ ∃ v, presentNumber env input = some v ∧ s.Hits v j i := by
      simp only [SplitsData.IvHits]
      rw [hex (P := fun s : Nat × List (Fl × SMeta w) => ∃ v, presentNumber env s.1 = some v ∧ ∃ p ∈ s.2, Fl.le v p.1 = true ∧ p.2.Sets j i) (by
          intro h; rw [List.isEmpty_iff] at h; subst h; simp),
        hex (P := fun s : Nat × List (Fl × SMeta w) => ∃ v, presentNumber env s.1 = some v ∧ ∃ p ∈ s.2, Fl.le p.1 v = true ∧ p.2.Sets j i) (by
          intro h; rw [List.isEmpty_iff] at h; subst h; simp),
        hex (P := fun s : EqSplits w => ∃ v, presentNumber env s.input = some v ∧ s.Hits n v j i) (by
          intro h
          rw [List.isEmpty_iff] at h
          have := m2.1 h
          rw [List.map_eq_nil_iff] at this
          rintro ⟨v, hv, hh⟩
          rw [eqGood_hits hEq (presentNumber_ne hv)] at hh
          simp [this] at hh),
        hex (P := fun s : Nat × List (SMeta w × Fl × Fl) => ∃ v, presentNumber env s.1 = some v ∧
          ∃ p ∈ s.2, (Fl.le p.2.1 v = true ∧ Fl.le v p.2.2 = true) ∧ p.1.Sets j i) (by
          intro h; rw [List.isEmpty_iff] at h; subst h; simp)]
      have hnew : (∃ v, presentNumber env input = some v ∧ s.Hits v j i) ↔
          (∃ v, presentNumber env input = some v ∧ ∃ p ∈ left, Fl.le v p.1 = true ∧ p.2.Sets j i) ∨
          (∃ v, presentNumber env input = some v ∧ ∃ p ∈ right, Fl.le p.1 v = true ∧ p.2.Sets j i) ∨
          (∃ v, presentNumber env input = some v ∧ (⟨input, eq.map Prod.snd, m⟩ : EqSplits w).Hits n v j i) ∨
          (∃ v, presentNumber env input = some v ∧
            ∃ p ∈ range, (Fl.le p.2.1 v = true ∧ Fl.le v p.2.2 = true) ∧ p.1.Sets j i) := by
        rw [← exists_or, ← exists_or, ← exists_or]
        refine exists_congr fun v => ?_
        rw [← and_or_left, ← and_or_left, ← and_or_left]
        refine and_congr_right fun hv => ?_
        rw [IvSplits.Hits, l3 (fun x => Fl.le v x = true), r3 (fun x => Fl.le x v = true),
          eqGood_hits hEq (presentNumber_ne hv), q3 (fun x => x = v)]
        simp only [t2.mem_iff]
      rw [hnew]
      exact or4
    rw [hstep, List.exists_mem_cons_iff, or_assoc]

end Verif.Forest
