import Verif.Edge.EdgeSpec
import Verif.Dense.DenseProps

/-! Helper lemmas for edges. -/

namespace Verif.Edge
open Verif.Bitmap Verif.Dense

/-! ## Lists of split points -/

/-- Split points proper. -/
def SP (sp : List Int) : Prop := sp.head? = some 0 ∧ sp.Pairwise (· ≤ ·)

/-- Parent relation of split points. -/
def SRel (sp : List Int) (c p : Nat) : Prop :=
  ∃ a b : Int, sp[p]? = some a ∧ sp[p + 1]? = some b ∧ a ≤ c ∧ (c : Int) < b

theorem SP.mono {sp : List Int} (h : SP sp) {i j : Nat} {a b : Int} (hij : i ≤ j)
    (hi : sp[i]? = some a) (hj : sp[j]? = some b) : a ≤ b := by
  obtain ⟨hi1, hi2⟩ := List.getElem?_eq_some_iff.1 hi
  obtain ⟨hj1, hj2⟩ := List.getElem?_eq_some_iff.1 hj
  rcases Nat.lt_or_eq_of_le hij with hlt | heq
  · have := List.pairwise_iff_getElem.1 h.2 i j hi1 hj1 hlt
    omega
  · subst heq; rw [hi] at hj; simp at hj; omega

theorem SP.zero {sp : List Int} (h : SP sp) : sp[0]? = some 0 := by
  rw [← List.head?_eq_getElem?]; exact h.1

theorem SP.nonneg {sp : List Int} (h : SP sp) {i : Nat} {a : Int} (hi : sp[i]? = some a) : 0 ≤ a :=
  h.mono (Nat.zero_le i) h.zero hi

theorem srel_exists_aux {sp : List Int} (h : SP sp) {c : Nat} : ∀ (n : Nat) (b : Int),
    sp[n]? = some b → (c : Int) < b → ∃ p, p < n ∧ SRel sp c p := by
  intro n
  induction n with
  | zero => intro b hb hc; rw [h.zero] at hb; simp at hb; omega
  | succ n ih =>
    intro b hb hc
    have hl : n + 1 < sp.length := (List.getElem?_eq_some_iff.1 hb).1
    have hn : sp[n]? = some sp[n] := List.getElem?_eq_getElem (by omega)
    by_cases hlt : (c : Int) < sp[n]
    · obtain ⟨p, hp, hr⟩ := ih _ hn hlt
      exact ⟨p, by omega, hr⟩
    · exact ⟨n, by omega, _, _, hn, hb, by omega, hc⟩

theorem srel_exists {sp : List Int} (h : SP sp) {c : Nat} {m : Int} (hm : sp.getLast? = some m)
    (hc : (c : Int) < m) : ∃ p, SRel sp c p := by
  rw [List.getLast?_eq_getElem?] at hm
  obtain ⟨p, _, hp⟩ := srel_exists_aux h _ _ hm hc
  exact ⟨p, hp⟩

theorem srel_lt {sp : List Int} (h : SP sp) {c p : Nat} {m : Int} (hm : sp.getLast? = some m)
    (hr : SRel sp c p) : (c : Int) < m := by
  obtain ⟨a, b, h1, h2, h3, h4⟩ := hr
  rw [List.getLast?_eq_getElem?] at hm
  have hl : p + 1 < sp.length := (List.getElem?_eq_some_iff.1 h2).1
  have := h.mono (by omega) h2 hm
  omega

theorem srel_unique {sp : List Int} (h : SP sp) {c p q : Nat} (hp : SRel sp c p) (hq : SRel sp c q) :
    p = q := by
  obtain ⟨a, b, h1, h2, h3, h4⟩ := hp
  obtain ⟨a', b', h1', h2', h3', h4'⟩ := hq
  rcases Nat.lt_trichotomy p q with hlt | heq | hgt
  · have := h.mono (show p + 1 ≤ q by omega) h2 h1'; omega
  · exact heq
  · have := h.mono (show q + 1 ≤ p by omega) h2' h1; omega

theorem srel_mono {sp : List Int} (h : SP sp) {c c' p q : Nat} (hc : c ≤ c') (hp : SRel sp c p)
    (hq : SRel sp c' q) : p ≤ q := by
  obtain ⟨a, b, h1, h2, h3, h4⟩ := hp
  obtain ⟨a', b', h1', h2', h3', h4'⟩ := hq
  rcases Nat.lt_or_ge q p with hlt | hge
  · have := h.mono (show q + 1 ≤ p by omega) h2' h1; omega
  · exact hge

theorem srel_not_lt {sp sp' : List Int} (h : SP sp) (h' : SP sp') {m : Int}
    (hm' : sp'.getLast? = some m) (hr : ∀ c p, SRel sp c p ↔ SRel sp' c p) {i : Nat} {a b : Int}
    (ha : sp[i]? = some a) (hb : sp'[i]? = some b) : ¬ a < b := by
  intro hlt
  have h0 := h.nonneg ha
  obtain ⟨c, rfl⟩ := Int.eq_ofNat_of_zero_le h0
  have hil : i < sp'.length := (List.getElem?_eq_some_iff.1 hb).1
  rw [List.getLast?_eq_getElem?] at hm'
  obtain ⟨p, hp⟩ := srel_exists_aux h' i b hb (c := c) (by omega)
  obtain ⟨hpi, a1, b1, x1, x2, x3, x4⟩ := hp
  obtain ⟨a2, b2, y1, y2, y3, y4⟩ := (hr c p).2 ⟨a1, b1, x1, x2, x3, x4⟩
  have := h.mono (show p + 1 ≤ i by omega) y2 ha
  omega

/-- Split points are determined by the relation and the sizes. -/
theorem srel_inj {sp sp' : List Int} (h : SP sp) (h' : SP sp') (hl : sp.length = sp'.length) {m : Int}
    (hm : sp.getLast? = some m) (hm' : sp'.getLast? = some m)
    (hr : ∀ c p, SRel sp c p ↔ SRel sp' c p) : sp = sp' := by
  apply List.ext_getElem hl
  intro i h1 h2
  have e1 := List.getElem?_eq_getElem h1
  have e2 := List.getElem?_eq_getElem h2
  have := srel_not_lt h h' hm' hr e1 e2
  have := srel_not_lt h' h hm (fun c p => (hr c p).symm) e2 e1
  omega

/-! ## Full arrays -/

theorem full_elems {a : DArr Int} {sp : List Int} (h : elems a = sp.map some) : a.values = sp := by
  have hl : a.values.length = sp.length := by
    rw [← elems_length, h, List.length_map]
  apply List.ext_getElem hl
  intro i h1 h2
  have := congrArg (fun l => l[i]?) h
  simp only [elems_get?, if_pos h1, List.getElem?_map, List.getElem?_eq_getElem h2] at this
  rw [elem_eq] at this
  split at this
  · rw [List.getElem?_eq_getElem h1] at this
    simpa using this
  · simp at this

theorem elems_of_full {a : DArr Int} (h : ∀ x ∈ elems a, x.isSome = true) :
    elems a = a.values.map some := by
  apply List.ext_getElem?
  intro i
  rw [elems_get?, List.getElem?_map]
  by_cases hi : i < a.values.length
  · rw [if_pos hi]
    have : (elem a i).isSome = true := by
      apply h
      rw [List.mem_iff_getElem?]
      exact ⟨i, by rw [elems_get?, if_pos hi]⟩
    rw [isSome_elem hi] at this
    rw [elem_eq, this, List.getElem?_eq_getElem hi]; rfl
  · rw [if_neg hi, List.getElem?_eq_none (by omega)]; rfl

theorem elem_full {a : DArr Int} (h : elems a = a.values.map some) (i : Nat) :
    elem a i = a.values[i]? := by
  by_cases hi : i < a.values.length
  · have := congrArg (fun l => l[i]?) h
    simp only [elems_get?, if_pos hi, List.getElem?_map, List.getElem?_eq_getElem hi] at this
    simpa [List.getElem?_eq_getElem hi] using this
  · rw [elem_eq, List.getElem?_eq_none (by omega)]; split <;> rfl

theorem elems_nobitmap (vs : List Int) : elems (⟨vs, [], 0⟩ : DArr Int) = vs.map some := by
  apply List.ext_getElem?
  intro i
  rw [elems_get?, List.getElem?_map]
  dsimp only
  by_cases hi : i < vs.length
  · rw [if_pos hi, List.getElem?_eq_getElem hi, elem_eq]
    simp [pres, hi]
  · rw [if_neg hi, List.getElem?_eq_none (by omega)]; rfl

theorem valid_nobitmap (vs : List Int) : (⟨vs, [], 0⟩ : DArr Int).Valid := ⟨by show 0 < 32; decide, Or.inl rfl⟩

/-! ## Well-formed edges -/

theorem wf_split_iff {e : Edge} (ht : e.typ = .splitPoints) :
    WF e ↔ e.values.Valid ∧ elems e.values = e.values.values.map some ∧ SP e.values.values ∧
      e.parentSize + 1 = e.values.values.length ∧ e.values.values.getLast? = some e.childSize := by
  unfold WF
  rw [ht]
  dsimp only
  constructor
  · rintro ⟨hv, ⟨sp, h1, h2, h3⟩, h4, h5⟩
    have := full_elems h1
    subst this
    refine ⟨hv, h1, ⟨h2, h3⟩, by rw [h4, elems_length], ?_⟩
    rw [h1, List.getLast?_map] at h5
    simpa using h5
  · rintro ⟨hv, h1, h2, h3, h4⟩
    refine ⟨hv, ⟨_, h1, h2.1, h2.2⟩, by rw [h3, elems_length], ?_⟩
    rw [h1, List.getLast?_map, h4]; rfl

theorem rel_split_iff {e : Edge} (ht : e.typ = .splitPoints)
    (hf : elems e.values = e.values.values.map some) (c p : Nat) :
    Rel e c p ↔ SRel e.values.values c p := by
  unfold Rel SRel
  rw [ht]
  dsimp only
  rw [elem_full hf, elem_full hf]

theorem wf_map_iff {e : Edge} (ht : e.typ = .mapping) :
    WF e ↔ e.values.Valid ∧ 0 ≤ e.parentSize ∧ e.childSize = e.values.values.length ∧
      ∀ i v, elem e.values i = some v → 0 ≤ v ∧ v < e.parentSize := by
  unfold WF
  rw [ht]
  dsimp only
  rw [elems_length]
  constructor
  · rintro ⟨hv, h1, h2, h3⟩
    refine ⟨hv, h1, h2, ?_⟩
    intro i v hi
    apply h3
    rw [List.mem_iff_getElem?]
    refine ⟨i, ?_⟩
    rw [elems_get?, hi]
    have : i < e.values.values.length := by
      rw [elem_eq] at hi
      split at hi
      · exact (List.getElem?_eq_some_iff.1 hi).1
      · simp at hi
    rw [if_pos this]
  · rintro ⟨hv, h1, h2, h3⟩
    refine ⟨hv, h1, h2, ?_⟩
    intro v hm
    rw [List.mem_iff_getElem?] at hm
    obtain ⟨i, hi⟩ := hm
    rw [elems_get?] at hi
    split at hi
    · exact h3 i v (by simpa using hi)
    · simp at hi

theorem rel_map_iff {e : Edge} (ht : e.typ = .mapping) (c p : Nat) :
    Rel e c p ↔ elem e.values c = some (p : Int) := by unfold Rel; rw [ht]

theorem wf_sizes {e : Edge} (h : WF e) : 0 ≤ e.parentSize ∧ 0 ≤ e.childSize := by
  cases ht : e.typ with
  | mapping =>
    obtain ⟨_, h1, h2, _⟩ := (wf_map_iff ht).1 h
    omega
  | splitPoints =>
    obtain ⟨_, _, h3, h4, h5⟩ := (wf_split_iff ht).1 h
    have hz := (List.getElem?_eq_some_iff.1 h3.zero).1
    rw [List.getLast?_eq_getElem?] at h5
    have := h3.nonneg h5
    omega

theorem rel_unique {e : Edge} (h : WF e) {c p q : Nat} (h1 : Rel e c p) (h2 : Rel e c q) : p = q := by
  cases ht : e.typ with
  | mapping =>
    rw [rel_map_iff ht] at h1 h2
    rw [h1] at h2
    simp at h2; omega
  | splitPoints =>
    obtain ⟨_, hf, h3, _, _⟩ := (wf_split_iff ht).1 h
    rw [rel_split_iff ht hf] at h1 h2
    exact srel_unique h3 h1 h2

theorem rel_bounds {e : Edge} (h : WF e) {c p : Nat} (hr : Rel e c p) :
    (c : Int) < e.childSize ∧ (p : Int) < e.parentSize := by
  cases ht : e.typ with
  | mapping =>
    obtain ⟨_, h1, h2, h3⟩ := (wf_map_iff ht).1 h
    rw [rel_map_iff ht] at hr
    refine ⟨?_, (h3 _ _ hr).2⟩
    rw [elem_eq] at hr
    split at hr
    · have := (List.getElem?_eq_some_iff.1 hr).1; omega
    · simp at hr
  | splitPoints =>
    obtain ⟨_, hf, h3, h4, h5⟩ := (wf_split_iff ht).1 h
    rw [rel_split_iff ht hf] at hr
    refine ⟨srel_lt h3 h5 hr, ?_⟩
    obtain ⟨a, b, x1, x2, _, _⟩ := hr
    have := (List.getElem?_eq_some_iff.1 x2).1
    omega

/-! ## Factories -/

theorem isSorted_iff : ∀ (xs : List Int), isSorted xs = true ↔ xs.Pairwise (· ≤ ·) := by
  intro xs
  induction xs with
  | nil => simp [isSorted]
  | cons a t ih =>
    cases t with
    | nil => simp [isSorted]
    | cons b t =>
      rw [isSorted, Bool.and_eq_true, ih, Bool.not_eq_true', decide_eq_false_iff_not,
        List.pairwise_cons (a := a)]
      constructor
      · rintro ⟨h1, h2⟩
        refine ⟨?_, h2⟩
        intro x hx
        rcases List.mem_cons.1 hx with rfl | hx
        · omega
        · have := (List.pairwise_cons.1 h2).1 x hx; omega
      · rintro ⟨h1, h2⟩
        have := h1 b (by simp)
        exact ⟨by omega, h2⟩

theorem fromSplitPoints_spec {sp : DArr Int} (hv : sp.Valid) :
    (SplitOk (elems sp) → ∃ e, fromSplitPoints sp = some (.ok e) ∧ e.typ = .splitPoints ∧
      e.values = sp ∧ WF e) ∧
    (¬ SplitOk (elems sp) → ∃ m, fromSplitPoints sp = some (.error m)) := by
  obtain ⟨⟨b, hb1, hb2⟩, _⟩ := presence_queries sp hv
  have hok : SplitOk (elems sp) ↔ b = true ∧ SP sp.values := by
    rw [hb2]
    constructor
    · rintro ⟨xs, h1, h2, h3⟩
      have := full_elems h1
      subst this
      refine ⟨?_, h2, h3⟩
      rw [h1]; simp
    · rintro ⟨h1, h2⟩
      exact ⟨_, elems_of_full h1, h2.1, h2.2⟩
  rw [hok]
  unfold fromSplitPoints
  rw [hb1]
  simp only [Option.bind_eq_bind, Option.bind_some]
  have hsz : sp.size = sp.values.length := rfl
  rw [hsz]
  cases b with
  | false =>
    rw [if_pos (by rfl)]
    exact ⟨fun h => by simp at h, fun _ => ⟨_, rfl⟩⟩
  | true =>
    rw [if_neg (by simp)]
    simp only [true_and]
    have hf := elems_of_full (hb2.1 rfl)
    by_cases h0 : sp.values.length = 0
    · rw [if_pos h0]
      refine ⟨?_, fun _ => ⟨_, rfl⟩⟩
      intro h
      have := (List.getElem?_eq_some_iff.1 h.zero).1
      omega
    · rw [if_neg h0, List.getElem?_eq_getElem (by omega)]
      simp only [Option.bind_some]
      by_cases h1 : sp.values[0] = 0
      · rw [if_neg (by simpa using h1), List.getLast?_eq_getElem?,
          List.getElem?_eq_getElem (by omega)]
        simp only [Option.bind_some]
        cases hs : isSorted sp.values with
        | false =>
          rw [if_pos (by rfl)]
          refine ⟨?_, fun _ => ⟨_, rfl⟩⟩
          intro h
          rw [(isSorted_iff _).2 h.2] at hs
          simp at hs
        | true =>
          rw [if_neg (by simp)]
          have hsp : SP sp.values := by
            refine ⟨?_, (isSorted_iff _).1 hs⟩
            rw [List.head?_eq_getElem?, List.getElem?_eq_getElem (by omega), h1]
          refine ⟨fun _ => ⟨_, rfl, rfl, rfl, ?_⟩, fun h => absurd hsp h⟩
          rw [wf_split_iff rfl]
          refine ⟨hv, hf, hsp, by dsimp only; omega, ?_⟩
          dsimp only
          rw [List.getLast?_eq_getElem?, List.getElem?_eq_getElem (by omega)]
      · rw [if_pos (by simpa using h1)]
        refine ⟨?_, fun _ => ⟨_, rfl⟩⟩
        intro h
        have := h.zero
        rw [List.getElem?_eq_getElem (by omega)] at this
        simp at this
        exact absurd this h1

theorem mappingStep_fold : ∀ (xs : List (Nat × Bool × Int)) (m : Int) (n : Bool),
    let r := xs.foldl mappingStep (m, n)
    (r.2 = true ↔ n = true ∨ ∃ x ∈ xs, x.2.1 = true ∧ x.2.2 < 0) ∧
    (∀ k : Int, k ≤ r.1 ↔ k ≤ m ∨ ∃ x ∈ xs, x.2.1 = true ∧ k ≤ x.2.2) := by
  intro xs
  induction xs with
  | nil => intro m n; simp
  | cons x xs ih =>
    intro m n
    obtain ⟨i, b, v⟩ := x
    cases b with
    | false =>
      have := ih m n
      simpa [mappingStep] using this
    | true =>
      have := ih (max m v) (n || decide (v < 0))
      simp only [List.foldl_cons, mappingStep, if_true, List.mem_cons, exists_eq_or_imp, true_and] at this ⊢
      refine ⟨?_, ?_⟩
      · rw [this.1]; simp [or_assoc]
      · intro k; rw [this.2 k, ← or_assoc]; apply or_congr_left; omega

theorem fromMapping_spec {m : DArr Int} (hv : m.Valid) (n : Int) :
    (0 ≤ n ∧ MapOk (elems m) n → ∃ e, fromMapping m n = some (.ok e) ∧ e.typ = .mapping ∧
      e.values = m ∧ e.parentSize = n ∧ WF e) ∧
    (¬ (0 ≤ n ∧ MapOk (elems m) n) → ∃ msg, fromMapping m n = some (.error msg)) := by
  unfold fromMapping
  by_cases hn : n < 0
  · rw [if_pos hn]
    exact ⟨fun h => by omega, fun _ => ⟨_, rfl⟩⟩
  · rw [if_neg hn, forEach_visits hv]
    simp only [Option.bind_eq_bind, Option.bind_some]
    obtain ⟨h1, h2⟩ := mappingStep_fold (visits m) (-1) false
    -- present visited values are the present elements
    have hmem : ∀ v, (∃ x ∈ visits m, x.2.1 = true ∧ x.2.2 = v) ↔ some v ∈ elems m := by
      intro v
      have hve := visits_elems m
      have : some v ∈ elems m ↔ ∃ i, (i, some v) ∈ (List.range m.values.length).map
          (fun i => (i, elem m i)) := by
        unfold elems
        simp only [List.mem_map, List.mem_range, Prod.mk.injEq]
        constructor
        · rintro ⟨a, h1, h2⟩
          exact ⟨a, a, h1, rfl, h2⟩
        · rintro ⟨i, a, h1, _, h2⟩
          exact ⟨a, h1, h2⟩
      rw [this, ← hve]
      constructor
      · rintro ⟨⟨i, b, w⟩, hx, hb, rfl⟩
        refine ⟨i, ?_⟩
        rw [List.mem_map]
        dsimp only at hb
        exact ⟨_, hx, by simp [hb]⟩
      · rintro ⟨i, hi⟩
        rw [List.mem_map] at hi
        obtain ⟨⟨j, b, w⟩, hx, he⟩ := hi
        cases b with
        | false => simp at he
        | true =>
          simp at he
          exact ⟨_, hx, rfl, he.2⟩
    have hok : MapOk (elems m) n ↔ ¬ (((visits m).foldl mappingStep (-1, false)).2 = true) ∧
        ¬ (n ≤ ((visits m).foldl mappingStep (-1, false)).1) := by
      rw [h1, h2 n]
      unfold MapOk
      constructor
      · intro h
        refine ⟨?_, ?_⟩
        · rintro (h | ⟨x, hx, hb, hl⟩)
          · cases h
          · have := h x.2.2 ((hmem _).1 ⟨x, hx, hb, rfl⟩); omega
        · rintro (h | ⟨x, hx, hb, hl⟩)
          · omega
          · have := h x.2.2 ((hmem _).1 ⟨x, hx, hb, rfl⟩); omega
      · rintro ⟨g1, g2⟩ v hvm
        obtain ⟨x, hx, hb, rfl⟩ := (hmem v).2 hvm
        refine ⟨?_, ?_⟩
        · rcases Int.lt_or_le x.2.2 0 with hl | hl
          · exact absurd (Or.inr ⟨x, hx, hb, hl⟩) g1
          · exact hl
        · rcases Int.lt_or_le x.2.2 n with hl | hl
          · exact hl
          · exact absurd (Or.inr ⟨x, hx, hb, hl⟩) g2
    rw [hok]
    by_cases hneg : ((visits m).foldl mappingStep (-1, false)).2 = true
    · rw [if_pos hneg]
      exact ⟨fun h => absurd hneg h.2.1, fun _ => ⟨_, rfl⟩⟩
    · rw [if_neg hneg]
      by_cases hmax : n ≤ ((visits m).foldl mappingStep (-1, false)).1
      · rw [if_pos hmax]
        exact ⟨fun h => absurd hmax h.2.2, fun _ => ⟨_, rfl⟩⟩
      · rw [if_neg hmax]
        refine ⟨fun _ => ⟨_, rfl, rfl, rfl, rfl, ?_⟩, fun h => absurd ⟨by omega, hneg, hmax⟩ h⟩
        exact ⟨hv, by dsimp only [unsafeFromMapping]; omega, by
          dsimp only [unsafeFromMapping]; rw [elems_length]; rfl, hok.2 ⟨hneg, hmax⟩⟩

theorem mul_le_of {i n g : Int} (hi : i ≤ n) (hg : 0 ≤ g) : i * g ≤ n * g :=
  Int.mul_le_mul_of_nonneg_right hi hg

theorem fromUniformGroups_spec {n g : Int} (hn : n < maxI64) :
    (0 ≤ n ∧ 0 ≤ g ∧ n * g ≤ maxI64 → ∃ e, fromUniformGroups n g = some (.ok e) ∧
      e.typ = .splitPoints ∧ e.parentSize = n ∧ e.childSize = n * g ∧ WF e ∧
      ∀ c p, Rel e c p ↔ ((p : Int) < n ∧ p * g ≤ c ∧ (c : Int) < p * g + g)) ∧
    (¬ (0 ≤ n ∧ 0 ≤ g ∧ n * g ≤ maxI64) → ∃ m, fromUniformGroups n g = some (.error m)) := by
  unfold fromUniformGroups
  by_cases h1 : n < 0 ∨ g < 0
  · rw [if_pos h1]
    exact ⟨fun h => by omega, fun _ => ⟨_, rfl⟩⟩
  · rw [if_neg h1]
    have hn0 : 0 ≤ n := by omega
    have hg0 : 0 ≤ g := by omega
    have hng : 0 ≤ n * g := Int.mul_nonneg hn0 hg0
    by_cases h2 : n * g ≤ maxI64
    · have : mulOverflows n g = false := by
        unfold mulOverflows
        rw [decide_eq_true ⟨by omega, h2⟩]; rfl
      rw [this, if_neg (by simp)]
      have hchk : chk (n + 1) = some (n + 1) := by
        unfold chk
        rw [if_pos]; omega
      rw [hchk]
      simp only [Option.bind_eq_bind, Option.bind_some]
      have hsp : (List.range (n + 1).toNat).mapM (fun (i : Nat) => chk (i * g)) =
          some ((List.range (n + 1).toNat).map (fun (i : Nat) => (i * g : Int))) := by
        apply mapM_some
        intro i hi
        rw [List.mem_range] at hi
        have hle : (i : Int) * g ≤ n * g := mul_le_of (by omega) hg0
        have hge : 0 ≤ (i : Int) * g := Int.mul_nonneg (by omega) hg0
        unfold chk
        rw [if_pos]; omega
      rw [hsp]
      simp only [Option.bind_some]
      have hlen : ((List.range (n + 1).toNat).map (fun (i : Nat) => (i * g : Int))).length =
          n.toNat + 1 := by simp; omega
      have hget : ∀ i, ((List.range (n + 1).toNat).map (fun (i : Nat) => (i * g : Int)))[i]? =
          if i < n.toNat + 1 then some (i * g : Int) else none := by
        intro i
        rw [List.getElem?_map]
        by_cases hi : i < n.toNat + 1
        · rw [List.getElem?_range (by omega), if_pos hi]; rfl
        · rw [List.getElem?_eq_none (by simp; omega), if_neg hi]; rfl
      have hlast : ((List.range (n + 1).toNat).map (fun (i : Nat) => (i * g : Int))).getLast? =
          some (n * g) := by
        rw [List.getLast?_eq_getElem?, hlen, hget, if_pos (by omega)]
        rw [show n.toNat + 1 - 1 = n.toNat by omega, Int.toNat_of_nonneg hn0]
      unfold unsafeFromSplitPoints
      dsimp only
      rw [hlast]
      simp only [Option.bind_some, Option.bind_eq_bind]
      have hf := elems_nobitmap ((List.range (n + 1).toNat).map (fun (i : Nat) => (i * g : Int)))
      refine ⟨fun _ => ⟨_, rfl, rfl, ?_, rfl, ?_, ?_⟩, fun h => absurd ⟨hn0, hg0, h2⟩ h⟩
      · dsimp only [DArr.size]; rw [hlen]; omega
      · rw [wf_split_iff rfl]
        refine ⟨valid_nobitmap _, hf, ⟨?_, ?_⟩, ?_, hlast⟩
        · dsimp only
          rw [List.head?_eq_getElem?, hget, if_pos (by omega)]; simp
        · dsimp only
          rw [List.pairwise_map]
          apply List.Pairwise.imp _ List.pairwise_lt_range
          intro a b hab
          exact mul_le_of (by omega) hg0
        · dsimp only [DArr.size]; rw [hlen]; omega
      · intro c p
        rw [rel_split_iff rfl hf]
        unfold SRel
        dsimp only
        rw [hget, hget]
        have hmul : ((p + 1 : Nat) : Int) * g = p * g + g := by
          rw [Int.natCast_add, Int.add_mul]; simp
        constructor
        · rintro ⟨a, b, x1, x2, x3, x4⟩
          split at x2
          · rw [if_pos (by omega)] at x1
            simp only [Option.some.injEq] at x1 x2
            rw [hmul] at x2
            refine ⟨by omega, by omega, by omega⟩
          · simp at x2
        · rintro ⟨x1, x2, x3⟩
          refine ⟨_, _, by rw [if_pos (by omega)], by rw [if_pos (by omega)], x2, ?_⟩
          rw [hmul]; exact x3
    · have : mulOverflows n g = true := by
        unfold mulOverflows
        rw [decide_eq_false (by omega)]; rfl
      rw [this, if_pos rfl]
      exact ⟨fun h => absurd h.2.2 h2, fun _ => ⟨_, rfl⟩⟩

/-! ## ToMappingEdge -/

theorem fill_spec {buf : List Int} {lo hi v : Int} (h1 : 0 ≤ lo) (h2 : lo ≤ hi)
    (h3 : hi ≤ buf.length) :
    ∃ r, fill buf lo hi v = some r ∧ r.length = buf.length ∧
      ∀ c : Nat, r[c]? = if lo ≤ c ∧ (c : Int) < hi then some v else buf[c]? := by
  unfold fill
  rw [if_pos ⟨h1, h2, h3⟩]
  have hl1 : (buf.take lo.toNat).length = lo.toNat := by rw [List.length_take]; omega
  refine ⟨_, rfl, by simp; omega, ?_⟩
  intro c
  by_cases hc1 : (c : Int) < lo
  · rw [if_neg (by omega), List.append_assoc, List.getElem?_append_left (by omega),
      List.getElem?_take, if_pos (by omega)]
  · by_cases hc2 : (c : Int) < hi
    · rw [if_pos ⟨by omega, hc2⟩, List.append_assoc, List.getElem?_append_right (by omega),
        List.getElem?_append_left (by simp; omega), List.getElem?_replicate, if_pos (by omega)]
    · rw [if_neg (by omega), List.getElem?_append_right (by simp; omega), List.getElem?_drop]
      congr 1
      simp
      omega

theorem fillLoop_spec {sp : List Int} (h : SP sp) {m : Int} (hm : sp.getLast? = some m) :
    ∀ (n p : Nat) (buf : List Int), p + n + 1 = sp.length → (buf.length : Int) = m →
    ∃ r, fillLoop sp p n buf = some r ∧ r.length = buf.length ∧
      (∀ (c : Nat) (a : Int), sp[p]? = some a → (c : Int) < a → r[c]? = buf[c]?) ∧
      ∀ c q, p ≤ q → SRel sp c q → r[c]? = some (q : Int) := by
  intro n
  induction n with
  | zero =>
    intro p buf hp hb
    refine ⟨buf, rfl, rfl, fun _ _ _ _ => rfl, ?_⟩
    rintro c q hq ⟨a, b, x1, x2, _, _⟩
    have := (List.getElem?_eq_some_iff.1 x2).1
    omega
  | succ n ih =>
    intro p buf hp hb
    obtain ⟨s1, e1⟩ : ∃ s1, sp[p]? = some s1 := ⟨_, List.getElem?_eq_getElem (by omega)⟩
    obtain ⟨s2, e2⟩ : ∃ s2, sp[p + 1]? = some s2 := ⟨_, List.getElem?_eq_getElem (by omega)⟩
    rw [fillLoop, e1, e2]
    simp only [Option.bind_eq_bind, Option.bind_some]
    have hm' := hm
    rw [List.getLast?_eq_getElem?] at hm'
    have g1 := h.nonneg e1
    have g2 := h.mono (Nat.le_succ p) e1 e2
    have g3 := h.mono (show p + 1 ≤ sp.length - 1 by omega) e2 hm'
    obtain ⟨b1, f1, f2, f3⟩ := fill_spec (buf := buf) (v := (p : Int)) g1 g2 (by omega)
    rw [f1]
    simp only [Option.bind_some]
    obtain ⟨r, i1, i2, i3, i4⟩ := ih (p + 1) b1 (by omega) (by omega)
    refine ⟨r, i1, by omega, ?_, ?_⟩
    · intro c a ha hc
      simp only [Option.some.injEq] at ha
      rw [i3 c _ e2 (by omega), f3 c, if_neg (by omega)]
    · intro c q hq hr
      by_cases hpq : q = p
      · subst hpq
        obtain ⟨a, b, x1, x2, x3, x4⟩ := hr
        rw [e1] at x1
        rw [e2] at x2
        simp only [Option.some.injEq] at x1 x2
        rw [i3 c _ e2 (by omega), f3 c, if_pos (by omega)]
      · exact i4 c q (by omega) hr

theorem toMapping_spec (mem : Nat → Int) {e : Edge} (h : WF e) :
    ∃ r, toMappingEdge mem e = some r ∧ r.typ = .mapping ∧ WF r ∧ r.parentSize = e.parentSize ∧
      r.childSize = e.childSize ∧ ∀ c p, Rel r c p ↔ Rel e c p := by
  unfold toMappingEdge
  cases ht : e.typ with
  | mapping => exact ⟨e, rfl, ht, h, rfl, rfl, fun _ _ => Iff.rfl⟩
  | splitPoints =>
    dsimp only
    have hsz := wf_sizes h
    obtain ⟨hv, hf, h3, h4, h5⟩ := (wf_split_iff ht).1 h
    obtain ⟨r, e1, e2, _, e4⟩ := fillLoop_spec h3 h5 e.parentSize.toNat 0
      (uninit mem e.childSize.toNat) (by omega) (by simp [uninit]; omega)
    rw [e1]
    simp only [Option.bind_eq_bind, Option.bind_some]
    have hlen : (r.length : Int) = e.childSize := by rw [e2]; simp [uninit]; omega
    have hget : ∀ c p : Nat, r[c]? = some (p : Int) ↔ SRel e.values.values c p := by
      intro c p
      constructor
      · intro hr
        have hc := (List.getElem?_eq_some_iff.1 hr).1
        obtain ⟨q, hq⟩ := srel_exists h3 h5 (c := c) (by omega)
        have := e4 c q (Nat.zero_le _) hq
        rw [hr] at this
        simp only [Option.some.injEq] at this
        have : p = q := by omega
        rw [this]; exact hq
      · exact fun hr => e4 c p (Nat.zero_le _) hr
    have hfr := elems_nobitmap r
    refine ⟨_, rfl, rfl, ?_, rfl, ?_, ?_⟩
    · rw [wf_map_iff rfl]
      refine ⟨valid_nobitmap r, hsz.1, rfl, ?_⟩
      intro i v hi
      simp only [unsafeFromMapping] at hi ⊢
      rw [elem_full hfr] at hi
      dsimp only at hi
      have hc := (List.getElem?_eq_some_iff.1 hi).1
      obtain ⟨q, hq⟩ := srel_exists h3 h5 (c := i) (by omega)
      have := e4 i q (Nat.zero_le _) hq
      rw [hi] at this
      simp only [Option.some.injEq] at this
      have hb := rel_bounds h ((rel_split_iff ht hf i q).2 hq)
      omega
    · simp only [unsafeFromMapping, DArr.size]; exact hlen
    · intro c p
      rw [rel_map_iff rfl, rel_split_iff ht hf, ← hget]
      simp only [unsafeFromMapping]
      rw [elem_full hfr]

end Verif.Edge
