import Verif.EdgeOps.EdgeOpsModel
import Verif.EdgeOps.EdgeOpsSpec
import Verif.Edge.ConvLemmas

/-! Prefix sums, filled buffers, and `edge.from_sizes`. -/

namespace Verif.EdgeOps
open Verif.Bits Verif.Bitmap Verif.Dense Verif.Edge

/-! ## Prefix sums -/

/-- Prefix sums starting with `b`. -/
def sums : Nat → List Nat → List Int
  | b, [] => [(b : Int)]
  | b, n :: ns => (b : Int) :: sums (b + n) ns

theorem sums_length : ∀ (ns : List Nat) (b : Nat), (sums b ns).length = ns.length + 1 := by
  intro ns
  induction ns with
  | nil => intro b; rfl
  | cons n ns ih => intro b; rw [sums, List.length_cons, ih, List.length_cons]

theorem sums_last : ∀ (ns : List Nat) (b : Nat), (sums b ns).getLast? = some ((b + ns.sum : Nat) : Int) := by
  intro ns
  induction ns with
  | nil => intro b; simp [sums]
  | cons n ns ih =>
    intro b
    rw [sums, List.getLast?_cons, ih]
    simp only [List.sum_cons, Option.getD_some]
    rw [Nat.add_assoc]

theorem sums_ge : ∀ (ns : List Nat) (b : Nat) (x : Int), x ∈ sums b ns → (b : Int) ≤ x := by
  intro ns
  induction ns with
  | nil => intro b x h; simp [sums] at h; omega
  | cons n ns ih =>
    intro b x h
    rw [sums, List.mem_cons] at h
    rcases h with h | h
    · omega
    · have := ih _ _ h; push_cast at this; omega

theorem sums_sorted : ∀ (ns : List Nat) (b : Nat), (sums b ns).Pairwise (· ≤ ·) := by
  intro ns
  induction ns with
  | nil => intro b; simp [sums]
  | cons n ns ih =>
    intro b
    rw [sums, List.pairwise_cons]
    refine ⟨?_, ih _⟩
    intro x hx
    have := sums_ge _ _ _ hx; push_cast at this; omega

theorem sums_head (ns : List Nat) (b : Nat) : (sums b ns)[0]? = some (b : Int) := by
  cases ns <;> simp [sums]

theorem sums_sp (ns : List Nat) : SP (sums 0 ns) := by
  refine ⟨?_, sums_sorted _ _⟩
  rw [List.head?_eq_getElem?, sums_head]; rfl

theorem sums_get : ∀ (ns : List Nat) (b g : Nat), g ≤ ns.length →
    (sums b ns)[g]? = some ((b + (ns.take g).sum : Nat) : Int) := by
  intro ns
  induction ns with
  | nil => intro b g h; simp at h; subst h; simp [sums]
  | cons n ns ih =>
    intro b g h
    cases g with
    | zero => simp [sums]
    | succ g =>
      rw [sums, List.getElem?_cons_succ, ih _ _ (by simpa using h)]
      simp only [List.take_succ_cons, List.sum_cons]
      rw [Nat.add_assoc]

/-- Split points given by prefix sums relate child `c` to its owner. -/
theorem srel_sums : ∀ (ns : List Nat) (b i c p : Nat),
    SRel (sums b ns) c p ↔ b ≤ c ∧ (ownersFrom i ns)[c - b]? = some (i + p) := by
  intro ns
  induction ns with
  | nil =>
    intro b i c p
    unfold SRel
    simp [sums, ownersFrom]
  | cons n ns ih =>
    intro b i c p
    rw [ownersFrom]
    cases p with
    | zero =>
      have h0 : SRel (sums b (n :: ns)) c 0 ↔ b ≤ c ∧ c < b + n := by
        unfold SRel
        rw [sums, List.getElem?_cons_zero, List.getElem?_cons_succ, sums_head]
        constructor
        · rintro ⟨x, y, h1, h2, h3, h4⟩
          simp only [Option.some.injEq] at h1 h2
          omega
        · rintro ⟨h1, h2⟩
          exact ⟨_, _, rfl, rfl, by omega, by omega⟩
      rw [h0]
      constructor
      · rintro ⟨h1, h2⟩
        refine ⟨h1, ?_⟩
        rw [List.getElem?_append_left (by simp; omega), List.getElem?_replicate, if_pos (by omega)]
        rfl
      · rintro ⟨h1, h2⟩
        refine ⟨h1, ?_⟩
        by_contra hc
        rw [List.getElem?_append_right (by simp; omega)] at h2
        have hm := List.mem_of_getElem? h2
        have : ∀ (ms : List Nat) (j x : Nat), x ∈ ownersFrom j ms → j ≤ x := by
          intro ms
          induction ms with
          | nil => intro j x h; simp [ownersFrom] at h
          | cons m ms ih =>
            intro j x h
            rw [ownersFrom, List.mem_append] at h
            rcases h with h | h
            · have := List.eq_of_mem_replicate h; omega
            · have := ih _ _ h; omega
        have := this _ _ _ hm
        omega
    | succ p =>
      have h0 : SRel (sums b (n :: ns)) c (p + 1) ↔ SRel (sums (b + n) ns) c p := by
        unfold SRel
        rw [sums]
        simp only [List.getElem?_cons_succ]
      rw [h0, ih (b + n) (i + 1)]
      constructor
      · rintro ⟨h1, h2⟩
        refine ⟨by omega, ?_⟩
        rw [List.getElem?_append_right (by simp; omega), List.length_replicate,
          show c - b - n = c - (b + n) by omega, h2]
        congr 1; omega
      · rintro ⟨h1, h2⟩
        by_cases hc : c < b + n
        · rw [List.getElem?_append_left (by simp; omega), List.getElem?_replicate,
            if_pos (by omega)] at h2
          simp only [Option.some.injEq] at h2; omega
        · refine ⟨by omega, ?_⟩
          rw [List.getElem?_append_right (by simp; omega), List.length_replicate,
            show c - b - n = c - (b + n) by omega] at h2
          rw [h2]; congr 1; omega

theorem srel_owners (ns : List Nat) (c p : Nat) :
    SRel (sums 0 ns) c p ↔ (owners ns)[c]? = some p := by
  rw [srel_sums ns 0 0 c p, owners]
  simp

theorem owners_length (ns : List Nat) : (owners ns).length = ns.sum := by
  have : ∀ (ns : List Nat) (i : Nat), (ownersFrom i ns).length = ns.sum := by
    intro ns
    induction ns with
    | nil => intro i; rfl
    | cons n ns ih => intro i; rw [ownersFrom, List.length_append, ih]; simp
  exact this ns 0

/-! ## Edges given by prefix sums -/

/-- `FromSplitPoints` on prefix sums. -/
theorem fromSplitPoints_sums (ns : List Nat) :
    ∃ e, fromSplitPoints ⟨sums 0 ns, [], 0⟩ = some (.ok e) ∧ WF e ∧ e.typ = .splitPoints ∧
      e.values.values = sums 0 ns ∧ e.parentSize = ns.length ∧ e.childSize = ns.sum ∧
      ∀ c p, Rel e c p ↔ (owners ns)[c]? = some p := by
  have hs := sums_sp ns
  obtain ⟨e, h1, h2, h3, h4⟩ := (fromSplitPoints_spec (valid_nobitmap (sums 0 ns))).1
    ⟨_, elems_nobitmap _, hs.1, hs.2⟩
  obtain ⟨w1, w2, w3, w4, w5⟩ := (wf_split_iff h2).1 h4
  have hval : e.values.values = sums 0 ns := by rw [h3]
  rw [hval, sums_length] at w4
  rw [hval, sums_last] at w5
  refine ⟨e, h1, h4, h2, hval, by push_cast at w4; omega, ?_, ?_⟩
  · simp only [Nat.zero_add, Option.some.injEq] at w5; exact w5.symm
  · intro c p
    rw [rel_split_iff h2 w2, hval, srel_owners]

/-! ## Filled buffers -/

/-- The first `pre.length` elements of the buffer have been added. -/
def Filled (st : List Int × Nat) (pre : List Int) (n : Nat) : Prop :=
  st.1.length = n ∧ st.2 = pre.length ∧ st.1.take pre.length = pre

theorem filled_new (mem : Nat → Int) (n : Nat) : Filled (uninit mem n, 0) [] n := by
  refine ⟨by simp [uninit], rfl, rfl⟩

theorem filled_ins {st : List Int × Nat} {pre : List Int} {n : Nat} (h : Filled st pre n)
    (hl : pre.length < n) (v : Int) : ∃ st', ins st v = some st' ∧ Filled st' (pre ++ [v]) n := by
  obtain ⟨h1, h2, h3⟩ := h
  unfold ins
  rw [wrV_spec (by omega)]
  refine ⟨_, rfl, by simpa using h1, by simp [h2], ?_⟩
  dsimp only
  rw [h2, List.length_append, List.length_singleton, List.take_add_one, List.take_set_of_le (by omega), h3,
    List.getElem?_set_self (by omega)]
  rfl

theorem filled_done {st : List Int × Nat} {pre : List Int} {n : Nat} (h : Filled st pre n)
    (hl : pre.length = n) : st.1 = pre := by
  obtain ⟨h1, h2, h3⟩ := h
  rw [← h3, List.take_of_length_le (by omega)]

theorem chk_ok {x : Int} (h1 : -2 ^ 63 ≤ x) (h2 : x ≤ maxI64) : chk x = some x := by
  unfold chk; rw [if_pos ⟨h1, h2⟩]

theorem newBuffer_ok (mem : Nat → Int) (n : Nat) : newBuffer mem n = some (uninit mem n) := by
  unfold newBuffer; rw [if_neg (by omega)]; simp

/-! ## edge.from_sizes -/

/-- Exact prefix sums of integers. -/
def isums : Int → List Int → List Int
  | c, [] => [c]
  | c, s :: ss => c :: isums (c + s) ss

/-- All prefix sums are representable. -/
def AllR : Int → List Int → Prop
  | _, [] => True
  | c, s :: ss => (-2 ^ 63 ≤ c + s ∧ c + s ≤ maxI64) ∧ AllR (c + s) ss

theorem wrap64_id {x : Int} (h1 : -2 ^ 63 ≤ x) (h2 : x ≤ maxI64) : wrap64 x = x := by
  unfold wrap64
  unfold maxI64 at h2
  rw [Int.emod_eq_of_lt (by omega) (by omega)]
  omega

theorem fromSizesLoop_spec : ∀ (ss : List Int) (i : Nat) (sp : List Int) (o : Bool) (c : Int),
    i + ss.length + 1 = sp.length → sp[i]? = some c →
    ∃ sp' o', fromSizesLoop ss i sp o = some (sp', o') ∧
      (o' = false ↔ o = false ∧ AllR c ss) ∧ (o' = false → sp' = sp.take i ++ isums c ss) := by
  intro ss
  induction ss with
  | nil =>
    intro i sp o c hl hc
    refine ⟨sp, o, rfl, by simp [AllR], ?_⟩
    intro _
    have : sp.take (i + 1) = sp := List.take_of_length_le (by simp at hl; omega)
    rw [List.take_add_one, hc] at this
    rw [isums]
    exact this.symm
  | cons s ss ih =>
    intro i sp o c hl hc
    have hl' : i + 1 < sp.length := by simp at hl; omega
    rw [fromSizesLoop, hc]
    simp only [Option.bind_eq_bind, Option.bind_some]
    rw [wrV_spec hl']
    simp only [Option.bind_some]
    obtain ⟨sp', o', e1, e2, e3⟩ := ih (i + 1) (sp.set (i + 1) (safeAdd c s o).1) (safeAdd c s o).2
      (safeAdd c s o).1 (by rw [List.length_set]; simp at hl; omega) (List.getElem?_set_self hl')
    refine ⟨sp', o', e1, ?_, ?_⟩
    · rw [e2]
      unfold safeAdd outOfRange
      dsimp only
      rw [Bool.or_eq_false_iff, Bool.not_eq_false', decide_eq_true_iff, AllR]
      constructor
      · rintro ⟨⟨h1, h2⟩, h3⟩
        rw [wrap64_id h2.1 h2.2] at h3
        exact ⟨h1, h2, h3⟩
      · rintro ⟨h1, h2, h3⟩
        rw [wrap64_id h2.1 h2.2]
        exact ⟨⟨h1, h2⟩, h3⟩
    · intro h
      have h' := e2.1 h
      have hr : -2 ^ 63 ≤ c + s ∧ c + s ≤ maxI64 := by
        have := h'.1
        unfold safeAdd outOfRange at this
        dsimp only at this
        rw [Bool.or_eq_false_iff, Bool.not_eq_false', decide_eq_true_iff] at this
        exact this.2
      have hw : (safeAdd c s o).1 = c + s := wrap64_id hr.1 hr.2
      rw [e3 h, hw, List.take_set_of_le (by omega), List.take_add_one, hc, isums]
      simp

theorem isums_nat : ∀ (ns : List Nat) (b : Nat), isums b (ns.map (fun n : Nat => (n : Int))) = sums b ns := by
  intro ns
  induction ns with
  | nil => intro b; rfl
  | cons n ns ih =>
    intro b
    rw [List.map_cons, isums, sums]
    have := ih (b + n)
    rw [← this]
    push_cast
    rfl

theorem allR_nat : ∀ (ns : List Nat) (b : Nat), (b : Int) ≤ maxI64 →
    (AllR b (ns.map (fun n : Nat => (n : Int))) ↔ ((b + ns.sum : Nat) : Int) ≤ maxI64) := by
  intro ns
  induction ns with
  | nil => intro b h; simpa [AllR] using h
  | cons n ns ih =>
    intro b h
    rw [List.map_cons, AllR, List.sum_cons]
    by_cases hb : ((b + n : Nat) : Int) ≤ maxI64
    · have := ih (b + n) hb
      push_cast at this ⊢
      rw [this]
      push_cast at hb
      constructor
      · rintro ⟨_, h⟩; omega
      · intro h; exact ⟨⟨by omega, by omega⟩, by omega⟩
    · constructor
      · rintro ⟨⟨_, h1⟩, _⟩; push_cast at hb; omega
      · intro h1; push_cast at hb h1; omega

theorem isums_sorted : ∀ (ss : List Int) (c : Int), (isums c ss).Pairwise (· ≤ ·) →
    ∀ s ∈ ss, 0 ≤ s := by
  intro ss
  induction ss with
  | nil => intro c _ s h; simp at h
  | cons a ss ih =>
    intro c h s hs
    rw [isums, List.pairwise_cons] at h
    rcases List.mem_cons.1 hs with rfl | hs
    · have : c + s ∈ isums (c + s) ss := by cases ss <;> simp [isums]
      have := h.1 _ this
      omega
    · exact ih _ h.2 s hs

theorem nat_list : ∀ (ss : List Int), (∀ s ∈ ss, 0 ≤ s) → ∃ ns : List Nat, ss = ns.map (fun n : Nat => (n : Int)) := by
  intro ss
  induction ss with
  | nil => intro _; exact ⟨[], rfl⟩
  | cons a ss ih =>
    intro h
    obtain ⟨ns, rfl⟩ := ih (fun s hs => h s (by simp [hs]))
    have := h a (by simp)
    exact ⟨a.toNat :: ns, by rw [List.map_cons, Int.toNat_of_nonneg this]⟩

theorem holds_iff {a : DArr Int} {ns : List Nat} : Holds a ns ↔
    elems a = a.values.map some ∧ a.values = ns.map (fun n : Nat => (n : Int)) := by
  unfold Holds
  constructor
  · intro h
    have h' : elems a = (ns.map (fun n : Nat => (n : Int))).map some := by rw [h, List.map_map]; rfl
    have := full_elems h'
    exact ⟨by rw [h', this], this⟩
  · rintro ⟨h1, h2⟩
    rw [h1, h2, List.map_map]; rfl

theorem isFull_cases {a : DArr Int} (hv : a.Valid) :
    (a.isFull = some true ∧ elems a = a.values.map some) ∨
    (a.isFull = some false ∧ elems a ≠ a.values.map some) := by
  obtain ⟨⟨b, hb1, hb2⟩, _⟩ := presence_queries a hv
  cases b with
  | true => exact Or.inl ⟨hb1, elems_of_full (hb2.1 rfl)⟩
  | false =>
    refine Or.inr ⟨hb1, ?_⟩
    intro h
    have : false = true := hb2.2 (by rw [h]; simp)
    simp at this

theorem fromSizes_spec (mem : Nat → Int) {sizes : DArr Int} (hv : sizes.Valid) :
    (∀ ns : List Nat, Holds sizes ns → (ns.sum : Int) ≤ maxI64 →
      fromSizes mem sizes = fromSplitPoints ⟨sums 0 ns, [], 0⟩) ∧
    ((¬ ∃ ns : List Nat, Holds sizes ns ∧ (ns.sum : Int) ≤ maxI64) →
      ∃ m, fromSizes mem sizes = some (.error m)) := by
  rcases isFull_cases hv with ⟨hf, hel⟩ | ⟨hf, hel⟩
  · have hsz : sizes.size = sizes.values.length := rfl
    obtain ⟨sp', o', e1, e2, e3⟩ := fromSizesLoop_spec sizes.values 0
      ((uninit mem (sizes.values.length + 1)).set 0 0) false 0 (by simp [uninit])
      (List.getElem?_set_self (by simp [uninit]))
    have key : fromSizes mem sizes = if o' then some (.error "integer overflow") else
        fromSplitPoints ⟨sp', [], 0⟩ := by
      unfold fromSizes
      rw [hf]
      simp only [Option.bind_eq_bind, Option.bind_some, Bool.not_true, Bool.false_eq_true, if_false]
      rw [hsz, show ((sizes.values.length : Int) + 1) = ((sizes.values.length + 1 : Nat) : Int) by push_cast; rfl,
        newBuffer_ok]
      simp only [Option.bind_some]
      rw [wrV_spec (by simp [uninit])]
      simp only [Option.bind_some]
      rw [e1]
      rfl
    constructor
    · intro ns hns hsum
      obtain ⟨_, hval⟩ := holds_iff.1 hns
      have hA : AllR 0 sizes.values := by
        rw [hval]
        exact (allR_nat ns 0 (by unfold maxI64; omega)).2 (by simpa using hsum)
      have ho := e2.2 ⟨rfl, hA⟩
      rw [key, ho, e3 ho, hval]
      have := isums_nat ns 0
      rw [show ((0 : Nat) : Int) = 0 from rfl] at this
      rw [this]
      rfl
    · intro hn
      rw [key]
      cases ho : o' with
      | true => exact ⟨_, rfl⟩
      | false =>
        have := e3 ho
        simp only [List.take_zero, List.nil_append] at this
        rw [this]
        apply (fromSplitPoints_spec (valid_nobitmap _)).2
        rintro ⟨sp, h1, h2, h3⟩
        rw [elems_nobitmap] at h1
        have h1 := (List.map_inj_right (fun _ _ h => Option.some.inj h)).1 h1
        subst h1
        obtain ⟨ns, hns⟩ := nat_list _ (isums_sorted _ _ h3)
        apply hn
        refine ⟨ns, holds_iff.2 ⟨hel, hns⟩, ?_⟩
        have hA := (e2.1 ho).2
        rw [hns] at hA
        have := (allR_nat ns 0 (by unfold maxI64; omega)).1 hA
        simpa using this
  · constructor
    · intro ns hns _
      exact absurd (holds_iff.1 hns).1 hel
    · intro _
      unfold fromSizes
      rw [hf]
      exact ⟨_, rfl⟩

end Verif.EdgeOps
