import Verif.Edge.EdgeLemmas

/-! `ToSplitPointsEdge` and `IsEquivalentTo`. -/

namespace Verif.Edge
open Verif.Bitmap Verif.Dense

theorem wrV_spec {buf : List Int} {i : Nat} {v : Int} (h : i < buf.length) :
    wrV buf i v = some (buf.set i v) := by unfold wrV; rw [if_pos h]

theorem insN_spec (v : Int) : ∀ (n : Nat) (buf : List Int) (pos : Nat), pos + n ≤ buf.length →
    ∃ r, insN v n (buf, pos) = some (r, pos + n) ∧ r.length = buf.length ∧
      ∀ k, r[k]? = if pos ≤ k ∧ k < pos + n then some v else buf[k]? := by
  intro n
  induction n with
  | zero =>
    intro buf pos _
    refine ⟨buf, rfl, rfl, ?_⟩
    intro k; rw [if_neg (by omega)]
  | succ n ih =>
    intro buf pos h
    rw [insN, ins, wrV_spec (by dsimp only; omega)]
    simp only [Option.bind_eq_bind, Option.bind_some]
    obtain ⟨r, h1, h2, h3⟩ := ih (buf.set pos v) (pos + 1) (by rw [List.length_set]; omega)
    refine ⟨r, by rw [h1, show pos + 1 + n = pos + (n + 1) by omega], by rw [h2, List.length_set], ?_⟩
    intro k
    rw [h3]
    by_cases hk : k = pos
    · subst hk
      rw [if_neg (by omega), if_pos (by omega), List.getElem?_set_self (by omega)]
    · by_cases h4 : pos + 1 ≤ k ∧ k < pos + 1 + n
      · rw [if_pos h4, if_pos (by omega)]
      · rw [if_neg h4, if_neg (by omega), List.getElem?_set_ne (by omega)]

/-- Number of values below `j`. -/
def below (xs : List Int) (j : Nat) : Nat := xs.countP (fun v => decide (v < (j : Int)))

theorem below_append (xs : List Int) (v : Int) (j : Nat) :
    below (xs ++ [v]) j = below xs j + if v < (j : Int) then 1 else 0 := by
  unfold below
  rw [List.countP_append]
  by_cases h : v < (j : Int) <;> simp [h]

theorem below_all {xs : List Int} {j : Nat} (h : ∀ v ∈ xs, v < (j : Int)) : below xs j = xs.length := by
  unfold below
  rw [List.countP_eq_length]
  intro a ha
  simpa using h a ha

theorem splitLoop_spec {n : Nat} : ∀ (rest pre : List Int) (bin : Nat) (buf : List Int),
    (∀ v ∈ rest, 0 ≤ v ∧ v < (n : Int)) → (∀ v ∈ pre, v ≤ (bin : Int)) → bin ≤ n →
    buf.length = n + 1 → (∀ j, j ≤ bin → buf[j]? = some (below pre j : Int)) →
    (((bin : Int) :: rest).Pairwise (· ≤ ·) →
      ∃ (bin' : Nat) (buf' : List Int),
        splitLoop rest pre.length bin (buf, bin + 1) = some (.ok ((bin' : Int), buf', bin' + 1)) ∧
        bin' ≤ n ∧ buf'.length = n + 1 ∧ (∀ v ∈ pre ++ rest, v ≤ (bin' : Int)) ∧
        ∀ j, j ≤ bin' → buf'[j]? = some (below (pre ++ rest) j : Int)) ∧
    (¬ ((bin : Int) :: rest).Pairwise (· ≤ ·) →
      ∃ m, splitLoop rest pre.length bin (buf, bin + 1) = some (.error m)) := by
  intro rest
  induction rest with
  | nil =>
    intro pre bin buf _ h2 h3 h4 h5
    refine ⟨fun _ => ⟨bin, buf, rfl, h3, h4, by simpa using h2, by simpa using h5⟩, fun h => ?_⟩
    simp at h
  | cons v vs ih =>
    intro pre bin buf h1 h2 h3 h4 h5
    have hv := h1 v (by simp)
    rw [splitLoop]
    by_cases hlt : v < (bin : Int)
    · rw [if_pos hlt]
      refine ⟨fun h => ?_, fun _ => ⟨_, rfl⟩⟩
      have := (List.pairwise_cons.1 h).1 v (by simp)
      omega
    · rw [if_neg hlt]
      obtain ⟨w, rfl⟩ := Int.eq_ofNat_of_zero_le hv.1
      have hk : ((w : Int) - (bin : Int)).toNat = w - bin := by omega
      obtain ⟨r, r1, r2, r3⟩ := insN_spec (pre.length : Int) (w - bin) buf (bin + 1) (by omega)
      rw [hk, r1]
      simp only [Option.bind_eq_bind, Option.bind_some]
      have hpos : bin + 1 + (w - bin) = w + 1 := by omega
      have hbin : (bin : Int) + ((w - bin : Nat) : Int) = (w : Int) := by omega
      rw [hpos, hbin]
      have ih' := ih (pre ++ [(w : Int)]) w r (fun x hx => h1 x (List.mem_cons_of_mem _ hx)) (by
          intro x hx
          rw [List.mem_append] at hx
          rcases hx with hx | hx
          · have := h2 x hx; omega
          · simp at hx; omega) (by omega) (by omega) (by
          intro j hj
          rw [r3, below_append, if_neg (show ¬ (w : Int) < (j : Int) by omega), Nat.add_zero]
          by_cases hjb : j ≤ bin
          · rw [if_neg (by omega), h5 j hjb]; rfl
          · rw [if_pos (by omega), below_all (fun x hx => by have := h2 x hx; omega)]; rfl)
      rw [List.length_append, List.length_singleton] at ih'
      have hsort : ((bin : Int) :: (w : Int) :: vs).Pairwise (· ≤ ·) ↔
          ((w : Int) :: vs).Pairwise (· ≤ ·) := by
        rw [List.pairwise_cons (a := (bin : Int))]
        refine ⟨fun h => h.2, fun h => ⟨?_, h⟩⟩
        intro x hx
        rcases List.mem_cons.1 hx with rfl | hx
        · omega
        · have := (List.pairwise_cons.1 h).1 x hx; omega
      rw [hsort]
      have happ : pre ++ (w : Int) :: vs = pre ++ [(w : Int)] ++ vs := by simp
      rw [happ]
      exact ih'

theorem below_iff {xs : List Int} (h : xs.Pairwise (· ≤ ·)) {c : Nat} {v : Int}
    (hc : xs[c]? = some v) (j : Nat) : v < (j : Int) ↔ c < below xs j := by
  induction xs generalizing c with
  | nil => simp at hc
  | cons x xs ih =>
    have h' := List.pairwise_cons.1 h
    cases c with
    | zero =>
      simp at hc
      subst hc
      unfold below
      by_cases hx : x < (j : Int)
      · rw [List.countP_cons_of_pos (by simpa using hx)]; omega
      · have : xs.countP (fun v => decide (v < (j : Int))) = 0 := by
          rw [List.countP_eq_zero]
          intro a ha
          have := h'.1 a ha
          simp; omega
        rw [List.countP_cons_of_neg (by simpa using hx), this]; omega
    | succ c =>
      rw [List.getElem?_cons_succ] at hc
      have := ih h'.2 hc
      unfold below at this ⊢
      by_cases hx : x < (j : Int)
      · rw [List.countP_cons_of_pos (by simpa using hx)]; omega
      · rw [List.countP_cons_of_neg (by simpa using hx)]
        have hm : v ∈ xs := List.mem_of_getElem? hc
        have hxv := h'.1 v hm
        have : xs.countP (fun v => decide (v < (j : Int))) = 0 := by
          rw [List.countP_eq_zero]
          intro a ha
          have := h'.1 a ha
          simp; omega
        rw [this]; omega

theorem below_mono (xs : List Int) {i j : Nat} (h : i ≤ j) : below xs i ≤ below xs j := by
  unfold below
  apply List.countP_mono_left
  intro x _ hx
  simp only [decide_eq_true_eq] at hx ⊢
  omega

theorem below_le (xs : List Int) (j : Nat) : below xs j ≤ xs.length := List.countP_le_length

/-- Totality and monotonicity of a mapping edge in terms of its values. -/
theorem totalMono_map {e : Edge} (ht : e.typ = .mapping) (h : WF e) :
    TotalMono e ↔ elems e.values = e.values.values.map some ∧ e.values.values.Pairwise (· ≤ ·) := by
  obtain ⟨hv, h1, h2, h3⟩ := (wf_map_iff ht).1 h
  constructor
  · rintro ⟨ht1, ht2⟩
    have hf : elems e.values = e.values.values.map some := by
      apply elems_of_full
      intro x hx
      rw [List.mem_iff_getElem?] at hx
      obtain ⟨i, hi⟩ := hx
      rw [elems_get?] at hi
      split at hi
      · obtain ⟨p, hp⟩ := ht1 i (by omega)
        rw [rel_map_iff ht] at hp
        rw [hp] at hi
        simp at hi
        rw [← hi]; rfl
      · simp at hi
    refine ⟨hf, ?_⟩
    rw [List.pairwise_iff_getElem]
    intro i j hi hj hij
    have e1 : elem e.values i = some e.values.values[i] := by
      rw [elem_full hf, List.getElem?_eq_getElem hi]
    have e2 : elem e.values j = some e.values.values[j] := by
      rw [elem_full hf, List.getElem?_eq_getElem hj]
    obtain ⟨p, hp⟩ := Int.eq_ofNat_of_zero_le (h3 _ _ e1).1
    obtain ⟨q, hq⟩ := Int.eq_ofNat_of_zero_le (h3 _ _ e2).1
    have := ht2 i j p q (by omega) ((rel_map_iff ht _ _).2 (by rw [e1, hp]))
      ((rel_map_iff ht _ _).2 (by rw [e2, hq]))
    omega
  · rintro ⟨hf, hs⟩
    refine ⟨?_, ?_⟩
    · intro c hc
      have e1 : elem e.values c = some (e.values.values[c]'(by omega)) := by
        rw [elem_full hf, List.getElem?_eq_getElem]
      obtain ⟨p, hp⟩ := Int.eq_ofNat_of_zero_le (h3 _ _ e1).1
      exact ⟨p, (rel_map_iff ht _ _).2 (by rw [e1, hp])⟩
    · intro c c' p p' hcc hr hr'
      rw [rel_map_iff ht, elem_full hf] at hr hr'
      obtain ⟨x1, x2⟩ := List.getElem?_eq_some_iff.1 hr
      obtain ⟨y1, y2⟩ := List.getElem?_eq_some_iff.1 hr'
      rcases Nat.lt_or_eq_of_le hcc with hlt | rfl
      · have := List.pairwise_iff_getElem.1 hs c c' x1 y1 hlt
        omega
      · omega

theorem toSplit_spec (mem : Nat → Int) {e : Edge} (h : WF e) :
    (TotalMono e → ∃ r, toSplitPointsEdge mem e = some (.ok r) ∧ r.typ = .splitPoints ∧ WF r ∧
      r.parentSize = e.parentSize ∧ r.childSize = e.childSize ∧ ∀ c p, Rel r c p ↔ Rel e c p) ∧
    (¬ TotalMono e → ∃ m, toSplitPointsEdge mem e = some (.error m)) := by
  unfold toSplitPointsEdge
  cases ht : e.typ with
  | splitPoints =>
    rw [if_pos rfl]
    refine ⟨fun _ => ⟨e, rfl, ht, h, rfl, rfl, fun _ _ => Iff.rfl⟩, fun hn => absurd ?_ hn⟩
    obtain ⟨hv, hf, h3, h4, h5⟩ := (wf_split_iff ht).1 h
    refine ⟨?_, ?_⟩
    · intro c hc
      obtain ⟨p, hp⟩ := srel_exists h3 h5 hc
      exact ⟨p, (rel_split_iff ht hf _ _).2 hp⟩
    · intro c c' p p' hcc hr hr'
      rw [rel_split_iff ht hf] at hr hr'
      exact srel_mono h3 hcc hr hr'
  | mapping =>
    rw [if_neg (by simp), totalMono_map ht h]
    obtain ⟨hv, h1, h2, h3⟩ := (wf_map_iff ht).1 h
    obtain ⟨⟨b, hb1, hb2⟩, _⟩ := presence_queries e.values hv
    rw [hb1]
    simp only [Option.bind_eq_bind, Option.bind_some]
    cases b with
    | false =>
      rw [if_pos (by rfl)]
      refine ⟨?_, fun _ => ⟨_, rfl⟩⟩
      rintro ⟨hf, _⟩
      have : false = true := hb2.2 (by rw [hf]; simp)
      simp at this
    | true =>
      rw [if_neg (by simp)]
      have hf := elems_of_full (hb2.1 rfl)
      simp only [hf, true_and]
      obtain ⟨n, hn⟩ := Int.eq_ofNat_of_zero_le h1
      have hul : (uninit mem (e.parentSize + 1).toNat).length = n + 1 := by simp [uninit]; omega
      rw [ins, wrV_spec (by dsimp only; omega)]
      simp only [Option.bind_eq_bind, Option.bind_some]
      have hrange : ∀ v ∈ e.values.values, 0 ≤ v ∧ v < (n : Int) := by
        intro v hm
        rw [List.mem_iff_getElem?] at hm
        obtain ⟨i, hi⟩ := hm
        have := h3 i v (by rw [elem_full hf]; exact hi)
        omega
      have key := splitLoop_spec (n := n) e.values.values [] 0
        ((uninit mem (e.parentSize + 1).toNat).set 0 0) hrange (by simp) (by omega)
        (by rw [List.length_set]; exact hul) (by
          intro j hj
          have : j = 0 := by omega
          subst this
          rw [List.getElem?_set_self (by omega)]; rfl)
      have hsort : (((0 : Nat) : Int) :: e.values.values).Pairwise (· ≤ ·) ↔
          e.values.values.Pairwise (· ≤ ·) := by
        rw [List.pairwise_cons]
        exact ⟨fun h => h.2, fun h => ⟨fun x hx => by have := hrange x hx; omega, h⟩⟩
      rw [hsort] at key
      obtain ⟨k1, k2⟩ := key
      refine ⟨fun hs => ?_, fun hs => ?_⟩
      · obtain ⟨bin, buf, s1, s2, s3, s4, s5⟩ := k1 hs
        rw [List.nil_append] at s4 s5
        simp only [List.length_nil] at s1
        rw [show ((0 : Nat) : Int) = 0 from rfl] at s1
        rw [show (0 + 1 : Nat) = 1 from rfl] at s1 ⊢
        rw [s1]
        simp only [Option.bind_some]
        have hk : (e.parentSize - (bin : Int)).toNat = n - bin := by omega
        obtain ⟨r, r1, r2, r3⟩ := insN_spec (e.values.size : Int) (n - bin) buf (bin + 1) (by omega)
        rw [hk, r1]
        simp only [Option.bind_some]
        have hget : ∀ j, r[j]? = if j < n + 1 then some (below e.values.values j : Int) else none := by
          intro j
          rw [r3]
          by_cases hj : j ≤ bin
          · rw [if_neg (by omega), if_pos (by omega), s5 j hj]
          · by_cases hj2 : j < n + 1
            · rw [if_pos (by omega), if_pos hj2, below_all]; rfl
              intro v hv; have := s4 v hv; omega
            · rw [if_neg (by omega), if_neg hj2, List.getElem?_eq_none (by omega)]
        have hlast : r.getLast? = some e.childSize := by
          rw [List.getLast?_eq_getElem?, r2, s3, hget, if_pos (by omega)]
          rw [below_all (by
            intro v hv; have := hrange v hv
            rw [show n + 1 - 1 = n by omega]; exact this.2), h2]
        have hspr : SP r := by
          refine ⟨?_, ?_⟩
          · rw [List.head?_eq_getElem?, hget, if_pos (by omega)]
            have : below e.values.values 0 = 0 := by
              unfold below
              rw [List.countP_eq_zero]
              intro a ha
              have := hrange a ha
              simp; omega
            rw [this]; rfl
          · rw [List.pairwise_iff_getElem]
            intro i j hi hj hij
            have e1 := hget i
            have e2 := hget j
            rw [List.getElem?_eq_getElem hi, if_pos (by omega)] at e1
            rw [List.getElem?_eq_getElem hj, if_pos (by omega)] at e2
            simp only [Option.some.injEq] at e1 e2
            have := below_mono e.values.values (show i ≤ j by omega)
            omega
        unfold unsafeFromSplitPoints
        dsimp only
        rw [hlast]
        simp only [Option.bind_some, Option.bind_eq_bind]
        have hfr := elems_nobitmap r
        refine ⟨_, rfl, rfl, ?_, ?_, rfl, ?_⟩
        · rw [wf_split_iff rfl]
          refine ⟨valid_nobitmap r, hfr, hspr, ?_, hlast⟩
          dsimp only [DArr.size]; omega
        · dsimp only [DArr.size]; omega
        · intro c p
          rw [rel_split_iff rfl hfr, rel_map_iff ht, elem_full hf]
          unfold SRel
          dsimp only
          rw [hget, hget]
          constructor
          · rintro ⟨a, b, x1, x2, x3, x4⟩
            split at x2
            · rw [if_pos (by omega)] at x1
              simp only [Option.some.injEq] at x1 x2
              have hcl : c < e.values.values.length := by
                have := below_le e.values.values (p + 1); omega
              have hgc := List.getElem?_eq_getElem hcl
              have b1 := below_iff hs hgc p
              have b2 := below_iff hs hgc (p + 1)
              rw [hgc]
              congr 1
              omega
            · simp at x2
          · intro hgc
            have b1 := below_iff hs hgc p
            have b2 := below_iff hs hgc (p + 1)
            have hp := hrange _ (List.mem_of_getElem? hgc)
            refine ⟨_, _, by rw [if_pos (by omega)], by rw [if_pos (by omega)], ?_, ?_⟩ <;> omega
      · obtain ⟨m, hm⟩ := k2 hs
        simp only [List.length_nil] at hm
        rw [show ((0 : Nat) : Int) = 0 from rfl] at hm
        rw [show (0 + 1 : Nat) = 1 from rfl] at hm ⊢
        rw [hm]
        exact ⟨_, rfl⟩

theorem arraysEq_spec {a b : DArr Int} (ha : a.Valid) (hb : b.Valid) :
    arraysEq a b = some (decide (elems a = elems b)) := by
  unfold arraysEq
  obtain ⟨r, hr, hiff⟩ := equivalent_iff_eq a b ha hb
  rw [hr]
  congr 1
  cases r with
  | true => exact (decide_eq_true (hiff.1 rfl)).symm
  | false =>
    symm
    rw [decide_eq_false_iff_not]
    intro h
    have := hiff.2 h
    simp at this

/-- Edges with the same representation are equivalent iff their relations agree. -/
theorem same_typ_eq {a b : Edge} (ha : WF a) (hb : WF b) (hp : a.parentSize = b.parentSize)
    (hc : a.childSize = b.childSize) (ht : a.typ = b.typ) :
    elems a.values = elems b.values ↔ ∀ c p, Rel a c p ↔ Rel b c p := by
  cases hta : a.typ with
  | mapping =>
    have htb : b.typ = .mapping := by rw [← ht, hta]
    obtain ⟨_, a1, a2, a3⟩ := (wf_map_iff hta).1 ha
    obtain ⟨_, b1, b2, b3⟩ := (wf_map_iff htb).1 hb
    have hl : a.values.values.length = b.values.values.length := by omega
    have hext : elems a.values = elems b.values ↔ ∀ i, elem a.values i = elem b.values i := by
      constructor
      · intro h i
        have := congrArg (fun l => l[i]?) h
        simp only [elems_get?, hl] at this
        split at this
        · simpa using this
        · rw [elem_eq, elem_eq, List.getElem?_eq_none (by omega), List.getElem?_eq_none (by omega)]
          simp
      · intro h
        apply List.ext_getElem?
        intro i
        rw [elems_get?, elems_get?, hl, h i]
    rw [hext]
    constructor
    · intro h c p
      rw [rel_map_iff hta, rel_map_iff htb, h c]
    · intro h i
      cases h1 : elem a.values i with
      | some v =>
        obtain ⟨p, rfl⟩ := Int.eq_ofNat_of_zero_le (a3 _ _ h1).1
        have := (h i p).1 ((rel_map_iff hta _ _).2 h1)
        rw [rel_map_iff htb] at this
        rw [this]
      | none =>
        cases h2 : elem b.values i with
        | none => rfl
        | some v =>
          obtain ⟨p, rfl⟩ := Int.eq_ofNat_of_zero_le (b3 _ _ h2).1
          have := (h i p).2 ((rel_map_iff htb _ _).2 h2)
          rw [rel_map_iff hta, h1] at this
          simp at this
  | splitPoints =>
    have htb : b.typ = .splitPoints := by rw [← ht, hta]
    obtain ⟨_, af, a3, a4, a5⟩ := (wf_split_iff hta).1 ha
    obtain ⟨_, bf, b3, b4, b5⟩ := (wf_split_iff htb).1 hb
    constructor
    · intro h c p
      rw [rel_split_iff hta af, rel_split_iff htb bf]
      have : a.values.values = b.values.values := by
        rw [bf] at h
        exact full_elems h
      rw [this]
    · intro h
      rw [af, bf]
      congr 1
      apply srel_inj a3 b3 (by omega) a5 (by rw [hc]; exact b5)
      intro c p
      rw [← rel_split_iff hta af, ← rel_split_iff htb bf]
      exact h c p

theorem totalMono_congr {a b : Edge} (hc : a.childSize = b.childSize)
    (h : ∀ c p, Rel a c p ↔ Rel b c p) : TotalMono a ↔ TotalMono b := by
  unfold TotalMono
  simp only [h, hc]

theorem totalMono_split {e : Edge} (ht : e.typ = .splitPoints) (h : WF e) : TotalMono e := by
  by_cases hn : TotalMono e
  · exact hn
  · obtain ⟨m, hm⟩ := (toSplit_spec (fun _ => 0) h).2 hn
    unfold toSplitPointsEdge at hm
    rw [if_pos ht] at hm
    cases hm

theorem isEquivalentTo_spec (mem : Nat → Int) {a b : Edge} (ha : WF a) (hb : WF b) :
    ∃ r, isEquivalentTo mem a b = some r ∧
      (r = true ↔ a.parentSize = b.parentSize ∧ a.childSize = b.childSize ∧
        ∀ c p, Rel a c p ↔ Rel b c p) := by
  unfold isEquivalentTo
  by_cases hsz : a.parentSize ≠ b.parentSize ∨ a.childSize ≠ b.childSize
  · rw [if_pos hsz]
    refine ⟨_, rfl, ?_⟩
    constructor
    · intro h; simp at h
    · rintro ⟨h1, h2, _⟩; rcases hsz with h | h <;> contradiction
  · rw [if_neg hsz]
    have hp : a.parentSize = b.parentSize := by
      by_cases h : a.parentSize = b.parentSize
      · exact h
      · exact absurd (Or.inl h) hsz
    have hc : a.childSize = b.childSize := by
      by_cases h : a.childSize = b.childSize
      · exact h
      · exact absurd (Or.inr h) hsz
    by_cases ht : a.typ = b.typ
    · rw [if_pos ht, arraysEq_spec ha.1 hb.1]
      refine ⟨_, rfl, ?_⟩
      rw [decide_eq_true_eq, same_typ_eq ha hb hp hc ht]
      exact ⟨fun h => ⟨hp, hc, h⟩, fun h => h.2.2⟩
    · rw [if_neg ht]
      have hone : TotalMono a ∨ TotalMono b := by
        cases hta : a.typ with
        | splitPoints => exact Or.inl (totalMono_split hta ha)
        | mapping =>
          cases htb : b.typ with
          | splitPoints => exact Or.inr (totalMono_split htb hb)
          | mapping => rw [hta, htb] at ht; exact absurd rfl ht
      by_cases hma : TotalMono a
      · obtain ⟨a', x1, x2, x3, x4, x5, x6⟩ := (toSplit_spec mem ha).1 hma
        rw [x1]
        simp only [Option.bind_eq_bind, Option.bind_some]
        by_cases hmb : TotalMono b
        · obtain ⟨b', y1, y2, y3, y4, y5, y6⟩ := (toSplit_spec mem hb).1 hmb
          rw [y1]
          simp only [Option.bind_some]
          rw [arraysEq_spec x3.1 y3.1]
          refine ⟨_, rfl, ?_⟩
          rw [decide_eq_true_eq, same_typ_eq x3 y3 (by omega) (by omega) (by rw [x2, y2])]
          simp only [x6, y6]
          exact ⟨fun h => ⟨hp, hc, h⟩, fun h => h.2.2⟩
        · obtain ⟨m, hm⟩ := (toSplit_spec mem hb).2 hmb
          rw [hm]
          refine ⟨false, rfl, ?_⟩
          constructor
          · intro h; simp at h
          · rintro ⟨_, _, h⟩
            exact absurd ((totalMono_congr hc h).1 hma) hmb
      · obtain ⟨m, hm⟩ := (toSplit_spec mem ha).2 hma
        rw [hm]
        refine ⟨false, rfl, ?_⟩
        constructor
        · intro h; simp at h
        · rintro ⟨_, _, h⟩
          rcases hone with h1 | h1
          · exact absurd h1 hma
          · exact absurd ((totalMono_congr hc h).2 h1) hma

end Verif.Edge
