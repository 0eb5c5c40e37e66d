import Verif.EdgeOps.SumLemmas

/-! `edge.pair_left` and `edge.pair_right`. -/

namespace Verif.EdgeOps
open Verif.Bits Verif.Bitmap Verif.Dense Verif.Edge

theorem filterMap_congr' {β γ : Type} {f g : β → Option γ} : ∀ {l : List β}, (∀ x ∈ l, f x = g x) →
    l.filterMap f = l.filterMap g := by
  intro l
  induction l with
  | nil => intro _; rfl
  | cons x xs ih =>
    intro h
    rw [List.filterMap_cons, List.filterMap_cons, h x (by simp), ih (fun y hy => h y (by simp [hy]))]

theorem flatMap_congr' {β γ : Type} {f g : β → List γ} : ∀ {l : List β}, (∀ x ∈ l, f x = g x) →
    l.flatMap f = l.flatMap g := by
  intro l
  induction l with
  | nil => intro _; rfl
  | cons x xs ih =>
    intro h
    rw [List.flatMap_cons, List.flatMap_cons, h x (by simp), ih (fun y hy => h y (by simp [hy]))]

theorem isFull_of {a : DArr Int} (hv : a.Valid) (h : elems a = a.values.map some) :
    a.isFull = some true := by
  rcases isFull_cases hv with ⟨hf, _⟩ | ⟨_, h'⟩
  · exact hf
  · exact absurd h h'

theorem forEachPresent_full {a : DArr Int} (hv : a.Valid) (h : elems a = a.values.map some) :
    ∃ l, a.forEachPresent = some l ∧ l.map Prod.snd = a.values := by
  refine ⟨_, for_each_present_visits a hv, ?_⟩
  rw [h, List.map_filterMap]
  apply List.ext_getElem?
  intro i
  have : (List.range a.size).filterMap (fun x => Option.map Prod.snd
      (Option.map (fun v => (x, v)) ((a.values.map some)[x]?).join)) = a.values := by
    have hm : ∀ (vs : List Int) (k : Nat), (List.range' k vs.length).filterMap (fun x =>
        Option.map Prod.snd (Option.map (fun v => (x, v)) ((vs.map some)[x - k]?).join)) = vs := by
      intro vs
      induction vs with
      | nil => intro k; rfl
      | cons v vs ih =>
        intro k
        rw [List.length_cons, List.range'_succ, List.filterMap_cons]
        simp only [Nat.sub_self, List.map_cons, List.getElem?_cons_zero, Option.join_some,
          Option.map_some]
        congr 1
        refine Eq.trans ?_ (ih (k + 1))
        apply filterMap_congr'
        intro x hx
        have : k + 1 ≤ x := (List.mem_range'_1.1 hx).1
        rw [show x - k = (x - (k + 1)) + 1 by omega, List.getElem?_cons_succ]
    have := hm a.values 0
    simpa [List.range_eq_range', DArr.size] using this
  rw [this]

/-! ## Counting -/

theorem squares_cons (n : Nat) (ns : List Nat) : squares (n :: ns) = n * n + squares ns := by
  simp [squares]

theorem sum_le_squares : ∀ ns : List Nat, ns.sum ≤ squares ns := by
  intro ns
  induction ns with
  | nil => simp [squares]
  | cons n ns ih =>
    rw [squares_cons, List.sum_cons]
    have := Nat.le_mul_self n
    omega

theorem pairCounts_spec : ∀ (ns : List Nat) (c p : Nat) (q : Int) (o : Bool),
    ((c + ns.sum : Nat) : Int) ≤ maxI64 → (o = false → q = p ∧ (p : Int) ≤ maxI64) →
    ∃ q' o', pairCounts (ns.map (fun n : Nat => (n : Int))) c q o = some (((c + ns.sum : Nat) : Int), q', o') ∧
      (o' = false ↔ o = false ∧ ((p + squares ns : Nat) : Int) ≤ maxI64) ∧
      (o' = false → q' = ((p + squares ns : Nat) : Int)) := by
  intro ns
  induction ns with
  | nil =>
    intro c p q o hc hq
    refine ⟨q, o, rfl, ?_, ?_⟩
    · constructor
      · intro h; exact ⟨h, by simpa [squares] using (hq h).2⟩
      · intro h; exact h.1
    · intro h; simpa [squares] using (hq h).1
  | cons n ns ih =>
    intro c p q o hc hq
    rw [List.map_cons, pairCounts]
    rw [List.sum_cons] at hc ⊢
    rw [chk_ok (by omega) (by push_cast at hc; omega)]
    simp only [Option.bind_eq_bind, Option.bind_some]
    obtain ⟨q', o', e1, e2, e3⟩ := ih (c + n) (p + n * n)
      (safeAdd q (safeMul n n o).1 (safeMul n n o).2).1
      (safeAdd q (safeMul n n o).1 (safeMul n n o).2).2 (by rw [Nat.add_assoc]; exact hc) (by
        intro h
        unfold safeAdd safeMul outOfRange at h ⊢
        dsimp only at h ⊢
        simp only [Bool.or_eq_false_iff, Bool.not_eq_false', decide_eq_true_iff] at h
        obtain ⟨⟨h1, h2⟩, h3⟩ := h
        rw [wrap64_id h2.1 h2.2] at h3 ⊢
        rw [wrap64_id h3.1 h3.2]
        have := (hq h1).1
        subst this
        refine ⟨by push_cast; rfl, ?_⟩
        push_cast; exact h3.2)
    refine ⟨q', o', ?_, ?_, ?_⟩
    · rw [show ((c : Int) + n) = ((c + n : Nat) : Int) by push_cast; rfl, e1, Nat.add_assoc]
    · rw [e2, squares_cons, ← Nat.add_assoc]
      unfold safeAdd safeMul outOfRange
      dsimp only
      simp only [Bool.or_eq_false_iff, Bool.not_eq_false', decide_eq_true_iff]
      constructor
      · rintro ⟨⟨⟨h1, _⟩, _⟩, h4⟩
        exact ⟨h1, h4⟩
      · rintro ⟨h1, h4⟩
        have hnn : (n : Int) * n = ((n * n : Nat) : Int) := by push_cast; rfl
        have hm : -2 ^ 63 ≤ (n : Int) * n ∧ (n : Int) * n ≤ maxI64 := by
          rw [hnn]; omega
        obtain ⟨rfl, hp⟩ := hq h1
        rw [wrap64_id hm.1 hm.2]
        refine ⟨⟨⟨h1, hm⟩, ?_⟩, h4⟩
        rw [hnn]; omega
    · intro h
      rw [e3 h, squares_cons, ← Nat.add_assoc]

/-! ## Left -/

/-- Prefix sums without the last one. -/
def psums : Nat → List Nat → List Int
  | _, [] => []
  | b, n :: ns => (b : Int) :: psums (b + n) ns

theorem sums_eq : ∀ (ns : List Nat) (b : Nat), sums b ns = psums b ns ++ [((b + ns.sum : Nat) : Int)] := by
  intro ns
  induction ns with
  | nil => intro b; rfl
  | cons n ns ih => intro b; rw [sums, psums, ih, List.cons_append, List.sum_cons, Nat.add_assoc]

theorem psums_append : ∀ (xs ys : List Nat) (b : Nat),
    psums b (xs ++ ys) = psums b xs ++ psums (b + xs.sum) ys := by
  intro xs ys
  induction xs with
  | nil => intro b; rfl
  | cons x xs ih => intro b; rw [List.cons_append, psums, psums, ih, List.cons_append, List.sum_cons, Nat.add_assoc]

theorem psums_length : ∀ (ns : List Nat) (b : Nat), (psums b ns).length = ns.length := by
  intro ns
  induction ns with
  | nil => intro b; rfl
  | cons n ns ih => intro b; rw [psums, List.length_cons, ih, List.length_cons]

theorem leftGroup_spec {N : Nat} (s : Nat) : ∀ (n : Nat) (st : List Int × Nat) (pre : List Int) (off : Nat),
    Filled st pre N → pre.length + n ≤ N → ((off + n * s : Nat) : Int) ≤ maxI64 →
    ∃ st', leftGroup s n (st, off) = some (st', ((off + n * s : Nat) : Int)) ∧
      Filled st' (pre ++ psums off (List.replicate n s)) N := by
  intro n
  induction n with
  | zero =>
    intro st pre off hf _ _
    exact ⟨st, by simp [leftGroup], by simpa [psums] using hf⟩
  | succ n ih =>
    intro st pre off hf hl ho
    rw [leftGroup]
    obtain ⟨st1, e1, e2⟩ := filled_ins hf (by omega) (off : Int)
    rw [e1]
    simp only [Option.bind_eq_bind, Option.bind_some]
    have hs : off + (n + 1) * s = off + s + n * s := by rw [Nat.succ_mul]; omega
    rw [hs] at ho
    rw [chk_ok (by omega) (by omega)]
    simp only [Option.bind_some]
    obtain ⟨st2, g1, g2⟩ := ih st1 (pre ++ [(off : Int)]) (off + s) e2 (by simp; omega) ho
    refine ⟨st2, ?_, ?_⟩
    · rw [hs, ← g1]; push_cast; rfl
    · rw [List.replicate_succ, psums]
      rw [List.append_assoc] at g2
      exact g2

/-- Sizes of the groups of pairs. -/
def leftSizes (ns : List Nat) : List Nat := ns.flatMap (fun n => List.replicate n n)

theorem leftSizes_cons (n : Nat) (ns : List Nat) :
    leftSizes (n :: ns) = List.replicate n n ++ leftSizes ns := by simp [leftSizes]

theorem leftSizes_length : ∀ ns : List Nat, (leftSizes ns).length = ns.sum := by
  intro ns
  induction ns with
  | nil => rfl
  | cons n ns ih => rw [leftSizes_cons, List.length_append, ih]; simp

theorem leftSizes_sum : ∀ ns : List Nat, (leftSizes ns).sum = squares ns := by
  intro ns
  induction ns with
  | nil => rfl
  | cons n ns ih => rw [leftSizes_cons, List.sum_append, ih, squares_cons]; simp

theorem leftLoop_spec {N : Nat} : ∀ (ns : List Nat) (st : List Int × Nat) (pre : List Int) (off : Nat),
    Filled st pre N → pre.length + ns.sum ≤ N → ((off + squares ns : Nat) : Int) ≤ maxI64 →
    ∃ st', leftLoop (ns.map (fun n : Nat => (n : Int))) (st, off) =
        some (st', ((off + squares ns : Nat) : Int)) ∧
      Filled st' (pre ++ psums off (leftSizes ns)) N := by
  intro ns
  induction ns with
  | nil =>
    intro st pre off hf _ _
    exact ⟨st, by simp [leftLoop, squares], by simpa [leftSizes, psums] using hf⟩
  | cons n ns ih =>
    intro st pre off hf hl ho
    rw [List.sum_cons] at hl
    rw [squares_cons] at ho ⊢
    rw [List.map_cons, leftLoop, Int.toNat_natCast]
    obtain ⟨st1, e1, e2⟩ := leftGroup_spec n n st pre off hf (by omega) (by omega)
    rw [e1]
    simp only [Option.bind_eq_bind, Option.bind_some]
    obtain ⟨st2, g1, g2⟩ := ih st1 _ (off + n * n) e2
      (by rw [List.length_append, psums_length, List.length_replicate]; omega)
      (by rw [Nat.add_assoc]; exact ho)
    refine ⟨st2, by rw [g1, Nat.add_assoc], ?_⟩
    rw [leftSizes_cons, psums_append, ← List.append_assoc]
    simpa using g2

theorem pairLeft_spec (mem : Nat → Int) {sizes : DArr Int} (hv : sizes.Valid) {ns : List Nat}
    (hns : Holds sizes ns) (hs : (ns.sum : Int) < maxI64) :
    ((squares ns : Int) ≤ maxI64 → pairLeft mem sizes = fromSplitPoints ⟨sums 0 (leftSizes ns), [], 0⟩) ∧
    (¬ (squares ns : Int) ≤ maxI64 → ∃ m, pairLeft mem sizes = some (.error m)) := by
  obtain ⟨hel, hval⟩ := holds_iff.1 hns
  have hf := isFull_of hv hel
  obtain ⟨l, hl1, hl2⟩ := forEachPresent_full hv hel
  obtain ⟨q, o, e1, e2, e3⟩ := pairCounts_spec ns 0 0 0 false (by rw [Nat.zero_add]; omega)
    (by intro _; exact ⟨rfl, by unfold maxI64; omega⟩)
  rw [Nat.zero_add] at e1 e2 e3
  have hsum : chk ((ns.sum : Int) + 1) = some ((ns.sum + 1 : Nat) : Int) := by
    rw [chk_ok (by omega) (by omega)]; push_cast; rfl
  have key : pairLeft mem sizes = if o then some (.error "integer overflow") else (do
      let (b, offset) ← leftLoop (ns.map (fun n : Nat => (n : Int))) ((uninit mem (ns.sum + 1), 0), 0)
      let b ← ins b offset
      fromSplitPoints ⟨b.1, [], 0⟩) := by
    unfold pairLeft
    rw [hf]
    simp only [Option.bind_eq_bind, Option.bind_some, Bool.not_true, Bool.false_eq_true, if_false]
    rw [hl1]
    simp only [Option.bind_some]
    rw [hl2, hval]
    have e1' : pairCounts (ns.map (fun n : Nat => (n : Int))) 0 0 false = some ((ns.sum : Int), q, o) := e1
    rw [e1']
    simp only [Option.bind_some]
    cases o with
    | true => simp only [if_true]
    | false =>
      simp only [Bool.false_eq_true, if_false]
      rw [hsum]
      simp only [Option.bind_some]
      rw [newBuffer_ok]
      rfl
  constructor
  · intro hq
    have ho := e2.2 ⟨rfl, hq⟩
    rw [key, ho]
    simp only [Bool.false_eq_true, if_false]
    obtain ⟨st, g1, g2⟩ := leftLoop_spec ns (uninit mem (ns.sum + 1), 0) [] 0 (filled_new mem (ns.sum + 1))
      (by simp) (by rw [Nat.zero_add]; exact hq)
    have g1' : leftLoop (ns.map (fun n : Nat => (n : Int))) ((uninit mem (ns.sum + 1), 0), 0) =
      some (st, ((0 + squares ns : Nat) : Int)) := g1
    rw [g1']
    simp only [Option.bind_eq_bind, Option.bind_some]
    have hlen : ([] ++ psums 0 (leftSizes ns)).length = ns.sum := by
      rw [List.nil_append, psums_length, leftSizes_length]
    obtain ⟨st', k1, k2⟩ := filled_ins g2 (by omega) (((0 + squares ns : Nat) : Int))
    rw [k1]
    simp only [Option.bind_some]
    rw [filled_done k2 (by rw [List.length_append, hlen]; rfl), sums_eq, leftSizes_sum, List.nil_append]
  · intro hq
    have ho : o = true := by
      cases o with
      | true => rfl
      | false => exact absurd (by simpa using (e2.1 rfl).2) hq
    rw [key, ho]
    exact ⟨_, rfl⟩

theorem ownersFrom_append : ∀ (xs ys : List Nat) (i : Nat),
    ownersFrom i (xs ++ ys) = ownersFrom i xs ++ ownersFrom (i + xs.length) ys := by
  intro xs ys
  induction xs with
  | nil => intro i; rfl
  | cons x xs ih =>
    intro i
    rw [List.cons_append, ownersFrom, ownersFrom, ih, List.append_assoc, List.length_cons]
    congr 3; omega

theorem ownersFrom_replicate (m : Nat) : ∀ (k b : Nat),
    ownersFrom b (List.replicate k m) = (List.range' b k).flatMap (fun x => List.replicate m x) := by
  intro k
  induction k with
  | zero => intro b; rfl
  | succ k ih =>
    intro b
    rw [List.replicate_succ, ownersFrom, ih, List.range'_succ, List.flatMap_cons]

theorem owners_left (ns : List Nat) : owners (leftSizes ns) = (pairs ns).map Prod.fst := by
  have : ∀ (ns : List Nat) (b : Nat), ownersFrom b (leftSizes ns) =
      ((groupsFrom b ns).flatMap (fun g => g.flatMap (fun x => g.map (fun y => (x, y))))).map Prod.fst := by
    intro ns
    induction ns with
    | nil => intro b; rfl
    | cons n ns ih =>
      intro b
      rw [leftSizes_cons, ownersFrom_append, List.length_replicate, ih, groupsFrom,
        List.flatMap_cons, List.map_append, ownersFrom_replicate]
      congr 1
      rw [List.map_flatMap]
      apply flatMap_congr'
      intro x _
      rw [List.map_map]
      symm
      rw [List.eq_replicate_iff]
      refine ⟨by simp, ?_⟩
      intro y hy
      rw [List.mem_map] at hy
      obtain ⟨z, _, rfl⟩ := hy
      rfl
  exact this ns 0

/-! ## Right -/

theorem rightRow_spec {N : Nat} (off : Nat) : ∀ (n j : Nat) (st : List Int × Nat) (pre : List Int),
    Filled st pre N → pre.length + n ≤ N → ((off + j + n : Nat) : Int) ≤ maxI64 →
    ∃ st', rightRow off n j st = some st' ∧
      Filled st' (pre ++ (List.range' (off + j) n).map (fun x : Nat => (x : Int))) N := by
  intro n
  induction n with
  | zero => intro j st pre hf _ _; exact ⟨st, rfl, by simpa using hf⟩
  | succ n ih =>
    intro j st pre hf hl ho
    rw [rightRow, chk_ok (by omega) (by push_cast at ho; omega)]
    simp only [Option.bind_eq_bind, Option.bind_some]
    obtain ⟨st1, e1, e2⟩ := filled_ins hf (by omega) ((off : Int) + j)
    rw [e1]
    simp only [Option.bind_some]
    obtain ⟨st2, g1, g2⟩ := ih (j + 1) st1 _ e2 (by simp; omega)
      (by rw [show off + (j + 1) + n = off + j + (n + 1) by omega]; exact ho)
    refine ⟨st2, ?_, ?_⟩
    · rw [← g1]; push_cast; rfl
    · rw [List.range'_succ, List.map_cons]
      rw [List.append_assoc] at g2
      exact g2

theorem rightGroup_spec {N : Nat} (s off : Nat) : ∀ (n : Nat) (st : List Int × Nat) (pre : List Int),
    Filled st pre N → pre.length + n * s ≤ N → ((off + s : Nat) : Int) ≤ maxI64 →
    ∃ st', rightGroup s off n st = some st' ∧
      Filled st' (pre ++ (List.replicate n
        ((List.range' off s).map (fun x : Nat => (x : Int)))).flatten) N := by
  intro n
  induction n with
  | zero => intro st pre hf _ _; exact ⟨st, rfl, by simpa using hf⟩
  | succ n ih =>
    intro st pre hf hl ho
    have hs : (n + 1) * s = n * s + s := Nat.succ_mul n s
    rw [rightGroup, Int.toNat_natCast]
    obtain ⟨st1, e1, e2⟩ := rightRow_spec off s 0 st pre hf (by omega) ho
    have e1' : rightRow off s 0 st = some st1 := e1
    rw [e1']
    simp only [Option.bind_eq_bind, Option.bind_some]
    obtain ⟨st2, g1, g2⟩ := ih st1 _ e2 (by simp; omega) ho
    refine ⟨st2, g1, ?_⟩
    rw [List.replicate_succ, List.flatten_cons]
    rw [List.append_assoc] at g2
    exact g2

/-- Second components of the pairs of groups numbered from `b`. -/
def rightVals (b : Nat) (ns : List Nat) : List Nat :=
  (groupsFrom b ns).flatMap (fun g => g.flatMap (fun _ => g))

theorem flatMap_const {β γ : Type} (g : List γ) : ∀ (l : List β),
    l.flatMap (fun _ => g) = (List.replicate l.length g).flatten := by
  intro l
  induction l with
  | nil => rfl
  | cons x xs ih => rw [List.flatMap_cons, ih, List.length_cons, List.replicate_succ, List.flatten_cons]

theorem rightVals_cons (b n : Nat) (ns : List Nat) :
    rightVals b (n :: ns) = (List.replicate n (List.range' b n)).flatten ++ rightVals (b + n) ns := by
  unfold rightVals
  rw [groupsFrom, List.flatMap_cons, flatMap_const, List.length_range']

theorem rightVals_length : ∀ (ns : List Nat) (b : Nat), (rightVals b ns).length = squares ns := by
  intro ns
  induction ns with
  | nil => intro b; rfl
  | cons n ns ih => intro b; rw [rightVals_cons, List.length_append, ih, squares_cons]; simp

theorem rightVals_lt : ∀ (ns : List Nat) (b x : Nat), x ∈ rightVals b ns → x < b + ns.sum := by
  intro ns
  induction ns with
  | nil => intro b x h; simp [rightVals, groupsFrom] at h
  | cons n ns ih =>
    intro b x h
    rw [rightVals_cons, List.mem_append] at h
    rw [List.sum_cons]
    rcases h with h | h
    · rw [List.mem_flatten] at h
      obtain ⟨l, hl, hx⟩ := h
      rw [List.eq_of_mem_replicate hl] at hx
      have := (List.mem_range'_1.1 hx).2
      omega
    · have := ih _ _ h; omega

theorem rightVals_eq (ns : List Nat) : rightVals 0 ns = (pairs ns).map Prod.snd := by
  unfold rightVals pairs
  rw [List.map_flatMap]
  apply flatMap_congr'
  intro g _
  rw [List.map_flatMap]
  apply flatMap_congr'
  intro x _
  rw [List.map_map]
  symm
  exact List.map_id g

theorem rightLoop_spec {N : Nat} : ∀ (ns : List Nat) (off : Nat) (st : List Int × Nat) (pre : List Int),
    Filled st pre N → pre.length + squares ns ≤ N → ((off + ns.sum : Nat) : Int) ≤ maxI64 →
    ∃ st', rightLoop (ns.map (fun n : Nat => (n : Int))) off st = some st' ∧
      Filled st' (pre ++ (rightVals off ns).map (fun x : Nat => (x : Int))) N := by
  intro ns
  induction ns with
  | nil => intro off st pre hf _ _; exact ⟨st, rfl, by simpa [rightVals, groupsFrom] using hf⟩
  | cons n ns ih =>
    intro off st pre hf hl ho
    rw [List.sum_cons] at ho
    rw [squares_cons] at hl
    rw [List.map_cons, rightLoop, Int.toNat_natCast]
    obtain ⟨st1, e1, e2⟩ := rightGroup_spec n off n st pre hf (by omega) (by omega)
    rw [e1]
    simp only [Option.bind_eq_bind, Option.bind_some]
    rw [chk_ok (by omega) (by push_cast at ho; omega)]
    simp only [Option.bind_some]
    obtain ⟨st2, g1, g2⟩ := ih (off + n) st1 _ e2 (by simp; omega) (by rw [Nat.add_assoc]; exact ho)
    refine ⟨st2, by rw [← g1]; push_cast; rfl, ?_⟩
    rw [rightVals_cons, List.map_append, ← List.append_assoc, List.map_flatten, List.map_replicate]
    exact g2

theorem pairRight_spec (mem : Nat → Int) {sizes : DArr Int} (hv : sizes.Valid) {ns : List Nat}
    (hns : Holds sizes ns) (hs : (ns.sum : Int) ≤ maxI64) :
    ((squares ns : Int) ≤ maxI64 → pairRight mem sizes =
      fromMapping ⟨((pairs ns).map Prod.snd).map (fun x : Nat => (x : Int)), [], 0⟩ ns.sum) ∧
    (¬ (squares ns : Int) ≤ maxI64 → ∃ m, pairRight mem sizes = some (.error m)) := by
  obtain ⟨hel, hval⟩ := holds_iff.1 hns
  have hf := isFull_of hv hel
  obtain ⟨l, hl1, hl2⟩ := forEachPresent_full hv hel
  obtain ⟨q, o, e1, e2, e3⟩ := pairCounts_spec ns 0 0 0 false (by rw [Nat.zero_add]; omega)
    (by intro _; exact ⟨rfl, by unfold maxI64; omega⟩)
  rw [Nat.zero_add] at e1 e2 e3
  have key : pairRight mem sizes = if o then some (.error "integer overflow") else (do
      let buf ← newBuffer mem q
      let b ← rightLoop (ns.map (fun n : Nat => (n : Int))) 0 (buf, 0)
      fromMapping ⟨b.1, [], 0⟩ ns.sum) := by
    unfold pairRight
    rw [hf]
    simp only [Option.bind_eq_bind, Option.bind_some, Bool.not_true, Bool.false_eq_true, if_false]
    rw [hl1]
    simp only [Option.bind_some]
    rw [hl2, hval]
    have e1' : pairCounts (ns.map (fun n : Nat => (n : Int))) 0 0 false = some ((ns.sum : Int), q, o) := e1
    rw [e1']
    rfl
  constructor
  · intro hq
    have ho := e2.2 ⟨rfl, hq⟩
    rw [key, ho, e3 ho]
    simp only [Bool.false_eq_true, if_false]
    rw [newBuffer_ok]
    simp only [Option.bind_eq_bind, Option.bind_some]
    obtain ⟨st, g1, g2⟩ := rightLoop_spec ns 0 (uninit mem (squares ns), 0) [] (filled_new mem (squares ns))
      (by simp) (by rw [Nat.zero_add]; exact hs)
    have g1' : rightLoop (ns.map (fun n : Nat => (n : Int))) 0 (uninit mem (squares ns), 0) = some st := g1
    rw [g1']
    simp only [Option.bind_some]
    rw [filled_done g2 (by simp [rightVals_length]), List.nil_append, rightVals_eq]
  · intro hq
    have ho : o = true := by
      cases o with
      | true => rfl
      | false => exact absurd (by simpa using (e2.1 rfl).2) hq
    rw [key, ho]
    exact ⟨_, rfl⟩

end Verif.EdgeOps
