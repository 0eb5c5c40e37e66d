import Verif.Expr.ExprSpec
import Mathlib.Data.List.Nodup
import Mathlib.Data.List.Induction

/-!
# Lemmas about `PostOrder`
-/

namespace Verif.Expr
variable {O V A E T : Type} [DecidableEq O] [DecidableEq V] [DecidableEq A]

theorem Expr.ind {P : Expr O V A → Prop} (h : ∀ n : Expr O V A, (∀ d ∈ n.deps, P d) → P n) (n : Expr O V A) : P n := by
  match n with
  | .mk l a ds => exact h _ (fun d hd => Expr.ind h d)
termination_by n.size
decreasing_by
  have : ∀ {ds : List (Expr O V A)} {d : Expr O V A}, d ∈ ds → d.size ≤ Expr.sizes ds := by
    intro ds
    induction ds with
    | nil => intro d hd; cases hd
    | cons x xs ih =>
      intro d hd
      rw [Expr.sizes]
      rcases List.mem_cons.1 hd with rfl | hd
      · omega
      · have := ih hd; omega
  have := this hd
  simp only [Expr.deps] at *
  rw [Expr.size]
  omega

theorem size_mem {ds : List (Expr O V A)} {d : Expr O V A} : d ∈ ds → d.size ≤ Expr.sizes ds := by
  induction ds with
  | nil => intro hd; cases hd
  | cons x xs ih =>
    intro hd
    rw [Expr.sizes]
    rcases List.mem_cons.1 hd with rfl | hd
    · omega
    · have := ih hd; omega

theorem size_eq (n : Expr O V A) : n.size = 1 + Expr.sizes n.deps := by
  cases n; rw [Expr.size]; rfl

theorem Sub.trans {a b c : Expr O V A} (h1 : Sub a b) (h2 : Sub b c) : Sub a c := by
  induction h2 with
  | refl => exact h1
  | dep _ hm ih => exact .dep ih hm

theorem Sub.size {a b : Expr O V A} (h : Sub a b) : a.size ≤ b.size := by
  induction h with
  | refl => exact Nat.le_refl _
  | dep _ hm ih =>
    rename_i n _
    have := size_mem hm
    rw [size_eq n]; omega

theorem not_sub_dep {n d : Expr O V A} (h : d ∈ n.deps) : ¬ Sub n d := by
  intro hs
  have h1 := hs.size
  have h2 := size_mem h
  rw [size_eq n] at h1; omega

/-! ## The visiting order as a recursive function -/

mutual
/-- Append the nodes of an expression that are not visited yet. -/
def visit : Expr O V A → List (Expr O V A) → List (Expr O V A)
  | .mk l a ds, acc => visits ds acc ++ [.mk l a ds]
/-- The same for lists. -/
def visits : List (Expr O V A) → List (Expr O V A) → List (Expr O V A)
  | [], acc => acc
  | d :: ds, acc => visits ds (if d ∈ acc then acc else visit d acc)
end

theorem visit_eq (n : Expr O V A) (acc : List (Expr O V A)) : visit n acc = visits n.deps acc ++ [n] := by
  cases n; rw [visit]; rfl

/-- The state of the scan is determined by the nodes. -/
def scanOf (nodes : List (Expr O V A)) : Scan O V A :=
  ⟨nodes, nodes.zipIdx, (nodes.map (fun n => n.deps.length)).sum⟩

theorem lookup_zipIdx {nodes : List (Expr O V A)} {n : Expr O V A} {k i : Nat} (h : nodes.Nodup) :
    lookup (nodes.zipIdx k) n = some i ↔ k ≤ i ∧ nodes[i - k]? = some n := by
  unfold lookup
  induction nodes generalizing k with
  | nil => simp
  | cons x xs ih =>
    rw [List.nodup_cons] at h
    rw [List.zipIdx_cons, List.find?_cons]
    by_cases hx : x = n
    · subst hx
      simp only [decide_true, Option.map_some, Option.some.injEq]
      constructor
      · rintro rfl; simp
      · rintro ⟨hk, hi⟩
        by_cases hki : i - k = 0
        · omega
        · obtain ⟨m, hm⟩ : ∃ m, i - k = m + 1 := ⟨i - k - 1, by omega⟩
          rw [hm] at hi
          simp at hi
          exact absurd (List.mem_of_getElem? hi) h.1
    · simp only [hx, decide_false]
      rw [ih h.2]
      constructor
      · rintro ⟨h1, h2⟩
        refine ⟨by omega, ?_⟩
        rw [show i - k = (i - (k + 1)) + 1 from by omega]
        simpa using h2
      · rintro ⟨h1, h2⟩
        by_cases hki : i - k = 0
        · rw [hki] at h2; simp at h2; exact absurd h2 hx
        · rw [show i - k = (i - (k + 1)) + 1 from by omega] at h2
          exact ⟨by omega, by simpa using h2⟩

theorem lookup_isSome {nodes : List (Expr O V A)} {n : Expr O V A} (k : Nat) :
    (lookup (nodes.zipIdx k) n).isSome = true ↔ n ∈ nodes := by
  unfold lookup
  rw [Option.isSome_map, List.find?_isSome]
  simp only [decide_eq_true_eq]
  constructor
  · rintro ⟨⟨x, i⟩, h, rfl⟩
    exact List.fst_mem_of_mem_zipIdx h
  · intro h
    obtain ⟨i, hi, rfl⟩ := List.getElem_of_mem h
    exact ⟨(nodes[i], k + i), by simp [List.mem_zipIdx_iff_le_and_getElem?_sub, hi], rfl⟩

theorem emplace_zipIdx {nodes : List (Expr O V A)} {n : Expr O V A} (h : n ∉ nodes) :
    emplace nodes.zipIdx n nodes.length = (nodes ++ [n]).zipIdx := by
  unfold emplace
  have : ¬ (lookup nodes.zipIdx n).isSome = true := by rw [lookup_isSome]; exact h
  rw [if_neg this, List.zipIdx_append]
  simp

/-- Continue with the caller's frame. -/
def resume (fuel : Nat) : List (Expr O V A × Nat) → Scan O V A → Option (Scan O V A)
  | [], s => some s
  | (m, j) :: r, s => scanLoop fuel ((m, j) :: r) j s

theorem visits_mem : ∀ (ds : List (Expr O V A)), (∀ d ∈ ds, ∀ acc x, x ∈ visit d acc → x ∈ acc ∨ Sub x d) →
    ∀ acc x, x ∈ visits ds acc → x ∈ acc ∨ ∃ d ∈ ds, Sub x d := by
  intro ds
  induction ds with
  | nil => intro _ acc x hx; rw [visits] at hx; exact Or.inl hx
  | cons d ds ih =>
    intro h acc x hx
    rw [visits] at hx
    rcases ih (fun e he => h e (by simp [he])) _ _ hx with h1 | ⟨e, he, hs⟩
    · split at h1
      · exact Or.inl h1
      · rcases h d (by simp) _ _ h1 with h2 | h2
        · exact Or.inl h2
        · exact Or.inr ⟨d, by simp, h2⟩
    · exact Or.inr ⟨e, by simp [he], hs⟩

theorem visit_mem (n : Expr O V A) : ∀ acc x, x ∈ visit n acc → x ∈ acc ∨ Sub x n := by
  induction n using Expr.ind with
  | h n ih =>
    intro acc x hx
    rw [visit_eq] at hx
    rcases List.mem_append.1 hx with hx | hx
    · rcases visits_mem n.deps ih acc x hx with h | ⟨d, hd, hs⟩
      · exact Or.inl h
      · exact Or.inr (.dep hs hd)
    · simp at hx; subst hx; exact Or.inr (.refl _)

theorem not_mem_visits {n : Expr O V A} {acc : List (Expr O V A)} (h : n ∉ acc) {ds : List (Expr O V A)}
    (hd : ∀ d ∈ ds, d ∈ n.deps) : n ∉ visits ds acc := by
  intro hn
  rcases visits_mem ds (fun d _ => visit_mem d) acc n hn with h' | ⟨d, hd', hs⟩
  · exact h h'
  · exact not_sub_dep (hd d hd') hs

/-- Each element comes after its dependencies, and there are no duplicates. -/
def Ordered (l : List (Expr O V A)) : Prop :=
  l.Nodup ∧ ∀ (i : Nat) (n : Expr O V A), l[i]? = some n → ∀ d ∈ n.deps, ∃ j < i, l[j]? = some d

theorem ordered_snoc {l : List (Expr O V A)} {n : Expr O V A} (h : Ordered l) (hn : n ∉ l) (hd : ∀ d ∈ n.deps, d ∈ l) :
    Ordered (l ++ [n]) := by
  refine ⟨List.nodup_append.2 ⟨h.1, by simp, by intro a ha b hb; simp at hb; subst hb; exact fun e => hn (e ▸ ha)⟩, ?_⟩
  intro i m hi d hdm
  by_cases hl : i < l.length
  · rw [List.getElem?_append_left hl] at hi
    obtain ⟨j, hj, hjd⟩ := h.2 i m hi d hdm
    exact ⟨j, hj, by rw [List.getElem?_append_left (by omega)]; exact hjd⟩
  · rw [List.getElem?_append_right (by omega)] at hi
    have h0 : i - l.length = 0 := by
      have := (List.getElem?_eq_some_iff.1 hi).1
      simp at this; omega
    rw [h0] at hi; simp at hi; subst hi
    obtain ⟨j, hj⟩ := List.mem_iff_getElem?.1 (hd d hdm)
    have hjl := (List.getElem?_eq_some_iff.1 hj).1
    exact ⟨j, by omega, by rw [List.getElem?_append_left hjl]; exact hj⟩

theorem visits_ok : ∀ (ds : List (Expr O V A)),
    (∀ d ∈ ds, ∀ acc, Ordered acc → d ∉ acc → Ordered (visit d acc) ∧ ∃ new, visit d acc = acc ++ new) →
    ∀ acc, Ordered acc → Ordered (visits ds acc) ∧ (∃ new, visits ds acc = acc ++ new) ∧ ∀ d ∈ ds, d ∈ visits ds acc := by
  intro ds
  induction ds with
  | nil => intro _ acc h; rw [visits]; exact ⟨h, ⟨[], by simp⟩, by simp⟩
  | cons d ds ih =>
    intro h acc ha
    rw [visits]
    have h1 : Ordered (if d ∈ acc then acc else visit d acc) ∧ (∃ new, (if d ∈ acc then acc else visit d acc) = acc ++ new) ∧
        d ∈ (if d ∈ acc then acc else visit d acc) := by
      split
      · exact ⟨ha, ⟨[], by simp⟩, by assumption⟩
      · obtain ⟨a, b⟩ := h d (by simp) acc ha (by assumption)
        exact ⟨a, b, by rw [visit_eq]; simp⟩
    obtain ⟨h2, ⟨new2, e2⟩, h3⟩ := ih (fun e he => h e (by simp [he])) _ h1.1
    obtain ⟨new1, e1⟩ := h1.2.1
    refine ⟨h2, ⟨new1 ++ new2, by rw [e2, e1, List.append_assoc]⟩, ?_⟩
    intro e he
    rcases List.mem_cons.1 he with rfl | he
    · rw [e2]; exact List.mem_append_left _ h1.2.2
    · exact h3 e he

theorem visit_ok (n : Expr O V A) : ∀ acc, Ordered acc → n ∉ acc →
    Ordered (visit n acc) ∧ ∃ new, visit n acc = acc ++ new := by
  induction n using Expr.ind with
  | h n ih =>
    intro acc ha hn
    obtain ⟨h1, ⟨new, e⟩, h2⟩ := visits_ok n.deps ih acc ha
    rw [visit_eq]
    exact ⟨ordered_snoc h1 (not_mem_visits hn (fun d hd => hd)) h2, ⟨new ++ [n], by rw [e, List.append_assoc]⟩⟩

theorem ordered_nil : Ordered ([] : List (Expr O V A)) := ⟨by simp, by simp⟩

/-- In an ordered list all subexpressions of an element are present. -/
theorem ordered_sub {l : List (Expr O V A)} (h : Ordered l) {m n : Expr O V A} (hs : Sub m n) (hn : n ∈ l) : m ∈ l := by
  induction hs with
  | refl => exact hn
  | dep _ hm ih =>
    obtain ⟨i, hi⟩ := List.mem_iff_getElem?.1 hn
    obtain ⟨j, _, hj⟩ := h.2 i _ hi _ hm
    exact ih (List.mem_of_getElem? hj)

/-! ## The loop computes the order -/

theorem skip_step {n : Expr O V A} {k i fuel : Nat} {rest : List (Expr O V A × Nat)} {s : Scan O V A} {d : Expr O V A}
    (hd : n.deps[i]? = some d) (hk : (lookup s.idx d).isSome = true) :
    scanLoop fuel ((n, k) :: rest) i s = scanLoop fuel ((n, k) :: rest) (i + 1) s := by
  cases fuel with
  | zero => rfl
  | succ fuel =>
    have e : i + skipKnown s.idx (n.deps.drop i) = i + 1 + skipKnown s.idx (n.deps.drop (i + 1)) := by
      have hi := (List.getElem?_eq_some_iff.1 hd)
      rw [List.drop_eq_getElem_cons hi.1, hi.2, skipKnown, if_pos hk]
      omega
    rw [scanLoop, scanLoop]
    simp only [e]

theorem scan_deps {n : Expr O V A} (ih : ∀ d ∈ n.deps, ∀ (rest : List (Expr O V A × Nat)) (k : Nat) (acc : List (Expr O V A)),
      Ordered acc → d ∉ acc → ∃ c, c + 1 ≤ 2 * d.size ∧ ∀ fuel, scanLoop (fuel + c) ((d, k) :: rest) 0 (scanOf acc) =
        resume fuel rest (scanOf (visit d acc))) :
    ∀ (ds : List (Expr O V A)) (i : Nat) (rest : List (Expr O V A × Nat)) (k : Nat) (acc : List (Expr O V A)), n.deps.drop i = ds →
      Ordered acc → n ∉ acc → (∀ d ∈ n.deps.take i, d ∈ acc) →
      ∃ c, c ≤ 2 * Expr.sizes ds + 1 ∧ ∀ fuel, scanLoop (fuel + c) ((n, k) :: rest) i (scanOf acc) =
        resume fuel rest (scanOf (visits ds acc ++ [n])) := by
  intro ds
  induction ds with
  | nil =>
    intro i rest k acc hds ho hn hp
    refine ⟨1, by omega, fun fuel => ?_⟩
    rw [scanLoop, hds, skipKnown]
    have hlen : n.deps.length ≤ i := List.drop_eq_nil_iff.1 hds
    have hnone : n.deps[i + 0]? = none := List.getElem?_eq_none (by omega)
    simp only [hnone]
    have hs : ({ scanOf acc with
        arcs := (scanOf acc).arcs + n.deps.length, idx := emplace (scanOf acc).idx n (scanOf acc).nodes.length,
        nodes := (scanOf acc).nodes ++ [n] } : Scan O V A) = scanOf (visits [] acc ++ [n]) := by
      rw [visits]
      unfold scanOf
      simp only [emplace_zipIdx hn, List.map_append, List.map_cons, List.map_nil, List.sum_append, List.sum_cons, List.sum_nil,
        Nat.add_zero]
    rw [hs]
    cases rest <;> rfl
  | cons d ds ihd =>
    intro i rest k acc hds ho hn hp
    have hi : n.deps[i]? = some d := by
      have := congrArg List.head? hds
      simpa [List.head?_drop] using this
    have hlt := (List.getElem?_eq_some_iff.1 hi).1
    have hds' : n.deps.drop (i + 1) = ds := by
      have := congrArg List.tail hds
      simpa [List.tail_drop] using this
    have hmem : d ∈ n.deps := List.mem_of_getElem? hi
    rw [visits, Expr.sizes]
    have htake : n.deps.take (i + 1) = n.deps.take i ++ [d] := by
      rw [List.take_succ, hi]; rfl
    by_cases hd : d ∈ acc
    · rw [if_pos hd]
      obtain ⟨c, hc, h⟩ := ihd (i + 1) rest k acc hds' ho hn (by
        intro x hx
        rw [htake] at hx
        rcases List.mem_append.1 hx with hx | hx
        · exact hp x hx
        · simp at hx; subst hx; exact hd)
      refine ⟨c, by omega, fun fuel => ?_⟩
      rw [skip_step hi (by unfold scanOf; exact (lookup_isSome 0).2 hd), h]
    · rw [if_neg hd]
      obtain ⟨c1, hc1, h1⟩ := ih d hmem ((n, i + 1) :: rest) 0 acc ho hd
      obtain ⟨ho', new, enew⟩ := visit_ok d acc ho hd
      have hn' : n ∉ visit d acc := by
        intro hx
        rcases visit_mem d acc n hx with hx | hx
        · exact hn hx
        · exact not_sub_dep hmem hx
      obtain ⟨c2, hc2, h2⟩ := ihd (i + 1) rest (i + 1) (visit d acc) hds' ho' hn' (by
        intro x hx
        rw [htake] at hx
        rcases List.mem_append.1 hx with hx | hx
        · rw [enew]; exact List.mem_append_left _ (hp x hx)
        · simp at hx; subst hx; rw [visit_eq]; simp)
      refine ⟨c2 + c1 + 1, by omega, fun fuel => ?_⟩
      have hsk : skipKnown (scanOf acc).idx (n.deps.drop i) = 0 := by
        rw [hds, skipKnown, if_neg]
        unfold scanOf
        rw [lookup_isSome]; exact hd
      rw [show fuel + (c2 + c1 + 1) = (fuel + c2 + c1) + 1 from by omega, scanLoop]
      simp only [hsk, Nat.add_zero, hi]
      rw [h1]
      rw [resume]
      exact h2 fuel

theorem scan_node (n : Expr O V A) : ∀ (rest : List (Expr O V A × Nat)) (k : Nat) (acc : List (Expr O V A)), Ordered acc → n ∉ acc →
    ∃ c, c + 1 ≤ 2 * n.size ∧ ∀ fuel, scanLoop (fuel + c) ((n, k) :: rest) 0 (scanOf acc) =
      resume fuel rest (scanOf (visit n acc)) := by
  induction n using Expr.ind with
  | h n ih =>
    intro rest k acc ho hn
    obtain ⟨c, hc, h⟩ := scan_deps ih n.deps 0 rest k acc (by simp) ho hn (by simp)
    refine ⟨c, by rw [size_eq]; omega, fun fuel => ?_⟩
    rw [h, visit_eq]

theorem scan_root (root : Expr O V A) :
    scanLoop (2 * root.size) [(root, 0)] 0 ⟨[], [], 0⟩ = some (scanOf (visit root [])) := by
  obtain ⟨c, hc, h⟩ := scan_node root [] 0 [] ordered_nil (by simp)
  have := h (2 * root.size - c)
  rw [Nat.sub_add_cancel (by omega)] at this
  exact this

end Verif.Expr
