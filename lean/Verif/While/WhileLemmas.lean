import Verif.Expr.TransformProps
import Verif.Expr.VisitorProps
import Verif.Lambda.LambdaProps
import Verif.While.WhileSpec

namespace Verif.While
open Verif.Expr Verif.Lambda
variable {O V Q E D T : Type}

/-! ## Names -/

theorem decimal_inj {a b : Nat} (h : decimal a = decimal b) : a = b := by
  have key : ∀ n : Nat, n ≠ 0 → (Nat.digits 10 n).reverse.map (· + 48) ≠ [48] := by
    intro n hn he
    have h1 : (Nat.digits 10 n).reverse = [0] := by
      cases hd : (Nat.digits 10 n).reverse with
      | nil => rw [hd] at he; simp at he
      | cons x xs =>
        rw [hd] at he
        simp only [List.map_cons, List.cons.injEq, List.map_eq_nil_iff] at he
        rw [he.2, show x = 0 by omega]
    have h2 : Nat.digits 10 n = [0] := by
      have := congrArg List.reverse h1
      simpa using this
    have := Nat.ofDigits_digits 10 n
    rw [h2] at this
    simp at this
    exact hn this.symm
  unfold decimal at h
  split at h <;> split at h
  · omega
  · rename_i hb; exact absurd h.symm (key b hb)
  · rename_i ha _; exact absurd h (key a ha)
  · have : (Nat.digits 10 a).reverse = (Nat.digits 10 b).reverse :=
      List.map_injective_iff.2 (fun x y hxy => by simpa using hxy) h
    exact Nat.digits_inj_iff.1 (List.reverse_injective this)

theorem immName_inj {a b : Nat} (h : immName a = immName b) : a = b := by
  unfold immName at h
  exact decimal_inj (List.cons.inj (List.append_cancel_left h)).2

theorem reserved_immName (i : Nat) : Reserved (immName i) := by
  unfold Reserved immName
  rw [List.isPrefixOf_iff_prefix]
  exact List.prefix_append _ _

/-! ## Maps -/

theorem find_append {m m' : List (Key × T)} (k : Key) : find (m ++ m') k = (find m k).or (find m' k) := by
  unfold find
  rw [List.find?_append]
  cases List.find? (fun e => decide (e.1 = k)) m <;> rfl

theorem find_cons (e : Key × T) (m : List (Key × T)) (k : Key) : find (e :: m) k = if e.1 = k then some e.2 else find m k := by
  unfold find
  rw [List.find?_cons]
  by_cases h : e.1 = k
  · simp [h]
  · simp [h]

theorem find_emplace (m : List (Key × T)) (k k' : Key) (t : T) :
    find (emplace m k t) k' = if k' = k then some ((find m k).getD t) else find m k' := by
  unfold emplace
  split
  · rename_i h
    split
    · rename_i hk
      subst hk
      obtain ⟨x, hx⟩ := Option.isSome_iff_exists.1 h
      rw [hx]; rfl
    · rfl
  · rename_i h
    have hn : find m k = none := by simpa using h
    rw [find_append, find_cons]
    split
    · rename_i hk
      subst hk
      rw [hn, if_pos rfl]; rfl
    · rename_i hk
      rw [if_neg (fun h => hk h.symm)]
      cases find m k' <;> rfl

theorem find_merge : ∀ (other m : List (Key × T)) (k : Key), find (merge m other) k = (find m k).or (find other k) := by
  intro other
  induction other with
  | nil => intro m k; rw [merge]; cases find m k <;> rfl
  | cons e rest ih =>
    intro m k
    rw [merge, ih, find_emplace, find_cons]
    by_cases hk : e.1 = k
    · subst hk
      rw [if_pos rfl, if_pos rfl]
      cases find m e.1 <;> rfl
    · rw [if_neg (fun h => hk h.symm), if_neg hk]

theorem find_assign (m : List (Key × T)) (k k' : Key) (t : T) :
    find (assign m k t) k' = if k' = k then some t else find m k' := by
  unfold assign
  split
  · rename_i h
    have : ∀ m : List (Key × T), find (m.map (fun e => if e.1 = k then (k, t) else e)) k' =
        if k' = k then (find m k).map (fun _ => t) else find m k' := by
      intro m
      induction m with
      | nil => unfold find; simp
      | cons e m ih =>
        rw [List.map_cons, find_cons, ih, find_cons, find_cons]
        by_cases he : e.1 = k
        · simp only [he, if_true]
          by_cases hk : k' = k
          · simp [hk]
          · have hk2 : ¬ k = k' := fun h => hk h.symm
            simp [hk, hk2]
        · simp only [he, if_false]
          by_cases hk : k' = k
          · subst hk
            simp [he]
          · by_cases hk' : e.1 = k'
            · simp [hk', hk]
            · simp [hk', hk]
    rw [this]
    obtain ⟨x, hx⟩ := Option.isSome_iff_exists.1 h
    rw [hx]; rfl
  · rename_i h
    have hn : find m k = none := by simpa using h
    rw [find_append, find_cons]
    split
    · rename_i hk
      subst hk
      rw [hn, if_pos rfl]; rfl
    · rename_i hk
      rw [if_neg (fun h => hk h.symm)]
      cases find m k' <;> rfl

theorem mem_keys_iff (m : List (Key × T)) (k : Key) : k ∈ m.map (·.1) ↔ (find m k).isSome = true := by
  induction m with
  | nil => simp [find]
  | cons e m ih =>
    rw [find_cons, List.map_cons, List.mem_cons, ih]
    by_cases h : e.1 = k
    · simp [h]
    · have h2 : ¬ k = e.1 := fun h' => h h'.symm
      simp [h, h2]

theorem find_of_mem {m : List (Key × T)} (hnd : (m.map (·.1)).Nodup) {e : Key × T} (h : e ∈ m) : find m e.1 = some e.2 := by
  induction m with
  | nil => cases h
  | cons x m ih =>
    rw [List.map_cons, List.nodup_cons] at hnd
    rw [find_cons]
    rcases List.mem_cons.1 h with rfl | h
    · rw [if_pos rfl]
    · have : x.1 ≠ e.1 := fun he => hnd.1 (by rw [he]; exact List.mem_map.2 ⟨e, h, rfl⟩)
      rw [if_neg this]
      exact ih hnd.2 h

theorem find_mem {m : List (Key × T)} {k : Key} {t : T} (h : find m k = some t) : (k, t) ∈ m := by
  induction m with
  | nil => simp [find] at h
  | cons x m ih =>
    rw [find_cons] at h
    split at h
    · rename_i hk
      cases h
      subst hk
      exact List.mem_cons_self
    · exact List.mem_cons_of_mem _ (ih h)

/-! ## Expressions -/

theorem sub_iff {m n : Node O V Q} : Sub m n ↔ m = n ∨ ∃ d ∈ n.deps, Sub m d := by
  constructor
  · intro h
    cases h with
    | refl => exact Or.inl rfl
    | dep h1 h2 => exact Or.inr ⟨_, h2, h1⟩
  · rintro (rfl | ⟨d, h1, h2⟩)
    · exact Sub.refl _
    · exact Sub.dep h2 h1

theorem phIn_iff {n : Node O V Q} {k : Key} : PhIn n k ↔ placeholderKey n = some k ∨ ∃ d ∈ n.deps, PhIn d k := by
  unfold PhIn
  constructor
  · rintro ⟨m, h1, h2⟩
    rcases sub_iff.1 h1 with rfl | ⟨d, hd, hs⟩
    · exact Or.inl h2
    · exact Or.inr ⟨d, hd, m, hs, h2⟩
  · rintro (h | ⟨d, hd, m, hs, h2⟩)
    · exact ⟨n, Sub.refl _, h⟩
    · exact ⟨m, Sub.dep hs hd, h2⟩

theorem leafIn_iff {n : Node O V Q} : LeafIn n ↔ leafKey n ≠ none ∨ ∃ d ∈ n.deps, LeafIn d := by
  unfold LeafIn
  constructor
  · rintro ⟨m, h1, h2⟩
    rcases sub_iff.1 h1 with rfl | ⟨d, hd, hs⟩
    · exact Or.inl h2
    · exact Or.inr ⟨d, hd, m, hs, h2⟩
  · rintro (h | ⟨d, hd, m, hs, h2⟩)
    · exact ⟨n, Sub.refl _, h⟩
    · exact ⟨m, Sub.dep hs hd, h2⟩

section
variable [DecidableEq O] [DecidableEq V] [DecidableEq Q]

theorem value_congr (I : O → List D → D) (lit : V → D) (leaf ρ ρ' : Key → D) (n : Node O V Q)
    (h : ∀ k, PhIn n k → ρ k = ρ' k) : value I lit leaf ρ n = value I lit leaf ρ' n := by
  induction n using Expr.ind with
  | h n ih =>
    obtain ⟨l, a, ds⟩ := n
    cases l with
    | leaf k => rw [value, value]
    | literal w => rw [value, value]
    | placeholder k => rw [value, value]; exact h k (phIn_iff.2 (Or.inl rfl))
    | op o =>
      rw [value, value, values_map, values_map]
      congr 1
      apply List.map_congr_left
      intro d hd
      exact ih d hd (fun k hk => h k (phIn_iff.2 (Or.inr ⟨d, hd, hk⟩)))

/-- `ρ'` has the values of the named nodes, and else those of `ρ`. -/
def Agree (I : O → List D → D) (lit : V → D) (leaf : Key → D) (names : List (Node O V Q)) (ρ ρ' : Key → D) : Prop :=
  (∀ (i : Nat) (e : Node O V Q), names[i]? = some e → ρ' (immName i) = value I lit leaf ρ e) ∧
  ∀ k, ¬ Reserved k → ρ' k = ρ k

theorem agree_mono {I : O → List D → D} {lit : V → D} {leaf ρ ρ' : Key → D} {names names' : List (Node O V Q)}
    (hp : names <+: names') (h : Agree I lit leaf names' ρ ρ') : Agree I lit leaf names ρ ρ' := by
  refine ⟨fun i e he => h.1 i e ?_, h.2⟩
  obtain ⟨t, rfl⟩ := hp
  rw [List.getElem?_append_left (List.getElem?_eq_some_iff.1 he).1]
  exact he

/-- What holds for an expression `d` replacing `n`. -/
structure DOk (G : Lang O V (Attr Q V) E) (names : List (Node O V Q)) (n d : Node O V Q) : Prop where
  wf : WF G d
  noLeaf : ¬ LeafIn d
  keys : ∀ k, PhIn d k → PhIn n k ∨ ∃ i < names.length, k = immName i
  val : ∀ (D : Type) (I : O → List D → D) (lit : V → D) (leaf ρ ρ' : Key → D), Agree I lit leaf names ρ ρ' →
    value I lit leaf ρ' d = value I lit leaf ρ n
  keep : ∀ k, PhIn n k → PhIn d k

theorem DOk.mono {G : Lang O V (Attr Q V) E} {names names' : List (Node O V Q)} {n d : Node O V Q} (hp : names <+: names')
    (h : DOk G names n d) : DOk G names' n d := by
  refine ⟨h.wf, h.noLeaf, ?_, fun D I lit leaf ρ ρ' ha => h.val D I lit leaf ρ ρ' (agree_mono hp ha), h.keep⟩
  intro k hk
  rcases h.keys k hk with h' | ⟨i, hi, hk'⟩
  · exact Or.inl h'
  · exact Or.inr ⟨i, by have := hp.length_le; omega, hk'⟩

/-- What holds for the result of the visitor. -/
structure VOk (G : Lang O V (Attr Q V) E) (names : List (Node O V Q)) (n : Node O V Q) (v : Visit O V Q) : Prop where
  ph : v.hasPh = true ↔ ∃ k, PhIn n k
  leaf : v.hasLeaf = true ↔ LeafIn n
  same : v.hasPh = false → v.expr = n
  ok : v.hasPh = true → DOk G names n v.expr

theorem VOk.mono {G : Lang O V (Attr Q V) E} {names names' : List (Node O V Q)} {n : Node O V Q} {v : Visit O V Q}
    (hp : names <+: names') (h : VOk G names n v) : VOk G names' n v :=
  ⟨h.ph, h.leaf, h.same, fun hv => (h.ok hv).mono hp⟩

/-- What holds for the state; the names from `n0` on are in `imms`. -/
structure StOk (G : Lang O V (Attr Q V) E) (n0 : Nat) (st : St O V Q) : Prop where
  sound : ∀ k e, find st.imms k = some e → ∃ i, k = immName i ∧ st.names[i]? = some e
  complete : ∀ (i : Nat) (e : Node O V Q), n0 ≤ i → st.names[i]? = some e → find st.imms (immName i) = some e
  imm : ∀ e ∈ st.names, WF G e ∧ ∀ k, ¬ PhIn e k

theorem nameOf_spec (node : Node O V Q) (names : List (Node O V Q)) :
    (nameOf node names).2[(nameOf node names).1]? = some node ∧ names <+: (nameOf node names).2 ∧
    ((nameOf node names).2 = names ∨ (nameOf node names).2 = names ++ [node] ∧ (nameOf node names).1 = names.length) := by
  unfold nameOf
  cases h : names.findIdx? (fun n => n = node) with
  | some i =>
    simp only
    obtain ⟨hi, h1, -⟩ := List.findIdx?_eq_some_iff_getElem.1 h
    refine ⟨?_, List.prefix_rfl, by simp⟩
    rw [List.getElem?_eq_getElem hi]
    simpa using h1
  | none => simp

theorem name_step {G : Lang O V (Attr Q V) E} {n0 : Nat} {st : St O V Q} (h : StOk G n0 st) {node : Node O V Q}
    (hwf : WF G node) (hph : ∀ k, ¬ PhIn node k) :
    StOk G n0 ⟨(nameOf node st.names).2, emplace st.imms (immName (nameOf node st.names).1) node⟩ := by
  obtain ⟨h1, h2, h3⟩ := nameOf_spec node st.names
  generalize hnm : nameOf node st.names = nm at *
  obtain ⟨i, names⟩ := nm
  dsimp only at *
  have hold : ∀ (j : Nat) (e : Node O V Q), st.names[j]? = some e → names[j]? = some e := by
    intro j e he
    obtain ⟨t, rfl⟩ := h2
    rw [List.getElem?_append_left (List.getElem?_eq_some_iff.1 he).1]
    exact he
  have hi : (find st.imms (immName i)).getD node = node := by
    cases hf : find st.imms (immName i) with
    | none => rfl
    | some e =>
      obtain ⟨j, hj1, hj2⟩ := h.sound _ _ hf
      have := immName_inj hj1
      subst this
      have := hold i e hj2
      rw [h1] at this
      exact (Option.some.inj this).symm
  refine ⟨?_, ?_, ?_⟩
  · intro k e hk
    rw [find_emplace] at hk
    split at hk
    · rename_i hk'
      rw [hi] at hk
      cases hk
      exact ⟨i, hk', h1⟩
    · obtain ⟨j, hj1, hj2⟩ := h.sound _ _ hk
      exact ⟨j, hj1, hold j e hj2⟩
  · intro j e hj he
    rw [find_emplace, hi]
    split
    · rename_i hk
      have := immName_inj hk
      subst this
      dsimp only at he
      rw [← h1, he]
    · rename_i hk
      rcases h3 with h3 | ⟨h3, h4⟩
      · rw [h3] at he
        exact h.complete j e hj he
      · dsimp only at he
        rw [h3] at he
        rcases Nat.lt_or_ge j st.names.length with hlt | hge
        · rw [List.getElem?_append_left hlt] at he
          exact h.complete j e hj he
        · have hjl := (List.getElem?_eq_some_iff.1 he).1
          simp only [List.length_append, List.length_singleton] at hjl
          exact absurd (by rw [h4, show j = st.names.length by omega]) hk
  · intro e he
    rcases h3 with h3 | ⟨h3, -⟩
    · rw [h3] at he; exact h.imm e he
    · rw [h3] at he
      rcases List.mem_append.1 he with he | he
      · exact h.imm e he
      · rw [List.mem_singleton.1 he]; exact ⟨hwf, hph⟩

theorem placeholder_ok {G : Lang O V (Attr Q V) E} {names : List (Node O V Q)} {i : Nat} {n : Node O V Q}
    (hi : names[i]? = some n) (hph : ∀ k, ¬ PhIn n k) : DOk G names n (placeholder G (immName i)) := by
  unfold placeholder
  refine ⟨WF.placeholder _, ?_, ?_, ?_, fun k hk => absurd hk (hph k)⟩
  · rw [leafIn_iff]
    rintro (h | ⟨d, hd, -⟩)
    · exact h rfl
    · simp [Expr.deps] at hd
  · intro k hk
    rw [phIn_iff] at hk
    rcases hk with h | ⟨d, hd, -⟩
    · cases h
      exact Or.inr ⟨i, (List.getElem?_eq_some_iff.1 hi).1, rfl⟩
    · simp [Expr.deps] at hd
  · intro D I lit leaf ρ ρ' ha
    rw [value]
    exact ha.1 i n hi

theorem depLoop_spec {G : Lang O V (Attr Q V) E} {n0 : Nat} : ∀ (ns : List (Node O V Q)) (visits : List (Visit O V Q))
    (st : St O V Q), StOk G n0 st → (∀ n ∈ ns, WF G n) → List.Forall₂ (VOk G st.names) ns visits →
    st.names <+: (depLoop G visits st).2.names ∧ StOk G n0 (depLoop G visits st).2 ∧
    List.Forall₂ (DOk G (depLoop G visits st).2.names) ns (depLoop G visits st).1 := by
  intro ns
  induction ns with
  | nil =>
    intro visits st hst _ hv
    cases hv
    exact ⟨List.prefix_rfl, hst, List.Forall₂.nil⟩
  | cons n ns ih =>
    intro visits st hst hwf hv
    cases hv with
    | cons h1 h2 =>
      rename_i v vs
      rw [depLoop]
      by_cases hc : (v.hasPh || !v.hasLeaf) = true
      · rw [if_pos hc]
        obtain ⟨g1, g2, g3⟩ := ih vs st hst (fun m hm => hwf m (by simp [hm])) h2
        refine ⟨g1, g2, List.Forall₂.cons ?_ g3⟩
        apply DOk.mono g1
        by_cases hp : v.hasPh = true
        · exact h1.ok hp
        · have hp : v.hasPh = false := by simpa using hp
          have hl : ¬ LeafIn n := by
            rw [← h1.leaf]
            rw [hp] at hc
            simpa using hc
          have hph : ∀ k, ¬ PhIn n k := fun k hk => by
            have := h1.ph.2 ⟨k, hk⟩
            rw [hp] at this; cases this
          rw [h1.same hp]
          refine ⟨hwf n (by simp), hl, fun k hk => Or.inl hk, ?_, fun k hk => hk⟩
          intro D I lit leaf ρ ρ' _
          exact value_congr I lit leaf ρ' ρ n (fun k hk => absurd hk (hph k))
      · rw [if_neg hc]
        have hp : v.hasPh = false := by
          cases h : v.hasPh
          · rfl
          · rw [h] at hc; simp at hc
        have hph : ∀ k, ¬ PhIn n k := fun k hk => by
          have := h1.ph.2 ⟨k, hk⟩
          rw [hp] at this; cases this
        have he := h1.same hp
        obtain ⟨f1, f2, -⟩ := nameOf_spec v.expr st.names
        have hst' := name_step hst (node := v.expr) (by rw [he]; exact hwf n (by simp)) (by rw [he]; exact hph)
        obtain ⟨g1, g2, g3⟩ := ih vs _ hst' (fun m hm => hwf m (by simp [hm])) (by
          exact List.Forall₂.imp (fun _ _ h => VOk.mono f2 h) h2)
        refine ⟨f2.trans g1, g2, List.Forall₂.cons ?_ g3⟩
        apply DOk.mono g1
        rw [← he]
        exact placeholder_ok f1 (by rw [he]; exact hph)

theorem forall₂_dep {R : Node O V Q → Node O V Q → Prop} {ns ds : List (Node O V Q)} (h : List.Forall₂ R ns ds) :
    ∀ d ∈ ds, ∃ n ∈ ns, R n d := by
  induction h with
  | nil => intro d hd; cases hd
  | cons h1 _ ih =>
    intro d hd
    rcases List.mem_cons.1 hd with rfl | hd
    · exact ⟨_, List.mem_cons_self, h1⟩
    · obtain ⟨n, hn, hr⟩ := ih d hd
      exact ⟨n, List.mem_cons_of_mem _ hn, hr⟩

theorem any_visits {G : Lang O V (Attr Q V) E} {names : List (Node O V Q)} {ns : List (Node O V Q)} {visits : List (Visit O V Q)}
    (h : List.Forall₂ (VOk G names) ns visits) :
    (visits.any (fun v => v.hasPh) = true ↔ ∃ n ∈ ns, ∃ k, PhIn n k) ∧
    (visits.any (fun v => v.hasLeaf) = true ↔ ∃ n ∈ ns, LeafIn n) := by
  induction h with
  | nil => simp
  | cons h1 _ ih =>
    rw [List.any_cons, List.any_cons, Bool.or_eq_true, Bool.or_eq_true, ih.1, ih.2, h1.ph, h1.leaf]
    simp

theorem extractVisit_spec {G : Lang O V (Attr Q V) E} {n0 : Nat} {n : Node O V Q} {visits : List (Visit O V Q)} {st : St O V Q}
    (hwf : WF G n) (hres : ∀ k, PhIn n k → ¬ Reserved k) (hst : StOk G n0 st)
    (hv : List.Forall₂ (VOk G st.names) n.deps visits) {v : Visit O V Q} {st' : St O V Q}
    (h : extractVisit G n visits st = .ok (v, st')) :
    st.names <+: st'.names ∧ StOk G n0 st' ∧ VOk G st'.names n v := by
  unfold extractVisit at h
  have hany := any_visits hv
  cases hwf with
  | leaf k =>
    have h : (Except.ok (⟨.mk (.leaf k) G.noAttr [], false, true⟩, st) : Except E (Visit O V Q × St O V Q)) = .ok (v, st') := h
    cases h
    refine ⟨List.prefix_rfl, hst, ?_, ?_, fun _ => rfl, fun h => by cases h⟩
    · constructor
      · intro h; cases h
      · rintro ⟨k', hk⟩
        rcases phIn_iff.1 hk with h' | ⟨d, hd, -⟩
        · cases h'
        · simp [Expr.deps] at hd
    · simp only [true_iff]
      exact leafIn_iff.2 (Or.inl (by simp [leafKey, Expr.label]))
  | placeholder k =>
    have h : (Except.ok (⟨.mk (.placeholder k) G.noAttr [], true, false⟩, st) : Except E (Visit O V Q × St O V Q)) = .ok (v, st') := h
    cases h
    have hl : ¬ LeafIn (.mk (.placeholder k) G.noAttr [] : Node O V Q) := by
      rw [leafIn_iff]
      rintro (h' | ⟨d, hd, -⟩)
      · exact h' rfl
      · simp [Expr.deps] at hd
    refine ⟨List.prefix_rfl, hst, ?_, ?_, (fun h => nomatch h), fun _ => ⟨WF.placeholder k, hl, fun k' hk => Or.inl hk, ?_, fun _ hk => hk⟩⟩
    · simp only [true_iff]
      exact ⟨k, phIn_iff.2 (Or.inl rfl)⟩
    · constructor
      · intro h; cases h
      · intro h; exact absurd h hl
    · intro D I lit leaf ρ ρ' ha
      rw [value, value]
      exact ha.2 k (hres k (phIn_iff.2 (Or.inl rfl)))
  | literal w =>
    have hvis : visits = [] := by
      have : List.Forall₂ (VOk G st.names) [] visits := hv
      cases this; rfl
    subst hvis
    have h : (Except.ok (⟨.mk (.literal w) (G.litAttr w) [], false, false⟩, st) : Except E (Visit O V Q × St O V Q)) = .ok (v, st') := h
    cases h
    refine ⟨List.prefix_rfl, hst, ?_, ?_, fun _ => rfl, fun h => by cases h⟩
    · constructor
      · intro h; cases h
      · rintro ⟨k', hk⟩
        rcases phIn_iff.1 hk with h' | ⟨d, hd, -⟩
        · cases h'
        · simp [Expr.deps] at hd
    · constructor
      · intro h; cases h
      · intro h
        rcases leafIn_iff.1 h with h' | ⟨d, hd, -⟩
        · exact absurd rfl h'
        · simp [Expr.deps] at hd
  | op o a ds h1 h2 =>
    have hd : (Expr.mk (.op o) a ds : Node O V Q).deps = ds := rfl
    rw [hd] at hv hany
    have hphn : (∃ k, PhIn (Expr.mk (.op o) a ds) k) ↔ ∃ n ∈ ds, ∃ k, PhIn n k := by
      constructor
      · rintro ⟨k, hk⟩
        rcases phIn_iff.1 hk with h' | ⟨d, hd', h'⟩
        · cases h'
        · exact ⟨d, hd', k, h'⟩
      · rintro ⟨d, hd', k, hk⟩
        exact ⟨k, phIn_iff.2 (Or.inr ⟨d, hd', hk⟩)⟩
    have hleafn : LeafIn (Expr.mk (.op o) a ds) ↔ ∃ n ∈ ds, LeafIn n := by
      constructor
      · intro hk
        rcases leafIn_iff.1 hk with h' | ⟨d, hd', h'⟩
        · exact absurd rfl h'
        · exact ⟨d, hd', h'⟩
      · rintro ⟨d, hd', hk⟩
        exact leafIn_iff.2 (Or.inr ⟨d, hd', hk⟩)
    rw [if_neg (by simp [isPlaceholder, placeholderKey, Expr.label]), if_neg (by simp [isLeaf, leafKey, Expr.label])] at h
    simp only at h
    by_cases hp : visits.any (fun v => v.hasPh) = true
    · rw [hp, if_neg (by simp)] at h
      obtain ⟨g1, g2, g3⟩ := depLoop_spec ds visits st hst h1 hv
      generalize hr : depLoop G visits st = r at *
      rw [withNewDeps_op h2] at h
      unfold Lang.mkOp at h
      cases hi : G.infer o (r.1.map Expr.attr) with
      | error e => rw [hi] at h; cases h
      | ok a' =>
        rw [hi] at h
        simp only [Except.ok.injEq, Prod.mk.injEq] at h
        obtain ⟨rfl, rfl⟩ := h
        refine ⟨g1, g2, ?_, ?_, (fun h => nomatch h), fun _ => ⟨WF.op o a' r.1 ?_ hi, ?_, ?_, ?_, ?_⟩⟩
        · simp only [true_iff]
          exact hphn.2 (hany.1.1 hp)
        · rw [hany.2, hleafn]
        · intro d hd'
          obtain ⟨n', -, hr'⟩ := forall₂_dep g3 d hd'
          exact hr'.wf
        · rw [leafIn_iff]
          rintro (h' | ⟨d, hd', h'⟩)
          · exact h' rfl
          · obtain ⟨n', -, hr'⟩ := forall₂_dep g3 d hd'
            exact hr'.noLeaf h'
        · intro k hk
          rcases phIn_iff.1 hk with h' | ⟨d, hd', h'⟩
          · cases h'
          · obtain ⟨n', hn', hr'⟩ := forall₂_dep g3 d hd'
            rcases hr'.keys k h' with h'' | h''
            · exact Or.inl (phIn_iff.2 (Or.inr ⟨n', hn', h''⟩))
            · exact Or.inr h''
        · intro D I lit leaf ρ ρ' ha
          rw [value, value, values_map, values_map]
          congr 1
          clear * - g3 ha
          generalize r.1 = rs at g3
          induction g3 with
          | nil => rfl
          | cons h1 _ ih => rw [List.map_cons, List.map_cons, ih, h1.val D I lit leaf ρ ρ' ha]
        · intro k hk
          rcases phIn_iff.1 hk with h' | ⟨d, hd', h'⟩
          · cases h'
          · have hd' : d ∈ ds := hd'
            obtain ⟨d', hd'', hr'⟩ := forall₂_dep (R := fun a b => DOk G r.2.names b a) (List.Forall₂.flip g3) d hd'
            exact phIn_iff.2 (Or.inr ⟨d', hd'', hr'.keep k h'⟩)
    · have hp' : visits.any (fun v => v.hasPh) = false := by simpa using hp
      rw [hp', if_pos (by rfl)] at h
      simp only [Except.ok.injEq, Prod.mk.injEq] at h
      obtain ⟨rfl, rfl⟩ := h
      refine ⟨List.prefix_rfl, hst, ?_, ?_, fun _ => rfl, fun h => by cases h⟩
      · constructor
        · intro h; cases h
        · intro h; exact absurd (hany.1.2 (hphn.1 h)) hp
      · rw [hany.2, hleafn]

theorem gather_forall₂ {T R : Type} {P : R → T → Prop} {nodes : List R} {results : List T} {i : Nat}
    (h : ∀ (j : Nat) (n : R), j < i → nodes[j]? = some n → ∃ v, results[j]? = some v ∧ P n v) :
    ∀ (ix : List Nat) (ds : List R), ix.map (fun k => nodes[k]?) = ds.map some → (∀ k ∈ ix, k < i) →
    ∃ vs, gather results ix = some vs ∧ List.Forall₂ P ds vs := by
  intro ix
  induction ix with
  | nil =>
    intro ds hd _
    cases ds with
    | nil => exact ⟨[], rfl, List.Forall₂.nil⟩
    | cons d ds => simp at hd
  | cons k ix ih =>
    intro ds hd hk
    cases ds with
    | nil => simp at hd
    | cons d ds =>
      simp only [List.map_cons, List.cons.injEq] at hd
      obtain ⟨vs, g1, g2⟩ := ih ds hd.2 (fun k' hk' => hk k' (by simp [hk']))
      obtain ⟨v, g3, g4⟩ := h k d (hk k (by simp)) hd.1
      exact ⟨v :: vs, by rw [gather, g3, g1], List.Forall₂.cons g4 g2⟩

theorem extractLoop_spec {G : Lang O V (Attr Q V) E} {n0 : Nat} {root : Node O V Q} {po : PostOrder O V (Attr Q V)}
    (hpo : postOrder root = some po) (hwf : WF G root) (hres : ∀ k, PhIn root k → ¬ Reserved k) :
    ∀ (m i : Nat) (results : List (Visit O V Q)) (st : St O V Q), i + m = po.nodes.length → results.length = i →
      StOk G n0 st → (∀ (j : Nat) (n : Node O V Q), j < i → po.nodes[j]? = some n → ∃ v, results[j]? = some v ∧ VOk G st.names n v) →
      extractLoop G po m i results st ≠ none ∧
      ∀ v st', extractLoop G po m i results st = some (.ok (v, st')) →
        st.names <+: st'.names ∧ StOk G n0 st' ∧ VOk G st'.names root v := by
  obtain ⟨po', hpo', hnd, hsub, hlast, hdep, _⟩ := post_order root
  rw [hpo] at hpo'; cases hpo'
  have hsubres : ∀ n, Sub n root → ∀ k, PhIn n k → ¬ Reserved k := by
    rintro n hn k ⟨m, hm, hk⟩
    refine hres k ⟨m, ?_, hk⟩
    clear * - hn hm
    induction hn with
    | refl => exact hm
    | dep _ hd ih => exact Sub.dep ih hd
  intro m
  induction m with
  | zero =>
    intro i results st him hlen hst h
    have hl : po.nodes[po.nodes.length - 1]? = some root := by rw [← List.getLast?_eq_getElem?]; exact hlast
    have hlt := (List.getElem?_eq_some_iff.1 hl).1
    obtain ⟨v, g1, g2⟩ := h _ root (by omega) hl
    rw [extractLoop, List.getLast?_eq_getElem?, show results.length = po.nodes.length by omega, g1]
    refine ⟨by simp, ?_⟩
    intro v' st' he
    simp only [Option.map_some, Option.some.injEq, Except.ok.injEq, Prod.mk.injEq] at he
    obtain ⟨rfl, rfl⟩ := he
    exact ⟨List.prefix_rfl, hst, g2⟩
  | succ m ih =>
    intro i results st him hlen hst h
    have hi : po.nodes[i]? = some po.nodes[i] := List.getElem?_eq_getElem (by omega)
    generalize po.nodes[i] = n at hi
    obtain ⟨ix, d1, d2, d3⟩ := hdep i n hi
    obtain ⟨vs, g1, g2⟩ := gather_forall₂ h ix n.deps d2 d3
    rw [extractLoop, hi, d1]
    simp only
    rw [g1]
    simp only
    have hsn := (hsub n).1 (List.mem_of_getElem? hi)
    cases hx : extractVisit G n vs st with
    | error e => exact ⟨by simp, fun v st' he => by cases he⟩
    | ok r =>
      obtain ⟨v, st1⟩ := r
      simp only
      obtain ⟨q1, q2, q3⟩ := extractVisit_spec (wf_sub hwf hsn) (hsubres n hsn) hst g2 hx
      obtain ⟨r1, r2⟩ := ih (i + 1) (results ++ [v]) st1 (by omega) (by simp [hlen]) q2 (by
        intro j n' hj hn'
        by_cases hji : j < i
        · obtain ⟨v', w1, w2⟩ := h j n' hji hn'
          refine ⟨v', ?_, w2.mono q1⟩
          rw [List.getElem?_append_left (by omega)]; exact w1
        · have : j = i := by omega
          subst this
          rw [hi] at hn'; cases hn'
          refine ⟨v, ?_, q3⟩
          rw [List.getElem?_append_right (by omega), hlen]; simp)
      refine ⟨r1, ?_⟩
      intro v' st' he
      obtain ⟨e1, e2, e3⟩ := r2 v' st' he
      exact ⟨q1.trans e1, e2, e3⟩

/-- `ExtractImmutables`: the new expression has no leaves, and it has the value of the old one if the new placeholders have the
values of the nodes that they stand for. -/
theorem extractImmutables_spec {G : Lang O V (Attr Q V) E} {root : Node O V Q} (hwf : WF G root)
    (hres : ∀ k, PhIn root k → ¬ Reserved k) (names : List (Node O V Q)) (hn : ∀ e ∈ names, WF G e ∧ ∀ k, ¬ PhIn e k) :
    extractImmutables G root names ≠ none ∧
    ∀ new st, extractImmutables G root names = some (.ok (new, st)) →
      names <+: st.names ∧ StOk G names.length st ∧ DOk G st.names root new := by
  obtain ⟨po, hpo, -⟩ := post_order root
  have h0 : StOk G names.length (⟨names, []⟩ : St O V Q) := by
    refine ⟨fun k e h => by simp [find] at h, ?_, hn⟩
    intro i e hi he
    have := (List.getElem?_eq_some_iff.1 he).1
    exact absurd this (by show ¬ i < names.length; omega)
  obtain ⟨h1, h2⟩ := extractLoop_spec (n0 := names.length) hpo hwf hres po.nodes.length 0 [] ⟨names, []⟩ (by omega) rfl h0
    (fun j n hj => by omega)
  unfold extractImmutables
  rw [hpo]
  simp only
  cases hx : extractLoop G po po.nodes.length 0 [] ⟨names, []⟩ with
  | none => exact absurd hx h1
  | some r =>
    cases r with
    | error e => exact ⟨by simp, fun new st h => by cases h⟩
    | ok r =>
      obtain ⟨v, st1⟩ := r
      obtain ⟨g1, g2, g3⟩ := h2 v st1 hx
      simp only
      by_cases hp : v.hasPh = true
      · rw [if_pos hp]
        refine ⟨by simp, ?_⟩
        intro new st h
        simp only [Option.some.injEq, Except.ok.injEq, Prod.mk.injEq] at h
        obtain ⟨rfl, rfl⟩ := h
        exact ⟨g1, g2, g3.ok hp⟩
      · rw [if_neg hp]
        have hp : v.hasPh = false := by simpa using hp
        refine ⟨by simp, ?_⟩
        intro new st h
        simp only [Option.some.injEq, Except.ok.injEq, Prod.mk.injEq] at h
        obtain ⟨rfl, rfl⟩ := h
        have he := g3.same hp
        have hph : ∀ k, ¬ PhIn root k := fun k hk => by
          have := g3.ph.2 ⟨k, hk⟩
          rw [hp] at this; cases this
        obtain ⟨f1, f2, -⟩ := nameOf_spec v.expr st1.names
        refine ⟨g1.trans f2, name_step g2 (by rw [he]; exact hwf) (by rw [he]; exact hph), ?_⟩
        rw [he] at f1 ⊢
        exact placeholder_ok f1 hph

end

end Verif.While
