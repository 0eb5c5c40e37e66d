import Verif.Expr.PostOrderProps
import Mathlib.Data.List.Perm.Basic

/-!
# C40: VisitorOrder, PreAndPostVisitorOrder, GetLeafKeys
-/

namespace Verif.Expr
variable {O V A E T : Type} [DecidableEq O] [DecidableEq V] [DecidableEq A]

mutual
/-- The calls made for an expression when the nodes `acc` are finished. -/
def events : Expr O V A → List (Expr O V A) → List (Bool × Expr O V A)
  | .mk l a ds, acc => (true, .mk l a ds) :: eventsL ds acc ++ [(false, .mk l a ds)]
/-- The same for lists. -/
def eventsL : List (Expr O V A) → List (Expr O V A) → List (Bool × Expr O V A)
  | [], _ => []
  | d :: ds, acc => if d ∈ acc then eventsL ds acc else events d acc ++ eventsL ds (visit d acc)
end

theorem events_eq (n : Expr O V A) (acc : List (Expr O V A)) :
    events n acc = (true, n) :: eventsL n.deps acc ++ [(false, n)] := by
  cases n; rw [events]; rfl

/-- The visited set: the finished nodes, and nodes that are being visited and contain `n`. -/
def Seen (seen acc : List (Expr O V A)) (n : Expr O V A) : Prop :=
  (∀ x ∈ acc, x ∈ seen) ∧ n ∈ seen ∧ ∀ x ∈ seen, x ∉ acc → x ≠ n → ¬ Sub x n

theorem visitLoop_deps {n : Expr O V A} (ih : ∀ d ∈ n.deps, ∀ (rest : List (Expr O V A × Nat)) (acc seen : List (Expr O V A)) (ev),
      Ordered acc → d ∉ acc → Seen seen acc d →
      ∃ c seen', c + 1 ≤ 2 * d.size ∧ (∀ x, x ∈ seen' ↔ x ∈ seen ∨ x ∈ visit d acc) ∧
        ∀ fuel, visitLoop (fuel + c) ((d, 0) :: rest) seen ev = visitLoop fuel rest seen' (ev ++ events d acc)) :
    ∀ (ds : List (Expr O V A)) (i : Nat) (rest : List (Expr O V A × Nat)) (acc seen : List (Expr O V A)) (ev), n.deps.drop i = ds →
      Ordered acc → n ∉ acc → Seen seen acc n →
      ∃ c seen', c ≤ 2 * Expr.sizes ds + 1 ∧ (∀ x, x ∈ seen' ↔ x ∈ seen ∨ x ∈ visits ds acc) ∧
        ∀ fuel, visitLoop (fuel + c) ((n, i) :: rest) seen ev =
          visitLoop fuel rest seen' ((if i = 0 then ev ++ [(true, n)] else ev) ++ eventsL ds acc ++ [(false, n)]) := by
  intro ds
  induction ds with
  | nil =>
    intro i rest acc seen ev hds ho hn hx
    refine ⟨1, seen, by omega, ?_, fun fuel => ?_⟩
    · intro x
      rw [visits]
      constructor
      · exact Or.inl
      · rintro (h | h)
        · exact h
        · exact hx.1 x h
    · have hnone : n.deps[i]? = none := List.getElem?_eq_none (List.drop_eq_nil_iff.1 hds)
      rw [visitLoop]
      simp only [hnone, eventsL, List.append_nil]
  | cons d ds ihd =>
    intro i rest acc seen ev hds ho hn hx
    have hi : n.deps[i]? = some d := by
      have := congrArg List.head? hds
      simpa [List.head?_drop] using this
    have hds' : n.deps.drop (i + 1) = ds := by
      have := congrArg List.tail hds
      simpa [List.tail_drop] using this
    have hmem : d ∈ n.deps := List.mem_of_getElem? hi
    have hdn : d ≠ n := by rintro rfl; exact not_sub_dep hmem (.refl _)
    have hsd : Sub d n := .dep (.refl d) hmem
    have hiff : d ∈ seen ↔ d ∈ acc := by
      constructor
      · intro h
        exact Classical.byContradiction (fun hna => hx.2.2 d h hna hdn hsd)
      · exact hx.1 d
    rw [visits, eventsL, Expr.sizes]
    by_cases hd : d ∈ acc
    · rw [if_pos hd, if_pos hd]
      obtain ⟨c, seen', hc, hs', h⟩ := ihd (i + 1) rest acc seen (if i = 0 then ev ++ [(true, n)] else ev) hds' ho hn hx
      have hsz : 1 ≤ d.size := by rw [size_eq]; omega
      refine ⟨c + 1, seen', by omega, hs', fun fuel => ?_⟩
      rw [show fuel + (c + 1) = (fuel + c) + 1 from rfl, visitLoop]
      simp only [hi]
      rw [if_pos (hiff.2 hd), h]
      simp
    · rw [if_neg hd, if_neg hd]
      have hx1 : Seen (d :: seen) acc d := by
        refine ⟨fun x h => List.mem_cons_of_mem _ (hx.1 x h), by simp, ?_⟩
        intro x hxs hxa hxd hsub
        rcases List.mem_cons.1 hxs with h | h
        · exact hxd h
        · refine hx.2.2 x h hxa ?_ (hsub.trans hsd)
          rintro rfl
          exact not_sub_dep hmem hsub
      obtain ⟨c1, seen1, hc1, hs1, h1⟩ := ih d hmem ((n, i + 1) :: rest) acc (d :: seen)
        (if i = 0 then ev ++ [(true, n)] else ev) ho hd hx1
      obtain ⟨ho', new, enew⟩ := visit_ok d acc ho hd
      have hn' : n ∉ visit d acc := by
        intro hx
        rcases visit_mem d acc n hx with hx | hx
        · exact hn hx
        · exact not_sub_dep hmem hx
      have hdv : d ∈ visit d acc := by rw [visit_eq]; simp
      have hx2 : Seen seen1 (visit d acc) n := by
        refine ⟨fun x h => (hs1 x).2 (Or.inr h), (hs1 n).2 (Or.inl (List.mem_cons_of_mem _ hx.2.1)), ?_⟩
        intro x hxs hxa hxn
        rcases (hs1 x).1 hxs with h | h
        · rcases List.mem_cons.1 h with h | h
          · subst h; exact absurd hdv hxa
          · refine hx.2.2 x h (fun hh => hxa ?_) hxn
            rw [enew]; exact List.mem_append_left _ hh
        · exact absurd h hxa
      obtain ⟨c2, seen2, hc2, hs2, h2⟩ := ihd (i + 1) rest (visit d acc) seen1
        ((if i = 0 then ev ++ [(true, n)] else ev) ++ events d acc) hds' ho' hn' hx2
      refine ⟨c2 + c1 + 1, seen2, by omega, ?_, fun fuel => ?_⟩
      · intro x
        rw [hs2, hs1, List.mem_cons]
        have hsub : ∀ x, x ∈ visit d acc → x ∈ visits ds (visit d acc) := by
          obtain ⟨_, ⟨nw, e⟩, _⟩ := visits_ok ds (fun d _ => visit_ok d) (visit d acc) ho'
          intro x hx; rw [e]; exact List.mem_append_left _ hx
        constructor
        · rintro (((rfl | h) | h) | h)
          · exact Or.inr (hsub _ hdv)
          · exact Or.inl h
          · exact Or.inr (hsub _ h)
          · exact Or.inr h
        · rintro (h | h)
          · exact Or.inl (Or.inl (Or.inr h))
          · exact Or.inr h
      · rw [show fuel + (c2 + c1 + 1) = (fuel + c2 + c1) + 1 from by omega, visitLoop]
        simp only [hi]
        rw [if_neg (fun h => hd (hiff.1 h)), h1, h2]
        simp

theorem visitLoop_node (n : Expr O V A) : ∀ (rest : List (Expr O V A × Nat)) (acc seen : List (Expr O V A)) (ev),
      Ordered acc → n ∉ acc → Seen seen acc n →
      ∃ c seen', c + 1 ≤ 2 * n.size ∧ (∀ x, x ∈ seen' ↔ x ∈ seen ∨ x ∈ visit n acc) ∧
        ∀ fuel, visitLoop (fuel + c) ((n, 0) :: rest) seen ev = visitLoop fuel rest seen' (ev ++ events n acc) := by
  induction n using Expr.ind with
  | h n ih =>
    intro rest acc seen ev ho hn hs
    obtain ⟨c, seen', hc, h1, h2⟩ := visitLoop_deps ih n.deps 0 rest acc seen ev (by simp) ho hn hs
    refine ⟨c, seen', by rw [size_eq]; omega, fun x => ?_, fun fuel => ?_⟩
    · rw [h1, visit_eq, List.mem_append]
      constructor
      · rintro (h | h)
        · exact Or.inl h
        · exact Or.inr (Or.inl h)
      · rintro (h | h | h)
        · exact Or.inl h
        · exact Or.inr h
        · simp at h; subst h; exact Or.inl hs.2.1
    · rw [h2, events_eq]
      simp

theorem preAndPost_eq (root : Expr O V A) : preAndPost root = some (events root []) := by
  obtain ⟨c, seen', hc, _, h⟩ := visitLoop_node root [] [] [root] [] ordered_nil (by simp)
    ⟨by simp, by simp, by intro x hx _ hne; simp at hx; exact absurd hx hne⟩
  have := h (2 * root.size - c)
  rw [Nat.sub_add_cancel (by omega)] at this
  unfold preAndPost
  rw [this]
  cases 2 * root.size - c <;> simp [visitLoop]

/-- The calls of one kind. -/
def calls (b : Bool) (ev : List (Bool × Expr O V A)) : List (Expr O V A) := (ev.filter (fun e => e.1 = b)).map (·.2)

theorem calls_append (b : Bool) (x y : List (Bool × Expr O V A)) : calls b (x ++ y) = calls b x ++ calls b y := by
  simp [calls]

theorem eventsL_posts : ∀ (ds : List (Expr O V A)), (∀ d ∈ ds, ∀ acc, Ordered acc → d ∉ acc →
      visit d acc = acc ++ calls false (events d acc) ∧ (calls true (events d acc)).Perm (calls false (events d acc))) →
    ∀ acc, Ordered acc → visits ds acc = acc ++ calls false (eventsL ds acc) ∧
      (calls true (eventsL ds acc)).Perm (calls false (eventsL ds acc)) := by
  intro ds
  induction ds with
  | nil => intro _ acc _; simp [visits, eventsL, calls]
  | cons d ds ih =>
    intro h acc ho
    rw [visits, eventsL]
    by_cases hd : d ∈ acc
    · rw [if_pos hd, if_pos hd]
      exact ih (fun e he => h e (by simp [he])) acc ho
    · rw [if_neg hd, if_neg hd]
      obtain ⟨h1, h2⟩ := h d (by simp) acc ho hd
      obtain ⟨h3, h4⟩ := ih (fun e he => h e (by simp [he])) (visit d acc) (visit_ok d acc ho hd).1
      rw [calls_append, calls_append]
      exact ⟨by rw [h3, ← List.append_assoc, ← h1], h2.append h4⟩

theorem events_posts (n : Expr O V A) : ∀ acc, Ordered acc → n ∉ acc →
    visit n acc = acc ++ calls false (events n acc) ∧ (calls true (events n acc)).Perm (calls false (events n acc)) := by
  induction n using Expr.ind with
  | h n ih =>
    intro acc ho hn
    obtain ⟨h1, h2⟩ := eventsL_posts n.deps ih acc ho
    rw [events_eq, visit_eq, calls_append]
    have e1 : calls false ((true, n) :: eventsL n.deps acc) = calls false (eventsL n.deps acc) := by simp [calls]
    have e2 : calls true ((true, n) :: eventsL n.deps acc) = n :: calls true (eventsL n.deps acc) := by simp [calls]
    have e3 : calls false [((false : Bool), n)] = [n] := by simp [calls]
    have e4 : calls true [((false : Bool), n)] = [] := by simp [calls]
    rw [calls_append, e1, e2, e3, e4]
    refine ⟨by rw [h1]; simp, ?_⟩
    rw [List.append_nil]
    exact (List.Perm.cons n h2).trans (List.perm_append_singleton n _).symm

theorem eventsL_sub : ∀ (ds : List (Expr O V A)), (∀ d ∈ ds, ∀ acc, ∀ e ∈ events d acc, Sub e.2 d) →
    ∀ acc, ∀ e ∈ eventsL ds acc, ∃ d ∈ ds, Sub e.2 d := by
  intro ds
  induction ds with
  | nil => intro _ acc e he; simp [eventsL] at he
  | cons d ds ih =>
    intro h acc e he
    rw [eventsL] at he
    split at he
    · obtain ⟨x, hx, hs⟩ := ih (fun y hy => h y (by simp [hy])) acc e he
      exact ⟨x, by simp [hx], hs⟩
    · rcases List.mem_append.1 he with he | he
      · exact ⟨d, by simp, h d (by simp) acc e he⟩
      · obtain ⟨x, hx, hs⟩ := ih (fun y hy => h y (by simp [hy])) _ e he
        exact ⟨x, by simp [hx], hs⟩

theorem events_sub (n : Expr O V A) : ∀ acc, ∀ e ∈ events n acc, Sub e.2 n := by
  induction n using Expr.ind with
  | h n ih =>
    intro acc e he
    rw [events_eq] at he
    rcases List.mem_append.1 he with he | he
    · rcases List.mem_cons.1 he with rfl | he
      · exact .refl _
      · obtain ⟨d, hd, hs⟩ := eventsL_sub n.deps ih acc e he
        exact .dep hs hd
    · simp at he; subst he; exact .refl _

/-- The calls for `x` enclose calls for proper subexpressions of `x` only. -/
def Encloses (ev : List (Bool × Expr O V A)) (x : Expr O V A) : Prop :=
  ∃ a b c, ev = a ++ (true, x) :: b ++ (false, x) :: c ∧ ∀ e ∈ b, Sub e.2 x ∧ e.2 ≠ x

theorem Encloses.left {ev ev' : List (Bool × Expr O V A)} {x : Expr O V A} (h : Encloses ev x) : Encloses (ev ++ ev') x := by
  obtain ⟨a, b, c, rfl, h⟩ := h
  exact ⟨a, b, c ++ ev', by simp, h⟩

theorem Encloses.right {ev ev' : List (Bool × Expr O V A)} {x : Expr O V A} (h : Encloses ev x) : Encloses (ev' ++ ev) x := by
  obtain ⟨a, b, c, rfl, h⟩ := h
  exact ⟨ev' ++ a, b, c, by simp, h⟩

theorem eventsL_enc : ∀ (ds : List (Expr O V A)), (∀ d ∈ ds, ∀ acc x, x ∈ calls false (events d acc) → Encloses (events d acc) x) →
    ∀ acc x, x ∈ calls false (eventsL ds acc) → Encloses (eventsL ds acc) x := by
  intro ds
  induction ds with
  | nil => intro _ acc x h; simp [eventsL, calls] at h
  | cons d ds ih =>
    intro h acc x hx
    rw [eventsL] at hx ⊢
    split at hx
    · rename_i hd; rw [if_pos hd]
      exact ih (fun y hy => h y (by simp [hy])) acc x hx
    · rename_i hd; rw [if_neg hd]
      rw [calls_append] at hx
      rcases List.mem_append.1 hx with hx | hx
      · exact (h d (by simp) acc x hx).left
      · exact (ih (fun y hy => h y (by simp [hy])) _ x hx).right

theorem events_enc (n : Expr O V A) : ∀ acc x, x ∈ calls false (events n acc) → Encloses (events n acc) x := by
  induction n using Expr.ind with
  | h n ih =>
    intro acc x hx
    rw [events_eq] at hx ⊢
    rw [calls_append] at hx
    rcases List.mem_append.1 hx with hx | hx
    · have e1 : calls false ((true, n) :: eventsL n.deps acc) = calls false (eventsL n.deps acc) := by simp [calls]
      rw [e1] at hx
      have := ((eventsL_enc n.deps ih acc x hx).right (ev' := [(true, n)])).left (ev' := [(false, n)])
      simpa using this
    · simp [calls] at hx; subst hx
      refine ⟨[], eventsL x.deps acc, [], by simp, fun e he => ?_⟩
      obtain ⟨d, hd, hs⟩ := eventsL_sub x.deps (fun d _ => events_sub d) acc e he
      refine ⟨.dep hs hd, ?_⟩
      intro h
      rw [h] at hs
      exact not_sub_dep hd hs

/-- `VisitorOrder` is the order of `PostOrder`. -/
theorem visitor_order (root : Expr O V A) : ∃ po, postOrder root = some po ∧ visitorOrder root = some po.nodes := by
  refine ⟨_, postOrder_eq root, ?_⟩
  unfold visitorOrder
  rw [preAndPost_eq]
  have := (events_posts root [] ordered_nil (by simp)).1
  simp only [List.nil_append] at this
  dsimp only
  rw [this]
  unfold calls
  simp

/-- `PreAndPostVisitorOrder` terminates and makes exactly one previsit call and one postvisit call for each subexpression, and
between the two only calls for its proper subexpressions; the postvisit calls are in the order of `VisitorOrder`. -/
theorem pre_and_post (root : Expr O V A) : ∃ ev, preAndPost root = some ev ∧ visitorOrder root = some (calls false ev) ∧
    (calls true ev).Nodup ∧ (calls false ev).Nodup ∧ (∀ n, n ∈ calls true ev ↔ Sub n root) ∧
    (∀ n, n ∈ calls false ev ↔ Sub n root) ∧
    ∀ n, Sub n root → ∃ a b c, ev = a ++ (true, n) :: b ++ (false, n) :: c ∧ ∀ e ∈ b, Sub e.2 n ∧ e.2 ≠ n := by
  obtain ⟨po, hpo, hnd, hsub, _⟩ := post_order root
  obtain ⟨po', hpo', hv⟩ := visitor_order root
  rw [hpo] at hpo'; cases hpo'
  have hev : visitorOrder root = some (calls false (events root [])) := by
    unfold visitorOrder
    rw [preAndPost_eq]
    unfold calls
    simp
  rw [hev] at hv
  have hv' := Option.some.inj hv
  have hp := (events_posts root [] ordered_nil (by simp)).2
  refine ⟨_, preAndPost_eq root, hev, ?_, ?_, ?_, ?_, ?_⟩
  · rw [hp.nodup_iff, hv']; exact hnd
  · rw [hv']; exact hnd
  · intro n; rw [hp.mem_iff, hv']; exact hsub n
  · intro n; rw [hv']; exact hsub n
  · intro n hn
    exact events_enc root [] n (by rw [hv']; exact (hsub n).2 hn)

theorem sortKeys_spec (ks : List (List Nat)) : (sortKeys ks).Perm ks ∧ (sortKeys ks).Pairwise (· ≤ ·) := by
  haveI : Std.Total (fun a b : List Nat => a ≤ b) := ⟨List.le_total⟩
  haveI : IsTrans (List Nat) (fun a b => a ≤ b) := ⟨fun _ _ _ => List.le_trans⟩
  exact ⟨List.perm_insertionSort _ _, List.pairwise_insertionSort _ _⟩

theorem sortKeys_perm {k1 k2 : List (List Nat)} (h : k1.Perm k2) : sortKeys k1 = sortKeys k2 := by
  obtain ⟨p1, s1⟩ := sortKeys_spec k1
  obtain ⟨p2, s2⟩ := sortKeys_spec k2
  exact List.Perm.eq_of_pairwise (fun a b _ _ h1 h2 => List.le_antisymm h1 h2) s1 s2 (p1.trans (h.trans p2.symm))

/-- Both `GetLeafKeys` (and both `GetPlaceholderKeys`) give the same strictly sorted list: the keys that occur in the
expression, without duplicates. -/
theorem leaf_keys (G : Lang O V A E) (root : Expr O V A) (hwf : ∀ n, Sub n root → WF G n)
    (key : Expr O V A → Option (List Nat)) (hkey : key = leafKey ∨ key = placeholderKey) :
    ∃ ks po, exprKeys key root = some ks ∧ postOrder root = some po ∧ postOrderKeys key po = ks ∧
      ks.Pairwise (· < ·) ∧ ∀ k, k ∈ ks ↔ ∃ n, Sub n root ∧ key n = some k := by
  obtain ⟨po, hpo, hnd, hsub, _⟩ := post_order root
  obtain ⟨ev, hev, _, hn1, _, hm1, _, _⟩ := pre_and_post root
  have hperm : (calls true ev).Perm po.nodes := (List.perm_ext_iff_of_nodup hn1 hnd).2 (fun n => by rw [hm1, hsub])
  have e1 : exprKeys key root = some (sortKeys ((calls true ev).filterMap key)) := by
    unfold exprKeys
    rw [hev]
    unfold calls
    simp
  refine ⟨_, po, e1, hpo, ?_, ?_, ?_⟩
  · unfold postOrderKeys
    exact sortKeys_perm (hperm.filterMap key).symm
  · have hinj : ∀ m n, Sub m root → Sub n root → ∀ k, key m = some k → key n = some k → m = n := by
      intro m n hm hn k h1 h2
      have w1 := hwf m hm
      have w2 := hwf n hn
      rcases hkey with rfl | rfl
      · cases w1 <;> simp [leafKey, Expr.label] at h1
        cases w2 <;> simp [leafKey, Expr.label] at h2
        rw [h1, h2]
      · cases w1 <;> simp [placeholderKey, Expr.label] at h1
        cases w2 <;> simp [placeholderKey, Expr.label] at h2
        rw [h1, h2]
    have hnd2 : ((calls true ev).filterMap key).Nodup := by
      have : ∀ l : List (Expr O V A), l.Nodup → (∀ x ∈ l, Sub x root) → (l.filterMap key).Nodup := by
        intro l
        induction l with
        | nil => simp
        | cons x l ih =>
          intro hnd hs
          rw [List.nodup_cons] at hnd
          have h' := ih hnd.2 (fun y hy => hs y (by simp [hy]))
          rw [List.filterMap_cons]
          cases hk : key x with
          | none => exact h'
          | some k =>
            refine List.nodup_cons.2 ⟨?_, h'⟩
            intro hmem
            obtain ⟨y, hy, hky⟩ := List.mem_filterMap.1 hmem
            have := hinj x y (hs x (by simp)) (hs y (by simp [hy])) k hk hky
            subst this
            exact hnd.1 hy
      exact this _ hn1 (fun x hx => (hm1 x).1 hx)
    obtain ⟨p, s⟩ := sortKeys_spec ((calls true ev).filterMap key)
    have hnd3 : (sortKeys ((calls true ev).filterMap key)).Nodup := p.nodup_iff.2 hnd2
    have := s.and hnd3
    refine this.imp ?_
    rintro a b ⟨h1, h2⟩
    exact Classical.byContradiction (fun h => h2 (List.le_antisymm h1 h))
  · intro k
    rw [(sortKeys_spec _).1.mem_iff, List.mem_filterMap]
    constructor
    · rintro ⟨n, hn, hk⟩; exact ⟨n, (hm1 n).1 hn, hk⟩
    · rintro ⟨n, hn, hk⟩; exact ⟨n, (hm1 n).2 hn, hk⟩

/-! `f(x, g(x, p), x)` with a leaf `x` and a placeholder `p`: each node once, dependencies first. -/

/-- A language with attributes counting leaves. -/
def exLang : Lang Nat Nat Nat Nat := ⟨1, fun _ => 0, fun _ as => .ok as.sum, 7⟩
/-- A leaf. -/
def exX : Expr Nat Nat Nat := .mk (.leaf [120]) 1 []
/-- A placeholder. -/
def exP : Expr Nat Nat Nat := .mk (.placeholder [112]) 1 []
/-- An inner operator node. -/
def exG : Expr Nat Nat Nat := .mk (.op 1) 2 [exX, exP]
/-- The root. -/
def exF : Expr Nat Nat Nat := .mk (.op 0) 4 [exX, exG, exX]

example : (postOrder exF).map (·.nodes) = some [exX, exP, exG, exF] := by decide +kernel
example : ((postOrder exF).bind (·.depIndices 3)) = some [0, 2, 0] := by decide +kernel
example : preAndPost exF = some [(true, exF), (true, exX), (false, exX), (true, exG), (true, exP), (false, exP),
    (false, exG), (false, exF)] := by decide +kernel
example : exprKeys leafKey exF = some [[120]] ∧ exprKeys placeholderKey exF = some [[112]] := by decide +kernel
example : WF exLang exF :=
  .op 0 4 _ (by
    have hx : WF exLang exX := .leaf _
    have hp : WF exLang exP := .placeholder _
    have hg : WF exLang exG := .op 1 2 _ (by intro d hd; simp at hd; rcases hd with rfl | rfl <;> assumption) rfl
    intro d hd; simp at hd; rcases hd with rfl | rfl | rfl <;> assumption) rfl

end Verif.Expr
