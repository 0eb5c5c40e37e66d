import Verif.Util.LruLemmas

/-!
# C01 — the LRU cache refines an ideal weighted LRU

The specification below does not mention the model's list surgery or counters: an ideal cache is
a list of `(key, value, weight)` triples ordered from most to least recently used.
-/

namespace Verif.Lru
variable {K V : Type} [DecidableEq K]
set_option linter.unusedSectionVars false

namespace Spec

/-- Weight of an ideal cache content. -/
def weight (l : List (K × V × Nat)) : Nat := (l.map (fun t => t.2.2)).sum

/-- `kept` is what may remain of the recency-ordered `all` under `cap`: the longest prefix whose
weight fits, except that the most recent entry always stays. -/
structure Kept (cap : Nat) (all kept : List (K × V × Nat)) : Prop where
  isPrefix : kept <+: all
  nonempty : kept ≠ []
  fits : weight kept ≤ cap ∨ kept.length = 1
  longest : ∀ p, p <+: all → kept.length < p.length → cap < weight p

/-- One API call on the ideal cache: old content, call, new content, observed result. -/
inductive Step (cap : Nat) : List (K × V × Nat) → Op K V → List (K × V × Nat) → Option V → Prop
  | put (l l' k v w) (h : Kept cap ((k, v, w) :: l.filter (fun t => t.1 ≠ k)) l') :
      Step cap l (.put k v w) l' (some v)
  | hit (l k v w) (h : (k, v, w) ∈ l) :
      Step cap l (.lookup k) ((k, v, w) :: l.filter (fun t => t.1 ≠ k)) (some v)
  | miss (l k) (h : ∀ t ∈ l, t.1 ≠ k) : Step cap l (.lookup k) l none
  | clear (l) : Step cap l .clear [] none

/-- A history on the ideal cache. -/
inductive Run (cap : Nat) :
    List (K × V × Nat) → List (Op K V) → List (K × V × Nat) → List (Option V) → Prop
  | nil (l) : Run cap l [] l []
  | cons {l l1 l2 op ops o os} : Step cap l op l1 o → Run cap l1 ops l2 os →
      Run cap l (op :: ops) l2 (o :: os)

/-- Value of the most recent `Put` of `k` since the last `Clear`, in a chronological history. -/
def lastPut (k : K) : List (Op K V) → Option V → Option V
  | [], acc => acc
  | .put k' v _ :: ops, acc => lastPut k ops (if k' = k then some v else acc)
  | .lookup _ :: ops, acc => lastPut k ops acc
  | .clear :: ops, _ => lastPut k ops none

end Spec

/-- The content of the model cache as ideal triples. -/
def content (c : Cache K V) : List (K × V × Nat) :=
  c.entries.map (fun e => (e.key, e.value, e.weight))

/-- An operation sequence starting from a fresh cache, ending in `c` with observations `os`. -/
def Reaches (cap : Nat) (ops : List (Op K V)) (c : Cache K V) (os : List (Option V)) : Prop :=
  (Cache.empty cap).run ops = some (c, os)

private def tr (e : Entry K V) : K × V × Nat := (e.key, e.value, e.weight)

private theorem weight_map (es : List (Entry K V)) :
    Spec.weight (es.map tr) = totalWeight es := by
  simp [Spec.weight, totalWeight, tr, Function.comp_def]

private theorem filter_map (k : K) (es : List (Entry K V)) :
    (es.map tr).filter (fun t => t.1 ≠ k) = (es.filter (fun e => e.key ≠ k)).map tr := by
  rw [List.filter_map]; rfl

private theorem kept_evict (cap : Nat) (es : List (Entry K V)) (hne : es ≠ []) :
    Spec.Kept cap (es.map tr) ((evictList cap es).map tr) := by
  refine ⟨(evictList_prefix cap es).map _, ?_, ?_, ?_⟩
  · simpa using evictList_ne_nil cap es hne
  · rw [weight_map]
    have h1 := evictList_bound cap es
    have h2 := List.length_pos_of_ne_nil (evictList_ne_nil cap es hne)
    simp only [List.length_map]; omega
  · intro p hp hl
    obtain ⟨q, hq, rfl⟩ := List.prefix_map_iff.1 hp
    rw [weight_map]
    exact evictList_longest cap es q hq (by simpa using hl)

private theorem step_refines (c : Cache K V) (h : Inv c) (op : Op K V) :
    ∃ c' o, c.step op = some (c', o) ∧ Inv c' ∧ c'.capacity = c.capacity ∧
      Spec.Step c.capacity (content c) op (content c') o := by
  cases op with
  | put k v w =>
    obtain ⟨c', h1, h2, h3, h4⟩ := put_spec c h k v w
    refine ⟨c', some v, by simp [Cache.step, h1], h2, h3, .put _ _ _ _ _ ?_⟩
    have := kept_evict c.capacity (⟨k, v, w⟩ :: c.entries.filter (fun e => e.key ≠ k)) (by simp)
    rw [← h4, List.map_cons, ← filter_map] at this
    exact this
  | lookup k =>
    obtain ⟨c', h1, h2, h3, h4⟩ := lookup_spec c h k
    refine ⟨c', _, h1, h2, h3, ?_⟩
    cases hf : findEntry k c.entries with
    | none =>
      simp only [hf] at h4
      have : content c' = content c := by simp [content, h4]
      rw [this]
      refine .miss _ _ ?_
      intro t ht
      obtain ⟨e, he, rfl⟩ := List.mem_map.1 ht
      simp only [findEntry, List.find?_eq_none] at hf
      simpa using hf e he
    | some e =>
      simp only [hf] at h4
      have hk := find_key hf
      subst hk
      have : content c' = (e.key, e.value, e.weight) ::
          (content c).filter (fun t => t.1 ≠ e.key) := by
        have := filter_map e.key c.entries
        simp only [content, h4, List.map_cons]
        congr 1
        exact this.symm
      rw [this]
      exact .hit _ _ _ _ (List.mem_map.2 ⟨e, List.mem_of_find?_eq_some hf, rfl⟩)
  | clear => exact ⟨_, _, rfl, inv_clear c, rfl, .clear _⟩

private theorem run_refines (ops : List (Op K V)) (c : Cache K V) (h : Inv c) :
    ∃ c' os, c.run ops = some (c', os) ∧ Inv c' ∧ c'.capacity = c.capacity ∧
      Spec.Run c.capacity (content c) ops (content c') os := by
  induction ops generalizing c with
  | nil => exact ⟨c, [], rfl, h, rfl, .nil _⟩
  | cons op ops ih =>
    obtain ⟨c1, o, h1, h2, h3, h4⟩ := step_refines c h op
    obtain ⟨c2, os, g1, g2, g3, g4⟩ := ih c1 h2
    refine ⟨c2, o :: os, by simp [Cache.run, h1, g1], g2, g3.trans h3, ?_⟩
    rw [h3] at g4
    exact .cons h4 g4

/-- **C01 (refinement).** Every history of calls runs without undefined behaviour, and its
observable results and final content are those of the ideal weighted LRU cache. -/
theorem lru_refines_ideal (cap : Nat) (ops : List (Op K V)) :
    ∃ c os, Reaches cap ops c os ∧ Spec.Run cap [] ops (content c) os := by
  obtain ⟨c, os, h1, _, _, h4⟩ := run_refines ops (Cache.empty cap) (inv_empty cap)
  exact ⟨c, os, h1, h4⟩

/-- The ideal machine is deterministic: what may be kept is unique. -/
theorem Spec.Kept.unique {cap : Nat} {all a b : List (K × V × Nat)}
    (ha : Spec.Kept cap all a) (hb : Spec.Kept cap all b) : a = b := by
  have key : ∀ {x y : List (K × V × Nat)}, Spec.Kept cap all x → Spec.Kept cap all y →
      ¬ x.length < y.length := by
    intro x y hx hy hl
    have h1 := hx.longest y hy.isPrefix hl
    have h2 := hy.fits
    have h3 := List.length_pos_of_ne_nil hx.nonempty
    omega
  have hl : a.length = b.length := by
    have := key ha hb; have := key hb ha; omega
  exact (List.prefix_of_prefix_length_le ha.isPrefix hb.isPrefix (by omega)).eq_of_length hl

private theorem reaches_inv {cap : Nat} {ops : List (Op K V)} {c : Cache K V} {os}
    (h : Reaches cap ops c os) : Inv c ∧ c.capacity = cap ∧ Spec.Run cap [] ops (content c) os := by
  obtain ⟨c', os', h1, h2, h3, h4⟩ := run_refines ops (Cache.empty cap) (inv_empty cap)
  rw [Reaches] at h
  rw [h] at h1
  obtain ⟨rfl, rfl⟩ : c = c' ∧ os = os' := by simpa using h1
  exact ⟨h2, h3, h4⟩

/-- **C01 (unique keys).** After any history each key is stored at most once. -/
theorem lru_keys_unique {cap : Nat} {ops : List (Op K V)} {c : Cache K V} {os}
    (h : Reaches cap ops c os) : ((content c).map Prod.fst).Nodup := by
  have := (reaches_inv h).1.nodup
  simpa [content, Function.comp_def] using this

/-- **C01 (weight bound).** After any history ending with a `Put`, the stored weight fits the
capacity or only the entry just put is stored; that entry is always retrievable. -/
theorem lru_put_bound {cap : Nat} {ops : List (Op K V)} {k : K} {v : V} {w : Nat}
    {c : Cache K V} {os} (h : Reaches cap (ops ++ [.put k v w]) c os) :
    (Spec.weight (content c) ≤ cap ∨ content c = [(k, v, w)]) ∧
      (content c).head? = some (k, v, w) := by
  obtain ⟨_, _, hr⟩ := reaches_inv h
  have key : ∀ (ops : List (Op K V)) (l l' : List (K × V × Nat)) (os : List (Option V)),
      Spec.Run cap l (ops ++ [.put k v w]) l' os →
      ∃ l0, Spec.Kept cap ((k, v, w) :: l0) l' := by
    intro ops
    induction ops with
    | nil =>
      intro l l' os hr
      cases hr with
      | cons hs hr =>
        cases hr
        cases hs with
        | put _ _ _ _ hk => exact ⟨_, hk⟩
    | cons op ops ih =>
      intro l l' os hr
      cases hr with
      | cons hs hr => exact ih _ _ _ hr
  obtain ⟨l0, hk⟩ := key ops _ _ _ hr
  have hpre := hk.isPrefix
  cases hc : content c with
  | nil => exact absurd hc hk.nonempty
  | cons a t =>
    rw [hc] at hpre
    obtain ⟨rfl, ht⟩ := List.cons_prefix_cons.1 hpre
    refine ⟨?_, rfl⟩
    have := hk.fits
    rw [hc] at this
    rcases this with h | h
    · exact .inl h
    · right; simp at h; simp [h]

private theorem lastPut_invariant (cap : Nat) (ops : List (Op K V)) :
    ∀ (l l' : List (K × V × Nat)) (os : List (Option V)) (g : K → Option V),
      Spec.Run cap l ops l' os → (∀ t ∈ l, g t.1 = some t.2.1) →
      ∀ t ∈ l', Spec.lastPut t.1 ops (g t.1) = some t.2.1 := by
  induction ops with
  | nil => intro l l' os g hr hl t ht; cases hr; exact hl t ht
  | cons op ops ih =>
    intro l l' os g hr hl t ht
    cases hr with
    | cons hs hr =>
      cases hs with
      | put _ k v w hk =>
        refine ih _ _ _ (fun x => if k = x then some v else g x) hr ?_ t ht
        intro t ht
        have ht' := hk.isPrefix.subset ht
        simp only [List.mem_cons, List.mem_filter, decide_eq_true_eq] at ht'
        rcases ht' with rfl | ⟨h1, h2⟩
        · simp
        · simp only [ne_eq] at h2
          rw [if_neg (fun he => h2 he.symm)]; exact hl t h1
      | hit k v w hm =>
        refine ih _ _ _ g hr ?_ t ht
        intro t ht
        simp only [List.mem_cons, List.mem_filter] at ht
        rcases ht with rfl | ⟨h1, _⟩
        · exact hl _ hm
        · exact hl t h1
      | miss k hm => exact ih _ _ _ g hr hl t ht
      | clear => exact ih _ _ _ (fun _ => none) hr (by simp) t ht

/-- **C01 (freshness).** After any history, a lookup either misses or returns exactly the value
of the most recent `Put` of that key since the last `Clear`. -/
theorem lru_lookup_latest {cap : Nat} {ops : List (Op K V)} {c : Cache K V} {os}
    (h : Reaches cap ops c os) (k : K) :
    ∃ c' r, c.lookup k = some (c', r) ∧ (r = none ∨ r = Spec.lastPut k ops none) := by
  obtain ⟨hI, _, hr⟩ := reaches_inv h
  obtain ⟨c', h1, _, _, _⟩ := lookup_spec c hI k
  refine ⟨c', _, h1, ?_⟩
  cases hf : findEntry k c.entries with
  | none => exact .inl rfl
  | some e =>
    right
    have hk := find_key hf
    have := lastPut_invariant cap ops _ _ _ (fun _ => none) hr (by simp)
      (e.key, e.value, e.weight) (List.mem_map.2 ⟨e, List.mem_of_find?_eq_some hf, rfl⟩)
    simp only at this
    rw [← hk, this]; rfl

/-- Total weight of all `Put`s of a history. -/
def Spec.putWeight : List (Op K V) → Nat
  | [] => 0
  | .put _ _ w :: ops => w + Spec.putWeight ops
  | _ :: ops => Spec.putWeight ops

private theorem no_evict (cap : Nat) (ops : List (Op K V)) :
    ∀ (l l' : List (K × V × Nat)) (os : List (Option V)),
      Spec.Run cap l ops l' os → (l.map Prod.fst).Nodup →
      Spec.weight l + Spec.putWeight ops ≤ cap →
      ∀ k, (l'.find? (fun t => t.1 = k)).map (·.2.1) =
        Spec.lastPut k ops ((l.find? (fun t => t.1 = k)).map (·.2.1)) := by
  have hfilt : ∀ (k : K) (l : List (K × V × Nat)),
      Spec.weight (l.filter (fun t => t.1 ≠ k)) ≤ Spec.weight l := by
    intro k l
    induction l with
    | nil => simp
    | cons a t ih =>
      simp only [Spec.weight, List.filter_cons] at *
      split <;> simp only [List.map_cons, List.sum_cons] <;> omega
  have hfind : ∀ (k x : K) (l : List (K × V × Nat)), k ≠ x →
      (l.filter (fun t => t.1 ≠ k)).find? (fun t => t.1 = x) = l.find? (fun t => t.1 = x) := by
    intro k x l hkx
    induction l with
    | nil => rfl
    | cons a t ih =>
      by_cases h1 : a.1 = x
      · have : a.1 ≠ k := fun h => hkx (h.symm.trans h1)
        rw [List.filter_cons_of_pos (by simpa using this)]
        simp [h1]
      · by_cases h2 : a.1 = k
        · simp only [List.filter_cons, h2, ne_eq, not_true_eq_false, decide_false,
            Bool.false_eq_true, if_false, List.find?_cons] at ih ⊢
          rw [show decide (k = x) = false by simp [hkx]]
          simpa using ih
        · rw [List.filter_cons_of_pos (by simpa using h2)]
          simp only [List.find?_cons, h1, decide_false]
          exact ih
  induction ops with
  | nil => intro l l' os hr _ _ k; cases hr; rfl
  | cons op ops ih =>
    intro l l' os hr hnd hw k
    cases hr with
    | @cons _ l1 _ _ _ _ _ hs hr =>
      cases hs with
      | put _ k0 v w hk =>
        simp only [Spec.putWeight] at hw
        have hle := hfilt k0 l
        have hall : l1 = (k0, v, w) :: l.filter (fun t => t.1 ≠ k0) := by
          by_contra hne
          have hlen : l1.length < ((k0, v, w) :: l.filter (fun t => t.1 ≠ k0)).length := by
            have h1 := hk.isPrefix.length_le
            by_contra hge
            exact hne (hk.isPrefix.eq_of_length (by omega))
          have := hk.longest _ (List.prefix_refl _) hlen
          simp only [Spec.weight, List.map_cons, List.sum_cons] at this hle hw
          omega
        have hnd1 : (l1.map Prod.fst).Nodup := by
          rw [hall, List.map_cons, List.nodup_cons]
          refine ⟨by simp, ?_⟩
          exact List.Nodup.sublist ((List.filter_sublist).map _) hnd
        rw [ih _ _ _ hr hnd1 (by
          rw [hall]; simp only [Spec.weight, List.map_cons, List.sum_cons] at hle hw ⊢; omega) k]
        simp only [Spec.lastPut]
        congr 1
        rw [hall, List.find?_cons]
        by_cases hkk : k0 = k
        · simp [hkk]
        · rw [if_neg hkk]
          simp only [hkk, decide_false]
          rw [hfind k0 k l hkk]
      | hit k0 v w hm =>
        have hle : Spec.weight ((k0, v, w) :: l.filter (fun t => t.1 ≠ k0)) ≤ Spec.weight l ∧
            (l.find? (fun t => t.1 = k0)).map (·.2.1) = some v := by
          clear ih hw hr
          induction l with
          | nil => simp at hm
          | cons a t iht =>
            simp only [List.map_cons, List.nodup_cons] at hnd
            rcases List.mem_cons.1 hm with rfl | hm'
            · have := hfilt k0 t
              simp only [Spec.weight, List.map_cons, List.sum_cons, List.filter_cons, ne_eq,
                not_true_eq_false, decide_false, Bool.false_eq_true, if_false, List.find?_cons,
                decide_true, Option.map_some] at this ⊢
              exact ⟨by omega, trivial⟩
            · have hak : a.1 ≠ k0 := by
                intro h
                exact hnd.1 (h ▸ List.mem_map_of_mem (f := Prod.fst) hm')
              have := iht hnd.2 hm'
              simp only [Spec.weight, List.map_cons, List.sum_cons, List.filter_cons, ne_eq,
                hak, not_false_eq_true, decide_true, if_true, List.find?_cons, decide_false] at this ⊢
              exact ⟨by omega, this.2⟩
        have hnd1 : (((k0, v, w) :: l.filter (fun t => t.1 ≠ k0)).map Prod.fst).Nodup := by
          rw [List.map_cons, List.nodup_cons]
          exact ⟨by simp, List.Nodup.sublist ((List.filter_sublist).map _) hnd⟩
        simp only [Spec.putWeight] at hw
        rw [ih _ _ _ hr hnd1 (by omega) k]
        simp only [Spec.lastPut]
        congr 1
        rw [List.find?_cons]
        by_cases hkk : k0 = k
        · subst hkk; simp [hle.2]
        · simp only [hkk, decide_false]; rw [hfind k0 k l hkk]
      | miss k0 hm => exact ih _ _ _ hr hnd (by simpa [Spec.putWeight] using hw) k
      | clear =>
        simp only [Spec.putWeight] at hw
        rw [ih _ _ _ hr (by simp) (by simp [Spec.weight]; omega) k]
        rfl

/-- **C01 (no premature eviction).** If the weights of all `Put`s of the history add up to at most
the capacity, then a lookup never misses a stored key: it returns exactly the value of the most
recent `Put` since the last `Clear`. -/
theorem lru_no_premature_eviction {cap : Nat} {ops : List (Op K V)} {c : Cache K V} {os}
    (h : Reaches cap ops c os) (hw : Spec.putWeight ops ≤ cap) (k : K) :
    ∃ c', c.lookup k = some (c', Spec.lastPut k ops none) := by
  obtain ⟨hI, _, hr⟩ := reaches_inv h
  obtain ⟨c', h1, _, _, _⟩ := lookup_spec c hI k
  refine ⟨c', ?_⟩
  rw [h1]
  have := no_evict cap ops _ _ _ hr (by simp) (by simpa [Spec.weight] using hw) k
  have h2 : ((content c).find? (fun t => t.1 = k)).map (·.2.1) =
      (findEntry k c.entries).map Entry.value := by
    rw [content, List.find?_map, findEntry]
    simp [Function.comp_def]
  rw [← h2, this]; rfl

/-! Non-vacuity: a concrete history with a replacement, a hit and evictions. -/

private def sampleOps : List (Op Nat String) :=
  [.put 1 "a" 1, .put 2 "b" 1, .lookup 1, .put 3 "c" 2, .put 1 "d" 1]

example : ∃ c os, Reaches 3 sampleOps c os ∧
    content c = [(1, "d", 1), (3, "c", 2)] ∧
    os = [some "a", some "b", some "a", some "c", some "d"] := by
  exact ⟨_, _, by unfold Reaches; rfl, rfl, rfl⟩

example : Spec.putWeight ([.put 1 "a" 1, .put 2 "b" 1] : List (Op Nat String)) ≤ 3 := by decide

end Verif.Lru
