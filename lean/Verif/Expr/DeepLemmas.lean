import Verif.Expr.DeepSpec
import Verif.Expr.DeepModel
import Mathlib.Data.List.Nodup

/-!
# The invariant of `DeepTransform`
-/

namespace Verif.Expr
variable {O V A E : Type} [DecidableEq O] [DecidableEq V] [DecidableEq A]
variable {G : Lang O V A E} {fn : Expr O V A → Except E (Expr O V A)}

/-! ## The cache -/

theorem lookup_nil {T : Type} (k : Expr O V A) : lookup ([] : List (Expr O V A × T)) k = none := rfl

theorem lookup_cons {T : Type} (e : Expr O V A × T) (m : List (Expr O V A × T)) (k : Expr O V A) :
    lookup (e :: m) k = if e.1 = k then some e.2 else lookup m k := by
  unfold lookup
  rw [List.find?_cons]
  by_cases h : e.1 = k <;> simp [h]

theorem lookup_snoc {T : Type} {m : List (Expr O V A × T)} {d : Expr O V A} (h : lookup m d = none) (t : T) (k : Expr O V A) :
    lookup (m ++ [(d, t)]) k = if k = d then some t else lookup m k := by
  induction m with
  | nil =>
    rw [List.nil_append, lookup_cons, lookup_nil]
    by_cases hk : k = d
    · simp [hk]
    · rw [if_neg (fun h => hk h.symm), if_neg hk]
  | cons e m ih =>
    rw [lookup_cons] at h
    rw [List.cons_append, lookup_cons, lookup_cons]
    by_cases he : e.1 = d
    · rw [if_pos he] at h; cases h
    · rw [if_neg he] at h
      rw [ih h]
      by_cases hk : e.1 = k
      · rw [if_pos hk, if_pos hk, if_neg (fun hkd => he (hk.trans hkd))]
      · rw [if_neg hk, if_neg hk]

theorem lookup_upd {T : Type} (m : List (Expr O V A × T)) (n : Expr O V A) (t : T) (k : Expr O V A) :
    lookup (upd m n t) k = if k = n then some t else lookup m k := by
  unfold upd
  by_cases h : (lookup m n).isSome
  · rw [if_pos h]
    induction m with
    | nil => rw [lookup_nil] at h; cases h
    | cons e m ih =>
      rw [lookup_cons] at h
      rw [List.map_cons, lookup_cons, lookup_cons]
      by_cases he : e.1 = n
      · rw [if_pos he]
        dsimp only
        by_cases hk : k = n
        · rw [if_pos (he.trans hk.symm), if_pos hk]
        · rw [if_neg (fun hh => hk (hh.symm.trans he)), if_neg hk, if_neg (fun hh => hk (hh.symm.trans he))]
          clear ih h
          induction m with
          | nil => rfl
          | cons e' m ih =>
            rw [List.map_cons, lookup_cons, lookup_cons, ih]
            by_cases he' : e'.1 = n
            · rw [if_pos he', if_neg (by dsimp only; exact fun hh => hk (hh.symm.trans he')),
                if_neg (fun hh => hk (hh.symm.trans he'))]
            · rw [if_neg he']
      · rw [if_neg he] at h
        rw [if_neg he, ih h]
        by_cases hk : e.1 = k
        · rw [if_pos hk, if_pos hk, if_neg (fun hh => he (hk.trans hh))]
        · rw [if_neg hk, if_neg hk]
  · rw [if_neg h]
    have : lookup m n = none := by simpa using h
    exact lookup_snoc this t k

theorem upd_keys {T : Type} {m : List (Expr O V A × T)} {n : Expr O V A} (h : (lookup m n).isSome) (t : T) :
    (upd m n t).map Prod.fst = m.map Prod.fst := by
  unfold upd
  rw [if_pos h, List.map_map]
  apply List.map_congr_left
  intro e _
  dsimp only [Function.comp]
  split <;> rfl

theorem lookup_none_iff {T : Type} {m : List (Expr O V A × T)} {n : Expr O V A} :
    lookup m n = none ↔ n ∉ m.map Prod.fst := by
  induction m with
  | nil => simp [lookup_nil]
  | cons e m ih =>
    rw [lookup_cons]
    by_cases h : e.1 = n
    · rw [if_pos h]; simp [h]
    · rw [if_neg h, ih]
      simp only [List.map_cons, List.mem_cons, not_or]
      exact ⟨fun hh => ⟨fun h' => h h'.symm, hh⟩, fun hh => hh.2⟩

theorem lookup_isSome_iff {T : Type} {m : List (Expr O V A × T)} {n : Expr O V A} :
    (lookup m n).isSome ↔ n ∈ m.map Prod.fst := by
  have := lookup_none_iff (m := m) (n := n)
  cases h : lookup m n with
  | none => rw [h] at this; simp only [true_iff] at this; simpa using this
  | some x => rw [h] at this; simp only [reduceCtorEq, false_iff, not_not] at this; simpa using this

theorem store_lookup (cache : Cache O V A) (node new r k : Expr O V A) :
    lookup (store cache node new r) k = if k = node ∨ k = new then some (some r) else lookup cache k := by
  unfold store
  by_cases h : new = node
  · subst h
    rw [if_neg (by simp), lookup_upd]
    simp
  · rw [if_pos h, lookup_upd, lookup_upd]
    by_cases h1 : k = new
    · simp [h1]
    · by_cases h2 : k = node <;> simp [h1, h2]

theorem store_keys {cache : Cache O V A} {node new : Expr O V A} (r : Expr O V A) (h1 : (lookup cache node).isSome)
    (h2 : (lookup cache new).isSome) : (store cache node new r).map Prod.fst = cache.map Prod.fst := by
  unfold store
  split
  · rw [upd_keys (by rw [lookup_upd]; split <;> simp [h2]), upd_keys h1]
  · rw [upd_keys h1]

theorem skipCached_spec (cache : Cache O V A) : ∀ ds : List (Expr O V A),
    ((skipCached cache ds).1 = ds.length ∧ (skipCached cache ds).2 = cache ∧ ∀ d ∈ ds, (lookup cache d).isSome) ∨
    ∃ d, ds[(skipCached cache ds).1]? = some d ∧ lookup cache d = none ∧ (skipCached cache ds).2 = cache ++ [(d, none)] ∧
      ∀ (j : Nat) (x : Expr O V A), j < (skipCached cache ds).1 → ds[j]? = some x → (lookup cache x).isSome := by
  intro ds
  induction ds with
  | nil => exact Or.inl ⟨rfl, rfl, by simp⟩
  | cons d ds ih =>
    rw [skipCached]
    by_cases h : (lookup cache d).isSome
    · rw [if_pos h]
      rcases ih with ⟨h1, h2, h3⟩ | ⟨x, h1, h2, h3, h4⟩
      · left
        refine ⟨by simp [h1], h2, ?_⟩
        intro y hy
        rcases List.mem_cons.1 hy with rfl | hy
        · exact h
        · exact h3 y hy
      · right
        refine ⟨x, by simpa using h1, h2, h3, ?_⟩
        intro j y hj hy
        cases j with
        | zero => simp at hy; subst hy; exact h
        | succ j => exact h4 j y (by simpa using hj) (by simpa using hy)
    · rw [if_neg h]
      right
      exact ⟨d, by simp, by simpa using h, rfl, by intro j x hj; simp at hj⟩

theorem collect_none {cache : Cache O V A} : ∀ {ds : List (Expr O V A)}, collect cache ds = none →
    ∃ d ∈ ds, ∀ x, lookup cache d ≠ some (some x) := by
  intro ds
  induction ds with
  | nil => intro h; cases h
  | cons d ds ih =>
    intro h
    rw [collect] at h
    split at h
    · rename_i x hx
      obtain ⟨y, hy, hn⟩ := ih (by simpa using h)
      exact ⟨y, by simp [hy], hn⟩
    · rename_i hx
      exact ⟨d, by simp, fun x hh => hx x hh⟩

theorem collect_some {cache : Cache O V A} (hs : ∀ n r, lookup cache n = some (some r) → Deep G fn n r) :
    ∀ {ds xs : List (Expr O V A)}, collect cache ds = some xs → DeepList G fn ds xs := by
  intro ds
  induction ds with
  | nil => intro xs h; rw [collect] at h; cases h; exact ⟨rfl, by intro i d d' h; simp at h⟩
  | cons d ds ih =>
    intro xs h
    rw [collect] at h
    split at h
    · rename_i x hx
      cases hc : collect cache ds with
      | none => rw [hc] at h; cases h
      | some ys =>
        rw [hc] at h; cases h
        obtain ⟨h1, h2⟩ := ih hc
        refine ⟨by simp [h1], ?_⟩
        intro i a b ha hb
        cases i with
        | zero => simp at ha hb; subst ha; subst hb; exact hs _ _ hx
        | succ i => exact h2 i a b (by simpa using ha) (by simpa using hb)
    · cases h

/-! ## The invariant -/

/-- The nodes whose cache entry is the null pointer on behalf of a frame. -/
def pendingOf (f : Frame O V A) : List (Expr O V A) :=
  match f.second with
  | none => [f.node]
  | some (new, _) => if new = f.node then [f.node] else [f.node, new]

/-- The nodes in progress. -/
def pending (stack : List (Frame O V A)) : List (Expr O V A) := stack.flatMap pendingOf

/-- What a frame knows. -/
def FrameOk (G : Lang O V A E) (fn : Expr O V A → Except E (Expr O V A)) (cache : Cache O V A) (f : Frame O V A) : Prop :=
  match f.second with
  | none => ∀ (j : Nat) (d : Expr O V A), j < f.depIdx → f.node.deps[j]? = some d → (lookup cache d).isSome
  | some (new, t) => Rebuilt G fn f.node new ∧ fn new = .ok t

/-- Why frame `f` is on top of `g`. -/
def Below (f g : Frame O V A) : Prop :=
  match g.second with
  | none => f.node ∈ g.node.deps
  | some (new, t) => f.node = t ∧ t ≠ new

/-- Each frame is needed by the one below. -/
def Chain : List (Frame O V A) → Prop
  | f :: g :: rest => Below f g ∧ Chain (g :: rest)
  | _ => True

theorem chain_congr {f f' : Frame O V A} (h : f'.node = f.node) {rest : List (Frame O V A)} (hc : Chain (f :: rest)) :
    Chain (f' :: rest) := by
  cases rest with
  | nil => trivial
  | cons g rest =>
    obtain ⟨h1, h2⟩ := hc
    refine ⟨?_, h2⟩
    unfold Below at *
    rw [h]; exact h1

theorem chain_tail {f : Frame O V A} {rest : List (Frame O V A)} (hc : Chain (f :: rest)) : Chain rest := by
  cases rest with
  | nil => trivial
  | cons g rest => exact hc.2

/-- The invariant, apart from the one frame on top. -/
structure Core (G : Lang O V A E) (fn : Expr O V A → Except E (Expr O V A)) (root : Expr O V A) (cache : Cache O V A)
    (stack : List (Frame O V A)) : Prop where
  keys : (cache.map Prod.fst).Nodup
  sound : ∀ n r, lookup cache n = some (some r) → Deep G fn n r
  pend : ∀ n, lookup cache n = some none ↔ n ∈ pending stack
  nodup : (pending stack).Nodup
  frames : ∀ f ∈ stack, FrameOk G fn cache f
  chain : Chain stack
  reach : ∀ f ∈ stack, Relation.ReflTransGen (Needs G fn) root f.node
  rootIn : (lookup cache root).isSome
  bounded : ∀ k, (lookup cache k).isSome → Relation.ReflTransGen (Needs G fn) root k ∨
    ∃ n, Relation.ReflTransGen (Needs G fn) root n ∧ Rebuilt G fn n k

/-- The invariant. -/
structure Inv (G : Lang O V A E) (fn : Expr O V A → Except E (Expr O V A)) (root : Expr O V A) (cache : Cache O V A)
    (stack : List (Frame O V A)) : Prop extends Core G fn root cache stack where
  top : ∀ f rest new t, stack = f :: rest → f.second = some (new, t) → ∃ r, lookup cache t = some (some r)

theorem frameOk_mono {cache cache' : Cache O V A} {f : Frame O V A} (h : FrameOk G fn cache f)
    (hm : ∀ k, (lookup cache k).isSome → (lookup cache' k).isSome) : FrameOk G fn cache' f := by
  unfold FrameOk at *
  split
  · rename_i hs; rw [hs] at h; exact fun j d hj hd => hm d (h j d hj hd)
  · rename_i hs; rw [hs] at h; exact h

theorem pending_cons (f : Frame O V A) (rest : List (Frame O V A)) : pending (f :: rest) = pendingOf f ++ pending rest := rfl

theorem node_mem_pendingOf (f : Frame O V A) : f.node ∈ pendingOf f := by
  unfold pendingOf
  split
  · simp
  · split <;> simp

/-- A new frame. -/
theorem Core.push {root : Expr O V A} {cache : Cache O V A} {f f' : Frame O V A} {rest : List (Frame O V A)} {d : Expr O V A}
    (h : Core G fn root cache (f :: rest)) (hd : lookup cache d = none) (hn : f'.node = f.node)
    (hp : pendingOf f' = pendingOf f) (hf : FrameOk G fn (cache ++ [(d, none)]) f') (hb : Below ⟨d, 0, none⟩ f')
    (hr : Relation.ReflTransGen (Needs G fn) root d) :
    Core G fn root (cache ++ [(d, none)]) (⟨d, 0, none⟩ :: f' :: rest) := by
  have hl := lookup_snoc hd (none : Option (Expr O V A))
  have hmono : ∀ k, (lookup cache k).isSome → (lookup (cache ++ [(d, (none : Option (Expr O V A)))]) k).isSome := by
    intro k hk
    rw [hl]; split <;> simp [hk]
  have hpend : pending (⟨d, 0, none⟩ :: f' :: rest) = d :: pending (f :: rest) := by
    rw [pending_cons, pending_cons, hp]; rfl
  refine ⟨?_, ?_, ?_, ?_, ?_, ?_, ?_, ?_, ?_⟩
  · rw [List.map_append, List.nodup_append]
    refine ⟨h.keys, by simp, ?_⟩
    intro a ha b hb' hab
    simp at hb'
    subst hb' hab
    exact lookup_none_iff.1 hd ha
  · intro n r hnr
    rw [hl] at hnr
    by_cases hnd : n = d
    · rw [if_pos hnd] at hnr; cases hnr
    · rw [if_neg hnd] at hnr; exact h.sound n r hnr
  · intro n
    rw [hl, hpend, List.mem_cons]
    by_cases hnd : n = d
    · simp [hnd]
    · rw [if_neg hnd, h.pend]; simp [hnd]
  · rw [hpend, List.nodup_cons]
    refine ⟨?_, h.nodup⟩
    intro hm
    rw [← h.pend, hd] at hm; cases hm
  · intro g hg
    rcases List.mem_cons.1 hg with rfl | hg
    · intro j x hj; simp at hj
    · rcases List.mem_cons.1 hg with rfl | hg
      · exact hf
      · exact frameOk_mono (h.frames g (by simp [hg])) hmono
  · exact ⟨hb, chain_congr hn h.chain⟩
  · intro g hg
    rcases List.mem_cons.1 hg with rfl | hg
    · exact hr
    · rcases List.mem_cons.1 hg with rfl | hg
      · rw [hn]; exact h.reach f (by simp)
      · exact h.reach g (by simp [hg])
  · exact hmono _ h.rootIn
  · intro k hk
    rw [hl] at hk
    by_cases hkd : k = d
    · subst hkd; exact Or.inl hr
    · rw [if_neg hkd] at hk; exact h.bounded k hk

/-- The frame on top goes to the second stage. -/
theorem Core.convert {root : Expr O V A} {cache : Cache O V A} {f : Frame O V A} {rest : List (Frame O V A)} {new t : Expr O V A}
    (h : Core G fn root cache (f :: rest)) (hs : f.second = none) (hnew : Rebuilt G fn f.node new) (hfn : fn new = .ok t)
    (hl : new ≠ f.node → lookup cache new = none) (i : Nat) :
    Core G fn root (if new ≠ f.node then cache ++ [(new, none)] else cache) (⟨f.node, i, some (new, t)⟩ :: rest) := by
  have hpf : pending (f :: rest) = f.node :: pending rest := by
    rw [pending_cons]; unfold pendingOf; rw [hs]; rfl
  have hfr : FrameOk G fn (if new ≠ f.node then cache ++ [(new, none)] else cache) ⟨f.node, i, some (new, t)⟩ := ⟨hnew, hfn⟩
  by_cases hn : new = f.node
  · rw [if_neg (by simpa using hn)] at *
    have hp : pending (⟨f.node, i, some (new, t)⟩ :: rest) = pending (f :: rest) := by
      rw [hpf, pending_cons]; unfold pendingOf; simp [hn]
    refine ⟨h.keys, h.sound, by rw [hp]; exact h.pend, by rw [hp]; exact h.nodup, ?_, chain_congr (f := f) (f' := ⟨f.node, i, some (new, t)⟩) rfl h.chain, ?_, h.rootIn, h.bounded⟩
    · intro g hg
      rcases List.mem_cons.1 hg with rfl | hg
      · exact hfr
      · exact h.frames g (by simp [hg])
    · intro g hg
      rcases List.mem_cons.1 hg with rfl | hg
      · exact h.reach f (by simp)
      · exact h.reach g (by simp [hg])
  · rw [if_pos hn] at *
    have hd := hl hn
    have hl := lookup_snoc hd (none : Option (Expr O V A))
    have hmono : ∀ k, (lookup cache k).isSome → (lookup (cache ++ [(new, (none : Option (Expr O V A)))]) k).isSome := by
      intro k hk
      rw [hl]; split <;> simp [hk]
    have hp : (pending (⟨f.node, i, some (new, t)⟩ :: rest)).Perm (new :: pending (f :: rest)) := by
      rw [hpf, pending_cons]; unfold pendingOf; simp only [if_neg hn]
      exact List.Perm.swap _ _ _
    refine ⟨?_, ?_, ?_, ?_, ?_, chain_congr (f := f) (f' := ⟨f.node, i, some (new, t)⟩) rfl h.chain, ?_, hmono _ h.rootIn, ?_⟩
    · rw [List.map_append, List.nodup_append]
      refine ⟨h.keys, by simp, ?_⟩
      intro a ha b hb' hab
      simp at hb'
      subst hb' hab
      exact lookup_none_iff.1 hd ha
    · intro n r hnr
      rw [hl] at hnr
      by_cases hnd : n = new
      · rw [if_pos hnd] at hnr; cases hnr
      · rw [if_neg hnd] at hnr; exact h.sound n r hnr
    · intro n
      rw [hl, hp.mem_iff, List.mem_cons]
      by_cases hnd : n = new
      · simp [hnd]
      · rw [if_neg hnd, h.pend]; simp [hnd]
    · rw [hp.nodup_iff, List.nodup_cons]
      refine ⟨?_, h.nodup⟩
      intro hm
      rw [← h.pend, hd] at hm; cases hm
    · intro g hg
      rcases List.mem_cons.1 hg with rfl | hg
      · exact hfr
      · exact frameOk_mono (h.frames g (by simp [hg])) hmono
    · intro g hg
      rcases List.mem_cons.1 hg with rfl | hg
      · exact h.reach f (by simp)
      · exact h.reach g (by simp [hg])
    · intro k hk
      rw [hl] at hk
      by_cases hkd : k = new
      · subst hkd; exact Or.inr ⟨f.node, h.reach f (by simp), hnew⟩
      · rw [if_neg hkd] at hk; exact h.bounded k hk

/-- A frame is finished. -/
theorem Core.pop {root : Expr O V A} {cache cache' : Cache O V A} {f : Frame O V A} {rest : List (Frame O V A)} {r : Expr O V A}
    (h : Core G fn root cache (f :: rest)) (hk : cache'.map Prod.fst = cache.map Prod.fst)
    (hl : ∀ k, lookup cache' k = if k ∈ pendingOf f then some (some r) else lookup cache k)
    (hd : ∀ k ∈ pendingOf f, Deep G fn k r) : Inv G fn root cache' rest := by
  have hmono : ∀ k, (lookup cache k).isSome ↔ (lookup cache' k).isSome := by
    intro k
    rw [lookup_isSome_iff, lookup_isSome_iff, hk]
  have hnd := h.nodup
  rw [pending_cons, List.nodup_append] at hnd
  refine ⟨⟨?_, ?_, ?_, hnd.2.1, ?_, chain_tail h.chain, ?_, ?_, ?_⟩, ?_⟩
  · rw [hk]; exact h.keys
  · intro n s hs
    rw [hl] at hs
    by_cases hn : n ∈ pendingOf f
    · rw [if_pos hn] at hs; cases hs; exact hd n hn
    · rw [if_neg hn] at hs; exact h.sound n s hs
  · intro n
    rw [hl]
    by_cases hn : n ∈ pendingOf f
    · rw [if_pos hn]
      constructor
      · intro hh; cases hh
      · intro hh; exact absurd rfl (hnd.2.2 n hn n hh)
    · rw [if_neg hn, h.pend, pending_cons, List.mem_append]
      simp [hn]
  · intro g hg
    exact frameOk_mono (h.frames g (by simp [hg])) (fun k hk => (hmono k).1 hk)
  · intro g hg; exact h.reach g (by simp [hg])
  · exact (hmono _).1 h.rootIn
  · intro k hk; exact h.bounded k ((hmono k).2 hk)
  · intro g rest' new t hrest hg
    subst hrest
    have := h.chain.1
    unfold Below at this
    rw [hg] at this
    dsimp only at this
    refine ⟨r, ?_⟩
    rw [hl, ← this.1, if_pos (node_mem_pendingOf f)]

theorem needs_below {cache : Cache O V A} {f g : Frame O V A} (hg : FrameOk G fn cache g) (hb : Below f g) :
    ∀ p ∈ pendingOf g, Needs G fn p f.node := by
  intro p hp
  unfold pendingOf at hp
  unfold FrameOk at hg
  unfold Below at hb
  cases hs : g.second with
  | none =>
    rw [hs] at hp hb
    simp at hp
    subst hp
    exact Or.inl hb
  | some nt =>
    obtain ⟨new, t⟩ := nt
    rw [hs] at hp hb hg
    dsimp only at hp hb hg
    obtain ⟨h1, h2⟩ := hg
    obtain ⟨h3, h4⟩ := hb
    rw [h3]
    have : p = g.node ∨ p = new := by
      split at hp
      · simp at hp; exact Or.inl hp
      · simp at hp; exact hp
    rcases this with rfl | rfl
    · exact Or.inr ⟨new, h1, h2, h4⟩
    · exact Or.inr ⟨p, rebuilt_idem h1, h2, h4⟩

/-- Every node in progress below the frame on top needs the node on top. -/
theorem pending_needs {cache : Cache O V A} : ∀ (rest : List (Frame O V A)) (f : Frame O V A), Chain (f :: rest) →
    (∀ g ∈ rest, FrameOk G fn cache g) → ∀ p ∈ pending rest, Relation.TransGen (Needs G fn) p f.node := by
  intro rest
  induction rest with
  | nil => intro f _ _ p hp; cases hp
  | cons g rest ih =>
    intro f hc hf p hp
    have hgf := needs_below (hf g (by simp)) hc.1
    rw [pending_cons, List.mem_append] at hp
    rcases hp with hp | hp
    · exact .single (hgf p hp)
    · exact .tail (ih g hc.2 (fun x hx => hf x (by simp [hx])) p hp) (hgf g.node (node_mem_pendingOf g))

end Verif.Expr
