import Verif.Slots.SlotSpec
import Mathlib.Data.List.Nodup

/-!
# Lemmas: the invariant of the slot allocator
-/

namespace Verif.Slots

variable {K V F P T E : Type}

theorem setAt_same {α : Type} (f : Nat → α) (i : Nat) (x : α) : setAt f i x i = x := by simp [setAt]
theorem setAt_ne {α : Type} (f : Nat → α) {i j : Nat} (x : α) (h : j ≠ i) : setAt f i x j = f j := by
  simp [setAt, h]

/-! ## Last usages -/

theorem markDeps_cases (i : Nat) (ds : List Nat) (l : Nat → Nat) (j : Nat) :
    markDeps i ds l j = l j ∨ markDeps i ds l j = i := by
  induction ds generalizing l with
  | nil => exact Or.inl rfl
  | cons d ds ih =>
    rcases ih (setAt l d i) with h | h
    · simp only [markDeps, h]
      by_cases hj : j = d
      · subst hj; right; exact setAt_same ..
      · left; exact setAt_ne _ _ hj
    · right; exact h

theorem markDeps_mem (i : Nat) (ds : List Nat) (l : Nat → Nat) (j : Nat) (h : j ∈ ds) :
    markDeps i ds l j = i := by
  induction ds generalizing l with
  | nil => cases h
  | cons d ds ih =>
    by_cases hj : j ∈ ds
    · exact ih _ hj
    · have : j = d := by simpa [hj] using h
      subst this
      rcases markDeps_cases i ds (setAt l j i) j with h | h
      · exact h.trans (setAt_same ..)
      · exact h

theorem lastUsagesLoop_ge (ns : List (Node K V F P T)) (i : Nat) (l : Nat → Nat) (j : Nat)
    (h : l j ≤ i) : l j ≤ lastUsagesLoop i ns l j := by
  induction ns generalizing i l with
  | nil => exact Nat.le_refl _
  | cons n ns ih =>
    have hc : l j ≤ setAt (markDeps i n.deps l) i i j ∧ setAt (markDeps i n.deps l) i i j ≤ i := by
      by_cases hj : j = i
      · subst hj; rw [setAt_same]; exact ⟨h, Nat.le_refl _⟩
      · rw [setAt_ne _ _ hj]
        rcases markDeps_cases i n.deps l j with h' | h' <;> rw [h'] <;> omega
    exact Nat.le_trans hc.1 (ih (i + 1) _ (by omega))

theorem lastUsagesLoop_dep (ns : List (Node K V F P T)) (i : Nat) (l : Nat → Nat) (k : Nat)
    (n : Node K V F P T) (hk : ns[k]? = some n) (j : Nat) (hj : j ∈ n.deps) :
    i + k ≤ lastUsagesLoop i ns l j := by
  induction ns generalizing i l k with
  | nil => simp at hk
  | cons n' ns ih =>
    cases k with
    | zero =>
      simp only [List.getElem?_cons_zero, Option.some.injEq] at hk
      subst hk
      have hc : setAt (markDeps i n'.deps l) i i j = i := by
        by_cases hji : j = i
        · subst hji; exact setAt_same ..
        · rw [setAt_ne _ _ hji]; exact markDeps_mem _ _ _ _ hj
      have := lastUsagesLoop_ge ns (i + 1) (setAt (markDeps i n'.deps l) i i) j (by omega)
      simp only [lastUsagesLoop]; omega
    | succ k =>
      have := ih (i + 1) (setAt (markDeps i n'.deps l) i i) k (by simpa using hk)
      simp only [lastUsagesLoop]; omega

/-! ## The invariant -/

/-- Slots that are never handed out by `AllocateSlot`. -/
def Fixed (cfg : Config K) (layout : List T) (ns : List (Node K V F P T)) (ls : List (Nat × V))
    (b : Nat) : Prop :=
  Foreign cfg layout ns b ∨ b = cfg.out ∨ b ∈ ls.map Prod.fst

/-- State of the allocator after `i` nodes; nodes whose last usage is below `L` may have lost their
slot. -/
structure Inv (cfg : Config K) (layout : List T) (ns : List (Node K V F P T)) (u : Nat → Nat)
    (i L : Nat) (slots : List (Slot P)) (ls : List (Nat × V)) (a : Alloc T) : Prop where
  len : slots.length = i
  ext : ∃ e, a.layout = layout ++ e
  origin_ge : ∀ j, i ≤ j → a.origin j = j
  last_ge : ∀ j, i ≤ j → a.lastUsages j = u j
  origin_lt : ∀ j, j < i → a.origin j < i
  last_le : ∀ j, j < i → u j ≤ a.lastUsages (a.origin j)
  hold : ∀ (j : Nat) (s : Slot P), slots[j]? = some s → L ≤ u j →
    Fixed cfg layout ns ls s.base ∨ ∃ t, a.resultSlot (a.origin j) = some (t, s.base)
  slot_lt : ∀ s ∈ slots, s.base < a.layout.length
  own_ty : ∀ o t b, a.resultSlot o = some (t, b) → a.layout[b]? = some t
  own_fixed : ∀ o t b, a.resultSlot o = some (t, b) → ¬ Fixed cfg layout ns ls b
  own_reuse : ∀ o t b t', a.resultSlot o = some (t, b) → b ∉ a.reusable t'
  own_inj : ∀ o o' t t' b, a.resultSlot o = some (t, b) → a.resultSlot o' = some (t', b) → o = o'
  leaf_own : cfg.allowOverride = true → ∀ (o : Nat) (n : Node K V F P T) (k : K) (b : Nat), i ≤ o →
    ns[o]? = some n → n.kind = .leaf k → cfg.inputSlot k = some b → a.resultSlot o = some (n.ty, b)
  reuse_ty : ∀ t, ∀ b ∈ a.reusable t, a.layout[b]? = some t
  reuse_nodup : ∀ t, (a.reusable t).Nodup
  reuse_fixed : ∀ t, ∀ b ∈ a.reusable t, ¬ Fixed cfg layout ns ls b
  lits : ∀ p ∈ ls, layout.length ≤ p.1 ∧ p.1 < a.layout.length
  lits_nodup : (ls.map Prod.fst).Nodup
  out_new : i ≤ cfg.outIdx → ∀ s ∈ slots, s.base ≠ cfg.out
  out_slot : cfg.outIdx < i → slots[cfg.outIdx]? = some ⟨cfg.out, []⟩
  op_ty : ∀ (j : Nat) (s : Slot P) (n : Node K V F P T) (f : F), slots[j]? = some s →
    ns[j]? = some n → n.kind = .op f → j ≠ cfg.outIdx → a.layout[s.base]? = some n.ty

variable {cfg : Config K} {layout : List T} {ns : List (Node K V F P T)} {u : Nat → Nat} {i L : Nat}
  {slots : List (Slot P)} {ls : List (Nat × V)} {a : Alloc T}

theorem Inv.mono (h : Inv cfg layout ns u i L slots ls a) {L' : Nat} (hL : L ≤ L') :
    Inv cfg layout ns u i L' slots ls a :=
  { h with hold := fun j s hs hu => h.hold j s hs (by omega) }

theorem Inv.len_le (h : Inv cfg layout ns u i L slots ls a) : layout.length ≤ a.layout.length := by
  obtain ⟨e, he⟩ := h.ext
  rw [he]; simp

theorem Inv.fixed_lt (hs : Setup cfg layout ns) (h : Inv cfg layout ns u i L slots ls a) {b : Nat}
    (hb : Fixed cfg layout ns ls b) : b < a.layout.length := by
  have := h.len_le
  rcases hb with hb | hb | hb
  · have := hb.1; omega
  · have := hs.out_lt; omega
  · obtain ⟨p, hp, rfl⟩ := List.mem_map.1 hb
    exact (h.lits p hp).2

theorem lt_of_getElem? {α : Type} {l : List α} {b : Nat} {t : α} (h : l[b]? = some t) :
    b < l.length := (List.getElem?_eq_some_iff.1 h).1

/-! ## Release -/

theorem Inv.release [DecidableEq T] (h : Inv cfg layout ns u (i + 1) (i + 1) slots ls a)
    (ds : List Nat) (hd : ∀ d ∈ ds, d < i + 1) :
    Inv cfg layout ns u (i + 1) (i + 1) slots ls (a.release i ds) := by
  induction ds generalizing a with
  | nil => exact h
  | cons d ds ih =>
    have hds : ∀ d ∈ ds, d < i + 1 := fun d' h' => hd d' (by simp [h'])
    have hdi : d < i + 1 := hd d (by simp)
    unfold Alloc.release
    dsimp only
    split
    case h_2 => exact ih h hds
    case h_1 ty s hr =>
    split
    case isFalse => exact ih h hds
    case isTrue hl =>
    apply ih _ hds
    have hol := h.origin_lt d hdi
    have key : ∀ o t b, setAt a.resultSlot (a.origin d) none o = some (t, b) →
        o ≠ a.origin d ∧ a.resultSlot o = some (t, b) := by
      intro o t b hb
      by_cases ho : o = a.origin d
      · rw [ho, setAt_same] at hb; cases hb
      · rw [setAt_ne _ _ ho] at hb; exact ⟨ho, hb⟩
    refine { h with hold := ?_, own_ty := ?_, own_fixed := ?_, own_reuse := ?_, own_inj := ?_,
                    leaf_own := ?_, reuse_ty := ?_, reuse_nodup := ?_, reuse_fixed := ?_ }
    · intro j sl hj hu
      have hjl : j < i + 1 := by have := lt_of_getElem? hj; rw [h.len] at this; exact this
      have hlast := h.last_le j hjl
      rcases h.hold j sl hj hu with hf | ⟨t, ht⟩
      · exact Or.inl hf
      · refine Or.inr ⟨t, ?_⟩
        have : a.origin j ≠ a.origin d := fun e => by rw [e] at hlast; omega
        exact (setAt_ne _ _ this).trans ht
    · intro o t b hb; exact h.own_ty o t b (key o t b hb).2
    · intro o t b hb; exact h.own_fixed o t b (key o t b hb).2
    · intro o t b t' hb hm
      obtain ⟨ho, hb'⟩ := key o t b hb
      dsimp only at hm
      split at hm
      · rcases List.mem_cons.1 hm with e | hm
        · exact ho (h.own_inj _ _ _ _ _ hb' (e ▸ hr))
        · exact h.own_reuse o t b _ hb' hm
      · exact h.own_reuse o t b _ hb' hm
    · intro o o' t t' b hb hb'
      exact h.own_inj _ _ _ _ _ (key _ _ _ hb).2 (key _ _ _ hb').2
    · intro hal o n k b ho hn hk hb
      have := h.leaf_own hal o n k b ho hn hk hb
      exact (setAt_ne _ _ (by omega)).trans this
    · intro t b hb
      dsimp only at hb
      split at hb
      case isTrue e =>
        rcases List.mem_cons.1 hb with e' | hb
        · subst e'; subst e; exact h.own_ty _ _ _ hr
        · exact h.reuse_ty t b hb
      · exact h.reuse_ty t b hb
    · intro t
      dsimp only
      split
      · exact List.nodup_cons.2 ⟨h.own_reuse _ _ _ _ hr, h.reuse_nodup t⟩
      · exact h.reuse_nodup t
    · intro t b hb
      dsimp only at hb
      split at hb
      · rcases List.mem_cons.1 hb with e' | hb
        · subst e'; exact h.own_fixed _ _ _ hr
        · exact h.reuse_fixed t b hb
      · exact h.reuse_fixed t b hb

/-! ## A new slot -/

theorem getElem?_push {α : Type} {l : List α} {x y : α} {j : Nat} (h : (l ++ [x])[j]? = some y) :
    (l[j]? = some y ∧ j < l.length) ∨ (j = l.length ∧ y = x) := by
  rcases Nat.lt_trichotomy j l.length with hj | hj | hj
  · rw [List.getElem?_append_left hj] at h; exact Or.inl ⟨h, hj⟩
  · subst hj; simp at h; exact Or.inr ⟨rfl, h.symm⟩
  · rw [List.getElem?_append_right (by omega)] at h
    have : j - l.length ≠ 0 := by omega
    obtain ⟨k, hk⟩ := Nat.exists_eq_succ_of_ne_zero this
    rw [hk] at h; simp at h

/-- Node `i` gets the slot `s`, inheriting it from `src` (`src = i`: a slot of its own). -/
theorem Inv.push (h : Inv cfg layout ns u i L slots ls a) (s : Slot P) (src : Nat) (hsrc : src ≤ i)
    (hhold : Fixed cfg layout ns ls s.base ∨ ∃ t, a.resultSlot (a.origin src) = some (t, s.base))
    (hlt : s.base < a.layout.length)
    (hnew : i < cfg.outIdx → s.base ≠ cfg.out)
    (hout : i = cfg.outIdx → s = ⟨cfg.out, []⟩)
    (hop : ∀ (n : Node K V F P T) (f : F), ns[i]? = some n → n.kind = .op f → i ≠ cfg.outIdx →
      a.layout[s.base]? = some n.ty) :
    Inv cfg layout ns u (i + 1) L (slots ++ [s]) ls (a.inherit i src) := by
  have hlen := h.len
  have ho : a.origin src < i + 1 := by
    rcases Nat.lt_or_ge src i with hs | hs
    · have := h.origin_lt src hs; omega
    · rw [h.origin_ge src hs]; omega
  have hl : ∀ j, a.lastUsages j ≤ (a.inherit i src).lastUsages j := by
    intro j
    simp only [Alloc.inherit]
    by_cases hj : j = a.origin src
    · rw [hj, setAt_same]; omega
    · rw [setAt_ne _ _ hj]; exact Nat.le_refl _
  refine { len := ?_, ext := h.ext, origin_ge := ?_, last_ge := ?_, origin_lt := ?_, last_le := ?_, hold := ?_,
           slot_lt := ?_, own_ty := h.own_ty, own_fixed := h.own_fixed, own_reuse := h.own_reuse,
           own_inj := h.own_inj, leaf_own := ?_, reuse_ty := h.reuse_ty,
           reuse_nodup := h.reuse_nodup, reuse_fixed := h.reuse_fixed, lits := h.lits,
           lits_nodup := h.lits_nodup, out_new := ?_, out_slot := ?_, op_ty := ?_ }
  · simp [hlen]
  · intro j hj
    exact (setAt_ne _ _ (by omega)).trans (h.origin_ge j (by omega))
  · intro j hj
    exact (setAt_ne _ _ (by omega)).trans (h.last_ge j (by omega))
  · intro j hj
    show setAt a.origin i (a.origin src) j < i + 1
    by_cases hji : j = i
    · rw [hji, setAt_same]; exact ho
    · rw [setAt_ne _ _ hji]; have := h.origin_lt j (by omega); omega
  · intro j hj
    show u j ≤ (a.inherit i src).lastUsages (setAt a.origin i (a.origin src) j)
    by_cases hji : j = i
    · rw [hji, setAt_same]
      simp only [Alloc.inherit, setAt_same]
      have := h.last_ge i (by omega); omega
    · rw [setAt_ne _ _ hji]; exact Nat.le_trans (h.last_le j (by omega)) (hl _)
  · intro j sl hj hu
    show _ ∨ ∃ t, a.resultSlot (setAt a.origin i (a.origin src) j) = some (t, sl.base)
    rcases getElem?_push hj with ⟨hj, hjl⟩ | ⟨hj', rfl⟩
    · rw [setAt_ne _ _ (by omega)]; exact h.hold j sl hj hu
    · rw [hj', hlen, setAt_same]; exact hhold
  · intro sl hsl
    rcases List.mem_append.1 hsl with hsl | hsl
    · exact h.slot_lt sl hsl
    · rw [List.mem_singleton.1 hsl]; exact hlt
  · intro hal o n k b hoi
    exact h.leaf_own hal o n k b (by omega)
  · intro hi sl hsl
    rcases List.mem_append.1 hsl with hsl | hsl
    · exact h.out_new (by omega) sl hsl
    · rw [List.mem_singleton.1 hsl]; exact hnew (by omega)
  · intro hi
    rcases Nat.lt_or_ge cfg.outIdx i with hi' | hi'
    · rw [List.getElem?_append_left (by omega)]; exact h.out_slot hi'
    · have : i = cfg.outIdx := by omega
      rw [← hout this, ← this, ← hlen]; simp
  · intro j sl n f hj hn hk hne
    rcases getElem?_push hj with ⟨hj, hjl⟩ | ⟨hj', rfl⟩
    · exact h.op_ty j sl n f hj hn hk hne
    · rw [hj', hlen] at hn hne
      exact hop n f hn hk hne

theorem inherit_self (h : a.origin i = i) : a.inherit i i = a := by
  have h1 : setAt a.origin i (a.origin i) = a.origin := by
    funext j; by_cases hj : j = i
    · rw [hj, setAt_same]
    · rw [setAt_ne _ _ hj]
  have h2 : setAt a.lastUsages i (max (a.lastUsages i) (a.lastUsages i)) = a.lastUsages := by
    funext j; by_cases hj : j = i
    · rw [hj, setAt_same, Nat.max_self]
    · rw [setAt_ne _ _ hj]
  simp only [Alloc.inherit, h] at h1 h2 ⊢
  rw [h1, h2]

theorem Inv.push_own (h : Inv cfg layout ns u i L slots ls a) (s : Slot P)
    (hhold : Fixed cfg layout ns ls s.base ∨ ∃ t, a.resultSlot i = some (t, s.base))
    (hlt : s.base < a.layout.length)
    (hnew : i < cfg.outIdx → s.base ≠ cfg.out)
    (hout : i = cfg.outIdx → s = ⟨cfg.out, []⟩)
    (hop : ∀ (n : Node K V F P T) (f : F), ns[i]? = some n → n.kind = .op f → i ≠ cfg.outIdx →
      a.layout[s.base]? = some n.ty) :
    Inv cfg layout ns u (i + 1) L (slots ++ [s]) ls a := by
  have ho := h.origin_ge i (Nat.le_refl _)
  have := h.push s i (Nat.le_refl _) (by rw [ho]; exact hhold) hlt hnew hout hop
  rwa [inherit_self ho] at this

/-! ## Allocation -/

theorem getElem?_ext {α : Type} {l : List α} {b : Nat} {t : α} (e : List α) (h : l[b]? = some t) :
    (l ++ e)[b]? = some t := by
  rw [List.getElem?_append_left (lt_of_getElem? h)]; exact h

theorem Inv.permanent (hs : Setup cfg layout ns) (h : Inv cfg layout ns u i L slots ls a) (ty : T)
    (v : V) :
    Inv cfg layout ns u i L slots (ls ++ [(a.layout.length, v)]) (a.permanent ty).2 := by
  have hfix : ∀ b, Fixed cfg layout ns ls b → Fixed cfg layout ns (ls ++ [(a.layout.length, v)]) b := by
    intro b hb
    rcases hb with hb | hb | hb
    · exact Or.inl hb
    · exact Or.inr (Or.inl hb)
    · exact Or.inr (Or.inr (by rw [List.map_append]; exact List.mem_append_left _ hb))
  have hfix' : ∀ b, b < a.layout.length → Fixed cfg layout ns (ls ++ [(a.layout.length, v)]) b →
      Fixed cfg layout ns ls b := by
    intro b hl hb
    rcases hb with hb | hb | hb
    · exact Or.inl hb
    · exact Or.inr (Or.inl hb)
    · rw [List.map_append, List.mem_append] at hb
      rcases hb with hb | hb
      · exact Or.inr (Or.inr hb)
      · simp at hb; omega
  obtain ⟨e, he⟩ := h.ext
  refine { h with ext := ?_, hold := ?_, slot_lt := ?_, own_ty := ?_, own_fixed := ?_, reuse_ty := ?_,
                  reuse_fixed := ?_, lits := ?_, lits_nodup := ?_, op_ty := ?_ }
  · exact ⟨e ++ [ty], by simp [Alloc.permanent, he]⟩
  · intro j s hj hu
    exact (h.hold j s hj hu).imp (hfix _) id
  · intro s hsl
    have := h.slot_lt s hsl
    simp only [Alloc.permanent, List.length_append, List.length_singleton]; omega
  · intro o t b hb; exact getElem?_ext _ (h.own_ty o t b hb)
  · intro o t b hb hf
    exact h.own_fixed o t b hb (hfix' b (lt_of_getElem? (h.own_ty o t b hb)) hf)
  · intro t b hb; exact getElem?_ext _ (h.reuse_ty t b hb)
  · intro t b hb hf
    exact h.reuse_fixed t b hb (hfix' b (lt_of_getElem? (h.reuse_ty t b hb)) hf)
  · intro p hp
    simp only [Alloc.permanent, List.length_append, List.length_singleton]
    rcases List.mem_append.1 hp with hp | hp
    · have := h.lits p hp; omega
    · rw [List.mem_singleton.1 hp]
      have := h.len_le
      dsimp only; omega
  · rw [List.map_append, List.nodup_append]
    refine ⟨h.lits_nodup, by simp, ?_⟩
    intro x hx y hy e
    simp only [List.map_cons, List.map_nil, List.mem_singleton] at hy
    obtain ⟨p, hp, rfl⟩ := List.mem_map.1 hx
    have := (h.lits p hp).2
    omega
  · intro j s n f hj hn hk hne
    exact getElem?_ext _ (h.op_ty j s n f hj hn hk hne)

/-- What `AllocateSlot` hands out: a slot nobody holds, of the requested type. -/
theorem Inv.allocate [DecidableEq T] (hs : Setup cfg layout ns)
    (h : Inv cfg layout ns u i L slots ls a) (n : Node K V F P T) (f : F) (hn : ns[i]? = some n)
    (hk : n.kind = .op f) :
    Inv cfg layout ns u i L slots ls (a.allocate i n.ty).2 ∧
    (a.allocate i n.ty).2.resultSlot i = some (n.ty, (a.allocate i n.ty).1) ∧
    (∀ t', (a.allocate i n.ty).1 ∉ (a.allocate i n.ty).2.reusable t') ∧
    ¬ Fixed cfg layout ns ls (a.allocate i n.ty).1 ∧
    (∀ o t, a.resultSlot o ≠ some (t, (a.allocate i n.ty).1)) := by
  have hnl : ∀ (o : Nat) (n' : Node K V F P T) (k : K), ns[o]? = some n' → n'.kind = .leaf k → o ≠ i := by
    intro o n' k hn' hk' e
    subst e
    rw [hn] at hn'; cases hn'
    rw [hk] at hk'; cases hk'
  cases hr : a.reusable n.ty with
  | nil =>
    have hnf : ¬ Fixed cfg layout ns ls a.layout.length := fun hf => by
      have := h.fixed_lt hs hf; omega
    have hno : ∀ o t, a.resultSlot o ≠ some (t, a.layout.length) := fun o t e => by
      have := lt_of_getElem? (h.own_ty _ _ _ e); omega
    have hnr : ∀ t, a.layout.length ∉ a.reusable t := fun t e => by
      have := lt_of_getElem? (h.reuse_ty _ _ e); omega
    have key : ∀ o t b, setAt a.resultSlot i (some (n.ty, a.layout.length)) o = some (t, b) →
        (o = i ∧ t = n.ty ∧ b = a.layout.length) ∨ (o ≠ i ∧ a.resultSlot o = some (t, b)) := by
      intro o t b hb
      by_cases ho : o = i
      · rw [ho, setAt_same] at hb; cases hb; exact Or.inl ⟨ho, rfl, rfl⟩
      · rw [setAt_ne _ _ ho] at hb; exact Or.inr ⟨ho, hb⟩
    simp only [Alloc.allocate, hr]
    refine ⟨?_, setAt_same .., hnr, hnf, hno⟩
    obtain ⟨e, he⟩ := h.ext
    refine { h with ext := ?_, hold := ?_, slot_lt := ?_, own_ty := ?_, own_fixed := ?_, own_reuse := ?_, own_inj := ?_,
                    leaf_own := ?_, reuse_ty := ?_, lits := ?_, op_ty := ?_ }
    · exact ⟨e ++ [n.ty], by simp [he]⟩
    · intro j s hj hu
      have hji := lt_of_getElem? hj
      rw [h.len] at hji
      have := h.origin_lt j hji
      refine (h.hold j s hj hu).imp id ?_
      rintro ⟨t, ht⟩
      exact ⟨t, (setAt_ne _ _ (by show a.origin j ≠ i; omega)).trans ht⟩
    · intro s hsl
      have := h.slot_lt s hsl
      simp only [List.length_append, List.length_singleton]; omega
    · intro o t b hb
      rcases key o t b hb with ⟨_, rfl, rfl⟩ | ⟨_, hb⟩
      · simp
      · exact getElem?_ext _ (h.own_ty o t b hb)
    · intro o t b hb
      rcases key o t b hb with ⟨_, rfl, rfl⟩ | ⟨_, hb⟩
      · exact hnf
      · exact h.own_fixed o t b hb
    · intro o t b t' hb
      rcases key o t b hb with ⟨_, rfl, rfl⟩ | ⟨_, hb⟩
      · exact hnr t'
      · exact h.own_reuse o t b t' hb
    · intro o o' t t' b hb hb'
      rcases key o t b hb with ⟨e1, rfl, rfl⟩ | ⟨_, hb⟩ <;>
        rcases key o' t' _ hb' with ⟨e2, e3, e4⟩ | ⟨_, hb'⟩
      · omega
      · exact absurd hb' (hno _ _)
      · exact absurd (e4 ▸ hb) (hno _ _)
      · exact h.own_inj _ _ _ _ _ hb hb'
    · intro hal o n' k b hoi hn' hk' hb
      exact (setAt_ne _ _ (hnl o n' k hn' hk')).trans (h.leaf_own hal o n' k b hoi hn' hk' hb)
    · intro t b hb; exact getElem?_ext _ (h.reuse_ty t b hb)
    · intro p hp
      have := h.lits p hp
      simp only [List.length_append, List.length_singleton]; omega
    · intro j s n f hj hn hk hne
      exact getElem?_ext _ (h.op_ty j s n f hj hn hk hne)
  | cons b0 bs =>
    have hb0 : b0 ∈ a.reusable n.ty := by rw [hr]; simp
    have hty := h.reuse_ty _ _ hb0
    have hnf := h.reuse_fixed _ _ hb0
    have hno : ∀ o t, a.resultSlot o ≠ some (t, b0) := fun o t e => h.own_reuse _ _ _ _ e hb0
    have hnd := h.reuse_nodup n.ty
    rw [hr, List.nodup_cons] at hnd
    have hsub : ∀ t b, b ∈ (if t = n.ty then bs else a.reusable t) → b ∈ a.reusable t ∧ b ≠ b0 := by
      intro t b hb
      split at hb
      case isTrue e =>
        subst e
        exact ⟨by rw [hr]; exact List.mem_cons_of_mem _ hb, fun e => hnd.1 (e ▸ hb)⟩
      case isFalse e =>
        refine ⟨hb, fun e' => e ?_⟩
        subst e'
        have := h.reuse_ty _ _ hb
        rw [hty] at this; exact (Option.some.inj this).symm
    have key : ∀ o t b, setAt a.resultSlot i (some (n.ty, b0)) o = some (t, b) →
        (o = i ∧ t = n.ty ∧ b = b0) ∨ (o ≠ i ∧ a.resultSlot o = some (t, b)) := by
      intro o t b hb
      by_cases ho : o = i
      · rw [ho, setAt_same] at hb; cases hb; exact Or.inl ⟨ho, rfl, rfl⟩
      · rw [setAt_ne _ _ ho] at hb; exact Or.inr ⟨ho, hb⟩
    simp only [Alloc.allocate, hr]
    refine ⟨?_, setAt_same .., fun t hb => (hsub t b0 hb).2 rfl, hnf, hno⟩
    refine { h with hold := ?_, own_ty := ?_, own_fixed := ?_, own_reuse := ?_, own_inj := ?_,
                    leaf_own := ?_, reuse_ty := ?_, reuse_nodup := ?_, reuse_fixed := ?_ }
    · intro j s hj hu
      have hji := lt_of_getElem? hj
      rw [h.len] at hji
      have := h.origin_lt j hji
      refine (h.hold j s hj hu).imp id ?_
      rintro ⟨t, ht⟩
      exact ⟨t, (setAt_ne _ _ (by show a.origin j ≠ i; omega)).trans ht⟩
    · intro o t b hb
      rcases key o t b hb with ⟨_, rfl, rfl⟩ | ⟨_, hb⟩
      · exact hty
      · exact h.own_ty o t b hb
    · intro o t b hb
      rcases key o t b hb with ⟨_, rfl, rfl⟩ | ⟨_, hb⟩
      · exact hnf
      · exact h.own_fixed o t b hb
    · intro o t b t' hb hm
      rcases key o t b hb with ⟨_, rfl, rfl⟩ | ⟨_, hb⟩
      · exact (hsub _ _ hm).2 rfl
      · exact h.own_reuse o t b t' hb (hsub _ _ hm).1
    · intro o o' t t' b hb hb'
      rcases key o t b hb with ⟨e1, rfl, rfl⟩ | ⟨_, hb⟩ <;>
        rcases key o' t' _ hb' with ⟨e2, e3, e4⟩ | ⟨_, hb'⟩
      · omega
      · exact absurd hb' (hno _ _)
      · exact absurd (e4 ▸ hb) (hno _ _)
      · exact h.own_inj _ _ _ _ _ hb hb'
    · intro hal o n' k b hoi hn' hk' hb
      exact (setAt_ne _ _ (hnl o n' k hn' hk')).trans (h.leaf_own hal o n' k b hoi hn' hk' hb)
    · intro t b hb; exact h.reuse_ty t b (hsub _ _ hb).1
    · intro t
      dsimp only
      split
      · exact hnd.2
      · exact h.reuse_nodup t
    · intro t b hb; exact h.reuse_fixed t b (hsub _ _ hb).1

end Verif.Slots
