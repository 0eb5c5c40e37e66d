import Verif.Objects.ObjectsSpec
import Mathlib.Data.List.Nodup
import Mathlib.Data.List.Sort

/-!
# Lemmas about objects
-/

namespace Verif.Objects

variable {κ V F : Type}

section
variable [DecidableEq κ]

theorem find_mem {k : κ} {m : List (κ × V)} {v : V} (h : find k m = some v) : (k, v) ∈ m := by
  induction m with
  | nil => cases h
  | cons x m ih =>
    obtain ⟨k', w⟩ := x
    unfold find at h
    split at h
    · rename_i e
      subst e
      cases h
      exact List.mem_cons_self
    · exact List.mem_cons_of_mem _ (ih h)

theorem find_none {k : κ} {m : List (κ × V)} : find k m = none ↔ ∀ w, (k, w) ∉ m := by
  induction m with
  | nil => simp [find]
  | cons x m ih =>
    obtain ⟨k', w⟩ := x
    unfold find
    split
    · rename_i e
      subst e
      constructor
      · intro h
        cases h
      · intro h
        exact absurd List.mem_cons_self (h w)
    · rename_i e
      rw [ih]
      constructor
      · intro h u hu
        rcases List.mem_cons.1 hu with hu | hu
        · injection hu with h1 h2
          exact e h1.symm
        · exact h u hu
      · intro h u hu
        exact h u (List.mem_cons_of_mem _ hu)

theorem find_of_mem {k : κ} {m : List (κ × V)} {v : V} (hn : (m.map (·.1)).Nodup) (h : (k, v) ∈ m) : find k m = some v := by
  induction m with
  | nil => cases h
  | cons x m ih =>
    obtain ⟨k', w⟩ := x
    rw [List.map_cons, List.nodup_cons] at hn
    rcases List.mem_cons.1 h with h | h
    · injection h with h1 h2
      subst h1
      subst h2
      exact if_pos rfl
    · have hne : k' ≠ k := by
        rintro rfl
        exact hn.1 (List.mem_map.2 ⟨(k', v), h, rfl⟩)
      unfold find
      rw [if_neg hne]
      exact ih hn.2 h

theorem find_append {k : κ} {m n : List (κ × V)} : find k (m ++ n) = (find k m).or (find k n) := by
  induction m with
  | nil => rfl
  | cons x m ih =>
    obtain ⟨k', w⟩ := x
    show (if k' = k then some w else find k (m ++ n)) = (if k' = k then some w else find k m).or (find k n)
    split
    · rfl
    · exact ih

theorem getAttr_chain (o : Object κ V) (k : κ) : o.getAttrOrNull k = o.chain.findSome? (find k) := by
  fun_induction Object.chain o with
  | case1 => rfl
  | case2 a =>
    unfold Object.getAttrOrNull
    cases h : find k a <;> simp [h]
  | case3 a p ih =>
    unfold Object.getAttrOrNull
    rw [ih]
    cases h : find k a <;> simp [h]

theorem emplace_fold (nt : List (κ × V)) : ∀ (m : List (κ × V)), (m.map (·.1)).Nodup →
    ((nt.foldl (fun m x => emplace m x.1 x.2) m).map (·.1)).Nodup ∧
      ∀ k, find k (nt.foldl (fun m x => emplace m x.1 x.2) m) = (find k m).or (find k nt) := by
  induction nt with
  | nil =>
    intro m hm
    exact ⟨hm, fun k => by cases h : find k m <;> simp [h, find]⟩
  | cons x nt ih =>
    intro m hm
    obtain ⟨k', w⟩ := x
    rw [List.foldl_cons]
    cases h : find k' m with
    | some u =>
      have e : emplace m k' w = m := by unfold emplace; rw [h]
      dsimp only
      rw [e]
      refine ⟨(ih m hm).1, fun k => ?_⟩
      rw [(ih m hm).2 k]
      by_cases hk : k' = k
      · subst hk
        rw [h]
        rfl
      · congr 1
        exact (if_neg hk).symm
    | none =>
      have e : emplace m k' w = m ++ [(k', w)] := by unfold emplace; rw [h]
      dsimp only
      rw [e]
      have hn : ((m ++ [(k', w)]).map (·.1)).Nodup := by
        rw [List.map_append, List.nodup_append]
        refine ⟨hm, List.nodup_singleton _, ?_⟩
        intro a ha b hb
        obtain ⟨⟨a', u⟩, hu, rfl⟩ := List.mem_map.1 ha
        rw [List.map_cons, List.map_nil, List.mem_singleton] at hb
        subst hb
        rintro rfl
        exact find_none.1 h u hu
      refine ⟨(ih _ hn).1, fun k => ?_⟩
      rw [(ih _ hn).2 k, find_append, Option.or_assoc]
      congr 1
      show (if k' = k then some w else find k []).or (find k nt) = if k' = k then some w else find k nt
      split <;> rfl

end

/-- The tokens of the items. -/
def flat (fp : V → F) (a : List (κ × V)) : List (Token κ F) := a.flatMap fun x => [.string x.1, .fingerprint (fp x.2)]

theorem flat_cons (fp : V → F) (x : κ × V) (a : List (κ × V)) :
    flat fp (x :: a) = .string x.1 :: .fingerprint (fp x.2) :: flat fp a := rfl

/-- The tokens of a chain. -/
def encode (tag : κ) (fp : V → F) (sort : List (κ × V) → List (κ × V)) (c : List (List (κ × V))) : List (Token κ F) :=
  c.flatMap fun a => .string tag :: flat fp (sort a)

theorem fingerprint_encode (tag : κ) (fp : V → F) (sort : List (κ × V) → List (κ × V)) (o : Object κ V) :
    o.fingerprint tag fp sort = encode tag fp sort o.chain := by
  fun_induction Object.chain o with
  | case1 => unfold Object.fingerprint encode; simp [flat]
  | case2 a => unfold Object.fingerprint encode; simp [flat]
  | case3 a p ih => unfold Object.fingerprint; rw [ih]; unfold encode; simp [flat]

theorem encode_cons (tag : κ) (fp : V → F) (sort : List (κ × V) → List (κ × V)) (a : List (κ × V)) (c : List (List (κ × V))) :
    encode tag fp sort (a :: c) = .string tag :: (flat fp (sort a) ++ encode tag fp sort c) := rfl

/-- No item starts here. -/
def NoItem (l : List (Token κ F)) : Prop := ∀ s f r, l ≠ .string s :: .fingerprint f :: r

theorem encode_noItem (tag : κ) (fp : V → F) (sort : List (κ × V) → List (κ × V)) (c : List (List (κ × V))) :
    NoItem (encode tag fp sort c) := by
  intro s f r h
  cases c with
  | nil => cases h
  | cons a c =>
    rw [encode_cons] at h
    injection h with h1 h2
    cases hs : sort a with
    | cons x l =>
      rw [hs, flat_cons] at h2
      injection h2 with h3
      cases h3
    | nil =>
      rw [hs] at h2
      change encode tag fp sort c = _ at h2
      cases c with
      | nil => cases h2
      | cons b c =>
        rw [encode_cons] at h2
        injection h2 with h3
        cases h3

theorem flat_inj {fp : V → F} (hfp : ∀ v w, fp v = fp w → v = w) {a b : List (κ × V)} {p q : List (Token κ F)} (hp : NoItem p)
    (hq : NoItem q) (h : flat fp a ++ p = flat fp b ++ q) : a = b ∧ p = q := by
  induction a generalizing b with
  | nil =>
    cases b with
    | nil => exact ⟨rfl, h⟩
    | cons x b => exact absurd h (hp _ _ _)
  | cons x a ih =>
    cases b with
    | nil => exact absurd h.symm (hq _ _ _)
    | cons y b =>
      rw [flat_cons, flat_cons] at h
      injection h with h1 h2
      injection h2 with h3 h4
      injection h1 with h1
      injection h3 with h3
      obtain ⟨rfl, hpq⟩ := ih h4
      exact ⟨by rw [Prod.ext h1 (hfp _ _ h3)], hpq⟩

theorem sorted_unique [LinearOrder κ] {a b : List (κ × V)} (ha : (a.map (·.1)).Nodup) (hp : a.Perm b)
    (hsa : a.Pairwise fun a b => a.1 ≤ b.1) (hsb : b.Pairwise fun a b => a.1 ≤ b.1) : a = b := by
  have strict : ∀ {l : List (κ × V)}, (l.map (·.1)).Nodup → l.Pairwise (fun a b => a.1 ≤ b.1) → l.Pairwise fun a b => a.1 < b.1 := by
    intro l hn hs
    have hn' : l.Pairwise fun a b => a.1 ≠ b.1 := List.pairwise_map.1 hn
    exact (hs.and hn').imp fun h => lt_of_le_of_ne h.1 h.2
  have hb : (b.map (·.1)).Nodup := (hp.map _).nodup_iff.1 ha
  exact hp.eq_of_pairwise (fun x y _ _ h1 h2 => absurd (lt_trans h1 h2) (lt_irrefl _)) (strict ha hsa) (strict hb hsb)

theorem sort_eq_iff [LinearOrder κ] {s₁ s₂ : List (κ × V) → List (κ × V)} (h₁ : Sorts s₁) (h₂ : Sorts s₂) {a b : List (κ × V)}
    (ha : (a.map (·.1)).Nodup) (hb : (b.map (·.1)).Nodup) : s₁ a = s₂ b ↔ ∀ x, x ∈ a ↔ x ∈ b := by
  constructor
  · intro h x
    rw [← (h₁ a).1.mem_iff, h, (h₂ b).1.mem_iff]
  · intro h
    have hab : a.Perm b := (List.perm_ext_iff_of_nodup (List.Nodup.of_map _ ha) (List.Nodup.of_map _ hb)).2 h
    refine sorted_unique ?_ ((h₁ a).1.trans (hab.trans (h₂ b).1.symm)) (h₁ a).2 (h₂ b).2
    exact ((h₁ a).1.map _).nodup_iff.2 ha

theorem encode_eq_iff [LinearOrder κ] (tag : κ) {fp : V → F} (hfp : ∀ v w, fp v = fp w → v = w)
    {s₁ s₂ : List (κ × V) → List (κ × V)} (h₁ : Sorts s₁) (h₂ : Sorts s₂) {c d : List (List (κ × V))}
    (hc : ∀ a ∈ c, (a.map (·.1)).Nodup) (hd : ∀ a ∈ d, (a.map (·.1)).Nodup) :
    encode tag fp s₁ c = encode tag fp s₂ d ↔ c.map (fun a x => x ∈ a) = d.map (fun a x => x ∈ a) := by
  induction c generalizing d with
  | nil =>
    cases d with
    | nil => exact ⟨fun _ => rfl, fun _ => rfl⟩
    | cons b d => exact ⟨fun h => (nomatch h), fun h => (nomatch h)⟩
  | cons a c ih =>
    cases d with
    | nil => exact ⟨fun h => (nomatch h), fun h => (nomatch h)⟩
    | cons b d =>
      have hs := sort_eq_iff h₁ h₂ (hc a List.mem_cons_self) (hd b List.mem_cons_self)
      have ih' := ih (fun x hx => hc x (List.mem_cons_of_mem _ hx)) (d := d) (fun x hx => hd x (List.mem_cons_of_mem _ hx))
      rw [encode_cons, encode_cons, List.map_cons, List.map_cons, List.cons.injEq, List.cons.injEq]
      constructor
      · rintro ⟨-, h⟩
        obtain ⟨h3, h4⟩ := flat_inj hfp (encode_noItem _ _ _ _) (encode_noItem _ _ _ _) h
        exact ⟨funext fun x => propext (hs.1 h3 x), ih'.1 h4⟩
      · rintro ⟨h3, h4⟩
        refine ⟨rfl, ?_⟩
        rw [hs.2 fun x => iff_of_eq (congrFun h3 x), ih'.2 h4]

end Verif.Objects
