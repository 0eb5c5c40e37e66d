import Verif.Forest.BitmaskModel
import Verif.Forest.ProperLemmas
import Mathlib.Tactic.ByContra

/-!
# Lemmas about the bitmask evaluator: floats, masks of a tree, collection of the splits
-/

namespace Verif.Forest

/-! ### Floats -/

theorem Fl.eq_iff {a b : Fl} : Fl.eq a b = true ↔ a = b ∧ a ≠ .nan := by
  cases a <;> cases b <;> simp [Fl.eq, Fl.le]
  omega

theorem Fl.lt_eq {a b : Fl} (ha : a ≠ .nan) (hb : b ≠ .nan) : Fl.lt a b = !Fl.le b a := by
  cases a <;> cases b <;> simp_all [Fl.lt, Fl.le]
  omega

theorem Fl.le_total {a b : Fl} (ha : a ≠ .nan) (hb : b ≠ .nan) : Fl.le a b = true ∨ Fl.le b a = true := by
  cases a <;> cases b <;> simp_all [Fl.le]
  omega

theorem Fl.le_trans {a b c : Fl} (h1 : Fl.le a b = true) (h2 : Fl.le b c = true) : Fl.le a c = true := by
  cases a <;> cases b <;> cases c <;> simp_all [Fl.le]
  omega

theorem Fl.le_antisymm {a b : Fl} (h1 : Fl.le a b = true) (h2 : Fl.le b a = true) : a = b := by
  cases a <;> cases b <;> simp_all [Fl.le]
  omega

theorem Fl.le_nan {a b : Fl} (h : Fl.le a b = true) : a ≠ .nan ∧ b ≠ .nan := by
  cases a <;> cases b <;> simp_all [Fl.le]

theorem Fl.neg_le {a b : Fl} : Fl.le a.neg b.neg = Fl.le b a := by
  cases a <;> cases b <;> simp [Fl.le, Fl.neg]

theorem Fl.neg_nan {a : Fl} : a.neg = .nan ↔ a = .nan := by cases a <;> simp [Fl.neg]

theorem Fl.neg_inj {a b : Fl} : a.neg = b.neg ↔ a = b := by
  cases a <;> cases b <;> simp [Fl.neg]

theorem Fl.ninf_le {a : Fl} (h : a ≠ .nan) : Fl.le .ninf a = true := by cases a <;> simp_all [Fl.le]
theorem Fl.le_pinf {a : Fl} (h : a ≠ .nan) : Fl.le a .pinf = true := by cases a <;> simp_all [Fl.le]

theorem Fl.le_refl {a : Fl} (h : a ≠ .nan) : Fl.le a a = true := by cases a <;> simp_all [Fl.le]

/-- Conditions without NaN bounds. -/
def Cond.NoNan : Cond → Prop
  | .interval _ l r => l ≠ .nan ∧ r ≠ .nan
  | _ => True

/-! ### The masks of one tree -/

section Tree
variable {A M : Type}

/-- The number of the leaf chosen. -/
def BT.pos (ev : Cond → Bool) : BT Cond A → Nat
  | .leaf _ => 0
  | .node c f g => if ev c then f.leaves.length + g.pos ev else f.pos ev

theorem pos_spec (ev : Cond → Bool) (b : BT Cond A) : b.leaves[b.pos ev]? = some (b.eval ev) := by
  induction b with
  | leaf a => rfl
  | node c f g ih1 ih2 =>
    simp only [BT.leaves, BT.pos, BT.eval]
    by_cases h : ev c = true
    · simp only [h, if_true]
      rw [List.getElem?_append_right (by omega), Nat.add_sub_cancel_left]
      exact ih2
    · simp only [h, if_false, Bool.false_eq_true]
      have hlt : f.pos ev < f.leaves.length := (List.getElem?_eq_some_iff.1 ih1).1
      rw [List.getElem?_append_left hlt]
      exact ih1

theorem pos_lt (ev : Cond → Bool) (b : BT Cond A) : b.pos ev < b.leaves.length :=
  (List.getElem?_eq_some_iff.1 (pos_spec ev b)).1

/-- The splits stored for the tree `b` whose first leaf has the number `o`. -/
def Masks : BT Cond A → Nat → List MaskedSplit → Prop
  | .leaf _, _, S => S = []
  | .node c f g, o, S => ∃ S1 S2 m, S = S1 ++ S2 ++ [⟨m, c⟩] ∧ Masks f o S1 ∧ Masks g (o + f.leaves.length) S2 ∧
      ∀ i, m.getLsbD i = true ↔ o ≤ i ∧ i < o + f.leaves.length

theorem maskDfs_spec (scale : A → A → M) {t : Tree Cond A} {r : Ref} {b : BT Cond A} (h : Denotes t r b) :
    ∀ (fuel : Nat) (splits : List MaskedSplit) (adj : List M), b.inner ≤ fuel → adj.length + b.leaves.length ≤ 64 →
      ∃ m S, maskDfs scale t fuel r splits adj = some (m, splits ++ S, adj ++ b.leaves.map (scale · t.weight)) ∧
        Masks b adj.length S ∧ ∀ i, m.getLsbD i = true ↔ adj.length ≤ i ∧ i < adj.length + b.leaves.length := by
  induction h with
  | @leaf i a ha =>
    intro fuel splits adj _ hl
    simp only [BT.leaves, List.length_singleton] at hl
    have hd : ∀ fuel, maskDfs scale t fuel (.leaf i) splits adj =
        some (1#64 <<< adj.length, splits ++ [], adj ++ (BT.leaf (C := Cond) a).leaves.map (scale · t.weight)) := by
      intro fuel
      cases fuel <;> simp [maskDfs, ha, BT.leaves] <;> omega
    refine ⟨1#64 <<< adj.length, [], hd fuel, rfl, fun i => ?_⟩
    simp [BT.leaves, BitVec.getLsbD_shiftLeft]
    omega
  | @node k n f g hn _ _ ih1 ih2 =>
    intro fuel splits adj hf hl
    simp only [BT.inner] at hf
    simp only [BT.leaves, List.length_append] at hl
    obtain ⟨fuel, rfl⟩ : ∃ x, fuel = x + 1 := ⟨fuel - 1, by omega⟩
    obtain ⟨m1, S1, e1, q1, b1⟩ := ih1 fuel splits adj (by omega) (by omega)
    obtain ⟨m2, S2, e2, q2, b2⟩ := ih2 fuel (splits ++ S1) (adj ++ f.leaves.map (scale · t.weight)) (by omega)
      (by simp; omega)
    simp only [List.length_append, List.length_map] at q2 b2
    refine ⟨m1 ||| m2, S1 ++ S2 ++ [⟨m1, n.cond⟩], ?_, ⟨S1, S2, m1, rfl, q1, q2, b1⟩, fun i => ?_⟩
    · simp [maskDfs, hn, e1, e2, BT.leaves]
    · rw [BitVec.getLsbD_or, Bool.or_eq_true, b1, b2]
      simp only [BT.leaves, List.length_append]
      omega

/-- The bits set by the splits whose conditions hold: all leaves before the chosen one, and not the chosen one. -/
theorem masks_bits (ev : Cond → Bool) : ∀ (b : BT Cond A) (o : Nat) (S : List MaskedSplit), Masks b o S →
    (∀ i, o ≤ i → i < o + b.pos ev → ∃ s ∈ S, ev s.cond = true ∧ s.mask.getLsbD i = true) ∧
    (¬ ∃ s ∈ S, ev s.cond = true ∧ s.mask.getLsbD (o + b.pos ev) = true) ∧
    (∀ i, (∃ s ∈ S, ev s.cond = true ∧ s.mask.getLsbD i = true) → o ≤ i ∧ i < o + b.leaves.length) := by
  intro b
  induction b with
  | leaf a =>
    intro o S h
    simp only [Masks] at h
    subst h
    simp [BT.pos]
  | node c f g ih1 ih2 =>
    intro o S h
    obtain ⟨S1, S2, m, rfl, q1, q2, hm⟩ := h
    obtain ⟨a1, a2, a3⟩ := ih1 o S1 q1
    obtain ⟨b1, b2, b3⟩ := ih2 (o + f.leaves.length) S2 q2
    have hsplit : ∀ i, (∃ s ∈ S1 ++ S2 ++ [⟨m, c⟩], ev s.cond = true ∧ s.mask.getLsbD i = true) ↔
        (∃ s ∈ S1, ev s.cond = true ∧ s.mask.getLsbD i = true) ∨ (∃ s ∈ S2, ev s.cond = true ∧ s.mask.getLsbD i = true) ∨
        (ev c = true ∧ o ≤ i ∧ i < o + f.leaves.length) := by
      intro i
      rw [← hm]
      constructor
      · rintro ⟨s, hs, h⟩
        simp only [List.mem_append, List.mem_singleton] at hs
        rcases hs with (hs | hs) | rfl
        · exact .inl ⟨s, hs, h⟩
        · exact .inr (.inl ⟨s, hs, h⟩)
        · exact .inr (.inr h)
      · rintro (⟨s, hs, h⟩ | ⟨s, hs, h⟩ | h)
        · exact ⟨s, by simp [hs], h⟩
        · exact ⟨s, by simp [hs], h⟩
        · exact ⟨⟨m, c⟩, by simp, h⟩
    have hpf := pos_lt ev f
    have hpg := pos_lt ev g
    refine ⟨fun i h1 h2 => ?_, fun h => ?_, fun i h => ?_⟩
    · rw [hsplit]
      simp only [BT.pos] at h2
      by_cases hc : ev c = true
      · simp only [hc, if_true] at h2
        by_cases hi : i < o + f.leaves.length
        · exact .inr (.inr ⟨hc, h1, hi⟩)
        · exact .inr (.inl (b1 i (by omega) (by omega)))
      · simp only [hc, if_false, Bool.false_eq_true] at h2
        exact .inl (a1 i h1 h2)
    · rw [hsplit] at h
      simp only [BT.pos] at h
      by_cases hc : ev c = true
      · simp only [hc, if_true] at h
        rcases h with h | h | ⟨-, -, h⟩
        · have := a3 _ h; omega
        · rw [← Nat.add_assoc] at h; exact b2 h
        · omega
      · simp only [hc, if_false, Bool.false_eq_true, false_and, or_false] at h
        rcases h with h | h
        · exact a2 h
        · have := b3 _ h; omega
    · rw [hsplit] at h
      simp only [BT.leaves, List.length_append]
      rcases h with h | h | h
      · have := a3 _ h; omega
      · have := b3 _ h; omega
      · omega

theorem masks_conds {b : BT Cond A} : ∀ {o : Nat} {S : List MaskedSplit}, Masks b o S → ∀ s ∈ S, s.cond ∈ b.conds := by
  induction b with
  | leaf a => intro o S h; simp only [Masks] at h; subst h; simp
  | node c f g ih1 ih2 =>
    rintro o S ⟨S1, S2, m, rfl, q1, q2, -⟩ s hs
    simp only [List.mem_append, List.mem_singleton] at hs
    simp only [BT.conds, List.mem_cons, List.mem_append]
    rcases hs with (hs | hs) | rfl
    · exact .inr (.inl (ih1 q1 s hs))
    · exact .inr (.inr (ih2 q2 s hs))
    · exact .inl rfl

end Tree

/-- The leaf found for a mask which has all bits below `p`, and not bit `p`. -/
theorem regularLeaf_spec {w : Nat} {mask : BitVec w} {p : Nat} (hp : p < w) (h1 : ∀ i, i < p → mask.getLsbD i = true)
    (h2 : mask.getLsbD p = false) : regularLeaf mask = some p := by
  simp only [regularLeaf, lsb]
  rw [List.find?_eq_some_iff_append]
  refine ⟨by rw [BitVec.getLsbD_not, h2]; simp [hp], List.range p, (List.range' (p + 1) (w - p - 1)), ?_, ?_⟩
  · rw [List.range_eq_range', List.range_eq_range', ← List.range'_succ]
    have := List.range'_append (s := 0) (m := p) (n := w - p - 1 + 1) (step := 1)
    simp only [Nat.zero_add, Nat.one_mul] at this
    rw [this]
    congr 1
    omega
  · intro a ha
    rw [List.mem_range] at ha
    simp [h1 a ha]

/-! ### Collecting the splits -/

section Building
variable {w : Nat}

/-- The bit `i` of tree `j` is set by a split with the given data. -/
def SMeta.Sets (m : SMeta w) (j i : Nat) : Prop := m.tree = j ∧ m.mask.getLsbD i = true

/-- The splits at one input which hold for the value `v`. -/
def IvSplits.Hits (s : IvSplits w) (v : Fl) (j i : Nat) : Prop :=
  (∃ p ∈ s.left, Fl.le v p.1 = true ∧ p.2.Sets j i) ∨
  (∃ p ∈ s.right, Fl.le p.1 v = true ∧ p.2.Sets j i) ∨
  (∃ p ∈ s.eq, p.1 = v ∧ p.2.Sets j i) ∨
  (∃ p ∈ s.range, (Fl.le p.2.1 v = true ∧ Fl.le v p.2.2 = true) ∧ p.1.Sets j i)

def SetSplits.Hits (s : SetSplits w) (v : Option Int) (j i : Nat) : Prop :=
  match v with
  | some v => ∃ p ∈ s.metas, p.1 = v ∧ ∃ m ∈ p.2, m.Sets j i
  | none => ∃ m ∈ s.dflt, m.Sets j i

def Building.Hits (b : Building w) (env : Env) (j i : Nat) : Prop :=
  (∃ e ∈ b.iv, ∃ v, presentNumber env e.1 = some v ∧ e.2.Hits v j i) ∨
  (∃ e ∈ b.sets, e.2.Hits (env.i e.1) j i)

theorem upsert_exists {K V : Type} [DecidableEq K] {P : K × V → Prop} {Q : Prop} {k : K} {new : V} {f : V → V}
    (h : ∀ v, P (k, f v) ↔ P (k, v) ∨ Q) (hn : ¬ P (k, new)) :
    ∀ l : List (K × V), (∃ e ∈ upsert k new f l, P e) ↔ (∃ e ∈ l, P e) ∨ Q := by
  intro l
  induction l with
  | nil => simp [upsert, h, hn]
  | cons e l ih =>
    obtain ⟨k', v⟩ := e
    simp only [upsert]
    by_cases hk : k' = k
    · subst hk
      simp only [if_true, List.exists_mem_cons_iff, h]
      constructor
      · rintro ((h | h) | h)
        · exact .inl (.inl h)
        · exact .inr h
        · exact .inl (.inr h)
      · rintro ((h | h) | h)
        · exact .inl (.inl h)
        · exact .inr h
        · exact .inl (.inr h)
    · simp only [hk, if_false, List.exists_mem_cons_iff, ih, or_assoc]

theorem upsert_forall {K V : Type} [DecidableEq K] {P : K × V → Prop} {k : K} {new : V} {f : V → V}
    (h : ∀ v, P (k, v) → P (k, f v)) (hn : P (k, new)) :
    ∀ l : List (K × V), (∀ e ∈ l, P e) → ∀ e ∈ upsert k new f l, P e := by
  intro l
  induction l with
  | nil => intro _ e he; simp only [upsert, List.mem_singleton] at he; subst he; exact h _ hn
  | cons e l ih =>
    intro hl
    obtain ⟨k', v⟩ := e
    simp only [upsert]
    by_cases hk : k' = k
    · subst hk
      simp only [if_true]
      intro e he
      rcases List.mem_cons.1 he with rfl | he
      · exact h _ (hl _ (by simp))
      · exact hl e (by simp [he])
    · simp only [hk, if_false]
      intro e he
      rcases List.mem_cons.1 he with rfl | he
      · exact hl _ (by simp)
      · exact ih (fun x hx => hl x (by simp [hx])) e he

theorem upsert_keys {K V : Type} [DecidableEq K] (k : K) (new : V) (f : V → V) : ∀ l : List (K × V),
    (upsert k new f l).map Prod.fst = if k ∈ l.map Prod.fst then l.map Prod.fst else l.map Prod.fst ++ [k] := by
  intro l
  induction l with
  | nil => simp [upsert]
  | cons e l ih =>
    obtain ⟨k', v⟩ := e
    simp only [upsert]
    by_cases hk : k' = k
    · subst hk; simp
    · simp only [hk, if_false, List.map_cons, ih, List.mem_cons, Ne.symm hk, false_or]
      split <;> simp

theorem upsert_nodup {K V : Type} [DecidableEq K] (k : K) (new : V) (f : V → V) (l : List (K × V))
    (h : (l.map Prod.fst).Nodup) : ((upsert k new f l).map Prod.fst).Nodup := by
  rw [upsert_keys]
  split
  · exact h
  · rename_i hk
    rw [List.nodup_append]
    exact ⟨h, by simp, fun a ha b hb => by simp only [List.mem_singleton] at hb; subst hb; exact fun he => hk (he ▸ ha)⟩

/-- An interval is stored so that it holds for the same values. -/
theorem IvSplits.add_hits (s : IvSplits w) (m : SMeta w) {l r : Fl} (hl : l ≠ .nan) (hr : r ≠ .nan) {v : Fl}
    (hv : v ≠ .nan) (j i : Nat) :
    (s.add m l r).Hits v j i ↔ s.Hits v j i ∨ ((Fl.le l v = true ∧ Fl.le v r = true) ∧ m.Sets j i) := by
  have app : ∀ {α : Type} (L : List α) (x : α) (P : α → Prop), (∃ p ∈ L ++ [x], P p) ↔ (∃ p ∈ L, P p) ∨ P x := by
    intro α L x P
    constructor
    · rintro ⟨p, hp, h⟩
      rcases List.mem_append.1 hp with hp | hp
      · exact .inl ⟨p, hp, h⟩
      · rw [List.mem_singleton] at hp; subst hp; exact .inr h
    · rintro (⟨p, hp, h⟩ | h)
      · exact ⟨p, by simp [hp], h⟩
      · exact ⟨x, by simp, h⟩
  have o1 : ∀ {a b c d x : Prop}, ((a ∨ x) ∨ b ∨ c ∨ d ↔ (a ∨ b ∨ c ∨ d) ∨ x) ∧ (a ∨ (b ∨ x) ∨ c ∨ d ↔ (a ∨ b ∨ c ∨ d) ∨ x) ∧
      (a ∨ b ∨ (c ∨ x) ∨ d ↔ (a ∨ b ∨ c ∨ d) ∨ x) ∧ (a ∨ b ∨ c ∨ (d ∨ x) ↔ (a ∨ b ∨ c ∨ d) ∨ x) := by
    intro a b c d x
    refine ⟨?_, ?_, ?_, ?_⟩ <;> tauto
  unfold IvSplits.add
  split
  · rename_i h
    obtain ⟨rfl, -⟩ := Fl.eq_iff.1 h
    simp only [IvSplits.Hits, app, Fl.ninf_le hv, true_and]
    exact o1.1
  · split
    · rename_i h
      obtain ⟨rfl, -⟩ := Fl.eq_iff.1 h
      simp only [IvSplits.Hits, app, Fl.le_pinf hv, and_true]
      exact o1.2.1
    · split
      · rename_i h
        obtain ⟨rfl, -⟩ := Fl.eq_iff.1 h
        have : (Fl.le l v = true ∧ Fl.le v l = true) ↔ l = v := by
          constructor
          · rintro ⟨a, b⟩; exact Fl.le_antisymm a b
          · rintro rfl; exact ⟨Fl.le_refl hv, Fl.le_refl hv⟩
        simp only [IvSplits.Hits, app, this]
        exact o1.2.2.1
      · simp only [IvSplits.Hits, app]
        exact o1.2.2.2

theorem SetSplits.add_hits (s : SetSplits w) (m : SMeta w) (values : List Int) (d : Bool) (v : Option Int) (j i : Nat) :
    (s.add m values d).Hits v j i ↔
      s.Hits v j i ∨ ((match v with | some v => v ∈ values | none => d = true) ∧ m.Sets j i) := by
  cases v with
  | none =>
    simp only [SetSplits.Hits, SetSplits.add]
    cases d with
    | false => simp
    | true => simp [or_and_right, exists_or]
  | some v =>
    simp only [SetSplits.Hits, SetSplits.add]
    have key : ∀ (vs : List Int) (ms : List (Int × List (SMeta w))),
        (∃ p ∈ vs.foldl (fun ms v => upsert v [] (· ++ [m]) ms) ms, p.1 = v ∧ ∃ m ∈ p.2, m.Sets j i) ↔
          (∃ p ∈ ms, p.1 = v ∧ ∃ m ∈ p.2, m.Sets j i) ∨ (v ∈ vs ∧ m.Sets j i) := by
      intro vs
      induction vs with
      | nil => intro ms; simp
      | cons x vs ih =>
        intro ms
        rw [List.foldl_cons, ih, upsert_exists (P := fun p : Int × List (SMeta w) => p.1 = v ∧ ∃ m ∈ p.2, m.Sets j i)
          (Q := x = v ∧ m.Sets j i)]
        · simp only [List.mem_cons, or_assoc, eq_comm (a := v), or_and_right]
        · intro l
          simp only [List.mem_append, List.mem_singleton]
          constructor
          · rintro ⟨h, q, hq | rfl, hs⟩
            · exact .inl ⟨h, q, hq, hs⟩
            · exact .inr ⟨h, hs⟩
          · rintro (⟨h, q, hq, hs⟩ | ⟨h, hs⟩)
            · exact ⟨h, q, .inl hq, hs⟩
            · exact ⟨h, m, .inr rfl, hs⟩
        · simp
    exact key values s.metas

/-- What the builder maintains: no NaN thresholds, valid tree numbers, distinct keys of the maps of values. -/
structure IvSplits.Good (n : Nat) (s : IvSplits w) : Prop where
  left : ∀ p ∈ s.left, p.1 ≠ .nan ∧ p.2.tree < n
  right : ∀ p ∈ s.right, p.1 ≠ .nan ∧ p.2.tree < n
  eq : ∀ p ∈ s.eq, p.1 ≠ .nan ∧ p.2.tree < n
  range : ∀ p ∈ s.range, (p.2.1 ≠ .nan ∧ p.2.2 ≠ .nan) ∧ p.1.tree < n

structure SetSplits.Good (n : Nat) (s : SetSplits w) : Prop where
  metas : ∀ p ∈ s.metas, ∀ m ∈ p.2, m.tree < n
  dflt : ∀ m ∈ s.dflt, m.tree < n
  keys : (s.metas.map Prod.fst).Nodup

def Building.Good (n : Nat) (b : Building w) : Prop := (∀ e ∈ b.iv, e.2.Good n) ∧ ∀ e ∈ b.sets, e.2.Good n

theorem IvSplits.add_good {n : Nat} {s : IvSplits w} (hs : s.Good n) {m : SMeta w} (hm : m.tree < n) {l r : Fl}
    (hl : l ≠ .nan) (hr : r ≠ .nan) : (s.add m l r).Good n := by
  have app : ∀ {α : Type} {L : List α} {x : α} {P : α → Prop}, (∀ p ∈ L, P p) → P x → ∀ p ∈ L ++ [x], P p := by
    intro α L x P h hx p hp
    rcases List.mem_append.1 hp with hp | hp
    · exact h p hp
    · rw [List.mem_singleton] at hp; subst hp; exact hx
  unfold IvSplits.add
  split
  · exact { hs with left := app hs.left ⟨hr, hm⟩ }
  · split
    · exact { hs with right := app hs.right ⟨hl, hm⟩ }
    · split
      · exact { hs with eq := app hs.eq ⟨hl, hm⟩ }
      · exact { hs with range := app hs.range ⟨⟨hl, hr⟩, hm⟩ }

theorem SetSplits.add_good {n : Nat} {s : SetSplits w} (hs : s.Good n) {m : SMeta w} (hm : m.tree < n) (values : List Int)
    (d : Bool) : (s.add m values d).Good n := by
  have key : ∀ (vs : List Int) (ms : List (Int × List (SMeta w))), (∀ p ∈ ms, ∀ m ∈ p.2, m.tree < n) →
      (ms.map Prod.fst).Nodup → (∀ p ∈ vs.foldl (fun ms v => upsert v [] (· ++ [m]) ms) ms, ∀ m ∈ p.2, m.tree < n) ∧
        ((vs.foldl (fun ms v => upsert v [] (· ++ [m]) ms) ms).map Prod.fst).Nodup := by
    intro vs
    induction vs with
    | nil => intro ms h1 h2; exact ⟨h1, h2⟩
    | cons v vs ih =>
      intro ms h1 h2
      rw [List.foldl_cons]
      refine ih _ ?_ (upsert_nodup _ _ _ _ h2)
      refine upsert_forall (P := fun p : Int × List (SMeta w) => ∀ m ∈ p.2, m.tree < n) (new := []) ?_ (by simp) ms h1
      intro l hl q hq
      rcases List.mem_append.1 hq with hq | hq
      · exact hl q hq
      · rw [List.mem_singleton] at hq; subst hq; exact hm
  obtain ⟨h1, h2⟩ := key values s.metas hs.metas hs.keys
  refine ⟨h1, ?_, h2⟩
  intro q hq
  simp only [SetSplits.add] at hq
  split at hq
  · rcases List.mem_append.1 hq with hq | hq
    · exact hs.dflt q hq
    · rw [List.mem_singleton] at hq; subst hq; exact hm
  · exact hs.dflt q hq

theorem presentNumber_ne {env : Env} {input : Nat} {v : Fl} (h : presentNumber env input = some v) : v ≠ .nan := by
  unfold presentNumber at h
  split at h
  · cases h
  · rename_i hx
    intro hv
    rw [hv] at h
    exact hx h

/-- Adding a split adds exactly its bits when its condition holds. -/
theorem addSplit_spec {n : Nat} {b : Building w} (hb : b.Good n) {s : MaskedSplit} {tree : Nat} (ht : tree < n)
    (hs : s.cond.supported = true) (hn : s.cond.NoNan) :
    ∃ b', b.addSplit s tree = some b' ∧ b'.Good n ∧ ∀ env j i, b'.Hits env j i ↔
      b.Hits env j i ∨ (s.cond.eval env = true ∧ tree = j ∧ (s.mask.setWidth w).getLsbD i = true) := by
  obtain ⟨mask, cond⟩ := s
  cases cond with
  | interval input l r =>
    simp only [Cond.NoNan] at hn
    refine ⟨_, rfl, ⟨?_, hb.2⟩, fun env j i => ?_⟩
    · refine upsert_forall (P := fun e : Nat × IvSplits w => e.2.Good n) (new := {}) ?_ ⟨by simp, by simp, by simp, by simp⟩ b.iv hb.1
      intro v hv
      exact IvSplits.add_good hv ht hn.1 hn.2
    · simp only [Building.Hits]
      rw [upsert_exists (P := fun e : Nat × IvSplits w => ∃ v, presentNumber env e.1 = some v ∧ e.2.Hits v j i)
        (Q := ∃ v, presentNumber env input = some v ∧ (Fl.le l v = true ∧ Fl.le v r = true) ∧
          (⟨mask.setWidth w, tree⟩ : SMeta w).Sets j i)]
      · have : (∃ v, presentNumber env input = some v ∧ (Fl.le l v = true ∧ Fl.le v r = true) ∧
            (⟨mask.setWidth w, tree⟩ : SMeta w).Sets j i) ↔
            ((Cond.interval input l r).eval env = true ∧ tree = j ∧ (mask.setWidth w).getLsbD i = true) := by
          simp only [SMeta.Sets, Cond.eval, presentNumber]
          cases hv : env.f input with
          | none => simp
          | some v =>
            cases v <;> simp [Fl.le]
        rw [this]
        exact or_right_comm
      · intro x
        constructor
        · rintro ⟨v, h1, h2⟩
          rcases (IvSplits.add_hits x _ hn.1 hn.2 (presentNumber_ne h1) j i).1 h2 with h | h
          · exact .inl ⟨v, h1, h⟩
          · exact .inr ⟨v, h1, h⟩
        · rintro (⟨v, h1, h2⟩ | ⟨v, h1, h2⟩)
          · exact ⟨v, h1, (IvSplits.add_hits x _ hn.1 hn.2 (presentNumber_ne h1) j i).2 (.inl h2)⟩
          · exact ⟨v, h1, (IvSplits.add_hits x _ hn.1 hn.2 (presentNumber_ne h1) j i).2 (.inr h2)⟩
      · rintro ⟨v, -, h⟩
        simp [IvSplits.Hits] at h
  | setI64 input values d =>
    refine ⟨_, rfl, ⟨hb.1, ?_⟩, fun env j i => ?_⟩
    · refine upsert_forall (P := fun e : Nat × SetSplits w => e.2.Good n) (new := {}) ?_ ⟨by simp, by simp, by simp⟩ b.sets hb.2
      intro v hv
      exact SetSplits.add_good hv ht values d
    · simp only [Building.Hits]
      rw [upsert_exists (P := fun e : Nat × SetSplits w => e.2.Hits (env.i e.1) j i)
        (Q := (match env.i input with | some v => v ∈ values | none => d = true) ∧
          (⟨mask.setWidth w, tree⟩ : SMeta w).Sets j i)]
      · have : (match env.i input with | some v => v ∈ values | none => d = true) ↔
            (Cond.setI64 input values d).eval env = true := by
          simp only [Cond.eval]
          cases env.i input <;> simp
        rw [this, or_assoc]
        rfl
      · intro x
        exact SetSplits.add_hits x _ values d _ j i
      · simp only [SetSplits.Hits]
        split <;> simp
  | setF32 => simp [Cond.supported] at hs
  | other => simp [Cond.supported] at hs

theorem Building.Good.mono {n n' : Nat} {b : Building w} (h : b.Good n) (hn : n ≤ n') : b.Good n' :=
  ⟨fun e he => ⟨fun p hp => ⟨((h.1 e he).left p hp).1, Nat.lt_of_lt_of_le ((h.1 e he).left p hp).2 hn⟩,
      fun p hp => ⟨((h.1 e he).right p hp).1, Nat.lt_of_lt_of_le ((h.1 e he).right p hp).2 hn⟩,
      fun p hp => ⟨((h.1 e he).eq p hp).1, Nat.lt_of_lt_of_le ((h.1 e he).eq p hp).2 hn⟩,
      fun p hp => ⟨((h.1 e he).range p hp).1, Nat.lt_of_lt_of_le ((h.1 e he).range p hp).2 hn⟩⟩,
    fun e he => ⟨fun p hp m hm => Nat.lt_of_lt_of_le ((h.2 e he).metas p hp m hm) hn,
      fun m hm => Nat.lt_of_lt_of_le ((h.2 e he).dflt m hm) hn, (h.2 e he).keys⟩⟩

theorem addSplits'_spec {n tree : Nat} (ht : tree < n) : ∀ (l : List MaskedSplit) (b : Building w), b.Good n →
    (∀ s ∈ l, s.cond.supported = true ∧ s.cond.NoNan) →
    ∃ b', addSplits' tree l b = some b' ∧ b'.Good n ∧ ∀ env j i, b'.Hits env j i ↔
      b.Hits env j i ∨ (tree = j ∧ ∃ s ∈ l, s.cond.eval env = true ∧ (s.mask.setWidth w).getLsbD i = true) := by
  intro l
  induction l with
  | nil => intro b hb _; exact ⟨b, rfl, hb, by simp⟩
  | cons s l ih =>
    intro b hb hl
    obtain ⟨b1, e1, g1, h1⟩ := addSplit_spec hb ht (hl s (by simp)).1 (hl s (by simp)).2
    obtain ⟨b2, e2, g2, h2⟩ := ih b1 g1 (fun x hx => hl x (by simp [hx]))
    refine ⟨b2, by simp [addSplits', e1, e2], g2, fun env j i => ?_⟩
    rw [h2, h1, List.exists_mem_cons_iff, or_assoc]
    tauto

end Building

end Verif.Forest
