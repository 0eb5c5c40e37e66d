import Verif.Cfg.CfgSpec
import Mathlib.Tactic.ByContra

namespace Verif.Cfg

/-! ## Create -/

/-- The reverse dependencies of `j` coming from the nodes `node, node + 1, …` with dependencies `rest`. -/
def revOf (j : Nat) : Nat → List (List Int) → List Nat
  | _, [] => []
  | node, ds :: rest => List.replicate (ds.count (j : Int)) node ++ revOf j (node + 1) rest

theorem push_get (vs : List (List Nat)) (i x j : Nat) :
    (push vs i x)[j]? = (vs[j]?).map (fun v => if i = j then v ++ [x] else v) := by
  unfold push
  rw [List.getElem?_modify]
  by_cases h : i = j
  · simp [h]
  · simp [h]

theorem push_length (vs : List (List Nat)) (i x : Nat) : (push vs i x).length = vs.length := by
  unfold push; exact List.length_modify ..

theorem createDeps_spec (n node : Nat) : ∀ (ds : List Int) (rev : List (List Nat)),
    ((∀ d ∈ ds, (node : Int) < d ∧ d < n) → ∃ rev', createDeps n node ds rev = .ok rev' ∧ rev'.length = rev.length ∧
      ∀ j : Nat, rev'[j]? = (rev[j]?).map (· ++ List.replicate (ds.count (j : Int)) node)) ∧
    (¬ (∀ d ∈ ds, (node : Int) < d ∧ d < n) → ∃ m, createDeps n node ds rev = .error m) := by
  intro ds
  induction ds with
  | nil =>
    intro rev
    refine ⟨fun _ => ⟨rev, rfl, rfl, ?_⟩, fun h => absurd (by simp) h⟩
    intro j
    cases rev[j]? <;> simp
  | cons d ds ih =>
    intro rev
    unfold createDeps
    by_cases h1 : d ≤ node
    · rw [if_pos h1]
      exact ⟨fun h => absurd (h d (by simp)).1 (by omega), fun _ => ⟨_, rfl⟩⟩
    · rw [if_neg h1]
      by_cases h2 : d ≥ n
      · rw [if_pos h2]
        exact ⟨fun h => absurd (h d (by simp)).2 (by omega), fun _ => ⟨_, rfl⟩⟩
      · rw [if_neg h2]
        obtain ⟨i1, i2⟩ := ih (push rev d.toNat node)
        refine ⟨?_, ?_⟩
        · intro h
          obtain ⟨rev', r1, r2, r3⟩ := i1 (fun x hx => h x (by simp [hx]))
          refine ⟨rev', r1, by rw [r2, push_length], ?_⟩
          intro j
          rw [r3, push_get, Option.map_map]
          congr 1
          funext v
          simp only [Function.comp_apply]
          by_cases hj : d.toNat = j
          · have : d = (j : Int) := by omega
            subst this
            rw [if_pos hj, List.count_cons_self, List.replicate_succ, List.append_assoc]; rfl
          · have : d ≠ (j : Int) := by omega
            rw [if_neg hj, List.count_cons_of_ne this]
        · intro h
          apply i2
          intro hc
          apply h
          intro x hx
          rcases List.mem_cons.1 hx with rfl | hx
          · omega
          · exact hc x hx

theorem createNodes_spec (n : Nat) : ∀ (rest : List (List Int)) (node : Nat) (rev : List (List Nat)),
    ((∀ (i : Nat) ds d, rest[i]? = some ds → d ∈ ds → ((node + i : Nat) : Int) < d ∧ d < n) →
      ∃ rev', createNodes n node rest rev = .ok rev' ∧ rev'.length = rev.length ∧
        ∀ j : Nat, rev'[j]? = (rev[j]?).map (· ++ revOf j node rest)) ∧
    (¬ (∀ (i : Nat) ds d, rest[i]? = some ds → d ∈ ds → ((node + i : Nat) : Int) < d ∧ d < n) →
      ∃ m, createNodes n node rest rev = .error m) := by
  intro rest
  induction rest with
  | nil =>
    intro node rev
    refine ⟨fun _ => ⟨rev, rfl, rfl, ?_⟩, fun h => absurd (by simp) h⟩
    intro j
    cases rev[j]? <;> simp [revOf]
  | cons ds rest ih =>
    intro node rev
    have hiff : (∀ (i : Nat) ds' d, (ds :: rest)[i]? = some ds' → d ∈ ds' → ((node + i : Nat) : Int) < d ∧ d < n) ↔
        (∀ d ∈ ds, (node : Int) < d ∧ d < n) ∧
        (∀ (i : Nat) ds' d, rest[i]? = some ds' → d ∈ ds' → ((node + 1 + i : Nat) : Int) < d ∧ d < n) := by
      constructor
      · intro h
        refine ⟨fun d hd => h 0 ds d rfl hd, fun i ds' d h1 h2 => ?_⟩
        have := h (i + 1) ds' d (by simpa using h1) h2
        rw [show node + 1 + i = node + (i + 1) by omega]
        exact this
      · rintro ⟨h1, h2⟩ i ds' d h3 h4
        cases i with
        | zero => simp at h3; subst h3; exact h1 d h4
        | succ i =>
          have := h2 i ds' d (by simpa using h3) h4
          rw [show node + (i + 1) = node + 1 + i by omega]
          exact this
    rw [hiff]
    obtain ⟨c1, c2⟩ := createDeps_spec n node ds rev
    unfold createNodes
    by_cases hd : ∀ d ∈ ds, (node : Int) < d ∧ d < n
    · obtain ⟨rev', r1, r2, r3⟩ := c1 hd
      rw [r1]
      dsimp only
      obtain ⟨i1, i2⟩ := ih (node + 1) rev'
      refine ⟨?_, ?_⟩
      · rintro ⟨_, h⟩
        obtain ⟨rev'', s1, s2, s3⟩ := i1 h
        refine ⟨rev'', s1, by rw [s2, r2], ?_⟩
        intro j
        rw [s3, r3, Option.map_map]
        congr 1
        funext v
        simp [revOf]
      · intro h
        exact i2 (fun hc => h ⟨hd, hc⟩)
    · obtain ⟨m, hm⟩ := c2 hd
      rw [hm]
      exact ⟨fun h => absurd h.1 hd, fun _ => ⟨m, rfl⟩⟩

theorem revOf_mem {j x : Nat} : ∀ {rest : List (List Int)} {node : Nat},
    x ∈ revOf j node rest ↔ ∃ i ds, x = node + i ∧ rest[i]? = some ds ∧ (j : Int) ∈ ds := by
  intro rest
  induction rest with
  | nil => intro node; simp [revOf]
  | cons ds rest ih =>
    intro node
    rw [revOf, List.mem_append, ih]
    constructor
    · rintro (h | ⟨i, ds', rfl, h2, h3⟩)
      · obtain ⟨h1, rfl⟩ := List.mem_replicate.1 h
        exact ⟨0, ds, by omega, rfl, List.count_pos_iff.1 (by omega)⟩
      · exact ⟨i + 1, ds', by omega, by simpa using h2, h3⟩
    · rintro ⟨i, ds', rfl, h2, h3⟩
      cases i with
      | zero =>
        simp at h2
        subst h2
        exact Or.inl (List.mem_replicate.2 ⟨Nat.ne_of_gt (List.count_pos_iff.2 h3), rfl⟩)
      | succ i => exact Or.inr ⟨i, ds', by omega, by simpa using h2, h3⟩

/-- The graphs made by `Create`. -/
structure Ok (g : Cfg) : Prop where
  pos : 0 < g.numNodes
  lt : ∀ a b, Edge g a b → a < b ∧ b < g.numNodes
  pred : ∀ b, 0 < b → b < g.numNodes → ∃ a, Edge g a b
  rlen : g.rdeps.length = g.numNodes
  rev : ∀ b ps, g.rdeps[b]? = some ps → ∀ a, a ∈ ps ↔ Edge g a b

theorem create_spec (deps : List (List Int)) :
    (WellFormed deps → ∃ g, create deps = .ok g ∧ g.deps = deps.map (·.map Int.toNat) ∧
      g.rdeps.length = deps.length ∧ (∀ j, j < deps.length → g.rdeps[j]? = some (revOf j 0 deps)) ∧ Ok g) ∧
    (¬ WellFormed deps → ∃ m, create deps = .error m) := by
  unfold create
  by_cases h0 : deps.length = 0
  · rw [if_pos h0]
    exact ⟨fun h => absurd (List.length_eq_zero_iff.1 h0) h.1, fun _ => ⟨_, rfl⟩⟩
  · rw [if_neg h0]
    obtain ⟨c1, c2⟩ := createNodes_spec deps.length deps 0 (List.replicate deps.length [])
    simp only [Nat.zero_add] at c1 c2
    by_cases h1 : ∀ (i : Nat) ds d, deps[i]? = some ds → d ∈ ds → (i : Int) < d ∧ d < deps.length
    · obtain ⟨rev, r1, r2, r3⟩ := c1 h1
      rw [r1]
      dsimp only
      have hrev : ∀ j, j < deps.length → rev[j]? = some (revOf j 0 deps) := by
        intro j hj
        rw [r3, List.getElem?_replicate, if_pos hj]
        simp
      have hany : (rev.drop 1).any List.isEmpty = true ↔
          ¬ (∀ j : Nat, 0 < j → j < deps.length → ∃ (i : Nat) (ds : List Int), deps[i]? = some ds ∧ (j : Int) ∈ ds) := by
        rw [List.any_eq_true]
        constructor
        · rintro ⟨x, h2, h3⟩ hc
          obtain ⟨k, hk, rfl⟩ := List.getElem_of_mem h2
          rw [List.length_drop, r2, List.length_replicate] at hk
          rw [List.getElem_drop] at h3
          have h4 : revOf (1 + k) 0 deps = rev[1 + k]'(by rw [r2, List.length_replicate]; omega) := by
            have := hrev (1 + k) (by omega)
            rw [List.getElem?_eq_getElem (by rw [r2, List.length_replicate]; omega)] at this
            exact (Option.some.inj this).symm
          obtain ⟨i, ds, h5, h6⟩ := hc (1 + k) (by omega) (by omega)
          have h7 : i ∈ revOf (1 + k) 0 deps := revOf_mem.2 ⟨i, ds, by omega, h5, h6⟩
          rw [h4] at h7
          rw [List.isEmpty_iff] at h3
          rw [h3] at h7
          simp at h7
        · intro h
          by_contra hc
          apply h
          intro j hj1 hj2
          have hj := hrev j hj2
          cases hr : revOf j 0 deps with
          | nil =>
            exfalso
            apply hc
            refine ⟨[], ?_, rfl⟩
            rw [hr] at hj
            apply List.mem_of_getElem? (i := j - 1)
            rw [List.getElem?_drop, show 1 + (j - 1) = j by omega, hj]
          | cons x xs =>
            have : x ∈ revOf j 0 deps := by rw [hr]; simp
            obtain ⟨i, ds, _, h5, h6⟩ := revOf_mem.1 this
            exact ⟨i, ds, h5, h6⟩
      by_cases h2 : ∀ j : Nat, 0 < j → j < deps.length → ∃ (i : Nat) (ds : List Int), deps[i]? = some ds ∧ (j : Int) ∈ ds
      · rw [if_neg (by rw [hany]; exact fun h => h h2)]
        refine ⟨fun _ => ⟨_, rfl, rfl, by rw [r2, List.length_replicate], hrev, ?_⟩, fun h => absurd ⟨by
          intro h; rw [h] at h0; exact h0 rfl, h1, h2⟩ h⟩
        have hedge : ∀ a b, Edge ⟨deps.map (·.map Int.toNat), rev⟩ a b ↔
            ∃ ds, deps[a]? = some ds ∧ (b : Int) ∈ ds := by
          intro a b
          unfold Edge
          simp only [List.getElem?_map]
          constructor
          · rintro ⟨ds, h3, h4⟩
            obtain ⟨ds', h5, rfl⟩ := Option.map_eq_some_iff.1 h3
            obtain ⟨d, h6, rfl⟩ := List.mem_map.1 h4
            have := h1 a ds' d h5 h6
            exact ⟨ds', h5, by rw [Int.toNat_of_nonneg (by omega)]; exact h6⟩
          · rintro ⟨ds, h3, h4⟩
            exact ⟨ds.map Int.toNat, by rw [h3]; rfl, List.mem_map.2 ⟨_, h4, by simp⟩⟩
        have hn : (Cfg.numNodes ⟨deps.map (·.map Int.toNat), rev⟩) = deps.length := by simp [Cfg.numNodes]
        refine ⟨by rw [hn]; omega, ?_, ?_, by rw [hn]; simp [r2], ?_⟩
        · intro a b h
          rw [hn]
          obtain ⟨ds, h3, h4⟩ := (hedge a b).1 h
          have := h1 a ds _ h3 h4
          omega
        · intro b h3 h4
          rw [hn] at h4
          obtain ⟨i, ds, h5, h6⟩ := h2 b h3 h4
          exact ⟨i, (hedge i b).2 ⟨ds, h5, h6⟩⟩
        · intro b ps hps a
          have hb : b < deps.length := by
            obtain ⟨hb, _⟩ := List.getElem?_eq_some_iff.1 hps
            simpa [r2] using hb
          have hps' : rev[b]? = some ps := hps
          rw [hrev b hb] at hps'
          cases hps'
          rw [hedge, revOf_mem]
          constructor
          · rintro ⟨i, ds, rfl, h5⟩
            rw [Nat.zero_add]
            exact ⟨ds, h5⟩
          · rintro ⟨ds, h5⟩
            exact ⟨a, ds, by omega, h5⟩
      · rw [if_pos (by rw [hany]; exact h2)]
        exact ⟨fun h => absurd h.2.2 h2, fun _ => ⟨_, rfl⟩⟩
    · obtain ⟨m, hm⟩ := c2 h1
      rw [hm]
      exact ⟨fun h => absurd h.2.1 h1, fun _ => ⟨m, rfl⟩⟩

/-! ## Dominators -/

theorem path_zero {g : Cfg} (h : Ok g) {l : List Nat} (hp : Path g 0 l) : l = [0] := by
  cases hp with
  | start => rfl
  | step _ e => have := (h.lt _ _ e).1; omega

theorem path_exists {g : Cfg} (h : Ok g) : ∀ b, b < g.numNodes → ∃ l, Path g b l := by
  intro b
  induction b using Nat.strongRecOn with
  | ind b ih =>
    intro hb
    rcases Nat.eq_zero_or_pos b with rfl | h0
    · exact ⟨_, .start⟩
    · obtain ⟨a, ha⟩ := h.pred b h0 hb
      have := (h.lt a b ha).1
      obtain ⟨l, hl⟩ := ih a this (by omega)
      exact ⟨_, .step hl ha⟩

theorem path_lt {g : Cfg} (h : Ok g) {b : Nat} {l : List Nat} (hp : Path g b l) :
    b < g.numNodes ∧ ∀ x ∈ l, x ≤ b := by
  induction hp with
  | start => exact ⟨h.pos, by simp⟩
  | @step a b l _ he ih =>
    have := h.lt _ _ he
    refine ⟨this.2, ?_⟩
    intro x hx
    rcases List.mem_cons.1 hx with rfl | hx
    · exact Nat.le_refl _
    · have := ih.2 x hx; omega

theorem path_self {g : Cfg} {b : Nat} {l : List Nat} (hp : Path g b l) : b ∈ l := by
  cases hp <;> simp

theorem dom_refl (g : Cfg) (b : Nat) : Dom g b b := fun _ hp => path_self hp

theorem dom_zero {g : Cfg} (h : Ok g) (a : Nat) : Dom g a 0 ↔ a = 0 := by
  constructor
  · intro hd
    simpa using hd [0] .start
  · rintro rfl
    exact dom_refl g 0

theorem dom_step {g : Cfg} {a b : Nat} (hb : b ≠ 0) :
    Dom g a b ↔ a = b ∨ ∀ x, Edge g x b → Dom g a x := by
  constructor
  · intro hd
    by_cases hab : a = b
    · exact Or.inl hab
    · refine Or.inr ?_
      intro x hx l hl
      have := hd _ (.step hl hx)
      rcases List.mem_cons.1 this with h | h
      · exact absurd h hab
      · exact h
  · rintro (rfl | hx) l hl
    · exact path_self hl
    · cases hl with
      | start => exact absurd rfl hb
      | step hp he => exact List.mem_cons_of_mem _ (hx _ he _ hp)

theorem dom_le {g : Cfg} (h : Ok g) {a b : Nat} (hb : b < g.numNodes) (hd : Dom g a b) : a ≤ b := by
  obtain ⟨l, hl⟩ := path_exists h b hb
  exact (path_lt h hl).2 a (hd l hl)

/-! ## The tree -/

structure TreeOk (t : DTree) (m : Nat) : Prop where
  plen : t.parent.length = m
  dlen : t.depth.length = m
  root : t.parent[0]? = some 0 ∧ t.depth[0]? = some 0
  node : ∀ b, 0 < b → b < m → ∃ p d, t.parent[b]? = some p ∧ p < b ∧ t.depth[p]? = some d ∧ t.depth[b]? = some (d + 1)

theorem anc_le {t : DTree} {m : Nat} (ht : TreeOk t m) {a b : Nat} (h : Anc t a b) (hb : b < m) : a ≤ b := by
  induction h with
  | refl => exact Nat.le_refl _
  | @up b p h0 hp _ ih =>
    obtain ⟨p', d, h1, h2, _⟩ := ht.node b (by omega) hb
    rw [hp] at h1; cases h1
    have := ih (by omega)
    omega

/-- Depths along ancestors. -/
theorem anc_depth {t : DTree} {m : Nat} (ht : TreeOk t m) {a b : Nat} (h : Anc t a b) (hb : b < m) :
    ∃ x y, t.depth[a]? = some x ∧ t.depth[b]? = some y ∧ x ≤ y ∧ (x = y → a = b) := by
  induction h with
  | refl =>
    have : a < t.depth.length := by rw [ht.dlen]; exact hb
    exact ⟨t.depth[a], t.depth[a], by simp [this], by simp [this], Nat.le_refl _, fun _ => rfl⟩
  | @up b p h0 hp _ ih =>
    obtain ⟨p', d, h1, h2, h3, h4⟩ := ht.node b (by omega) hb
    rw [hp] at h1; cases h1
    obtain ⟨x, y, e1, e2, e3, _⟩ := ih (by omega)
    rw [h3] at e2; cases e2
    exact ⟨x, d + 1, e1, h4, by omega, by omega⟩

theorem depth_get {t : DTree} {m : Nat} (ht : TreeOk t m) {b : Nat} (hb : b < m) :
    ∃ d, t.depth[b]? = some d ∧ d ≤ b := by
  induction b using Nat.strongRecOn with
  | ind b ih =>
    rcases Nat.eq_zero_or_pos b with rfl | h0
    · exact ⟨0, ht.root.2, Nat.le_refl _⟩
    · obtain ⟨p, d, _, h2, h3, h4⟩ := ht.node b h0 hb
      obtain ⟨d', e1, e2⟩ := ih p h2 (by omega)
      rw [h3] at e1; cases e1
      exact ⟨d + 1, h4, by omega⟩

/-- One step up: `a` is not the root. -/
theorem anc_up {t : DTree} {a b p : Nat} (hb : b ≠ 0) (hp : t.parent[b]? = some p) :
    Anc t a b ↔ a = b ∨ Anc t a p := by
  constructor
  · intro h
    cases h with
    | refl => exact Or.inl rfl
    | up _ h1 h2 => rw [hp] at h1; cases h1; exact Or.inr h2
  · rintro (rfl | h)
    · exact .refl
    · exact .up hb hp h

theorem anc_trans {t : DTree} {a b c : Nat} (h1 : Anc t a b) (h2 : Anc t b c) : Anc t a c := by
  induction h2 with
  | refl => exact h1
  | up h0 hp _ ih => exact .up h0 hp ih

/-- Ancestors of a node are comparable. -/
theorem anc_chain {t : DTree} {a b c : Nat} (h1 : Anc t a c) (h2 : Anc t b c) : Anc t a b ∨ Anc t b a := by
  induction h1 with
  | refl => exact Or.inr h2
  | @up c p h0 hp h ih =>
    rcases (anc_up h0 hp).1 h2 with rfl | h3
    · exact Or.inl (.up h0 hp h)
    · exact ih h3

theorem anc_root {t : DTree} {m : Nat} (ht : TreeOk t m) : ∀ b, b < m → Anc t 0 b := by
  intro b
  induction b using Nat.strongRecOn with
  | ind b ih =>
    intro hb
    rcases Nat.eq_zero_or_pos b with rfl | h0
    · exact .refl
    · obtain ⟨p, d, h1, h2, _⟩ := ht.node b h0 hb
      exact .up (by omega) h1 (ih p h2 (by omega))

theorem anc_zero {t : DTree} {a : Nat} (h : Anc t a 0) : a = 0 := by
  cases h with
  | refl => rfl
  | up h0 _ _ => exact absurd rfl h0

theorem lcaUp_spec {t : DTree} {m : Nat} (ht : TreeOk t m) : ∀ (f a b da db : Nat), a < m → b < m →
    t.depth[a]? = some da → t.depth[b]? = some db → db ≤ da → da - db < f →
    ∃ r, lcaUp t f a b = some r ∧ r < m ∧ t.depth[r]? = some db ∧
      ∀ x, Anc t x b → (Anc t x r ↔ Anc t x a) := by
  intro f
  induction f with
  | zero => intro a b da db _ _ _ _ _ h; omega
  | succ f ih =>
    intro a b da db ha hb h1 h2 h3 h4
    unfold lcaUp
    rw [h1, h2]
    simp only [Option.bind_eq_bind, Option.bind_some]
    by_cases hc : da > db
    · rw [if_pos hc]
      have ha0 : a ≠ 0 := by
        rintro rfl
        rw [ht.root.2] at h1; cases h1; omega
      obtain ⟨p, d, e1, e2, e3, e4⟩ := ht.node a (by omega) ha
      rw [h1] at e4; cases e4
      rw [e1]
      simp only [Option.bind_some]
      obtain ⟨r, r1, r2, r3, r4⟩ := ih p b d db (by omega) hb e3 h2 (by omega) (by omega)
      refine ⟨r, r1, r2, r3, ?_⟩
      intro x hx
      rw [r4 x hx, anc_up ha0 e1]
      constructor
      · exact Or.inr
      · rintro (rfl | h)
        · exfalso
          obtain ⟨u, v, g1, g2, g3, _⟩ := anc_depth ht hx hb
          rw [h1] at g1; rw [h2] at g2
          cases g1; cases g2; omega
        · exact h
    · rw [if_neg hc]
      have : da = db := by omega
      subst this
      exact ⟨a, rfl, ha, h1, fun _ _ => Iff.rfl⟩

theorem lcaMeet_spec {t : DTree} {m : Nat} (ht : TreeOk t m) : ∀ (f a b d : Nat), a < m → b < m →
    t.depth[a]? = some d → t.depth[b]? = some d → d < f →
    ∃ r, lcaMeet t f a b = some r ∧ r < m ∧ ∀ x, Anc t x r ↔ Anc t x a ∧ Anc t x b := by
  intro f
  induction f with
  | zero => intro a b d _ _ _ _ h; omega
  | succ f ih =>
    intro a b d ha hb h1 h2 h3
    unfold lcaMeet
    by_cases hab : a = b
    · subst hab
      rw [if_pos rfl]
      exact ⟨a, rfl, ha, fun x => by simp⟩
    · rw [if_neg hab]
      have ha0 : a ≠ 0 := by
        rintro rfl
        rw [ht.root.2] at h1; cases h1
        obtain ⟨p, d, _, _, _, e4⟩ := ht.node b (by omega) hb
        rw [h2] at e4; cases e4
      have hb0 : b ≠ 0 := by
        rintro rfl
        rw [ht.root.2] at h2; cases h2
        obtain ⟨p, d, _, _, _, e4⟩ := ht.node a (by omega) ha
        rw [h1] at e4; cases e4
      obtain ⟨p, dp, e1, e2, e3, e4⟩ := ht.node a (by omega) ha
      obtain ⟨q, dq, f1, f2, f3, f4⟩ := ht.node b (by omega) hb
      rw [h1] at e4; cases e4
      rw [h2] at f4
      have : dq = dp := by have := Option.some.inj f4; omega
      subst this
      rw [e1, f1]
      simp only [Option.bind_eq_bind, Option.bind_some]
      obtain ⟨r, r1, r2, r3⟩ := ih p q dq (by omega) (by omega) e3 f3 (by omega)
      refine ⟨r, r1, r2, ?_⟩
      intro x
      rw [r3, anc_up ha0 e1, anc_up hb0 f1]
      have key : ∀ u v : Nat, u < m → v < m → t.depth[u]? = some (dq + 1) → t.depth[v]? = some dq → ¬ Anc t u v := by
        intro u v hu hv g1 g2 hc
        obtain ⟨y, z, k1, k2, k3, _⟩ := anc_depth ht hc hv
        rw [g1] at k1; rw [g2] at k2
        cases k1; cases k2; omega
      constructor
      · rintro ⟨h4, h5⟩; exact ⟨Or.inr h4, Or.inr h5⟩
      · rintro ⟨h4 | h4, h5 | h5⟩
        · exact absurd (h4.symm.trans h5) hab
        · subst h4; exact absurd h5 (key x q ha (by omega) h1 f3)
        · subst h5; exact absurd h4 (key x p hb (by omega) h2 e3)
        · exact ⟨h4, h5⟩

theorem lcaLoops_spec {t : DTree} {m : Nat} (ht : TreeOk t m) {a b da db : Nat} (ha : a < m) (hb : b < m)
    (h1 : t.depth[a]? = some da) (h2 : t.depth[b]? = some db) (h3 : db ≤ da) :
    ∃ r, lcaLoops t a b = some r ∧ r < m ∧ ∀ x, Anc t x r ↔ Anc t x a ∧ Anc t x b := by
  unfold lcaLoops
  rw [ht.dlen]
  obtain ⟨_, e1, e2⟩ := depth_get ht ha
  rw [h1] at e1; cases e1
  obtain ⟨r, r1, r2, r3, r4⟩ := lcaUp_spec ht (m + 1) a b da db ha hb h1 h2 h3 (by omega)
  rw [r1]
  simp only [Option.bind_eq_bind, Option.bind_some]
  obtain ⟨s, s1, s2, s3⟩ := lcaMeet_spec ht (m + 1) r b db r2 hb r3 h2 (by omega)
  refine ⟨s, s1, s2, ?_⟩
  intro x
  rw [s3]
  constructor
  · rintro ⟨h4, h5⟩; exact ⟨(r4 x h5).1 h4, h5⟩
  · rintro ⟨h4, h5⟩; exact ⟨(r4 x h5).2 h4, h5⟩

theorem lca_spec {t : DTree} {m : Nat} (ht : TreeOk t m) {a b : Nat} (ha : a < m) (hb : b < m) :
    ∃ r, lca t a b = some r ∧ r < m ∧ ∀ x, Anc t x r ↔ Anc t x a ∧ Anc t x b := by
  obtain ⟨da, h1, _⟩ := depth_get ht ha
  obtain ⟨db, h2, _⟩ := depth_get ht hb
  unfold lca
  rw [h1, h2]
  simp only [Option.bind_eq_bind, Option.bind_some]
  by_cases hc : da < db
  · rw [if_pos hc]
    obtain ⟨r, r1, r2, r3⟩ := lcaLoops_spec ht hb ha h2 h1 (by omega)
    exact ⟨r, r1, r2, fun x => by rw [r3, And.comm]⟩
  · rw [if_neg hc]
    exact lcaLoops_spec ht ha hb h1 h2 (by omega)

theorem lcaFold_spec {t : DTree} {m : Nat} (ht : TreeOk t m) : ∀ (xs : List Nat) (res : Nat), res < m →
    (∀ x ∈ xs, x < m) → ∃ r, lcaFold t res xs = some r ∧ r < m ∧
      ∀ x, Anc t x r ↔ Anc t x res ∧ ∀ y ∈ xs, Anc t x y := by
  intro xs
  induction xs with
  | nil => intro res h _; exact ⟨res, rfl, h, fun x => by simp⟩
  | cons y ys ih =>
    intro res h hx
    obtain ⟨r, r1, r2, r3⟩ := lca_spec ht h (hx y (by simp))
    obtain ⟨s, s1, s2, s3⟩ := ih r r2 (fun x h => hx x (by simp [h]))
    refine ⟨s, ?_, s2, ?_⟩
    · unfold lcaFold
      rw [r1]
      simpa using s1
    · intro x
      rw [s3, r3, List.forall_mem_cons, and_assoc]

theorem lcaSpan_spec {t : DTree} {m : Nat} (ht : TreeOk t m) {xs : List Nat} (hne : xs ≠ [])
    (hx : ∀ x ∈ xs, x < m) : ∃ r, lcaSpan t xs = some r ∧ r < m ∧
      ∀ x, Anc t x r ↔ ∀ y ∈ xs, Anc t x y := by
  unfold lcaSpan
  cases xs with
  | nil => exact absurd rfl hne
  | cons y ys =>
    obtain ⟨r, r1, r2, r3⟩ := lcaFold_spec ht (y :: ys) y (hx y (by simp)) hx
    refine ⟨r, by simpa using r1, r2, ?_⟩
    intro x
    rw [r3]
    constructor
    · exact And.right
    · intro h; exact ⟨h y (by simp), h⟩

/-- Extending the tree by a node does not change the ancestors of the earlier nodes. -/
theorem anc_ext {t : DTree} {m p d : Nat} {ch : List (List Nat)} (ht : TreeOk t m) {a b : Nat} (hb : b < m) :
    Anc ⟨t.parent ++ [p], t.depth ++ [d], ch⟩ a b ↔ Anc t a b := by
  induction b using Nat.strongRecOn with
  | ind b ih =>
    by_cases h0 : b = 0
    · subst h0
      constructor
      · intro h; rw [anc_zero h]; exact .refl
      · intro h; rw [anc_zero h]; exact .refl
    · obtain ⟨q, _, h1, h2, _⟩ := ht.node b (by omega) hb
      have h1' : (DTree.mk (t.parent ++ [p]) (t.depth ++ [d]) ch).parent[b]? = some q := by
        dsimp only
        rw [List.getElem?_append_left (by rw [ht.plen]; exact hb), h1]
      rw [anc_up h0 h1, anc_up h0 h1', ih q h2 (by omega)]

/-- The children recorded for each node. -/
def ChildOk (t : DTree) (m n : Nat) : Prop :=
  t.children.length = n ∧ ∀ b, b < n → t.children[b]? =
    some ((List.range m).filter (fun c => decide (c ≠ 0 ∧ t.parent[c]? = some b)))

def Inv (g : Cfg) (t : DTree) (m : Nat) : Prop :=
  TreeOk t m ∧ (∀ b, b < m → ∀ a, Anc t a b ↔ Dom g a b) ∧ ChildOk t m g.numNodes

theorem treeOk_ext {t : DTree} {m p d : Nat} {ch : List (List Nat)} (ht : TreeOk t m) (hm : 0 < m) (hp : p < m)
    (hd : t.depth[p]? = some d) : TreeOk ⟨t.parent ++ [p], t.depth ++ [d + 1], ch⟩ (m + 1) := by
  have hl : ∀ {b x : Nat}, t.depth[b]? = some x → (t.depth ++ [d + 1])[b]? = some x := by
    intro b x h
    obtain ⟨hb, _⟩ := List.getElem?_eq_some_iff.1 h
    rw [List.getElem?_append_left hb, h]
  have hl' : ∀ {b x : Nat}, t.parent[b]? = some x → (t.parent ++ [p])[b]? = some x := by
    intro b x h
    obtain ⟨hb, _⟩ := List.getElem?_eq_some_iff.1 h
    rw [List.getElem?_append_left hb, h]
  refine ⟨by simp [ht.plen], by simp [ht.dlen], ⟨hl' ht.root.1, hl ht.root.2⟩, ?_⟩
  intro b h0 hb
  rcases Nat.lt_or_ge b m with h | h
  · obtain ⟨q, e, h1, h2, h3, h4⟩ := ht.node b h0 h
    exact ⟨q, e, hl' h1, h2, hl h3, hl h4⟩
  · have : b = m := by omega
    subst this
    refine ⟨p, d, ?_, hp, hl hd, ?_⟩
    · dsimp only
      rw [List.getElem?_append_right (by rw [ht.plen]; exact Nat.le_refl _), ht.plen]; simp
    · dsimp only
      rw [List.getElem?_append_right (by rw [ht.dlen]; exact Nat.le_refl _), ht.dlen]; simp

theorem domLoop_spec {g : Cfg} (hg : Ok g) : ∀ (k m : Nat) (t : DTree), 0 < m → m + k = g.numNodes →
    Inv g t m → ∃ t', domLoop g k m t = some t' ∧ Inv g t' g.numNodes := by
  intro k
  induction k with
  | zero =>
    intro m t _ hm hi
    rw [Nat.add_zero] at hm
    exact ⟨t, rfl, hm ▸ hi⟩
  | succ k ih =>
    intro m t hm hk hi
    obtain ⟨ht, hd, hc⟩ := hi
    have hmr : m < g.rdeps.length := by rw [hg.rlen]; omega
    have hrd : g.rdeps[m]? = some g.rdeps[m] := List.getElem?_eq_getElem hmr
    have hrev := hg.rev m _ hrd
    have hne : g.rdeps[m] ≠ [] := by
      obtain ⟨a, ha⟩ := hg.pred m hm (by omega)
      intro hc
      have := (hrev a).2 ha
      rw [hc] at this
      simp at this
    obtain ⟨p, p1, p2, p3⟩ := lcaSpan_spec ht hne (fun x hx => (hg.lt x m ((hrev x).1 hx)).1)
    obtain ⟨d, d1, _⟩ := depth_get ht p2
    unfold domLoop
    rw [hrd]
    simp only [Option.bind_eq_bind, Option.bind_some]
    rw [p1]
    simp only [Option.bind_some]
    rw [d1]
    simp only [Option.bind_some]
    have ht' := treeOk_ext (ch := push t.children p m) ht hm p2 d1
    refine ih (m + 1) _ (by omega) (by omega) ⟨ht', ?_, ?_⟩
    · intro b hb a
      rcases Nat.lt_or_ge b m with h | h
      · rw [anc_ext ht h, hd b h]
      · have : b = m := by omega
        subst this
        have hpm : (DTree.mk (t.parent ++ [p]) (t.depth ++ [d + 1]) (push t.children p b)).parent[b]? = some p := by
          dsimp only
          rw [List.getElem?_append_right (by rw [ht.plen]; exact Nat.le_refl _), ht.plen]; simp
        rw [anc_up (by omega) hpm, anc_ext ht p2, p3, dom_step (by omega)]
        constructor
        · rintro (h1 | h1)
          · exact Or.inl h1
          · refine Or.inr (fun x hx => ?_)
            rw [← hd x (hg.lt x b hx).1]
            exact h1 x ((hrev x).2 hx)
        · rintro (h1 | h1)
          · exact Or.inl h1
          · refine Or.inr (fun x hx => ?_)
            have hx' := (hrev x).1 hx
            rw [hd x (hg.lt x b hx').1]
            exact h1 x hx'
    · refine ⟨by dsimp only; rw [push_length]; exact hc.1, ?_⟩
      intro b hb
      dsimp only
      rw [push_get, hc.2 b hb, Option.map_some, List.range_succ, List.filter_append]
      congr 1
      have e1 : (List.range m).filter (fun c => decide (c ≠ 0 ∧ (t.parent ++ [p])[c]? = some b)) =
          (List.range m).filter (fun c => decide (c ≠ 0 ∧ t.parent[c]? = some b)) := by
        apply List.filter_congr
        intro c hc
        rw [List.getElem?_append_left (by rw [ht.plen]; exact List.mem_range.1 hc)]
      rw [e1]
      have e2 : (t.parent ++ [p])[m]? = some p := by
        rw [List.getElem?_append_right (by rw [ht.plen]; exact Nat.le_refl _), ht.plen]; simp
      by_cases hpb : p = b
      · rw [if_pos hpb, List.filter_cons_of_pos (by rw [e2, hpb]; simp; omega)]; rfl
      · rw [if_neg hpb, List.filter_cons_of_neg (by rw [e2]; simp; intro _; exact hpb)]; simp

theorem inv_init {g : Cfg} (hg : Ok g) : Inv g ⟨[0], [0], List.replicate g.numNodes []⟩ 1 := by
  refine ⟨⟨rfl, rfl, ⟨rfl, rfl⟩, by intros; omega⟩, ?_, by simp, ?_⟩
  · intro b hb a
    have : b = 0 := by omega
    subst this
    rw [dom_zero hg]
    exact ⟨anc_zero, by rintro rfl; exact .refl⟩
  · intro b hb
    dsimp only
    rw [List.getElem?_replicate, if_pos hb]
    rfl

theorem dominatorTree_spec {g : Cfg} (hg : Ok g) : ∃ t, dominatorTree g = some t ∧ Inv g t g.numNodes :=
  domLoop_spec hg (g.numNodes - 1) 1 _ (by omega) (by have := hg.pos; omega) (inv_init hg)

theorem idom_parent {g : Cfg} {t : DTree} (hi : Inv g t g.numNodes) {b p : Nat} (h0 : b ≠ 0)
    (hb : b < g.numNodes) (hp : t.parent[b]? = some p) : IDom g p b := by
  obtain ⟨ht, hd, _⟩ := hi
  obtain ⟨q, _, h1, h2, _⟩ := ht.node b (by omega) hb
  rw [hp] at h1; cases h1
  refine ⟨by omega, (hd b hb p).1 (.up h0 hp .refl), ?_⟩
  intro a ha hne
  rw [← hd b hb, anc_up h0 hp] at ha
  rw [← hd p (by omega)]
  exact ha.resolve_left hne

theorem idom_unique {g : Cfg} (hg : Ok g) {b p q : Nat} (hb : b < g.numNodes) (h1 : IDom g p b) (h2 : IDom g q b) :
    p = q := by
  have ha := h1.2.2 q h2.2.1 h2.1
  have hc := h2.2.2 p h1.2.1 h1.1
  have l1 := dom_le hg hb h1.2.1
  have l2 := dom_le hg hb h2.2.1
  have := dom_le hg (by omega) ha
  have := dom_le hg (by omega) hc
  omega

/-- The strict ancestors of a node. -/
theorem strict_list {t : DTree} {m : Nat} (ht : TreeOk t m) : ∀ b, b < m → ∃ (d : Nat) (l : List Nat),
    t.depth[b]? = some d ∧ l.Nodup ∧ l.length = d ∧ ∀ x, x ∈ l ↔ Anc t x b ∧ x ≠ b := by
  intro b
  induction b using Nat.strongRecOn with
  | ind b ih =>
    intro hb
    rcases Nat.eq_zero_or_pos b with rfl | h0
    · refine ⟨0, [], ht.root.2, List.nodup_nil, rfl, ?_⟩
      intro x
      simp only [List.not_mem_nil, false_iff, not_and, not_not]
      exact anc_zero
    · obtain ⟨p, d, h1, h2, h3, h4⟩ := ht.node b h0 hb
      obtain ⟨d', l, e1, e2, e3, e4⟩ := ih p h2 (by omega)
      rw [h3] at e1; cases e1
      refine ⟨d + 1, p :: l, h4, List.nodup_cons.2 ⟨fun h => ((e4 p).1 h).2 rfl, e2⟩, by simp [e3], ?_⟩
      intro x
      rw [List.mem_cons, e4, anc_up (by omega) h1]
      constructor
      · rintro (rfl | ⟨h5, h6⟩)
        · exact ⟨Or.inr .refl, by omega⟩
        · have := anc_le ht h5 (by omega)
          exact ⟨Or.inr h5, by omega⟩
      · rintro ⟨h5 | h5, h6⟩
        · exact absurd h5 h6
        · by_cases hxp : x = p
          · exact Or.inl hxp
          · exact Or.inr ⟨h5, hxp⟩

/-! ## Empty frontier -/

theorem reach_trans {g : Cfg} {a b c : Nat} (h1 : Reach g a b) (h2 : Reach g b c) : Reach g a c := by
  induction h2 with
  | refl => exact h1
  | step _ e ih => exact .step ih e

theorem reach_head {g : Cfg} {a c : Nat} : Reach g a c ↔ a = c ∨ ∃ x, Edge g a x ∧ Reach g x c := by
  constructor
  · intro h
    induction h with
    | refl => exact Or.inl rfl
    | @step b c _ e ih =>
      rcases ih with rfl | ⟨x, h1, h2⟩
      · exact Or.inr ⟨c, e, .refl⟩
      · exact Or.inr ⟨x, h1, .step h2 e⟩
  · rintro (rfl | ⟨x, h1, h2⟩)
    · exact .refl
    · exact reach_trans (.step .refl h1) h2

/-- Reachable by at least one edge. -/
def SReach (g : Cfg) (a c : Nat) : Prop := ∃ x, Edge g a x ∧ Reach g x c

theorem reach_bounds {g : Cfg} (hg : Ok g) {a c : Nat} (ha : a < g.numNodes) (h : Reach g a c) :
    a ≤ c ∧ c < g.numNodes := by
  induction h with
  | refl => exact ⟨Nat.le_refl _, ha⟩
  | step _ e ih => have := hg.lt _ _ e; omega

theorem frontier_iff {g : Cfg} (hg : Ok g) {t : DTree} (hi : Inv g t g.numNodes) {v : Nat} (hv : v < g.numNodes) :
    (∀ d, SReach g v d → ∀ x y, t.depth[v]? = some x → t.depth[d]? = some y → x < y) ↔
      ∀ d, Reach g v d → Dom g v d := by
  obtain ⟨ht, hd, _⟩ := hi
  constructor
  · intro h d hr
    induction hr with
    | refl => exact dom_refl g v
    | @step x d hr e ih =>
      have hb := hg.lt x d e
      have hxn : x < g.numNodes := by omega
      have hsr : SReach g v d := by
        rcases reach_head.1 hr with rfl | ⟨y, h1, h2⟩
        · exact ⟨d, e, .refl⟩
        · exact ⟨y, h1, .step h2 e⟩
      obtain ⟨p, dp, h1, h2, h3, h4⟩ := ht.node d (by omega) hb.2
      have hpd : Dom g p d := (hd d hb.2 p).1 (.up (by omega) h1 .refl)
      have hpx : Anc t p x := by
        rw [hd x hxn]
        exact ((dom_step (by omega)).1 hpd).resolve_left (by omega) x e
      have hvx : Anc t v x := (hd x hxn v).2 ih
      obtain ⟨dv, e1, _⟩ := depth_get ht hv
      have hlt := h d hsr dv (dp + 1) e1 h4
      rcases anc_chain hvx hpx with hc | hc
      · exact (hd d hb.2 v).1 (.up (by omega) h1 hc)
      · obtain ⟨a, b, g1, g2, g3, g4⟩ := anc_depth ht hc hv
        rw [h3] at g1; rw [e1] at g2
        cases g1; cases g2
        have : p = v := g4 (by omega)
        subst this
        exact hpd
  · intro h d hsr x y hx hy
    obtain ⟨z, h1, h2⟩ := hsr
    have hz := hg.lt v z h1
    have hzd := reach_bounds hg hz.2 h2
    have hanc : Anc t v d := (hd d hzd.2 v).2 (h d (reach_head.2 (Or.inr ⟨z, h1, h2⟩)))
    obtain ⟨a, b, g1, g2, g3, g4⟩ := anc_depth ht hanc hzd.2
    rw [hx] at g1; rw [hy] at g2
    cases g1; cases g2
    by_contra hc
    have := g4 (by omega)
    omega

theorem minDeps_spec {t : DTree} {mins : List Int} : ∀ (ds : List Nat) (m : Int),
    (∀ d ∈ ds, ∃ (a : Int) (b : Nat), mins[d]? = some a ∧ t.depth[d]? = some b) →
    ∃ r, minDeps t mins ds m = some r ∧ r ≤ m ∧
      (∀ d ∈ ds, ∀ (a : Int) (b : Nat), mins[d]? = some a → t.depth[d]? = some b → r ≤ a ∧ r ≤ (b : Int) - 1) ∧
      (r = m ∨ ∃ d ∈ ds, ∃ (a : Int) (b : Nat), mins[d]? = some a ∧ t.depth[d]? = some b ∧ (r = a ∨ r = (b : Int) - 1)) := by
  intro ds
  induction ds with
  | nil => intro m _; exact ⟨m, rfl, Int.le_refl _, by simp, Or.inl rfl⟩
  | cons d ds ih =>
    intro m h
    obtain ⟨a, b, h1, h2⟩ := h d (by simp)
    have hM : ∃ M : Int, min m (min a ((b : Int) - 1)) = M ∧ M ≤ m ∧ M ≤ a ∧ M ≤ (b : Int) - 1 ∧
        (M = m ∨ M = a ∨ M = (b : Int) - 1) := ⟨_, rfl, by omega, by omega, by omega, by omega⟩
    obtain ⟨M, hM0, hM1, hM2, hM3, hM4⟩ := hM
    obtain ⟨r, r1, r2, r3, r4⟩ := ih M (fun x hx => h x (by simp [hx]))
    refine ⟨r, ?_, by omega, ?_, ?_⟩
    · unfold minDeps
      rw [h1, h2]
      simp only [Option.bind_eq_bind, Option.bind_some]
      rw [hM0]
      exact r1
    · intro x hx a' b' e1 e2
      rcases List.mem_cons.1 hx with rfl | hx
      · rw [h1] at e1; rw [h2] at e2
        cases e1; cases e2
        omega
      · exact r3 x hx a' b' e1 e2
    · rcases r4 with h3 | ⟨x, hx, a', b', e1, e2, e3⟩
      · by_cases c1 : r = m
        · exact Or.inl c1
        · exact Or.inr ⟨d, by simp, a, b, h1, h2, by
            rcases hM4 with h | h | h
            · exact absurd (h3.trans h) c1
            · exact Or.inl (h3.trans h)
            · exact Or.inr (h3.trans h)⟩
      · exact Or.inr ⟨x, by simp [hx], a', b', e1, e2, e3⟩

/-- Meaning of `min_over_deps_dominator_depth`. -/
def MinOk (g : Cfg) (t : DTree) (v : Nat) (m : Int) : Prop :=
  ∃ dv : Nat, t.depth[v]? = some dv ∧ m ≤ dv ∧
    (∀ d, SReach g v d → ∀ y : Nat, t.depth[d]? = some y → m ≤ (y : Int) - 1) ∧
    (m = dv ∨ ∃ d y, SReach g v d ∧ t.depth[d]? = some y ∧ m = (y : Int) - 1)

theorem frontierLoop_spec {g : Cfg} (hg : Ok g) {t : DTree} (hi : Inv g t g.numNodes) :
    ∀ (k : Nat) (mins : List Int) (e : List Bool), k ≤ g.numNodes → mins.length = g.numNodes → e.length = g.numNodes →
    (∀ v, k ≤ v → v < g.numNodes → ∃ m, mins[v]? = some m ∧ MinOk g t v m) →
    (∀ v, k ≤ v → v < g.numNodes → ∃ b, e[v]? = some b ∧ (b = true ↔ ∀ d, Reach g v d → Dom g v d)) →
    ∃ e', frontierLoop g t k mins e = some e' ∧ e'.length = g.numNodes ∧
      ∀ v, v < g.numNodes → ∃ b, e'[v]? = some b ∧ (b = true ↔ ∀ d, Reach g v d → Dom g v d) := by
  intro k
  induction k with
  | zero => intro mins e _ _ h2 _ h4; exact ⟨e, rfl, h2, fun v hv => h4 v (Nat.zero_le _) hv⟩
  | succ k ih =>
    intro mins e hk hm he h3 h4
    have ht := hi.1
    have hkn : k < g.numNodes := by omega
    obtain ⟨dk, d1, _⟩ := depth_get ht hkn
    have hds : g.deps[k]? = some (g.deps[k]'hkn) := List.getElem?_eq_getElem hkn
    have hed : ∀ d ∈ g.deps[k]'hkn, Edge g k d := fun d hd => ⟨_, hds, hd⟩
    obtain ⟨m, m1, m2, m3, m4⟩ := minDeps_spec (t := t) (mins := mins) (g.deps[k]'hkn) dk (by
      intro d hd
      have := hg.lt k d (hed d hd)
      obtain ⟨a, a1, _⟩ := h3 d (by omega) this.2
      obtain ⟨b, b1, _⟩ := depth_get ht this.2
      exact ⟨a, b, a1, b1⟩)
    unfold frontierLoop
    rw [d1]
    simp only [Option.bind_eq_bind, Option.bind_some]
    rw [hds]
    simp only [Option.bind_some]
    rw [m1]
    simp only [Option.bind_some]
    have hmin : MinOk g t k m := by
      refine ⟨dk, d1, m2, ?_, ?_⟩
      · rintro d ⟨x, ⟨ds, x1, x2⟩, x3⟩ y hy
        rw [hds] at x1; cases x1
        have hx := hg.lt k x (hed x x2)
        obtain ⟨a, a1, dx, a2, a3, a4, _⟩ := h3 x (by omega) hx.2
        obtain ⟨r1, r2⟩ := m3 x x2 a dx a1 a2
        rcases reach_head.1 x3 with rfl | hs
        · rw [a2] at hy; cases hy; exact r2
        · have := a4 d hs y hy
          omega
      · rcases m4 with h | ⟨x, x2, a, dx, a1, a2, h | h⟩
        · exact Or.inl h
        · have hx := hg.lt k x (hed x x2)
          obtain ⟨r1, r2⟩ := m3 x x2 a dx a1 a2
          obtain ⟨a', a1', dx', a2', _, _, a5⟩ := h3 x (by omega) hx.2
          rw [a1] at a1'; cases a1'
          rw [a2] at a2'; cases a2'
          rcases a5 with h5 | ⟨d, y, ⟨z, z1, z2⟩, h6, h7⟩
          · omega
          · exact Or.inr ⟨d, y, ⟨x, hed x x2, reach_trans (.step .refl z1) z2⟩, h6, h.trans h7⟩
        · exact Or.inr ⟨x, dx, ⟨x, hed x x2, .refl⟩, a2, h⟩
    refine ih _ _ (by omega) (by simp [hm]) (by simp [he]) ?_ ?_
    · intro v h5 h6
      by_cases hvk : v = k
      · subst hvk
        exact ⟨m, by rw [List.getElem?_set_self (by omega)], hmin⟩
      · rw [List.getElem?_set_ne (by omega)]
        exact h3 v (by omega) h6
    · intro v h5 h6
      by_cases hvk : v = k
      · subst hvk
        refine ⟨_, by rw [List.getElem?_set_self (by omega)], ?_⟩
        rw [← frontier_iff hg hi h6, beq_iff_eq]
        obtain ⟨dv, e1, e2, e3, e4⟩ := hmin
        rw [d1] at e1; cases e1
        constructor
        · intro h d hs x y hx hy
          rw [d1] at hx; cases hx
          have := e3 d hs y hy
          omega
        · intro h
          rcases e4 with h7 | ⟨d, y, h7, h8, h9⟩
          · exact h7
          · have := h d h7 dk y d1 h8
            omega
      · rw [List.getElem?_set_ne (by omega)]
        exact h4 v (by omega) h6

/-! ## Externalizing nodes -/

def ExtEdge (g : Cfg) (t : DTree) (glob : Nat → Bool) (a b : Nat) : Prop :=
  (Edge g a b ∧ glob b = false) ∨ (b < g.numNodes ∧ glob b = true ∧ b ≠ 0 ∧ t.parent[b]? = some a)

theorem extPush_spec {t : DTree} {glob : Nat → Bool} {node : Nat} {deps : List (List Nat)} {p : Nat}
    (hp : t.parent[node]? = some p) (hpl : p < deps.length) : ∃ deps', extPush t glob node deps = some deps' ∧
      deps'.length = deps.length ∧ ∀ a < deps.length, ∃ ds ds', deps[a]? = some ds ∧ deps'[a]? = some ds' ∧
        ∀ b, b ∈ ds' ↔ b ∈ ds ∨ (b = node ∧ glob b = true ∧ b ≠ 0 ∧ t.parent[b]? = some a) := by
  unfold extPush
  by_cases hc : (glob node && node != 0) = true
  · rw [if_pos hc, hp]
    simp only [Option.bind_eq_bind, Option.bind_some]
    refine ⟨_, rfl, push_length .., ?_⟩
    intro a ha
    refine ⟨deps[a], _, List.getElem?_eq_getElem ha, by rw [push_get, List.getElem?_eq_getElem ha]; rfl, ?_⟩
    intro b
    simp only [Bool.and_eq_true, bne_iff_ne] at hc
    dsimp only
    by_cases hpa : p = a
    · rw [if_pos hpa, List.mem_append, List.mem_singleton]
      constructor
      · rintro (h | rfl)
        · exact Or.inl h
        · exact Or.inr ⟨rfl, hc.1, hc.2, hpa ▸ hp⟩
      · rintro (h | ⟨h, _⟩)
        · exact Or.inl h
        · exact Or.inr h
    · rw [if_neg hpa]
      constructor
      · exact Or.inl
      · rintro (h | ⟨rfl, _, _, h⟩)
        · exact h
        · rw [hp] at h; exact absurd (Option.some.inj h) hpa
  · rw [if_neg hc]
    refine ⟨deps, rfl, rfl, ?_⟩
    intro a ha
    refine ⟨deps[a], deps[a], List.getElem?_eq_getElem ha, List.getElem?_eq_getElem ha, ?_⟩
    intro b
    constructor
    · exact Or.inl
    · rintro (h | ⟨rfl, h1, h2, _⟩)
      · exact h
      · exact absurd (by simp [h1, h2]) hc

theorem extLoop_spec {g : Cfg} {t : DTree} (ht : TreeOk t g.numNodes) (glob : Nat → Bool) :
    ∀ (k node : Nat) (deps : List (List Nat)), node + k = g.numNodes → deps.length = g.numNodes →
    (∀ a, a < g.numNodes → ∃ ds, deps[a]? = some ds ∧ ∀ b, b ∈ ds ↔
      (a < node ∧ Edge g a b ∧ glob b = false) ∨ (b < node ∧ glob b = true ∧ b ≠ 0 ∧ t.parent[b]? = some a)) →
    ∃ deps', extLoop g t glob k node deps = some deps' ∧ deps'.length = g.numNodes ∧
      ∀ a, a < g.numNodes → ∃ ds, deps'[a]? = some ds ∧ ∀ b, b ∈ ds ↔ ExtEdge g t glob a b := by
  intro k
  induction k with
  | zero =>
    intro node deps hn hl h
    refine ⟨deps, rfl, hl, ?_⟩
    intro a ha
    obtain ⟨ds, h1, h2⟩ := h a ha
    refine ⟨ds, h1, fun b => ?_⟩
    rw [h2]
    unfold ExtEdge
    rw [Nat.add_zero] at hn
    simp only [hn, ha, true_and]
  | succ k ih =>
    intro node deps hn hl h
    have hnode : node < g.numNodes := by omega
    obtain ⟨p, hp, hpl⟩ : ∃ p, t.parent[node]? = some p ∧ p < g.numNodes := by
      rcases Nat.eq_zero_or_pos node with rfl | h0
      · exact ⟨0, ht.root.1, hnode⟩
      · obtain ⟨p, _, h1, h2, _⟩ := ht.node node h0 hnode
        exact ⟨p, h1, by omega⟩
    obtain ⟨deps1, e1, e2, e3⟩ := extPush_spec (glob := glob) hp (by rw [hl]; exact hpl)
    have hds : g.deps[node]? = some (g.deps[node]'hnode) := List.getElem?_eq_getElem hnode
    unfold extLoop
    rw [e1]
    simp only [Option.bind_eq_bind, Option.bind_some]
    rw [hds]
    simp only [Option.bind_some]
    refine ih (node + 1) _ (by omega) (by rw [List.length_modify, e2, hl]) ?_
    intro a ha
    obtain ⟨ds, ds', f1, f2, f3⟩ := e3 a (by omega)
    obtain ⟨ds0, g1, g2⟩ := h a ha
    rw [f1] at g1; cases g1
    rw [List.getElem?_modify, f2]
    refine ⟨_, rfl, ?_⟩
    intro b
    have hstep : b ∈ ds' ↔ (a < node ∧ Edge g a b ∧ glob b = false) ∨
        (b < node + 1 ∧ glob b = true ∧ b ≠ 0 ∧ t.parent[b]? = some a) := by
      rw [f3, g2]
      constructor
      · rintro ((h1 | ⟨h1, h2⟩) | ⟨rfl, h2⟩)
        · exact Or.inl h1
        · exact Or.inr ⟨by omega, h2⟩
        · exact Or.inr ⟨by omega, h2⟩
      · rintro (h1 | ⟨h1, h2⟩)
        · exact Or.inl (Or.inl h1)
        · rcases Nat.lt_or_ge b node with h3 | h3
          · exact Or.inl (Or.inr ⟨h3, h2⟩)
          · exact Or.inr ⟨by omega, h2⟩
    by_cases hna : node = a
    · subst hna
      dsimp only
      rw [if_pos rfl, List.mem_append, hstep, List.mem_filter]
      have hE : Edge g node b ↔ b ∈ g.deps[node]'hnode := by
        constructor
        · rintro ⟨x, h1, h2⟩; rw [hds] at h1; cases h1; exact h2
        · intro h; exact ⟨_, hds, h⟩
      rw [hE]
      constructor
      · rintro ((⟨h1, _⟩ | h1) | ⟨h1, h2⟩)
        · omega
        · exact Or.inr h1
        · exact Or.inl ⟨by omega, h1, by simpa using h2⟩
      · rintro (⟨_, h1, h2⟩ | h1)
        · exact Or.inr ⟨h1, by simpa using h2⟩
        · exact Or.inl (Or.inr h1)
    · dsimp only
      rw [if_neg hna, hstep]
      have : a < node + 1 ↔ a < node := by omega
      rw [this]

theorem externalize_spec {g : Cfg} (hg : Ok g) {t : DTree} (hi : Inv g t g.numNodes) (glob : Nat → Bool) :
    ∃ g', externalizeNodes g t glob = some (.ok g') ∧ Ok g' ∧ g'.numNodes = g.numNodes ∧
      ∀ a b, Edge g' a b ↔ ExtEdge g t glob a b := by
  have ht := hi.1
  obtain ⟨deps, d1, d2, d3⟩ := extLoop_spec ht glob g.numNodes 0 (List.replicate g.numNodes []) (by omega) (by simp) (by
    intro a ha
    refine ⟨[], by rw [List.getElem?_replicate, if_pos ha], ?_⟩
    intro b
    simp)
  have hext : ∀ a b, ExtEdge g t glob a b → a < b ∧ b < g.numNodes := by
    rintro a b (⟨h, _⟩ | ⟨h1, _, h2, h3⟩)
    · exact hg.lt a b h
    · obtain ⟨p, _, h4, h5, _⟩ := ht.node b (by omega) h1
      rw [h3] at h4; cases h4
      exact ⟨h5, h1⟩
  have hE : ∀ a (ds : List Nat), deps[a]? = some ds → ∀ b, b ∈ ds ↔ ExtEdge g t glob a b := by
    intro a ds h b
    have ha : a < g.numNodes := by
      obtain ⟨h', _⟩ := List.getElem?_eq_some_iff.1 h
      omega
    obtain ⟨ds', h1, h2⟩ := d3 a ha
    rw [h] at h1; cases h1
    exact h2 b
  have hwf : WellFormed (deps.map (·.map Int.ofNat)) := by
    refine ⟨?_, ?_, ?_⟩
    · intro h
      have := congrArg List.length h
      simp at this
      have := hg.pos
      simp_all
    · intro i ds d h1 h2
      rw [List.getElem?_map] at h1
      obtain ⟨ds', h3, rfl⟩ := Option.map_eq_some_iff.1 h1
      obtain ⟨b, h4, rfl⟩ := List.mem_map.1 h2
      have := hext i b ((hE i ds' h3 b).1 h4)
      rw [List.length_map, d2]
      simp only [Int.ofNat_eq_natCast]
      omega
    · intro j h0 hj
      rw [List.length_map, d2] at hj
      have : ∃ a, a < g.numNodes ∧ ExtEdge g t glob a j := by
        by_cases hgl : glob j = true
        · obtain ⟨p, _, h1, h2, _⟩ := ht.node j h0 hj
          exact ⟨p, by omega, Or.inr ⟨hj, hgl, by omega, h1⟩⟩
        · obtain ⟨a, ha⟩ := hg.pred j h0 hj
          have := hg.lt a j ha
          exact ⟨a, by omega, Or.inl ⟨ha, by simpa using hgl⟩⟩
      obtain ⟨a, ha, hax⟩ := this
      obtain ⟨ds, h1, h2⟩ := d3 a ha
      refine ⟨a, ds.map Int.ofNat, by rw [List.getElem?_map, h1]; rfl, ?_⟩
      exact List.mem_map.2 ⟨j, (h2 j).2 hax, rfl⟩
  obtain ⟨g', c1, c2, _, _, c5⟩ := (create_spec _).1 hwf
  have hdeps : g'.deps = deps := by
    rw [c2, List.map_map]
    have : ((fun x => List.map Int.toNat x) ∘ fun x : List Nat => List.map Int.ofNat x) = id := by
      funext x
      simp [Function.comp_def]
    rw [this, List.map_id]
  refine ⟨g', ?_, c5, by unfold Cfg.numNodes; rw [hdeps]; exact d2, ?_⟩
  · unfold externalizeNodes
    rw [d1]
    simp only [Option.bind_eq_bind, Option.bind_some]
    rw [c1]
  · intro a b
    constructor
    · rintro ⟨ds, h1, h2⟩
      rw [hdeps] at h1
      exact (hE a ds h1 b).1 h2
    · intro h
      have := hext a b h
      obtain ⟨ds, h1, h2⟩ := d3 a (by omega)
      exact ⟨ds, by rw [hdeps]; exact h1, (h2 b).2 h⟩

theorem externalize_dom {g g' : Cfg} (hg : Ok g) (hg' : Ok g') {t : DTree} (hi : Inv g t g.numNodes)
    {glob : Nat → Bool} (hn : g'.numNodes = g.numNodes) (hE : ∀ a b, Edge g' a b ↔ ExtEdge g t glob a b) :
    ∀ b, b < g.numNodes → ∀ a, Dom g' a b ↔ Dom g a b := by
  intro b
  induction b using Nat.strongRecOn with
  | ind b ih =>
    intro hb a
    by_cases h0 : b = 0
    · subst h0
      rw [dom_zero hg, dom_zero hg']
    · rw [dom_step h0]
      by_cases hgl : glob b = true
      · obtain ⟨p, _, h1, h2, _⟩ := hi.1.node b (by omega) hb
        have hx : ∀ x, Edge g' x b ↔ x = p := by
          intro x
          rw [hE]
          unfold ExtEdge
          rw [hgl, h1]
          constructor
          · rintro (⟨_, h⟩ | ⟨_, _, _, h⟩)
            · simp at h
            · exact (Option.some.inj h).symm
          · rintro rfl
            exact Or.inr ⟨hb, rfl, h0, rfl⟩
        rw [← hi.2.1 b hb, anc_up h0 h1, hi.2.1 p (by omega), ← ih p h2 (by omega)]
        constructor
        · rintro (h | h)
          · exact Or.inl h
          · exact Or.inr (h p ((hx p).2 rfl))
        · rintro (h | h)
          · exact Or.inl h
          · refine Or.inr (fun x hx' => ?_)
            rw [(hx x).1 hx']; exact h
      · have hgl' : glob b = false := by simpa using hgl
        rw [dom_step h0]
        have hx : ∀ x, Edge g' x b ↔ Edge g x b := by
          intro x
          rw [hE]
          unfold ExtEdge
          simp [hgl']
        constructor
        · rintro (h | h)
          · exact Or.inl h
          · refine Or.inr (fun x hx' => ?_)
            have := hg.lt x b hx'
            rw [← ih x this.1 (by omega)]
            exact h x ((hx x).2 hx')
        · rintro (h | h)
          · exact Or.inl h
          · refine Or.inr (fun x hx' => ?_)
            have hxe := (hx x).1 hx'
            have := hg.lt x b hxe
            rw [ih x this.1 (by omega)]
            exact h x hxe

end Verif.Cfg
