import Verif.Reg.RegSpec
import Mathlib.Tactic.ByContra

namespace Verif.Reg

/-! ## Names -/

theorem rfind_some : ∀ {n : Name} {i : Nat}, rfindDot n = some i →
    i < n.length ∧ n = n.take i ++ 46 :: n.drop (i + 1) ∧ 46 ∉ n.drop (i + 1) := by
  intro n
  induction n with
  | nil => intro i h; simp [rfindDot] at h
  | cons c cs ih =>
    intro i h
    rw [rfindDot] at h
    cases hr : rfindDot cs with
    | some j =>
      rw [hr] at h
      simp only [Option.some.injEq] at h
      subst h
      obtain ⟨h1, h2, h3⟩ := ih hr
      refine ⟨by simp; omega, ?_, by simpa using h3⟩
      rw [List.take_succ_cons, List.drop_succ_cons, List.cons_append, ← h2]
    | none =>
      rw [hr] at h
      dsimp only at h
      split at h
      · next hc =>
        simp only [Option.some.injEq] at h
        subst h
        refine ⟨by simp, by rw [hc]; rfl, ?_⟩
        simp only [Nat.zero_add, List.drop_succ_cons, List.drop_zero]
        clear hc ih
        intro hm
        induction cs with
        | nil => simp at hm
        | cons d ds ih =>
          rw [rfindDot] at hr
          cases hr' : rfindDot ds with
          | some _ => rw [hr'] at hr; cases hr
          | none =>
            rw [hr'] at hr
            dsimp only at hr
            split at hr
            · cases hr
            · next hd =>
              rcases List.mem_cons.1 hm with h | h
              · exact hd h.symm
              · exact ih hr' h
      · cases h

theorem rfind_none : ∀ {n : Name}, rfindDot n = none → 46 ∉ n := by
  intro n
  induction n with
  | nil => intro _; simp
  | cons d ds ih =>
    intro hr hm
    rw [rfindDot] at hr
    cases hr' : rfindDot ds with
    | some _ => rw [hr'] at hr; cases hr
    | none =>
      rw [hr'] at hr
      dsimp only at hr
      split at hr
      · cases hr
      · next hd =>
        rcases List.mem_cons.1 hm with h | h
        · exact hd h.symm
        · exact ih hr' h

theorem parent_lt {n : Name} (h : n ≠ []) : (parentName n).length < n.length := by
  have hp : 0 < n.length := List.length_pos_iff.2 h
  unfold parentName
  rw [List.length_take]
  cases hr : rfindDot n with
  | none => simp only [Option.getD_none]; omega
  | some i =>
    have := (rfind_some hr).1
    simp only [Option.getD_some]; omega

theorem ns_step {m n : Name} (h : n ≠ []) : InNs m n ↔ m = n ∨ InNs m (parentName n) := by
  unfold parentName
  cases hr : rfindDot n with
  | none =>
    have hd := rfind_none hr
    simp only [Option.getD_none, List.take_zero]
    constructor
    · rintro (h | h | ⟨t, h⟩)
      · exact Or.inl h
      · exact Or.inr (Or.inl h)
      · rw [h] at hd; simp at hd
    · rintro (h | h | h | ⟨t, h⟩)
      · exact Or.inl h
      · exact Or.inr (Or.inl h)
      · exact Or.inr (Or.inl h)
      · simp at h
  | some i =>
    obtain ⟨h1, h2, h3⟩ := rfind_some hr
    simp only [Option.getD_some]
    generalize hp : n.take i = p at *
    generalize hu : n.drop (i + 1) = u at *
    constructor
    · rintro (h | h | ⟨t, h⟩)
      · exact Or.inl h
      · exact Or.inr (Or.inr (Or.inl h))
      · rw [h2] at h
        rw [List.append_eq_append_iff] at h
        rcases h with ⟨a, ha1, ha2⟩ | ⟨a, ha1, ha2⟩
        · cases a with
          | nil => exact Or.inr (Or.inl (by simpa using ha1))
          | cons x xs =>
            simp only [List.cons_append, List.cons.injEq] at ha2
            exfalso
            refine h3 ?_
            rw [ha2.2]
            simp
        · cases a with
          | nil => exact Or.inr (Or.inl (by simpa using ha1.symm))
          | cons x xs =>
            simp only [List.cons_append, List.cons.injEq] at ha2
            exact Or.inr (Or.inr (Or.inr ⟨xs, by rw [ha1, ← ha2.1]⟩))
    · rintro (h | h | h | ⟨t, h⟩)
      · exact Or.inl h
      · exact Or.inr (Or.inr ⟨u, by rw [h]; exact h2⟩)
      · exact Or.inr (Or.inl h)
      · exact Or.inr (Or.inr ⟨t ++ 46 :: u, by rw [h2, h]; simp⟩)

theorem ns_root {m : Name} : InNs m [] ↔ m = [] := by
  unfold InNs
  constructor
  · rintro (h | h | ⟨t, h⟩)
    · exact h
    · exact h
    · simp at h
  · exact Or.inl

/-! ## Records -/

/-- The records form a tree along the names. -/
structure Tree (r : Recs) : Prop where
  root : ∃ x, r [] = some x ∧ x.parent = none
  par : ∀ n x, r n = some x → n ≠ [] → x.parent = some (parentName n) ∧ (r (parentName n)).isSome

/-- `r'` extends `r` by empty records. -/
structure Ext (r r' : Recs) : Prop where
  old : ∀ m, (r m).isSome → r' m = r m
  new : ∀ m, r m = none → ∀ x, r' m = some x → x.rev = 0 ∧ x.impl = none

theorem ext_refl {r : Recs} : Ext r r := ⟨fun _ _ => rfl, fun m h x hx => by rw [h] at hx; cases hx⟩

theorem linkParents_spec : ∀ (f : Nat) {r : Recs} {c : Name}, c.length < f → c ≠ [] → r c = some ⟨none, 0, none⟩ →
    (∃ x, r [] = some x ∧ x.parent = none) →
    (∀ n x, r n = some x → n ≠ [] → n ≠ c → x.parent = some (parentName n) ∧ (r (parentName n)).isSome) →
    ∃ r', linkParents f r c = some r' ∧ Tree r' ∧ (∀ m, m ≠ c → (r m).isSome → r' m = r m) ∧
      (∃ p, r' c = some ⟨p, 0, none⟩) ∧ (∀ m, r m = none → ∀ x, r' m = some x → x.rev = 0 ∧ x.impl = none) := by
  intro f
  induction f with
  | zero => intro r c h; omega
  | succ f ih =>
    intro r c hf hc hrc hroot hpar
    have hlt := parent_lt hc
    have hpc : parentName c ≠ c := fun h => by rw [h] at hlt; omega
    rw [linkParents]
    dsimp only
    cases hp : r (parentName c) with
    | some y =>
      refine ⟨_, rfl, ⟨?_, ?_⟩, ?_, ?_, ?_⟩
      · obtain ⟨x, h1, h2⟩ := hroot
        exact ⟨x, by rw [if_neg (fun h => hc h.symm)]; exact h1, h2⟩
      · intro n x hx hn
        have hsome : ∀ m, (r m).isSome → (if m = c then (r m).map (fun x => { x with parent := some (parentName c) }) else r m).isSome := by
          intro m hm
          split
          · simpa using hm
          · exact hm
        by_cases hnc : n = c
        · subst hnc
          rw [if_pos rfl, hrc] at hx
          simp only [Option.map_some, Option.some.injEq] at hx
          rw [← hx]
          exact ⟨rfl, hsome _ (by rw [hp]; rfl)⟩
        · rw [if_neg hnc] at hx
          obtain ⟨h1, h2⟩ := hpar n x hx hn hnc
          exact ⟨h1, hsome _ h2⟩
      · intro m hm _
        rw [if_neg hm]
      · exact ⟨some (parentName c), by rw [if_pos rfl, hrc]; rfl⟩
      · intro m hm x hx
        by_cases hmc : m = c
        · rw [hmc, hrc] at hm; cases hm
        · rw [if_neg hmc, hm] at hx; cases hx
    | none =>
      dsimp only
      have hpne : parentName c ≠ [] := by
        intro h
        obtain ⟨x, h1, _⟩ := hroot
        rw [h, h1] at hp
        cases hp
      obtain ⟨r1, hr1⟩ : ∃ r1 : Recs, r1 = fun m => if m = c then
          ((setRec r (parentName c) ⟨none, 0, none⟩) m).map (fun x => { x with parent := some (parentName c) })
          else (setRec r (parentName c) ⟨none, 0, none⟩) m := ⟨_, rfl⟩
      rw [← hr1]
      have eC : r1 c = some ⟨some (parentName c), 0, none⟩ := by
        rw [hr1]; dsimp only
        rw [if_pos rfl, setRec, if_neg (fun h => hpc h.symm), hrc]
        rfl
      have eP : r1 (parentName c) = some ⟨none, 0, none⟩ := by
        rw [hr1]; dsimp only
        rw [if_neg hpc, setRec, if_pos rfl]
      have eO : ∀ m, m ≠ c → m ≠ parentName c → r1 m = r m := by
        intro m h1 h2
        rw [hr1]; dsimp only
        rw [if_neg h1, setRec, if_neg h2]
      have hsome : ∀ m, (r m).isSome → (r1 m).isSome := by
        intro m hm
        by_cases h1 : m = c
        · rw [h1, eC]; rfl
        · by_cases h2 : m = parentName c
          · rw [h2, eP]; rfl
          · rw [eO m h1 h2]; exact hm
      obtain ⟨r', k1, k2, k3, k4, k5⟩ := ih (r := r1) (c := parentName c) (by omega) hpne eP
        (by
          obtain ⟨x, h1, h2⟩ := hroot
          exact ⟨x, by rw [eO [] (fun h => hc h.symm) (fun h => hpne h.symm)]; exact h1, h2⟩)
        (by
          intro n x hx hn hnp
          by_cases hnc : n = c
          · subst hnc
            rw [eC] at hx
            obtain rfl := Option.some.inj hx
            exact ⟨rfl, by rw [eP]; rfl⟩
          · rw [eO n hnc hnp] at hx
            obtain ⟨h1, h2⟩ := hpar n x hx hn hnc
            exact ⟨h1, hsome _ h2⟩)
      refine ⟨r', k1, k2, ?_, ?_, ?_⟩
      · intro m hm hs
        have hmp : m ≠ parentName c := fun h => by rw [h, hp] at hs; cases hs
        rw [k3 m hmp (hsome m hs), eO m hm hmp]
      · exact ⟨_, by rw [k3 c (fun h => hpc h.symm) (by rw [eC]; rfl)]; exact eC⟩
      · intro m hm x hx
        by_cases hmp : m = parentName c
        · obtain ⟨p, h4⟩ := k4
          rw [hmp, h4] at hx
          obtain rfl := Option.some.inj hx
          exact ⟨rfl, rfl⟩
        · have hmc : m ≠ c := fun h => by rw [h, hrc] at hm; cases hm
          exact k5 m (by rw [eO m hmc hmp]; exact hm) x hx

theorem lookupOrCreate_spec {r : Recs} (h : Tree r) (n : Name) : ∃ r' res, lookupOrCreate r n = some (r', res) ∧
    Tree r' ∧ Ext r r' ∧ (Str.isQualified n = true → res = some n ∧ (r' n).isSome) := by
  unfold lookupOrCreate
  by_cases h1 : (r n).isSome
  · rw [if_pos h1]
    exact ⟨r, some n, rfl, h, ext_refl, fun _ => ⟨rfl, h1⟩⟩
  · rw [if_neg h1]
    by_cases h2 : (!Str.isQualified n) = true
    · rw [if_pos h2]
      refine ⟨r, none, rfl, h, ext_refl, fun hq => ?_⟩
      rw [hq] at h2; cases h2
    · rw [if_neg h2]
      have hnone : r n = none := by simpa using h1
      have hn : n ≠ [] := by
        intro hc
        rw [hc] at h2
        exact h2 rfl
      obtain ⟨x, hx1, hx2⟩ := h.root
      have eO : ∀ m, m ≠ n → setRec r n ⟨none, 0, none⟩ m = r m := fun m hm => by rw [setRec, if_neg hm]
      have hsome : ∀ m, (r m).isSome → (setRec r n ⟨none, 0, none⟩ m).isSome := by
        intro m hm
        by_cases hmn : m = n
        · rw [setRec, if_pos hmn]; rfl
        · rw [eO m hmn]; exact hm
      obtain ⟨r', k1, k2, k3, k4, k5⟩ := linkParents_spec (n.length + 1) (r := setRec r n ⟨none, 0, none⟩) (c := n)
        (by omega) hn (by rw [setRec, if_pos rfl]) ⟨x, by rw [eO [] (fun h => hn h.symm)]; exact hx1, hx2⟩
        (by
          intro m y hy hm hmn
          rw [eO m hmn] at hy
          obtain ⟨h1, h2⟩ := h.par m y hy hm
          exact ⟨h1, hsome _ h2⟩)
      rw [k1]
      obtain ⟨p, hp⟩ := k4
      refine ⟨r', some n, rfl, k2, ⟨?_, ?_⟩, fun _ => ⟨rfl, by rw [hp]; rfl⟩⟩
      · intro m hm
        have hmn : m ≠ n := fun hc => by rw [hc, hnone] at hm; cases hm
        rw [k3 m hmn (hsome m hm), eO m hmn]
      · intro m hm y hy
        by_cases hmn : m = n
        · rw [hmn, hp] at hy
          obtain rfl := Option.some.inj hy
          exact ⟨rfl, rfl⟩
        · exact k5 m (by rw [eO m hmn]; exact hm) y hy

theorem ext_lookup {r r' : Recs} (h : Ext r r') (n : Name) : (r' n).bind (·.impl) = (r n).bind (·.impl) := by
  cases hr : r n with
  | some x => rw [h.old n (by rw [hr]; rfl), hr]
  | none =>
    cases hr' : r' n with
    | none => rfl
    | some y => simpa using (h.new n hr y hr').2

theorem ext_rev {r r' : Recs} (h : Ext r r') (n : Name) : ((r' n).map (·.rev)).getD 0 = ((r n).map (·.rev)).getD 0 := by
  cases hr : r n with
  | some x => rw [h.old n (by rw [hr]; rfl), hr]
  | none =>
    cases hr' : r' n with
    | none => rfl
    | some y => simpa using (h.new n hr y hr').1

theorem ext_some {r r' : Recs} (h : Ext r r') {n : Name} (hn : (r n).isSome) : (r' n).isSome := by
  rw [h.old n hn]; exact hn

/-! ## The invariant -/

/-- Increments of `m` which an operation still has to do. -/
def pendAt (m : Name) : Pc → Nat
  | .reg3 _ _ (some c) => if InNs m c then 1 else 0
  | .unreg3 _ (some c) => if InNs m c then 1 else 0
  | _ => 0

/-- Operations which stored `op` and have not returned. -/
def pendOk (n : Name) (op : Nat) : Pc → Nat
  | .reg3 m x _ => if m = n ∧ x = op then 1 else 0
  | _ => 0

def PcOk (r : Recs) : Pc → Prop
  | .reg1 n _ => (r n).isSome
  | .reg2 n _ => (r n).isSome
  | .reg3 n _ c => (r n).isSome ∧ ∀ x, c = some x → (r x).isSome
  | .unreg1 n => (r n).isSome
  | .unreg2 n => (r n).isSome
  | .unreg3 n c => (r n).isSome ∧ ∀ x, c = some x → (r x).isSome
  | _ => True

structure Inv (s : St) : Prop where
  tree : Tree s.recs
  pcs : ∀ pc ∈ s.ops, PcOk s.recs pc
  rev : ∀ m, revision s m + (s.ops.map (pendAt m)).sum = storesIn m s.log
  impl : ∀ n, lookup s n = (stores n s.log).head?.join
  ok : ∀ n op, s.log.count (.stored n (some op)) = s.log.count (.regOk n op) + (s.ops.map (pendOk n op)).sum

theorem pcOk_mono {r r' : Recs} (h : ∀ n, (r n).isSome → (r' n).isSome) {pc : Pc} (hp : PcOk r pc) : PcOk r' pc := by
  cases pc <;> simp only [PcOk] at hp ⊢
  · exact h _ hp
  · exact h _ hp
  · exact ⟨h _ hp.1, fun x hx => h _ (hp.2 x hx)⟩
  · exact h _ hp
  · exact h _ hp
  · exact ⟨h _ hp.1, fun x hx => h _ (hp.2 x hx)⟩

/-- What one step of an operation does. -/
structure StepOk (s : St) (pc : Pc) (s' : St) (o : List Pc) : Prop where
  tree : Tree s'.recs
  mono : ∀ n, (s.recs n).isSome → (s'.recs n).isSome
  pcs : ∀ p ∈ o, PcOk s'.recs p
  rev : ∀ m, revision s' m + (o.map (pendAt m)).sum + storesIn m s.log = revision s m + pendAt m pc + storesIn m s'.log
  impl : (∀ n, lookup s n = (stores n s.log).head?.join) → ∀ n, lookup s' n = (stores n s'.log).head?.join
  ok : ∀ n op, s'.log.count (.stored n (some op)) + s.log.count (.regOk n op) + pendOk n op pc =
    s.log.count (.stored n (some op)) + s'.log.count (.regOk n op) + (o.map (pendOk n op)).sum
  log : ∃ new, s'.log = new ++ s.log

theorem setRec_tree {r : Recs} {n : Name} {x y : Rec} (h : Tree r) (hx : r n = some x) (hp : y.parent = x.parent) :
    Tree (setRec r n y) := by
  have hsome : ∀ m, (r m).isSome → (setRec r n y m).isSome := by
    intro m hm
    unfold setRec
    split
    · rfl
    · exact hm
  constructor
  · obtain ⟨z, h1, h2⟩ := h.root
    by_cases hn : n = []
    · subst hn
      rw [h1] at hx
      obtain rfl := Option.some.inj hx
      exact ⟨y, by rw [setRec, if_pos rfl], by rw [hp]; exact h2⟩
    · exact ⟨z, by rw [setRec, if_neg (fun h => hn h.symm)]; exact h1, h2⟩
  · intro m z hz hm
    by_cases hmn : m = n
    · subst hmn
      rw [setRec, if_pos rfl] at hz
      obtain rfl := Option.some.inj hz
      obtain ⟨h1, h2⟩ := h.par m x hx hm
      exact ⟨by rw [hp]; exact h1, hsome _ h2⟩
    · rw [setRec, if_neg hmn] at hz
      obtain ⟨h1, h2⟩ := h.par m z hz hm
      exact ⟨h1, hsome _ h2⟩

theorem setRec_some {r : Recs} {n : Name} {y : Rec} {m : Name} (hm : (r m).isSome) : (setRec r n y m).isSome := by
  unfold setRec
  split
  · rfl
  · exact hm

/-- Nothing relevant changes. -/
theorem stepOk_quiet {s s' : St} {pc : Pc} {o : List Pc} (h : Tree s.recs) (hr : s'.recs = s.recs)
    (hpcs : ∀ p ∈ o, PcOk s.recs p) (hrev : ∀ m, (o.map (pendAt m)).sum = pendAt m pc) (e : Event) (l : List Event)
    (hl : l = [] ∨ l = [e]) (hlog : s'.log = l ++ s.log) (he : ∀ n x, e ≠ .stored n x)
    (hok : ∀ n op, (o.map (pendOk n op)).sum + l.count (.regOk n op) = pendOk n op pc) : StepOk s pc s' o := by
  have hst : ∀ n, stores n s'.log = stores n s.log := by
    intro n
    rw [hlog]
    rcases hl with rfl | rfl
    · rfl
    · cases e <;> first | rfl | exact absurd rfl (he _ _)
  have hsi : ∀ n, storesIn n s'.log = storesIn n s.log := by
    intro n
    rw [hlog]
    rcases hl with rfl | rfl
    · rfl
    · cases e <;> first | rfl | exact absurd rfl (he _ _)
  refine ⟨by rw [hr]; exact h, fun n hn => by rw [hr]; exact hn, by rw [hr]; exact hpcs, ?_, ?_, ?_, ⟨l, hlog⟩⟩
  · intro m
    have : revision s' m = revision s m := by unfold revision; rw [hr]
    rw [this, hrev, hsi]
  · intro hi n
    have : lookup s' n = lookup s n := by unfold lookup; rw [hr]
    rw [this, hst, hi]
  · intro n op
    have hc : l.count (.stored n (some op)) = 0 := by
      rcases hl with rfl | rfl
      · rfl
      · rw [List.count_eq_zero]
        intro hm
        exact he n (some op) (by simpa using (List.mem_singleton.1 hm).symm)
    rw [hlog, List.count_append, List.count_append, hc]
    have := hok n op
    omega

theorem stepOk_store {s : St} {n : Name} {x : Option Nat} {pc pc' : Pc} (h : Tree s.recs) (hn : (s.recs n).isSome)
    (hpend : ∀ m, pendAt m pc' = if InNs m n then 1 else 0) (hpend0 : ∀ m, pendAt m pc = 0)
    (hpc : ∀ r, (r n).isSome → PcOk r pc')
    (hok : ∀ m op, pendOk m op pc' = if m = n ∧ x = some op then 1 else 0) (hok0 : ∀ m op, pendOk m op pc = 0) :
    ∃ s', storeImpl s n x = some s' ∧ StepOk s pc s' [pc'] ∧ s'.log = .stored n x :: s.log ∧ s'.listing = s.listing := by
  obtain ⟨r, hr⟩ := Option.isSome_iff_exists.1 hn
  unfold storeImpl
  rw [hr]
  simp only [Option.bind_eq_bind, Option.bind_some]
  refine ⟨_, rfl, ⟨setRec_tree h hr rfl, fun _ => setRec_some, ?_, ?_, ?_, ?_, ⟨[.stored n x], rfl⟩⟩, rfl, rfl⟩
  · intro p hp
    rw [List.mem_singleton.1 hp]
    exact hpc _ (setRec_some hn)
  · intro m
    have : ∀ l, revision { s with recs := setRec s.recs n { r with impl := x }, log := l } m = revision s m := by
      intro l
      unfold revision
      dsimp only
      by_cases hm : m = n
      · rw [hm, setRec, if_pos rfl, hr]; rfl
      · rw [setRec, if_neg hm]
    rw [this, hpend0]
    simp only [List.map_cons, List.map_nil, List.sum_cons, List.sum_nil, hpend, storesIn]
    omega
  · intro hi m
    have := hi m
    unfold lookup at this ⊢
    dsimp only
    by_cases hm : m = n
    · rw [hm, setRec, if_pos rfl, stores, if_pos rfl]; rfl
    · rw [setRec, if_neg hm, stores, if_neg (fun h => hm h.symm), this]
  · intro m op
    rw [hok0]
    simp only [List.map_cons, List.map_nil, List.sum_cons, List.sum_nil, hok]
    rw [List.count_cons, List.count_cons]
    have h1 : (Event.stored n x == Event.regOk m op) = false := by simp
    rw [h1]
    by_cases hc : m = n ∧ x = some op
    · rw [if_pos hc, hc.1, hc.2]; simp; omega
    · rw [if_neg hc]
      have : (Event.stored n x == Event.stored m (some op)) = false := by
        simp only [beq_eq_false_iff_ne, ne_eq, Event.stored.injEq, not_and]
        intro h1 h2
        exact hc ⟨h1.symm, h2⟩
      rw [this]
      simp

theorem stepOk_bump {s : St} {c : Name} {mk : Option Name → Pc} (h : Tree s.recs)
    (hc : (s.recs c).isSome) (hpend : ∀ m x, pendAt m (mk (some x)) = if InNs m x then 1 else 0)
    (hpend0 : ∀ m, pendAt m (mk none) = 0) (hpc : ∀ r y, (∀ n, (s.recs n).isSome → (r n).isSome) →
      (∀ x, y = some x → (r x).isSome) → PcOk r (mk y))
    (hok : ∀ m op y z, pendOk m op (mk y) = pendOk m op (mk z)) :
    ∃ s' p, bump s c = some (s', p) ∧ StepOk s (mk (some c)) s' [mk p] ∧ s'.log = s.log ∧ s'.listing = s.listing ∧
      (∀ q, p = some q → q.length < c.length ∧ (s'.recs q).isSome) := by
  obtain ⟨r, hr⟩ := Option.isSome_iff_exists.1 hc
  unfold bump
  rw [hr]
  simp only [Option.bind_eq_bind, Option.bind_some]
  have hpar : ∀ q, r.parent = some q → q.length < c.length ∧ (s.recs q).isSome := by
    intro q hq
    by_cases hc0 : c = []
    · obtain ⟨z, h1, h2⟩ := h.root
      rw [hc0, h1] at hr
      obtain rfl := Option.some.inj hr
      rw [h2] at hq; cases hq
    · obtain ⟨h1, h2⟩ := h.par c r hr hc0
      rw [h1] at hq
      obtain rfl := Option.some.inj hq
      exact ⟨parent_lt hc0, h2⟩
  refine ⟨_, _, rfl, ⟨setRec_tree h hr rfl, fun _ => setRec_some, ?_, ?_, ?_, ?_, ⟨[], rfl⟩⟩, rfl, rfl,
    fun q hq => ⟨(hpar q hq).1, setRec_some (hpar q hq).2⟩⟩
  · intro p hp
    rw [List.mem_singleton.1 hp]
    exact hpc _ _ (fun n hn => setRec_some hn) (fun x hx => setRec_some (hpar x hx).2)
  · intro m
    simp only [List.map_cons, List.map_nil, List.sum_cons, List.sum_nil]
    have e1 : revision { s with recs := setRec s.recs c { r with rev := r.rev + 1 } } m =
        revision s m + if m = c then 1 else 0 := by
      unfold revision
      dsimp only
      by_cases hm : m = c
      · rw [hm, setRec, if_pos rfl, if_pos rfl, hr]; rfl
      · rw [setRec, if_neg hm, if_neg hm]; rfl
    rw [e1, hpend]
    by_cases hc0 : c = []
    · obtain ⟨z, h1, h2⟩ := h.root
      rw [hc0, h1] at hr
      obtain rfl := Option.some.inj hr
      rw [h2, hpend0, hc0]
      simp only [ns_root]
      omega
    · obtain ⟨h1, _⟩ := h.par c r hr hc0
      rw [h1, hpend]
      have h3 := ns_step (m := m) hc0
      have h4 : m = c → ¬InNs m (parentName c) := by
        intro hm hns
        have := parent_lt hc0
        rcases hns with h | h | ⟨t, h⟩
        · rw [← h, hm] at this; omega
        · exact hc0 (by rw [← hm, h])
        · rw [h, hm, List.length_append] at this; omega
      by_cases h5 : m = c
      · rw [if_pos h5, if_neg (h4 h5), if_pos (h3.2 (Or.inl h5))]
        omega
      · rw [if_neg h5]
        by_cases h6 : InNs m (parentName c)
        · rw [if_pos h6, if_pos (h3.2 (Or.inr h6))]; omega
        · rw [if_neg h6, if_neg (fun hh => by
            rcases h3.1 hh with h | h
            · exact h5 h
            · exact h6 h)]
          omega
  · intro hi m
    have := hi m
    unfold lookup at this ⊢
    dsimp only
    by_cases hm : m = c
    · rw [hm] at this ⊢
      rw [setRec, if_pos rfl, ← this, hr]; rfl
    · rw [setRec, if_neg hm, this]
  · intro m op
    simp only [List.map_cons, List.map_nil, List.sum_cons, List.sum_nil]
    rw [hok m op r.parent (some c)]
    omega

theorem stepPc_ok {s : St} {pc : Pc} (ht : Tree s.recs) (hp : PcOk s.recs pc) : ∃ out, stepPc s pc = some out ∧
    StepOk s pc out.st out.pc.toList := by
  cases pc with
  | reg0 n op =>
    rw [stepPc]
    by_cases hq : (!Str.isQualified n) = true
    · rw [if_pos hq]
      exact ⟨_, rfl, stepOk_quiet ht rfl (by simp) (by simp [pendAt]) (.regInvalid n) _ (Or.inr rfl) rfl (by simp)
        (by simp [pendOk])⟩
    · rw [if_neg hq]
      obtain ⟨r', res, h1, h2, h3, h4⟩ := lookupOrCreate_spec ht n
      obtain ⟨h5, h6⟩ := h4 (by simpa using hq)
      subst h5
      rw [h1]
      refine ⟨_, rfl, ⟨h2, fun _ => ext_some h3, ?_, ?_, ?_, ?_, ⟨[], rfl⟩⟩⟩
      · intro p hp
        simp only [Option.toList_some, List.mem_singleton] at hp
        rw [hp]; exact h6
      · intro m
        have : revision { s with recs := r' } m = revision s m := ext_rev h3 m
        simp [this, pendAt]
      · intro hi m
        have : lookup { s with recs := r' } m = lookup s m := ext_lookup h3 m
        rw [this, hi]
      · intro m x
        simp [pendOk]
  | reg1 n op =>
    obtain ⟨r, hr⟩ := Option.isSome_iff_exists.1 hp
    rw [stepPc, hr]
    simp only [Option.bind_eq_bind, Option.bind_some]
    by_cases hi : r.impl.isSome
    · rw [if_pos hi]
      exact ⟨_, rfl, stepOk_quiet ht rfl (by simp) (by simp [pendAt]) (.regExists n) _ (Or.inr rfl) rfl (by simp)
        (by simp [pendOk])⟩
    · rw [if_neg hi]
      exact ⟨_, rfl, stepOk_quiet ht rfl (by simpa [PcOk] using hp) (by simp [pendAt]) (.regExists n) _ (Or.inl rfl) rfl (by simp)
        (by simp [pendOk])⟩
  | reg2 n op =>
    rw [stepPc]
    obtain ⟨s', h1, h2, _⟩ := stepOk_store (x := some op) (pc := .reg2 n op) (pc' := .reg3 n op (some n)) ht hp
      (fun m => rfl) (fun m => rfl) (fun r hr => ⟨hr, fun x hx => by rw [← Option.some.inj hx]; exact hr⟩)
      (fun m x => by simp [pendOk, eq_comm]) (fun _ _ => rfl)
    rw [h1]
    exact ⟨_, rfl, h2⟩
  | reg3 n op c =>
    cases c with
    | some c =>
      rw [stepPc]
      obtain ⟨s', p, h1, h2, _⟩ := stepOk_bump (s := s) (c := c) (mk := fun y => .reg3 n op y) ht (hp.2 c rfl)
        (fun _ _ => rfl) (fun _ => rfl) (fun r y h3 h4 => ⟨h3 _ hp.1, h4⟩) (fun _ _ _ _ => rfl)
      rw [h1]
      exact ⟨_, rfl, h2⟩
    | none =>
      rw [stepPc]
      refine ⟨_, rfl, stepOk_quiet ht rfl (by simp) (by simp [pendAt]) (.regOk n op) _ (Or.inr rfl) rfl (by simp) ?_⟩
      intro m x
      rw [List.count_singleton]
      simp [pendOk, Event.regOk.injEq]
  | unreg0 n =>
    rw [stepPc]
    by_cases hi : (s.recs n).isSome
    · rw [if_pos hi]
      exact ⟨_, rfl, stepOk_quiet ht rfl (by simpa [PcOk] using hi) (by simp [pendAt]) (.regExists n) _ (Or.inl rfl) rfl (by simp)
        (by simp [pendOk])⟩
    · rw [if_neg hi]
      exact ⟨_, rfl, stepOk_quiet ht rfl (by simp) (by simp [pendAt]) (.unregRet n) _ (Or.inr rfl) rfl (by simp)
        (by simp [pendOk])⟩
  | unreg1 n =>
    obtain ⟨r, hr⟩ := Option.isSome_iff_exists.1 hp
    rw [stepPc, hr]
    simp only [Option.bind_eq_bind, Option.bind_some]
    by_cases hi : r.impl.isSome
    · rw [if_pos hi]
      exact ⟨_, rfl, stepOk_quiet ht rfl (by simpa [PcOk] using hp) (by simp [pendAt]) (.unregRet n) _ (Or.inl rfl) rfl (by simp)
        (by simp [pendOk])⟩
    · rw [if_neg hi]
      exact ⟨_, rfl, stepOk_quiet ht rfl (by simp) (by simp [pendAt]) (.unregRet n) _ (Or.inr rfl) rfl (by simp)
        (by simp [pendOk])⟩
  | unreg2 n =>
    rw [stepPc]
    obtain ⟨s', h1, h2, _⟩ := stepOk_store (x := none) (pc := .unreg2 n) (pc' := .unreg3 n (some n)) ht hp
      (fun m => rfl) (fun m => rfl) (fun r hr => ⟨hr, fun x hx => by rw [← Option.some.inj hx]; exact hr⟩)
      (fun m x => by simp [pendOk]) (fun _ _ => rfl)
    rw [h1]
    exact ⟨_, rfl, h2⟩
  | unreg3 n c =>
    cases c with
    | some c =>
      rw [stepPc]
      obtain ⟨s', p, h1, h2, _⟩ := stepOk_bump (s := s) (c := c) (mk := fun y => .unreg3 n y) ht (hp.2 c rfl)
        (fun _ _ => rfl) (fun _ => rfl) (fun r y h3 h4 => ⟨h3 _ hp.1, h4⟩) (fun _ _ _ _ => rfl)
      rw [h1]
      exact ⟨_, rfl, h2⟩
    | none =>
      rw [stepPc]
      exact ⟨_, rfl, stepOk_quiet ht rfl (by simp) (by simp [pendAt]) (.unregRet n) _ (Or.inr rfl) rfl (by simp)
        (by simp [pendOk])⟩

end Verif.Reg
