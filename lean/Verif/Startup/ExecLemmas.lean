import Verif.Startup.StartupLemmas
import Mathlib.Data.List.Nodup

/-!
# Executing the digraph of initializers
-/

namespace Verif.Startup
open Relation

/-- `d` is a dependency of `k`. -/
def Graph.Dep (g : Graph) (k d : Key) : Prop := d ∈ g.deps k

/-- Every function is called after the functions of everything it depends on. -/
def Ordered (g : Graph) (t : List Nat) : Prop :=
  ∀ t1 i t2, t = t1 ++ i :: t2 → ∀ k, g.init k = some i → ∀ d, TransGen g.Dep k d →
    (∀ i', g.init d = some i' → i' ∈ t1) ∧ (g.init d = none → isPhony d.name = true)

/-- Holds between the calls of `ExecuteNode`. -/
structure XInv (g : Graph) (succeeds : List Nat → Nat → Bool) (x : X) : Prop where
  exe : ∀ k, x.st k = .executing ↔ k ∈ x.stack
  chain : x.stack.IsChain (fun a b => g.Dep b a)
  closed : ∀ k, x.st k = .done → ∀ d ∈ g.deps k, x.st d = .done
  tr : ∀ i, i ∈ x.trace ↔ ∃ k, x.st k = .done ∧ g.init k = some i
  nodup : x.trace.Nodup
  defined : ∀ k, x.st k = .done → g.init k ≠ none ∨ isPhony k.name = true
  order : Ordered g x.trace
  succ : ∀ t1 i t2, x.trace = t1 ++ i :: t2 → succeeds t1 i = true

/-- Holds after an error. -/
structure TInv (g : Graph) (succeeds : List Nat → Nat → Bool) (t : List Nat) : Prop where
  nodup : t.Nodup
  ids : ∀ i ∈ t, ∃ k, g.init k = some i
  order : Ordered g t
  succ : ∀ t1 i t2, t = t1 ++ i :: t2 → t2 ≠ [] → succeeds t1 i = true

/-- Why the execution fails. -/
def Cause (g : Graph) (succeeds : List Nat → Nat → Bool) (t : List Nat) : Err → Prop
  | .circular _ => ∃ k, TransGen g.Dep k k
  | .notDefined _ n => ∃ q k, g.Dep q k ∧ k.name = n ∧ g.init k = none ∧ isPhony n = false
  | .initFailed i => ∃ t1, t = t1 ++ [i] ∧ succeeds t1 i = false
  | _ => False

def pendCount (g : Graph) (x : X) : Nat := (g.keys.filter (fun k => x.st k = .pending)).length

theorem pendCount_mono (g : Graph) {x y : X} (h : ∀ q, y.st q = .pending → x.st q = .pending) :
    pendCount g y ≤ pendCount g x := by
  unfold pendCount
  generalize g.keys = l
  induction l with
  | nil => simp
  | cons a l ih =>
    have := h a
    simp only [List.filter_cons]
    by_cases h1 : y.st a = .pending
    · simp [h1, this h1]; exact ih
    · by_cases h2 : x.st a = .pending
      · simp [h1, h2]; omega
      · simp [h1, h2]; exact ih

theorem filter_set_lt (p q : Key → Bool) (l : List Key) (h : ∀ a, q a = true → p a = true) {k : Key}
    (hk : k ∈ l) (hp : p k = true) (hq : q k = false) : (l.filter q).length < (l.filter p).length := by
  induction l with
  | nil => simp at hk
  | cons a l ih =>
    have hle : (l.filter q).length ≤ (l.filter p).length := by
      clear ih hk
      induction l with
      | nil => simp
      | cons b l ih =>
        have := h b
        simp only [List.filter_cons]
        by_cases h1 : q b = true
        · simp [h1, this h1]; exact ih
        · by_cases h2 : p b = true
          · simp [h1, h2]; omega
          · simp [h1, h2]; exact ih
    simp only [List.filter_cons]
    by_cases hak : a = k
    · subst hak
      simp [hp, hq]; omega
    · have hk' : k ∈ l := by
        rcases List.mem_cons.1 hk with h | h
        · exact absurd h.symm hak
        · exact h
      have := ih hk'
      have ha := h a
      by_cases h1 : q a = true
      · simp [h1, ha h1]; exact this
      · by_cases h2 : p a = true
        · simp [h1, h2]; omega
        · simp [h1, h2]; exact this

theorem pendCount_set (g : Graph) {x : X} {k : Key} (hk : k ∈ g.keys) (hp : x.st k = .pending) {s : St}
    (hs : s ≠ .pending) (stack : List Key) :
    pendCount g { x.set k s with stack := stack } < pendCount g x := by
  unfold pendCount
  refine filter_set_lt _ _ g.keys ?_ hk (by simpa using hp) (by simpa [X.set] using hs)
  intro a ha
  have ha' : (if a = k then s else x.st a) = .pending := of_decide_eq_true ha
  apply decide_eq_true
  split at ha'
  · exact absurd ha' hs
  · exact ha'

theorem cycleNames_some (k : Key) : ∀ l : List Key, k ∈ l → ∃ names, cycleNames k l = some names := by
  intro l
  induction l with
  | nil => simp
  | cons q l ih =>
    intro h
    rw [cycleNames]
    by_cases hq : q = k
    · exact ⟨_, if_pos hq⟩
    · rw [if_neg hq]
      obtain ⟨n, hn⟩ := ih (by
        rcases List.mem_cons.1 h with h | h
        · exact absurd h.symm hq
        · exact h)
      exact ⟨q.name :: n, by rw [hn]; rfl⟩

theorem mem_sortKeys {k : Key} {l : List Key} : k ∈ sortKeys l ↔ k ∈ l :=
  (List.perm_insertionSort _ l).mem_iff

theorem chain_reach {g : Graph} : ∀ (l : List Key) (q : Key), (q :: l).IsChain (fun a b => g.Dep b a) →
    ∀ k ∈ q :: l, ReflTransGen g.Dep k q := by
  intro l
  induction l with
  | nil => intro q _ k hk; simp at hk; subst hk; exact .refl
  | cons a l ih =>
    intro q hc k hk
    rw [List.isChain_cons_cons] at hc
    rcases List.mem_cons.1 hk with rfl | hk
    · exact .refl
    · exact (ih a hc.2 k hk).tail hc.1

theorem closed_reach {g : Graph} {x : X} (h : ∀ k, x.st k = .done → ∀ d ∈ g.deps k, x.st d = .done)
    {k d : Key} (hr : ReflTransGen g.Dep k d) (hk : x.st k = .done) : x.st d = .done := by
  induction hr with
  | refl => exact hk
  | tail _ h2 ih => exact h _ ih _ h2

/-- What a call of `ExecuteNode` on the given nodes ensures. -/
def Post (g : Graph) (succeeds : List Nat → Nat → Bool) (x : X) (ks : List Key) (r : Res) : Prop :=
  ∃ y s, r = some (y, s) ∧ x.trace <+: y.trace ∧
    match s with
    | .ok () => XInv g succeeds y ∧ y.stack = x.stack ∧ (∀ k ∈ ks, y.st k = .done) ∧
        (∀ q, x.st q ≠ .pending → y.st q = x.st q)
    | .error e => TInv g succeeds y.trace ∧ Cause g succeeds y.trace e

theorem XInv.toT {g : Graph} {succeeds : List Nat → Nat → Bool} {x : X} (h : XInv g succeeds x) :
    TInv g succeeds x.trace :=
  ⟨h.nodup, fun i hi => by obtain ⟨k, _, hk⟩ := (h.tr i).1 hi; exact ⟨k, hk⟩, h.order,
    fun t1 i t2 ht _ => h.succ t1 i t2 ht⟩

theorem execList_spec {g : Graph} {succeeds : List Nat → Nat → Bool} {f : X → Key → Res} (P : X → Prop)
    (hP : ∀ x y : X, P x → y.stack = x.stack → (∀ q, x.st q ≠ .pending → y.st q = x.st q) → P y) :
    ∀ (ks : List Key) (x : X), (∀ k ∈ ks, ∀ y, P y → XInv g succeeds y → Post g succeeds y [k] (f y k)) →
      P x → XInv g succeeds x → Post g succeeds x ks (execList f ks x) := by
  intro ks
  induction ks with
  | nil => intro x _ _ hx; exact ⟨x, .ok (), rfl, List.prefix_rfl, hx, rfl, by simp, fun _ _ => rfl⟩
  | cons k ks ih =>
    intro x hf hp hx
    obtain ⟨y, s, hy, hpre, hs⟩ := hf k (by simp) x hp hx
    rw [execList, hy]
    cases s with
    | error e => exact ⟨y, .error e, rfl, hpre, hs⟩
    | ok u =>
      obtain ⟨h1, h2, h3, h4⟩ := hs
      have hpy := hP x y hp h2 h4
      obtain ⟨z, s, hz, hpre2, hs⟩ := ih y (fun k' hk' => hf k' (List.mem_cons_of_mem _ hk')) hpy h1
      refine ⟨z, s, hz, hpre.trans hpre2, ?_⟩
      cases s with
      | error e => exact hs
      | ok u =>
        obtain ⟨e1, e2, e3, e4⟩ := hs
        refine ⟨e1, e2.trans h2, ?_, ?_⟩
        · intro q hq
          rcases List.mem_cons.1 hq with rfl | hq
          · have hd := h3 q (by simp)
            rw [e4 q (by rw [hd]; simp), hd]
          · exact e3 q hq
        · intro q hq
          have := h4 q hq
          rw [e4 q (by rw [this]; exact hq), this]

theorem split_last {α : Type} {t t1 t2 : List α} {i j : α} (h : t ++ [j] = t1 ++ i :: t2) :
    (t2 = [] ∧ i = j ∧ t1 = t) ∨ ∃ t3, t2 = t3 ++ [j] ∧ t = t1 ++ i :: t3 := by
  rcases List.eq_nil_or_concat t2 with rfl | ⟨t3, b, rfl⟩
  · left
    have := List.append_inj_right' h (by simp)
    have h2 := List.append_inj_left' h (by simp)
    simp at this
    exact ⟨rfl, this.symm, h2.symm⟩
  · right
    rw [List.concat_eq_append] at h ⊢
    have h' : t ++ [j] = (t1 ++ i :: t3) ++ [b] := by simpa using h
    have e1 := List.append_inj_right' h' (by simp)
    have e2 := List.append_inj_left' h' (by simp)
    simp at e1
    exact ⟨t3, by rw [e1], e2⟩

theorem exec_spec {g : Graph} {succeeds : List Nat → Nat → Bool}
    (hinj : ∀ k k' i, g.init k = some i → g.init k' = some i → k = k')
    (hkeys : ∀ k, ∀ d ∈ g.deps k, d ∈ g.keys) :
    ∀ (fuel : Nat) (x : X) (k : Key), pendCount g x < fuel → k ∈ g.keys → XInv g succeeds x →
      ((x.stack = [] ∧ g.init k ≠ none) ∨ ∃ q rest, x.stack = q :: rest ∧ g.Dep q k) →
      Post g succeeds x [k] (exec g succeeds fuel x k) := by
  intro fuel
  induction fuel with
  | zero => intro x k h; omega
  | succ fuel ih =>
    intro x k hf hk hx hst
    rw [exec]
    cases hs : x.st k with
    | done => exact ⟨x, .ok (), rfl, List.prefix_rfl, hx, rfl, by simpa using hs, fun _ _ => rfl⟩
    | executing =>
      have hmem := (hx.exe k).1 hs
      obtain ⟨names, hn⟩ := cycleNames_some k x.stack hmem
      refine ⟨x, .error (.circular names), by simp [hn], List.prefix_rfl, hx.toT, ?_⟩
      rcases hst with ⟨h0, _⟩ | ⟨q, rest, h0, h1⟩
      · rw [h0] at hmem; simp at hmem
      · have hc := hx.chain
        rw [h0] at hc hmem
        exact ⟨k, TransGen.tail' (chain_reach rest q hc k hmem) h1⟩
    | pending =>
      have hknot : k ∉ x.stack := by
        intro hm
        rw [(hx.exe k).2 hm] at hs
        simp at hs
      obtain ⟨x1, hx1⟩ : ∃ x1 : X, x1 = { x.set k .executing with stack := k :: (x.set k .executing).stack } := ⟨_, rfl⟩
      have hst1 : ∀ q, x1.st q = if q = k then .executing else x.st q := by rw [hx1]; intro q; rfl
      have hstack1 : x1.stack = k :: x.stack := by rw [hx1]; rfl
      have htr1 : x1.trace = x.trace := by rw [hx1]; rfl
      have hdone1 : ∀ q, x1.st q = .done ↔ x.st q = .done := by
        intro q
        rw [hst1]
        split
        · rename_i h; subst h; rw [hs]; simp
        · rfl
      have hx1inv : XInv g succeeds x1 := by
        refine ⟨?_, ?_, ?_, ?_, by rw [htr1]; exact hx.nodup, ?_, by rw [htr1]; exact hx.order,
          by rw [htr1]; exact hx.succ⟩
        · intro q
          rw [hst1, hstack1, List.mem_cons]
          split
          · rename_i h; simp [h]
          · rename_i h; rw [hx.exe]; simp [h]
        · rw [hstack1]
          rcases hst with ⟨h0, _⟩ | ⟨q, rest, h0, h1⟩
          · rw [h0]; simp
          · have hc := hx.chain
            rw [h0] at hc ⊢
            rw [List.isChain_cons_cons]
            exact ⟨h1, hc⟩
        · intro q hq d hd
          rw [hdone1] at hq ⊢
          exact hx.closed q hq d hd
        · intro i
          rw [htr1, hx.tr]
          simp only [hdone1]
        · intro q hq
          rw [hdone1] at hq
          exact hx.defined q hq
      have hpc : pendCount g x1 < fuel := by
        have := pendCount_set g hk hs (s := .executing) (by simp) (k :: (x.set k .executing).stack)
        rw [← hx1] at this
        omega
      have hel : Post g succeeds x1 (sortKeys (g.deps k)) (execList (exec g succeeds fuel) (sortKeys (g.deps k)) x1) := by
        refine execList_spec (fun y => pendCount g y < fuel ∧ y.stack = k :: x.stack) ?_ _ x1 ?_ ⟨hpc, hstack1⟩ hx1inv
        · rintro a b ⟨h1, h2⟩ h3 h4
          refine ⟨Nat.lt_of_le_of_lt (pendCount_mono g ?_) h1, h3.trans h2⟩
          intro q hq
          by_contra hne
          rw [h4 q hne] at hq
          exact hne hq
        · rintro d hd y ⟨h1, h2⟩ hy
          have hd' := mem_sortKeys.1 hd
          exact ih y d h1 (hkeys k d hd') hy (Or.inr ⟨k, x.stack, h2, hd'⟩)
      obtain ⟨y, s, hy, hpre, hs2⟩ := hel
      rw [htr1] at hpre
      simp only [← hx1]
      rw [hy]
      cases s with
      | error e => exact ⟨y, .error e, rfl, hpre, hs2⟩
      | ok u =>
        obtain ⟨e1, e2, e3, e4⟩ := hs2
        rw [hstack1] at e2
        have hdeps : ∀ d ∈ g.deps k, y.st d = .done := fun d hd => e3 d (mem_sortKeys.2 hd)
        have hyk : y.st k = .executing := by rw [e4 k (by rw [hst1]; simp), hst1]; simp
        have hreach : ∀ d, TransGen g.Dep k d → y.st d = .done := by
          intro d hd
          obtain ⟨b, hb, hr⟩ := TransGen.head'_iff.1 hd
          exact closed_reach e1.closed hr (hdeps b hb)
        show Post g succeeds x [k] (finishNode g succeeds y k)
        unfold finishNode
        rw [e2]
        dsimp only
        obtain ⟨z, hz⟩ : ∃ z : X, z = { y.set k .done with stack := x.stack } := ⟨_, rfl⟩
        have hzst : ∀ q, z.st q = if q = k then .done else y.st q := by rw [hz]; intro q; rfl
        have hzstack : z.stack = x.stack := by rw [hz]
        have hztr : z.trace = y.trace := by rw [hz]; rfl
        have hzpres : ∀ q, x.st q ≠ .pending → z.st q = x.st q := by
          intro q hq
          have hqk : q ≠ k := by rintro rfl; exact hq hs
          rw [hzst, if_neg hqk, e4 q (by rw [hst1, if_neg hqk]; exact hq), hst1, if_neg hqk]
        have hzexe : ∀ q, z.st q = .executing ↔ q ∈ z.stack := by
          intro q
          rw [hzst, hzstack]
          split
          · rename_i h; subst h; simp [hknot]
          · rename_i h
            rw [e1.exe, e2, List.mem_cons]; simp [h]
        have hzchain : z.stack.IsChain (fun a b => g.Dep b a) := by rw [hzstack]; exact hx.chain
        have hzclosed : ∀ q, z.st q = .done → ∀ d ∈ g.deps q, z.st d = .done := by
          intro q hq d hd
          rw [hzst]
          split
          · rfl
          · rw [hzst] at hq
            split at hq
            · rename_i h; subst h; exact hdeps d hd
            · exact e1.closed q hq d hd
        simp only [← hz]
        cases hi : g.init k with
        | some i =>
          have hinew : i ∉ y.trace := by
            intro hm
            obtain ⟨k', h1, h2⟩ := (e1.tr i).1 hm
            rw [hinj k' k i h2 hi, hyk] at h1
            simp at h1
          have hnd : (y.trace ++ [i]).Nodup := by
            rw [List.nodup_append]
            refine ⟨e1.nodup, by simp, ?_⟩
            intro a ha b hb hab
            have : b = i := by simpa using hb
            subst this; subst hab; exact hinew ha
          have hord : Ordered g (y.trace ++ [i]) := by
            intro t1 j t2 ht q hq d hd
            rcases split_last ht with ⟨_, hji, ht1⟩ | ⟨t3, _, ht1⟩
            · subst hji; subst ht1
              have hqk := hinj q k j hq hi
              subst hqk
              have hdd := hreach d hd
              refine ⟨fun i' hi' => (e1.tr i').2 ⟨d, hdd, hi'⟩, fun hn => ?_⟩
              rcases e1.defined d hdd with h | h
              · exact absurd hn h
              · exact h
            · exact e1.order t1 j t3 ht1 q hq d hd
          by_cases hsu : succeeds y.trace i = true
          · refine ⟨{ z with trace := y.trace ++ [i] }, .ok (), by subst hz; simp [X.set, hsu], hpre.trans (List.prefix_append _ _), ⟨hzexe, hzchain, hzclosed, ?_, hnd, ?_, hord, ?_⟩, hzstack, ?_, hzpres⟩
            · intro j
              simp only [List.mem_append, List.mem_singleton, hzst, e1.tr]
              constructor
              · rintro (⟨q, h1, h2⟩ | rfl)
                · refine ⟨q, ?_, h2⟩
                  split
                  · rfl
                  · exact h1
                · exact ⟨k, by simp, hi⟩
              · rintro ⟨q, h1, h2⟩
                split at h1
                · rename_i h; subst h
                  rw [hi] at h2
                  right; simpa using h2.symm
                · exact Or.inl ⟨q, h1, h2⟩
            · intro q hq
              change z.st q = .done at hq
              rw [hzst] at hq
              split at hq
              · rename_i h; subst h; left; rw [hi]; simp
              · exact e1.defined q hq
            · intro t1 j t2 ht
              rcases split_last ht with ⟨_, rfl, rfl⟩ | ⟨t3, _, ht1⟩
              · exact hsu
              · exact e1.succ t1 j t3 ht1
            · intro q hq
              have : q = k := by simpa using hq
              subst this
              show z.st q = .done
              rw [hzst]; simp
          · refine ⟨{ z with trace := y.trace ++ [i] }, .error (.initFailed i), by subst hz; simp [X.set, hsu], hpre.trans (List.prefix_append _ _), ⟨hnd, ?_, hord, ?_⟩, ?_⟩
            · intro j hj
              rcases List.mem_append.1 hj with hj | hj
              · exact e1.toT.ids j hj
              · have : j = i := by simpa using hj
                subst this; exact ⟨k, hi⟩
            · intro t1 j t2 ht hne
              rcases split_last ht with ⟨rfl, _⟩ | ⟨t3, _, ht1⟩
              · exact absurd rfl hne
              · exact e1.succ t1 j t3 ht1
            · exact ⟨y.trace, rfl, by simpa using hsu⟩
        | none =>
          dsimp only
          by_cases hp : isPhony k.name = true
          · rw [if_pos hp]
            refine ⟨z, .ok (), rfl, by rw [hztr]; exact hpre, ⟨hzexe, hzchain, hzclosed, ?_, by rw [hztr]; exact e1.nodup, ?_,
              by rw [hztr]; exact e1.order, by rw [hztr]; exact e1.succ⟩, hzstack, ?_, hzpres⟩
            · intro j
              rw [hztr, e1.tr]
              constructor
              · rintro ⟨q, h1, h2⟩
                refine ⟨q, ?_, h2⟩
                rw [hzst]; split
                · rfl
                · exact h1
              · rintro ⟨q, h1, h2⟩
                rw [hzst] at h1
                split at h1
                · rename_i h; subst h; rw [hi] at h2; simp at h2
                · exact ⟨q, h1, h2⟩
            · intro q hq
              rw [hzst] at hq
              split at hq
              · rename_i h; subst h; exact Or.inr hp
              · exact e1.defined q hq
            · intro q hq
              have : q = k := by simpa using hq
              subst this
              rw [hzst]; simp
          · rw [if_neg hp]
            rcases hst with ⟨_, h0⟩ | ⟨q, rest, h0, h1⟩
            · exact absurd hi h0
            · rw [h0]
              refine ⟨z, .error (.notDefined q.name k.name), rfl, by rw [hztr]; exact hpre, by rw [hztr]; exact e1.toT, ?_⟩
              exact ⟨q, k, h1, rfl, hi, by simpa using hp⟩

/-- The last loop of `Run`. -/
theorem runLoop_spec {g : Graph} {succeeds : List Nat → Nat → Bool}
    (hinj : ∀ k k' i, g.init k = some i → g.init k' = some i → k = k')
    (hkeys : ∀ k, ∀ d ∈ g.deps k, d ∈ g.keys) (fuel : Nat) :
    ∀ (ks : List Key) (x : X) (c : List String), (∀ k ∈ ks, k ∈ g.keys ∧ g.init k ≠ none) →
      pendCount g x < fuel → XInv g succeeds x → x.stack = [] →
      ∃ y c' s, runLoop (exec g succeeds fuel) ks x c = some (y, c', s) ∧ x.trace <+: y.trace ∧
        match s with
        | .ok () => XInv g succeeds y ∧ (∀ k ∈ ks, y.st k = .done) ∧ (∀ q, x.st q ≠ .pending → y.st q = x.st q) ∧
            c' = c ++ (ks.map Key.name).filter (fun n => n ≠ "" ∧ ¬ isPhony n)
        | .error e => TInv g succeeds y.trace ∧ Cause g succeeds y.trace e ∧
            ∃ ks1 ks2, ks = ks1 ++ ks2 ∧ (∀ k ∈ ks1, ∀ i, g.init k = some i → i ∈ y.trace ∧ e ≠ .initFailed i) ∧
              c' = c ++ (ks1.map Key.name).filter (fun n => n ≠ "" ∧ ¬ isPhony n) := by
  intro ks
  induction ks with
  | nil =>
    intro x c _ _ hx _
    exact ⟨x, c, .ok (), rfl, List.prefix_rfl, hx, by simp, fun _ _ => rfl, by simp⟩
  | cons k ks ih =>
    intro x c hk hp hx hst
    obtain ⟨y, s, hy, hpre, hs⟩ := exec_spec hinj hkeys fuel x k hp (hk k (by simp)).1 hx
      (Or.inl ⟨hst, (hk k (by simp)).2⟩)
    rw [runLoop, hy]
    cases s with
    | error e =>
      exact ⟨y, c, .error e, rfl, hpre, hs.1, hs.2, [], k :: ks, rfl, by simp, by simp⟩
    | ok u =>
      obtain ⟨h1, h2, h3, h4⟩ := hs
      have hp2 : pendCount g y < fuel := by
        refine Nat.lt_of_le_of_lt (pendCount_mono g ?_) hp
        intro q hq
        by_contra hne
        rw [h4 q hne] at hq
        exact hne hq
      obtain ⟨z, c', s, hz, hpre2, hs⟩ := ih y (if k.name ≠ "" ∧ ¬ isPhony k.name then c ++ [k.name] else c)
        (fun q hq => hk q (List.mem_cons_of_mem _ hq)) hp2 h1 (h2.trans hst)
      refine ⟨z, c', s, hz, hpre.trans hpre2, ?_⟩
      have hkd := h3 k (by simp)
      have hc : ∀ l : List Key, (if k.name ≠ "" ∧ ¬ isPhony k.name then c ++ [k.name] else c) ++
          (l.map Key.name).filter (fun n => n ≠ "" ∧ ¬ isPhony n) =
          c ++ ((k :: l).map Key.name).filter (fun n => n ≠ "" ∧ ¬ isPhony n) := by
        intro l
        rw [List.map_cons, List.filter_cons]
        by_cases hcc : k.name ≠ "" ∧ ¬ isPhony k.name
        · rw [if_pos hcc, if_pos (by simpa using hcc), List.append_assoc]; rfl
        · rw [if_neg hcc, if_neg (by simpa using hcc)]
      cases s with
      | ok u =>
        obtain ⟨e1, e2, e3, e4⟩ := hs
        refine ⟨e1, ?_, ?_, by rw [e4, hc]⟩
        · intro q hq
          rcases List.mem_cons.1 hq with rfl | hq
          · rw [e3 q (by rw [hkd]; simp), hkd]
          · exact e2 q hq
        · intro q hq
          have := h4 q hq
          rw [e3 q (by rw [this]; exact hq), this]
      | error e =>
        obtain ⟨e1, e2, ks1, ks2, e3, e4, e5⟩ := hs
        refine ⟨e1, e2, k :: ks1, ks2, by rw [e3]; rfl, ?_, by rw [e5, hc]⟩
        intro q hq i hi
        rcases List.mem_cons.1 hq with rfl | hq
        · have hmem := (h1.tr i).2 ⟨q, hkd, hi⟩
          refine ⟨hpre2.subset hmem, ?_⟩
          rintro rfl
          obtain ⟨t1, ht, hf⟩ := e2
          obtain ⟨a, b, hab⟩ := List.append_of_mem hmem
          obtain ⟨r, hr⟩ := hpre2
          rw [hab, List.append_assoc, List.cons_append] at hr
          have hnd := e1.nodup
          rcases split_last (ht.symm.trans hr.symm) with ⟨_, _, rfl⟩ | ⟨t3, _, h5⟩
          · rw [h1.succ _ i b hab] at hf
            simp at hf
          · rw [ht, List.nodup_append] at hnd
            exact hnd.2.2 i (by rw [h5]; simp) i (by simp) rfl
        · exact e4 q hq i hi

end Verif.Startup
