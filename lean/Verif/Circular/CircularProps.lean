import Verif.Circular.CircularSpec
import Mathlib.Data.List.Perm.Subperm
import Mathlib.Data.List.Nodup
import Mathlib.Data.Nat.Find
import Mathlib.Tactic.ByContra

/-!
# Circular dependencies between registered operators (C102)
-/

namespace Verif.Circular

variable {N O : Type} [DecidableEq N] [DecidableEq O]

/-! ## DecayRegisteredOperator -/

theorem follow_succ (registry : List (N × Op N O)) (n : Nat) {name : N} {next : Op N O} (h : implementation registry name = some next) :
    follow registry (n + 1) (.reg name) = follow registry n next := by
  simp [follow, h]

theorem endsAt_other (registry : List (N × Op N O)) (o o' : O) : EndsAt registry (.other o) o' ↔ o' = o := by
  constructor
  · rintro ⟨n, h⟩
    cases n with
    | zero => simpa [follow, eq_comm] using h
    | succ n => simp [follow] at h
  · rintro rfl
    exact ⟨0, rfl⟩

theorem endsAt_step {registry : List (N × Op N O)} {name : N} {next : Op N O} (h : implementation registry name = some next) (o : O) :
    EndsAt registry (.reg name) o ↔ EndsAt registry next o := by
  constructor
  · rintro ⟨n, hn⟩
    cases n with
    | zero => simp [follow] at hn
    | succ n => exact ⟨n, by rwa [follow_succ registry n h] at hn⟩
  · rintro ⟨n, hn⟩
    exact ⟨n + 1, by rwa [follow_succ registry n h]⟩

theorem endsMissing_step {registry : List (N × Op N O)} {name : N} {next : Op N O} (h : implementation registry name = some next) :
    EndsMissing registry (.reg name) ↔ EndsMissing registry next := by
  constructor
  · rintro ⟨n, m, hn, hm⟩
    cases n with
    | zero =>
      simp only [follow, Option.some.injEq, Op.reg.injEq] at hn
      subst hn
      rw [h] at hm
      cases hm
    | succ n => exact ⟨n, m, by rwa [follow_succ registry n h] at hn, hm⟩
  · rintro ⟨n, m, hn, hm⟩
    exact ⟨n + 1, m, by rwa [follow_succ registry n h], hm⟩

theorem endless_step {registry : List (N × Op N O)} {name : N} {next : Op N O} (h : implementation registry name = some next) :
    Endless registry (.reg name) ↔ Endless registry next := by
  constructor
  · intro he n
    have := he (n + 1)
    rwa [follow_succ registry n h] at this
  · intro he n
    cases n with
    | zero => exact ⟨name, rfl⟩
    | succ n =>
      have := he n
      rwa [← follow_succ registry n h] at this

/-- What a result of `decay` says. -/
def Describes (registry : List (N × Op N O)) (op : Op N O) : Except Err (Op N O) → Prop
  | .ok o => ∃ x, o = .other x ∧ EndsAt registry op x
  | .error .notFound => EndsMissing registry op
  | .error .circular => Endless registry op

theorem describes_step {registry : List (N × Op N O)} {name : N} {next : Op N O} (h : implementation registry name = some next)
    {r : Except Err (Op N O)} (hr : Describes registry next r) : Describes registry (.reg name) r := by
  cases r with
  | error e =>
    cases e with
    | notFound => exact (endsMissing_step h).2 hr
    | circular => exact (endless_step h).2 hr
  | ok o =>
    obtain ⟨x, rfl, hx⟩ := hr
    exact ⟨x, rfl, (endsAt_step h x).2 hx⟩

theorem follow_add (registry : List (N × Op N O)) : ∀ (a b : Nat) (op op' : Op N O), follow registry a op = some op' →
    follow registry (a + b) op = follow registry b op'
  | 0, b, op, op', h => by
    simp only [follow, Option.some.injEq] at h
    rw [h, Nat.zero_add]
  | a + 1, b, .other o, op', h => by simp [follow] at h
  | a + 1, b, .reg name, op', h => by
    simp only [follow, Option.bind_eq_some_iff] at h
    obtain ⟨next, h1, h2⟩ := h
    rw [Nat.add_right_comm, follow_succ registry _ h1]
    exact follow_add registry a b next op' h2

/-- A registered operator that leads to itself never ends. -/
theorem endless_of_loop {registry : List (N × Op N O)} {k : Nat} {op : Op N O} (hk : 0 < k) (h : follow registry k op = some op) : Endless registry op := by
  intro n
  induction n using Nat.strongRecOn with
  | ind n ih =>
    by_cases hn : n < k
    · -- the `n`-th operator is followed by another one
      obtain ⟨j, rfl⟩ := Nat.exists_eq_add_of_lt hn
      cases hf : follow registry n op with
      | none =>
        exfalso
        have hmono : ∀ (m j : Nat) (op : Op N O), follow registry m op = none → follow registry (m + j) op = none := by
          intro m
          induction m with
          | zero => intro j op h; simp [follow] at h
          | succ m ihm =>
            intro j op h
            rw [Nat.add_right_comm]
            cases op with
            | other o => rfl
            | reg name =>
              cases hi : implementation registry name with
              | none => simp [follow, hi]
              | some next =>
                rw [follow_succ registry _ hi] at h ⊢
                exact ihm j next h
        have := hmono n (j + 1) op hf
        rw [show n + (j + 1) = n + j + 1 by omega, h] at this
        cases this
      | some x =>
        cases x with
        | reg name => exact ⟨name, rfl⟩
        | other o =>
          have := follow_add registry n (j + 1) op _ hf
          rw [show n + (j + 1) = n + j + 1 by omega, h] at this
          simp [follow] at this
    · have := follow_add registry k (n - k) op op h
      rw [show k + (n - k) = n by omega] at this
      rw [this]
      exact ih (n - k) (by omega)

theorem implementation_mem {registry : List (N × Op N O)} {name : N} {next : Op N O} (h : implementation registry name = some next) :
    name ∈ registry.map (·.1) := by
  simp only [implementation, Option.map_eq_some_iff] at h
  obtain ⟨r, hr, _⟩ := h
  have h1 := List.mem_of_find?_eq_some hr
  have h2 := List.find?_some hr
  simp only [beq_iff_eq] at h2
  exact h2 ▸ List.mem_map.2 ⟨r, h1, rfl⟩

/-- The visited operators are registered operators with implementations, different, and lead to the current operator. -/
theorem decayVisited_spec (registry : List (N × Op N O)) : ∀ (fuel : Nat) (visited : List (Op N O)) (cur : Op N O),
    visited.Nodup → (∀ v ∈ visited, v ∈ registry.map fun r => Op.reg r.1) → (∀ v ∈ visited, ∃ k, 0 < k ∧ follow registry k v = some cur) →
    registry.length + 2 ≤ fuel + visited.length →
    ∃ r, decayVisited registry fuel visited cur = some r ∧ Describes registry cur r := by
  intro fuel
  induction fuel with
  | zero =>
    intro visited cur hn hm _ hf
    have := (List.subperm_of_subset hn fun v hv => hm v hv).length_le
    simp only [List.length_map] at this
    omega
  | succ fuel ih =>
    intro visited cur hn hm hl hf
    simp only [decayVisited]
    by_cases hc : cur ∈ visited
    · rw [if_pos hc]
      obtain ⟨k, hk, hf⟩ := hl cur hc
      exact ⟨_, rfl, endless_of_loop hk hf⟩
    · rw [if_neg hc]
      cases cur with
      | other o => exact ⟨_, rfl, o, rfl, (endsAt_other registry o o).2 rfl⟩
      | reg name =>
        dsimp only
        cases hi : implementation registry name with
        | none => exact ⟨_, rfl, 0, name, rfl, hi⟩
        | some next =>
          dsimp only
          obtain ⟨r, h1, h2⟩ := ih (.reg name :: visited) next (List.nodup_cons.2 ⟨hc, hn⟩) (by
              intro v hv
              rcases List.mem_cons.1 hv with rfl | hv
              · obtain ⟨r, hr, he⟩ := List.mem_map.1 (implementation_mem hi)
                exact List.mem_map.2 ⟨r, hr, by rw [he]⟩
              · exact hm v hv) (by
              intro v hv
              rcases List.mem_cons.1 hv with rfl | hv
              · exact ⟨1, by omega, by rw [follow_succ registry 0 hi]; rfl⟩
              · obtain ⟨k, hk, hfk⟩ := hl v hv
                refine ⟨k + 1, by omega, ?_⟩
                rw [follow_add registry k 1 v _ hfk, follow_succ registry 0 hi]
                rfl) (by
              simp only [List.length_cons]
              omega)
          exact ⟨r, h1, describes_step hi h2⟩

theorem decayFast_spec (registry : List (N × Op N O)) : ∀ (steps : Nat) (cur : Op N O),
    ∃ r, decayFast registry (registry.length + 2) steps cur = some r ∧ Describes registry cur r
  | 0, cur => decayVisited_spec registry _ [] cur List.nodup_nil (by simp) (by simp) (by simp)
  | steps + 1, cur => by
    simp only [decayFast]
    cases cur with
    | other o => exact ⟨_, rfl, o, rfl, (endsAt_other registry o o).2 rfl⟩
    | reg name =>
      dsimp only
      cases hi : implementation registry name with
      | none => exact ⟨_, rfl, 0, name, rfl, hi⟩
      | some next =>
        obtain ⟨r, h1, h2⟩ := decayFast_spec registry steps next
        exact ⟨r, h1, describes_step hi h2⟩

theorem decay_describes (registry : List (N × Op N O)) (op : Op N O) : ∃ r, decay registry op = some r ∧ Describes registry op r := by
  cases op with
  | other o => exact ⟨_, rfl, o, rfl, (endsAt_other registry o o).2 rfl⟩
  | reg name =>
    simp only [decay]
    cases hi : implementation registry name with
    | none => exact ⟨_, rfl, 0, name, rfl, hi⟩
    | some next =>
      obtain ⟨r, h1, h2⟩ := decayFast_spec registry (ignoreDepth - 1) next
      exact ⟨r, h1, describes_step hi h2⟩

theorem follow_end_unique {registry : List (N × Op N O)} {op : Op N O} {m n : Nat} {x : Op N O} (hm : follow registry m op = some x)
    (hx : ∀ k, 0 < k → follow registry k x = none) (hn : (follow registry n op).isSome) : n ≤ m := by
  by_contra h
  have := follow_add registry m (n - m) op x hm
  rw [show m + (n - m) = n by omega, hx (n - m) (by omega)] at this
  simp [this] at hn

/-- **Decaying a registered operator always ends, and says which end the chain of implementations has**: the operator that is not
registered, an operator that is not found, or a circular dependency. -/
theorem decay_spec (registry : List (N × Op N O)) (op : Op N O) :
    (decay registry op).isSome ∧
    (∀ o, decay registry op = some (.ok o) ↔ ∃ x, o = .other x ∧ EndsAt registry op x) ∧
    (decay registry op = some (.error .notFound) ↔ EndsMissing registry op) ∧
    (decay registry op = some (.error .circular) ↔ Endless registry op) := by
  obtain ⟨r, h1, h2⟩ := decay_describes registry op
  have hother : ∀ (o : O) (k : Nat), 0 < k → follow registry k (.other o) = none := by
    intro o k hk
    obtain ⟨j, rfl⟩ := Nat.exists_eq_add_of_lt hk
    rw [Nat.zero_add]
    rfl
  have hmiss : ∀ (name : N), implementation registry name = none → ∀ k, 0 < k → follow registry k (.reg name) = none := by
    intro name hi k hk
    obtain ⟨j, rfl⟩ := Nat.exists_eq_add_of_lt hk
    rw [Nat.zero_add]
    simp [follow, hi]
  have e1 : ∀ x y, EndsAt registry op x → EndsAt registry op y → x = y := by
    rintro x y ⟨m, hm⟩ ⟨n, hn⟩
    have a := follow_end_unique hm (hother x) (by rw [hn]; rfl)
    have b := follow_end_unique hn (hother y) (by rw [hm]; rfl)
    have : m = n := by omega
    subst this
    rw [hm] at hn
    simpa using hn
  have e2 : ∀ x, EndsAt registry op x → ¬ EndsMissing registry op := by
    rintro x ⟨m, hm⟩ ⟨n, name, hn, hi⟩
    have a := follow_end_unique hm (hother x) (by rw [hn]; rfl)
    have b := follow_end_unique hn (hmiss name hi) (by rw [hm]; rfl)
    have : m = n := by omega
    subst this
    rw [hm] at hn
    simp at hn
  have e3 : ∀ x, EndsAt registry op x → ¬ Endless registry op := by
    rintro x ⟨m, hm⟩ he
    obtain ⟨name, hn⟩ := he m
    rw [hm] at hn
    simp at hn
  have e4 : EndsMissing registry op → ¬ Endless registry op := by
    rintro ⟨m, name, hm, hi⟩ he
    obtain ⟨name', hn⟩ := he (m + 1)
    rw [follow_add registry m 1 op _ hm, hmiss name hi 1 (by omega)] at hn
    cases hn
  rw [h1]
  refine ⟨rfl, ?_, ?_, ?_⟩
  · intro o
    constructor
    · intro h
      cases h
      exact h2
    · rintro ⟨x, rfl, hx⟩
      match r, h2 with
      | .ok o, h2 =>
        obtain ⟨y, rfl, hy⟩ := h2
        rw [e1 x y hx hy]
      | .error .notFound, h2 => exact absurd h2 (e2 x hx)
      | .error .circular, h2 => exact absurd h2 (e3 x hx)
  · constructor
    · intro h
      cases h
      exact h2
    · intro hx
      match r, h2 with
      | .ok o, h2 =>
        obtain ⟨y, rfl, hy⟩ := h2
        exact absurd hx (e2 y hy)
      | .error .notFound, _ => rfl
      | .error .circular, h2 => exact absurd h2 (e4 hx)
  · constructor
    · intro h
      cases h
      exact h2
    · intro hx
      match r, h2 with
      | .ok o, h2 =>
        obtain ⟨y, rfl, hy⟩ := h2
        exact absurd hx (e3 y hy)
      | .error .notFound, h2 => exact absurd hx (e4 h2)
      | .error .circular, _ => rfl

/-! ## The guard -/

variable {K R T : Type} [DecidableEq T]

theorem runBody_tls {ev : Tls T → K → Option (R × Tls T)} (hev : ∀ tls k r tls', ev tls k = some (r, tls') → tls' = tls) :
    ∀ (b : Body K R) (tls : Tls T) (r : R) (tls' : Tls T), runBody ev tls b = some (r, tls') → tls' = tls
  | .ret r, tls, r', tls', h => by
    simp only [runBody, Option.some.injEq, Prod.mk.injEq] at h
    exact h.2.symm
  | .call k cont, tls, r', tls', h => by
    simp only [runBody] at h
    cases hk : ev tls k with
    | none => simp [hk] at h
    | some p =>
      obtain ⟨r, t⟩ := p
      simp only [hk] at h
      have := hev tls k r t hk
      subst this
      exact runBody_tls hev (cont r) t r' tls' h

theorem leave_enter (token : T) (tls : Tls T) : leave (enter token tls).2 (enter token tls).1 = tls := by
  unfold enter
  dsimp only
  by_cases h : tls.depth + 1 > ignoreDepth
  · rw [if_pos h]
    by_cases hv : token ∈ tls.visited
    · rw [if_pos hv]
      simp only [leave, if_pos h]
      rfl
    · rw [if_neg hv]
      simp only [leave, if_pos h, List.erase_cons_head]
      rfl
  · rw [if_neg h]
    simp only [leave, if_neg h]
    rfl

/-- **A call leaves the depth and the visited set of the thread as they were**, whether it succeeds or a circular dependency is found. -/
theorem guard_restores {token : K → T} {body : K → Body K R} {fail : K → R} : ∀ (fuel : Nat) (tls : Tls T) (k : K) (r : R) (tls' : Tls T),
    guarded token body fail fuel tls k = some (r, tls') → tls' = tls
  | 0, _, _, _, _, h => by simp [guarded] at h
  | fuel + 1, tls, k, r, tls', h => by
    simp only [guarded, Option.map_eq_some_iff] at h
    obtain ⟨p, hp, he⟩ := h
    have hp1 : p.2 = (enter (token k) tls).1 := by
      split at hp
      · exact runBody_tls (fun t k r t' => guard_restores fuel t k r t') _ _ _ _ hp
      · simp only [Option.some.injEq] at hp
        rw [← hp]
    simp only [Prod.mk.injEq] at he
    rw [← he.2, hp1, leave_enter]

theorem runBody_some {ev : Tls T → K → Option (R × Tls T)} (hev : ∀ tls k r tls', ev tls k = some (r, tls') → tls' = tls) {tls : Tls T}
    (hs : ∀ k, (ev tls k).isSome) : ∀ b : Body K R, (runBody ev tls b).isSome
  | .ret r => rfl
  | .call k cont => by
    simp only [runBody]
    obtain ⟨p, hp⟩ := Option.isSome_iff_exists.1 (hs k)
    obtain ⟨r, t⟩ := p
    have := hev tls k r t hp
    subst this
    simp only [hp]
    exact runBody_some hev hs (cont r)

/-- **Guarded calls always end**: with finitely many tokens the recursion is at most `kIgnoreDepth` and the number of the tokens deep, and one
more. -/
theorem guard_terminates {token : K → T} {body : K → Body K R} {fail : K → R} {tokens : List T} (hall : ∀ k, token k ∈ tokens) :
    ∀ (fuel : Nat) (tls : Tls T) (k : K), tls.visited.Nodup → (∀ t ∈ tls.visited, t ∈ tokens) →
      (ignoreDepth - tls.depth) + (tokens.length - tls.visited.length) < fuel → (guarded token body fail fuel tls k).isSome
  | 0, _, _, _, _, h => by omega
  | fuel + 1, tls, k, hn, hm, h => by
    simp only [guarded, Option.isSome_map]
    split
    · rename_i hg
      refine runBody_some (fun t k r t' => guard_restores fuel t k r t') ?_ _
      intro k'
      unfold enter at hg ⊢
      dsimp only at hg ⊢
      by_cases hd : tls.depth + 1 > ignoreDepth
      · rw [if_pos hd] at hg ⊢
        by_cases hv : token k ∈ tls.visited
        · rw [if_pos hv] at hg
          simp [guardOk] at hg
          omega
        · rw [if_neg hv]
          have hnd : (token k :: tls.visited).Nodup := List.nodup_cons.2 ⟨hv, hn⟩
          have hsub : ∀ t ∈ token k :: tls.visited, t ∈ tokens := by
            intro t ht
            rcases List.mem_cons.1 ht with rfl | ht
            · exact hall k
            · exact hm t ht
          have hlen := (List.subperm_of_subset hnd hsub).length_le
          simp only [List.length_cons] at hlen
          refine guard_terminates hall fuel _ k' hnd hsub ?_
          simp only [List.length_cons]
          omega
      · rw [if_neg hd]
        refine guard_terminates hall fuel _ k' hn hm ?_
        dsimp only
        omega
    · rfl

theorem runDirect_mono {ev ev' : K → Option R} (h : ∀ k r, ev k = some r → ev' k = some r) : ∀ (b : Body K R) (r : R),
    runDirect ev b = some r → runDirect ev' b = some r
  | .ret r, r', hr => hr
  | .call k cont, r', hr => by
    simp only [runDirect] at hr ⊢
    cases hk : ev k with
    | none => simp [hk] at hr
    | some r =>
      simp only [hk] at hr
      simp only [h k r hk]
      exact runDirect_mono h (cont r) r' hr

theorem direct_succ (body : K → Body K R) : ∀ (n : Nat) (k : K) (r : R), direct body n k = some r → direct body (n + 1) k = some r
  | 0, _, _, h => by simp [direct] at h
  | n + 1, k, r, h => runDirect_mono (direct_succ body n) (body k) r h

theorem direct_mono (body : K → Body K R) {m n : Nat} (hmn : m ≤ n) {k : K} {r : R} (h : direct body m k = some r) : direct body n k = some r := by
  induction hmn with
  | refl => exact h
  | step _ ih => exact direct_succ body _ k r ih

theorem runBody_mono {ev ev' : Tls T → K → Option (R × Tls T)} (h : ∀ tls k r, ev tls k = some r → ev' tls k = some r) : ∀ (b : Body K R) (tls : Tls T)
    (r : R × Tls T), runBody ev tls b = some r → runBody ev' tls b = some r
  | .ret r, _, _, hr => hr
  | .call k cont, tls, r', hr => by
    simp only [runBody] at hr ⊢
    cases hk : ev tls k with
    | none => simp [hk] at hr
    | some p =>
      obtain ⟨r, t⟩ := p
      simp only [hk] at hr
      simp only [h tls k _ hk]
      exact runBody_mono h (cont r) t r' hr

theorem guarded_succ (token : K → T) (body : K → Body K R) (fail : K → R) : ∀ (n : Nat) (tls : Tls T) (k : K) (r : R × Tls T),
    guarded token body fail n tls k = some r → guarded token body fail (n + 1) tls k = some r
  | 0, _, _, _, h => by simp [guarded] at h
  | n + 1, tls, k, r, h => by
    rw [guarded] at h ⊢
    simp only [Option.map_eq_some_iff] at h ⊢
    obtain ⟨p, hp, he⟩ := h
    refine ⟨p, ?_, he⟩
    split at hp
    · rename_i hg
      rw [if_pos hg]
      exact runBody_mono (guarded_succ token body fail n) _ _ _ hp
    · rename_i hg
      rw [if_neg hg]
      exact hp

theorem guarded_mono (token : K → T) (body : K → Body K R) (fail : K → R) {m n : Nat} (hmn : m ≤ n) {tls : Tls T} {k : K} {r : R × Tls T}
    (h : guarded token body fail m tls k = some r) : guarded token body fail n tls k = some r := by
  induction hmn with
  | refl => exact h
  | step _ ih => exact guarded_succ token body fail _ tls k r ih

theorem runBody_direct {evD : K → Option R} {ev : Tls T → K → Option (R × Tls T)} {tls : Tls T} {S : K → Prop}
    (h : ∀ k r, S k → evD k = some r → ev tls k = some (r, tls)) : ∀ (b : Body K R) (r : R), CallsOnly S b → runDirect evD b = some r →
    runBody ev tls b = some (r, tls)
  | .ret r, r', _, hr => by
    simp only [runDirect, Option.some.injEq] at hr
    simp [runBody, hr]
  | .call k cont, r', hS, hr => by
    simp only [runDirect] at hr
    cases hk : evD k with
    | none => simp [hk] at hr
    | some r =>
      simp only [hk] at hr
      simp only [runBody, h k r hS.1 hk]
      exact runBody_direct h (cont r) r' (hS.2 r) hr

/-- A call that ends at depth `n`, made while the calls of the visited tokens would not end at this depth. -/
theorem guarded_direct {token : K → T} {body : K → Body K R} {fail : K → R} {S : K → Prop} (hclosed : ∀ k, S k → CallsOnly S (body k))
    (hinj : ∀ k k', S k → S k' → token k = token k' → k = k') : ∀ (n : Nat) (tls : Tls T) (k : K) (r : R), S k → direct body n k = some r →
    (∀ t ∈ tls.visited, ∃ k0, S k0 ∧ token k0 = t ∧ direct body n k0 = none) → guarded token body fail n tls k = some (r, tls) := by
  intro n
  induction n using Nat.strongRecOn with
  | ind n ih =>
    intro tls k r hS hd hv
    -- the least depth at which the call ends
    obtain ⟨m, hm, hmin⟩ : ∃ m, direct body m k = some r ∧ ∀ j, j < m → direct body j k = none := by
      classical
      have hex : ∃ m, (direct body m k).isSome := ⟨n, by rw [hd]; rfl⟩
      refine ⟨Nat.find hex, ?_, ?_⟩
      · obtain ⟨r', hr'⟩ := Option.isSome_iff_exists.1 (Nat.find_spec hex)
        have : Nat.find hex ≤ n := Nat.find_min' hex (by rw [hd]; rfl)
        have := direct_mono body this hr'
        rw [hd] at this
        cases this
        exact hr'
      · intro j hj
        have := Nat.find_min hex hj
        simpa using this
    have hmn : m ≤ n := by
      by_contra h
      have := hmin n (by omega)
      rw [hd] at this
      cases this
    refine guarded_mono token body fail hmn ?_
    cases m with
    | zero => simp [direct] at hm
    | succ m =>
      have hnone : ∀ k0 j, j ≤ n → direct body n k0 = none → direct body j k0 = none := by
        intro k0 j hj h0
        cases hx : direct body j k0 with
        | none => rfl
        | some x =>
          rw [direct_mono body hj hx] at h0
          cases h0
      have hnot : token k ∉ tls.visited := by
        intro hmem
        obtain ⟨k0, hS0, ht, h0⟩ := hv _ hmem
        have := hinj k0 k hS0 hS ht
        subst this
        rw [hd] at h0
        cases h0
      have hrun : ∀ tls' : Tls T, (∀ t ∈ tls'.visited, ∃ k0, S k0 ∧ token k0 = t ∧ direct body m k0 = none) →
          runBody (guarded token body fail m) tls' (body k) = some (r, tls') := by
        intro tls' hv'
        refine runBody_direct (S := S) (evD := direct body m) ?_ (body k) r (hclosed k hS) hm
        intro k' r' hS' hd'
        exact ih m (by omega) tls' k' r' hS' hd' hv'
      have hle := leave_enter (token k) tls
      simp only [guarded]
      have hout : runBody (guarded token body fail m) (enter (token k) tls).1 (body k) = some (r, (enter (token k) tls).1) := by
        apply hrun
        unfold enter
        dsimp only
        rw [if_neg hnot]
        split
        · intro t ht
          rcases List.mem_cons.1 ht with rfl | ht
          · exact ⟨k, hS, rfl, hmin m (by omega)⟩
          · obtain ⟨k0, hS0, ht, h0⟩ := hv t ht
            exact ⟨k0, hS0, ht, hnone k0 m (by omega) h0⟩
        · intro t ht
          obtain ⟨k0, hS0, ht, h0⟩ := hv t ht
          exact ⟨k0, hS0, ht, hnone k0 m (by omega) h0⟩
      have hok : guardOk (enter (token k) tls).1 (enter (token k) tls).2 = true := by
        unfold enter
        dsimp only
        by_cases h : tls.depth + 1 > ignoreDepth
        · rw [if_pos h, if_neg hnot]
          simp [guardOk]
        · rw [if_neg h]
          simp only [guardOk, Option.isSome_none, Bool.or_false, decide_eq_true_eq]
          omega
      rw [if_pos hok, hout]
      simp only [Option.map_some, hle]

theorem callToken_inj {N A X : Type} {S : Call N A X → Prop} (hS : (∀ name, ¬ S (.getDoc name)) ∨ ∀ name, ¬ S (.getSignature name)) :
    ∀ k k', S k → S k' → callToken k = callToken k' → k = k' := by
  intro k k' hk hk' h
  rcases hS with hS | hS <;> cases k <;> cases k' <;> simp_all [callToken]

/-- **The guard does not report a circular dependency where there is none**: a call that ends without the guard has the same result with it.
The calls of a thread that belong to it are all of a set `S` in which `GetDoc` or `GetSignature` does not occur; these two share their
tokens. -/
theorem guard_sound_partial {N A X : Type} [DecidableEq N] [DecidableEq A] [DecidableEq X] {S : Call N A X → Prop}
    (hS : (∀ name, ¬ S (.getDoc name)) ∨ ∀ name, ¬ S (.getSignature name)) {body : Call N A X → Body (Call N A X) R} {fail : Call N A X → R}
    (hclosed : ∀ k, S k → CallsOnly S (body k)) {k : Call N A X} (hk : S k) {r : R} (h : Terminates body k r) :
    ∃ fuel, guarded callToken body fail fuel ⟨0, []⟩ k = some (r, ⟨0, []⟩) := by
  obtain ⟨n, hn⟩ := h
  exact ⟨n, guarded_direct hclosed (callToken_inj hS) n ⟨0, []⟩ k r hk hn (by simp)⟩

/-! ## Examples -/

/-- Operators `0`, …, `24` ask for the documentation of the next one, and the last one for its own signature. -/
def exBody : Call Nat Unit Unit → Body (Call Nat Unit Unit) (Option Nat)
  | .getDoc n => if n < 24 then .call (.getDoc (n + 1)) .ret else .call (.getSignature n) .ret
  | .getSignature n => .ret (some n)
  | _ => .ret none

/-- `GetDoc` that asks for the signature of the same operator ends, but below `kIgnoreDepth` other calls the guard reports a circular
dependency. -/
theorem guard_counterexample : Terminates exBody (.getDoc 0) (some 24) ∧
    guarded callToken exBody (fun _ => none) 30 ⟨0, []⟩ (.getDoc 0) = some (none, ⟨0, []⟩) :=
  ⟨⟨26, by decide +kernel⟩, by decide +kernel⟩

/-- A chain of forty operators. -/
def exChain : List (Nat × Op Nat Nat) := (List.range 40).map fun i => (i, if i = 39 then .other 7 else .reg (i + 1))

/-- The same chain, closed to a loop. -/
def exLoop : List (Nat × Op Nat Nat) := (List.range 40).map fun i => (i, .reg (if i = 39 then 30 else i + 1))

example : decay exChain (.reg 0) = some (.ok (.other 7)) := by decide +kernel
example : decay exLoop (.reg 0) = some (.error .circular) := by decide +kernel
example : decay (exChain.take 35) (.reg 0) = some (.error .notFound) := by decide +kernel
example : decay exLoop (.reg 50) = some (.error .notFound) := by decide +kernel

/-- A signature through a chain of thirty registered operators, and through a loop. -/
def exSig (last : Nat → Body (Call Nat Unit Unit) (Option Nat)) : Call Nat Unit Unit → Body (Call Nat Unit Unit) (Option Nat)
  | .getSignature n => if n < 30 then .call (.getSignature (n + 1)) .ret else last n
  | _ => .ret none

example : Terminates (exSig fun n => .ret (some n)) (.getSignature 0) (some 30) ∧
    (∀ k : Call Nat Unit Unit, (∃ n, k = .getSignature n) → CallsOnly (fun k => ∃ n, k = .getSignature n) (exSig (fun n => .ret (some n)) k)) := by
  refine ⟨⟨40, by decide +kernel⟩, ?_⟩
  rintro k ⟨n, rfl⟩
  unfold exSig
  dsimp only
  split
  · exact ⟨⟨_, rfl⟩, fun _ => trivial⟩
  · trivial

example : guarded callToken (exSig fun n => .ret (some n)) (fun _ => none) 40 ⟨0, []⟩ (.getSignature 0) = some (some 30, ⟨0, []⟩) := by decide +kernel
example : guarded callToken (exSig fun _ => .call (.getSignature 0) .ret) (fun _ => none) 60 ⟨0, []⟩ (.getSignature 0) = some (none, ⟨0, []⟩) := by decide +kernel

end Verif.Circular
