import Verif.Reg.RegRun

/-!
# Properties of the operator registry (C33, C34)

All theorems are about every interleaving of any number of `Register`, `UnsafeUnregister` and acquire calls on any
names, starting from an empty registry, unless the statement says that calls on one name do not overlap (`true`).
-/

namespace Verif.Reg

/-- Every schedule runs to a state: no record pointer is ever dangling and the loop over parents ends. -/
theorem registry_safe (excl : Bool) (acts : List Act) : ∃ s, runFrom excl St.init acts = some s := by
  obtain ⟨s, h, _⟩ := run_inv (excl := excl) acts inv_init
  exact ⟨s, h⟩

/-- A lookup sees the latest change of the name and nothing else. -/
theorem lookup_latest {excl : Bool} {s : St} (h : Reachable excl s) (n : Name) :
    lookup s n = (stores n s.log).head?.join := (reach_inv h).impl n

/-- C34.  Between two moments at which no call is in progress, the revision id of `m` grows by the number of changes of
operators in the namespace `m`. -/
theorem revision_counts {excl : Bool} {s1 s2 : St} (h : Reachable excl s1) (hl : Later excl s1 s2)
    (hq1 : s1.ops = []) (hq2 : s2.ops = []) : ∃ new, s2.log = new ++ s1.log ∧
      ∀ m, revision s2 m = revision s1 m + storesIn m new := by
  have hi := reach_inv h
  obtain ⟨hi2, new, hnew⟩ := later_inv hi hl
  refine ⟨new, hnew, fun m => ?_⟩
  have h1 := hi.rev m
  have h2 := hi2.rev m
  rw [hq1] at h1
  rw [hq2, hnew, storesIn_append] at h2
  simp only [List.map_nil, List.sum_nil] at h1 h2
  omega

/-- C34.  If the revision id of `m` did not change between two such moments, every operator in the namespace is what
it was. -/
theorem revision_unchanged {excl : Bool} {s1 s2 : St} (h : Reachable excl s1) (hl : Later excl s1 s2)
    (hq1 : s1.ops = []) (hq2 : s2.ops = []) {m : Name} (hr : revision s2 m = revision s1 m) :
    ∀ n, InNs m n → lookup s2 n = lookup s1 n := by
  intro n hn
  have hi := reach_inv h
  obtain ⟨hi2, _⟩ := later_inv hi hl
  obtain ⟨new, hnew, hrev⟩ := revision_counts h hl hq1 hq2
  have h1 := hrev m
  have h2 := stores_le hn new
  rw [hi2.impl, hi.impl, hnew, stores_append]
  have : stores n new = [] := List.length_eq_zero_iff.1 (by omega)
  rw [this]
  rfl

/-- C34.  Also while calls are in progress, a change of a lookup between any two moments shows: the revision id of the
namespace together with the increments which running calls still owe has grown. -/
theorem revision_owed {excl : Bool} {s1 s2 : St} (h : Reachable excl s1) (hl : Later excl s1 s2) {m n : Name}
    (hn : InNs m n) (hne : lookup s2 n ≠ lookup s1 n) :
    revision s1 m + (s1.ops.map (pendAt m)).sum < revision s2 m + (s2.ops.map (pendAt m)).sum := by
  have hi := reach_inv h
  obtain ⟨hi2, new, hnew⟩ := later_inv hi hl
  rw [hi.rev, hi2.rev, hnew, storesIn_append]
  rw [hi2.impl, hi.impl, hnew, stores_append] at hne
  have h2 := stores_le hn new
  cases hs : stores n new with
  | nil => rw [hs] at hne; exact absurd rfl hne
  | cons x xs => rw [hs] at h2; simp only [List.length_cons] at h2; omega

/-! ## Calls running alone -/

theorem reach_of (excl : Bool) (acts : List Act) : Reachable excl ((runFrom excl St.init acts).getD St.init) := by
  obtain ⟨s, h⟩ := registry_safe excl acts
  exact ⟨acts, by rw [h]; rfl⟩

theorem reach_later {excl : Bool} {s s' : St} (h : Reachable excl s) (hl : Later excl s s') : Reachable excl s' := by
  obtain ⟨a, h⟩ := h
  obtain ⟨b, hl⟩ := hl
  exact ⟨a ++ b, by rw [runFrom_append, h]; exact hl⟩

/-- `k` steps of the only call. -/
def solo (excl : Bool) (k : Nat) (s : St) : Option St := runFrom excl s (List.replicate k (.advance 0))

theorem solo_succ {excl : Bool} (k : Nat) (s : St) : solo excl (k + 1) s =
    (advance s 0).bind (fun t => solo excl k t) := by
  unfold solo
  rw [List.replicate_succ, runFrom]
  rfl

theorem advance_one {s : St} {pc : Pc} {out : Out} (h : s.ops = [pc]) (hs : stepPc s pc = some out) :
    advance s 0 = some { out.st with ops := out.pc.toList } := by
  unfold advance
  rw [h]
  simp only [List.getElem?_cons_zero]
  rw [hs]
  obtain ⟨st, o⟩ := out
  cases o <;> rfl

theorem solo_bumps {excl : Bool} (mk : Option Name → Pc)
    (hmk : ∀ s c, stepPc s (mk (some c)) = (bump s c).bind (fun x => some ⟨x.1, some (mk x.2)⟩))
    (hpend : ∀ m x, pendAt m (mk (some x)) = if InNs m x then 1 else 0)
    (hpend0 : ∀ m, pendAt m (mk none) = 0) (hpc : ∀ r y, PcOk r (mk y) → ∀ x, y = some x → (r x).isSome)
    (hpc' : ∀ (r r' : Recs) y z, PcOk r (mk y) → (∀ n, (r n).isSome → (r' n).isSome) →
      (∀ x, z = some x → (r' x).isSome) → PcOk r' (mk z))
    (hok : ∀ m op y z, pendOk m op (mk y) = pendOk m op (mk z)) :
    ∀ (d : Nat) (s : St) (c : Name), c.length ≤ d → Inv s → s.ops = [mk (some c)] →
      ∃ k s', solo excl k s = some s' ∧ s'.ops = [mk none] ∧ s'.log = s.log ∧ s'.listing = s.listing := by
  intro d
  induction d with
  | zero =>
    intro s c hc hi hops
    have hp := hi.pcs (mk (some c)) (by rw [hops]; simp)
    obtain ⟨s', p, h1, h2, h3, h4, h5⟩ := stepOk_bump (s := s) (c := c) (mk := mk) hi.tree (hpc _ _ hp c rfl) hpend hpend0
      (fun r y h3 h4 => hpc' _ r _ y hp h3 h4) hok
    have hs : stepPc s (mk (some c)) = some ⟨s', some (mk p)⟩ := by rw [hmk, h1]; rfl
    have hp0 : p = none := by
      cases p with
      | none => rfl
      | some q => have := (h5 q rfl).1; omega
    subst hp0
    refine ⟨1, { s' with ops := [mk none] }, ?_, rfl, h3, h4⟩
    rw [solo_succ, advance_one hops hs]
    rfl
  | succ d ih =>
    intro s c hc hi hops
    have hp := hi.pcs (mk (some c)) (by rw [hops]; simp)
    obtain ⟨s', p, h1, h2, h3, h4, h5⟩ := stepOk_bump (s := s) (c := c) (mk := mk) hi.tree (hpc _ _ hp c rfl) hpend hpend0
      (fun r y h3 h4 => hpc' _ r _ y hp h3 h4) hok
    have hs : stepPc s (mk (some c)) = some ⟨s', some (mk p)⟩ := by rw [hmk, h1]; rfl
    have hadv := advance_one hops hs
    have hi' := (advance_inv hi hadv).1
    cases p with
    | none =>
      refine ⟨1, { s' with ops := [mk none] }, ?_, rfl, h3, h4⟩
      rw [solo_succ, hadv]
      rfl
    | some q =>
      obtain ⟨k, t, k1, k2, k3, k4⟩ := ih { s' with ops := [mk (some q)] } q (by have := (h5 q rfl).1; omega) hi' rfl
      refine ⟨k + 1, t, ?_, k2, k3.trans h3, k4.trans h4⟩
      rw [solo_succ, hadv]
      exact k1

theorem solo_add {excl : Bool} {j k : Nat} {s t u : St} (h1 : solo excl j s = some t) (h2 : solo excl k t = some u) :
    solo excl (j + k) s = some u := by
  unfold solo at *
  rw [← List.replicate_append_replicate, runFrom_append, h1]
  exact h2

theorem solo_inv {excl : Bool} {k : Nat} {s t : St} (hi : Inv s) (h : solo excl k s = some t) : Inv t :=
  (later_inv hi ⟨_, h⟩).1

theorem solo_one {excl : Bool} {s : St} {pc : Pc} {out : Out} (h : s.ops = [pc]) (hs : stepPc s pc = some out) :
    solo excl 1 s = some { out.st with ops := out.pc.toList } := by
  rw [solo_succ, advance_one h hs]
  rfl

/-- What remains to do after the store of `Register`. -/
theorem solo_reg2 {excl : Bool} {s : St} {n : Name} {op : Nat} (hi : Inv s) (hops : s.ops = [.reg2 n op]) :
    ∃ k s', solo excl k s = some s' ∧ s'.ops = [] ∧ s'.log = .regOk n op :: .stored n (some op) :: s.log ∧
      s'.listing = s.listing ++ [n] := by
  have hp := hi.pcs (.reg2 n op) (by rw [hops]; simp)
  obtain ⟨s1, h1, h2, h3, h4⟩ := stepOk_store (x := some op) (pc := .reg2 n op) (pc' := .reg3 n op (some n)) hi.tree hp
      (fun m => rfl) (fun m => rfl) (fun r hr => ⟨hr, fun x hx => by rw [← Option.some.inj hx]; exact hr⟩)
      (fun m x => by simp [pendOk, eq_comm]) (fun _ _ => rfl)
  have hs1 : stepPc s (.reg2 n op) = some ⟨s1, some (.reg3 n op (some n))⟩ := by rw [stepPc, h1]; rfl
  have r1 := solo_one (excl := excl) hops hs1
  have i1 := solo_inv hi r1
  obtain ⟨k, t, k1, k2, k3, k4⟩ := solo_bumps (excl := excl) (fun y => .reg3 n op y) (fun _ _ => rfl) (fun _ _ => rfl)
    (fun _ => rfl) (fun r y h => h.2) (fun r r' y z h h' h'' => ⟨h' _ h.1, h''⟩) (fun _ _ _ _ => rfl) n.length _ n
    (Nat.le_refl _) i1 rfl
  have hs2 : stepPc t (.reg3 n op none) =
      some ⟨{ t with listing := t.listing ++ [n], log := .regOk n op :: t.log }, none⟩ := by rw [stepPc]
  have r2 := solo_one (excl := excl) k2 hs2
  refine ⟨1 + k + 1, _, solo_add (solo_add r1 k1) r2, rfl, ?_, ?_⟩
  · dsimp only
    rw [k3]
    dsimp only
    rw [h3]
  · dsimp only
    rw [k4]
    dsimp only
    rw [h4]

theorem solo_unreg2 {excl : Bool} {s : St} {n : Name} (hi : Inv s) (hops : s.ops = [.unreg2 n]) :
    ∃ k s', solo excl k s = some s' ∧ s'.ops = [] ∧ s'.log = .unregRet n :: .stored n none :: s.log ∧
      s'.listing = s.listing.filter (fun m => m ≠ n) := by
  have hp := hi.pcs (.unreg2 n) (by rw [hops]; simp)
  obtain ⟨s1, h1, h2, h3, h4⟩ := stepOk_store (x := none) (pc := .unreg2 n) (pc' := .unreg3 n (some n)) hi.tree hp
      (fun m => rfl) (fun m => rfl) (fun r hr => ⟨hr, fun x hx => by rw [← Option.some.inj hx]; exact hr⟩)
      (fun m x => by simp [pendOk]) (fun _ _ => rfl)
  have hs1 : stepPc s (.unreg2 n) = some ⟨s1, some (.unreg3 n (some n))⟩ := by rw [stepPc, h1]; rfl
  have r1 := solo_one (excl := excl) hops hs1
  have i1 := solo_inv hi r1
  obtain ⟨k, t, k1, k2, k3, k4⟩ := solo_bumps (excl := excl) (fun y => .unreg3 n y) (fun _ _ => rfl) (fun _ _ => rfl)
    (fun _ => rfl) (fun r y h => h.2) (fun r r' y z h h' h'' => ⟨h' _ h.1, h''⟩) (fun _ _ _ _ => rfl) n.length _ n
    (Nat.le_refl _) i1 rfl
  have hs2 : stepPc t (.unreg3 n none) = some ⟨{ t with
      listing := t.listing.filter (fun m => m ≠ n), log := .unregRet n :: t.log }, none⟩ := by rw [stepPc]
  have r2 := solo_one (excl := excl) k2 hs2
  refine ⟨1 + k + 1, _, solo_add (solo_add r1 k1) r2, rfl, ?_, ?_⟩
  · dsimp only
    rw [k3]
    dsimp only
    rw [h3]
  · dsimp only
    rw [k4]
    dsimp only
    rw [h4]

/-- The effect of a call given by its events. -/
theorem effect {excl : Bool} {s s' : St} {new : List Event} (hi : Inv s) (hi' : Inv s') (hq : s.ops = []) (hq' : s'.ops = [])
    (hlog : s'.log = new ++ s.log) : (∀ m, revision s' m = revision s m + storesIn m new) ∧
      ∀ n, lookup s' n = ((stores n new) ++ stores n s.log).head?.join := by
  refine ⟨fun m => ?_, fun n => ?_⟩
  · have h1 := hi.rev m
    have h2 := hi'.rev m
    rw [hq] at h1
    rw [hq', hlog, storesIn_append] at h2
    simp only [List.map_nil, List.sum_nil] at h1 h2
    omega
  · rw [hi'.impl, hlog, stores_append]

/-- C33/C34.  `Register` running alone returns after finitely many steps: an invalid name and a name with an operator
are refused without any visible change; otherwise the operator is found under the name, nothing else changes, the
revision ids of exactly the name and its namespaces grow by one, and the name is listed last. -/
theorem register_sequential {excl : Bool} {s : St} (h : Reachable excl s) (hq : s.ops = []) (n : Name) (op : Nat) :
    ∃ k s' e, runFrom excl s (.startRegister n op :: List.replicate k (.advance 0)) = some s' ∧ s'.ops = [] ∧
      (e = if !Str.isQualified n then Event.regInvalid n
        else if (lookup s n).isSome then .regExists n else .regOk n op) ∧
      s'.log.head? = some e ∧
      (∀ m, lookup s' m = if e = .regOk n op ∧ m = n then some op else lookup s m) ∧
      (∀ m, revision s' m = revision s m + if e = .regOk n op ∧ InNs m n then 1 else 0) ∧
      s'.listing = if e = .regOk n op then s.listing ++ [n] else s.listing := by
  have hi := reach_inv h
  have hstart : act excl s (.startRegister n op) = some { s with ops := [.reg0 n op] } := by
    rw [act, hq]
    simp
  have hi0 : Inv { s with ops := [.reg0 n op] } := by
    obtain ⟨t, h1, h2, _⟩ := act_inv (excl := excl) hi (.startRegister n op)
    rw [hstart] at h1
    rw [Option.some.inj h1]
    exact h2
  have hrun : ∀ k s', solo excl k { s with ops := [.reg0 n op] } = some s' →
      runFrom excl s (.startRegister n op :: List.replicate k (.advance 0)) = some s' := by
    intro k s' hs
    rw [runFrom, hstart]
    exact hs
  by_cases hn : (!Str.isQualified n) = true
  · have hs0 : stepPc { s with ops := [.reg0 n op] } (.reg0 n op) =
        some ⟨{ s with ops := [.reg0 n op], log := .regInvalid n :: s.log }, none⟩ := by rw [stepPc, if_pos hn]
    have r0 := solo_one (excl := excl) rfl hs0
    refine ⟨1, _, _, hrun _ _ r0, rfl, rfl, ?_, ?_, ?_, ?_⟩
    · rw [if_pos hn]; rfl
    · rw [if_pos hn]; intro m; simp [lookup]
    · rw [if_pos hn]; intro m; simp [revision]
    · rw [if_pos hn]; simp
  · obtain ⟨r', res, h1, h2, h3, h4⟩ := lookupOrCreate_spec hi.tree n
    obtain ⟨h5, h6⟩ := h4 (by simpa using hn)
    subst h5
    have hs0 : stepPc { s with ops := [.reg0 n op] } (.reg0 n op) =
        some ⟨{ s with ops := [.reg0 n op], recs := r' }, some (.reg1 n op)⟩ := by
      rw [stepPc, if_neg hn]
      dsimp only
      rw [h1]
      rfl
    have r0 := solo_one (excl := excl) rfl hs0
    have i0 := solo_inv hi0 r0
    obtain ⟨r, hr⟩ := Option.isSome_iff_exists.1 h6
    have hlk : ∀ m, (r' m).bind (·.impl) = lookup s m := fun m => ext_lookup h3 m
    have himpl : r.impl = lookup s n := by rw [← hlk, hr]; rfl
    by_cases hb : (lookup s n).isSome
    · have hs1 : stepPc { s with ops := [.reg1 n op], recs := r' } (.reg1 n op) =
          some ⟨{ s with ops := [.reg1 n op], recs := r', log := .regExists n :: s.log }, none⟩ := by
        rw [stepPc]
        simp only [Option.bind_eq_bind, hr, Option.bind_some]
        rw [if_pos (by rw [himpl]; exact hb)]
      have r1 := solo_one (excl := excl) rfl hs1
      refine ⟨1 + 1, _, _, hrun _ _ (solo_add r0 r1), rfl, rfl, ?_, ?_, ?_, ?_⟩
      · rw [if_neg hn, if_pos hb]; rfl
      · rw [if_neg hn, if_pos hb]; intro m; simpa [lookup] using hlk m
      · rw [if_neg hn, if_pos hb]; intro m
        simpa [revision] using ext_rev h3 m
      · rw [if_neg hn, if_pos hb]; simp
    · have hs1 : stepPc { s with ops := [.reg1 n op], recs := r' } (.reg1 n op) =
          some ⟨{ s with ops := [.reg1 n op], recs := r' }, some (.reg2 n op)⟩ := by
        rw [stepPc]
        simp only [Option.bind_eq_bind, hr, Option.bind_some]
        rw [if_neg (by rw [himpl]; exact hb)]
      have r1 := solo_one (excl := excl) rfl hs1
      have i1 := solo_inv i0 r1
      obtain ⟨k, t, k1, k2, k3, k4⟩ := solo_reg2 (excl := excl) (n := n) (op := op) i1 rfl
      have it := solo_inv i1 k1
      have hrest := effect (excl := excl) (new := [.regOk n op, .stored n (some op)]) hi it hq k2 k3
      refine ⟨1 + 1 + k, t, _, hrun _ _ (solo_add (solo_add r0 r1) k1), k2, rfl, ?_, ?_, ?_, ?_⟩
      · rw [if_neg hn, if_neg hb, k3]; rfl
      · rw [if_neg hn, if_neg hb]
        intro m
        rw [hrest.2 m]
        by_cases hm : m = n
        · rw [if_pos ⟨rfl, hm⟩, hm]; simp [stores]
        · rw [if_neg (fun h => hm h.2), hi.impl]
          have : stores m [.regOk n op, .stored n (some op)] = [] := by
            rw [stores, stores, if_neg (fun h => hm h.symm)]
            · rfl
            · simp
          rw [this]; rfl
      · rw [if_neg hn, if_neg hb]
        intro m
        rw [hrest.1 m]
        simp [storesIn]
      · rw [if_neg hn, if_neg hb, if_pos rfl, k4]

/-- C33/C34.  `UnsafeUnregister` running alone: without an operator nothing changes; otherwise the operator is gone,
nothing else changes, the revision ids of exactly the name and its namespaces grow by one, and the name is not listed. -/
theorem unregister_sequential {excl : Bool} {s : St} (h : Reachable excl s) (hq : s.ops = []) (n : Name) :
    ∃ k s', runFrom excl s (.startUnregister n :: List.replicate k (.advance 0)) = some s' ∧ s'.ops = [] ∧
      s'.log.head? = some (.unregRet n) ∧
      (∀ m, lookup s' m = if m = n then none else lookup s m) ∧
      (∀ m, revision s' m = revision s m + if (lookup s n).isSome ∧ InNs m n then 1 else 0) ∧
      s'.listing = if (lookup s n).isSome then s.listing.filter (fun m => m ≠ n) else s.listing := by
  have hi := reach_inv h
  have hstart : act excl s (.startUnregister n) = some { s with ops := [.unreg0 n] } := by
    rw [act, hq]
    simp
  have hi0 : Inv { s with ops := [.unreg0 n] } := by
    obtain ⟨t, h1, h2, _⟩ := act_inv (excl := excl) hi (.startUnregister n)
    rw [hstart] at h1
    rw [Option.some.inj h1]
    exact h2
  have hrun : ∀ k s', solo excl k { s with ops := [.unreg0 n] } = some s' →
      runFrom excl s (.startUnregister n :: List.replicate k (.advance 0)) = some s' := by
    intro k s' hs
    rw [runFrom, hstart]
    exact hs
  by_cases hrec : (s.recs n).isSome
  · obtain ⟨r, hr⟩ := Option.isSome_iff_exists.1 hrec
    have himpl : lookup s n = r.impl := by rw [lookup, hr]; rfl
    have hs0 : stepPc { s with ops := [.unreg0 n] } (.unreg0 n) =
        some ⟨{ s with ops := [.unreg0 n] }, some (.unreg1 n)⟩ := by
      rw [stepPc, if_pos hrec]
    have r0 := solo_one (excl := excl) rfl hs0
    have i0 := solo_inv hi0 r0
    by_cases hb : (lookup s n).isSome
    · have hs1 : stepPc { s with ops := [.unreg1 n] } (.unreg1 n) =
          some ⟨{ s with ops := [.unreg1 n] }, some (.unreg2 n)⟩ := by
        rw [stepPc]
        simp only [Option.bind_eq_bind, hr, Option.bind_some]
        rw [if_pos (by rw [← himpl]; exact hb)]
      have r1 := solo_one (excl := excl) rfl hs1
      have i1 := solo_inv i0 r1
      obtain ⟨k, t, k1, k2, k3, k4⟩ := solo_unreg2 (excl := excl) (n := n) i1 rfl
      have it := solo_inv i1 k1
      have hrest := effect (excl := excl) (new := [.unregRet n, .stored n none]) hi it hq k2 k3
      refine ⟨1 + 1 + k, t, hrun _ _ (solo_add (solo_add r0 r1) k1), k2, ?_, ?_, ?_, ?_⟩
      · rw [k3]; rfl
      · intro m
        rw [hrest.2 m]
        by_cases hm : m = n
        · rw [if_pos hm, hm]; simp [stores]
        · rw [if_neg hm, hi.impl]
          have : stores m [.unregRet n, .stored n none] = [] := by
            rw [stores, stores, if_neg (fun h => hm h.symm)]
            · rfl
            · simp
          rw [this]; rfl
      · intro m
        rw [hrest.1 m]
        simp [storesIn, hb]
      · rw [if_pos hb, k4]
    · have hs1 : stepPc { s with ops := [.unreg1 n] } (.unreg1 n) =
          some ⟨{ s with ops := [.unreg1 n], log := .unregRet n :: s.log }, none⟩ := by
        rw [stepPc]
        simp only [Option.bind_eq_bind, hr, Option.bind_some]
        rw [if_neg (by rw [← himpl]; exact hb)]
      have r1 := solo_one (excl := excl) rfl hs1
      refine ⟨1 + 1, _, hrun _ _ (solo_add r0 r1), rfl, rfl, ?_, ?_, ?_⟩
      · intro m
        by_cases hm : m = n
        · rw [if_pos hm, hm]
          simpa [lookup] using hb
        · rw [if_neg hm]; rfl
      · intro m; simp [hb, revision]
      · rw [if_neg hb]
  · have hs0 : stepPc { s with ops := [.unreg0 n] } (.unreg0 n) =
        some ⟨{ s with ops := [.unreg0 n], log := .unregRet n :: s.log }, none⟩ := by
      rw [stepPc, if_neg hrec]
    have r0 := solo_one (excl := excl) rfl hs0
    have hb : lookup s n = none := by
      rw [lookup]
      rw [Option.not_isSome_iff_eq_none.1 hrec]
      rfl
    refine ⟨1, _, hrun _ _ r0, rfl, rfl, ?_, ?_, ?_⟩
    · intro m
      by_cases hm : m = n
      · rw [if_pos hm, hm]; exact hb
      · rw [if_neg hm]; rfl
    · intro m; simp [hb, revision]
    · rw [hb]; simp

/-! ## One operator per name -/

/-- The full claim of C33: of the calls registering one name at most one succeeds, unless the name is unregistered. -/
def UniqueRegistration (excl : Bool) : Prop := ∀ s, Reachable excl s → ∀ n, Event.stored n none ∉ s.log →
  ∀ a b, Event.regOk n a ∈ s.log → Event.regOk n b ∈ s.log → a = b ∧ s.log.count (.regOk n a) = 1 ∧ lookup s n = some a

/-- C33 is false for overlapping calls: both registrations of one name succeed, the later store wins and the name is
listed twice. -/
theorem register_race_counterexample : ¬UniqueRegistration false := by
  intro h
  have hr := reach_of false [.startRegister [97] 1, .startRegister [97] 2, .advance 0, .advance 1,
      .advance 0, .advance 1, .advance 0, .advance 0, .advance 0, .advance 0, .advance 0, .advance 0, .advance 0,
      .advance 0]
  have := (h _ hr [97] (by decide +kernel) 1 2 (by decide +kernel) (by decide +kernel)).1
  omega

theorem alt_all_some : ∀ {l : List (Option Nat)}, Alternating l → none ∉ l → l.length ≤ 1
  | [], _, _ => by simp
  | [_], _, _ => by simp
  | x :: y :: l, h, hn => by
    exfalso
    have h1 := h.1
    simp only [List.head?_cons, Option.join_some] at h1
    have hx : x.isSome := by
      cases x with
      | some _ => rfl
      | none => simp at hn
    have hy : y.isSome := by
      cases y with
      | some _ => rfl
      | none => simp at hn
    rw [hx, hy] at h1
    exact h1 rfl

/-- C33 when calls on one name do not overlap.  Missing: overlapping calls, for which it is false. -/
theorem register_unique_partial : UniqueRegistration true := by
  intro s h n hun a b ha hb
  have hi := reach_inv h
  have hx := reach_invx h
  have hlen := alt_all_some (hx.alt n) (fun hm => hun (stores_mem.1 hm))
  have hst : ∀ x, Event.regOk n x ∈ s.log → some x ∈ stores n s.log ∧ s.log.count (.regOk n x) ≤ (stores n s.log).count (some x) := by
    intro x hx
    have h1 := hi.ok n x
    have h2 := List.count_pos_iff.2 hx
    have h3 := stores_count n x s.log
    exact ⟨List.count_pos_iff.1 (by omega), by omega⟩
  obtain ⟨a1, a2⟩ := hst a ha
  obtain ⟨b1, _⟩ := hst b hb
  have : stores n s.log = [some a] := by
    cases hs : stores n s.log with
    | nil => rw [hs] at a1; simp at a1
    | cons x l =>
      rw [hs] at hlen a1
      have : l = [] := by simpa using hlen
      subst this
      rw [List.mem_singleton.1 a1]
  rw [this] at a2 b1
  refine ⟨by simpa [eq_comm] using b1, ?_, by rw [hi.impl, this]; rfl⟩
  have := List.count_pos_iff.2 ha
  simp at a2
  omega

/-- C33.  When calls on one name do not overlap, every change of a name puts an operator where none was or removes the
one which was there. -/
theorem changes_alternate {s : St} (h : Reachable true s) (n : Name) : Alternating (stores n s.log) :=
  (reach_invx h).alt n

/-- C33.  When calls on one name do not overlap, a name with no call in progress is listed once if it has an operator
and not at all otherwise. -/
theorem listing_exact {s : St} (h : Reachable true s) (n : Name) (hn : ∀ pc ∈ s.ops, pc.name ≠ n) :
    s.listing.count n = if (lookup s n).isSome then 1 else 0 := by
  rw [(reach_invx h).idle n hn]
  cases lookup s n <;> rfl

/-! ## Concrete cases -/

/-- `math.add` registered while `core` (an operator) is registered too, both interleaved with an acquire. -/
def sample : St := (runFrom true St.init ([.startRegister [109, 46, 97] 1, .acquire [109], .startRegister [99] 2,
  .advance 1, .advance 0, .advance 1, .advance 0, .startRegister [99] 3] ++ List.replicate 12 (.advance 0))).getD St.init

example : Reachable true sample := reach_of _ _
example : sample.ops.length = 0 ∧ lookup sample [109, 46, 97] = some 1 ∧ lookup sample [99] = some 2 ∧
    lookup sample [109] = none ∧ revision sample [] = 2 ∧ revision sample [109] = 1 ∧ revision sample [99] = 1 ∧
    revision sample [109, 46, 97] = 1 ∧ sample.listing = [[109, 46, 97], [99]] := by decide +kernel
example : InNs [109] [109, 46, 97] ∧ ¬InNs [109] [109, 97] ∧ ¬InNs [109, 46] [109, 46, 97] := by decide
example : Event.regOk [109, 46, 97] 1 ∈ sample.log ∧ Event.stored [109, 46, 97] none ∉ sample.log := by decide +kernel

end Verif.Reg
