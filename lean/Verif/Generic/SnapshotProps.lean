import Verif.Generic.SnapshotLemmas

/-!
# Properties of the snapshots of overloads (C93)
-/

namespace Verif.Generic

open Verif.Reg

theorem not_inNs {ns c : Name} (h : ¬ InNs ns c) : (c == ns || under ns c || ns == []) = false := by
  rw [Bool.or_eq_false_iff, Bool.or_eq_false_iff]
  refine ⟨⟨?_, ?_⟩, ?_⟩
  · rw [beq_eq_false_iff_ne]; exact fun e => h (Or.inl e.symm)
  · rw [Bool.eq_false_iff]; exact fun e => h (under_inNs (under_iff.1 e))
  · rw [beq_eq_false_iff_ne]; exact fun e => h (Or.inr (Or.inl e))

/-- If no registration is unlisted, a name with an operator whose change is counted in the revision id is listed. -/
theorem listed_quiet {ns : Name} {s : St} (hx : InvX s) (hq : s.ops.any (unlisted ns) = false) {n : Name} (hn : Under ns n)
    (hu : ¬ Unb ns n s) {x : Nat} (hl : lookup s n = some x) : n ∈ s.listing := by
  by_cases hs : Started n s
  · obtain ⟨pc, h1, h2, h3⟩ := hs
    have hb := hx.busy pc h1
    rw [h2] at hb
    cases pc with
    | reg3 m op c =>
      exfalso
      have hm : m = n := h2
      subst hm
      rw [List.any_eq_false] at hq
      have hq' := hq _ h1
      cases c with
      | none => exact hq' (under_iff.2 hn)
      | some c =>
        by_cases hc : InNs ns c
        · exact hu ⟨_, h1, rfl, by simp [pendAt, hc]⟩
        · apply hq'
          simp only [unlisted, not_inNs hc, under_iff.2 hn]
          rfl
    | unreg3 m c => rw [hb.1] at hl; cases hl
    | _ => cases h3
  · have := listed_calm hx hs
    rw [hl] at this
    exact List.count_pos_iff.1 (by rw [this]; exact Nat.one_pos)

theorem listed_untouched {s : St} (hx : InvX s) {n : Name} (hs : ¬ Started n s) {x : Nat} (hl : lookup s n = some x) : n ∈ s.listing := by
  have := listed_calm hx hs
  rw [hl] at this
  exact List.count_pos_iff.1 (by rw [this]; exact Nat.one_pos)

theorem exact_of_part {isOverload : Nat → Bool} {r : St} {s : Snap} {n : Name} (h : Part isOverload r [] s.overloads n) :
    ExactAt isOverload r s n := by
  intro x
  constructor
  · exact h.only x
  · rintro ⟨h1, h2⟩
    rcases h.all x h1 h2 with h | h
    · cases h
    · exact h

/-- The loop looks at one name. -/
theorem part_step {isOverload : Nat → Bool} {r : St} {m : Name} {names : List Name} {acc acc' : List (Name × Nat)}
    (hacc : acc' = match lookup r m with
      | none => acc
      | some x => if isOverload x then acc ++ [(m, x)] else acc)
    {n : Name} (h : Part isOverload r (m :: names) acc n) : Part isOverload r names acc' n := by
  subst hacc
  constructor
  · intro x hx
    cases hl : lookup r m with
    | none => rw [hl] at hx; exact h.only x hx
    | some y =>
      rw [hl] at hx
      dsimp only at hx
      split at hx
      · next ho =>
        rcases List.mem_append.1 hx with hx | hx
        · exact h.only x hx
        · simp only [List.mem_singleton, Prod.mk.injEq] at hx
          rw [hx.1, hx.2]
          exact ⟨hl, ho⟩
      · exact h.only x hx
  · intro x hx ho
    rcases h.all x hx ho with h1 | h1
    · rcases List.mem_cons.1 h1 with rfl | h1
      · rw [hx]
        simp [ho]
      · exact Or.inl h1
    · right
      cases lookup r m with
      | none => exact h1
      | some y =>
        dsimp only
        split
        · exact List.mem_append_left _ h1
        · exact h1

theorem nodup_step {isOverload : Nat → Bool} {r : St} {m : Name} {names : List Name} {acc acc' : List (Name × Nat)}
    (hacc : acc' = match lookup r m with
      | none => acc
      | some x => if isOverload x then acc ++ [(m, x)] else acc)
    (h : ((m :: names) ++ acc.map (·.1)).Nodup) : (names ++ acc'.map (·.1)).Nodup := by
  subst hacc
  have h0 : (names ++ acc.map (·.1)).Nodup := by
    rw [List.cons_append, List.nodup_cons] at h
    exact h.2
  cases lookup r m with
  | none => exact h0
  | some x =>
    dsimp only
    split
    · rw [List.map_append, ← List.append_assoc]
      have : (m :: (names ++ acc.map (·.1))).Perm ((names ++ acc.map (·.1)) ++ [m]) := (List.perm_append_singleton _ _).symm
      exact this.nodup_iff.1 h
    · exact h0

/-- The effect of a step of a call on the loop. -/
theorem callStep_loop (ns : Name) (isOverload : Nat → Bool) (r : St) (cache : Option Snap) (st : St) (rev : Nat) (m : Name)
    (names : List Name) (acc : List (Name × Nat)) : callStep ns isOverload r cache (.build2 st rev (m :: names) acc) =
      ⟨cache, .inl (.build2 st rev names (match lookup r m with
        | none => acc
        | some x => if isOverload x then acc ++ [(m, x)] else acc))⟩ := by
  simp only [callStep]
  cases lookup r m <;> rfl

theorem gact_go {ns : Name} {isOverload : Nat → Bool} {g : GSt} {k : Nat} {pc pc' : GPc} {cache : Option Snap} (hk : g.calls[k]? = some pc)
    (hq : ¬ (true && pc.isListing && g.reg.ops.any (unlisted ns)) = true)
    (e : callStep ns isOverload g.reg g.cache pc = ⟨cache, .inl pc'⟩) :
    gact ns isOverload true g (.advance k) = some { g with cache, calls := g.calls.set k pc' } := by
  simp only [gact, hk]
  rw [if_neg hq, e]

theorem gact_ret {ns : Name} {isOverload : Nat → Bool} {g : GSt} {k : Nat} {pc : GPc} {s : Snap} {cache : Option Snap} (hk : g.calls[k]? = some pc)
    (hq : ¬ (true && pc.isListing && g.reg.ops.any (unlisted ns)) = true)
    (e : callStep ns isOverload g.reg g.cache pc = ⟨cache, .inr s⟩) :
    gact ns isOverload true g (.advance k) =
      some { g with cache, calls := g.calls.eraseIdx k, rets := (pc.start, s, g.reg) :: g.rets } := by
  simp only [gact, hk]
  rw [if_neg hq, e]

theorem gact_inv {ns : Name} {isOverload : Nat → Bool} {g : GSt} (h : GInv ns isOverload g) (a : GAct) :
    ∃ g', gact ns isOverload true g a = some g' ∧ GInv ns isOverload g' := by
  cases a with
  | reg a =>
    obtain ⟨s', h1, h2, _⟩ := act_inv (excl := true) h.inv a
    have hk := act_keeps h.inv h.invx a h1
    refine ⟨{ g with reg := s' }, by simp only [gact, h1, Option.map_some], h2, act_invx h.inv h.invx h1, ?_, ?_, ?_, h.rets⟩
    · intro c hc
      exact building_keeps hk (h.cache c hc)
    · intro pc hpc
      exact (since_keeps hk (h.since pc hpc)).1
    · intro pc hpc
      have hs := h.since pc hpc
      have hp := h.pcs pc hpc
      cases pc with
      | load st => trivial
      | check st c => exact building_keeps hk hp
      | build0 st => trivial
      | build1 st rev => exact Nat.le_trans hp (hk.rev ns)
      | build2 st rev names acc =>
        refine ⟨building_keeps hk hp.1, ?_⟩
        intro n hn hu
        have hu' := (since_keeps hk hs).2 n hu
        refine part_congr ?_ (hp.2 n hn hu')
        have e1 : stores n s'.log = stores n st.log := hu.2
        have e2 : stores n g.reg.log = stores n st.log := hu'.2
        show lookup s' n = lookup g.reg n
        rw [h2.impl, h.inv.impl, e1, e2]
  | start =>
    refine ⟨_, rfl, h.inv, h.invx, h.cache, ?_, ?_, h.rets⟩
    · intro pc hpc
      rcases List.mem_append.1 hpc with hpc | hpc
      · exact h.since pc hpc
      · rw [List.mem_singleton.1 hpc]
        refine ⟨⟨[], rfl⟩, ?_⟩
        rintro n ⟨h1, _⟩ ⟨p, hp, hpn, _⟩
        exact h1 p hp hpn
    · intro pc hpc
      rcases List.mem_append.1 hpc with hpc | hpc
      · exact h.pcs pc hpc
      · rw [List.mem_singleton.1 hpc]
        trivial
  | advance k =>
    cases hk : g.calls[k]? with
    | none => exact ⟨g, by simp only [gact, hk], h⟩
    | some pc =>
      have hmem := List.mem_of_getElem? hk
      have hs := h.since pc hmem
      have hp := h.pcs pc hmem
      by_cases hq : (true && pc.isListing && g.reg.ops.any (unlisted ns)) = true
      · exact ⟨g, by simp only [gact, hk]; rw [if_pos hq], h⟩
      · -- a call that goes on
        have hgo : ∀ pc' : GPc, pc'.start = pc.start → PcInv ns isOverload g.reg pc' →
            GInv ns isOverload { g with calls := g.calls.set k pc' } := by
          intro pc' h1 h2
          refine ⟨h.inv, h.invx, h.cache, ?_, ?_, h.rets⟩
          · intro p hp
            rcases List.mem_or_eq_of_mem_set hp with hp | rfl
            · exact h.since p hp
            · rw [h1]; exact hs
          · intro p hp
            rcases List.mem_or_eq_of_mem_set hp with hp | rfl
            · exact h.pcs p hp
            · exact h2
        -- a call that returns
        have hret : ∀ (cache : Option Snap) (s : Snap), (∀ c, cache = some c → Building ns isOverload g.reg c.rev [] c.overloads) →
            Fresh ns isOverload pc.start s g.reg →
            GInv ns isOverload { g with cache := cache, calls := g.calls.eraseIdx k, rets := (pc.start, s, g.reg) :: g.rets } := by
          intro cache s h1 h2
          refine ⟨h.inv, h.invx, h1, ?_, ?_, ?_⟩
          · intro p hp
            exact h.since p (List.mem_of_mem_eraseIdx hp)
          · intro p hp
            exact h.pcs p (List.mem_of_mem_eraseIdx hp)
          · intro st s' e hm
            rcases List.mem_cons.1 hm with hm | hm
            · simp only [Prod.mk.injEq] at hm
              obtain ⟨rfl, rfl, rfl⟩ := hm
              exact h2
            · exact h.rets _ _ _ hm
        cases pc with
        | load st =>
          cases hc : g.cache with
          | none =>
            exact ⟨_, gact_go hk hq (cache := g.cache) (pc' := .build0 st) (by simp only [callStep, hc]), hgo _ rfl trivial⟩
          | some c =>
            exact ⟨_, gact_go hk hq (cache := g.cache) (pc' := .check st c) (by simp only [callStep, hc]), hgo _ rfl (h.cache c hc)⟩
        | check st c =>
          by_cases hr : c.rev = revision g.reg ns
          · refine ⟨_, gact_ret hk hq (cache := g.cache) (s := c) (by simp only [callStep, if_pos hr]), hret g.cache c h.cache ⟨by simpa using hp.nodup, ?_⟩⟩
            intro n hn hu
            exact exact_of_part (hp.part n hn hr.symm (fun hb => hs.calm n hu (unb_started hb)))
          · exact ⟨_, gact_go hk hq (cache := g.cache) (pc' := .build0 st) (by simp only [callStep, if_neg hr]), hgo _ rfl trivial⟩
        | build0 st =>
          exact ⟨_, gact_go hk hq rfl, hgo _ rfl (Nat.le_refl _)⟩
        | build1 st rev =>
          have hq' : g.reg.ops.any (unlisted ns) = false := by
            simpa [GPc.isListing] using hq
          refine ⟨_, gact_go hk hq rfl, hgo _ rfl ⟨⟨hp, ?_, ?_⟩, ?_⟩⟩
          · rw [List.map_nil, List.append_nil]
            exact List.Pairwise.filter _ (listing_nodup h.invx)
          · intro n hn _ hu
            refine ⟨fun x hx => (by cases hx), fun x hx _ => Or.inl ?_⟩
            exact List.mem_filter.2 ⟨listed_quiet h.invx hq' hn hu hx, under_iff.2 hn⟩
          · intro n hn hu
            refine ⟨fun x hx => (by cases hx), fun x hx _ => Or.inl ?_⟩
            exact List.mem_filter.2 ⟨listed_untouched h.invx (hs.calm n hu) hx, under_iff.2 hn⟩
        | build2 st rev names acc =>
          cases names with
          | nil =>
            refine ⟨_, gact_ret hk hq rfl, hret (some ⟨rev, acc⟩) ⟨rev, acc⟩ ?_ ⟨by simpa using hp.1.nodup, ?_⟩⟩
            · intro c hc
              obtain rfl := Option.some.inj hc
              exact hp.1
            · intro n hn hu
              exact exact_of_part (s := ⟨rev, acc⟩) (hp.2 n hn hu)
          | cons m names =>
            refine ⟨_, gact_go hk hq (callStep_loop ..), hgo _ rfl ⟨⟨hp.1.le, nodup_step rfl hp.1.nodup, ?_⟩, ?_⟩⟩
            · intro n hn hr hu
              exact part_step rfl (hp.1.part n hn hr hu)
            · intro n hn hu
              exact part_step rfl (hp.2 n hn hu)

theorem ginv_init (ns : Name) (isOverload : Nat → Bool) : GInv ns isOverload GSt.init :=
  ⟨inv_init, invx_init, fun _ h => (by cases h), fun _ h => (by cases h), fun _ h => (by cases h), fun _ _ _ h => (by cases h)⟩

theorem grun_inv {ns : Name} {isOverload : Nat → Bool} : ∀ (acts : List GAct) {g : GSt}, GInv ns isOverload g →
    ∃ g', grun ns isOverload true g acts = some g' ∧ GInv ns isOverload g'
  | [], g, h => ⟨g, rfl, h⟩
  | a :: as, g, h => by
    obtain ⟨g1, h1, h2⟩ := gact_inv h a
    obtain ⟨g2, h3, h4⟩ := grun_inv as h2
    exact ⟨g2, by simp only [grun, h1, Option.bind_eq_bind, Option.bind_some, h3], h4⟩

/-- **C93**, when no call lists the names while a registration has incremented the revision id of the namespace and not yet listed its
name.  A call of `GetSnapshot` returns exactly the overloads in the namespace, of all names that no call of the registry changed while it
was running.  Missing: calls that list the names at such a moment, for which it is false. -/
theorem snapshot_fresh_partial (ns : Name) (isOverload : Nat → Bool) : AlwaysFresh ns isOverload true := by
  intro acts g hg st s e hm
  obtain ⟨g', h1, h2⟩ := grun_inv acts (ginv_init ns isOverload)
  rw [hg] at h1
  obtain rfl := Option.some.inj h1
  exact h2.rets st s e hm

/-- Every schedule runs. -/
theorem snapshot_runs (ns : Name) (isOverload : Nat → Bool) (acts : List GAct) :
    ∃ g, grun ns isOverload true GSt.init acts = some g := by
  obtain ⟨g, h, _⟩ := grun_inv acts (ginv_init ns isOverload)
  exact ⟨g, h⟩

/-- `f.a` is registered up to the increments; a call builds a snapshot; the registration ends; a second call. -/
def raceActs : List GAct := .reg (.startRegister [102, 46, 97] 7) :: List.replicate 6 (.reg (.advance 0)) ++
  (.start :: List.replicate 4 (.advance 0)) ++ [.reg (.advance 0)] ++ (.start :: List.replicate 2 (.advance 0))

/-- The claim C93 is false: after the registration of an overload has returned, and with nothing else going on, `GetSnapshot` returns a
snapshot without it, because another call listed the names after the registration had incremented the revision id and before it
listed the name. -/
theorem snapshot_race_counterexample : ¬ AlwaysFresh [102] (fun _ => true) false := by
  intro h
  have key : ∃ g, grun [102] (fun _ => true) false GSt.init raceActs = some g ∧ ∃ st s e rest, g.rets = (st, s, e) :: rest ∧
      st.ops.length = 0 ∧ st.log = [.regOk [102, 46, 97] 7, .stored [102, 46, 97] (some 7)] ∧ e.log = st.log ∧ s.overloads = [] ∧
      lookup e [102, 46, 97] = some 7 := by
    refine ⟨_, rfl, _, _, _, _, rfl, ?_⟩
    decide +kernel
  obtain ⟨g, hg, st, s, e, rest, hr, h1, h2, h3, h4, h5⟩ := key
  obtain ⟨_, hf⟩ := h raceActs g hg st s e (by rw [hr]; exact List.mem_cons_self)
  have := (hf [102, 46, 97] ⟨[97], rfl⟩ ⟨by rw [List.length_eq_zero_iff.1 h1]; simp, by rw [h3]⟩ 7).2 ⟨h5, rfl⟩
  rw [h4] at this
  cases this

/-- With the same actions, the listing of the first call has to wait, and both calls return the overload. -/
example : ((grun [102] (fun _ => true) true GSt.init (raceActs ++ List.replicate 3 (.advance 0))).map
    fun g => g.rets.map fun r => r.2.1.overloads) = some [[([102, 46, 97], 7)], [([102, 46, 97], 7)]] := by decide +kernel

end Verif.Generic
