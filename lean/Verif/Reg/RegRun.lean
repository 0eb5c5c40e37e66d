import Verif.Reg.RegLemmas

namespace Verif.Reg

theorem advance_cases {s s' : St} {k : Nat} (h : advance s k = some s') :
    s' = s ∨ ∃ A pc B out, s.ops = A ++ pc :: B ∧ stepPc s pc = some out ∧ k = A.length ∧
      s' = { out.st with ops := A ++ (out.pc.toList ++ B) } := by
  unfold advance at h
  cases hk : s.ops[k]? with
  | none => rw [hk] at h; exact Or.inl (Option.some.inj h).symm
  | some pc =>
    rw [hk] at h
    dsimp only at h
    obtain ⟨hlt, hget⟩ := List.getElem?_eq_some_iff.1 hk
    have hsplit : s.ops = s.ops.take k ++ pc :: s.ops.drop (k + 1) := by
      rw [← hget, ← List.drop_eq_getElem_cons hlt, List.take_append_drop]
    have hlen : k = (s.ops.take k).length := by rw [List.length_take]; omega
    cases hs : stepPc s pc with
    | none => rw [hs] at h; cases h
    | some out =>
      rw [hs] at h
      refine Or.inr ⟨s.ops.take k, pc, s.ops.drop (k + 1), out, hsplit, hs, hlen, ?_⟩
      obtain ⟨st, opc⟩ := out
      cases opc with
      | some pc' =>
        dsimp only at h
        rw [← Option.some.inj h, List.set_eq_take_append_cons_drop, if_pos hlt]
        rfl
      | none =>
        dsimp only at h
        rw [← Option.some.inj h, List.eraseIdx_eq_take_drop_succ]
        rfl

theorem advance_some {s : St} (h : Inv s) (k : Nat) : ∃ s', advance s k = some s' := by
  unfold advance
  cases hk : s.ops[k]? with
  | none => exact ⟨_, rfl⟩
  | some pc =>
    dsimp only
    obtain ⟨⟨st, opc⟩, ho, _⟩ := stepPc_ok h.tree (h.pcs pc (List.mem_of_getElem? hk))
    rw [ho]
    cases opc with
    | none => exact ⟨_, rfl⟩
    | some p => exact ⟨_, rfl⟩

theorem revision_ops (s : St) (o : List Pc) (m : Name) : revision { s with ops := o } m = revision s m := rfl

theorem lookup_ops (s : St) (o : List Pc) (m : Name) : lookup { s with ops := o } m = lookup s m := rfl

theorem advance_inv {s s' : St} {k : Nat} (hi : Inv s) (h : advance s k = some s') : Inv s' ∧ ∃ new, s'.log = new ++ s.log := by
  rcases advance_cases h with rfl | ⟨A, pc, B, out, hops, hst, _, rfl⟩
  · exact ⟨hi, [], rfl⟩
  · obtain ⟨out', ho, hok⟩ := stepPc_ok hi.tree (hi.pcs pc (by rw [hops]; simp))
    rw [hst] at ho
    obtain rfl := Option.some.inj ho
    refine ⟨⟨hok.tree, ?_, ?_, ?_, ?_⟩, hok.log⟩
    · intro p hp
      dsimp only at hp ⊢
      simp only [List.mem_append] at hp
      rcases hp with hp | hp | hp
      · exact pcOk_mono hok.mono (hi.pcs p (by rw [hops]; simp [hp]))
      · exact hok.pcs p hp
      · exact pcOk_mono hok.mono (hi.pcs p (by rw [hops]; simp [hp]))
    · intro m
      have h1 := hi.rev m
      have h2 := hok.rev m
      rw [hops] at h1
      simp only [List.map_append, List.map_cons, List.sum_append, List.sum_cons, revision_ops] at h1 ⊢
      omega
    · intro n
      exact hok.impl hi.impl n
    · intro n op
      have h1 := hi.ok n op
      have h2 := hok.ok n op
      rw [hops] at h1
      simp only [List.map_append, List.map_cons, List.sum_append, List.sum_cons] at h1 ⊢
      omega

theorem act_inv {excl : Bool} {s : St} (hi : Inv s) (a : Act) : ∃ s', act excl s a = some s' ∧ Inv s' ∧
    ∃ new, s'.log = new ++ s.log := by
  have hadd : ∀ pc : Pc, (∀ r, PcOk r pc) → (∀ m, pendAt m pc = 0) → (∀ m x, pendOk m x pc = 0) →
      Inv { s with ops := s.ops ++ [pc] } := by
    intro pc h1 h2 h3
    refine ⟨hi.tree, ?_, ?_, hi.impl, ?_⟩
    · intro p hp
      rcases List.mem_append.1 hp with hp | hp
      · exact hi.pcs p hp
      · rw [List.mem_singleton.1 hp]; exact h1 _
    · intro m
      have := hi.rev m
      simp only [List.map_append, List.sum_append, List.map_cons, List.map_nil, List.sum_cons, List.sum_nil, h2,
        revision_ops]
      omega
    · intro n x
      have := hi.ok n x
      simp only [List.map_append, List.sum_append, List.map_cons, List.map_nil, List.sum_cons, List.sum_nil, h3]
      omega
  cases a with
  | startRegister n op =>
    rw [act]
    split
    · exact ⟨_, rfl, hi, [], rfl⟩
    · exact ⟨_, rfl, hadd _ (fun _ => trivial) (fun _ => rfl) (fun _ _ => rfl), [], rfl⟩
  | startUnregister n =>
    rw [act]
    split
    · exact ⟨_, rfl, hi, [], rfl⟩
    · exact ⟨_, rfl, hadd _ (fun _ => trivial) (fun _ => rfl) (fun _ _ => rfl), [], rfl⟩
  | acquire n =>
    rw [act]
    obtain ⟨r', res, h1, h2, h3, _⟩ := lookupOrCreate_spec hi.tree n
    rw [h1]
    refine ⟨_, rfl, ⟨h2, fun p hp => pcOk_mono (fun _ => ext_some h3) (hi.pcs p hp), ?_, ?_, hi.ok⟩, [], rfl⟩
    · intro m
      have : revision { s with recs := r' } m = revision s m := ext_rev h3 m
      rw [← hi.rev m, this]
    · intro m
      have : lookup { s with recs := r' } m = lookup s m := ext_lookup h3 m
      rw [← hi.impl m, this]
  | advance k =>
    rw [act]
    obtain ⟨s', h⟩ := advance_some hi k
    exact ⟨s', h, advance_inv hi h⟩

theorem run_inv {excl : Bool} (acts : List Act) : ∀ {s : St}, Inv s → ∃ s', runFrom excl s acts = some s' ∧ Inv s' ∧
    ∃ new, s'.log = new ++ s.log := by
  induction acts with
  | nil => intro s h; exact ⟨s, rfl, h, [], rfl⟩
  | cons a as ih =>
    intro s h
    obtain ⟨s1, h1, h2, n1, h3⟩ := act_inv (excl := excl) h a
    obtain ⟨s2, h4, h5, n2, h6⟩ := ih h2
    refine ⟨s2, ?_, h5, n2 ++ n1, by rw [h6, h3, List.append_assoc]⟩
    rw [runFrom, h1]
    exact h4

theorem inv_init : Inv St.init := by
  refine ⟨⟨⟨_, rfl, rfl⟩, ?_⟩, by simp [St.init], ?_, ?_, by simp [St.init]⟩
  · intro n x hx hn
    simp [St.init, setRec, hn] at hx
  · intro m
    unfold revision St.init setRec
    dsimp only
    by_cases hm : m = []
    · rw [if_pos hm]; rfl
    · rw [if_neg hm]; rfl
  · intro m
    unfold lookup St.init setRec
    dsimp only
    by_cases hm : m = []
    · rw [if_pos hm]; rfl
    · rw [if_neg hm]; rfl

theorem reach_inv {excl : Bool} {s : St} (h : Reachable excl s) : Inv s := by
  obtain ⟨acts, h⟩ := h
  obtain ⟨s', h1, h2, _⟩ := run_inv (excl := excl) acts inv_init
  rw [h] at h1
  rw [Option.some.inj h1]
  exact h2

theorem later_inv {excl : Bool} {s s' : St} (hi : Inv s) (h : Later excl s s') : Inv s' ∧ ∃ new, s'.log = new ++ s.log := by
  obtain ⟨acts, h⟩ := h
  obtain ⟨t, h1, h2⟩ := run_inv (excl := excl) acts hi
  rw [h] at h1
  rw [Option.some.inj h1]
  exact h2

theorem runFrom_append {excl : Bool} (as bs : List Act) : ∀ s, runFrom excl s (as ++ bs) =
    (runFrom excl s as).bind (fun t => runFrom excl t bs) := by
  induction as with
  | nil => intro s; rfl
  | cons a as ih =>
    intro s
    rw [List.cons_append, runFrom, runFrom]
    cases act excl s a with
    | none => rfl
    | some t => exact ih t

theorem storesIn_append (m : Name) (a b : List Event) : storesIn m (a ++ b) = storesIn m a + storesIn m b := by
  induction a with
  | nil => simp [storesIn]
  | cons e a ih =>
    cases e <;> simp only [List.cons_append, storesIn, ih]
    omega

theorem stores_append (m : Name) (a b : List Event) : stores m (a ++ b) = stores m a ++ stores m b := by
  induction a with
  | nil => rfl
  | cons e a ih =>
    cases e <;> simp only [List.cons_append, stores, ih]
    split <;> rfl

theorem stores_le {m n : Name} (h : InNs m n) (l : List Event) : (stores n l).length ≤ storesIn m l := by
  induction l with
  | nil => exact Nat.le_refl 0
  | cons e l ih =>
    cases e with
    | stored k x =>
      rw [stores, storesIn]
      by_cases hk : k = n
      · subst hk
        rw [if_pos rfl, if_pos h, List.length_cons]
        omega
      · rw [if_neg hk]
        omega
    | _ => exact ih

theorem stores_mem {n : Name} {x : Option Nat} {l : List Event} : x ∈ stores n l ↔ Event.stored n x ∈ l := by
  induction l with
  | nil => simp [stores]
  | cons e l ih =>
    cases e with
    | stored k y =>
      rw [stores]
      by_cases hk : k = n
      · subst hk
        rw [if_pos rfl, List.mem_cons, List.mem_cons, ih, Event.stored.injEq]
        simp
      · rw [if_neg hk, ih, List.mem_cons, Event.stored.injEq]
        constructor
        · exact Or.inr
        · rintro (⟨h, _⟩ | h)
          · exact absurd h.symm hk
          · exact h
    | _ => simp [stores, ih]

theorem stores_count (n : Name) (op : Nat) (l : List Event) : (stores n l).count (some op) =
    l.count (.stored n (some op)) := by
  induction l with
  | nil => rfl
  | cons e l ih =>
    cases e with
    | stored k y =>
      rw [stores, List.count_cons]
      by_cases hk : k = n
      · subst hk
        rw [if_pos rfl, List.count_cons, ih]
        congr 1
        by_cases hy : y = some op
        · simp [hy]
        · simp [hy]
      · rw [if_neg hk, ih]
        simp [hk]
    | _ => simp [stores, ih, List.count_cons]

/-! ## Calls which do not overlap with calls about the same name -/

def occ : Option Nat → Nat
  | some _ => 1
  | none => 0

theorem occ_some {x : Option Nat} (h : x.isSome) : occ x = 1 := by
  cases x with
  | some _ => rfl
  | none => cases h

/-- How many times `n` is listed while `pc` is running. -/
def Listed (s : St) (n : Name) (cnt : Nat) : Pc → Prop
  | .reg2 _ _ => lookup s n = none ∧ cnt = 0
  | .reg3 _ _ _ => (lookup s n).isSome ∧ cnt = 0
  | .unreg2 _ => (lookup s n).isSome ∧ cnt = 1
  | .unreg3 _ _ => lookup s n = none ∧ cnt = 1
  | _ => cnt = occ (lookup s n)

structure InvX (s : St) : Prop where
  names : (s.ops.map Pc.name).Nodup
  busy : ∀ pc ∈ s.ops, Listed s pc.name (s.listing.count pc.name) pc
  idle : ∀ n, (∀ pc ∈ s.ops, pc.name ≠ n) → s.listing.count n = occ (lookup s n)
  alt : ∀ n, Alternating (stores n s.log)

/-- One step of an operation with respect to the name of the operation and the other names. -/
theorem stepPc_x {s : St} {pc : Pc} {out : Out} (hi : Inv s) (ht : Tree s.recs) (hp : PcOk s.recs pc)
    (hl : Listed s pc.name (s.listing.count pc.name) pc) (ha : Alternating (stores pc.name s.log))
    (h : stepPc s pc = some out) :
    (∀ p, out.pc = some p → p.name = pc.name ∧ Listed out.st pc.name (out.st.listing.count pc.name) p) ∧
    (out.pc = none → out.st.listing.count pc.name = occ (lookup out.st pc.name)) ∧
    (∀ n, n ≠ pc.name → out.st.listing.count n = s.listing.count n ∧ lookup out.st n = lookup s n ∧
      stores n out.st.log = stores n s.log) ∧
    Alternating (stores pc.name out.st.log) := by
  cases pc with
  | reg0 n op =>
    rw [stepPc] at h
    by_cases hq : (!Str.isQualified n) = true
    · rw [if_pos hq] at h
      obtain rfl := Option.some.inj h
      exact ⟨fun p hp => (by cases hp), fun _ => hl, fun m hm => ⟨rfl, rfl, rfl⟩, ha⟩
    · rw [if_neg hq] at h
      obtain ⟨r', res, h1, h2, h3, h4⟩ := lookupOrCreate_spec ht n
      obtain ⟨h5, h6⟩ := h4 (by simpa using hq)
      subst h5
      rw [h1] at h
      obtain rfl := Option.some.inj h
      have hlk : ∀ m, lookup { s with recs := r' } m = lookup s m := fun m => ext_lookup h3 m
      refine ⟨?_, fun h => (by cases h), fun m hm => ⟨rfl, hlk m, rfl⟩, ha⟩
      intro p hp
      obtain rfl := Option.some.inj hp
      refine ⟨rfl, ?_⟩
      simp only [Listed, Pc.name, hlk] at hl ⊢
      exact hl
  | reg1 n op =>
    obtain ⟨r, hr⟩ := Option.isSome_iff_exists.1 hp
    rw [stepPc, hr] at h
    simp only [Option.bind_eq_bind, Option.bind_some] at h
    by_cases hb : r.impl.isSome
    · rw [if_pos hb] at h
      obtain rfl := Option.some.inj h
      exact ⟨fun p hp => (by cases hp), fun _ => hl, fun m hm => ⟨rfl, rfl, rfl⟩, ha⟩
    · rw [if_neg hb] at h
      obtain rfl := Option.some.inj h
      refine ⟨?_, fun h => (by cases h), fun m hm => ⟨rfl, rfl, rfl⟩, ha⟩
      intro p hp
      obtain rfl := Option.some.inj hp
      have hn : lookup s n = none := by
        unfold lookup
        rw [hr]
        simpa using hb
      refine ⟨rfl, ?_⟩
      simp only [Listed, Pc.name, hn] at hl ⊢
      exact ⟨trivial, hl⟩
  | reg2 n op =>
    obtain ⟨r, hr⟩ := Option.isSome_iff_exists.1 hp
    rw [stepPc, storeImpl, hr] at h
    simp only [Option.bind_eq_bind, Option.bind_some] at h
    obtain rfl := Option.some.inj h
    simp only [Listed, Pc.name] at hl ha ⊢
    refine ⟨?_, fun h => (by simp at h), ?_, ?_⟩
    · intro p hp
      obtain rfl := Option.some.inj hp
      refine ⟨rfl, ?_⟩
      exact ⟨by simp [lookup, setRec], hl.2⟩
    · intro m hm
      refine ⟨by trivial, ?_, ?_⟩
      · simp only [lookup, setRec, if_neg hm]
      · rw [stores, if_neg (fun h => hm h.symm)]
    · rw [stores, if_pos rfl]
      refine ⟨?_, ha⟩
      rw [← hi.impl, hl.1]
      simp
  | reg3 n op c =>
    cases c with
    | some c =>
      obtain ⟨r, hr⟩ := Option.isSome_iff_exists.1 (hp.2 c rfl)
      rw [stepPc, bump, hr] at h
      simp only [Option.bind_eq_bind, Option.bind_some] at h
      obtain rfl := Option.some.inj h
      have hlk : ∀ m, lookup { s with recs := setRec s.recs c { r with rev := r.rev + 1 } } m = lookup s m := by
        intro m
        unfold lookup
        dsimp only
        by_cases hm : m = c
        · rw [hm, setRec, if_pos rfl, hr]; rfl
        · rw [setRec, if_neg hm]
      refine ⟨?_, fun h => (by simp at h), fun m hm => ⟨rfl, hlk m, rfl⟩, ha⟩
      intro p hp
      obtain rfl := Option.some.inj hp
      refine ⟨rfl, ?_⟩
      simp only [Listed, Pc.name, hlk] at hl ⊢
      exact hl
    | none =>
      rw [stepPc] at h
      obtain rfl := Option.some.inj h
      simp only [Listed, Pc.name] at hl ha ⊢
      refine ⟨fun p hp => (by simp at hp), fun _ => ?_, ?_, ha⟩
      · rw [List.count_append, hl.2]
        have : lookup { s with listing := s.listing ++ [n], log := .regOk n op :: s.log } n = lookup s n := rfl
        rw [this, occ_some hl.1]
        simp
      · intro m hm
        refine ⟨?_, rfl, rfl⟩
        rw [List.count_append, List.count_singleton]
        simp [hm.symm]
  | unreg0 n =>
    rw [stepPc] at h
    split at h
    · obtain rfl := Option.some.inj h
      refine ⟨?_, fun h => (by cases h), fun m hm => ⟨rfl, rfl, rfl⟩, ha⟩
      intro p hp
      obtain rfl := Option.some.inj hp
      exact ⟨rfl, hl⟩
    · obtain rfl := Option.some.inj h
      exact ⟨fun p hp => (by cases hp), fun _ => hl, fun m hm => ⟨rfl, rfl, rfl⟩, ha⟩
  | unreg1 n =>
    obtain ⟨r, hr⟩ := Option.isSome_iff_exists.1 hp
    rw [stepPc, hr] at h
    simp only [Option.bind_eq_bind, Option.bind_some] at h
    by_cases hb : r.impl.isSome
    · rw [if_pos hb] at h
      obtain rfl := Option.some.inj h
      refine ⟨?_, fun h => (by cases h), fun m hm => ⟨rfl, rfl, rfl⟩, ha⟩
      intro p hp
      obtain rfl := Option.some.inj hp
      have hn : (lookup s n).isSome := by
        unfold lookup
        rw [hr]
        simpa using hb
      refine ⟨rfl, ?_⟩
      simp only [Listed, Pc.name] at hl ⊢
      exact ⟨hn, by rw [occ_some hn] at hl; exact hl⟩
    · rw [if_neg hb] at h
      obtain rfl := Option.some.inj h
      exact ⟨fun p hp => (by cases hp), fun _ => hl, fun m hm => ⟨rfl, rfl, rfl⟩, ha⟩
  | unreg2 n =>
    obtain ⟨r, hr⟩ := Option.isSome_iff_exists.1 hp
    rw [stepPc, storeImpl, hr] at h
    simp only [Option.bind_eq_bind, Option.bind_some] at h
    obtain rfl := Option.some.inj h
    simp only [Listed, Pc.name] at hl ha ⊢
    refine ⟨?_, fun h => (by simp at h), ?_, ?_⟩
    · intro p hp
      obtain rfl := Option.some.inj hp
      refine ⟨rfl, ?_⟩
      exact ⟨by simp [lookup, setRec], hl.2⟩
    · intro m hm
      refine ⟨by trivial, ?_, ?_⟩
      · simp only [lookup, setRec, if_neg hm]
      · rw [stores, if_neg (fun h => hm h.symm)]
    · rw [stores, if_pos rfl]
      refine ⟨?_, ha⟩
      rw [← hi.impl, hl.1]
      simp
  | unreg3 n c =>
    cases c with
    | some c =>
      obtain ⟨r, hr⟩ := Option.isSome_iff_exists.1 (hp.2 c rfl)
      rw [stepPc, bump, hr] at h
      simp only [Option.bind_eq_bind, Option.bind_some] at h
      obtain rfl := Option.some.inj h
      have hlk : ∀ m, lookup { s with recs := setRec s.recs c { r with rev := r.rev + 1 } } m = lookup s m := by
        intro m
        unfold lookup
        dsimp only
        by_cases hm : m = c
        · rw [hm, setRec, if_pos rfl, hr]; rfl
        · rw [setRec, if_neg hm]
      refine ⟨?_, fun h => (by simp at h), fun m hm => ⟨rfl, hlk m, rfl⟩, ha⟩
      intro p hp
      obtain rfl := Option.some.inj hp
      refine ⟨rfl, ?_⟩
      simp only [Listed, Pc.name, hlk] at hl ⊢
      exact hl
    | none =>
      rw [stepPc] at h
      obtain rfl := Option.some.inj h
      simp only [Listed, Pc.name] at hl ha ⊢
      refine ⟨fun p hp => (by simp at hp), fun _ => ?_, ?_, ha⟩
      · have : lookup { s with listing := s.listing.filter (fun m => m ≠ n), log := .unregRet n :: s.log } n =
            lookup s n := rfl
        rw [this, hl.1, List.count_eq_zero.2]
        · rfl
        · simp
      · intro m hm
        refine ⟨?_, rfl, rfl⟩
        rw [List.count_filter]
        simpa using hm

theorem listed_congr {s t : St} {n : Name} {c : Nat} {pc : Pc} (h : lookup t n = lookup s n) (hl : Listed s n c pc) :
    Listed t n c pc := by
  cases pc <;> simp only [Listed, h] at hl ⊢ <;> exact hl

theorem act_invx {s s' : St} {a : Act} (hi : Inv s) (hx : InvX s) (h : act true s a = some s') : InvX s' := by
  have hadd : ∀ pc : Pc, (∀ n c, Listed s n c pc = (c = occ (lookup s n))) →
      s.ops.any (fun p => p.name == pc.name) = false → InvX { s with ops := s.ops ++ [pc] } := by
    intro pc h1 h2
    have h3 : ∀ p ∈ s.ops, p.name ≠ pc.name := by
      intro p hp he
      rw [List.any_eq_false] at h2
      exact h2 p hp (by simp [he])
    refine ⟨?_, ?_, ?_, hx.alt⟩
    · dsimp only
      rw [List.map_append, List.nodup_append]
      refine ⟨hx.names, by simp, ?_⟩
      intro a ha b hb
      obtain ⟨p, hp, rfl⟩ := List.mem_map.1 ha
      simp only [List.map_cons, List.map_nil, List.mem_singleton] at hb
      rw [hb]
      exact h3 p hp
    · intro p hp
      rcases List.mem_append.1 hp with hp | hp
      · exact listed_congr rfl (hx.busy p hp)
      · rw [List.mem_singleton.1 hp]
        refine listed_congr (s := s) rfl ?_
        rw [h1]
        exact hx.idle _ h3
    · intro n hn
      exact hx.idle n (fun p hp => hn p (List.mem_append_left _ hp))
  cases a with
  | startRegister n op =>
    rw [act] at h
    split at h
    · rw [← Option.some.inj h]; exact hx
    · next hb =>
      rw [← Option.some.inj h]
      exact hadd _ (fun _ _ => rfl) (by simpa [Pc.name] using hb)
  | startUnregister n =>
    rw [act] at h
    split at h
    · rw [← Option.some.inj h]; exact hx
    · next hb =>
      rw [← Option.some.inj h]
      exact hadd _ (fun _ _ => rfl) (by simpa [Pc.name] using hb)
  | acquire n =>
    rw [act] at h
    obtain ⟨r', res, h1, h2, h3, _⟩ := lookupOrCreate_spec hi.tree n
    rw [h1] at h
    obtain rfl := Option.some.inj h
    have hlk : ∀ m, lookup { s with recs := r' } m = lookup s m := fun m => ext_lookup h3 m
    refine ⟨hx.names, fun p hp => listed_congr (hlk _) (hx.busy p hp), ?_, hx.alt⟩
    intro m hm
    dsimp only at hm ⊢
    rw [hlk]
    exact hx.idle m hm
  | advance k =>
    rw [act] at h
    rcases advance_cases h with rfl | ⟨A, pc, B, out, hops, hst, _, rfl⟩
    · exact hx
    · obtain ⟨h1, h2, h3, h4⟩ := stepPc_x hi hi.tree (hi.pcs pc (by rw [hops]; simp)) (hx.busy pc (by rw [hops]; simp))
        (hx.alt _) hst
      have hnd := hx.names
      rw [hops, List.map_append, List.map_cons, List.nodup_append, List.nodup_cons] at hnd
      have hA : ∀ p ∈ A, p.name ≠ pc.name := fun p hp =>
        hnd.2.2 _ (List.mem_map_of_mem hp) _ List.mem_cons_self
      have hB : ∀ p ∈ B, p.name ≠ pc.name := fun p hp he =>
        hnd.2.1.1 (by rw [← he]; exact List.mem_map_of_mem hp)
      have hkeep : ∀ p ∈ s.ops, p.name ≠ pc.name → Listed out.st p.name (out.st.listing.count p.name) p := by
        intro p hp hne
        obtain ⟨e1, e2, _⟩ := h3 _ hne
        rw [e1]
        exact listed_congr e2 (hx.busy p hp)
      refine ⟨?_, ?_, ?_, ?_⟩
      · dsimp only
        cases hpc : out.pc with
        | none =>
          simp only [Option.toList_none, List.nil_append, List.map_append]
          rw [List.nodup_append]
          exact ⟨hnd.1, hnd.2.1.2, fun a ha b hb => hnd.2.2 a ha b (List.mem_cons_of_mem _ hb)⟩
        | some p =>
          simp only [Option.toList_some, List.singleton_append, List.map_append, List.map_cons]
          rw [(h1 p hpc).1, List.nodup_append, List.nodup_cons]
          exact hnd
      · intro p hp
        dsimp only at hp ⊢
        refine listed_congr (s := out.st) rfl ?_
        simp only [List.mem_append, Option.mem_toList] at hp
        rcases hp with hp | hp | hp
        · exact hkeep p (by rw [hops]; simp [hp]) (hA p hp)
        · obtain ⟨e1, e2⟩ := h1 p hp
          rw [e1]
          exact e2
        · exact hkeep p (by rw [hops]; simp [hp]) (hB p hp)
      · intro n hn
        dsimp only at hn ⊢
        rw [lookup_ops]
        by_cases he : n = pc.name
        · rw [he]
          cases hpc : out.pc with
          | none => exact h2 hpc
          | some p => exact absurd (by rw [(h1 p hpc).1, he]) (hn p (by rw [hpc]; simp))
        · obtain ⟨e1, e2, _⟩ := h3 n he
          rw [e1, e2]
          refine hx.idle n ?_
          intro p hp
          rw [hops] at hp
          simp only [List.mem_append, List.mem_cons] at hp
          rcases hp with hp | hp | hp
          · exact hn p (by simp [hp])
          · rw [hp]; exact fun h => he h.symm
          · exact hn p (by simp [hp])
      · intro n
        dsimp only
        by_cases he : n = pc.name
        · rw [he]; exact h4
        · rw [(h3 n he).2.2]; exact hx.alt n

theorem invx_init : InvX St.init := by
  refine ⟨by simp [St.init], by simp [St.init], ?_, fun n => trivial⟩
  intro n _
  rw [inv_init.impl]
  rfl

theorem reach_invx {s : St} (h : Reachable true s) : InvX s := by
  obtain ⟨acts, h⟩ := h
  have : ∀ (acts : List Act) {s s' : St}, Inv s → InvX s → runFrom true s acts = some s' → InvX s' := by
    intro acts
    induction acts with
    | nil => intro s s' _ h2 h3; rw [← Option.some.inj h3]; exact h2
    | cons a as ih =>
      intro s s' h1 h2 h3
      obtain ⟨s1, h4, h5, _⟩ := act_inv (excl := true) h1 a
      rw [runFrom, h4] at h3
      exact ih h5 (act_invx h1 h2 h4) h3
  exact this acts inv_init invx_init h

end Verif.Reg
