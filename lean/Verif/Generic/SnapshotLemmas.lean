import Verif.Generic.SnapshotSpec
import Verif.Reg.RegRun
import Mathlib.Tactic.Tauto
import Mathlib.Tactic.Push

namespace Verif.Generic

open Verif.Reg

theorem under_iff {ns n : Name} : under ns n = true ↔ Under ns n := by
  unfold under Under
  rw [Bool.and_eq_true, Bool.and_eq_true, decide_eq_true_iff, decide_eq_true_iff, beq_iff_eq]
  constructor
  · rintro ⟨⟨h1, h2⟩, h3⟩
    refine ⟨n.drop (ns.length + 1), ?_⟩
    rw [List.getElem?_eq_getElem h1] at h3
    have h4 := Option.some.inj h3
    have : n = n.take ns.length ++ n.drop ns.length := (List.take_append_drop _ _).symm
    rw [List.drop_eq_getElem_cons h1, h4, h2] at this
    exact this
  · rintro ⟨t, rfl⟩
    simp [Str.dot]

theorem under_inNs {ns n : Name} (h : Under ns n) : InNs ns n := Or.inr (Or.inr h)

/-! ## Steps of the registry -/

/-- The operation has changed an implementation. -/
def post : Pc → Bool
  | .reg3 _ _ _ | .unreg3 _ _ => true
  | _ => false

theorem pendAt_le (m : Name) (pc : Pc) : pendAt m pc ≤ 1 := by
  unfold pendAt
  split <;> (try split) <;> omega

theorem pendAt_post {m : Name} {pc : Pc} (h : pendAt m pc ≠ 0) : post pc = true := by
  cases pc <;> simp_all [pendAt, post]

theorem bump_rev {s s' : St} {c : Name} {p : Option Name} (h : bump s c = some (s', p)) :
    (∀ m, revision s m ≤ revision s' m) ∧ s'.log = s.log := by
  unfold bump at h
  cases hr : s.recs c with
  | none => rw [hr] at h; cases h
  | some r =>
    rw [hr] at h
    simp only [Option.bind_eq_bind, Option.bind_some, Option.some.injEq, Prod.mk.injEq] at h
    obtain ⟨rfl, _⟩ := h
    refine ⟨?_, rfl⟩
    intro m
    unfold revision
    dsimp only
    by_cases hm : m = c
    · rw [hm, setRec, if_pos rfl, hr]
      simp
    · rw [setRec, if_neg hm]
      exact Nat.le_refl _

theorem store_rev {s s' : St} {n : Name} {x : Option Nat} (h : storeImpl s n x = some s') :
    (∀ m, revision s m ≤ revision s' m) ∧ s'.log = .stored n x :: s.log := by
  unfold storeImpl at h
  cases hr : s.recs n with
  | none => rw [hr] at h; cases h
  | some r =>
    rw [hr] at h
    simp only [Option.bind_eq_bind, Option.bind_some, Option.some.injEq] at h
    obtain rfl := h
    refine ⟨?_, rfl⟩
    intro m
    unfold revision
    dsimp only
    by_cases hm : m = n
    · rw [hm, setRec, if_pos rfl, hr]
      simp
    · rw [setRec, if_neg hm]
      exact Nat.le_refl _

/-- A step changes no implementation and does not begin to owe increments, or it changes that of its name and owes all of them. -/
theorem stepPc_more {s : St} {pc : Pc} {out : Out} (ht : Tree s.recs) (h : stepPc s pc = some out) :
    (∀ m, revision s m ≤ revision out.st m) ∧
    ((stores pc.name out.st.log = stores pc.name s.log ∧ ∀ p, out.pc = some p → post p = true → post pc = true) ∨
     (stores pc.name out.st.log ≠ stores pc.name s.log ∧ ∃ p, out.pc = some p ∧ ∀ m, InNs m pc.name → pendAt m p = 1)) := by
  have hcons : ∀ (n : Name) (x : Option Nat) (l : List Event), stores n (.stored n x :: l) ≠ stores n l := by
    intro n x l he
    rw [stores, if_pos rfl] at he
    have := congrArg List.length he
    simp at this
  cases pc with
  | reg0 n op =>
    rw [stepPc] at h
    by_cases hq : (!Str.isQualified n) = true
    · rw [if_pos hq] at h
      obtain rfl := Option.some.inj h
      exact ⟨fun _ => Nat.le_refl _, Or.inl ⟨rfl, fun p hp => by cases hp⟩⟩
    · rw [if_neg hq] at h
      obtain ⟨r', res, h1, h2, h3, h4⟩ := lookupOrCreate_spec ht n
      obtain ⟨h5, h6⟩ := h4 (by simpa using hq)
      subst h5
      rw [h1] at h
      obtain rfl := Option.some.inj h
      refine ⟨fun m => Nat.le_of_eq (ext_rev h3 m).symm, Or.inl ⟨rfl, ?_⟩⟩
      intro p hp
      obtain rfl := Option.some.inj hp
      intro h; cases h
  | reg1 n op =>
    rw [stepPc] at h
    cases hr : s.recs n with
    | none => rw [hr] at h; cases h
    | some r =>
      rw [hr] at h
      simp only [Option.bind_eq_bind, Option.bind_some] at h
      by_cases hb : r.impl.isSome
      · rw [if_pos hb] at h
        obtain rfl := Option.some.inj h
        exact ⟨fun _ => Nat.le_refl _, Or.inl ⟨rfl, fun p hp => by cases hp⟩⟩
      · rw [if_neg hb] at h
        obtain rfl := Option.some.inj h
        refine ⟨fun _ => Nat.le_refl _, Or.inl ⟨rfl, ?_⟩⟩
        intro p hp
        obtain rfl := Option.some.inj hp
        intro h; cases h
  | reg2 n op =>
    rw [stepPc] at h
    cases hs : storeImpl s n (some op) with
    | none => rw [hs] at h; cases h
    | some s' =>
      rw [hs] at h
      obtain rfl := Option.some.inj h
      obtain ⟨h1, h2⟩ := store_rev hs
      refine ⟨h1, Or.inr ⟨?_, _, rfl, fun m hm => ?_⟩⟩
      · dsimp only [Pc.name]; rw [h2]; exact hcons _ _ _
      · dsimp only [Pc.name] at hm; simp [pendAt, hm]
  | reg3 n op c =>
    cases c with
    | some c =>
      rw [stepPc] at h
      cases hs : bump s c with
      | none => rw [hs] at h; cases h
      | some x =>
        rw [hs] at h
        obtain rfl := Option.some.inj h
        obtain ⟨h1, h2⟩ := bump_rev hs
        exact ⟨h1, Or.inl ⟨by dsimp only; rw [h2], fun _ _ _ => rfl⟩⟩
    | none =>
      rw [stepPc] at h
      obtain rfl := Option.some.inj h
      exact ⟨fun _ => Nat.le_refl _, Or.inl ⟨rfl, fun _ _ _ => rfl⟩⟩
  | unreg0 n =>
    rw [stepPc] at h
    split at h
    · obtain rfl := Option.some.inj h
      refine ⟨fun _ => Nat.le_refl _, Or.inl ⟨rfl, ?_⟩⟩
      intro p hp
      obtain rfl := Option.some.inj hp
      intro h; cases h
    · obtain rfl := Option.some.inj h
      exact ⟨fun _ => Nat.le_refl _, Or.inl ⟨rfl, fun p hp => by cases hp⟩⟩
  | unreg1 n =>
    rw [stepPc] at h
    cases hr : s.recs n with
    | none => rw [hr] at h; cases h
    | some r =>
      rw [hr] at h
      simp only [Option.bind_eq_bind, Option.bind_some] at h
      by_cases hb : r.impl.isSome
      · rw [if_pos hb] at h
        obtain rfl := Option.some.inj h
        refine ⟨fun _ => Nat.le_refl _, Or.inl ⟨rfl, ?_⟩⟩
        intro p hp
        obtain rfl := Option.some.inj hp
        intro h; cases h
      · rw [if_neg hb] at h
        obtain rfl := Option.some.inj h
        exact ⟨fun _ => Nat.le_refl _, Or.inl ⟨rfl, fun p hp => by cases hp⟩⟩
  | unreg2 n =>
    rw [stepPc] at h
    cases hs : storeImpl s n none with
    | none => rw [hs] at h; cases h
    | some s' =>
      rw [hs] at h
      obtain rfl := Option.some.inj h
      obtain ⟨h1, h2⟩ := store_rev hs
      refine ⟨h1, Or.inr ⟨?_, _, rfl, fun m hm => ?_⟩⟩
      · dsimp only [Pc.name]; rw [h2]; exact hcons _ _ _
      · dsimp only [Pc.name] at hm; simp [pendAt, hm]
  | unreg3 n c =>
    cases c with
    | some c =>
      rw [stepPc] at h
      cases hs : bump s c with
      | none => rw [hs] at h; cases h
      | some x =>
        rw [hs] at h
        obtain rfl := Option.some.inj h
        obtain ⟨h1, h2⟩ := bump_rev hs
        exact ⟨h1, Or.inl ⟨by dsimp only; rw [h2], fun _ _ _ => rfl⟩⟩
    | none =>
      rw [stepPc] at h
      obtain rfl := Option.some.inj h
      exact ⟨fun _ => Nat.le_refl _, Or.inl ⟨rfl, fun _ _ _ => rfl⟩⟩

/-- A call about `n` still has to increment the revision id of `m` for a change it made. -/
def Unb (m n : Name) (s : St) : Prop := ∃ pc ∈ s.ops, pc.name = n ∧ pendAt m pc = 1

/-- A call about `n` has changed its implementation and has not returned. -/
def Started (n : Name) (s : St) : Prop := ∃ pc ∈ s.ops, pc.name = n ∧ post pc = true

theorem unb_started {m n : Name} {s : St} (h : Unb m n s) : Started n s := by
  obtain ⟨pc, h1, h2, h3⟩ := h
  exact ⟨pc, h1, h2, pendAt_post (m := m) (by omega)⟩

/-- What an action of the registry keeps. -/
structure Keeps (s s' : St) : Prop where
  log : ∃ new, s'.log = new ++ s.log
  rev : ∀ m, revision s m ≤ revision s' m
  unb : ∀ m n, InNs m n → revision s' m = revision s m → ¬ Unb m n s' → ¬ Unb m n s ∧ lookup s' n = lookup s n
  post : ∀ n, stores n s'.log = stores n s.log → ¬ Started n s → ¬ Started n s'

theorem act_keeps {s s' : St} (hi : Inv s) (hx : InvX s) (a : Act) (h : act true s a = some s') : Keeps s s' := by
  have hadd : ∀ pc : Pc, post pc = false → Keeps s { s with ops := s.ops ++ [pc] } := by
    intro pc hpc
    refine ⟨⟨[], rfl⟩, fun _ => Nat.le_refl _, ?_, ?_⟩
    · intro m n _ _ hu
      exact ⟨fun ⟨p, h1, h2⟩ => hu ⟨p, List.mem_append_left _ h1, h2⟩, rfl⟩
    · rintro n _ hs ⟨p, h1, h2, h3⟩
      rcases List.mem_append.1 h1 with h1 | h1
      · exact hs ⟨p, h1, h2, h3⟩
      · rw [List.mem_singleton.1 h1, hpc] at h3; cases h3
  have hid : Keeps s s := ⟨⟨[], rfl⟩, fun _ => Nat.le_refl _, fun _ _ _ _ h => ⟨h, rfl⟩, fun _ _ h => h⟩
  cases a with
  | startRegister n op =>
    rw [act] at h
    split at h
    · rw [← Option.some.inj h]; exact hid
    · rw [← Option.some.inj h]; exact hadd _ rfl
  | startUnregister n =>
    rw [act] at h
    split at h
    · rw [← Option.some.inj h]; exact hid
    · rw [← Option.some.inj h]; exact hadd _ rfl
  | acquire n =>
    rw [act] at h
    obtain ⟨r', res, h1, h2, h3, _⟩ := lookupOrCreate_spec hi.tree n
    rw [h1] at h
    obtain rfl := Option.some.inj h
    exact ⟨⟨[], rfl⟩, fun m => Nat.le_of_eq (ext_rev h3 m).symm, fun m n _ _ hu => ⟨hu, ext_lookup h3 n⟩, fun _ _ h => h⟩
  | advance k =>
    rw [act] at h
    rcases advance_cases h with rfl | ⟨A, pc, B, out, hops, hst, _, rfl⟩
    · exact hid
    · have hpcOk := hi.pcs pc (by rw [hops]; simp)
      obtain ⟨out', ho, hok⟩ := stepPc_ok hi.tree hpcOk
      rw [hst] at ho
      obtain rfl := Option.some.inj ho
      obtain ⟨h1, _, h3, _⟩ := stepPc_x hi hi.tree hpcOk (hx.busy pc (by rw [hops]; simp)) (hx.alt _) hst
      obtain ⟨hrev, hcase⟩ := stepPc_more hi.tree hst
      have hsub : ∀ p ∈ A ++ B, p ∈ A ++ (out.pc.toList ++ B) := by
        intro p hp
        rcases List.mem_append.1 hp with hp | hp
        · exact List.mem_append_left _ hp
        · exact List.mem_append_right _ (List.mem_append_right _ hp)
      have hmem : ∀ p ∈ s.ops, p = pc ∨ p ∈ A ++ B := by
        intro p hp
        rw [hops] at hp
        simp only [List.mem_append, List.mem_cons] at hp ⊢
        tauto
      refine ⟨hok.log, hrev, ?_, ?_⟩
      · intro m n hmn hr hu
        have hr' : revision out.st m = revision s m := hr
        rw [lookup_ops]
        -- a step about another name does nothing to this one
        have hunb : ¬ Unb m n s := by
          rintro ⟨p, hp, hpn, hpd⟩
          rcases hmem p hp with rfl | hp
          · have he := hok.rev m
            obtain ⟨new, hnew⟩ := hok.log
            rw [hr', hnew, storesIn_append, hpd] at he
            cases hpc : out.pc with
            | none => rw [hpc] at he; simp at he; omega
            | some q =>
              rw [hpc] at he
              simp only [Option.toList_some, List.map_cons, List.map_nil, List.sum_cons, List.sum_nil] at he
              have := pendAt_le m q
              exact hu ⟨q, by simp [hpc], by rw [(h1 q hpc).1, hpn], by omega⟩
          · exact hu ⟨p, hsub p hp, hpn, hpd⟩
        refine ⟨hunb, ?_⟩
        by_cases hn : n = pc.name
        · rcases hcase with ⟨hs, _⟩ | ⟨_, q, hq, hpd⟩
          · rw [hok.impl hi.impl, hi.impl, hn, hs]
          · exact absurd ⟨q, by simp [hq], by rw [(h1 q hq).1, hn], hpd m (hn ▸ hmn)⟩ hu
        · exact (h3 n hn).2.1
      · rintro n hs hst' ⟨p, hp, hpn, hpp⟩
        dsimp only at hp hs
        simp only [List.mem_append, Option.mem_toList] at hp
        have hold : ∀ p ∈ A ++ B, p ∈ s.ops := by
          intro p hp
          rw [hops]
          simp only [List.mem_append, List.mem_cons] at hp ⊢
          tauto
        rcases hp with hp | hp | hp
        · exact hst' ⟨p, hold p (by simp [hp]), hpn, hpp⟩
        · have hpn' := (h1 p hp).1
          rcases hcase with ⟨_, hpost⟩ | ⟨hs', _⟩
          · exact hst' ⟨pc, by rw [hops]; simp, by rw [← hpn', hpn], hpost p hp hpp⟩
          · rw [← hpn', hpn] at hs'
            exact hs' hs
        · exact hst' ⟨p, hold p (by simp [hp]), hpn, hpp⟩

/-! ## The invariant -/

/-- Since `st`. -/
structure Since (st r : St) : Prop where
  log : ∃ new, r.log = new ++ st.log
  calm : ∀ n, Untouched n st r → ¬ Started n r

/-- The overloads collected and the names still to be looked at are right for `n`. -/
structure Part (isOverload : Nat → Bool) (r : St) (names : List Name) (acc : List (Name × Nat)) (n : Name) : Prop where
  only : ∀ x, (n, x) ∈ acc → lookup r n = some x ∧ isOverload x = true
  all : ∀ x, lookup r n = some x → isOverload x = true → n ∈ names ∨ (n, x) ∈ acc

structure Building (ns : Name) (isOverload : Nat → Bool) (r : St) (rev : Nat) (names : List Name) (acc : List (Name × Nat)) : Prop where
  le : rev ≤ revision r ns
  nodup : (names ++ acc.map (·.1)).Nodup
  part : ∀ n, Under ns n → revision r ns = rev → ¬ Unb ns n r → Part isOverload r names acc n

def PcInv (ns : Name) (isOverload : Nat → Bool) (r : St) : GPc → Prop
  | .load _ => True
  | .check _ c => Building ns isOverload r c.rev [] c.overloads
  | .build0 _ => True
  | .build1 _ rev => rev ≤ revision r ns
  | .build2 st rev names acc => Building ns isOverload r rev names acc ∧
      ∀ n, Under ns n → Untouched n st r → Part isOverload r names acc n

structure GInv (ns : Name) (isOverload : Nat → Bool) (g : GSt) : Prop where
  inv : Inv g.reg
  invx : InvX g.reg
  cache : ∀ c, g.cache = some c → Building ns isOverload g.reg c.rev [] c.overloads
  since : ∀ pc ∈ g.calls, Since pc.start g.reg
  pcs : ∀ pc ∈ g.calls, PcInv ns isOverload g.reg pc
  rets : ∀ st s e, (st, s, e) ∈ g.rets → Fresh ns isOverload st s e

theorem since_keeps {st s s' : St} (hk : Keeps s s') (h : Since st s) : Since st s' ∧ ∀ n, Untouched n st s' → Untouched n st s := by
  obtain ⟨new, hnew⟩ := h.log
  obtain ⟨new', hnew'⟩ := hk.log
  have hu : ∀ n, Untouched n st s' → Untouched n st s ∧ stores n s'.log = stores n s.log := by
    rintro n ⟨h1, h2⟩
    have h3 : stores n s'.log = stores n new' ++ (stores n new ++ stores n st.log) := by
      rw [hnew', hnew, stores_append, stores_append]
    have h4 := congrArg List.length h2
    rw [h3] at h4
    simp only [List.length_append] at h4
    have e1 : stores n new' = [] := List.length_eq_zero_iff.1 (by omega)
    have e2 : stores n new = [] := List.length_eq_zero_iff.1 (by omega)
    refine ⟨⟨h1, ?_⟩, ?_⟩
    · rw [hnew, stores_append, e2]; rfl
    · rw [hnew', stores_append, e1]; rfl
  refine ⟨⟨⟨new' ++ new, by rw [hnew', hnew, List.append_assoc]⟩, ?_⟩, fun n h => (hu n h).1⟩
  intro n hn
  obtain ⟨h1, h2⟩ := hu n hn
  exact hk.post n h2 (h.calm n h1)

theorem part_congr {isOverload : Nat → Bool} {s s' : St} {names : List Name} {acc : List (Name × Nat)} {n : Name}
    (h : lookup s' n = lookup s n) (hp : Part isOverload s names acc n) : Part isOverload s' names acc n :=
  ⟨fun x hx => h ▸ hp.only x hx, fun x hx => hp.all x (h ▸ hx)⟩

theorem building_keeps {ns : Name} {isOverload : Nat → Bool} {s s' : St} (hk : Keeps s s') {rev : Nat} {names : List Name}
    {acc : List (Name × Nat)} (h : Building ns isOverload s rev names acc) : Building ns isOverload s' rev names acc := by
  refine ⟨Nat.le_trans h.le (hk.rev ns), h.nodup, ?_⟩
  intro n hn hr hu
  have h1 := hk.rev ns
  have h2 := h.le
  obtain ⟨h3, h4⟩ := hk.unb ns n (under_inNs hn) (by omega) hu
  exact part_congr h4 (h.part n hn (by omega) h3)

/-- Without a change in progress, a name is listed iff it has an operator. -/
theorem listed_calm {s : St} (hx : InvX s) {n : Name} (hs : ¬ Started n s) : s.listing.count n = occ (lookup s n) := by
  by_cases h : ∀ pc ∈ s.ops, pc.name ≠ n
  · exact hx.idle n h
  · push Not at h
    obtain ⟨pc, h1, h2⟩ := h
    have hb := hx.busy pc h1
    rw [h2] at hb
    cases pc with
    | reg0 m op => exact hb
    | reg1 m op => exact hb
    | reg2 m op => rw [hb.2, hb.1]; rfl
    | reg3 m op c => exact absurd ⟨_, h1, h2, rfl⟩ hs
    | unreg0 m => exact hb
    | unreg1 m => exact hb
    | unreg2 m => rw [hb.2, occ_some hb.1]
    | unreg3 m c => exact absurd ⟨_, h1, h2, rfl⟩ hs

theorem listing_nodup {s : St} (hx : InvX s) : s.listing.Nodup := by
  rw [List.nodup_iff_count]
  intro n
  by_cases hs : Started n s
  · obtain ⟨pc, h1, h2, h3⟩ := hs
    have hb := hx.busy pc h1
    rw [h2] at hb
    cases pc <;> simp only [post] at h3 <;> simp only [Listed] at hb <;> first | contradiction | omega
  · rw [listed_calm hx hs]
    cases lookup s n <;> simp [occ]

end Verif.Generic
