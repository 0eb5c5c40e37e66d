import Verif.Slots.StepLemmas

/-!
# Lemmas: the loop over the nodes
-/

namespace Verif.Slots

variable {K V F P T E : Type}
variable {cfg : Config K} {layout : List T} {ns : List (Node K V F P T)} {u : Nat → Nat} {i : Nat}
  {slots : List (Slot P)} {ls : List (Nat × V)} {a : Alloc T} {proj : P → V → V} {env : K → V}
  {top : Nat} {m m0 : Frame V} {vs : List V}

theorem execute_append (apply : F → List V → Except E V) (proj : P → V → V) (c1 c2 : List (Instr F P))
    (m : Frame V) : execute apply proj (c1 ++ c2) m =
      match execute apply proj c1 m with
      | .error e => .error e
      | .ok m => execute apply proj c2 m := by
  induction c1 generalizing m with
  | nil => rfl
  | cons c c1 ih =>
    simp only [List.cons_append, execute]
    cases c.run apply proj m with
    | error e => rfl
    | ok m => exact ih m

theorem bindLoop_ok [DecidableEq T] [DecidableEq P] (hs : Setup cfg layout ns)
    (hu : ∀ (k : Nat) (n : Node K V F P T), ns[k]? = some n → ∀ d ∈ n.deps, k ≤ u d)
    (rest : List (Node K V F P T)) {st st' : State V F P T} {slots' : List (Slot P)}
    (hrest : ∀ k, k < rest.length → ns[i + k]? = rest[k]?)
    (h : Inv cfg layout ns u i i slots st.literals st.alloc)
    (hb : bindLoop cfg rest slots st = some (.ok (slots', st'))) :
    Inv cfg layout ns u (i + rest.length) (i + rest.length) slots' st'.literals st'.alloc ∧
    ∃ es nl, st'.code = st.code ++ es ∧ st'.literals = st.literals ++ nl ∧
    (∀ e ∈ es, e.NoAlias) ∧
    ∀ (E : Type) (apply : F → List V → Except E V) (proj : P → V → V) (env : K → V)
      (m m0 : Frame V) (vs : List V),
      MemInv cfg layout ns u proj env i slots st.literals st.alloc.layout.length m m0 vs →
      LiteralsAre st'.literals m0 →
      match values apply proj env rest vs with
      | none => False
      | some (.error e) => execute apply proj es m = .error e
      | some (.ok vs') => ∃ m', execute apply proj es m = .ok m' ∧
          MemInv cfg layout ns u proj env (i + rest.length) slots' st'.literals
            st'.alloc.layout.length m' m0 vs' := by
  induction rest generalizing i slots st with
  | nil =>
    simp only [bindLoop, Option.some.injEq, Except.ok.injEq, Prod.mk.injEq] at hb
    obtain ⟨rfl, rfl⟩ := hb
    refine ⟨h, [], [], by simp, by simp, by simp, ?_⟩
    intro E apply proj env m m0 vs hm _
    exact ⟨m, rfl, hm⟩
  | cons n rest ih =>
    have hn : ns[i]? = some n := by
      have := hrest 0 (by simp)
      simpa using this
    unfold bindLoop at hb
    cases hin : n.deps.mapM (fun d => slots[d]?) with
    | none => rw [hin] at hb; cases hb
    | some inputs =>
      rw [hin] at hb
      dsimp only at hb
      rw [h.len] at hb
      cases hbn : bindNode cfg i n inputs st with
      | error e => rw [hbn] at hb; cases hb
      | ok r =>
        rcases r with ⟨s, st1⟩
        rw [hbn] at hb
        dsimp only at hb
        obtain ⟨hinv, es1, nl1, hc1, hl1, ha1, hr1⟩ := bindNode_ok hs h hn (hu i n hn) hin hbn
        have hrest' : ∀ k, k < rest.length → ns[i + 1 + k]? = rest[k]? := by
          intro k hk
          have := hrest (k + 1) (by simp; omega)
          rw [show i + (k + 1) = i + 1 + k by omega] at this
          simpa using this
        obtain ⟨hinv', es2, nl2, hc2, hl2, ha2, hr2⟩ := ih hrest' hinv hb
        have hil : i + 1 + rest.length = i + (n :: rest).length := by simp; omega
        rw [hil] at hinv'
        refine ⟨hinv', es1 ++ es2, nl1 ++ nl2, by rw [hc2, hc1, List.append_assoc],
          by rw [hl2, hl1, List.append_assoc], ?_, ?_⟩
        · intro e he
          rcases List.mem_append.1 he with he | he
          · exact ha1 e he
          · exact ha2 e he
        · intro E apply proj env m m0 vs hm hl
          have hl1' : LiteralsAre st1.literals m0 := by
            intro p hp
            exact hl p (by rw [hl2]; exact List.mem_append_left _ hp)
          have hargs := hm.args h.len n.deps inputs hin (hu i n hn)
          have := hr1 E apply proj env m m0 vs _ hm hl1' hargs
          simp only [values, hargs]
          cases hv : nodeValue apply proj env n (inputs.map (readSlot proj m)) with
          | none => rw [hv] at this; exact this
          | some r =>
            rw [hv] at this
            cases r with
            | error e =>
              dsimp only at this ⊢
              rw [execute_append, this]
            | ok v =>
              dsimp only at this ⊢
              obtain ⟨m1, he1, hm1⟩ := this
              have := hr2 E apply proj env m1 m0 (vs ++ [v]) hm1 hl
              cases hvv : values apply proj env rest (vs ++ [v]) with
              | none => rw [hvv] at this; exact this
              | some r =>
                rw [hvv] at this
                cases r with
                | error e =>
                  dsimp only at this ⊢
                  rw [execute_append, he1]; exact this
                | ok vs' =>
                  dsimp only at this ⊢
                  obtain ⟨m', he', hm'⟩ := this
                  rw [hil] at hm'
                  exact ⟨m', by rw [execute_append, he1]; exact he', hm'⟩

/-! ## The constructor -/

theorem leafSlots_spec (ns : List (Node K V F P T)) (i : Nat) (r r' : Nat → Option (T × Nat))
    (h : leafSlots cfg i ns r = .ok r') :
    (∀ o x, r' o = some x → r o = some x ∨ ∃ (n : Node K V F P T) (k : K) (b j : Nat), o = i + j ∧
      ns[j]? = some n ∧ n.kind = .leaf k ∧ cfg.inputSlot k = some b ∧ x = (n.ty, b)) ∧
    (∀ o, o < i → r' o = r o) ∧
    (∀ (j : Nat) (n : Node K V F P T) (k : K) (b : Nat), ns[j]? = some n → n.kind = .leaf k →
      cfg.inputSlot k = some b → r' (i + j) = some (n.ty, b)) := by
  induction ns generalizing i r with
  | nil =>
    simp only [leafSlots, Except.ok.injEq] at h
    subst h
    exact ⟨fun o x hx => Or.inl hx, fun _ _ => rfl, by simp⟩
  | cons n ns ih =>
    unfold leafSlots at h
    split at h
    case h_1 k hk =>
      split at h
      · cases h
      · rename_i b hb
        obtain ⟨h1, h2, h3⟩ := ih _ _ h
        refine ⟨?_, ?_, ?_⟩
        · intro o x hx
          rcases h1 o x hx with hx | ⟨n', k', b', j, ho, hn', hk', hb', hx⟩
          · by_cases ho : o = i
            · rw [ho, setAt_same] at hx
              cases hx
              exact Or.inr ⟨n, k, b, 0, by omega, rfl, hk, hb, rfl⟩
            · rw [setAt_ne _ _ ho] at hx; exact Or.inl hx
          · exact Or.inr ⟨n', k', b', j + 1, by omega, by simpa using hn', hk', hb', hx⟩
        · intro o ho
          rw [h2 o (by omega), setAt_ne _ _ (by omega)]
        · intro j n' k' b' hn' hk' hb'
          cases j with
          | zero =>
            simp only [List.getElem?_cons_zero, Option.some.injEq] at hn'
            subst hn'
            rw [hk] at hk'; cases hk'
            rw [hb] at hb'; cases hb'
            rw [Nat.add_zero, h2 i (by omega), setAt_same]
          | succ j =>
            have := h3 j n' k' b' (by simpa using hn') hk' hb'
            rw [show i + (j + 1) = i + 1 + j by omega]; exact this
    case h_2 hnk =>
      obtain ⟨h1, h2, h3⟩ := ih _ _ h
      refine ⟨?_, fun o ho => h2 o (by omega), ?_⟩
      · intro o x hx
        rcases h1 o x hx with hx | ⟨n', k', b', j, ho, hn', hk', hb', hx⟩
        · exact Or.inl hx
        · exact Or.inr ⟨n', k', b', j + 1, by omega, by simpa using hn', hk', hb', hx⟩
      · intro j n' k' b' hn' hk' hb'
        cases j with
        | zero =>
          simp only [List.getElem?_cons_zero, Option.some.injEq] at hn'
          subst hn'
          exact absurd hk' (hnk k')
        | succ j =>
          have := h3 j n' k' b' (by simpa using hn') hk' hb'
          rw [show i + (j + 1) = i + 1 + j by omega]; exact this

theorem make_inv (hs : Setup cfg layout ns) (h : Alloc.make cfg layout ns = .ok a) :
    Inv (P := P) (V := V) cfg layout ns (lastUsagesLoop 0 ns (fun _ => 0)) 0 0 [] [] a := by
  have base : ∀ r : Nat → Option (T × Nat),
      (∀ o x, r o = some x → ∃ (n : Node K V F P T) (k : K), cfg.allowOverride = true ∧ ns[o]? = some n ∧
        n.kind = .leaf k ∧ cfg.inputSlot k = some x.2 ∧ x.1 = n.ty) →
      (cfg.allowOverride = true → ∀ (j : Nat) (n : Node K V F P T) (k : K) (b : Nat), ns[j]? = some n →
        n.kind = .leaf k → cfg.inputSlot k = some b → r j = some (n.ty, b)) →
      Inv (P := P) (V := V) cfg layout ns (lastUsagesLoop 0 ns (fun _ => 0)) 0 0 [] []
        ⟨layout, lastUsagesLoop 0 ns (fun _ => 0), id, r, fun _ => []⟩ := by
    intro r hr1 hr2
    refine { len := rfl, ext := ⟨[], by simp⟩, origin_ge := fun _ _ => rfl, last_ge := fun _ _ => rfl,
             origin_lt := by simp, last_le := by simp, hold := by simp, slot_lt := by simp,
             own_ty := ?_, own_fixed := ?_, own_reuse := by simp, own_inj := ?_, leaf_own := ?_,
             reuse_ty := by simp, reuse_nodup := by simp, reuse_fixed := by simp, lits := by simp,
             lits_nodup := by simp, out_new := by simp, out_slot := by simp, op_ty := by simp }
    · intro o t b hb
      obtain ⟨n, k, _, hn, hk, hb', ht⟩ := hr1 o _ hb
      dsimp only at hb' ht
      rw [ht]; exact hs.input_ty o n k b hn hk hb'
    · intro o t b hb
      obtain ⟨n, k, hal, hn, hk, hb', ht⟩ := hr1 o _ hb
      have hin : IsInput cfg ns b := ⟨o, n, k, hn, hk, hb'⟩
      rintro (hf | hf | hf)
      · exact hf.2.2 hal hin
      · exact hs.input_out b hin hf
      · simp at hf
    · intro o o' t t' b hb hb'
      obtain ⟨n, k, hal, hn, hk, h1, _⟩ := hr1 o _ hb
      obtain ⟨n', k', _, hn', hk', h1', _⟩ := hr1 o' _ hb'
      exact hs.input_inj hal o o' n n' k k' b hn hn' hk hk' h1 h1'
    · intro hal o n k b _ hn hk hb
      exact hr2 hal o n k b hn hk hb
  unfold Alloc.make at h
  dsimp only at h
  split at h
  case isTrue hal =>
    split at h
    · cases h
    · rename_i r hr
      cases h
      obtain ⟨h1, _, h3⟩ := leafSlots_spec ns 0 _ _ hr
      refine base r ?_ ?_
      · intro o x hx
        rcases h1 o x hx with hx | ⟨n, k, b, j, ho, hn, hk, hb, hx⟩
        · cases hx
        · rw [Nat.zero_add] at ho; subst ho; subst hx
          exact ⟨n, k, hal, hn, hk, hb, rfl⟩
      · intro _ j n k b hn hk hb
        have := h3 j n k b hn hk hb
        rwa [Nat.zero_add] at this
  case isFalse hal =>
    cases h
    exact base _ (by simp) (fun h => absurd h hal)

theorem usages_dep (ns : List (Node K V F P T)) (k : Nat) (n : Node K V F P T) (hn : ns[k]? = some n) (d : Nat)
    (hd : d ∈ n.deps) : k ≤ lastUsagesLoop 0 ns (fun _ => 0) d := by
  have := lastUsagesLoop_dep ns 0 (fun _ => 0) k n hn d hd
  omega

theorem mem_init (hs : Setup cfg layout ns) (hin : InputsAre cfg ns env m) :
    MemInv cfg layout ns u proj env 0 [] [] layout.length m m [] :=
  { len := rfl, live := by simp, keep := fun _ _ _ => rfl, fresh := fun _ _ => rfl,
    inp := fun o n k b _ hn hk hb => hin o n k b hn hk hb, outv := by simp }

/-! ## Initialisation of literals -/

theorem initLiterals_other (ls : List (Nat × V)) (m : Frame V) (b : Nat)
    (h : b ∉ ls.map Prod.fst) : initLiterals ls m b = m b := by
  induction ls generalizing m with
  | nil => rfl
  | cons p ls ih =>
    rcases p with ⟨s, v⟩
    simp only [List.map_cons, List.mem_cons, not_or] at h
    simp only [initLiterals]
    rw [ih _ h.2, setAt_ne _ _ h.1]

theorem initLiterals_are (ls : List (Nat × V)) (m : Frame V) (h : (ls.map Prod.fst).Nodup) :
    LiteralsAre ls (initLiterals ls m) := by
  induction ls generalizing m with
  | nil => intro p hp; cases hp
  | cons p ls ih =>
    rcases p with ⟨s, v⟩
    simp only [List.map_cons, List.nodup_cons] at h
    intro q hq
    rcases List.mem_cons.1 hq with e | hq
    · subst e
      simp only [initLiterals]
      rw [initLiterals_other _ _ _ h.1, setAt_same]
    · exact ih _ h.2 q hq

/-! ## Splitting off the last node -/

theorem bindLoop_append [DecidableEq T] [DecidableEq P] (cfg : Config K)
    (l1 l2 : List (Node K V F P T)) (slots : List (Slot P)) (st : State V F P T) :
    bindLoop cfg (l1 ++ l2) slots st =
      match bindLoop cfg l1 slots st with
      | some (.ok (slots', st')) => bindLoop cfg l2 slots' st'
      | r => r := by
  induction l1 generalizing slots st with
  | nil => rfl
  | cons n l1 ih =>
    simp only [List.cons_append, bindLoop]
    cases n.deps.mapM (fun d => slots[d]?) with
    | none => rfl
    | some inputs =>
      dsimp only
      cases bindNode cfg slots.length n inputs st with
      | error e => rfl
      | ok r =>
        dsimp only
        rw [ih]

theorem values_append (apply : F → List V → Except E V) (proj : P → V → V) (env : K → V)
    (l1 l2 : List (Node K V F P T)) (vs : List V) :
    values apply proj env (l1 ++ l2) vs =
      match values apply proj env l1 vs with
      | some (.ok vs') => values apply proj env l2 vs'
      | r => r := by
  induction l1 generalizing vs with
  | nil => rfl
  | cons n l1 ih =>
    simp only [List.cons_append, values]
    cases n.deps.mapM (fun d => vs[d]?) with
    | none => rfl
    | some args =>
      dsimp only
      cases nodeValue apply proj env n args with
      | none => rfl
      | some r =>
        cases r with
        | error e => rfl
        | ok v => dsimp only; rw [ih]

end Verif.Slots
