import Verif.Slots.SlotLemmas

/-!
# Lemmas: one bound node, allocator and frame together
-/

namespace Verif.Slots

variable {K V F P T E : Type}

/-- Frame `m` after the code of the first `i` nodes, started from `m0`. -/
structure MemInv (cfg : Config K) (layout : List T) (ns : List (Node K V F P T)) (u : Nat → Nat)
    (proj : P → V → V) (env : K → V) (i : Nat) (slots : List (Slot P)) (ls : List (Nat × V))
    (top : Nat) (m m0 : Frame V) (vs : List V) : Prop where
  len : vs.length = i
  live : ∀ (j : Nat) (s : Slot P) (v : V), slots[j]? = some s → vs[j]? = some v → i ≤ u j →
    readSlot proj m s = v
  keep : ∀ b, Fixed cfg layout ns ls b → b ≠ cfg.out → m b = m0 b
  fresh : ∀ b, top ≤ b → m b = m0 b
  inp : ∀ (o : Nat) (n : Node K V F P T) (k : K) (b : Nat), i ≤ o → ns[o]? = some n →
    n.kind = .leaf k → cfg.inputSlot k = some b → m b = env k
  outv : ∀ v, cfg.outIdx < i → vs[cfg.outIdx]? = some v → m cfg.out = v

variable {cfg : Config K} {layout : List T} {ns : List (Node K V F P T)} {u : Nat → Nat} {i : Nat}
  {slots : List (Slot P)} {ls : List (Nat × V)} {a : Alloc T} {proj : P → V → V} {env : K → V}
  {top : Nat} {m m0 : Frame V} {vs : List V}

theorem fixed_append {b : Nat} {nl : List (Nat × V)} (h : Fixed cfg layout ns (ls ++ nl) b) :
    Fixed cfg layout ns ls b ∨ b ∈ nl.map Prod.fst := by
  rcases h with h | h | h
  · exact Or.inl (Or.inl h)
  · exact Or.inl (Or.inr (Or.inl h))
  · rw [List.map_append, List.mem_append] at h
    exact h.imp (fun h => Or.inr (Or.inr h)) id

/-- A node that emits no code. -/
theorem MemInv.push (h : MemInv cfg layout ns u proj env i slots ls top m m0 vs)
    (hl : slots.length = i) (s : Slot P) (v : V) (nl : List (Nat × V)) (top' : Nat) (ht : top ≤ top')
    (hnl : ∀ p ∈ nl, top ≤ p.1) (hread : readSlot proj m s = v)
    (hout : i = cfg.outIdx → m cfg.out = v) :
    MemInv cfg layout ns u proj env (i + 1) (slots ++ [s]) (ls ++ nl) top' m m0 (vs ++ [v]) := by
  have hlen := h.len
  refine { len := by simp [hlen], live := ?_, keep := ?_, fresh := fun b hb => h.fresh b (by omega),
           inp := fun o n k b ho => h.inp o n k b (by omega), outv := ?_ }
  · intro j sl w hj hw hu
    rcases getElem?_push hj with ⟨hj', hjl⟩ | ⟨hj', rfl⟩
    · rcases getElem?_push hw with ⟨hw', _⟩ | ⟨hw', _⟩
      · exact h.live j sl w hj' hw' (by omega)
      · omega
    · rcases getElem?_push hw with ⟨_, hw'⟩ | ⟨_, rfl⟩
      · omega
      · exact hread
  · intro b hb hbo
    rcases fixed_append hb with hb | hb
    · exact h.keep b hb hbo
    · obtain ⟨p, hp, rfl⟩ := List.mem_map.1 hb
      exact h.fresh _ (hnl p hp)
  · intro w hi hw
    rcases getElem?_push hw with ⟨hw', hlt⟩ | ⟨hw', rfl⟩
    · exact h.outv w (by omega) hw'
    · exact hout (by omega)

/-- A node that writes the slot `w`. -/
theorem MemInv.write (h : MemInv cfg layout ns u proj env i slots ls top m m0 vs)
    (hl : slots.length = i) (w : Nat) (v : V) (nl : List (Nat × V)) (top' : Nat) (ht : top ≤ top')
    (hnl : ∀ p ∈ nl, top ≤ p.1) (hw : w < top') (hwl : ∀ p ∈ nl, w ≠ p.1)
    (hlive : ∀ (j : Nat) (s : Slot P), slots[j]? = some s → i ≤ u j → s.base ≠ w)
    (hfix : Fixed cfg layout ns ls w → w = cfg.out)
    (hinp : ∀ (o : Nat) (n : Node K V F P T) (k : K) (b : Nat), i < o → ns[o]? = some n →
      n.kind = .leaf k → cfg.inputSlot k = some b → b ≠ w)
    (hout : i = cfg.outIdx ↔ w = cfg.out) :
    MemInv cfg layout ns u proj env (i + 1) (slots ++ [⟨w, []⟩]) (ls ++ nl) top' (setAt m w v) m0
      (vs ++ [v]) := by
  have hlen := h.len
  refine { len := by simp [hlen], live := ?_, keep := ?_, fresh := ?_, inp := ?_, outv := ?_ }
  · intro j sl x hj hx hu
    rcases getElem?_push hj with ⟨hj', hjl⟩ | ⟨hj', rfl⟩
    · rcases getElem?_push hx with ⟨hx', _⟩ | ⟨hx', _⟩
      · have := h.live j sl x hj' hx' (by omega)
        rw [← this]
        unfold readSlot
        rw [setAt_ne _ _ (hlive j sl hj' (by omega))]
      · omega
    · rcases getElem?_push hx with ⟨_, hx'⟩ | ⟨_, rfl⟩
      · omega
      · simp [readSlot, setAt]
  · intro b hb hbo
    rcases fixed_append hb with hb | hb
    · have : b ≠ w := fun e => hbo (e ▸ hfix (e ▸ hb))
      rw [setAt_ne _ _ this]; exact h.keep b hb hbo
    · obtain ⟨p, hp, rfl⟩ := List.mem_map.1 hb
      rw [setAt_ne _ _ (fun e => hwl p hp e.symm)]
      exact h.fresh _ (hnl p hp)
  · intro b hb
    rw [setAt_ne _ _ (by omega)]; exact h.fresh b (by omega)
  · intro o n k b ho hn hk hb
    rw [setAt_ne _ _ (hinp o n k b (by omega) hn hk hb)]
    exact h.inp o n k b (by omega) hn hk hb
  · intro x hi hx
    rcases getElem?_push hx with ⟨hx', hlt⟩ | ⟨hx', rfl⟩
    · have : cfg.out ≠ w := fun e => by have := hout.2 e.symm; omega
      rw [setAt_ne _ _ this]; exact h.outv x (by omega) hx'
    · have := hout.1 (by omega)
      rw [← this, setAt_same]

theorem mapM_eq_some_iff {α β : Type} (f : α → Option β) (l : List α) (r : List β) :
    l.mapM f = some r ↔ List.Forall₂ (fun x y => f x = some y) l r := by
  induction l generalizing r with
  | nil => cases r <;> simp
  | cons x l ih =>
    rw [List.mapM_cons]
    constructor
    · intro h
      cases hx : f x with
      | none => simp [hx] at h
      | some y =>
        cases hl : l.mapM f with
        | none => simp [hx, hl] at h
        | some ys =>
          simp [hx, hl] at h
          subst h
          exact .cons hx ((ih ys).1 hl)
    · intro h
      cases h with
      | cons hx hl =>
        rw [hx, (ih _).2 hl]; rfl

/-- The values of the dependencies are what their slots hold. -/
theorem MemInv.args (h : MemInv cfg layout ns u proj env i slots ls top m m0 vs)
    (hl : slots.length = i) (deps : List Nat) (inputs : List (Slot P))
    (hin : deps.mapM (fun d => slots[d]?) = some inputs) (hu : ∀ d ∈ deps, i ≤ u d) :
    deps.mapM (fun d => vs[d]?) = some (inputs.map (readSlot proj m)) := by
  rw [mapM_eq_some_iff] at hin ⊢
  induction hin with
  | nil => exact .nil
  | @cons d s ds ss hd _ ih =>
    refine .cons ?_ (ih fun d hd => hu d (by simp [hd]))
    have hlt := lt_of_getElem? hd
    have : d < vs.length := by rw [h.len]; omega
    obtain ⟨v, hv⟩ : ∃ v, vs[d]? = some v := ⟨_, List.getElem?_eq_getElem this⟩
    rw [hv, h.live d s v hd hv (hu d (by simp))]

theorem mapM_mem {inputs : List (Slot P)} {deps : List Nat}
    (hin : deps.mapM (fun d => slots[d]?) = some inputs) {s : Slot P} (hs : s ∈ inputs) :
    ∃ d ∈ deps, slots[d]? = some s := by
  rw [mapM_eq_some_iff] at hin
  induction hin with
  | nil => cases hs
  | @cons d s' ds ss hd _ ih =>
    rcases List.mem_cons.1 hs with e | hs
    · subst e; exact ⟨d, by simp, hd⟩
    · obtain ⟨d', h1, h2⟩ := ih hs
      exact ⟨d', by simp [h1], h2⟩

theorem mapM_dep {inputs : List (Slot P)} {deps : List Nat}
    (hin : deps.mapM (fun d => slots[d]?) = some inputs) {d : Nat} (hd : d ∈ deps) :
    ∃ s, slots[d]? = some s := by
  rw [mapM_eq_some_iff] at hin
  induction hin with
  | nil => cases hd
  | @cons d' s' ds ss hd' _ ih =>
    rcases List.mem_cons.1 hd with e | hd
    · subst e; exact ⟨s', hd'⟩
    · exact ih hd

/-- What binding node `i` adds: invariant, code and literals, and the effect of running the code. -/
structure StepOk [DecidableEq T] (cfg : Config K) (layout : List T) (ns : List (Node K V F P T))
    (u : Nat → Nat) (i : Nat) (n : Node K V F P T) (slots : List (Slot P)) (st : State V F P T)
    (L : Nat) (s : Slot P) (st' : State V F P T) : Prop where
  inv : Inv cfg layout ns u (i + 1) L (slots ++ [s]) st'.literals st'.alloc
  run : ∃ es nl, st'.code = st.code ++ es ∧ st'.literals = st.literals ++ nl ∧
    (∀ e ∈ es, e.NoAlias) ∧
    ∀ (E : Type) (apply : F → List V → Except E V) (proj : P → V → V) (env : K → V)
      (m m0 : Frame V) (vs args : List V),
      MemInv cfg layout ns u proj env i slots st.literals st.alloc.layout.length m m0 vs →
      LiteralsAre st'.literals m0 → n.deps.mapM (fun d => vs[d]?) = some args →
      match nodeValue apply proj env n args with
      | none => False
      | some (.error e) => execute apply proj es m = .error e
      | some (.ok v) => ∃ m', execute apply proj es m = .ok m' ∧
          MemInv cfg layout ns u proj env (i + 1) (slots ++ [s]) st'.literals
            st'.alloc.layout.length m' m0 (vs ++ [v])

/-- `maybe_copy_slot`: the new slot `s0` holds the node's value. -/
theorem maybeCopy_ok [DecidableEq T] (hs : Setup cfg layout ns) {n : Node K V F P T}
    {st0 st : State V F P T} {s0 : Slot P} {src : Nat} (hlen : slots.length = i)
    (hsrc : src ≤ i) (nl : List (Nat × V)) (hcode : st.code = st0.code)
    (hlits : st.literals = st0.literals ++ nl) (hnl : ∀ p ∈ nl, st0.alloc.layout.length ≤ p.1)
    (htop : st0.alloc.layout.length ≤ st.alloc.layout.length)
    (h : Inv cfg layout ns u i i slots st.literals st.alloc)
    (hnop : ∀ f, n.kind ≠ .op f) (hn : ns[i]? = some n)
    (hhold : Fixed cfg layout ns st.literals s0.base ∨
      ∃ t, st.alloc.resultSlot (st.alloc.origin src) = some (t, s0.base))
    (hlt : s0.base < st.alloc.layout.length) (hnew : i ≤ cfg.outIdx → s0.base ≠ cfg.out)
    (hval : ∀ (E : Type) (apply : F → List V → Except E V) (proj : P → V → V) (env : K → V)
      (m m0 : Frame V) (vs args : List V),
      MemInv cfg layout ns u proj env i slots st0.literals st0.alloc.layout.length m m0 vs →
      LiteralsAre st.literals m0 → n.deps.mapM (fun d => vs[d]?) = some args →
      nodeValue apply proj env n args = some (.ok (readSlot proj m s0)))
    {s' : Slot P} {st' : State V F P T} (he : maybeCopy cfg i st s0 src = (s', st')) :
    StepOk cfg layout ns u i n slots st0 i s' st' := by
  have hnop' : ∀ (n' : Node K V F P T) (f : F), ns[i]? = some n' → n'.kind ≠ .op f := by
    intro n' f hn'; rw [hn] at hn'; cases hn'; exact hnop f
  unfold maybeCopy at he
  split at he
  case isTrue hi =>
    cases he
    have hlen_le := h.len_le
    have hout := hs.out_lt
    refine ⟨?_, [.copy s0 cfg.out], nl, by simp [hcode], hlits, ?_, ?_⟩
    · exact h.push_own _ (Or.inl (Or.inr (Or.inl rfl))) (by dsimp only; omega)
        (fun hlt' => by omega) (fun _ => rfl) (fun n' f hn' hk => absurd hk (hnop' n' f hn'))
    · intro e he
      rw [List.mem_singleton.1 he]
      exact hnew (by omega)
    · intro E apply proj env m m0 vs args hm hl hargs
      rw [hval E apply proj env m m0 vs args hm hl hargs]
      refine ⟨_, rfl, ?_⟩
      dsimp only
      rw [hlits]
      refine hm.write hlen cfg.out _ nl _ htop hnl (by omega) ?_ ?_ (fun _ => rfl) ?_
        ⟨fun _ => rfl, fun _ => hi⟩
      · intro p hp e
        have := (h.lits p (by rw [hlits]; exact List.mem_append_right _ hp)).1
        omega
      · intro j s hj _
        exact h.out_new (by omega) s (List.mem_of_getElem? hj)
      · intro o n' k b _ hn' hk hb
        exact hs.input_out b ⟨o, n', k, hn', hk, hb⟩
  case isFalse hi =>
    cases he
    refine ⟨?_, [], nl, by simp [hcode], hlits, by simp, ?_⟩
    · exact h.push s0 src hsrc hhold hlt (fun _ => hnew (by omega)) (fun e => absurd e hi)
        (fun n' f hn' hk => absurd hk (hnop' n' f hn'))
    · intro E apply proj env m m0 vs args hm hl hargs
      rw [hval E apply proj env m m0 vs args hm hl hargs]
      refine ⟨m, rfl, ?_⟩
      dsimp only
      rw [hlits]
      exact hm.push hlen s0 _ nl _ htop hnl rfl (fun e => absurd e hi)

theorem readSlot_snoc (proj : P → V → V) (m : Frame V) (s : Slot P) (p : P) :
    readSlot proj m ⟨s.base, s.path ++ [p]⟩ = proj p (readSlot proj m s) := by
  simp [readSlot]

theorem constructOutput_ok [DecidableEq T] [DecidableEq P] (hs : Setup cfg layout ns)
    {n : Node K V F P T} {st st' : State V F P T} {s : Slot P} {inputs : List (Slot P)}
    (h : Inv cfg layout ns u i i slots st.literals st.alloc) (hn : ns[i]? = some n)
    (hu : ∀ d ∈ n.deps, i ≤ u d) (hin : n.deps.mapM (fun d => slots[d]?) = some inputs)
    (hb : constructOutput cfg i n inputs st = .ok (s, st')) :
    StepOk cfg layout ns u i n slots st i s st' := by
  have hlen := h.len
  unfold constructOutput at hb
  split at hb
  case h_1 k hk =>
    split at hb
    case h_1 => cases hb
    case h_2 b hb' =>
      have hval : ∀ (E : Type) (apply : F → List V → Except E V) (proj : P → V → V) (env : K → V)
          (m m0 : Frame V) (vs args : List V),
          MemInv cfg layout ns u proj env i slots st.literals st.alloc.layout.length m m0 vs →
          LiteralsAre st.literals m0 → n.deps.mapM (fun d => vs[d]?) = some args →
          nodeValue apply proj env n args = some (.ok (readSlot proj m ⟨b, []⟩)) := by
        intro E apply proj env m m0 vs args hm _ _
        simp only [nodeValue, hk, readSlot, List.foldl_nil]
        rw [hm.inp i n k b (Nat.le_refl _) hn hk hb']
      have hbl := hs.input_ty i n k b hn hk hb'
      have hbl' := lt_of_getElem? hbl
      have hll := h.len_le
      have hbo := hs.input_out b ⟨i, n, k, hn, hk, hb'⟩
      refine maybeCopy_ok hs hlen (Nat.le_refl _) [] rfl (by simp) (by simp) (Nat.le_refl _) h
        (by simp [hk]) hn ?_ (by dsimp only; omega) (fun _ => hbo) hval (Except.ok.inj hb)
      cases hal : cfg.allowOverride with
      | true =>
        right
        rw [h.origin_ge i (Nat.le_refl _)]
        exact ⟨_, h.leaf_own hal i n k b (Nat.le_refl _) hn hk hb'⟩
      | false =>
        left; left
        exact ⟨hbl', hbo, by simp [hal]⟩
  case h_2 v hk =>
    have hll := h.len_le
    have hout := hs.out_lt
    have hp := h.permanent hs n.ty v
    have hb' : maybeCopy cfg i ⟨(st.alloc.permanent n.ty).2,
      st.literals ++ [(st.alloc.layout.length, v)], st.code, st.named⟩
      ⟨st.alloc.layout.length, []⟩ i = (s, st') := Except.ok.inj hb
    refine maybeCopy_ok (st := ⟨(st.alloc.permanent n.ty).2,
      st.literals ++ [(st.alloc.layout.length, v)], st.code, st.named⟩) (st0 := st)
      (s0 := ⟨st.alloc.layout.length, []⟩) hs hlen (Nat.le_refl _) [(st.alloc.layout.length, v)] rfl rfl (by simp)
      (by simp [Alloc.permanent]) hp (by simp [hk]) hn ?_ (by simp [Alloc.permanent])
      (fun _ => by dsimp only; omega) ?_ hb'
    · left; right; right
      simp
    · intro E apply proj env m m0 vs args hm hl _
      simp only [nodeValue, hk, readSlot, List.foldl_nil]
      rw [hm.fresh _ (Nat.le_refl _)]
      have := hl (st.alloc.layout.length, v) (by simp)
      simp only at this
      rw [this]
  case h_3 f hk =>
    have hargs : ∀ (m m0 : Frame V) (vs : List V) (proj : P → V → V) (env : K → V),
        MemInv cfg layout ns u proj env i slots st.literals st.alloc.layout.length m m0 vs →
        n.deps.mapM (fun d => vs[d]?) = some (inputs.map (readSlot proj m)) :=
      fun m m0 vs proj env hm => hm.args hlen n.deps inputs hin hu
    have hlen_le := h.len_le
    have hout := hs.out_lt
    by_cases hi : i = cfg.outIdx
    · rw [if_pos hi] at hb
      cases hb
      refine ⟨?_, [.compute f inputs cfg.out], [], rfl, by simp, ?_, ?_⟩
      · exact h.push_own _ (Or.inl (Or.inr (Or.inl rfl))) (by dsimp only; omega)
          (fun hlt' => by omega) (fun _ => rfl) (fun n' f hn' hk hne => absurd hi hne)
      · intro e he
        rw [List.mem_singleton.1 he]
        intro s hs'
        obtain ⟨d, _, hd⟩ := mapM_mem hin hs'
        exact h.out_new (by omega) s (List.mem_of_getElem? hd)
      · intro E apply proj env m m0 vs args hm _ hav
        rw [hargs m m0 vs proj env hm] at hav
        cases hav
        simp only [nodeValue, hk]
        cases hap : apply f (inputs.map (readSlot proj m)) with
        | error e => simp [execute, Instr.run, hap]
        | ok v =>
          refine ⟨_, by simp only [execute, Instr.run, hap]; rfl, ?_⟩
          have := hm.write hlen cfg.out v [] st.alloc.layout.length (Nat.le_refl _) (by simp)
            (by omega) (by simp) (fun j s hj _ => h.out_new (by omega) s (List.mem_of_getElem? hj))
            (fun _ => rfl) (fun o n' k b _ hn' hk hb => hs.input_out b ⟨o, n', k, hn', hk, hb⟩)
            ⟨fun _ => rfl, fun _ => hi⟩
          rwa [List.append_nil] at this
    · rw [if_neg hi] at hb
      obtain ⟨hinv, hres, hreu, hfix, hno⟩ := h.allocate hs n f hn hk
      rcases ha : st.alloc.allocate i n.ty with ⟨w, a'⟩
      rw [ha] at hb hinv hres hreu hfix hno
      dsimp only at hb hinv hres hreu hfix hno
      cases hb
      have hty := hinv.own_ty _ _ _ hres
      have hwl := lt_of_getElem? hty
      have hwo : w ≠ cfg.out := fun e => hfix (Or.inr (Or.inl e))
      have htop : st.alloc.layout.length ≤ a'.layout.length := by
        have : a' = (st.alloc.allocate i n.ty).2 := by rw [ha]
        rw [this]; unfold Alloc.allocate; split <;> simp
      have hnl : ∀ (j : Nat) (s : Slot P), slots[j]? = some s → i ≤ u j → s.base ≠ w := by
        intro j s hj hju e
        rcases h.hold j s hj hju with hf | ⟨t, ht⟩
        · exact hfix (e ▸ hf)
        · exact hno _ t (e ▸ ht)
      refine ⟨?_, [.compute f inputs w], [], rfl, by simp, ?_, ?_⟩
      · exact hinv.push_own ⟨w, []⟩ (Or.inr ⟨_, hres⟩) hwl (fun _ => hwo) (fun e => absurd e hi)
          (fun n' f hn' hk hne => by rw [hn] at hn'; cases hn'; exact hty)
      · intro e he
        rw [List.mem_singleton.1 he]
        intro s hs'
        obtain ⟨d, hd', hd⟩ := mapM_mem hin hs'
        exact hnl d s hd (hu d hd')
      · intro E apply proj env m m0 vs args hm _ hav
        rw [hargs m m0 vs proj env hm] at hav
        cases hav
        simp only [nodeValue, hk]
        cases hap : apply f (inputs.map (readSlot proj m)) with
        | error e => simp [execute, Instr.run, hap]
        | ok v =>
          refine ⟨_, by simp only [execute, Instr.run, hap]; rfl, ?_⟩
          have := hm.write hlen w v [] a'.layout.length htop (by simp)
            hwl (by simp) hnl (fun hf => absurd hf hfix) ?_
            ⟨fun e => absurd e hi, fun e => absurd e hwo⟩
          · rwa [List.append_nil] at this
          · intro o n' k b hoi hn' hk' hb' e
            cases hal : cfg.allowOverride with
            | true =>
              exact hno o _ (e ▸ h.leaf_own hal o n' k b (by omega) hn' hk' hb')
            | false =>
              refine hfix (e ▸ Or.inl ⟨lt_of_getElem? (hs.input_ty o n' k b hn' hk' hb'),
                hs.input_out b ⟨o, n', k, hn', hk', hb'⟩, by simp [hal]⟩)
  case h_4 p hk =>
    split at hb
    case h_2 => cases hb
    case h_1 s0 d hd =>
      have hsd : slots[d]? = some s0 := by
        rw [hd, mapM_eq_some_iff] at hin
        cases hin with
        | cons h1 _ => exact h1
      have hdi := lt_of_getElem? hsd
      have hud := hu d (by simp [hd])
      have hval : ∀ (E : Type) (apply : F → List V → Except E V) (proj : P → V → V) (env : K → V)
          (m m0 : Frame V) (vs args : List V),
          MemInv cfg layout ns u proj env i slots st.literals st.alloc.layout.length m m0 vs →
          LiteralsAre st.literals m0 → n.deps.mapM (fun d => vs[d]?) = some args →
          nodeValue apply proj env n args =
            some (.ok (readSlot proj m ⟨s0.base, s0.path ++ [p]⟩)) := by
        intro E apply proj env m m0 vs args hm _ hav
        rw [hm.args hlen n.deps [s0] hin hu] at hav
        cases hav
        simp only [nodeValue, hk, List.map_cons, List.map_nil, readSlot_snoc]
      exact maybeCopy_ok (s0 := ⟨s0.base, s0.path ++ [p]⟩) hs hlen (by omega) [] rfl (by simp) (by simp) (Nat.le_refl _) h
        (by simp [hk]) hn (h.hold d s0 hsd hud) (h.slot_lt s0 (List.mem_of_getElem? hsd))
        (fun hi => h.out_new hi s0 (List.mem_of_getElem? hsd)) hval (Except.ok.inj hb)
  case h_5 hk =>
    split at hb
    · cases hb
    · split at hb
      · cases hb
      · rename_i s0 rest _
        split at hb
        · cases hb
        · rename_i hne
          cases hb
          have hs0 : s = ⟨cfg.out, []⟩ := by simpa using hne
          have hmem : (⟨cfg.out, []⟩ : Slot P) ∈ slots := by
            obtain ⟨d, _, hd⟩ := mapM_mem hin (s := s) (by simp)
            rw [← hs0]; exact List.mem_of_getElem? hd
          have hoi : cfg.outIdx < i := by
            rcases Nat.lt_or_ge cfg.outIdx i with h' | h'
            · exact h'
            · exact absurd rfl (h.out_new h' _ hmem)
          have hlen_le := h.len_le
          have hout := hs.out_lt
          refine ⟨?_, [], [], by simp, by simp, by simp, ?_⟩
          · rw [hs0]
            exact h.push_own _ (Or.inl (Or.inr (Or.inl rfl))) (by dsimp only; omega)
              (fun hlt' => by omega) (fun _ => rfl)
              (fun n' f hn' hk' => by rw [hn] at hn'; cases hn'; rw [hk] at hk'; cases hk')
          · intro E apply proj env m m0 vs args hm _ hav
            rw [hm.args hlen n.deps _ hin hu] at hav
            cases hav
            simp only [nodeValue, hk, List.map_cons, List.head?_cons, Option.map_some]
            refine ⟨m, rfl, ?_⟩
            have := hm.push hlen s _ [] _ (Nat.le_refl _) (by simp) rfl (fun e => by omega)
            rwa [List.append_nil] at this

theorem bindNode_ok [DecidableEq T] [DecidableEq P] (hs : Setup cfg layout ns)
    {n : Node K V F P T} {st st' : State V F P T} {s : Slot P} {inputs : List (Slot P)}
    (h : Inv cfg layout ns u i i slots st.literals st.alloc) (hn : ns[i]? = some n)
    (hu : ∀ d ∈ n.deps, i ≤ u d) (hin : n.deps.mapM (fun d => slots[d]?) = some inputs)
    (hb : bindNode cfg i n inputs st = .ok (s, st')) :
    StepOk cfg layout ns u i n slots st (i + 1) s st' := by
  unfold bindNode at hb
  split at hb
  · cases hb
  · rename_i s1 st1 hc
    have hst := constructOutput_ok hs h hn hu hin hc
    cases hb
    have hd : ∀ d ∈ n.deps, d < i + 1 := by
      intro d hd
      obtain ⟨s, hs⟩ := mapM_dep hin hd
      have := lt_of_getElem? hs
      rw [h.len] at this; omega
    refine ⟨(hst.inv.mono (by omega)).release n.deps hd, ?_⟩
    have hlay : (st1.alloc.release i n.deps).layout = st1.alloc.layout := by
      generalize n.deps = ds
      generalize st1.alloc = a
      induction ds generalizing a with
      | nil => rfl
      | cons d ds ih =>
        unfold Alloc.release
        dsimp only
        split
        · split
          · rw [ih]
          · rw [ih]
        · rw [ih]
    dsimp only
    rw [hlay]
    exact hst.run

end Verif.Slots
