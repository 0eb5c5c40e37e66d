import Verif.Derived.DerivedModel

/-! # Labelled types -/

namespace Verif.Derived

variable {L : Type} [DecidableEq L]

/-- A step of the program: a labelled type is requested, or another type is registered whose base, if it has one, exists and is not derived. -/
inductive Step (empty : L) : State L → State L → Prop
  | label {s s' t l r} : t < s.next → getLabeled empty s t l = some (r, s') → Step empty s s'
  | other {s i} : i.label = none → (∀ ob, i.base = some ob → ∃ b, ob = some b ∧ b < s.next ∧ (s.info b).base = none) → Step empty s (s.add i)

inductive Steps (empty : L) : State L → State L → Prop
  | refl {s} : Steps empty s s
  | tail {s s' s''} : Steps empty s s' → Step empty s' s'' → Steps empty s s''

/-- States of a program: it starts without types. -/
def Reachable (empty : L) (s : State L) : Prop := ∃ info, Steps empty ⟨info, 0, []⟩ s

structure Inv (empty : L) (s : State L) : Prop where
  base : ∀ t ob, t < s.next → (s.info t).base = some ob → ∃ b, ob = some b ∧ b < s.next ∧ (s.info b).base = none
  reg : ∀ b l t, ((b, l), t) ∈ s.reg → t < s.next ∧ (s.info t).base = some (some b) ∧ (s.info t).label = some l
  found : ∀ t l, t < s.next → (s.info t).label = some l → l ≠ empty ∧ ∃ b, (s.info t).base = some (some b) ∧ findReg (b, l) s.reg = some t

theorem findReg_mem {key : Nat × L} {reg : List ((Nat × L) × Nat)} {t : Nat} (h : findReg key reg = some t) : (key, t) ∈ reg := by
  induction reg with
  | nil => cases h
  | cons e reg ih =>
    obtain ⟨k, u⟩ := e
    simp only [findReg] at h
    split at h
    · rename_i hk; subst hk; cases h; simp
    · exact List.mem_cons_of_mem _ (ih h)

theorem Inv.decays {empty : L} {s : State L} (h : Inv empty s) {t : Nat} (ht : t < s.next) :
    ∃ b, decay s.info (some t) = some b ∧ b < s.next ∧ (s.info b).base = none := by
  cases hb : (s.info t).base with
  | none => exact ⟨t, by simp [decay, hb], ht, hb⟩
  | some ob =>
    obtain ⟨b, rfl, h1, h2⟩ := h.base t ob ht hb
    exact ⟨b, by simp [decay, hb], h1, h2⟩

/-- What a later state keeps. -/
structure Ext (s s' : State L) : Prop where
  next : s.next ≤ s'.next
  info : ∀ t, t < s.next → s'.info t = s.info t
  reg : ∀ key t, findReg key s.reg = some t → findReg key s'.reg = some t

theorem add_inv {empty : L} {s : State L} (h : Inv empty s) (i : Info L)
    (hb : ∀ ob, i.base = some ob → ∃ b, ob = some b ∧ b < s.next ∧ (s.info b).base = none) :
    ∀ t ob, t < s.next + 1 → ((s.add i).info t).base = some ob →
      ∃ b, ob = some b ∧ b < s.next + 1 ∧ ((s.add i).info b).base = none := by
  intro t ob ht hbase
  simp only [State.add] at hbase ⊢
  by_cases htn : t = s.next
  · rw [if_pos htn] at hbase
    obtain ⟨b, h1, h2, h3⟩ := hb ob hbase
    exact ⟨b, h1, by omega, by rw [if_neg (by omega)]; exact h3⟩
  · rw [if_neg htn] at hbase
    obtain ⟨b, h1, h2, h3⟩ := h.base t ob (by omega) hbase
    exact ⟨b, h1, by omega, by rw [if_neg (by omega)]; exact h3⟩

theorem other_inv {empty : L} {s : State L} (h : Inv empty s) (i : Info L) (hl : i.label = none)
    (hb : ∀ ob, i.base = some ob → ∃ b, ob = some b ∧ b < s.next ∧ (s.info b).base = none) : Inv empty (s.add i) ∧ Ext s (s.add i) := by
  refine ⟨⟨add_inv h i hb, ?_, ?_⟩, ⟨by simp [State.add], ?_, fun _ _ h => h⟩⟩
  · intro b l t hm
    obtain ⟨h1, h2⟩ := h.reg b l t hm
    simp only [State.add]
    rw [if_neg (by omega)]
    exact ⟨by omega, h2⟩
  · intro t l ht hlab
    simp only [State.add] at hlab ht ⊢
    by_cases htn : t = s.next
    · rw [if_pos htn, hl] at hlab; cases hlab
    · rw [if_neg htn] at hlab
      rw [if_neg htn]
      exact h.found t l (by omega) hlab
  · intro t ht
    simp only [State.add]
    rw [if_neg (by omega)]

/-- What a call of `GetLabeledQType` does. -/
theorem getLabeled_spec {empty : L} {s : State L} (h : Inv empty s) {t : Nat} (ht : t < s.next) (l : L) :
    ∃ r s' b, getLabeled empty s t l = some (r, s') ∧ Inv empty s' ∧ Ext s s' ∧ r < s'.next ∧ decay s.info (some t) = some b ∧
      (l = empty → r = b ∧ s' = s) ∧ (l ≠ empty → findReg (b, l) s'.reg = some r ∧ (s'.info r).base = some (some b) ∧ (s'.info r).label = some l) := by
  obtain ⟨b, hd, hbn, hbb⟩ := h.decays ht
  unfold getLabeled
  rw [hd]
  dsimp only
  by_cases hl : l = empty
  · rw [if_pos hl]
    exact ⟨b, s, b, rfl, h, ⟨Nat.le_refl _, fun _ _ => rfl, fun _ _ h => h⟩, hbn, rfl, fun _ => ⟨rfl, rfl⟩, fun hne => absurd hl hne⟩
  · rw [if_neg hl]
    unfold registryGet
    cases hf : findReg (b, l) s.reg with
    | some r =>
      obtain ⟨h1, h2, h3⟩ := h.reg b l r (findReg_mem hf)
      exact ⟨r, s, b, rfl, h, ⟨Nat.le_refl _, fun _ _ => rfl, fun _ _ h => h⟩, h1, rfl, fun he => absurd he hl, fun _ => ⟨hf, h2, h3⟩⟩
    | none =>
      dsimp only
      have hbase : ∀ ob, (basicDerived s.info b none (some l)).base = some ob → ∃ b', ob = some b' ∧ b' < s.next ∧ (s.info b').base = none := by
        intro ob hob
        simp only [basicDerived, Option.some.injEq] at hob
        exact ⟨b, hob.symm, hbn, hbb⟩
      refine ⟨s.next, _, b, rfl, ⟨add_inv h _ hbase, ?_, ?_⟩, ⟨by simp [State.add], ?_, ?_⟩, by simp [State.add], rfl, fun he => absurd he hl, ?_⟩
      · intro b' l' t' hm
        rcases List.mem_cons.1 hm with hm | hm
        · cases hm
          simp [State.add, basicDerived]
        · obtain ⟨h1, h2⟩ := h.reg b' l' t' hm
          simp only [State.add]
          rw [if_neg (by omega)]
          exact ⟨by omega, h2⟩
      · intro t' l' ht' hlab
        simp only [State.add] at hlab ht' ⊢
        by_cases htn : t' = s.next
        · rw [if_pos htn] at hlab ⊢
          simp only [basicDerived, Option.some.injEq] at hlab
          subst hlab
          exact ⟨hl, b, rfl, by simp [findReg, htn]⟩
        · rw [if_neg htn] at hlab ⊢
          obtain ⟨h1, b', h2, h3⟩ := h.found t' l' (by omega) hlab
          refine ⟨h1, b', h2, ?_⟩
          simp only [findReg]
          rw [if_neg]
          · exact h3
          · intro he
            rw [← he, hf] at h3; cases h3
      · intro t' ht'
        simp only [State.add]
        rw [if_neg (by omega)]
      · intro key t' hk
        simp only [findReg]
        rw [if_neg]
        · exact hk
        · intro he
          rw [← he, hf] at hk; cases hk
      · intro _
        simp [findReg, State.add, basicDerived]

theorem Ext.trans {s s' s'' : State L} (h : Ext s s') (h' : Ext s' s'') : Ext s s'' :=
  ⟨Nat.le_trans h.next h'.next, fun t ht => (h'.info t (Nat.lt_of_lt_of_le ht h.next)).trans (h.info t ht), fun k t hk => h'.reg k t (h.reg k t hk)⟩

theorem step_inv {empty : L} {s s' : State L} (h : Inv empty s) (hs : Step empty s s') : Inv empty s' ∧ Ext s s' := by
  cases hs with
  | label ht hg =>
    rename_i t l r
    obtain ⟨r', s'', b, h1, h2, h3, _⟩ := getLabeled_spec h ht l
    rw [h1] at hg
    cases hg
    exact ⟨h2, h3⟩
  | other hl hb => exact other_inv h _ hl hb

theorem steps_inv {empty : L} {s s' : State L} (h : Inv empty s) (hs : Steps empty s s') : Inv empty s' ∧ Ext s s' := by
  induction hs with
  | refl => exact ⟨h, Nat.le_refl _, fun _ _ => rfl, fun _ _ h => h⟩
  | tail _ hs ih =>
    obtain ⟨h1, h2⟩ := ih
    obtain ⟨h3, h4⟩ := step_inv h1 hs
    exact ⟨h3, h2.trans h4⟩

theorem reachable_inv {empty : L} {s : State L} (h : Reachable empty s) : Inv empty s := by
  obtain ⟨info, hs⟩ := h
  refine (steps_inv ⟨?_, ?_, ?_⟩ hs).1
  · intro t ob ht; exact absurd ht (Nat.not_lt_zero _)
  · intro b l t hm; simp at hm
  · intro t l ht; exact absurd ht (Nat.not_lt_zero _)

/-- **A labelled type carries its label and decays to what the given type decays to; the empty label gives the base itself** — in any state of
any program. -/
theorem label_of_labeled {empty : L} {s : State L} (hr : Reachable empty s) {t : Nat} (ht : t < s.next) (l : L) :
    ∃ r s', getLabeled empty s t l = some (r, s') ∧ getLabel empty s' r = l ∧ decay s'.info (some r) = decay s.info (some t) ∧
      (l = empty → some r = decay s.info (some t)) := by
  have h := reachable_inv hr
  obtain ⟨r, s', b, h1, h2, h3, h4, h5, h6, h7⟩ := getLabeled_spec h ht l
  by_cases hl : l = empty
  · obtain ⟨rfl, rfl⟩ := h6 hl
    obtain ⟨b', hb1, hb2, hb3⟩ := h.decays ht
    rw [h5] at hb1
    obtain rfl := Option.some.inj hb1
    refine ⟨_, _, h1, ?_, ?_, fun _ => h5.symm⟩
    · unfold getLabel
      cases hlab : (s'.info r).label with
      | none => simp [hl]
      | some l' =>
        obtain ⟨_, b', hb', _⟩ := h.found r l' hb2 hlab
        rw [hb3] at hb'; cases hb'
    · rw [h5]; simp [decay, hb3]
  · obtain ⟨_, h8, h9⟩ := h7 hl
    exact ⟨r, s', h1, by simp [getLabel, h9], by rw [h5]; simp [decay, h8], fun he => absurd he hl⟩

/-- **The same base and label always give the same type**, whatever happens in between, and the second call changes nothing. -/
theorem label_stable {empty : L} {s s' s'' : State L} (hr : Reachable empty s) {t t' r : Nat} {l : L} (ht : t < s.next)
    (hg : getLabeled empty s t l = some (r, s')) (hs : Steps empty s' s'') (ht' : t' < s''.next)
    (hd : decay s''.info (some t') = decay s''.info (some t)) : getLabeled empty s'' t' l = some (r, s'') := by
  have h := reachable_inv hr
  obtain ⟨r', s1, b, h1, h2, h3, h4, h5, h6, h7⟩ := getLabeled_spec h ht l
  rw [h1] at hg
  cases hg
  obtain ⟨h8, h9⟩ := steps_inv h2 hs
  have hinfo : s''.info t = s.info t := (h3.trans h9).info t ht
  have hdec : decay s''.info (some t) = some b := by
    rw [← h5]; simp only [decay, hinfo]
  unfold getLabeled
  rw [hd, hdec]
  dsimp only
  by_cases hl : l = empty
  · rw [if_pos hl, (h6 hl).1]
  · rw [if_neg hl]
    unfold registryGet
    rw [h9.reg _ _ (h7 hl).1]

/-- **Different bases or labels give different types.** -/
theorem label_injective {empty : L} {s s' s'' s3 : State L} (hr : Reachable empty s) {t t' r : Nat} {l l' : L} (ht : t < s.next)
    (hg : getLabeled empty s t l = some (r, s')) (hs : Steps empty s' s'') (ht' : t' < s''.next)
    (hg' : getLabeled empty s'' t' l' = some (r, s3)) : l = l' ∧ decay s''.info (some t) = decay s''.info (some t') := by
  have hinv := reachable_inv hr
  have hr'' : Reachable empty s'' := by
    obtain ⟨info, hs0⟩ := hr
    have hs1 : Steps empty ⟨info, 0, []⟩ s' := .tail hs0 (.label ht hg)
    refine ⟨info, ?_⟩
    clear hg' ht'
    induction hs with
    | refl => exact hs1
    | tail _ hst ih => exact .tail ih hst
  obtain ⟨r1, s1, h1, h2, h3, _⟩ := label_of_labeled hr ht l
  rw [h1] at hg; cases hg
  obtain ⟨r1', s1', b1, g1, g2, g3, g4, _⟩ := getLabeled_spec hinv ht l
  rw [h1] at g1; cases g1
  obtain ⟨k1, k2⟩ := steps_inv g2 hs
  obtain ⟨r2, s2, h4, h5, h6, _⟩ := label_of_labeled hr'' ht' l'
  rw [h4] at hg'; cases hg'
  obtain ⟨r2', s2', b2, g5, g6, g7, _⟩ := getLabeled_spec (reachable_inv hr'') ht' l'
  rw [h4] at g5; cases g5
  have e := k2.trans g7
  have hinfo : s3.info r = s'.info r := e.info r g4
  have ht2 : s''.info t = s.info t := (g3.trans k2).info t ht
  constructor
  · rw [← h2, ← h5]; simp only [getLabel, hinfo]
  · have hl : decay s''.info (some t) = decay s.info (some t) := by simp only [decay, ht2]
    rw [hl, ← h3, ← h6]; simp only [decay, hinfo]

/-! ## Representation -/

/-- **A function for a label is replaced only with permission**: setting fails exactly if there is a function and no permission, and then nothing
changes; otherwise the new function is used for the label, and other labels keep theirs. -/
theorem repr_set {R S : Type} (reg : ReprReg L R) (l : L) (fn : Option R) (override : Bool) (run : R → Option S) (fallback : S) :
    ((setRepr reg l fn override).1 = false ↔ override = false ∧ ∃ f, reg l = some (some f)) ∧
    ((setRepr reg l fn override).1 = false → (setRepr reg l fn override).2 = reg) ∧
    ((setRepr reg l fn override).1 = true → reprToken (setRepr reg l fn override).2 run l fallback = ((fn.bind run).getD fallback)) ∧
    ∀ k, k ≠ l → reprToken (setRepr reg l fn override).2 run k fallback = reprToken reg run k fallback := by
  have key : ∀ reg' : ReprReg L R, (reg' = fun k => if k = l then some fn else reg k) →
      reprToken reg' run l fallback = ((fn.bind run).getD fallback) ∧ ∀ k, k ≠ l → reprToken reg' run k fallback = reprToken reg run k fallback := by
    rintro _ rfl
    constructor
    · unfold reprToken
      simp only [if_true]
      cases fn with
      | none => rfl
      | some f =>
        simp only [Option.bind_some]
        cases run f <;> rfl
    · intro k hk
      unfold reprToken
      simp only [if_neg hk]
  unfold setRepr
  cases hrec : reg l with
  | none =>
    obtain ⟨h1, h2⟩ := key _ rfl
    exact ⟨by simp, by simp, fun _ => h1, h2⟩
  | some of =>
    cases of with
    | none =>
      obtain ⟨h1, h2⟩ := key _ rfl
      exact ⟨by simp, by simp, fun _ => h1, h2⟩
    | some f =>
      cases override with
      | false => exact ⟨by simp, by simp, by simp, fun _ _ => rfl⟩
      | true =>
        obtain ⟨h1, h2⟩ := key _ rfl
        exact ⟨by simp, by simp, fun _ => h1, h2⟩

/-! ## Concrete cases -/

/-- One plain type. -/
def exState : State Nat := State.add ⟨fun _ => ⟨0, 0, 0, [], none, none, none⟩, 0, []⟩ ⟨3, 8, 8, [], none, none, none⟩

example : Reachable 0 exState := ⟨_, .tail .refl (.other rfl (by simp))⟩

/-- Labelling, relabelling, removing the label. -/
example : (getLabeled 0 exState 0 7).map Prod.fst = some 1 := rfl
example : ((getLabeled 0 exState 0 7).bind fun p => getLabeled 0 p.2 1 8).map Prod.fst = some 2 := rfl
example : ((getLabeled 0 exState 0 7).bind fun p => getLabeled 0 p.2 1 0).map Prod.fst = some 0 := rfl
example : ((getLabeled 0 exState 0 7).bind fun p => getLabeled 0 p.2 1 7).map Prod.fst = some 1 := rfl
example : (setRepr (fun _ => some (some 1)) 4 (some 2) false).1 = false := rfl

end Verif.Derived
