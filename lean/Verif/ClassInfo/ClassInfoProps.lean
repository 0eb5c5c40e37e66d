import Verif.ClassInfo.ClassInfoModel

/-! # `is_subclass_of` decides the declared inheritance -/

namespace Verif.ClassInfo

variable {T : Type} [DecidableEq T]

/-- The `ClassInfo` of a registered type. -/
def InfoOf (r : Registry T) (t : T) (info : List Nat) : Prop := r.ids t ≠ 0 ∧ r.records[r.ids t]? = some (some t, info)

/-- What was declared: not at all, as a root, or as a subclass of a type. -/
abbrev Decl (T : Type) := T → Option (Option T)

/-- Runs of a program that registers classes; the parent of a subclass has been registered before (`GetClassInfo<ParentClass>()`). -/
inductive Run : Registry T → Decl T → Prop
  | init : Run Registry.init (fun _ => none)
  | root {r d t info r'} : Run r d → registerRoot r t = some (info, r') → Run r' (fun u => if u = t then some none else d u)
  | sub {r d t p pinfo info r'} : Run r d → InfoOf r p pinfo → registerSubclass r t pinfo = some (info, r') →
      Run r' (fun u => if u = t then some (some p) else d u)

/-- The declared inheritance. -/
inductive Sub (d : Decl T) : T → T → Prop
  | refl {t} : d t ≠ none → Sub d t t
  | step {t p u} : d t = some (some p) → Sub d p u → Sub d t u

/-- The ids of the ancestors of a type, from the root to the type. -/
inductive Path (ids : T → Nat) (d : Decl T) : T → List Nat → Prop
  | root {t} : d t = some none → Path ids d t [ids t]
  | sub {t p l} : d t = some (some p) → Path ids d p l → Path ids d t (l ++ [ids t])

structure Inv (r : Registry T) (d : Decl T) : Prop where
  pos : 0 < r.records.length
  declared : ∀ t, r.ids t ≠ 0 ↔ d t ≠ none
  path : ∀ t, r.ids t ≠ 0 → ∃ l, Path r.ids d t l ∧ r.records[r.ids t]? = some (some t, l.length :: l)

theorem Path.ne_nil {ids : T → Nat} {d : Decl T} {t : T} {l : List Nat} (h : Path ids d t l) : l ≠ [] := by cases h <;> simp

theorem Path.last {ids : T → Nat} {d : Decl T} {t : T} {l : List Nat} (h : Path ids d t l) : l.getLast? = some (ids t) := by
  cases h <;> simp

theorem Path.declared {ids : T → Nat} {d : Decl T} {t : T} {l : List Nat} (h : Path ids d t l) : d t ≠ none := by
  cases h with
  | root h => simp [h]
  | sub h _ => simp [h]

theorem Path.unique {ids : T → Nat} {d : Decl T} {t : T} {l l' : List Nat} (h : Path ids d t l) (h' : Path ids d t l') : l = l' := by
  induction h generalizing l' with
  | root h =>
    cases h' with
    | root _ => rfl
    | sub h2 _ => rw [h] at h2; cases h2
  | sub h _ ih =>
    cases h' with
    | root h2 => rw [h] at h2; cases h2
    | sub h2 hp =>
      rw [h] at h2
      obtain rfl := Option.some.inj (Option.some.inj h2)
      rw [ih hp]

/-- Paths do not notice a new type. -/
theorem Path.extend {ids : T → Nat} {d : Decl T} {t : T} {l : List Nat} (h : Path ids d t l) {x : T} (hx : d x = none) (id : Nat) (o : Option T) :
    Path (fun u => if u = x then id else ids u) (fun u => if u = x then some o else d u) t l := by
  induction h with
  | root h =>
    rename_i t
    have hne : t ≠ x := by rintro rfl; rw [hx] at h; cases h
    have := Path.root (ids := fun u => if u = x then id else ids u) (d := fun u => if u = x then some o else d u) (t := t) (by simp [hne, h])
    simpa [hne] using this
  | sub h hp ih =>
    rename_i t p l
    have hne : t ≠ x := by rintro rfl; rw [hx] at h; cases h
    have := Path.sub (ids := fun u => if u = x then id else ids u) (d := fun u => if u = x then some o else d u) (t := t) (by simp [hne, h]) ih
    simpa [hne] using this

theorem Inv.inj {r : Registry T} {d : Decl T} (h : Inv r d) {t u : T} (ht : r.ids t ≠ 0) (he : r.ids t = r.ids u) : t = u := by
  obtain ⟨_, _, h1⟩ := h.path t ht
  obtain ⟨_, _, h2⟩ := h.path u (he ▸ ht)
  rw [he, h2] at h1
  simp only [Option.some.injEq, Prod.mk.injEq] at h1
  exact h1.1.symm

theorem fresh_inv {r : Registry T} {d : Decl T} (h : Inv r d) {t : T} (ht : r.ids t = 0) (o : Option T) (l : List Nat)
    (hp : Path (fun u => if u = t then r.records.length else r.ids u) (fun u => if u = t then some o else d u) t (l ++ [r.records.length])) :
    Inv ⟨fun u => if u = t then r.records.length else r.ids u, r.records ++ [(some t, (l.length + 1) :: (l ++ [r.records.length]))]⟩
      (fun u => if u = t then some o else d u) := by
  have hd : d t = none := by
    have := h.declared t
    cases hd : d t with
    | none => rfl
    | some o => exact absurd ht (this.2 (by simp [hd]))
  refine ⟨by simp, ?_, ?_⟩
  · intro u
    by_cases hu : u = t
    · have := h.pos
      simp only [hu, if_true]
      constructor
      · intro _; simp
      · intro _; omega
    · simp only [hu, if_false]; exact h.declared u
  · intro u hu
    by_cases hut : u = t
    · subst hut
      exact ⟨_, hp, by simp⟩
    · simp only [hut, if_false] at hu ⊢
      obtain ⟨l', h1, h2⟩ := h.path u hu
      refine ⟨l', h1.extend hd _ _, ?_⟩
      have hlt : r.ids u < r.records.length := (List.getElem?_eq_some_iff.1 h2).1
      rw [List.getElem?_append_left hlt]
      exact h2

theorem set_same {d : Decl T} {t : T} {o : Option T} (h : d t = some o) : (fun u => if u = t then some o else d u) = d := by
  funext u
  by_cases hu : u = t
  · subst hu; simp [h]
  · simp [hu]

theorem info_lineage {r : Registry T} {d : Decl T} (h : Inv r d) {t : T} {info : List Nat} (hi : InfoOf r t info) :
    ∃ l, Path r.ids d t l ∧ info = l.length :: l := by
  obtain ⟨l, h1, h2⟩ := h.path t hi.1
  rw [hi.2] at h2
  simp only [Option.some.injEq, Prod.mk.injEq, true_and] at h2
  exact ⟨l, h1, h2⟩

theorem run_inv {r : Registry T} {d : Decl T} (h : Run r d) : Inv r d := by
  induction h with
  | init => exact ⟨by simp [Registry.init], by simp [Registry.init], by simp [Registry.init]⟩
  | root _ hreg ih =>
    rename_i r d t info r' _
    unfold registerRoot registerClass at hreg
    by_cases ht : r.ids t = 0
    · rw [if_pos ht] at hreg
      split at hreg
      · cases hreg
      · split at hreg
        · cases hreg
        · simp only [Option.some.injEq, Prod.mk.injEq] at hreg
          obtain ⟨_, rfl⟩ := hreg
          refine fresh_inv ih ht none [] ?_
          have := Path.root (ids := fun u => if u = t then r.records.length else r.ids u) (d := fun u => if u = t then some none else d u) (t := t)
            (by simp)
          simpa using this
    · rw [if_neg ht] at hreg
      obtain ⟨l, h1, h2⟩ := ih.path t ht
      rw [h2] at hreg
      simp only [List.getLast?_nil] at hreg
      split at hreg
      · cases hreg
      · rename_i hlen
        simp only [Option.some.injEq, Prod.mk.injEq] at hreg
        obtain ⟨_, rfl⟩ := hreg
        have hd : d t = some none := by
          cases h1 with
          | root h => exact h
          | sub _ hp =>
            have := List.length_pos_iff.2 hp.ne_nil
            simp only [List.length_cons, List.length_append, List.length_nil] at hlen; omega
        rw [set_same hd]; exact ih
  | sub _ hinfo hreg ih =>
    rename_i r d t p pinfo info r' _
    obtain ⟨lp, hp1, rfl⟩ := info_lineage ih hinfo
    unfold registerSubclass at hreg
    dsimp only at hreg
    rw [if_neg (Nat.lt_irrefl _), List.take_length] at hreg
    unfold registerClass at hreg
    by_cases ht : r.ids t = 0
    · rw [if_pos ht] at hreg
      split at hreg
      · cases hreg
      · split at hreg
        · cases hreg
        · simp only [Option.some.injEq, Prod.mk.injEq] at hreg
          obtain ⟨_, rfl⟩ := hreg
          refine fresh_inv ih ht (some p) lp ?_
          have hd : d t = none := by
            cases hd : d t with
            | none => rfl
            | some o => exact absurd ht ((ih.declared t).2 (by simp [hd]))
          have := Path.sub (ids := fun u => if u = t then r.records.length else r.ids u) (d := fun u => if u = t then some (some p) else d u) (t := t)
            (by simp) (hp1.extend hd r.records.length (some p))
          simpa using this
    · rw [if_neg ht] at hreg
      obtain ⟨l, h1, h2⟩ := ih.path t ht
      rw [h2, hp1.last] at hreg
      dsimp only at hreg
      split at hreg
      · cases hreg
      · rename_i hlen
        split at hreg
        · cases hreg
        · rename_i hsame
          simp only [Option.some.injEq, Prod.mk.injEq] at hreg
          obtain ⟨_, rfl⟩ := hreg
          have hd : d t = some (some p) := by
            cases h1 with
            | root h => simp at hlen
            | sub h hq =>
              rename_i q lq _
              simp only [not_or, Classical.not_not] at hsame
              have hlast := hq.last
              have hpos := List.length_pos_iff.2 hq.ne_nil
              have h3 := hsame.2
              simp only [List.length_cons, List.length_append, List.length_nil] at h3
              rw [show lq.length + (0 + 1) + 1 - 2 = (lq.length - 1) + 1 by omega, List.getElem?_cons_succ,
                List.getElem?_append_left (by omega), ← List.getLast?_eq_getElem?, hlast] at h3
              have hqp := ih.inj ((ih.declared q).2 hq.declared) (Option.some.inj h3)
              rw [h, hqp]
          rw [set_same hd]; exact ih

theorem path_ancestor {ids : T → Nat} {d : Decl T} {t : T} {l : List Nat} (h : Path ids d t l) (i x : Nat) (hi : l[i]? = some x) :
    ∃ u, Sub d t u ∧ ids u = x ∧ d u ≠ none := by
  induction h generalizing i with
  | root h =>
    rename_i t
    cases i with
    | zero => simp at hi; exact ⟨t, .refl (by simp [h]), hi, by simp [h]⟩
    | succ i => simp at hi
  | sub h hp ih =>
    rename_i t p l
    by_cases hlt : i < l.length
    · rw [List.getElem?_append_left hlt] at hi
      obtain ⟨u, h1, h2, h3⟩ := ih i hi
      exact ⟨u, .step h h1, h2, h3⟩
    · have : i = l.length := by
        have := (List.getElem?_eq_some_iff.1 hi).1
        simp at this; omega
      subst this
      simp at hi
      exact ⟨t, .refl (by simp [h]), hi, by simp [h]⟩

theorem sub_prefix {ids : T → Nat} {d : Decl T} {t u : T} (h : Sub d t u) {l : List Nat} (hl : Path ids d t l) : ∃ l', Path ids d u l' ∧ l' <+: l := by
  induction h generalizing l with
  | refl _ => exact ⟨l, hl, List.prefix_rfl⟩
  | step h _ ih =>
    cases hl with
    | root h2 => rw [h] at h2; cases h2
    | sub h2 hp =>
      rw [h] at h2
      obtain rfl := Option.some.inj (Option.some.inj h2)
      obtain ⟨l', h3, h4⟩ := ih hp
      exact ⟨l', h3, h4.trans (List.prefix_append _ _)⟩

/-- **`is_subclass_of` answers exactly whether a class was declared, directly or through other classes, as a subclass of the other, and never
reads outside of the arrays** — for all programs. -/
theorem is_subclass_iff {r : Registry T} {d : Decl T} (h : Run r d) {a b : T} {ia ib : List Nat} (ha : InfoOf r a ia) (hb : InfoOf r b ib) :
    ∃ x, isSubclassOf ia ib = some x ∧ (x = true ↔ Sub d a b) := by
  have hinv := run_inv h
  obtain ⟨la, pa, rfl⟩ := info_lineage hinv ha
  obtain ⟨lb, pb, rfl⟩ := info_lineage hinv hb
  have hpos := List.length_pos_iff.2 pb.ne_nil
  have hlast : lb[lb.length - 1]? = some (r.ids b) := by rw [← List.getLast?_eq_getElem?]; exact pb.last
  have hlb : (lb.length :: lb)[lb.length]? = some (r.ids b) := by
    rw [show lb.length = (lb.length - 1) + 1 by omega, List.getElem?_cons_succ]
    exact hlast
  have hpre : Sub d a b → lb <+: la := by
    intro hs
    obtain ⟨l', h1, h2⟩ := sub_prefix hs pa
    rw [pb.unique h1]; exact h2
  unfold isSubclassOf
  simp only [List.getElem?_cons_zero, hlb]
  by_cases hlen : la.length ≥ lb.length
  · rw [if_pos hlen]
    have hget : (la.length :: la)[lb.length]? = la[lb.length - 1]? := by
      conv => lhs; rw [show lb.length = (lb.length - 1) + 1 by omega]
      rw [List.getElem?_cons_succ]
    have hlt : lb.length - 1 < la.length := by omega
    rw [hget, List.getElem?_eq_getElem hlt]
    refine ⟨_, rfl, ?_⟩
    rw [decide_eq_true_eq]
    constructor
    · intro he
      obtain ⟨u, h1, h2, h3⟩ := path_ancestor pa (lb.length - 1) _ (List.getElem?_eq_getElem hlt)
      have := hinv.inj ((hinv.declared u).2 h3) (h2.trans he)
      rw [← this]; exact h1
    · intro hs
      obtain ⟨t, rfl⟩ := hpre hs
      rw [List.getElem_append_left (by omega)]
      have := List.getElem?_eq_getElem (l := lb) (i := lb.length - 1) (by omega)
      rw [hlast] at this
      exact (Option.some.inj this).symm
  · rw [if_neg hlen]
    refine ⟨false, rfl, ?_⟩
    simp only [Bool.false_eq_true, false_iff]
    intro hs
    have := (hpre hs).length_le
    omega

/-- The name of a `ClassInfo` is that of the type it was made for. -/
theorem name_of_info {r : Registry T} {d : Decl T} (h : Run r d) {a : T} {ia : List Nat} (ha : InfoOf r a ia) : nameOf r ia = some a := by
  obtain ⟨la, pa, rfl⟩ := info_lineage (run_inv h) ha
  have hpos := List.length_pos_iff.2 pa.ne_nil
  have hlast : (la.length :: la)[la.length]? = some (r.ids a) := by
    conv => lhs; rw [show la.length = (la.length - 1) + 1 by omega]
    rw [List.getElem?_cons_succ, ← List.getLast?_eq_getElem?]
    exact pa.last
  unfold nameOf
  simp only [List.getElem?_cons_zero, hlast, ha.2]

/-- Registering returns the `ClassInfo` of the type, and that of other types stays. -/
theorem register_returns {r r' : Registry T} {d : Decl T} (h : Run r d) {t : T} {anc info : List Nat} (hreg : registerClass r t anc = some (info, r')) :
    InfoOf r' t info ∧ ∀ u iu, InfoOf r u iu → InfoOf r' u iu := by
  have hinv := run_inv h
  unfold registerClass at hreg
  by_cases ht : r.ids t = 0
  · rw [if_pos ht] at hreg
    split at hreg
    · cases hreg
    · split at hreg
      · cases hreg
      · simp only [Option.some.injEq, Prod.mk.injEq] at hreg
        obtain ⟨rfl, rfl⟩ := hreg
        have := hinv.pos
        refine ⟨⟨by simp only [if_true]; omega, by simp⟩, ?_⟩
        intro u iu hu
        have hne : u ≠ t := by rintro rfl; exact hu.1 ht
        have hlt : r.ids u < r.records.length := (List.getElem?_eq_some_iff.1 hu.2).1
        refine ⟨by simp only [hne, if_false]; exact hu.1, ?_⟩
        simp only [hne, if_false]
        rw [List.getElem?_append_left hlt]
        exact hu.2
  · rw [if_neg ht] at hreg
    obtain ⟨l, h1, h2⟩ := hinv.path t ht
    rw [h2] at hreg
    have key : info = l.length :: l ∧ r' = r := by
      cases hg : anc.getLast? with
      | none =>
        rw [hg] at hreg
        dsimp only at hreg
        split at hreg
        · cases hreg
        · simp only [Option.some.injEq, Prod.mk.injEq] at hreg; exact ⟨hreg.1.symm, hreg.2.symm⟩
      | some p =>
        rw [hg] at hreg
        dsimp only at hreg
        split at hreg
        · cases hreg
        · split at hreg
          · cases hreg
          · simp only [Option.some.injEq, Prod.mk.injEq] at hreg; exact ⟨hreg.1.symm, hreg.2.symm⟩
    obtain ⟨rfl, rfl⟩ := key
    exact ⟨⟨ht, h2⟩, fun _ _ hu => hu⟩

/-- **A declaration that contradicts an earlier one is fatal**: a registered type can only be registered again with the same parent. -/
theorem conflict_fatal {r : Registry T} {d : Decl T} (h : Run r d) {t p : T} {pinfo : List Nat} (hp : InfoOf r p pinfo) (o : Option T)
    (hd : d t = some o) (hne : o ≠ some p) : registerSubclass r t pinfo = none := by
  cases hreg : registerSubclass r t pinfo with
  | none => rfl
  | some x =>
    exfalso
    obtain ⟨info, r'⟩ := x
    have hinv := run_inv h
    have hinv' := run_inv (.sub h hp hreg)
    have hids : r.ids t ≠ 0 := (hinv.declared t).2 (by simp [hd])
    -- the registry did not change
    have hr : r' = r := by
      obtain ⟨lp, hp1, rfl⟩ := info_lineage hinv hp
      unfold registerSubclass at hreg
      dsimp only at hreg
      rw [if_neg (Nat.lt_irrefl _), List.take_length] at hreg
      unfold registerClass at hreg
      rw [if_neg hids] at hreg
      obtain ⟨l, h1, h2⟩ := hinv.path t hids
      rw [h2, hp1.last] at hreg
      dsimp only at hreg
      split at hreg
      · cases hreg
      · split at hreg
        · cases hreg
        · simp only [Option.some.injEq, Prod.mk.injEq] at hreg; exact hreg.2.symm
    subst hr
    obtain ⟨l, h1, h2⟩ := hinv.path t hids
    obtain ⟨l', h3, h4⟩ := hinv'.path t hids
    rw [h2] at h4
    simp only [Option.some.injEq, Prod.mk.injEq, true_and, List.cons.injEq] at h4
    obtain ⟨_, rfl⟩ := h4
    generalize hl : l = l2 at h3
    cases h3 with
    | root h5 => simp at h5
    | sub h5 hp5 =>
      rename_i p5 l0
      simp only [if_true, Option.some.injEq] at h5
      subst h5
      have hlast := hp5.last
      have hpne := List.length_pos_iff.2 hp5.ne_nil
      cases h1 with
      | root h6 =>
        have := congrArg List.length hl
        simp only [List.length_cons, List.length_append, List.length_nil] at this
        omega
      | sub h6 hp6 =>
        have hl : _ = l0 := (List.append_inj' hl rfl).1
        subst hl
        have hq := hp6.last
        rw [hlast] at hq
        have hpq := hinv.inj hp.1 (Option.some.inj hq)
        rw [hd] at h6
        simp only [Option.some.injEq] at h6
        exact hne (by rw [h6, hpq])

/-! ## Concrete cases: 0 is a root, 1 and 2 are its subclasses, 3 is a subclass of 1 -/

def exReg : Option (Registry Nat) := do
  let (i0, r) ← registerRoot Registry.init 0
  let (i1, r) ← registerSubclass r 1 i0
  let (_, r) ← registerSubclass r 2 i0
  let (_, r) ← registerSubclass r 3 i1
  return r

example : exReg.map (fun r => r.records.map Prod.snd) = some [[], [1, 1], [2, 1, 2], [2, 1, 3], [3, 1, 2, 4]] := rfl
example : isSubclassOf [3, 1, 2, 4] [2, 1, 2] = some true := rfl
example : isSubclassOf [3, 1, 2, 4] [2, 1, 3] = some false := rfl
example : isSubclassOf [1, 1] [2, 1, 2] = some false := rfl
example : (exReg.bind fun r => registerSubclass r 3 [2, 1, 3]).isNone = true := rfl
example : (exReg.bind fun r => registerSubclass r 3 [2, 1, 2]).isSome = true := rfl
example : (exReg.bind fun r => registerRoot r 3).isNone = true := rfl

end Verif.ClassInfo
