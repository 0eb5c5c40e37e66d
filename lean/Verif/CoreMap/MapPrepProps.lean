import Verif.CoreMap.CoreMapModel

/-! # Inference and preparation of `core.map` -/

namespace Verif.CoreMap

variable {V O : Type}

/-- All arrays have the shape `shape`, and there is one. -/
def SameShape (shape : Nat) (tys : List Ty) : Prop := (∃ e, Ty.array shape e ∈ tys) ∧ ∀ s e, Ty.array s e ∈ tys → s = shape

/-- What the mapper is told about an argument: an optional element of an array of which no value is known, or just the argument. -/
def elemAttr : Ty × Option V → Attr V
  | (.array _ e, _) => ⟨some (.optional e), none⟩
  | (q, v) => ⟨some q, v⟩

theorem mapperAttrs_spec (ins : List (Ty × Option V)) : mapperAttrs ins = ins.map elemAttr := by
  induction ins with
  | nil => rfl
  | cons p ins ih =>
    obtain ⟨q, v⟩ := p
    cases q <;> simp [mapperAttrs, ih, elemAttr, Ty.isArray, elementTy]

theorem allTypes_spec (ins : List (Ty × Option V)) : allTypes (ins.map fun p => ⟨some p.1, p.2⟩) = some ins := by
  induction ins with
  | nil => rfl
  | cons p ins ih => simp [allTypes, ih]

open Classical in
theorem deduceLoop_found (tys : List Ty) (f : Nat) :
    deduceShapeLoop tys (some f) = if ∀ s e, Ty.array s e ∈ tys → s = f then some (some f) else none := by
  induction tys with
  | nil => simp [deduceShapeLoop]
  | cons q tys ih =>
    cases q with
    | array s e =>
      simp only [deduceShapeLoop]
      by_cases hs : s = f
      · subst hs
        rw [if_neg (by simp), ih]
        have : (∀ s' e', Ty.array s' e' ∈ tys → s' = s) ↔ ∀ s' e', Ty.array s' e' ∈ Ty.array s e :: tys → s' = s := by
          constructor
          · intro h s' e' hm
            rcases List.mem_cons.1 hm with h' | h'
            · injection h'
            · exact h s' e' h'
          · intro h s' e' hm; exact h s' e' (by simp [hm])
        simp only [this]
      · rw [if_pos hs, if_neg]
        intro h; exact hs (h s e (by simp))
    | scalar n | optional n | op | other n => simp only [deduceShapeLoop, ih, List.mem_cons, reduceCtorEq, false_or]

theorem deduce_iff (tys : List Ty) (shape : Nat) : deduceShape tys = some shape ↔ SameShape shape tys := by
  unfold deduceShape SameShape
  induction tys with
  | nil => simp [deduceShapeLoop]
  | cons q tys ih =>
    cases q with
    | array s e =>
      simp only [deduceShapeLoop]
      rw [deduceLoop_found]
      by_cases h : ∀ s' e', Ty.array s' e' ∈ tys → s' = s
      · rw [if_pos h]
        simp only [Option.some.injEq]
        constructor
        · rintro rfl
          refine ⟨⟨e, by simp⟩, ?_⟩
          intro s' e' hm
          rcases List.mem_cons.1 hm with h' | h'
          · injection h'
          · exact h s' e' h'
        · rintro ⟨_, h2⟩
          exact h2 s e (by simp)
      · rw [if_neg h]
        simp only [reduceCtorEq, false_iff, not_and]
        intro _ h2
        apply h
        intro s' e' hm
        rw [h2 s' e' (by simp [hm]), h2 s e (by simp)]
    | scalar n | optional n | op | other n =>
      simp only [deduceShapeLoop, List.mem_cons, reduceCtorEq, false_or]
      exact ih

/-- **`core.map` has a type exactly if it gets an operator known at compile time, some arrays, all of the same shape, and the operator accepts
the optional elements of the arrays and the other arguments; the result is the array of that shape of the operator's results** — for any
inference of the operator. -/
theorem map_infer_iff (arr : Nat → Bool) (ofOp : V → O) (infer : O → List (Attr V) → Option (Option Ty)) (q0 : Ty) (v0 : Option V)
    (ins : List (Ty × Option V)) (r : Ty) :
    inferMap arr ofOp infer (⟨some q0, v0⟩ :: ins.map fun p => ⟨some p.1, p.2⟩) = some (some r) ↔
      q0 = .op ∧ ∃ v shape out, v0 = some v ∧ SameShape shape (ins.map Prod.fst) ∧ infer (ofOp v) (ins.map elemAttr) = some (some out) ∧
        ∃ e, r = .array shape e ∧ arr e = true ∧ (out = .scalar e ∨ out = .optional e) := by
  have hall : allTypes (⟨some q0, v0⟩ :: ins.map fun p => (⟨some p.1, p.2⟩ : Attr V)) = some ((q0, v0) :: ins) := by
    simp [allTypes, allTypes_spec]
  have hwv : ∀ shape out, withValueTy arr shape out = some r ↔ ∃ e, r = .array shape e ∧ arr e = true ∧ (out = .scalar e ∨ out = .optional e) := by
    intro shape out
    cases out with
    | scalar n | optional n =>
      simp only [withValueTy]
      by_cases h : arr n = true
      · rw [if_pos h]
        constructor
        · intro hh; exact ⟨n, (Option.some.inj hh).symm, h, by simp⟩
        · rintro ⟨e, h1, h2, h3⟩
          simp at h3; subst h3; rw [h1]
      · rw [if_neg h]
        constructor
        · intro hh; cases hh
        · rintro ⟨e, h1, h2, h3⟩
          simp at h3; subst h3; exact absurd h2 h
    | array _ _ | op | other _ => simp [withValueTy]
  unfold inferMap
  by_cases hlen : ins = []
  · subst hlen
    simp [SameShape]
  · have h2 : ¬ ((⟨some q0, v0⟩ : Attr V) :: ins.map fun p => ⟨some p.1, p.2⟩).length < 2 := by
      have := List.length_pos_iff.2 hlen
      simp; omega
    rw [if_neg h2, hall]
    dsimp only
    by_cases hq : q0 = .op
    · rw [if_neg (by simp [hq])]
      cases v0 with
      | none => simp
      | some v =>
        dsimp only
        cases hd : deduceShape (ins.map Prod.fst) with
        | none =>
          simp only [reduceCtorEq, false_iff]
          rintro ⟨_, v', shape, out, _, hs, _⟩
          rw [← deduce_iff, hd] at hs
          cases hs
        | some shape =>
          have hs := (deduce_iff _ _).1 hd
          dsimp only
          rw [mapperAttrs_spec]
          have huniq : ∀ shape', SameShape shape' (ins.map Prod.fst) → shape' = shape := by
            intro s' h'
            have := (deduce_iff _ _).2 h'
            rw [hd] at this
            exact (Option.some.inj this).symm
          cases hi : infer (ofOp v) (ins.map elemAttr) with
          | none =>
            simp only [reduceCtorEq, false_iff]
            rintro ⟨_, v', shape', out, hv, _, h, _⟩
            cases hv; rw [hi] at h; cases h
          | some o =>
            cases o with
            | none =>
              simp only [Option.some.injEq, reduceCtorEq, false_iff]
              rintro ⟨_, v', shape', out, hv, _, h, _⟩
              subst hv; rw [hi] at h; cases h
            | some out =>
              dsimp only
              cases hw : withValueTy arr shape out with
              | none =>
                simp only [reduceCtorEq, false_iff]
                rintro ⟨_, v', shape', out', hv, hs', h, hr⟩
                cases hv
                obtain rfl := huniq shape' hs'
                rw [hi] at h
                simp only [Option.some.injEq] at h
                subst h
                rw [← hwv, hw] at hr
                cases hr
              | some r' =>
                simp only [Option.some.injEq]
                constructor
                · rintro rfl
                  exact ⟨hq, v, shape, out, rfl, hs, hi, (hwv shape out).1 hw⟩
                · rintro ⟨_, v', shape', out', hv, hs', h, hr⟩
                  subst hv
                  obtain rfl := huniq shape' hs'
                  rw [hi] at h
                  simp only [Option.some.injEq] at h
                  subst h
                  rw [← hwv, hw] at hr
                  exact Option.some.inj hr
    · rw [if_pos hq]
      simp [hq]

/-- As long as a type of an argument is unknown, so is the type of the result. -/
theorem map_infer_unknown (arr : Nat → Bool) (ofOp : V → O) (infer : O → List (Attr V) → Option (Option Ty)) (ins : List (Attr V)) (a : Attr V)
    (hm : a ∈ ins) (ha : a.ty = none) (hl : 2 ≤ ins.length) : inferMap arr ofOp infer ins = some none := by
  have : allTypes ins = none := by
    clear hl
    induction ins with
    | nil => simp at hm
    | cons b ins ih =>
      rcases List.mem_cons.1 hm with rfl | hm
      · simp [allTypes, ha]
      · simp [allTypes, ih hm]
  unfold inferMap
  rw [if_neg (by omega), this]

/-! ## Preparation -/

/-- The values that are passed for the remaining dependencies, given the values of all of them. -/
def Kept : List (Dep V) → List V → List V
  | d :: ds, v :: vs => if d.canBeEmbedded then Kept ds vs else v :: Kept ds vs
  | _, _ => []

/-- Literals have their values. -/
inductive Consistent : List (Dep V) → List V → Prop
  | nil : Consistent [] []
  | cons {d v ds vs} : (∀ w, d.value = some w → w = v) → Consistent ds vs → Consistent (d :: ds) (v :: vs)

theorem moveLoop_spec (deps : List (Dep V)) (vals : List V) (h : Consistent deps vals) (args : List (Wrapped V)) (kept : List (Dep V))
    (ps : List V) (hlen : ps.length = kept.length) :
    ∃ as, moveLoop deps args kept = (args ++ as, kept ++ deps.filter (fun d => !d.canBeEmbedded)) ∧
      (∀ tail, as.map (Wrapped.eval (ps ++ Kept deps vals ++ tail)) = vals.map some) ∧
      (Kept deps vals).length = (deps.filter fun d => !d.canBeEmbedded).length := by
  induction h generalizing args kept ps with
  | nil => exact ⟨[], by simp [moveLoop], by simp, rfl⟩
  | cons hd hc ih =>
    rename_i d v ds vs
    cases he : d.canBeEmbedded with
    | true =>
      have hv : d.value = some v := by
        have : d.value.isSome = true := by
          simp only [Dep.canBeEmbedded, Bool.and_eq_true] at he; exact he.1
        obtain ⟨w, hw⟩ := Option.isSome_iff_exists.1 this
        rw [hw, hd w hw]
      obtain ⟨as, h1, h2, h3⟩ := ih (args ++ [.literal v]) kept ps hlen
      refine ⟨.literal v :: as, ?_, ?_, ?_⟩
      · simp only [moveLoop, he, hv, h1]
        simp [he]
      · intro tail
        simp only [Kept, he, if_true, List.map_cons, Wrapped.eval]
        rw [h2 tail]
      · simp only [Kept, he, if_true]
        simp [he, h3]
    | false =>
      obtain ⟨as, h1, h2, h3⟩ := ih (args ++ [.param kept.length]) (kept ++ [d]) (ps ++ [v]) (by simp [hlen])
      refine ⟨.param kept.length :: as, ?_, ?_, ?_⟩
      · have : moveLoop (d :: ds) args kept = moveLoop ds (args ++ [.param kept.length]) (kept ++ [d]) := by
          cases hval : d.value <;> simp only [moveLoop, he]
        rw [this, h1]
        simp [he]
      · intro tail
        simp only [Kept, he, Bool.false_eq_true, if_false, List.map_cons, Wrapped.eval]
        have := h2 tail
        have hassoc : ps ++ [v] ++ Kept ds vs ++ tail = ps ++ v :: Kept ds vs ++ tail := by simp
        rw [hassoc] at this
        rw [this]
        congr 1
        rw [← hlen]
        simp
      · simp only [Kept, he, Bool.false_eq_true, if_false]
        simp [he, h3]

theorem kept_none (deps : List (Dep V)) (vals : List V) (h : Consistent deps vals) (hc : ∀ d ∈ deps, d.canBeEmbedded = false) :
    Kept deps vals = vals ∧ vals.length = deps.length := by
  induction h with
  | nil => exact ⟨rfl, rfl⟩
  | cons _ _ ih =>
    rename_i d v ds vs _ _
    have := hc d (by simp)
    obtain ⟨h1, h2⟩ := ih (fun d hd => hc d (by simp [hd]))
    exact ⟨by simp [Kept, this, h1], by simp [h2]⟩

/-- **Moving literals into the mapper does not change what the mapper is applied to**: the wrapped mapper, given the values of the remaining
arguments, calls the mapper with all the arguments in their order. -/
theorem moved_same_arguments (deps : List (Dep V)) (vals : List V) (h : Consistent deps vals) :
    (moveLiterals deps).1.map (Wrapped.eval (Kept deps vals)) = vals.map some := by
  unfold moveLiterals
  by_cases hz : deps.countP Dep.canBeEmbedded = 0
  · rw [if_pos hz]
    have hnone : ∀ d ∈ deps, d.canBeEmbedded = false := by
      intro d hd
      have := List.countP_eq_zero.1 hz d hd
      simpa using this
    obtain ⟨h1, h2⟩ := kept_none deps vals h hnone
    dsimp only
    rw [h1, ← h2]
    apply List.ext_getElem?
    intro i
    by_cases hi : i < vals.length
    · simp [hi, Wrapped.eval]
    · simp [hi]
  · rw [if_neg hz]
    obtain ⟨as, h1, h2, _⟩ := moveLoop_spec deps vals h [] [] [] rfl
    rw [h1]
    simpa using h2 []

/-- **The remaining arguments are those that are not literals and the arrays, in order**: every array stays an argument. -/
theorem moved_remaining (deps : List (Dep V)) (vals : List V) (h : Consistent deps vals) :
    (moveLiterals deps).2 = deps.filter (fun d => d.value.isNone || d.ty.isArray) := by
  have hfil : ∀ l : List (Dep V), l.filter (fun d => !d.canBeEmbedded) = l.filter (fun d => d.value.isNone || d.ty.isArray) := by
    intro l
    congr 1
    funext d
    unfold Dep.canBeEmbedded
    cases d.value <;> cases d.ty.isArray <;> rfl
  unfold moveLiterals
  by_cases hz : deps.countP Dep.canBeEmbedded = 0
  · rw [if_pos hz, ← hfil]
    symm
    rw [List.filter_eq_self]
    intro d hd
    have := List.countP_eq_zero.1 hz d hd
    simpa using this
  · rw [if_neg hz, ← hfil]
    obtain ⟨as, h1, _, _⟩ := moveLoop_spec deps vals h [] [] [] rfl
    rw [h1]
    simp

/-! ## Concrete cases -/

/-- An operator of one optional and one scalar argument. -/
def exInfer : Unit → List (Attr Nat) → Option (Option Ty)
  | _, [⟨some (.optional n), none⟩, ⟨some (.scalar m), some _⟩] => if n = m then some (some (.optional n)) else none
  | _, _ => none

example : inferMap (fun _ => true) (fun _ => ()) exInfer [⟨some .op, some 0⟩, ⟨some (.array 3 1), some 9⟩, ⟨some (.scalar 1), some 5⟩]
    = some (some (.array 3 1)) := rfl

example : inferMap (fun _ => true) (fun _ => ()) exInfer [⟨some .op, some 0⟩, ⟨some (.array 3 1), none⟩, ⟨some (.array 2 1), none⟩] = none := rfl

example : inferMap (fun _ => true) (fun _ => ()) exInfer [⟨some .op, none⟩, ⟨some (.array 3 1), none⟩] = none := rfl

/-- `map(op, x, 5, arr-literal, y)`. -/
def exDeps : List (Dep Nat) := [⟨.array 0 1, none⟩, ⟨.scalar 1, some 5⟩, ⟨.array 0 1, some 7⟩, ⟨.scalar 1, none⟩]

example : (moveLiterals exDeps).1 = [.param 0, .literal 5, .param 1, .param 2] := rfl

example : Consistent exDeps [1, 5, 7, 2] :=
  .cons (by simp) (.cons (by simp) (.cons (by simp) (.cons (by simp) .nil)))

end Verif.CoreMap
