import Verif.DOps.InsLemmas
import Verif.Util.BitsAlgoLemmas

/-! Helper lemmas: access by index, slices, concatenation. -/

namespace Verif.DOps
open Verif.Bits Verif.Bitmap Verif.Dense

variable {α β : Type}

/-! ## at -/

theorem atOp_spec {a : DArr α} (hv : a.Valid) (id : Int) :
    atOp a id = some (if 0 ≤ id ∧ id < (elems a).length then .ok ((elems a)[id.toNat]?.join)
      else .error id) := by
  unfold atOp
  rw [elems_length]
  unfold DArr.size
  by_cases h : id < 0 ∨ id ≥ a.values.length
  · rw [if_pos h, if_neg (by omega)]
  · rw [if_neg h, if_pos (by omega)]
    have hi : id.toNat < a.values.length := by omega
    rw [present_eq hv hi, elems_get?, if_pos hi, elem_eq, List.getElem?_eq_getElem hi]
    rfl

theorem atFn_spec {a : DArr α} (hv : a.Valid) (id : Int) :
    atFn a [some id] = if 0 ≤ id ∧ id < (elems a).length then .ok ((elems a)[id.toNat]?.join)
      else .error (some id) := by
  unfold atFn
  dsimp only
  rw [elems_length]
  unfold DArr.size
  by_cases h : id < 0 ∨ id ≥ a.values.length
  · rw [if_pos h, if_neg (by omega)]
  · rw [if_neg h, if_pos (by omega)]
    have hi : id.toNat < a.values.length := by omega
    rw [present_eq hv hi, elems_get?, if_pos hi, elem_eq, List.getElem?_eq_getElem hi]
    cases pres a id.toNat <;> rfl

/-- Access by an optional index in a sequence. -/
def atSpec (xs : List (Option α)) : Option Int → Except Int (Option α)
  | none => .ok none
  | some id => if 0 ≤ id ∧ id < xs.length then .ok (xs[id.toNat]?.join) else .error id

theorem mapM_except_map {ε ε' γ : Type} {f : γ → Except ε α} {g : γ → Except ε' α} {h : ε' → ε}
    : ∀ (l : List γ), (∀ x ∈ l, f x = (g x).mapError h) → l.mapM f = (l.mapM g).mapError h := by
  intro l
  induction l with
  | nil => intro _; rfl
  | cons x xs ih =>
    intro hx
    rw [List.mapM_cons, List.mapM_cons, hx x (by simp), ih (fun y hy => hx y (by simp [hy]))]
    cases g x with
    | error e => rfl
    | ok v =>
      cases xs.mapM g with
      | error e => rfl
      | ok w => rfl

theorem mapM_range_get {ε γ : Type} {g : γ → Except ε α} : ∀ (xs : List γ) (s : Nat) (f : Nat → Except ε α),
    (∀ i (h : i < xs.length), f (s + i) = g xs[i]) → (List.range' s xs.length).mapM f = xs.mapM g := by
  intro xs
  induction xs with
  | nil => intro s f _; rfl
  | cons x xs ih =>
    intro s f h
    rw [List.length_cons, List.range'_succ, List.mapM_cons, List.mapM_cons]
    have h0 := h 0 (by simp)
    rw [Nat.add_zero, List.getElem_cons_zero] at h0
    rw [h0, ih (s + 1) f]
    intro i hi
    have := h (i + 1) (by simp; omega)
    rw [List.getElem_cons_succ] at this
    rw [← this]; congr 1; omega

theorem atListOp_spec (mem : Nat → α) {a : DArr α} (hv : a.Valid) {ids : DArr Int} (hi : ids.Valid)
    (ho : ids.off = 0) :
    match (elems ids).mapM (atSpec (elems a)) with
    | .error e => atListOp mem a ids = some (.error e)
    | .ok l => ∃ r, atListOp mem a ids = some (.ok r) ∧ r.Valid ∧ r.off = 0 ∧ elems r = l := by
  have key := universalOp_spec (ao := false) (fn := atFn a) (skip := true) (args := [⟨false, ids⟩])
    (N := ids.values.length) (by
      intro x hx
      rw [List.mem_singleton] at hx
      subst hx
      exact ⟨hi, Or.inr ho, rfl⟩) (by intro h; cases h) (fresh mem ids.size) (fresh_length _ _)
  have hrow : (List.range ids.values.length).mapM (rowRes (atFn a) [⟨false, ids⟩]) =
      ((elems ids).mapM (atSpec (elems a))).mapError some := by
    have h1 := mapM_range_get (g := fun x => (atSpec (elems a) x).mapError (some : Int → Option Int))
      (elems ids) 0 (rowRes (atFn a) [⟨false, ids⟩]) (by
        intro i h
        have hget : (elems ids)[i] = elem ids i := by
          have := elems_get? ids i
          rw [List.getElem?_eq_getElem h] at this
          rw [elems_length] at h
          rw [if_pos h] at this
          exact Option.some.inj this
        rw [hget, Nat.zero_add]
        unfold rowRes
        simp only [List.all_cons, List.all_nil, Bool.false_or, Bool.and_true, List.map_cons, List.map_nil]
        cases elem ids i with
        | none => rfl
        | some id =>
          rw [if_pos (by rfl), atFn_spec hv]
          unfold atSpec
          dsimp only
          split <;> rfl)
    rw [← List.range_eq_range', elems_length] at h1
    rw [h1]
    exact mapM_except_map _ (fun x _ => rfl)
  rw [hrow] at key
  cases h : (elems ids).mapM (atSpec (elems a)) with
  | error e =>
    rw [h] at key
    dsimp only [Except.mapError] at key ⊢
    unfold atListOp
    rw [key]; rfl
  | ok l =>
    rw [h] at key
    dsimp only [Except.mapError] at key ⊢
    obtain ⟨r, h1, h2⟩ := key
    refine ⟨r, ?_, h2⟩
    unfold atListOp
    rw [h1]; rfl

/-! ## slice -/

theorem sliceOp_spec {a : DArr α} (hv : a.Valid) (offset size : Int)
    (ho : 0 ≤ offset ∧ offset ≤ (elems a).length) (hs : -1 ≤ size ∧ size ≤ (elems a).length - offset) :
    ∃ r, sliceOp a offset size = some (.ok r) ∧ r.Valid ∧ r.off = 0 ∧
      elems r = ((elems a).drop offset.toNat).take
        (if size = -1 then (elems a).length - offset.toNat else size.toNat) := by
  rw [elems_length] at ho hs ⊢
  unfold sliceOp DArr.size
  rw [if_neg (by omega), if_neg (by omega)]
  have hz : (if size = -1 then (a.values.length : Int) - offset else size).toNat =
      if size = -1 then a.values.length - offset.toNat else size.toNat := by
    split <;> omega
  obtain ⟨r1, e1, v1, x1⟩ := slice_spec hv (start := offset.toNat)
    (count := if size = -1 then a.values.length - offset.toNat else size.toNat) (by split <;> omega)
  obtain ⟨r2, e2, v2, o2, x2⟩ := forceNoOffset_spec v1
  refine ⟨r2, ?_, v2, o2, by rw [x2, x1]⟩
  dsimp only
  rw [hz, e1]
  simp only [Option.bind_eq_bind, Option.bind_some]
  rw [e2]; rfl

theorem sliceOp_error {a : DArr α} (offset size : Int)
    (h : ¬((0 ≤ offset ∧ offset ≤ (elems a).length) ∧ -1 ≤ size ∧ size ≤ (elems a).length - offset)) :
    ∃ e, sliceOp a offset size = some (.error e) := by
  rw [elems_length] at h
  unfold sliceOp DArr.size
  by_cases h1 : offset < 0 ∨ offset > (a.values.length : Int)
  · rw [if_pos h1]; exact ⟨_, rfl⟩
  · rw [if_neg h1, if_pos (by omega)]; exact ⟨_, rfl⟩

/-! ## concat -/

theorem bitAt_replicate_full {n i : Nat} (h : i < 32 * n) : bitAt (List.replicate n fullWord) i = true := by
  unfold bitAt wd
  rw [List.getElem?_replicate, if_pos (by omega)]
  dsimp only [Option.getD]
  rw [bit_full]
  simp; omega

theorem concatFirst_spec {a : DArr α} (hv : a.Valid) {n : Nat} (hn : a.values.length ≤ 32 * n) :
    ∃ bm, concatFirst a (List.replicate n fullWord) = some bm ∧ bm.length = n ∧
      ∀ i, i < 32 * n → bitAt bm i = if i < a.values.length then pres a i else true := by
  unfold concatFirst
  by_cases hb : a.bitmap = []
  · rw [if_neg (by simp [hb])]
    refine ⟨_, rfl, by simp, ?_⟩
    intro i hi
    rw [bitAt_replicate_full hi]
    unfold pres
    simp [hb]
  · rw [if_pos hb]
    have hc := Valid.cover hv hb
    obtain ⟨r, e1, e2, e3⟩ := copyBits_spec (n := a.values.length) (rhs := a.bitmap) (rs := a.off)
      (lhs := List.replicate n fullWord) (ls := 0) hv.1 (by omega) (by omega) (by simp; omega)
    refine ⟨r, e1, by simpa using e2, ?_⟩
    intro i hi
    rw [e3]
    unfold pres
    by_cases h : i < a.values.length
    · rw [if_pos (by omega), if_pos h, Nat.sub_zero, Nat.add_comm i]; simp [hb]
    · rw [if_neg (by omega), if_neg h, bitAt_replicate_full hi]

theorem bitAt_take {bm : List Word} {w i : Nat} (h : i < 32 * w) : bitAt (bm.take w) i = bitAt bm i := by
  unfold bitAt wd
  rw [List.getElem?_take, if_pos (by omega)]

theorem bitAt_drop {bm : List Word} {w i : Nat} : bitAt (bm.drop w) i = bitAt bm (32 * w + i) := by
  unfold bitAt wd
  rw [List.getElem?_drop, show (32 * w + i) / 32 = w + i / 32 by omega,
    show (32 * w + i) % 32 = i % 32 by omega]

theorem bitAt_append {x y : List Word} {i : Nat} :
    bitAt (x ++ y) i = if i < 32 * x.length then bitAt x i else bitAt y (i - 32 * x.length) := by
  unfold bitAt wd
  rw [List.getElem?_append]
  by_cases h : i < 32 * x.length
  · rw [if_pos h, if_pos (by omega)]
  · rw [if_neg h, if_neg (by omega), show i / 32 - x.length = (i - 32 * x.length) / 32 by omega,
      show (i - 32 * x.length) % 32 = i % 32 by omega]

theorem concatSecond_spec {a b : DArr α} (hv : b.Valid) {bm : List Word}
    (hn : a.values.length + b.values.length ≤ 32 * bm.length)
    (hfull : ∀ i, a.values.length ≤ i → i < 32 * bm.length → bitAt bm i = true) :
    ∃ r, concatSecond a b bm = some r ∧ r.length = bm.length ∧
      ∀ i, i < a.values.length + b.values.length →
        bitAt r i = if i < a.values.length then bitAt bm i else pres b (i - a.values.length) := by
  unfold concatSecond
  by_cases hb : b.bitmap = []
  · rw [if_neg (by simp [hb])]
    refine ⟨_, rfl, rfl, ?_⟩
    intro i hi
    by_cases h : i < a.values.length
    · rw [if_pos h]
    · rw [if_neg h, hfull i (by omega) (by omega)]
      unfold pres
      simp [hb]
  · rw [if_pos hb]
    have hc := Valid.cover hv hb
    unfold DArr.size
    dsimp only
    have hdl : (bm.drop (a.values.length / 32)).length = bm.length - a.values.length / 32 := List.length_drop
    obtain ⟨r, e1, e2, e3⟩ := copyBits_spec (n := b.values.length) (rhs := b.bitmap) (rs := b.off)
      (lhs := bm.drop (a.values.length / 32)) (ls := a.values.length % 32) hv.1 (by omega) (by omega)
      (by rw [hdl]; omega)
    rw [e1]
    refine ⟨_, rfl, ?_, ?_⟩
    · rw [List.length_append, e2, hdl, List.length_take]; omega
    · intro i hi
      rw [bitAt_append, List.length_take, show min (a.values.length / 32) bm.length = a.values.length / 32 by omega]
      by_cases h : i < 32 * (a.values.length / 32)
      · rw [if_pos h, if_pos (by omega), bitAt_take h]
      · rw [if_neg h, e3]
        by_cases h2 : i < a.values.length
        · rw [if_neg (by omega), if_pos h2, bitAt_drop]
          congr 1; omega
        · rw [if_pos (by omega), if_neg h2]
          unfold pres
          rw [decide_eq_false hb, Bool.false_or]
          congr 1; omega

theorem concatOp_spec (mem : Nat → α) {a b : DArr α} (ha : a.Valid) (hb : b.Valid) :
    ∃ r, concatOp mem a b = some r ∧ r.Valid ∧ r.off = 0 ∧ elems r = elems a ++ elems b := by
  unfold concatOp DArr.size
  have h1 := ins_all a.values (fresh mem (a.values.length + b.values.length)) 0 (by
    rw [fresh_length]; omega)
  rw [h1]
  simp only [Option.bind_eq_bind, Option.bind_some]
  rw [ins_all b.values _ _ (by simp [fresh_length]), Option.bind_some]
  have hbuf : ∀ (x y : List α), (x ++ y).drop (x.length + y.length) = [] := by
    intro x y; rw [List.drop_eq_nil_iff]; simp
  have hvals : List.take (0 + a.values.length)
      (List.take 0 (fresh mem (a.values.length + b.values.length)) ++ a.values ++
        List.drop (0 + a.values.length) (fresh mem (a.values.length + b.values.length))) ++ b.values ++
      List.drop (0 + a.values.length + b.values.length)
        (List.take 0 (fresh mem (a.values.length + b.values.length)) ++ a.values ++
          List.drop (0 + a.values.length) (fresh mem (a.values.length + b.values.length))) =
      a.values ++ b.values := by
    simp only [List.take_zero, List.nil_append, Nat.zero_add]
    rw [List.take_left' rfl, List.drop_eq_nil_of_le (by simp [fresh_length]), List.append_nil]
  rw [hvals]
  have hel : ∀ (bm : List Word), (bm = [] ∧ a.bitmap = [] ∧ b.bitmap = []) ∨
      (bm ≠ [] ∧ ∀ i, i < a.values.length + b.values.length →
        bitAt bm i = if i < a.values.length then pres a i else pres b (i - a.values.length)) ∨
      (a.values.length + b.values.length = 0) →
      elems (⟨a.values ++ b.values, bm, 0⟩ : DArr α) = elems a ++ elems b := by
    intro bm hbm
    apply List.ext_getElem?
    intro i
    rw [List.getElem?_append, elems_get?, elems_get?, elems_get?, elems_length]
    dsimp only
    rw [List.length_append]
    by_cases hi : i < a.values.length + b.values.length
    · rw [if_pos hi, elem_eq]
      have hp : pres (⟨a.values ++ b.values, bm, 0⟩ : DArr α) i =
          if i < a.values.length then pres a i else pres b (i - a.values.length) := by
        rcases hbm with ⟨h1, h2, h3⟩ | ⟨h1, h2⟩ | h
        · unfold pres; simp [h1, h2, h3]
        · rw [← h2 i hi]
          unfold pres
          simp [h1]
        · omega
      rw [hp]
      dsimp only
      rw [List.getElem?_append]
      by_cases h : i < a.values.length
      · rw [if_pos h, if_pos h, if_pos h, if_pos h, elem_eq]
      · simp only [if_neg h]
        rw [if_pos (show i - a.values.length < b.values.length by omega), elem_eq]
    · rw [if_neg hi, if_neg (by omega), if_neg (by omega)]
  by_cases hc : a.bitmap = [] ∧ b.bitmap = []
  · rw [if_pos hc]
    exact ⟨_, rfl, valid_full _, rfl, hel [] (Or.inl ⟨rfl, hc⟩)⟩
  · rw [if_neg hc]
    have hsz := bitmapSize_eq (a.values.length + b.values.length)
    obtain ⟨bm1, f1, f2, f3⟩ := concatFirst_spec ha
      (n := bitmapSize (a.values.length + b.values.length)) (by omega)
    rw [f1, Option.bind_some]
    obtain ⟨bm2, g1, g2, g3⟩ := concatSecond_spec (a := a) hb (bm := bm1) (by rw [f2]; omega) (by
      intro i h1 h2
      rw [f3 i (by omega), if_neg (by omega)])
    rw [g1]
    refine ⟨_, rfl, ⟨by simp, Or.inr ?_⟩, rfl, ?_⟩
    · unfold DArr.size
      dsimp only
      rw [g2, f2, List.length_append]; rfl
    · apply hel
      by_cases hz : a.values.length + b.values.length = 0
      · exact Or.inr (Or.inr hz)
      · refine Or.inr (Or.inl ⟨?_, ?_⟩)
        · intro h
          rw [h] at g2
          rw [List.length_nil, f2] at g2
          omega
        · intro i hi
          rw [g3 i hi]
          by_cases h : i < a.values.length
          · rw [if_pos h, if_pos h, f3 i (by omega), if_pos h]
          · rw [if_neg h, if_neg h]

end Verif.DOps
