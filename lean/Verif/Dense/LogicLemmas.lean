import Verif.Dense.OpsLemmas

/-! Helper lemmas for presence operations on dense arrays. -/

namespace Verif.Dense
open Verif.Bits Verif.Bitmap

variable {α β γ V R E : Type}

theorem elems_map_of {a : DArr α} {r : DArr β} {f : Option α → Option β}
    (hl : r.values.length = a.values.length)
    (h : ∀ i, i < a.values.length → elem r i = f (elem a i)) : elems r = (elems a).map f := by
  apply List.ext_getElem?
  intro i
  rw [List.getElem?_map, elems_get?, elems_get?, hl]
  by_cases hi : i < a.values.length
  · rw [if_pos hi, if_pos hi, h i hi]; rfl
  · rw [if_neg hi, if_neg hi]; rfl

theorem elems_zip_of {a : DArr α} {b : DArr β} {r : DArr γ} {f : Option α → Option β → Option γ}
    (hab : a.values.length = b.values.length) (hl : r.values.length = a.values.length)
    (h : ∀ i, i < a.values.length → elem r i = f (elem a i) (elem b i)) :
    elems r = List.zipWith f (elems a) (elems b) := by
  apply List.ext_getElem?
  intro i
  rw [List.getElem?_zipWith, elems_get?, elems_get?, elems_get?, hl, ← hab]
  by_cases hi : i < a.values.length
  · rw [if_pos hi, if_pos hi, if_pos hi, h i hi]
  · rw [if_neg hi, if_neg hi, if_neg hi]

theorem hasOp_spec {a : DArr α} (h : a.Valid) :
    (hasOp a).Valid ∧ elems (hasOp a) = (elems a).map (Option.map (fun _ => ())) := by
  refine ⟨⟨h.1, by simpa [hasOp, DArr.size] using h.2⟩, elems_map_of (by simp [hasOp, DArr.size]) ?_⟩
  intro i hi
  rw [elem_eq, elem_eq, List.getElem?_eq_getElem hi]
  have : (hasOp a).values[i]? = some () := by
    simp [hasOp, DArr.size, List.getElem?_replicate, hi]
  rw [this]
  show (if pres a i = true then _ else _) = _
  cases pres a i <;> rfl

theorem firstNonzero_le : ∀ (ws : List Word), firstNonzero ws ≤ ws.length := by
  intro ws
  induction ws with
  | nil => exact Nat.le_refl _
  | cons w ws ih =>
    rw [firstNonzero]
    split <;> simp only [List.length_cons] <;> omega

theorem firstNonzero_zero : ∀ (ws : List Word) (k : Nat), k < firstNonzero ws → ws[k]? = some 0 := by
  intro ws
  induction ws with
  | nil => intro k hk; simp [firstNonzero] at hk
  | cons w ws ih =>
    intro k hk
    rw [firstNonzero] at hk
    split at hk
    · rename_i hw
      cases k with
      | zero => simp [hw]
      | succ k => rw [List.getElem?_cons_succ]; exact ih k (by omega)
    · omega

theorem presenceNot_spec {a : DArr α} (h : a.Valid) :
    (presenceNot a).Valid ∧ elems (presenceNot a) = (elems a).map notElem := by
  unfold presenceNot
  by_cases hb : a.bitmap = []
  · rw [if_pos hb]
    refine ⟨⟨by simp [createEmpty], Or.inr ?_⟩, elems_map_of (by simp [createEmpty, DArr.size]) ?_⟩
    · simp [createEmpty, createEmptyBitmap, DArr.size]
    · intro i hi
      rw [elem_eq, elem_eq, List.getElem?_eq_getElem hi]
      have h1 : pres a i = true := by simp [pres, hb]
      have h2 : pres (createEmpty (List.replicate a.size ())) i = false := by
        have hne : createEmptyBitmap (List.replicate a.size ()).length ≠ [] := by
          intro hz
          have := congrArg List.length hz
          simp [createEmptyBitmap, bitmapSize_eq, DArr.size] at this
          omega
        unfold pres createEmpty
        dsimp only
        rw [decide_eq_false hne, Bool.false_or]
        unfold bitAt wd createEmptyBitmap
        rw [List.getElem?_replicate]
        split <;> simp
      rw [h1, h2]
      rfl
  · rw [if_neg hb]
    dsimp only
    have hcov := Valid.cover h hb
    have hle := firstNonzero_le a.bitmap
    have hz := firstNonzero_zero a.bitmap
    by_cases hk : firstNonzero a.bitmap = a.bitmap.length
    · rw [if_pos hk]
      refine ⟨⟨by simp, Or.inl rfl⟩, elems_map_of (by simp [DArr.size]) ?_⟩
      intro i hi
      rw [elem_eq, elem_eq, List.getElem?_eq_getElem hi]
      have h1 : pres a i = false := by
        unfold pres
        rw [decide_eq_false hb, Bool.false_or]
        unfold bitAt wd
        rw [hz _ (by omega)]
        simp
      rw [h1]
      simp [pres, DArr.size, List.getElem?_replicate, hi, notElem]
    · rw [if_neg hk]
      have hlen : (List.replicate (firstNonzero a.bitmap) fullWord ++
          (a.bitmap.drop (firstNonzero a.bitmap)).map (~~~ ·)).length = a.bitmap.length := by
        simp; omega
      have hne : List.replicate (firstNonzero a.bitmap) fullWord ++
          (a.bitmap.drop (firstNonzero a.bitmap)).map (~~~ ·) ≠ [] := by
        intro hx
        rw [hx] at hlen
        simp at hlen
        exact hb (List.length_eq_zero_iff.1 hlen.symm)
      refine ⟨⟨h.1, Or.inr ?_⟩, elems_map_of (by simp [DArr.size]) ?_⟩
      · dsimp only [DArr.size]
        rw [hlen, List.length_replicate]
        rcases h.2 with hx | hx
        · exact absurd hx hb
        · exact hx
      · intro i hi
        rw [elem_eq, elem_eq, List.getElem?_eq_getElem hi]
        have : pres (⟨List.replicate a.size (), List.replicate (firstNonzero a.bitmap) fullWord ++
            (a.bitmap.drop (firstNonzero a.bitmap)).map (~~~ ·), a.off⟩ : DArr Unit) i =
            !pres a i := by
          unfold pres
          dsimp only
          rw [decide_eq_false hne, decide_eq_false hb, Bool.false_or, Bool.false_or]
          unfold bitAt wd
          by_cases hc : (a.off + i) / 32 < firstNonzero a.bitmap
          · rw [List.getElem?_append_left (by simpa using hc), hz _ hc, List.getElem?_replicate,
              if_pos hc]
            simp only [Option.getD_some]
            rw [bit_full, decide_eq_true (Nat.mod_lt _ (by omega))]
            simp
          · rw [List.getElem?_append_right (by simpa using hc), List.length_replicate,
              List.getElem?_map, List.getElem?_drop,
              show firstNonzero a.bitmap + ((a.off + i) / 32 - firstNonzero a.bitmap) =
                (a.off + i) / 32 by omega,
              List.getElem?_eq_getElem (by omega)]
            simp only [Option.map_some, Option.getD_some]
            rw [BitVec.getLsbD_not, decide_eq_true (Nat.mod_lt _ (by omega)), Bool.true_and]
        rw [this]
        simp only [DArr.size, List.getElem?_replicate, hi, if_true]
        cases pres a i <;> rfl

theorem bitmapSize_mono {a b : Nat} (h : a ≤ b) : bitmapSize a ≤ bitmapSize b := by
  rw [bitmapSize_eq, bitmapSize_eq]; omega

theorem presenceAnd_spec {bmem : List Word} {l : DArr α} {r : DArr Unit}
    (hl : l.Valid) (hr : r.Valid) (hs : l.values.length = r.values.length)
    (hm : bitmapSize l.values.length ≤ bmem.length)
    (ho : l.bitmap ≠ [] → r.bitmap ≠ [] →
      bitmapSize (l.values.length + min l.off r.off) = bitmapSize l.values.length) :
    ∃ x, presenceAnd bmem l r = some (.ok x) ∧ x.Valid ∧
      elems x = List.zipWith andElem (elems l) (elems r) := by
  have hval : ∀ (x : DArr α), x.values = l.values →
      (∀ i, i < l.values.length → pres x i = (pres l i && pres r i)) →
      elems x = List.zipWith andElem (elems l) (elems r) := by
    intro x hx hp
    refine elems_zip_of hs (by rw [hx]) ?_
    intro i hi
    rw [elem_eq, elem_eq, elem_eq, hx, hp i hi, List.getElem?_eq_getElem hi,
      List.getElem?_eq_getElem (show i < r.values.length by omega)]
    cases pres l i <;> cases pres r i <;> rfl
  unfold presenceAnd
  rw [if_neg (by simpa [DArr.size] using hs)]
  by_cases h1 : r.bitmap = []
  · rw [if_pos h1]
    exact ⟨l, rfl, hl, hval l rfl (fun i _ => by simp [pres, h1])⟩
  · rw [if_neg h1]
    have hr2 : r.bitmap.length = bitmapSize (l.values.length + r.off) := by
      rcases hr.2 with h | h
      · exact absurd h h1
      · rw [hs]; exact h
    by_cases h2 : l.bitmap = []
    · rw [if_pos h2]
      exact ⟨_, rfl, ⟨hr.1, Or.inr hr2⟩, hval _ rfl (fun i _ => by simp [pres, h2])⟩
    · rw [if_neg h2]
      have hl2 : l.bitmap.length = bitmapSize (l.values.length + l.off) := by
        rcases hl.2 with h | h
        · exact absurd h h2
        · exact h
      have ho := ho h2 h1
      have hmin : min l.bitmap.length r.bitmap.length =
          bitmapSize (l.values.length + min l.off r.off) := by
        rw [hl2, hr2]
        simp only [bitmapSize_eq]
        omega
      obtain ⟨bm, e1, e2, e3⟩ := intersect_elems_spec (n := l.values.length) (a := l.bitmap)
        (b := r.bitmap) (res := bmem.take (bitmapSize l.size)) hl.1 hr.1 hl2 hr2
        (by rw [List.length_take, DArr.size]; omega)
      rw [e1]
      refine ⟨_, rfl, ⟨?_, Or.inr e2⟩, hval _ rfl ?_⟩
      · have := hl.1; dsimp only; omega
      · intro i hi
        have hne : bm ≠ [] := by
          intro hx; rw [hx, bitmapSize_eq] at e2; simp at e2; omega
        simp only [pres, hne, h1, h2, decide_false, Bool.false_or]
        exact e3 i hi

theorem list_len_two {β : Type} {l : List β} (h : l.length = 2) : ∃ x y, l = [x, y] := by
  match l, h with
  | [x, y], _ => exact ⟨x, y, rfl⟩

theorem presenceAnd_oob {bmem : List Word} {l : DArr α} {r : DArr Unit}
    (hl : l.Valid) (hr : r.Valid) (hsl : l.values.length = 32) (hsr : r.values.length = 32)
    (hol : l.off = 1) (hor : r.off = 1) (hbl : l.bitmap ≠ []) (hbr : r.bitmap ≠ []) :
    presenceAnd bmem l r = none := by
  have hl2 : l.bitmap.length = 2 := by
    rcases hl.2 with h | h
    · exact absurd h hbl
    · rw [h, DArr.size, hsl, hol]; rfl
  have hr2 : r.bitmap.length = 2 := by
    rcases hr.2 with h | h
    · exact absurd h hbr
    · rw [h, DArr.size, hsr, hor]; rfl
  obtain ⟨a0, a1, ha⟩ := list_len_two hl2
  obtain ⟨b0, b1, hb⟩ := list_len_two hr2
  unfold presenceAnd
  rw [if_neg (by simp [DArr.size, hsl, hsr]), if_neg hbr, if_neg hbl, hol, hor, ha, hb,
    DArr.size, hsl]
  have : bmem.take (bitmapSize 32) = [] ∨ ∃ m, bmem.take (bitmapSize 32) = [m] := by
    cases bmem with
    | nil => left; rfl
    | cons m ms => right; exact ⟨m, rfl⟩
  rcases this with h | ⟨m, h⟩ <;> rw [h] <;> rfl

theorem rowRes_two {fn : List (Option α) → Except E (Option R)} {l r : DArr α} {i : Nat} :
    rowRes fn [⟨true, l⟩, ⟨true, r⟩] i = fn [elem l i, elem r i] := by
  simp [rowRes]

theorem mapM_ok {β : Type} {f : Nat → Except E β} {g : Nat → β} : ∀ (xs : List Nat),
    (∀ x ∈ xs, f x = .ok (g x)) → xs.mapM f = .ok (xs.map g) := by
  intro xs
  induction xs with
  | nil => intro _; rfl
  | cons x xs ih =>
    intro h
    rw [List.mapM_cons, h x (by simp), ih (fun y hy => h y (by simp [hy]))]
    rfl

/-- The functor of `DenseArrayPresenceOrOp` as a total functor. -/
theorem universalOp_congr_two {l r : DArr α} {fn fn' : List (Option α) → Except E (Option R)}
    (h : ∀ x y, fn [x, y] = fn' [x, y]) (ao skip : Bool) (mem : List R) :
    universalOp ao fn skip [⟨true, l⟩, ⟨true, r⟩] mem =
      universalOp ao fn' skip [⟨true, l⟩, ⟨true, r⟩] mem := by
  have hget : ∀ g i x, [(⟨true, l⟩ : Arg α), ⟨true, r⟩].mapM (getArg ao g i) = some x →
      fn x = fn' x := by
    intro g i x hx
    have hl : x.length = 2 := by
      cases h1 : getArg ao g i ⟨true, l⟩ with
      | none => simp [List.mapM_cons, h1] at hx
      | some a =>
        cases h2 : getArg ao g i ⟨true, r⟩ with
        | none => simp [List.mapM_cons, h1, h2] at hx
        | some b => simp [List.mapM_cons, h1, h2] at hx; rw [← hx]; rfl
    obtain ⟨a, b, hab⟩ := list_len_two hl
    rw [hab, h]
  have hev : ∀ (g offset n i : Nat) (vals : List R) (mask : Word),
      evalGroup fn (fun i => [(⟨true, l⟩ : Arg α), ⟨true, r⟩].mapM (getArg ao g i)) skip offset i n
        vals mask =
      evalGroup fn' (fun i => [(⟨true, l⟩ : Arg α), ⟨true, r⟩].mapM (getArg ao g i)) skip offset i n
        vals mask := by
    intro g offset n
    induction n with
    | zero => intro i vals mask; rfl
    | succ n ih =>
      intro i vals mask
      rw [evalGroup, evalGroup]
      cases hs : shl 1 i with
      | none => rfl
      | some bit =>
        simp only [Option.bind_eq_bind, Option.bind_some]
        rw [ih]
        split
        · rfl
        · cases hm : [(⟨true, l⟩ : Arg α), ⟨true, r⟩].mapM (getArg ao g i) with
          | none => rfl
          | some x =>
            simp only [Option.bind_some]
            rw [hget g i x hm]
            cases fn' x with
            | error e => rfl
            | ok o =>
              cases o with
              | none => exact ih _ _ _
              | some v =>
                simp only [ih]
  have hgl : ∀ (n g : Nat) (s : UState R),
      groupsLoop ao fn skip [⟨true, l⟩, ⟨true, r⟩] g n s =
      groupsLoop ao fn' skip [⟨true, l⟩, ⟨true, r⟩] g n s := by
    intro n
    induction n with
    | zero => intro g s; rfl
    | succ n ih =>
      intro g s
      simp only [groupsLoop, groupEval, hev, ih]
  simp only [universalOp, lastGroup, hgl, hev]

theorem presenceOr_spec {mem : List α} {l r : DArr α} (hl : l.Valid) (hr : r.Valid)
    (hs : l.values.length = r.values.length) (hm : mem.length = l.values.length)
    (ho : l.bitmap ≠ [] → l.off = 0 ∧ r.off = 0) :
    ∃ x, presenceOr mem l r = some (.ok x) ∧ x.Valid ∧
      elems x = List.zipWith orElem (elems l) (elems r) := by
  unfold presenceOr
  rw [if_neg (by simpa [DArr.size] using hs)]
  by_cases hb : l.bitmap = []
  · rw [if_pos hb]
    refine ⟨l, rfl, hl, elems_zip_of hs rfl ?_⟩
    intro i hi
    have : elem l i = some l.values[i] := by
      rw [elem_eq, List.getElem?_eq_getElem hi]; simp [pres, hb]
    rw [this]; rfl
  · rw [if_neg hb]
    obtain ⟨o1, o2⟩ := ho hb
    have hcov := Valid.cover hl hb
    obtain ⟨b, e1, e2⟩ := areAllBitsUnset_spec (bm := l.bitmap) (n := l.values.length) (by omega)
    rw [show l.size = l.values.length from rfl, e1]
    simp only [Option.bind_eq_bind, Option.bind_some]
    cases b with
    | true =>
      rw [if_pos rfl]
      refine ⟨r, rfl, hr, elems_zip_of hs hs.symm ?_⟩
      intro i hi
      have : elem l i = none := by
        rw [elem_eq]
        have : pres l i = false := by
          unfold pres
          rw [o1, Nat.zero_add, e2.1 rfl i hi, decide_eq_false hb]; rfl
        rw [this]; rfl
      rw [this]; rfl
    | false =>
      rw [if_neg (by simp)]
      let fn' : List (Option α) → Except Unit (Option α) := fun x => match x with
        | [some x, _] => .ok (some x)
        | [none, y] => .ok y
        | _ => .ok none
      rw [universalOp_congr_two (fn' := fn') (by intro x y; cases x <;> rfl)]
      have key := universalOp_spec (ao := false) (fn := fn') (skip := false)
        (args := [⟨true, l⟩, ⟨true, r⟩]) (N := l.values.length) (by
          intro a ha
          simp only [List.mem_cons, List.not_mem_nil, or_false] at ha
          rcases ha with ha | ha <;> subst ha
          · exact ⟨hl, Or.inr o1, rfl⟩
          · exact ⟨hr, Or.inr o2, hs.symm⟩) (by
          intro _ x
          dsimp only [fn']
          split <;> exact ⟨_, rfl⟩) mem hm
      have hrows : (List.range l.values.length).mapM (rowRes fn' [⟨true, l⟩, ⟨true, r⟩]) =
          .ok ((List.range l.values.length).map (fun i => orElem (elem l i) (elem r i))) := by
        apply mapM_ok
        intro i _
        rw [rowRes_two]
        dsimp only [fn']
        cases elem l i <;> rfl
      rw [hrows] at key
      obtain ⟨x, x1, x2, _, x4⟩ := key
      refine ⟨x, x1, x2, ?_⟩
      rw [x4]
      unfold elems
      rw [← hs, List.zipWith_map, List.zipWith_self]

theorem presenceOrConst_spec {mem : List α} {l : DArr α} {r : Option α} (hl : l.Valid)
    (hm : mem.length = l.values.length) (ho : l.bitmap ≠ [] → l.off = 0) :
    ∃ x, presenceOrConst mem l r = some (.ok x) ∧ x.Valid ∧
      elems x = (elems l).map (fun e => orElem e r) := by
  unfold presenceOrConst
  cases r with
  | none =>
    refine ⟨l, rfl, hl, elems_map_of rfl ?_⟩
    intro i _
    cases elem l i <;> rfl
  | some v =>
    dsimp only
    by_cases hb : l.bitmap = []
    · rw [if_pos hb]
      refine ⟨l, rfl, hl, elems_map_of rfl ?_⟩
      intro i hi
      have : elem l i = some l.values[i] := by
        rw [elem_eq, List.getElem?_eq_getElem hi]; simp [pres, hb]
      rw [this]; rfl
    · rw [if_neg hb]
      have o1 := ho hb
      have hcov := Valid.cover hl hb
      obtain ⟨b, e1, e2⟩ := areAllBitsUnset_spec (bm := l.bitmap) (n := l.values.length) (by omega)
      rw [show l.size = l.values.length from rfl, e1]
      simp only [Option.bind_eq_bind, Option.bind_some]
      cases b with
      | true =>
        rw [if_pos rfl]
        refine ⟨_, rfl, ⟨by simp [createConst], Or.inl rfl⟩, elems_map_of (by simp [createConst]) ?_⟩
        intro i hi
        have : elem l i = none := by
          rw [elem_eq]
          have : pres l i = false := by
            unfold pres
            rw [o1, Nat.zero_add, e2.1 rfl i hi, decide_eq_false hb]; rfl
          rw [this]; rfl
        rw [this, elem_eq]
        simp [createConst, pres, hi, orElem, List.getElem?_replicate]
      | false =>
        rw [if_neg (by simp)]
        have key := universalOp_spec (ao := false) (fn := orConstFn v) (skip := false)
          (args := [⟨true, l⟩]) (N := l.values.length) (by
            intro a ha
            simp only [List.mem_cons, List.not_mem_nil, or_false] at ha
            subst ha
            exact ⟨hl, Or.inr o1, rfl⟩) (by
            intro _ x
            unfold orConstFn
            split <;> exact ⟨_, rfl⟩) mem hm
        have hrows : (List.range l.values.length).mapM (rowRes (orConstFn v) [⟨true, l⟩]) =
            .ok ((List.range l.values.length).map (fun i => orElem (elem l i) (some v))) := by
          apply mapM_ok
          intro i _
          unfold rowRes
          simp only [List.all_cons, Bool.true_or, List.all_nil, Bool.and_self, if_true, List.map_cons,
            List.map_nil]
          cases elem l i <;> rfl
        rw [hrows] at key
        obtain ⟨x, x1, x2, _, x4⟩ := key
        refine ⟨x, x1, x2, ?_⟩
        rw [x4]
        unfold elems
        rw [List.map_map]
        rfl

end Verif.Dense
