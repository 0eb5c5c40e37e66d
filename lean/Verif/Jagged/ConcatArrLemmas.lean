import Verif.Jagged.ConcatLemmas
import Verif.Dense.DenseProps
import Verif.Arr.ViewLemmas
import Verif.Arr.BuildLemmas

/-! The values of a concatenation. -/

namespace Verif.Jagged
open Verif.Dense Verif.Edge

variable {α : Type}

/-- Present elements with their positions. -/
def pp : Nat → List (Option α) → List (Nat × α)
  | _, [] => []
  | off, none :: ys => pp (off + 1) ys
  | off, some v :: ys => (off, v) :: pp (off + 1) ys

theorem pp_append : ∀ (a b : List (Option α)) (off : Nat), pp off (a ++ b) = pp off a ++ pp (off + a.length) b := by
  intro a
  induction a with
  | nil => intro b off; rfl
  | cons x a ih =>
    intro b off
    have : off + (x :: a).length = off + 1 + a.length := by rw [List.length_cons]; omega
    rw [this]
    cases x with
    | none => rw [List.cons_append, pp, pp, ih]
    | some v => rw [List.cons_append, pp, pp, ih]; rfl

theorem pp_shift : ∀ (ys : List (Option α)) (off k : Nat),
    (pp k ys).map (fun x => (off + x.1, x.2)) = pp (off + k) ys := by
  intro ys
  induction ys with
  | nil => intro off k; rfl
  | cons y ys ih =>
    intro off k
    cases y with
    | none => rw [pp, pp, ih]; rfl
    | some v => rw [pp, pp, List.map_cons, ih]; rfl

theorem pp_filterMap : ∀ (ys : List (Option α)) (off : Nat),
    (List.range ys.length).filterMap (fun i => ((ys[i]?).join).map (fun v => (off + i, v))) = pp off ys := by
  intro ys
  induction ys with
  | nil => intro off; rfl
  | cons y ys ih =>
    intro off
    rw [List.length_cons, List.range_succ_eq_map, List.filterMap_cons, List.filterMap_map]
    have : ((fun i => (((y :: ys)[i]?).join).map (fun v => (off + i, v))) ∘ Nat.succ) =
        fun i => ((ys[i]?).join).map (fun v => (off + 1 + i, v)) := by
      funext i
      simp only [Function.comp_apply, Nat.succ_eq_add_one, List.getElem?_cons_succ]
      rw [show off + (i + 1) = off + 1 + i by omega]
    rw [this, ih]
    cases y with
    | none => rfl
    | some v => rfl

theorem pp_mem : ∀ (ys : List (Option α)) (off i : Nat) (v : α),
    (i, v) ∈ pp off ys ↔ off ≤ i ∧ ys[i - off]? = some (some v) := by
  intro ys
  induction ys with
  | nil => intro off i v; simp [pp]
  | cons y ys ih =>
    intro off i v
    have hstep : (i, v) ∈ pp (off + 1) ys ↔ off < i ∧ (y :: ys)[i - off]? = some (some v) := by
      rw [ih]
      constructor
      · rintro ⟨h1, h2⟩
        refine ⟨by omega, ?_⟩
        rw [show i - off = (i - (off + 1)) + 1 by omega, List.getElem?_cons_succ]
        exact h2
      · rintro ⟨h1, h2⟩
        refine ⟨by omega, ?_⟩
        rw [show i - off = (i - (off + 1)) + 1 by omega, List.getElem?_cons_succ] at h2
        exact h2
    cases y with
    | none =>
      rw [pp, hstep]
      constructor
      · rintro ⟨h1, h2⟩; exact ⟨by omega, h2⟩
      · rintro ⟨h1, h2⟩
        refine ⟨?_, h2⟩
        rcases Nat.lt_or_ge off i with h | h
        · exact h
        · have : i - off = 0 := by omega
          rw [this] at h2; simp at h2
    | some w =>
      rw [pp, List.mem_cons, hstep]
      constructor
      · rintro (h | ⟨h1, h2⟩)
        · cases h
          exact ⟨Nat.le_refl _, by rw [Nat.sub_self]; rfl⟩
        · exact ⟨by omega, h2⟩
      · rintro ⟨h1, h2⟩
        rcases Nat.lt_or_ge off i with h | h
        · exact Or.inr ⟨h, h2⟩
        · have : i = off := by omega
          subst this
          rw [Nat.sub_self] at h2
          simp at h2
          left; rw [h2]

theorem pp_sorted : ∀ (ys : List (Option α)) (off : Nat), ((pp off ys).map Prod.fst).Pairwise (· < ·) ∧
    (∀ i ∈ (pp off ys).map Prod.fst, off ≤ i ∧ i < off + ys.length) ∧
    (pp off ys).length = ys.countP Option.isSome := by
  intro ys
  induction ys with
  | nil => intro off; simp [pp]
  | cons y ys ih =>
    intro off
    obtain ⟨h1, h2, h3⟩ := ih (off + 1)
    cases y with
    | none =>
      rw [pp]
      refine ⟨h1, ?_, ?_⟩
      · intro i hi; have := h2 i hi; rw [List.length_cons]; omega
      · rw [h3]; simp
    | some v =>
      rw [pp, List.map_cons, List.pairwise_cons]
      refine ⟨⟨fun i hi => by have := h2 i hi; omega, h1⟩, ?_, ?_⟩
      · intro i hi
        rw [List.length_cons]
        rcases List.mem_cons.1 hi with rfl | hi
        · omega
        · have := h2 i hi; omega
      · rw [List.length_cons, h3]; simp

/-! ## Interleaving of the values -/

section Generic
variable {A : Type} {Val : A → Prop} {el : A → List (Option α)} {slice : A → Nat → Nat → Option A}
  {visit : A → Option (List (Nat × α))}

def stX (el : A → List (Option α)) (st : List (A × Nat)) : List (List (Option α)) :=
  st.map (fun x => (el x.1).drop x.2)

theorem arrayLoop_spec
    (hsv : ∀ a pos g, Val a → pos + g ≤ (el a).length →
      ∃ r, slice a pos g = some r ∧ visit r = some (pp 0 (((el a).drop pos).take g))) :
    ∀ (st : List (A × Nat)) (row : List Nat) (rest : List Int) (off : Nat),
    (∀ x ∈ st, Val x.1 ∧ x.2 ≤ (el x.1).length) →
    List.Forall₂ (fun g (x : List (Option α)) => g ≤ x.length) row (stX el st) →
    ∃ st', arrayLoop slice visit st (C row ++ rest) off =
        some (pp off (rowCat row (stX el st)), st', rest, off + (rowCat row (stX el st)).length) ∧
      stX el st' = rowDrop row (stX el st) ∧ ∀ x ∈ st', Val x.1 ∧ x.2 ≤ (el x.1).length := by
  intro st
  induction st with
  | nil =>
    intro row rest off _ h
    cases h
    exact ⟨[], rfl, rfl, by simp⟩
  | cons x st ih =>
    intro row rest off hg h
    obtain ⟨a, pos⟩ := x
    have hs : stX el ((a, pos) :: st) = (el a).drop pos :: stX el st := rfl
    rw [hs] at h ⊢
    obtain ⟨hv, hp⟩ := hg (a, pos) (by simp)
    dsimp only at hv hp
    cases h with
    | @cons g _ row _ h1 h2 =>
      rw [List.length_drop] at h1
      obtain ⟨r, e1, e2⟩ := hsv a pos g hv (by omega)
      obtain ⟨st', r1, r2, r3⟩ := ih row rest (off + g) (fun x hx => hg x (by simp [hx])) h2
      rw [C_cons, List.cons_append, arrayLoop, if_neg (by omega)]
      simp only [Option.bind_eq_bind, Option.bind_some, Int.toNat_natCast]
      rw [e1]
      simp only [Option.bind_some]
      rw [e2, r1]
      simp only [Option.bind_some]
      have hlen : (((el a).drop pos).take g).length = g := by
        rw [List.length_take, List.length_drop]; omega
      refine ⟨(a, pos + g) :: st', ?_, ?_, ?_⟩
      · rw [rowCat, pp_append, pp_shift, List.length_append, hlen, Nat.add_zero, Nat.add_assoc]
      · rw [rowDrop, ← r2, List.drop_drop]; rfl
      · intro x hx
        rcases List.mem_cons.1 hx with rfl | hx
        · exact ⟨hv, by dsimp only; omega⟩
        · exact r3 x hx

theorem arrayGroups_spec
    (hsv : ∀ a pos g, Val a → pos + g ≤ (el a).length →
      ∃ r, slice a pos g = some r ∧ visit r = some (pp 0 (((el a).drop pos).take g))) :
    ∀ (gs : List (List Nat)) (st : List (A × Nat)) (off : Nat),
    (∀ x ∈ st, Val x.1 ∧ x.2 ≤ (el x.1).length) → Fit gs (stX el st) →
    arrayGroups slice visit gs.length st (C gs.flatten) off = some (pp off (inter gs (stX el st))) := by
  intro gs
  induction gs with
  | nil => intro st off _ _; rfl
  | cons row gs ih =>
    intro st off hg h
    obtain ⟨st', r1, r2, r3⟩ := arrayLoop_spec hsv st row (C gs.flatten) off hg h.1
    rw [List.length_cons, arrayGroups, List.flatten_cons, C_append, r1]
    simp only [Option.bind_eq_bind, Option.bind_some]
    rw [ih st' _ r3 (by rw [r2]; exact h.2), r2]
    simp only [Option.bind_some]
    rw [inter, pp_append]

end Generic

theorem rowCat_countP {β : Type} (p : β → Bool) {row : List Nat} {Xs : List (List β)}
    (h : List.Forall₂ (fun g (x : List β) => g ≤ x.length) row Xs) :
    (rowCat row Xs).countP p + ((rowDrop row Xs).map (List.countP p)).sum = (Xs.map (List.countP p)).sum := by
  induction h with
  | nil => rfl
  | @cons g X row Xs _ _ ih =>
    have : X.countP p = (X.take g).countP p + (X.drop g).countP p := by
      rw [← List.countP_append, List.take_append_drop]
    simp only [rowCat, rowDrop, List.countP_append, List.map_cons, List.sum_cons]
    omega

theorem inter_countP {β : Type} (p : β → Bool) : ∀ (gs : List (List Nat)) (Xs : List (List β)), Fit gs Xs →
    (inter gs Xs).countP p = (Xs.map (List.countP p)).sum := by
  intro gs
  induction gs with
  | nil =>
    intro Xs h
    have : Xs.map (List.countP p) = Xs.map (fun _ => 0) := List.map_congr_left (fun x hx => by
      rw [List.length_eq_zero_iff.1 (h x hx)]; rfl)
    rw [this]
    simp [inter]
  | cons row gs ih =>
    intro Xs h
    rw [inter, List.countP_append, ih _ h.2, rowCat_countP p h.1]

theorem inter_single {β : Type} : ∀ (gs : List (List Nat)) (X : List β), Fit gs [X] → inter gs [X] = X := by
  intro gs
  induction gs with
  | nil => intro X h; rw [List.length_eq_zero_iff.1 (h X (by simp))]; rfl
  | cons row gs ih =>
    intro X h
    obtain ⟨h1, h2⟩ := h
    cases h1 with
    | @cons g _ row _ h3 h4 =>
      cases h4
      have e1 : rowCat [g] [X] = X.take g := by simp [rowCat]
      have e2 : rowDrop [g] [X] = [X.drop g] := rfl
      rw [e2] at h2
      rw [inter, e1, e2, ih _ h2, List.take_append_drop]

/-- The requirements on an array type. -/
structure ArrayType (A α : Type) (Val : A → Prop) (el : A → List (Option α)) (asize : A → Nat)
    (slice : A → Nat → Nat → Option A) (visit : A → Option (List (Nat × α)))
    (build : List A → List (Nat × α) → Option A) : Prop where
  size_eq : ∀ a, asize a = (el a).length
  slice_visit : ∀ a pos g, Val a → pos + g ≤ (el a).length →
    ∃ r, slice a pos g = some r ∧ visit r = some (pp 0 (((el a).drop pos).take g))
  build_eq : ∀ (as : List A) (ys : List (Option α)), (∀ a ∈ as, Val a) →
    ys.length = (as.map (fun a => (el a).length)).sum →
    ys.countP Option.isSome = (as.map (fun a => (el a).countP Option.isSome)).sum →
    ∃ r, build as (pp 0 ys) = some r ∧ Val r ∧ el r = ys

section Main
variable {A : Type} {Val : A → Prop} {el : A → List (Option α)} {asize : A → Nat}
  {slice : A → Nat → Nat → Option A} {visit : A → Option (List (Nat × α))}
  {build : List A → List (Nat × α) → Option A}

theorem zip_maps {B D : Type} (f : B → D) : ∀ (as : List B) (ss : List Shape), as.length = ss.length →
    (ss.zip (as.map f)).map Prod.fst = ss ∧ (ss.zip (as.map f)).map Prod.snd = as.map f := by
  intro as
  induction as with
  | nil => intro ss h; have : ss = [] := by simpa using h.symm
           subst this; exact ⟨rfl, rfl⟩
  | cons a as ih =>
    intro ss h
    cases ss with
    | nil => simp at h
    | cons s ss =>
      obtain ⟨h1, h2⟩ := ih ss (by simpa using h)
      simp [h1, h2]

theorem concatArrays_ok (T : ArrayType A α Val el asize slice visit build) (mem : Nat → Int)
    {arrays : List A} {shapes : List Shape} {dim : Int} {insert : Bool} (ha : ∀ a ∈ arrays, Val a)
    (hs : ∀ s ∈ shapes, ShapeOk s)
    (hsz : List.Forall₂ (fun a s => ((el a).length : Int) = size s) arrays shapes)
    (hc : Combinable insert shapes dim) (hfit : SizesFit insert shapes dim.toNat) :
    ∃ r shape, concatArrays mem asize slice visit build arrays shapes dim insert = some (.ok (r, shape)) ∧
      Val r ∧ ShapeOk shape ∧ (∀ s ∈ shapes, shape.length = s.length + (if insert then 1 else 0)) ∧
      ((el r).length : Int) = size shape ∧
      forest (shape.map sizes) (el r) = [(if insert then stackAt dim.toNat else concatAt dim.toNat)
        (List.zipWith (fun s a => tree s (el a)) shapes arrays)] := by
  have hlen := hsz.length_eq
  obtain ⟨z1, z2⟩ := zip_maps el arrays shapes hlen
  have hzs : ∀ z ∈ shapes.zip (arrays.map el), ShapeOk z.1 ∧ (z.2.length : Int) = size z.1 := by
    clear hc hfit z1 z2 hlen ha
    induction hsz with
    | nil => simp
    | @cons a s as ss h1 _ ih =>
      intro z hz
      rw [List.map_cons, List.zip_cons_cons] at hz
      rcases List.mem_cons.1 hz with rfl | hz
      · exact ⟨hs s (by simp), h1⟩
      · exact ih (fun x hx => hs x (by simp [hx])) z hz
  obtain ⟨shape, Gf, g1, g2, g3, g4, ⟨e, g5, g5'⟩, g6, g7⟩ :=
    (concatShapes_spec mem (dim := dim) (insert := insert) hzs).1 (by rw [z1]; exact hc) (by rw [z1]; exact hfit)
  rw [z1] at g1
  rw [z2] at g4 g7
  have htrees : (shapes.zip (arrays.map el)).map (fun z => tree z.1 z.2) =
      List.zipWith (fun s a => tree s (el a)) shapes arrays := by
    clear hc hfit z1 z2 hlen ha hzs g1 g2 g3 g4 g5 g6 g7 hs
    induction hsz with
    | nil => rfl
    | @cons a s as ss _ _ ih =>
      rw [List.map_cons, List.zip_cons_cons, List.map_cons, List.zipWith_cons_cons, ih]
  rw [htrees] at g7
  have hrank : ∀ s ∈ shapes, shape.length = s.length + (if insert then 1 else 0) := by
    intro s hs'
    rw [← z1] at hs'
    obtain ⟨z, h1, rfl⟩ := List.mem_map.1 hs'
    exact g3 z h1
  have hil := inter_length _ _ g4
  unfold concatArrays
  rw [if_neg (by simpa using hlen), g1]
  simp only [Option.bind_eq_bind, Option.bind_some]
  have hfin : ∀ r, Val r → el r = inter Gf (arrays.map el) →
      Val r ∧ ShapeOk shape ∧ (∀ s ∈ shapes, shape.length = s.length + (if insert then 1 else 0)) ∧
      ((el r).length : Int) = size shape ∧
      forest (shape.map sizes) (el r) = [(if insert then stackAt dim.toNat else concatAt dim.toNat)
        (List.zipWith (fun s a => tree s (el a)) shapes arrays)] := by
    intro r hr her
    exact ⟨hr, g2, hrank, by rw [her, hil.1, g6], by rw [her]; exact g7⟩
  have hgen : ∀ (_ : (arrays.zip shapes).any (fun (a, s) => decide ((asize a : Int) ≠ size s)) = false),
      ∃ r, (do
          let e ← shape[dim.toNat]?
          let adds ← arrayGroups slice visit e.parentSize.toNat (arrays.map (fun a => (a, 0))) (C Gf.flatten) 0
          some (Except.ok (ε := String) (← build arrays adds, shape))) = some (.ok (r, shape)) ∧
        Val r ∧ el r = inter Gf (arrays.map el) := by
    intro _
    rw [g5]
    simp only [Option.bind_eq_bind, Option.bind_some]
    rw [g5', Int.toNat_natCast]
    have hst : stX el (arrays.map (fun a => (a, 0))) = arrays.map el := by
      unfold stX; rw [List.map_map]; rfl
    rw [arrayGroups_spec T.slice_visit Gf _ 0 (by
      intro x hx
      obtain ⟨a, h1, rfl⟩ := List.mem_map.1 hx
      exact ⟨ha a h1, Nat.zero_le _⟩) (by rw [hst]; exact g4), hst]
    simp only [Option.bind_some]
    obtain ⟨r, r1, r2, r3⟩ := T.build_eq arrays (inter Gf (arrays.map el)) ha
      (by rw [hil.2, List.map_map]; rfl) (by rw [inter_countP _ _ _ g4, List.map_map]; rfl)
    rw [r1]
    exact ⟨r, rfl, r2, r3⟩
  have hany : (arrays.zip shapes).any (fun (a, s) => decide ((asize a : Int) ≠ size s)) = false := by
    clear g1 g2 g3 g4 g5 g6 g7 hrank hil hfin hgen hc hfit z1 z2 hzs hlen hs ha htrees
    induction hsz with
    | nil => rfl
    | @cons a s as ss h1 _ ih =>
      rw [List.zip_cons_cons, List.any_cons, ih, Bool.or_false]
      dsimp only
      rw [T.size_eq]
      simpa using h1
  obtain ⟨r, r1, r2, r3⟩ := hgen hany
  match arrays, ha, hfin, r1, r3, g4, hany with
  | [], _, hfin, r1, r3, _, hany =>
    simp only [hany, Bool.false_eq_true, if_false]
    exact ⟨r, shape, r1, hfin r r2 r3⟩
  | [a], ha, hfin, _, _, g4, _ =>
    refine ⟨a, shape, rfl, hfin a (ha a (by simp)) ?_⟩
    rw [List.map_singleton, inter_single _ _ (by simpa using g4)]
  | a :: b :: t, _, hfin, r1, r3, _, hany =>
    simp only [hany, Bool.false_eq_true, if_false]
    exact ⟨r, shape, r1, hfin r r2 r3⟩

theorem concatArrays_error (T : ArrayType A α Val el asize slice visit build) (mem : Nat → Int)
    {arrays : List A} {shapes : List Shape} {dim : Int} {insert : Bool} (hs : ∀ s ∈ shapes, ShapeOk s)
    (hbad : arrays.length ≠ shapes.length ∨ ¬ Combinable insert shapes dim ∨
      (arrays.length ≠ 1 ∧ ¬ List.Forall₂ (fun a s => ((el a).length : Int) = size s) arrays shapes ∧
        SizesFit insert shapes dim.toNat)) :
    ∃ m, concatArrays mem asize slice visit build arrays shapes dim insert = some (.error m) := by
  unfold concatArrays
  by_cases hlen : arrays.length = shapes.length
  · rw [if_neg (by simpa using hlen)]
    have hzs : ∀ z ∈ shapes.map (fun s => (s, List.replicate (size s).toNat ())),
        ShapeOk z.1 ∧ (z.2.length : Int) = size z.1 := by
      intro z hz
      obtain ⟨s, h1, rfl⟩ := List.mem_map.1 hz
      have := endSize_nonneg s 1 (by decide) (fun e he => ((hs s h1).2 e he).1)
      rw [← size_eq] at this
      refine ⟨hs s h1, ?_⟩
      simp only [List.length_replicate]
      omega
    have hz1 : (shapes.map (fun s => (s, List.replicate (size s).toNat ()))).map Prod.fst = shapes := by
      rw [List.map_map]; simp [Function.comp_def]
    obtain ⟨k1, k2⟩ := concatShapes_spec mem (dim := dim) (insert := insert) hzs
    rw [hz1] at k1 k2
    by_cases hc : Combinable insert shapes dim
    · rcases hbad with h | h | ⟨h1, h2, h3⟩
      · exact absurd hlen h
      · exact absurd hc h
      · obtain ⟨shape, Gf, g1, gg⟩ := k1 hc h3
        clear gg
        rw [hz1] at g1
        rw [g1]
        simp only [Option.bind_eq_bind, Option.bind_some]
        have hany : (arrays.zip shapes).any (fun (a, s) => decide ((asize a : Int) ≠ size s)) = true := by
          by_cases h : (arrays.zip shapes).any (fun (a, s) => decide ((asize a : Int) ≠ size s)) = true
          · exact h
          · exfalso
            apply h2
            clear k1 k2 g1 h1 h2 h3 hc hz1 hzs hs
            induction arrays generalizing shapes with
            | nil => have : shapes = [] := by simpa using hlen.symm
                     subst this; exact .nil
            | cons a as ih =>
              cases shapes with
              | nil => simp at hlen
              | cons s ss =>
                rw [List.zip_cons_cons, List.any_cons, Bool.or_eq_true, not_or] at h
                refine .cons ?_ (ih (by simpa using hlen) h.2)
                have := h.1
                dsimp only at this
                rw [T.size_eq] at this
                simpa using this
        match arrays, h1, hany with
        | [], _, hany => simp only [hany, if_true]; exact ⟨_, rfl⟩
        | [a], h1, _ => exact absurd rfl h1
        | a :: b :: t, _, hany => simp only [hany, if_true]; exact ⟨_, rfl⟩
    · obtain ⟨m, hm⟩ := k2 hc
      rw [hm]
      exact ⟨m, rfl⟩
  · rw [if_pos hlen]
    exact ⟨_, rfl⟩

end Main

/-! ## Dense arrays -/

theorem foldl_pp : ∀ (ys : List (Option α)) (off : Nat) (f : Nat → Option α) (k : Nat),
    (((pp off ys).map (fun x => DBuilder.Op.set x.1 (some x.2))).foldl opEffect f) k =
      if off ≤ k then (match ys[k - off]? with | some (some v) => some v | _ => f k) else f k := by
  intro ys
  induction ys with
  | nil => intro off f k; simp [pp]
  | cons y ys ih =>
    intro off f k
    cases y with
    | none =>
      rw [pp, ih]
      by_cases h1 : off + 1 ≤ k
      · rw [if_pos h1, if_pos (by omega), show k - off = (k - (off + 1)) + 1 by omega, List.getElem?_cons_succ]
      · rw [if_neg h1]
        by_cases h2 : off ≤ k
        · rw [if_pos h2, show k - off = 0 by omega]; rfl
        · rw [if_neg h2]
    | some v =>
      rw [pp, List.map_cons, List.foldl_cons, ih]
      simp only [opEffect]
      by_cases h1 : off + 1 ≤ k
      · rw [if_pos h1, if_pos (show off ≤ k by omega), show k - off = (k - (off + 1)) + 1 by omega,
          List.getElem?_cons_succ, if_neg (by omega)]
      · rw [if_neg h1]
        by_cases h2 : off ≤ k
        · rw [if_pos h2, show k - off = 0 by omega, if_pos (by omega)]; rfl
        · rw [if_neg h2, if_neg (by omega)]

theorem denseType (vmem : Nat → α) :
    ArrayType (DArr α) α DArr.Valid elems DArr.size DArr.slice DArr.forEachPresent (buildDense vmem) where
  size_eq a := (elems_length a).symm
  slice_visit a pos g hv h := by
    rw [elems_length] at h
    obtain ⟨r, r1, r2, r3⟩ := slice_spec hv h
    refine ⟨r, r1, ?_⟩
    have hsz : r.size = (elems r).length := (elems_length r).symm
    rw [for_each_present_visits r r2, hsz, ← r3, ← pp_filterMap]
    simp only [Nat.zero_add]
  build_eq as ys _ hl _ := by
    unfold buildDense
    have hn : (as.map DArr.size).sum = ys.length := by
      rw [hl]
      congr 1
      apply List.map_congr_left
      intro a _
      rw [elems_length]; rfl
    simp only [hn]
    have hinv := new_inv ((List.range ys.length).map vmem)
    rw [List.length_map, List.length_range] at hinv
    obtain ⟨b, b1, b2⟩ := applyAll_inv ((pp 0 ys).map (fun x => DBuilder.Op.set x.1 (some x.2))) _ _ hinv (by
      intro o ho
      obtain ⟨x, h1, rfl⟩ := List.mem_map.1 ho
      have := (pp_sorted ys 0).2.1 x.1 (List.mem_map_of_mem h1)
      show x.1 < ys.length
      omega)
    rw [b1]
    obtain ⟨v1, v2⟩ := elems_of_inv b2
    refine ⟨b.build, rfl, v1, ?_⟩
    rw [v2]
    apply List.ext_getElem?
    intro k
    rw [List.getElem?_map]
    by_cases hk : k < ys.length
    · rw [List.getElem?_range hk, Option.map_some, foldl_pp, if_pos (Nat.zero_le _), Nat.sub_zero,
        List.getElem?_eq_getElem hk]
      cases hy : ys[k] <;> simp
    · rw [List.getElem?_eq_none (by simp; omega), List.getElem?_eq_none (by omega)]; rfl

/-! ## Arrays -/

theorem mapM_present (l : List (Nat × Option α)) :
    ((l.map (fun x => ((x.1 : Int), x.2))).filter (fun p => p.2.isSome)).mapM
      (fun (i, v) => do some (← Arr.Arr.toIdx i, ← v)) = some (l.filterMap (fun x => x.2.map (fun v => (x.1, v)))) := by
  induction l with
  | nil => rfl
  | cons x l ih =>
    obtain ⟨i, v⟩ := x
    cases v with
    | none =>
      rw [List.map_cons, List.filter_cons_of_neg (by simp), ih]; rfl
    | some v =>
      rw [List.map_cons, List.filter_cons_of_pos (by simp), List.mapM_cons, ih]
      have : ¬ (i : Int) < 0 := by omega
      simp [Arr.Arr.toIdx, this]

theorem visitArr_spec {a : Arr.Arr α} (hv : a.Valid) : visitArr a = some (pp 0 a.elems) := by
  obtain ⟨calls, c1, c2⟩ := Arr.forEachPresent_arr_spec hv
  unfold visitArr
  rw [c1]
  simp only [Option.bind_eq_bind, Option.bind_some]
  rw [c2]
  have := mapM_present ((List.range a.size).map (fun i => (i, a.elem i)))
  rw [List.map_map, List.filterMap_map] at this
  refine Eq.trans this ?_
  rw [← pp_filterMap, Arr.aelems_length]
  congr 1
  have hcongr : ∀ (l : List Nat) (f g : Nat → Option (Nat × α)), (∀ i ∈ l, f i = g i) →
      l.filterMap f = l.filterMap g := by
    intro l f g
    induction l with
    | nil => intro _; rfl
    | cons x l ih =>
      intro h
      rw [List.filterMap_cons, List.filterMap_cons, h x (by simp), ih (fun y hy => h y (by simp [hy]))]
  apply hcongr
  intro i hi
  rw [Arr.aelems_get (List.mem_range.1 hi)]
  simp

theorem sVals_adds : ∀ (l : List (Nat × α)) (k : Nat) (f : Nat → Option α) (j : Nat),
    Arr.sVals k f (l.map (fun x => Arr.SOp.add x.1 (some x.2))) j =
      if k ≤ j then (match l[j - k]? with | some x => some x.2 | none => f j) else f j := by
  intro l
  induction l with
  | nil => intro k f j; simp [Arr.sVals]
  | cons x l ih =>
    intro k f j
    rw [List.map_cons, Arr.sVals, ih]
    by_cases h1 : k + 1 ≤ j
    · rw [if_pos h1, if_pos (show k ≤ j by omega), show j - k = (j - (k + 1)) + 1 by omega,
        List.getElem?_cons_succ]
      cases l[j - (k + 1)]? with
      | some y => rfl
      | none => dsimp only; rw [if_neg (by omega)]
    · rw [if_neg h1]
      by_cases h2 : k ≤ j
      · rw [if_pos h2, show j - k = 0 by omega, if_pos ⟨by omega, rfl⟩]; rfl
      · rw [if_neg h2, if_neg (by omega)]

theorem sIds_adds (l : List (Nat × α)) : Arr.sIds (l.map (fun x => Arr.SOp.add x.1 (some x.2))) = l.map Prod.fst := by
  unfold Arr.sIds
  rw [List.filterMap_map]
  induction l with
  | nil => rfl
  | cons x l ih => rw [List.filterMap_cons, ih]; rfl

theorem sparseType (vmem : Nat → α) (imem : Nat → Int) :
    ArrayType (Arr.Arr α) α Arr.Arr.Valid Arr.Arr.elems Arr.Arr.size Arr.Arr.slice visitArr
      (buildSparse vmem imem) where
  size_eq a := (Arr.aelems_length a).symm
  slice_visit a pos g hv h := by
    rw [Arr.aelems_length] at h
    obtain ⟨r, r1, r2, r3, r4⟩ := Arr.slice_arr_spec hv h
    refine ⟨r, r1, ?_⟩
    rw [visitArr_spec r2]
    congr 2
    apply List.ext_getElem?
    intro i
    by_cases hi : i < g
    · rw [Arr.aelems_get (by omega), r4 i hi, List.getElem?_take_of_lt hi, List.getElem?_drop,
        Arr.aelems_get (by omega)]
    · rw [List.getElem?_eq_none (by rw [Arr.aelems_length]; omega),
        List.getElem?_eq_none (by rw [List.length_take, List.length_drop, Arr.aelems_length]; omega)]
  build_eq as ys ha hl hcnt := by
    unfold buildSparse
    have hn : (as.map Arr.Arr.size).sum = ys.length := by
      rw [hl]
      congr 1
      apply List.map_congr_left
      intro a _
      rw [Arr.aelems_length]
    have hc : as.mapM Arr.Arr.presentCount = some (as.map (fun a => a.elems.countP Option.isSome)) :=
      mapM_some (fun a h => Arr.presentCount_arr_spec (ha a h))
    rw [hc]
    simp only [Option.bind_eq_bind, Option.bind_some, hn, ← hcnt]
    obtain ⟨p1, p2, p3⟩ := pp_sorted ys 0
    obtain ⟨b, b1, b2, b3, b4, b5⟩ := Arr.sbuilder_spec (size := ys.length)
      ((List.range (ys.countP Option.isSome)).map vmem) ((List.range (ys.countP Option.isSome)).map imem)
      (by simp) (ops := (pp 0 ys).map (fun x => Arr.SOp.add x.1 (some x.2)))
      (by rw [sIds_adds]; simp [p3]) (by
        intro o v h
        obtain ⟨x, _, h2⟩ := List.mem_map.1 h
        simp at h2) (by rw [sIds_adds]; exact p1) (by
        rw [sIds_adds]
        intro i hi
        have := p2 i hi
        omega)
    rw [b1]
    refine ⟨b.build, rfl, b2, ?_⟩
    apply List.ext_getElem?
    intro i
    by_cases hi : i < ys.length
    · rw [Arr.aelems_get (by omega), List.getElem?_eq_getElem hi]
      congr 1
      cases hy : ys[i] with
      | none =>
        apply b5 i hi
        rw [sIds_adds]
        intro hc
        obtain ⟨x, h1, h2⟩ := List.mem_map.1 hc
        have := (pp_mem ys 0 x.1 x.2).1 h1
        rw [h2, Nat.sub_zero, List.getElem?_eq_getElem hi, hy] at this
        simp at this
      | some v =>
        have hm : (i, v) ∈ pp 0 ys := (pp_mem ys 0 i v).2 ⟨Nat.zero_le _, by
          rw [Nat.sub_zero, List.getElem?_eq_getElem hi, hy]⟩
        obtain ⟨o, ho, ho'⟩ := List.getElem_of_mem hm
        have h1 : (pp 0 ys)[o]? = some (i, v) := by rw [List.getElem?_eq_getElem ho, ho']
        rw [b4 o i (by rw [sIds_adds, List.getElem?_map, h1]; rfl), sVals_adds, if_pos (Nat.zero_le _),
          Nat.sub_zero, h1]
    · rw [List.getElem?_eq_none (by rw [Arr.aelems_length]; omega), List.getElem?_eq_none (by omega)]

end Verif.Jagged
