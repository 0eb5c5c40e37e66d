import Verif.Group.IterSpec
import Verif.Dense.OpsLemmas
import Verif.Arr.ViewLemmas
import Mathlib.Data.List.Range

/-! Helper lemmas for row iteration. -/

namespace Verif.Group
open Verif.Bits Verif.Bitmap Verif.Dense Verif.Arr

variable {V : Type}

/-- Dense arguments of `n` rows. -/
def DArgsOk (n : Nat) (args : List (Arg V)) : Prop :=
  ∀ a ∈ args, a.arr.Valid ∧ a.arr.values.length = n

theorem DArgsOk.off {n : Nat} {args : List (Arg V)} (h : DArgsOk n args) :
    ∀ a ∈ args, a.arr.Valid ∧ OffOk true a.arr ∧ a.arr.values.length = n :=
  fun a ha => ⟨(h a ha).1, Or.inl rfl, (h a ha).2⟩

theorem createGetters_def {args : List (Arg V)} {n : Nat} (h : DArgsOk n args) (w : Nat) :
    ∃ ms, createGetters w args = some ms := by
  unfold createGetters
  induction args with
  | nil => exact ⟨[], rfl⟩
  | cons a as ih =>
    obtain ⟨ms, e⟩ := ih (fun x hx => h x (by simp [hx]))
    obtain ⟨m, f, _⟩ := getMask_spec (ao := true) (h a (by simp)).1 (Or.inl rfl) w
    rw [List.mapM_cons, e]
    cases a.optional with
    | true => exact ⟨m :: ms, by simp [f]⟩
    | false => exact ⟨fullWord :: ms, by simp⟩

theorem pres_elem {a : DArr V} (hv : a.Valid) {i : Nat} (hi : i < a.values.length) :
    (Dense.elem a i).isSome = pres a i := by
  rw [elem_eq, List.getElem?_eq_getElem hi]
  cases pres a i <;> rfl

theorem denseRow_eq {n i : Nat} {args : List (Arg V)} (h : DArgsOk n args) (hi : i < n) :
    denseRow args i = if reqPresent args i then some (args.map (fun a => Dense.elem a.arr i)) else none := by
  unfold denseRow reqPresent
  have : args.all (fun a => a.optional || (Dense.elem a.arr i).isSome) =
      args.all (fun a => a.optional || pres a.arr i) := by
    rw [Bool.eq_iff_iff, List.all_eq_true, List.all_eq_true]
    constructor
    · intro hh a ha
      rw [← pres_elem (h a ha).1 (by rw [(h a ha).2]; exact hi)]; exact hh a ha
    · intro hh a ha
      rw [pres_elem (h a ha).1 (by rw [(h a ha).2]; exact hi)]; exact hh a ha
  rw [this]

theorem mapM_meaning {α : Type} {f : α → Option (Row V)} {g : α → Nat × Option (List (Option V))} :
    ∀ (l : List α), (∀ x ∈ l, ∃ r, f x = some r ∧ Row.meaning r = g x) →
      ∃ rs, l.mapM f = some rs ∧ rs.map Row.meaning = l.map g := by
  intro l
  induction l with
  | nil => intro _; exact ⟨[], rfl, rfl⟩
  | cons x xs ih =>
    intro h
    obtain ⟨r, e1, e2⟩ := h x (by simp)
    obtain ⟨rs, f1, f2⟩ := ih (fun y hy => h y (by simp [hy]))
    refine ⟨r :: rs, ?_, by simp [e2, f2]⟩
    rw [List.mapM_cons, e1, f1]; rfl

/-- The rows `[fr, en)`. -/
def drows (args : List (Arg V)) (fr en : Nat) : List (Nat × Option (List (Option V))) :=
  (List.range' fr (en - fr)).map (fun i => (i, denseRow args i))

theorem drows_append {args : List (Arg V)} {a b c : Nat} (h1 : a ≤ b) (h2 : b ≤ c) :
    drows args a b ++ drows args b c = drows args a c := by
  unfold drows
  rw [← List.map_append]
  congr 1
  have : b = a + (b - a) := by omega
  conv_lhs => rw [this]
  rw [show a + (b - a) - a = b - a by omega, show c - (a + (b - a)) = c - b by omega,
    List.range'_append_1]
  congr 1; omega

theorem drows_nil {args : List (Arg V)} {a b : Nat} (h : b ≤ a) : drows args a b = [] := by
  unfold drows; rw [show b - a = 0 by omega]; rfl

theorem groupFn_spec {n : Nat} {args : List (Arg V)} (h : DArgsOk n args) {w lf lt : Nat}
    (hlt : lt ≤ 32) (hn : lf < lt → w * 32 + lt ≤ n) :
    ∃ rs, groupFn args w lf lt = some rs ∧ rs.map Row.meaning = drows args (w * 32 + lf) (w * 32 + lt) := by
  obtain ⟨m, e1, e2⟩ := intersectMasks_spec (g := w) h.off
  obtain ⟨ms, e3⟩ := createGetters_def h w
  unfold groupFn
  simp only [e1, e3, Option.bind_eq_bind, Option.bind_some]
  obtain ⟨rs, f1, f2⟩ := mapM_meaning (V := V)
    (f := fun i => (args.mapM (getArg true w i)).bind (fun x => some (w * 32 + i, m.getLsbD i, x)))
    (g := fun i => (w * 32 + i, denseRow args (w * 32 + i)))
    (List.range' lf (lt - lf)) (by
      intro i hi
      rw [List.mem_range'_1] at hi
      have hlt' : lf < lt := by omega
      have hb := hn hlt'
      obtain ⟨x, g1, g2⟩ := getArg_spec (ao := true) (n := n) (g := w) (j := i) (by omega) (by omega) h.off
      refine ⟨_, by rw [g1]; rfl, ?_⟩
      unfold Row.meaning
      rw [show w * 32 + i = 32 * w + i by omega, denseRow_eq h (by omega), e2 i (by omega) (by omega)]
      cases hr : reqPresent args (32 * w + i) with
      | true => simp [g2 hr]
      | false => simp)
  refine ⟨rs, f1, ?_⟩
  rw [f2]
  unfold drows
  rw [show w * 32 + lt - (w * 32 + lf) = lt - lf by omega, ← List.map_add_range', List.map_map]
  rfl

theorem wordsLoop_spec {n : Nat} {args : List (Arg V)} (h : DArgsOk n args) : ∀ (k w : Nat),
    (0 < k → (w + k) * 32 ≤ n) →
    ∃ rs, wordsLoop args w k = some rs ∧ rs.map Row.meaning = drows args (w * 32) ((w + k) * 32) := by
  intro k
  induction k with
  | zero => intro w _; exact ⟨[], rfl, by rw [drows_nil (by omega)]; rfl⟩
  | succ k ih =>
    intro w hw
    obtain ⟨g, e1, e2⟩ := groupFn_spec h (w := w) (lf := 0) (lt := 32) (by omega) (by omega)
    obtain ⟨rs, f1, f2⟩ := ih (w + 1) (by omega)
    refine ⟨g ++ rs, by simp [wordsLoop, e1, f1], ?_⟩
    rw [List.map_append, e2, f2, show w * 32 + 0 = w * 32 by omega,
      show w * 32 + 32 = (w + 1) * 32 by omega, drows_append (by omega) (by omega)]
    congr 2; omega

theorem denseIterate_spec {n : Nat} {args : List (Arg V)} (h : DArgsOk n args) {fr en : Nat}
    (h1 : fr ≤ en) (h2 : en ≤ n) :
    ∃ rs, denseIterate args fr en = some rs ∧ rs.map Row.meaning = drows args fr en := by
  have first : ∃ r w, firstWord args fr en = some (r, w) ∧
      ((w * 32 ≤ en ∧ fr ≤ w * 32 ∧ r.map Row.meaning = drows args fr (w * 32)) ∨
       (en < w * 32 ∧ r.map Row.meaning = drows args fr en)) := by
    unfold firstWord
    by_cases hl : fr % 32 > 0
    · rw [if_pos hl]
      obtain ⟨r, e1, e2⟩ := groupFn_spec h (w := fr / 32) (lf := fr % 32)
        (lt := min (en - fr + fr % 32) 32) (by omega) (by omega)
      refine ⟨r, fr / 32 + 1, by simp [e1], ?_⟩
      rw [show fr / 32 * 32 + fr % 32 = fr by omega] at e2
      by_cases hw : (fr / 32 + 1) * 32 ≤ en
      · left
        refine ⟨hw, by omega, ?_⟩
        rw [e2]; congr 1; omega
      · right
        refine ⟨by omega, ?_⟩
        rw [e2]; congr 1; omega
    · rw [if_neg hl]
      refine ⟨[], fr / 32, rfl, Or.inl ⟨by omega, by omega, ?_⟩⟩
      rw [drows_nil (by omega)]; rfl
  obtain ⟨r1, w, e1, hc⟩ := first
  obtain ⟨r2, f1, f2⟩ := wordsLoop_spec h (en / 32 - w) w (by intro; omega)
  have last : ∃ r, lastWord args en (w + (en / 32 - w)) = some r ∧
      r.map Row.meaning = drows args ((w + (en / 32 - w)) * 32) en := by
    unfold lastWord
    split
    · rename_i hp
      obtain ⟨r, g1, g2⟩ := groupFn_spec h (w := w + (en / 32 - w)) (lf := 0)
        (lt := en - (w + (en / 32 - w)) * 32) (by omega) (by omega)
      refine ⟨r, g1, ?_⟩
      rw [g2]; congr 1; omega
    · rename_i hp
      exact ⟨[], rfl, by rw [drows_nil (by omega)]; rfl⟩
  obtain ⟨r3, g1, g2⟩ := last
  refine ⟨r1 ++ r2 ++ r3, by simp [denseIterate, e1, f1, g1], ?_⟩
  rw [List.map_append, List.map_append, f2, g2]
  rcases hc with ⟨a1, a2, a3⟩ | ⟨a1, a2⟩
  · rw [a3, drows_append a2 (by omega), drows_append (by omega) (by omega)]
  · rw [a2, drows_nil (a := w * 32) (by omega), drows_nil (a := (w + (en / 32 - w)) * 32) (by omega)]; simp

theorem fromZeroLoop_spec {n : Nat} {args : List (Arg V)} (h : DArgsOk n args) {en : Nat} (hn : en ≤ n) :
    ∀ (fuel w : Nat), 0 < fuel → en < fuel + 32 * w →
    ∃ rs, fromZeroLoop args en fuel (w * 32) = some rs ∧ rs.map Row.meaning = drows args (w * 32) en := by
  intro fuel
  induction fuel with
  | zero => intro w h0; omega
  | succ fuel ih =>
    intro w _ hw
    rw [fromZeroLoop]
    split
    · rename_i hlt
      obtain ⟨g, e1, e2⟩ := groupFn_spec h (w := w * 32 / 32) (lf := 0) (lt := min 32 (en - w * 32))
        (by omega) (by omega)
      obtain ⟨rs, f1, f2⟩ := ih (w + 1) (by omega) (by omega)
      rw [show w * 32 + 32 = (w + 1) * 32 by omega]
      refine ⟨g ++ rs, by rw [e1, f1]; rfl, ?_⟩
      rw [List.map_append, e2, f2, show w * 32 / 32 * 32 = w * 32 by omega, Nat.add_zero]
      by_cases hc : (w + 1) * 32 ≤ en
      · rw [show w * 32 + min 32 (en - w * 32) = (w + 1) * 32 by omega, drows_append (by omega) hc]
      · rw [show w * 32 + min 32 (en - w * 32) = en by omega, drows_nil (a := (w + 1) * 32) (by omega)]; simp
    · exact ⟨[], rfl, by rw [drows_nil (by omega)]; rfl⟩

theorem denseIterateFromZero_spec {n : Nat} {args : List (Arg V)} (h : DArgsOk n args) {en : Nat} (hn : en ≤ n) :
    ∃ rs, denseIterateFromZero args en = some rs ∧ rs.map Row.meaning = drows args 0 en := by
  have := fromZeroLoop_spec h hn (en + 1) 0 (by omega) (by omega)
  rw [Nat.zero_mul] at this
  exact this

end Verif.Group
