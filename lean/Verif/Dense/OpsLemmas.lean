import Verif.Dense.OpsSpec
import Verif.Dense.DenseLemmas

/-! Helper lemmas for pointwise operations on dense arrays. -/

namespace Verif.Dense
open Verif.Bits Verif.Bitmap

variable {α β γ V R E : Type}

/-- An array usable with the given `AllowBitmapOffset`. -/
def OffOk (allowOffset : Bool) (a : DArr α) : Prop := allowOffset = true ∨ a.off = 0

theorem getMask_spec {ao : Bool} {a : DArr α} (hv : a.Valid) (ho : OffOk ao a) (g : Nat) :
    ∃ w, getMask ao a g = some w ∧
      ∀ j, j < 32 → 32 * g + j < a.values.length → w.getLsbD j = pres a (32 * g + j) := by
  unfold getMask
  cases ao with
  | true =>
    rw [if_pos rfl]
    obtain ⟨w, e1, e2⟩ := getWordWithOffset_spec (bm := a.bitmap) (k := g) hv.1
    refine ⟨w, e1, ?_⟩
    intro j hj hi
    rw [e2 j hj]
    · rfl
    · by_cases hb : a.bitmap = []
      · exact Or.inr hb
      · left; have := Valid.cover hv hb; omega
  | false =>
    rw [if_neg (by simp)]
    refine ⟨_, rfl, ?_⟩
    intro j hj hi
    have ho : a.off = 0 := by rcases ho with h | h; · simp at h
                              · exact h
    unfold getWord pres
    by_cases hb : a.bitmap = []
    · simp [hb, bit_full, hj]
    · have := Valid.cover hv hb
      rw [get_wd (by omega)]
      simp only [ho, Nat.zero_add]
      rw [bitAt_mk hj, decide_eq_false hb, Bool.false_or]

/-- All required arguments are present in row `i`. -/
def reqPresent (args : List (Arg V)) (i : Nat) : Bool :=
  args.all (fun a => a.optional || pres a.arr i)

theorem intersectMasks_spec {ao : Bool} {n g : Nat} : ∀ {args : List (Arg V)},
    (∀ a ∈ args, a.arr.Valid ∧ OffOk ao a.arr ∧ a.arr.values.length = n) →
    ∃ w, intersectMasks ao g args = some w ∧
      ∀ j, j < 32 → 32 * g + j < n → w.getLsbD j = reqPresent args (32 * g + j) := by
  intro args
  induction args with
  | nil =>
    intro _
    refine ⟨fullWord, rfl, ?_⟩
    intro j hj _
    rw [bit_full, decide_eq_true hj]; rfl
  | cons a as ih =>
    intro h
    obtain ⟨h1, h2, h3⟩ := h a (by simp)
    obtain ⟨w, e1, e2⟩ := ih (fun x hx => h x (by simp [hx]))
    rw [intersectMasks, e1]
    obtain ⟨m, f1, f2⟩ := getMask_spec h1 h2 g
    cases ho : a.optional with
    | true =>
      refine ⟨fullWord &&& w, rfl, ?_⟩
      intro j hj hi
      rw [BitVec.getLsbD_and, bit_full, decide_eq_true hj, e2 j hj hi]
      simp [reqPresent, ho]
    | false =>
      rw [f1]
      refine ⟨m &&& w, rfl, ?_⟩
      intro j hj hi
      rw [BitVec.getLsbD_and, e2 j hj hi, f2 j hj (by omega)]
      simp [reqPresent, ho]

theorem getArg_spec {ao : Bool} {n g j : Nat} (hj : j < 32) (hi : 32 * g + j < n) :
    ∀ {args : List (Arg V)},
    (∀ a ∈ args, a.arr.Valid ∧ OffOk ao a.arr ∧ a.arr.values.length = n) →
    ∃ x, args.mapM (getArg ao g j) = some x ∧
      (reqPresent args (32 * g + j) = true → x = args.map (fun a => elem a.arr (32 * g + j))) := by
  intro args
  induction args with
  | nil => intro _; exact ⟨[], rfl, fun _ => rfl⟩
  | cons a as ih =>
    intro h
    obtain ⟨h1, h2, h3⟩ := h a (by simp)
    obtain ⟨x, e1, e2⟩ := ih (fun x hx => h x (by simp [hx]))
    rw [List.mapM_cons, e1]
    have hget : ∃ y, getArg ao g j a = some y ∧
        ((a.optional || pres a.arr (32 * g + j)) = true → y = elem a.arr (32 * g + j)) := by
      unfold getArg
      rw [show g * 32 + j = 32 * g + j by omega, List.getElem?_eq_getElem (by omega)]
      simp only [Option.bind_eq_bind, Option.bind_some]
      cases ho : a.optional with
      | true =>
        obtain ⟨m, f1, f2⟩ := getMask_spec h1 h2 g
        simp only [if_true, f1, Option.bind_some]
        refine ⟨_, rfl, ?_⟩
        intro _
        rw [f2 j hj (by omega), elem_eq, List.getElem?_eq_getElem (by omega)]
      | false =>
        simp only [Bool.false_eq_true, if_false]
        refine ⟨_, rfl, ?_⟩
        intro hp
        rw [Bool.false_or] at hp
        rw [elem_eq, hp, List.getElem?_eq_getElem (by omega)]
        rfl
    obtain ⟨y, g1, g2⟩ := hget
    rw [g1]
    refine ⟨y :: x, rfl, ?_⟩
    intro hr
    unfold reqPresent at hr
    rw [List.all_cons, Bool.and_eq_true] at hr
    rw [List.map_cons, g2 hr.1, e2 hr.2]

/-- Bit test used by `EvalGroup`. -/
theorem and_bit_zero {w : Word} {i : Nat} (hi : i < 32) :
    (w &&& (1 : Word) <<< i = 0) ↔ w.getLsbD i = false := by
  have := and_one_shl (w := w) hi
  cases h : w.getLsbD i with
  | true =>
    rw [h] at this
    constructor
    · intro hz; exact absurd hz (this.2 rfl)
    · intro hz; cases hz
  | false =>
    rw [h] at this
    constructor
    · intro _; rfl
    · intro _; exact Classical.byContradiction (fun hn => by cases this.1 hn)

theorem clear_bit {w : Word} {i j : Nat} (hj : j < 32) :
    (w &&& ~~~((1 : Word) <<< i)).getLsbD j = (w.getLsbD j && decide (j ≠ i)) := by
  rw [BitVec.getLsbD_and, BitVec.getLsbD_not, decide_eq_true hj, bit_shl hj, bit_one, Bool.true_and,
    ← Bool.decide_and, ← decide_not]
  congr 1
  rw [decide_eq_decide]; omega

theorem wrV_eq {vs : List α} {i : Nat} {v : α} (h : i < vs.length) :
    wrV vs i v = some (vs.set i v) := by simp [wrV, h]

theorem evalGroup_spec {fn : List (Option V) → Except E (Option R)}
    {get : Nat → Option (List (Option V))} {skip : Bool} {offset : Nat}
    {rowf : Nat → Except E (Option R)} :
    ∀ (n i : Nat) (vals : List R) (mask : Word), i + n ≤ 32 → offset + i + n ≤ vals.length →
    (∀ j, i ≤ j → j < i + n → ∃ x, get j = some x ∧ (mask.getLsbD j = true → fn x = rowf j) ∧
      (mask.getLsbD j = false → rowf j = .ok none) ∧ (skip = false → ∃ o, fn x = .ok o)) →
    match (List.range' i n).mapM rowf with
    | .error e => evalGroup fn get skip offset i n vals mask = some (.error e)
    | .ok l => ∃ vals' mask', evalGroup fn get skip offset i n vals mask = some (.ok (vals', mask')) ∧
        vals'.length = vals.length ∧ l.length = n ∧
        (∀ k, k < offset + i ∨ offset + i + n ≤ k → vals'[k]? = vals[k]?) ∧
        (∀ j, j < 32 → ¬ (i ≤ j ∧ j < i + n) → mask'.getLsbD j = mask.getLsbD j) ∧
        ∀ k, k < n →
          l[k]? = some (if mask'.getLsbD (i + k) then vals'[offset + i + k]? else none) := by
  intro n
  induction n with
  | zero =>
    intro i vals mask _ _ _
    exact ⟨vals, mask, rfl, rfl, rfl, fun _ _ => rfl, fun _ _ _ => rfl, fun k hk => by omega⟩
  | succ n ih =>
    intro i vals mask h1 h2 H
    obtain ⟨x, hx1, hx2, hx3, hx4⟩ := H i (Nat.le_refl _) (by omega)
    rw [List.range'_succ, List.mapM_cons]
    -- generic continuation
    have cont : ∀ (vals1 : List R) (mask1 : Word) (o : Option R),
        evalGroup fn get skip offset i (n + 1) vals mask =
          evalGroup fn get skip offset (i + 1) n vals1 mask1 →
        rowf i = .ok o → vals1.length = vals.length →
        (∀ k, k ≠ offset + i → vals1[k]? = vals[k]?) →
        (∀ j, j < 32 → j ≠ i → mask1.getLsbD j = mask.getLsbD j) →
        o = (if mask1.getLsbD i then vals1[offset + i]? else none) →
        match (do
            let y ← rowf i
            let ys ← (List.range' (i + 1) n).mapM rowf
            pure (y :: ys) : Except E (List (Option R))) with
        | .error e => evalGroup fn get skip offset i (n + 1) vals mask = some (.error e)
        | .ok l => ∃ vals' mask',
            evalGroup fn get skip offset i (n + 1) vals mask = some (.ok (vals', mask')) ∧
            vals'.length = vals.length ∧ l.length = n + 1 ∧
            (∀ k, k < offset + i ∨ offset + i + (n + 1) ≤ k → vals'[k]? = vals[k]?) ∧
            (∀ j, j < 32 → ¬ (i ≤ j ∧ j < i + (n + 1)) → mask'.getLsbD j = mask.getLsbD j) ∧
            ∀ k, k < n + 1 →
              l[k]? = some (if mask'.getLsbD (i + k) then vals'[offset + i + k]? else none) := by
      intro vals1 mask1 o he hr hl hvals hmask ho
      have := ih (i + 1) vals1 mask1 (by omega) (by omega) (by
        intro j hj1 hj2
        obtain ⟨y, a1, a2, a3, a4⟩ := H j (by omega) (by omega)
        exact ⟨y, a1, by rw [hmask j (by omega) (by omega)]; exact a2,
          by rw [hmask j (by omega) (by omega)]; exact a3, a4⟩)
      rw [hr]
      cases hm : (List.range' (i + 1) n).mapM rowf with
      | error e =>
        rw [hm] at this
        simp only [bind, Except.bind]
        rw [he]; exact this
      | ok ys =>
        rw [hm] at this
        obtain ⟨vals', mask', b1, b2, b3, b4, b5, b6⟩ := this
        simp only [bind, Except.bind, pure, Except.pure]
        refine ⟨vals', mask', by rw [he]; exact b1, by omega, by simp [b3], ?_, ?_, ?_⟩
        · intro k hk
          rw [b4 k (by omega), hvals k (by omega)]
        · intro j hj hk
          rw [b5 j hj (by omega), hmask j hj (by omega)]
        · intro k hk
          cases k with
          | zero =>
            rw [List.getElem?_cons_zero, Nat.add_zero, Nat.add_zero, b5 i (by omega) (by omega),
              b4 (offset + i) (by omega), ← ho]
          | succ k =>
            rw [List.getElem?_cons_succ, b6 k (by omega)]
            rw [show i + 1 + k = i + (k + 1) by omega,
              show offset + (i + 1) + k = offset + i + (k + 1) by omega]
    have hstep : evalGroup fn get skip offset i (n + 1) vals mask =
        (if skip = true ∧ mask &&& (1 : Word) <<< i = 0 then
          evalGroup fn get skip offset (i + 1) n vals mask
        else match fn x with
          | .error e => some (.error e)
          | .ok none => evalGroup fn get skip offset (i + 1) n vals (mask &&& ~~~((1 : Word) <<< i))
          | .ok (some v) => evalGroup fn get skip offset (i + 1) n (vals.set (offset + i) v) mask) := by
      rw [evalGroup, shl_eq (by omega)]
      simp only [Option.bind_eq_bind, Option.bind_some, hx1]
      have hw : ∀ v, wrV vals (offset + i) v = some (vals.set (offset + i) v) :=
        fun v => wrV_eq (by omega)
      simp only [hw, Option.bind_some]
      rfl
    by_cases hs : skip = true ∧ mask &&& (1 : Word) <<< i = 0
    · rw [if_pos hs] at hstep
      have hb := (and_bit_zero (by omega)).1 hs.2
      exact cont vals mask none hstep (hx3 hb) rfl (fun _ _ => rfl) (fun _ _ _ => rfl) (by simp [hb])
    · rw [if_neg hs] at hstep
      cases hb : mask.getLsbD i with
      | true =>
        have hf := hx2 hb
        cases hfx : fn x with
        | error e =>
          rw [hfx] at hf hstep
          rw [← hf]
          simp only [bind, Except.bind]
          exact hstep
        | ok o =>
          rw [hfx] at hf hstep
          cases o with
          | none =>
            refine cont vals _ none hstep hf.symm rfl (fun _ _ => rfl) ?_ ?_
            · intro j hj hji
              rw [clear_bit hj, decide_eq_true hji, Bool.and_true]
            · rw [clear_bit (by omega)]; simp
          | some v =>
            refine cont _ mask (some v) hstep hf.symm (by simp) ?_ (fun _ _ _ => rfl) ?_
            · intro k hk
              rw [List.getElem?_set, if_neg (Ne.symm hk)]
            · rw [hb, if_pos rfl, List.getElem?_set, if_pos rfl, if_pos (by omega)]
      | false =>
        have hsk : skip = false := by
          cases hsk : skip with
          | false => rfl
          | true => exact absurd ⟨hsk, (and_bit_zero (by omega)).2 hb⟩ hs
        obtain ⟨o, hfx⟩ := hx4 hsk
        rw [hfx] at hstep
        cases o with
        | none =>
          refine cont vals _ none hstep (hx3 hb) rfl (fun _ _ => rfl) ?_ ?_
          · intro j hj hji
            rw [clear_bit hj, decide_eq_true hji, Bool.and_true]
          · rw [clear_bit (by omega)]; simp
        | some v =>
          refine cont _ mask none hstep (hx3 hb) (by simp) ?_ (fun _ _ _ => rfl) ?_
          · intro k hk
            rw [List.getElem?_set, if_neg (Ne.symm hk)]
          · simp [hb]

theorem rowRes_eq {fn : List (Option V) → Except E (Option R)} {args : List (Arg V)} {n i : Nat}
    (hi : i < n) (h : ∀ a ∈ args, a.arr.values.length = n) :
    rowRes fn args i = if reqPresent args i then fn (args.map (fun a => elem a.arr i)) else .ok none := by
  unfold rowRes reqPresent
  have : args.all (fun a => a.optional || (elem a.arr i).isSome) =
      args.all (fun a => a.optional || pres a.arr i) := by
    rw [Bool.eq_iff_iff, List.all_eq_true, List.all_eq_true]
    constructor
    · intro H a ha
      have := H a ha
      rwa [isSome_elem (by rw [h a ha]; exact hi)] at this
    · intro H a ha
      rw [isSome_elem (by rw [h a ha]; exact hi)]
      exact H a ha
  rw [this]

/-- State relation of the group loop after `c` rows with results `l`. -/
def US (N c : Nat) (l : List (Option R)) (s : UState R) : Prop :=
  s.vals.length = N ∧ l.length = c ∧ s.bits.length = (c + 31) / 32 ∧
  (∀ k, k < c → l[k]? = some (if bitAt s.bits k then s.vals[k]? else none)) ∧
  (s.full = true → ∀ k, k < c → bitAt s.bits k = true)

theorem bitAt_snoc {ws : List Word} {m : Word} {k : Nat} (h : k / 32 < ws.length) :
    bitAt (ws ++ [m]) k = bitAt ws k := by
  unfold bitAt wd
  rw [List.getElem?_append_left h]

theorem bitAt_snoc_last {ws : List Word} {m : Word} {j : Nat} (hj : j < 32) :
    bitAt (ws ++ [m]) (32 * ws.length + j) = m.getLsbD j := by
  rw [bitAt_mk hj]
  simp [wd]

theorem US_extend {N c n : Nat} {l l2 : List (Option R)} {s : UState R} {vals' : List R}
    {mask' : Word} {full' : Bool} (h : US N c l s) (hc : c % 32 = 0) (hn : 0 < n) (hn2 : n ≤ 32)
    (hl : vals'.length = s.vals.length) (hl2 : l2.length = n)
    (hk : ∀ k, k < c → vals'[k]? = s.vals[k]?)
    (hr : ∀ k, k < n → l2[k]? = some (if mask'.getLsbD k then vals'[c + k]? else none))
    (hf : full' = true → ∀ k, k < n → mask'.getLsbD k = true) :
    US N (c + n) (l ++ l2) ⟨vals', s.bits ++ [mask'], s.full && full'⟩ := by
  obtain ⟨h1, h2, h3, h4, h5⟩ := h
  have hbl : s.bits.length = c / 32 := by omega
  refine ⟨by simpa [h1] using hl, by simp [h2, hl2], by simp; omega, ?_, ?_⟩
  · intro k hkc
    dsimp only
    by_cases hlt : k < c
    · rw [List.getElem?_append_left (by omega), h4 k hlt, bitAt_snoc (by omega), hk k hlt]
    · rw [List.getElem?_append_right (by omega), h2, hr (k - c) (by omega)]
      have : k = 32 * s.bits.length + (k - c) := by omega
      rw [show bitAt (s.bits ++ [mask']) k =
        bitAt (s.bits ++ [mask']) (32 * s.bits.length + (k - c)) by rw [← this],
        bitAt_snoc_last (by omega), show c + (k - c) = k by omega]
  · intro hfull k hkc
    dsimp only at hfull ⊢
    rw [Bool.and_eq_true] at hfull
    by_cases hlt : k < c
    · rw [bitAt_snoc (by omega)]; exact h5 hfull.1 k hlt
    · have : k = 32 * s.bits.length + (k - c) := by omega
      rw [show bitAt (s.bits ++ [mask']) k =
        bitAt (s.bits ++ [mask']) (32 * s.bits.length + (k - c)) by rw [← this],
        bitAt_snoc_last (by omega)]
      exact hf hfull.2 _ (by omega)

section
variable {ao : Bool} {fn : List (Option V) → Except E (Option R)} {skip : Bool}
  {args : List (Arg V)} {N : Nat}

/-- `EvalGroup` on group `g` computes the row results. -/
theorem evalGroup_rows (hargs : ∀ a ∈ args, a.arr.Valid ∧ OffOk ao a.arr ∧ a.arr.values.length = N)
    (hskip : skip = false → ∀ x, ∃ o, fn x = .ok o) {g n : Nat} {vals : List R} {mask : Word}
    (hn : n ≤ 32) (hN : 32 * g + n ≤ N) (hv : vals.length = N)
    (hmask : ∀ j, j < n → mask.getLsbD j = reqPresent args (32 * g + j)) :
    match (List.range' (32 * g) n).mapM (rowRes fn args) with
    | .error e => evalGroup fn (fun i => args.mapM (getArg ao g i)) skip (32 * g) 0 n vals mask =
        some (.error e)
    | .ok l => ∃ vals' mask',
        evalGroup fn (fun i => args.mapM (getArg ao g i)) skip (32 * g) 0 n vals mask =
          some (.ok (vals', mask')) ∧
        vals'.length = vals.length ∧ l.length = n ∧
        (∀ k, k < 32 * g → vals'[k]? = vals[k]?) ∧
        (∀ j, j < 32 → n ≤ j → mask'.getLsbD j = mask.getLsbD j) ∧
        ∀ k, k < n → l[k]? = some (if mask'.getLsbD k then vals'[32 * g + k]? else none) := by
  have key := evalGroup_spec (fn := fn) (get := fun i => args.mapM (getArg ao g i)) (skip := skip)
    (offset := 32 * g) (rowf := fun j => rowRes fn args (32 * g + j)) n 0 vals mask (by omega)
    (by omega) (by
      intro j _ hj
      obtain ⟨x, e1, e2⟩ := getArg_spec (ao := ao) (n := N) (g := g) (j := j) (by omega) (by omega) hargs
      have hrow := rowRes_eq (fn := fn) (args := args) (n := N) (i := 32 * g + j) (by omega)
        (fun a ha => (hargs a ha).2.2)
      refine ⟨x, e1, ?_, ?_, fun hs => hskip hs x⟩
      · intro hb
        rw [hmask j (by omega)] at hb
        rw [hrow, hb, if_pos rfl, e2 hb]
      · intro hb
        rw [hmask j (by omega)] at hb
        rw [hrow, hb, if_neg (by simp)])
  have hmap : (List.range' (32 * g) n).mapM (rowRes fn args) =
      (List.range' 0 n).mapM (fun j => rowRes fn args (32 * g + j)) := by
    rw [List.range'_eq_map_range, List.mapM_map, List.range_eq_range']
    rfl
  rw [hmap]
  revert key
  cases (List.range' 0 n).mapM (fun j => rowRes fn args (32 * g + j)) with
  | error e => exact id
  | ok l =>
    rintro ⟨vals', mask', b1, b2, b3, b4, b5, b6⟩
    refine ⟨vals', mask', b1, b2, b3, fun k hk => b4 k (by omega), fun j hj hn => b5 j hj (by omega), ?_⟩
    intro k hk
    have := b6 k hk
    rwa [Nat.zero_add, Nat.add_zero] at this

theorem groupsLoop_spec
    (hargs : ∀ a ∈ args, a.arr.Valid ∧ OffOk ao a.arr ∧ a.arr.values.length = N)
    (hskip : skip = false → ∀ x, ∃ o, fn x = .ok o) :
    ∀ (n g : Nat) (s : UState R) (l : List (Option R)), 32 * (g + n) ≤ N → US N (32 * g) l s →
    match (List.range' (32 * g) (32 * n)).mapM (rowRes fn args) with
    | .error e => groupsLoop ao fn skip args g n s = some (.error e)
    | .ok l2 => ∃ s', groupsLoop ao fn skip args g n s = some (.ok s') ∧
        US N (32 * (g + n)) (l ++ l2) s' := by
  intro n
  induction n with
  | zero =>
    intro g s l _ h
    exact ⟨s, rfl, by simpa using h⟩
  | succ n ih =>
    intro g s l hN h
    obtain ⟨mask, m1, m2⟩ := intersectMasks_spec (ao := ao) (n := N) (g := g) hargs
    rw [show 32 * (n + 1) = 32 + 32 * n by omega, ← List.range'_append_1, List.mapM_append]
    rw [groupsLoop, m1]
    simp only [Option.bind_eq_bind, Option.bind_some]
    have hev : match (List.range' (32 * g) 32).mapM (rowRes fn args) with
        | .error e => groupEval ao fn skip args g s.vals mask = some (.error e)
        | .ok l2 => ∃ vals' mask', groupEval ao fn skip args g s.vals mask = some (.ok (vals', mask')) ∧
            vals'.length = s.vals.length ∧ l2.length = 32 ∧
            (∀ k, k < 32 * g → vals'[k]? = s.vals[k]?) ∧
            ∀ k, k < 32 → l2[k]? = some (if mask'.getLsbD k then vals'[32 * g + k]? else none) := by
      by_cases hz : mask = 0
      · -- no row is evaluated
        have hrow : ∀ k ∈ List.range' (32 * g) 32, rowRes fn args k = .ok none := by
          intro k hk
          rw [List.mem_range'_1] at hk
          rw [rowRes_eq (n := N) (by omega) (fun a ha => (hargs a ha).2.2)]
          have := m2 (k - 32 * g) (by omega) (by omega)
          rw [hz, show 32 * g + (k - 32 * g) = k by omega] at this
          rw [← this]; simp
        have hm : ∀ (xs : List Nat), (∀ k ∈ xs, rowRes fn args k = .ok none) →
            xs.mapM (rowRes fn args) = .ok (List.replicate xs.length none) := by
          intro xs
          induction xs with
          | nil => intro _; rfl
          | cons y ys ih2 =>
            intro hy
            rw [List.mapM_cons, hy y (by simp), ih2 (fun k hk => hy k (by simp [hk]))]
            rfl
        rw [hm _ hrow]
        simp only [List.length_range']
        refine ⟨s.vals, mask, by unfold groupEval; rw [if_neg (by simp [hz])], rfl, by simp, fun _ _ => rfl, ?_⟩
        intro k hk
        rw [hz, List.getElem?_replicate, if_pos hk, if_neg (by simp)]
      · have key := evalGroup_rows (fn := fn) hargs hskip (g := g) (n := 32) (vals := s.vals)
          (mask := mask) (by omega) (by omega) h.1 (fun j hj => m2 j hj (by omega))
        unfold groupEval
        rw [if_pos hz, Nat.mul_comm g 32]
        revert key
        cases (List.range' (32 * g) 32).mapM (rowRes fn args) with
        | error e => exact id
        | ok l2 =>
          rintro ⟨vals', mask', b1, b2, b3, b4, b5, b6⟩
          exact ⟨vals', mask', b1, b2, b3, b4, b6⟩
    revert hev
    cases (List.range' (32 * g) 32).mapM (rowRes fn args) with
    | error e =>
      intro hev
      simp only [bind, Except.bind] at hev ⊢
      rw [hev]; rfl
    | ok l2 =>
      rintro ⟨vals', mask', b1, b2, b3, b4, b5⟩
      rw [b1]
      simp only [Option.bind_some]
      have hus : US N (32 * (g + 1)) (l ++ l2)
          ⟨vals', s.bits ++ [mask'], s.full && decide (mask' = fullWord)⟩ := by
        have := US_extend (n := 32) (vals' := vals') (mask' := mask')
          (full' := decide (mask' = fullWord)) h (by omega) (by omega) (by omega) b2 b3 b4 b5 (by
            intro hf k hk
            rw [decide_eq_true_eq] at hf
            rw [hf, bit_full, decide_eq_true hk])
        rwa [show 32 * g + 32 = 32 * (g + 1) by omega] at this
      have := ih (g + 1) _ _ (by omega) hus
      rw [show 32 * (g + 1) = 32 * g + 32 by omega] at this
      revert this
      cases (List.range' (32 * g + 32) (32 * n)).mapM (rowRes fn args) with
      | error e => intro this; simpa only [bind, Except.bind] using this
      | ok l3 =>
        rintro ⟨s', c1, c2⟩
        simp only [bind, Except.bind, pure, Except.pure]
        refine ⟨s', c1, ?_⟩
        rw [show g + (n + 1) = g + 1 + n by omega, ← List.append_assoc]
        exact c2

/-- The generic pointwise operation computes the row results. -/
theorem universalOp_spec
    (hargs : ∀ a ∈ args, a.arr.Valid ∧ OffOk ao a.arr ∧ a.arr.values.length = N)
    (hskip : skip = false → ∀ x, ∃ o, fn x = .ok o) (mem : List R) (hmem : mem.length = N) :
    match (List.range N).mapM (rowRes fn args) with
    | .error e => universalOp ao fn skip args mem = some (.error e)
    | .ok l => ∃ r, universalOp ao fn skip args mem = some (.ok r) ∧ r.Valid ∧ r.off = 0 ∧
        elems r = l := by
  unfold universalOp
  dsimp only
  rw [hmem]
  have h0 : US N (32 * 0) ([] : List (Option R)) (⟨mem, [], true⟩ : UState R) :=
    ⟨hmem, rfl, rfl, fun k hk => by omega, fun _ k hk => by omega⟩
  have h1 := groupsLoop_spec (fn := fn) hargs hskip (N / 32) 0 _ [] (by omega) h0
  have hsplit : List.range N = List.range' (32 * 0) (32 * (N / 32)) ++
      List.range' (32 * (N / 32)) (N % 32) := by
    have := List.range'_append_1 (s := 0) (m := 32 * (N / 32)) (n := N % 32)
    rw [Nat.zero_add] at this
    rw [Nat.mul_zero, this, List.range_eq_range', Nat.div_add_mod]
  rw [hsplit, List.mapM_append]
  revert h1
  cases (List.range' (32 * 0) (32 * (N / 32))).mapM (rowRes fn args) with
  | error e =>
    intro h1
    simp only [bind, Except.bind] at h1 ⊢
    rw [h1]; rfl
  | ok l1 =>
    rintro ⟨s, c1, c2⟩
    rw [c1]
    simp only [Option.bind_eq_bind, Option.bind_some]
    rw [Nat.zero_add, List.nil_append] at c2
    -- last group
    have hlast : match (List.range' (32 * (N / 32)) (N % 32)).mapM (rowRes fn args) with
        | .error e => lastGroup ao fn skip args N s = some (.error e)
        | .ok l2 => ∃ s', lastGroup ao fn skip args N s = some (.ok s') ∧ US N N (l1 ++ l2) s' := by
      unfold lastGroup
      by_cases hr : N % 32 = 0
      · rw [if_neg (by simpa using hr), hr]
        refine ⟨s, rfl, ?_⟩
        show US N N (l1 ++ []) s
        rw [List.append_nil]
        rwa [show 32 * (N / 32) = N by omega] at c2
      · rw [if_pos hr]
        obtain ⟨mask, m1, m2⟩ := intersectMasks_spec (ao := ao) (n := N) (g := N / 32) hargs
        rw [shr_eq (by omega), m1]
        simp only [Option.bind_eq_bind, Option.bind_some]
        have hvb : ∀ j, (fullWord >>> (32 - N % 32)).getLsbD j = decide (j < N % 32) := by
          intro j
          rw [show fullWord = ~~~(0 : Word) from rfl, bit_shr_ones, decide_eq_decide]; omega
        have key := evalGroup_rows (fn := fn) hargs hskip (g := N / 32) (n := N % 32) (vals := s.vals)
          (mask := fullWord >>> (32 - N % 32) &&& mask) (by omega) (by omega) c2.1 (by
            intro j hj
            rw [BitVec.getLsbD_and, hvb, decide_eq_true hj, Bool.true_and, m2 j (by omega) (by omega)])
        rw [show N - N % 32 = 32 * (N / 32) by omega]
        revert key
        cases (List.range' (32 * (N / 32)) (N % 32)).mapM (rowRes fn args) with
        | error e => intro key; rw [key]; rfl
        | ok l2 =>
          rintro ⟨vals', mask', b1, b2, b3, b4, b5, b6⟩
          rw [b1]
          simp only [Option.bind_some]
          refine ⟨_, rfl, ?_⟩
          have := US_extend (n := N % 32) (vals' := vals') (mask' := mask')
            (full' := decide (mask' = fullWord >>> (32 - N % 32))) c2 (by omega) (by omega) (by omega)
            b2 b3 b4 b6 (by
              intro hf k hk
              rw [decide_eq_true_eq] at hf
              rw [hf, hvb, decide_eq_true hk])
          rwa [show 32 * (N / 32) + N % 32 = N by omega] at this
    revert hlast
    cases (List.range' (32 * (N / 32)) (N % 32)).mapM (rowRes fn args) with
    | error e =>
      intro hl
      simp only [bind, Except.bind]
      rw [hl]; rfl
    | ok l2 =>
      rintro ⟨s', d1, d2⟩
      simp only [bind, Except.bind, pure, Except.pure]
      rw [d1]
      obtain ⟨u1, u2, u3, u4, u5⟩ := d2
      refine ⟨_, rfl, ⟨by simp, ?_⟩, rfl, ?_⟩
      · dsimp only [DArr.size]
        cases s'.full with
        | true => left; rfl
        | false => right; simp [u1, u3, bitmapSize_eq]
      · apply List.ext_getElem?
        intro k
        rw [elems_get?]
        dsimp only
        rw [u1]
        by_cases hk : k < N
        · rw [if_pos hk, u4 k hk, elem_eq]
          dsimp only
          have : pres (⟨s'.vals, if s'.full = true then [] else s'.bits, 0⟩ : DArr R) k =
              bitAt s'.bits k := by
            unfold pres
            dsimp only
            cases hf : s'.full with
            | true => rw [u5 hf k hk]; simp
            | false =>
              have hne : s'.bits ≠ [] := by
                intro hz; rw [hz] at u3; simp at u3; omega
              simp [hne]
          rw [this]
        · rw [if_neg hk, List.getElem?_eq_none (by omega)]
end

/-! ## Unary and binary -/

theorem unaryOp_spec (fn : α → β) {a : DArr α} (h : a.Valid) :
    (unaryOp fn a).Valid ∧ elems (unaryOp fn a) = (elems a).map (Option.map fn) := by
  refine ⟨⟨h.1, ?_⟩, ?_⟩
  · simpa [unaryOp, DArr.size] using h.2
  · apply List.ext_getElem?
    intro i
    rw [List.getElem?_map, elems_get?, elems_get?]
    simp only [unaryOp, List.length_map]
    by_cases hi : i < a.values.length
    · rw [if_pos hi, if_pos hi]
      simp only [elem, Option.map_some, List.getElem?_map]
      split <;> rfl
    · rw [if_neg hi, if_neg hi]; rfl

theorem spanOp2_spec (fn : α → β → γ) {x : List α} {y : List β} (h : x.length = y.length) :
    spanOp2 fn x y x.length = some (List.zipWith fn x y) := by
  unfold spanOp2
  have hz : (List.zipWith fn x y).length = x.length := by rw [List.length_zipWith]; omega
  refine mapM_range hz ?_
  intro i hi
  have e1 := List.getElem?_eq_getElem (show i < x.length by omega)
  have e2 := List.getElem?_eq_getElem (show i < y.length by omega)
  rw [List.getElem?_zipWith, e1, e2]
  rfl

/-- Array with the elements present in both arguments. -/
theorem both_elems {a : DArr α} {b : DArr β} {values : List γ} {bm : List Word} {off : Nat}
    (fn : α → β → γ) (h : a.values.length = b.values.length)
    (hv : values = List.zipWith fn a.values b.values)
    (hp : ∀ i, i < a.values.length →
      pres (⟨values, bm, off⟩ : DArr γ) i = (pres a i && pres b i)) :
    elems (⟨values, bm, off⟩ : DArr γ) = List.zipWith (bothPresent fn) (elems a) (elems b) := by
  apply List.ext_getElem?
  intro i
  rw [List.getElem?_zipWith, elems_get?, elems_get?, elems_get?]
  have hl : values.length = a.values.length := by rw [hv, List.length_zipWith]; omega
  dsimp only
  by_cases hi : i < a.values.length
  · rw [if_pos (by omega), if_pos hi, if_pos (by omega)]
    simp only [elem_eq, hp i hi]
    have e1 := List.getElem?_eq_getElem hi
    have e2 := List.getElem?_eq_getElem (show i < b.values.length by omega)
    have e3 : values[i]? = (List.zipWith fn a.values b.values)[i]? := by rw [hv]
    rw [List.getElem?_zipWith, e1, e2] at e3
    rw [e1, e2, e3]
    cases pres a i <;> cases pres b i <;> rfl
  · rw [if_neg (by omega), if_neg hi, if_neg (by omega)]

theorem binaryOp_spec (fn : α → β → γ) {a : DArr α} {b : DArr β} {bmem : List Word}
    (ha : a.Valid) (hb : b.Valid) (hs : a.values.length = b.values.length)
    (hm : min a.bitmap.length b.bitmap.length ≤ bmem.length) :
    ∃ r, binaryOp fn bmem a b = some r ∧ r.Valid ∧
      elems r = List.zipWith (bothPresent fn) (elems a) (elems b) := by
  unfold binaryOp
  have hz : (List.zipWith fn a.values b.values).length = a.values.length := by
    rw [List.length_zipWith]; omega
  rw [show a.size = a.values.length from rfl, spanOp2_spec fn hs]
  simp only [Option.bind_eq_bind, Option.bind_some]
  by_cases h1 : b.bitmap = []
  · rw [if_pos h1]
    refine ⟨_, rfl, ⟨ha.1, ?_⟩, both_elems fn hs rfl ?_⟩
    · have := ha.2
      simp only [DArr.size] at this ⊢
      rwa [hz]
    · intro i hi; simp [pres, h1]
  · rw [if_neg h1]
    by_cases h2 : a.bitmap = []
    · rw [if_pos h2]
      refine ⟨_, rfl, ⟨hb.1, ?_⟩, both_elems fn hs rfl ?_⟩
      · have := hb.2
        simp only [DArr.size] at this ⊢
        rwa [hz, hs]
      · intro i hi; simp [pres, h2]
    · rw [if_neg h2]
      have ha2 : a.bitmap.length = bitmapSize (a.values.length + a.off) := by
        rcases ha.2 with h | h
        · exact absurd h h2
        · exact h
      have hb2 : b.bitmap.length = bitmapSize (a.values.length + b.off) := by
        rcases hb.2 with h | h
        · exact absurd h h1
        · rw [hs]; exact h
      obtain ⟨r, e1, e2, e3⟩ := intersect_elems_spec (n := a.values.length) (a := a.bitmap)
        (b := b.bitmap) (res := bmem.take (min a.bitmap.length b.bitmap.length)) ha.1 hb.1 ha2 hb2
        (by rw [List.length_take]; omega)
      rw [e1]
      have hrn : r ≠ [] ∨ a.values.length = 0 := by
        by_cases hr : r = []
        · right; rw [hr, bitmapSize_eq] at e2; simp at e2; omega
        · left; exact hr
      refine ⟨_, rfl, ⟨?_, ?_⟩, both_elems fn hs rfl ?_⟩
      · dsimp only; have := ha.1; omega
      · right; dsimp only [DArr.size]; rw [hz]; exact e2
      · intro i hi
        have hrn : r ≠ [] := by rcases hrn with h | h
                                · exact h
                                · omega
        simp only [pres, hrn, h1, h2, decide_false, Bool.false_or]
        exact e3 i hi

end Verif.Dense
