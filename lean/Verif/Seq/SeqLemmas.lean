import Mathlib.Tactic.Ring
import Mathlib.Tactic.Linarith
import Mathlib.Tactic.ByContra
import Verif.Seq.SeqSpec

/-!
# Lemmas about sequences
-/

namespace Verif.Seq

variable {Q V E : Type}

theorem elems_length {s : Seq Q V} (h : s.Valid) : s.elems.length = s.size := by
  unfold Seq.elems
  unfold Seq.Valid at h
  rw [List.length_take, List.length_drop]
  omega

theorem getRef_eq {s : Seq Q V} (h : s.Valid) (i : Nat) : s.getRef i = s.elems[i]? := by
  unfold Seq.getRef Seq.elems
  rw [List.getElem?_take]
  split
  · rw [List.getElem?_drop]
  · rfl

theorem getRef_lt {s : Seq Q V} (h : s.Valid) {i : Nat} (hi : i < s.size) : ∃ v, s.getRef i = some v ∧ s.elems[i]? = some v := by
  have hl := elems_length h
  exact ⟨s.elems[i], by rw [getRef_eq h, List.getElem?_eq_getElem (by omega)], List.getElem?_eq_getElem (by omega)⟩

theorem refs_eq {s : Seq Q V} (h : s.Valid) : ∀ n i, n + i = s.size → s.refs n i = some (s.elems.drop i) := by
  intro n
  induction n with
  | zero =>
    intro i hi
    rw [Seq.refs, List.drop_eq_nil_of_le (by rw [elems_length h]; omega)]
  | succ n ih =>
    intro i hi
    obtain ⟨v, h1, h2⟩ := getRef_lt h (show i < s.size by omega)
    rw [Seq.refs, h1, ih (i + 1) (by omega)]
    obtain ⟨hl, hv⟩ := List.getElem?_eq_some_iff.1 h2
    simp only
    rw [List.drop_eq_getElem_cons hl, hv]

theorem subsequence_spec {s : Seq Q V} (h : s.Valid) {o c : Nat} (ho : o ≤ s.size) :
    ∃ r, s.subsequence o c = some r ∧ r.Valid ∧ r.qtype = s.qtype ∧ r.elems = (s.elems.drop o).take c := by
  unfold Seq.subsequence
  rw [if_neg (by omega)]
  simp only
  have hl := elems_length h
  unfold Seq.Valid at h
  by_cases hc : min c (s.size - o) = 0
  · rw [if_pos hc]
    refine ⟨_, rfl, by unfold Seq.Valid; simp, rfl, ?_⟩
    unfold Seq.elems
    simp only [List.drop_nil, List.take_nil]
    symm
    apply List.eq_nil_of_length_eq_zero
    rw [List.length_take, List.length_drop]
    show min c (s.elems.length - o) = 0
    rw [hl]; exact hc
  · rw [if_neg hc]
    refine ⟨_, rfl, by unfold Seq.Valid; simp only; omega, rfl, ?_⟩
    unfold Seq.elems
    simp only
    rw [List.drop_take, List.take_take, List.drop_drop]

/-! ## Writing -/

theorem setAll_spec : ∀ (vs pre post : List V) (q : Q), post.length = vs.length →
    setAll vs pre.length ⟨q, pre.length + post.length, pre ++ post⟩ = some ⟨q, pre.length + post.length, pre ++ vs⟩ := by
  intro vs
  induction vs with
  | nil =>
    intro pre post q h
    rw [List.length_nil] at h
    rw [List.eq_nil_of_length_eq_zero h]
    rfl
  | cons v vs ih =>
    intro pre post q h
    cases post with
    | nil => simp at h
    | cons p post =>
      rw [setAll]
      unfold MSeq.setRef
      simp only
      rw [if_pos (by simp)]
      simp only
      have hset : (pre ++ p :: post).set pre.length v = (pre ++ [v]) ++ post := by
        rw [List.set_append_right _ _ (by omega)]; simp
      have := ih (pre ++ [v]) post q (by simpa using h)
      rw [hset]
      simp only [List.length_append, List.length_cons, List.length_nil, List.append_assoc, List.singleton_append] at this ⊢
      rw [show pre.length + (post.length + 1) = pre.length + (0 + 1) + post.length by omega]
      exact this

theorem make_ok (M : Mem Q V) (q : Q) {n : Nat} (h : ¬ NoMem M q n) :
    ∃ d : List V, d.length = n ∧ make (E := E) M q n = .ok ⟨q, n, d⟩ := by
  unfold NoMem at h
  unfold make
  by_cases h0 : n = 0
  · exact ⟨[], by rw [h0]; rfl, by rw [if_pos h0, h0]⟩
  · have h1 : ¬ (2 ^ 64 ≤ M.allocSize q * n ∨ M.alloc (M.allocSize q * n) = false) := fun hc => h ⟨by omega, hc⟩
    refine ⟨List.replicate n (M.dflt q), by simp, ?_⟩
    rw [if_neg h0, if_neg (fun hc => h1 (Or.inl hc)), if_neg]
    intro hc
    exact h1 (Or.inr (by simpa using hc))

theorem make_error (M : Mem Q V) (q : Q) {n : Nat} (h : NoMem M q n) : ∃ e, make (E := E) M q n = .error e := by
  obtain ⟨h0, h1⟩ := h
  unfold make
  rw [if_neg (by omega)]
  split
  · exact ⟨_, rfl⟩
  · rename_i h2
    rcases h1 with h1 | h1
    · exact absurd h1 h2
    · rw [if_pos (by rw [h1]; rfl)]; exact ⟨_, rfl⟩

theorem finish_valid (q : Q) (l : List V) : (MSeq.finish ⟨q, l.length, l⟩).Valid ∧ (MSeq.finish ⟨q, l.length, l⟩).elems = l := by
  constructor
  · unfold Seq.Valid MSeq.finish; simp
  · unfold Seq.elems MSeq.finish; simp

/-! ## Range -/

theorem rangeFill_spec (step : Int) : ∀ (n : Nat) (y : Int),
    (∀ k : Nat, k ≤ n → Int64 (y + k * step)) →
    rangeFill step n y = some ((List.range n).map fun k : Nat => y + (k : Int) * step) := by
  intro n
  induction n with
  | zero => intro y _; rfl
  | succ n ih =>
    intro y h
    rw [rangeFill]
    have h1 := h 1 (by omega)
    unfold Int64 at h1
    rw [Nat.cast_one, one_mul] at h1
    unfold addInt64
    rw [if_pos h1]
    simp only
    rw [ih (y + step) ?_, List.range_succ_eq_map, List.map_cons, List.map_map]
    · simp only [Option.map_some, Nat.cast_zero, zero_mul, add_zero]
      congr 2
      apply List.map_congr_left
      intro k _
      simp only [Function.comp]
      push_cast
      ring
    · intro k hk
      have := h (k + 1) (by omega)
      rw [show y + step + k * step = y + ((k + 1 : Nat) : Int) * step by push_cast; ring]
      exact this

theorem rangeFill_length (step : Int) : ∀ (n : Nat) (y : Int) (l : List Int), rangeFill step n y = some l → l.length = n := by
  intro n
  induction n with
  | zero => intro y l h; obtain rfl := Option.some.inj h; rfl
  | succ n ih =>
    intro y l h
    rw [rangeFill] at h
    split at h
    · cases h
    · rename_i y' _
      cases hr : rangeFill step n y' with
      | none => rw [hr] at h; cases h
      | some t =>
        rw [hr] at h
        obtain rfl := Option.some.inj h
        rw [List.length_cons, ih _ _ hr]

theorem ceil_iff (d s : Int) (hs : 0 < s) (hd : 0 < d) (k : Nat) : k < ((d + s - 1) / s).toNat ↔ (k : Int) * s < d := by
  have h1 : 0 ≤ (d + s - 1) / s := Int.ediv_nonneg (by omega) (by omega)
  rw [← Int.ofNat_lt, Int.toNat_of_nonneg h1]
  have h2 := Int.mul_ediv_add_emod (d + s - 1) s
  have h3 := Int.emod_nonneg (d + s - 1) (show s ≠ 0 by omega)
  have h4 := Int.emod_lt_of_pos (d + s - 1) hs
  generalize (d + s - 1) / s = c at *
  generalize (d + s - 1) % s = r at *
  constructor
  · intro h
    have : ((k : Int) + 1) * s ≤ c * s := Int.mul_le_mul_of_nonneg_right (by omega) (by omega)
    have e1 : ((k : Int) + 1) * s = k * s + s := by ring
    have e2 : c * s = s * c := by ring
    omega
  · intro h
    by_contra hc
    have : c * s ≤ (k : Int) * s := Int.mul_le_mul_of_nonneg_right (by omega) (by omega)
    have e2 : c * s = s * c := by ring
    omega

theorem rangeSize_spec {start stop step : Int} (h1 : Int64 start) (h2 : Int64 stop) (h3 : Int64 step) (h0 : step ≠ 0)
    (hfit : Int64 (stop + step)) (k : Nat) :
    k < rangeSize start stop step ↔ if step > 0 then start + k * step < stop else start + k * step > stop := by
  unfold Int64 at *
  unfold rangeSize
  by_cases hs : step > 0
  · rw [if_pos hs, if_pos hs]
    by_cases hlt : start < stop
    · rw [if_pos hlt]
      have e : u64 (u64 (u64 (u64 stop - u64 start) + u64 step) - 1) = (stop - start) + step - 1 := by unfold u64; omega
      have e2 : u64 step = step := by unfold u64; omega
      rw [e, e2, ceil_iff (stop - start) step hs (by omega) k]
      omega
    · rw [if_neg hlt]
      have : 0 ≤ (k : Int) * step := Int.mul_nonneg (by omega) (by omega)
      omega
  · rw [if_neg hs, if_neg hs]
    by_cases hlt : stop < start
    · rw [if_pos hlt]
      have e : u64 (u64 (u64 (u64 (-u64 stop) - u64 (-u64 start)) + u64 (-u64 step)) - 1) = (start - stop) + (-step) - 1 := by
        unfold u64; omega
      have e2 : u64 (-u64 step) = -step := by unfold u64; omega
      rw [e, e2, ceil_iff (start - stop) (-step) (by omega) (by omega) k]
      have : (k : Int) * -step = -(k * step) := by ring
      omega
    · rw [if_neg hlt]
      have : (k : Int) * step ≤ 0 := Int.mul_nonpos_of_nonneg_of_nonpos (by omega) (by omega)
      omega

/-! ## Rows -/

theorem rowAt_spec : ∀ (ss : List (Seq Q V)) (n i : Nat), (∀ s ∈ ss, s.Valid ∧ s.size = n) → i < n →
    rowAt ss i = some ((ss.map Seq.elems).filterMap fun c => c[i]?) := by
  intro ss
  induction ss with
  | nil => intros; rfl
  | cons s ss ih =>
    intro n i h hi
    obtain ⟨hv, hs⟩ := h s (by simp)
    obtain ⟨v, h1, h2⟩ := getRef_lt hv (show i < s.size by omega)
    rw [rowAt, h1, ih n i (fun s hs => h s (by simp [hs])) hi, List.map_cons, List.filterMap_cons, h2]

theorem setRef_step (pre post : List V) (q : Q) (p v : V) :
    (MSeq.mk q (pre.length + (post.length + 1)) (pre ++ p :: post)).setRef pre.length v =
      some ⟨q, pre.length + (post.length + 1), (pre ++ [v]) ++ post⟩ := by
  unfold MSeq.setRef
  simp only
  rw [if_pos (by omega)]
  congr 2
  rw [List.set_append_right _ _ (by omega)]
  simp

theorem zipLoop_spec (tuple : List V → V) {ss : List (Seq Q V)} {n : Nat} (h : ∀ s ∈ ss, s.Valid ∧ s.size = n) (q : Q) :
    ∀ (post pre : List V), pre.length + post.length = n →
    zipLoop tuple ss post.length pre.length ⟨q, n, pre ++ post⟩ =
      some ⟨q, n, pre ++ ((List.range post.length).map fun k => tuple ((ss.map Seq.elems).filterMap fun c => c[pre.length + k]?))⟩ := by
  intro post
  induction post with
  | nil => intro pre _; rfl
  | cons p post ih =>
    intro pre hn
    rw [List.length_cons] at hn
    rw [List.length_cons, zipLoop, rowAt_spec ss n pre.length h (by omega)]
    simp only
    have := setRef_step pre post q p (tuple ((ss.map Seq.elems).filterMap fun c => c[pre.length]?))
    rw [hn] at this
    rw [this]
    simp only
    have := ih (pre ++ [tuple ((ss.map Seq.elems).filterMap fun c => c[pre.length]?)]) (by simp; omega)
    rw [List.length_append, List.length_singleton] at this
    rw [this, List.range_succ_eq_map, List.map_cons, List.map_map, List.append_assoc, List.singleton_append, Nat.add_zero]
    congr 4
    apply List.map_congr_left
    intro k _
    simp only [Function.comp]
    rw [show pre.length + 1 + k = pre.length + k.succ by omega]

theorem mapLoop_spec (f : List V → Except E V) {ss : List (Seq Q V)} {n : Nat} (h : ∀ s ∈ ss, s.Valid ∧ s.size = n) (q : Q) :
    ∀ (post pre : List V), pre.length + post.length = n →
    mapLoop f ss post.length pre.length ⟨q, n, pre ++ post⟩ =
      some (match mapE f ((List.range post.length).map fun k => (ss.map Seq.elems).filterMap fun c => c[pre.length + k]?) with
        | .error e => .error (.op e)
        | .ok vs => .ok ⟨q, n, pre ++ vs⟩) := by
  intro post
  induction post with
  | nil => intro pre _; rfl
  | cons p post ih =>
    intro pre hn
    rw [List.length_cons] at hn
    rw [List.length_cons, mapLoop, rowAt_spec ss n pre.length h (by omega), List.range_succ_eq_map, List.map_cons, List.map_map]
    simp only [Nat.add_zero]
    rw [mapE]
    cases hf : f ((ss.map Seq.elems).filterMap fun c => c[pre.length]?) with
    | error e => rfl
    | ok v =>
      simp only
      have := setRef_step pre post q p v
      rw [hn] at this
      rw [this]
      simp only
      have := ih (pre ++ [v]) (by simp; omega)
      rw [List.length_append, List.length_singleton] at this
      rw [this]
      have hm : (List.range post.length).map (fun k => (ss.map Seq.elems).filterMap fun c => c[pre.length + 1 + k]?) =
          (List.range post.length).map ((fun k => (ss.map Seq.elems).filterMap fun c => c[pre.length + k]?) ∘ Nat.succ) := by
        apply List.map_congr_left
        intro k _
        simp only [Function.comp]
        rw [show pre.length + 1 + k = pre.length + k.succ by omega]
      rw [hm]
      cases mapE f _ with
      | error e => rfl
      | ok vs => simp

theorem mapSizes_spec : ∀ (ss : List (Seq Q V)) (n : Nat),
    mapSizes (E := E) ss (some n) = if ∀ s ∈ ss, s.size = n then .ok (some n) else .error .sizes := by
  intro ss
  induction ss with
  | nil => intro n; simp [mapSizes]
  | cons s ss ih =>
    intro n
    rw [mapSizes]
    by_cases hs : s.size = n
    · subst hs
      rw [if_neg (by simp), ih]
      simp
    · rw [if_pos (by simpa using fun h => hs h.symm), if_neg]
      intro h
      exact hs (h s (by simp))

theorem reduceLoop_spec (f : V → V → Except E V) {s : Seq Q V} (h : s.Valid) : ∀ n i b, n + i = s.size →
    reduceLoop f s n i b = some (foldE f (s.elems.drop i) b) := by
  intro n
  induction n with
  | zero =>
    intro i b hi
    rw [reduceLoop, List.drop_eq_nil_of_le (by rw [elems_length h]; omega)]
    rfl
  | succ n ih =>
    intro i b hi
    obtain ⟨v, h1, h2⟩ := getRef_lt h (show i < s.size by omega)
    obtain ⟨hl, hv⟩ := List.getElem?_eq_some_iff.1 h2
    rw [reduceLoop, h1, List.drop_eq_getElem_cons hl, hv, foldE]
    simp only
    cases f b v with
    | error e => rfl
    | ok b' => exact ih (i + 1) b' (by omega)

theorem pySlice_spec (l : List V) {lo hi : Nat} (p : Nat → Bool) (hp : ∀ i, i < l.length → (p i = true ↔ lo ≤ i ∧ i < hi)) :
    (l.zipIdx.filter fun e => p e.2).map (·.1) = (l.drop lo).take (hi - lo) := by
  have key : ∀ (l : List V) (k : Nat) (p : Nat → Bool), (∀ i, i < l.length → (p (k + i) = true ↔ lo ≤ k + i ∧ k + i < hi)) →
      ((l.zipIdx k).filter fun e => p e.2).map (·.1) = (l.drop (lo - k)).take (hi - max lo k) := by
    intro l
    induction l with
    | nil => intro k p _; simp
    | cons a l ih =>
      intro k p h
      have h0 := h 0 (by simp)
      rw [Nat.add_zero] at h0
      have hrec := ih (k + 1) p (fun i hi => by
        have := h (i + 1) (by simpa using hi)
        rw [show k + (i + 1) = k + 1 + i by omega] at this
        exact this)
      rw [List.zipIdx_cons]
      by_cases hk : p k = true
      · have hb := h0.1 hk
        rw [List.filter_cons_of_pos (by exact hk), List.map_cons, hrec]
        rw [show lo - k = 0 by omega, show lo - (k + 1) = 0 by omega, show hi - max lo k = (hi - max lo (k + 1)) + 1 by omega]
        rfl
      · rw [List.filter_cons_of_neg (by exact hk), hrec]
        have hb : ¬ (lo ≤ k ∧ k < hi) := fun hc => hk (h0.2 hc)
        by_cases h1 : lo ≤ k
        · rw [show hi - max lo (k + 1) = 0 by omega, show hi - max lo k = 0 by omega]
          simp
        · rw [show lo - k = (lo - (k + 1)) + 1 by omega, List.drop_succ_cons, show max lo (k + 1) = max lo k by omega]
  have := key l 0 p (fun i hi => by rw [Nat.zero_add]; exact hp i hi)
  rw [this]
  simp

end Verif.Seq
