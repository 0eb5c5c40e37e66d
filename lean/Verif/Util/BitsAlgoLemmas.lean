import Verif.Util.BitsLemmas
import Mathlib.Tactic.Tauto

/-! Helper lemmas for `LogicalAnd`, `InplaceLogicalAndWithOffsets` and `CopyBits`. -/

namespace Verif.Bits

/-- The words in `S` have been processed (`v`), the others are still those of `r0`. -/
def Done (r0 : List Word) (v : Nat → Word) (S : Nat → Prop) (r : List Word) : Prop :=
  r.length = r0.length ∧ (∀ k, S k → wd r k = v k) ∧ (∀ k, ¬ S k → wd r k = wd r0 k)

section
variable {r0 : List Word} {v : Nat → Word} {step : Nat → List Word → Option (List Word)} {m : Nat}

/-- One step processes one more word. -/
def StepOk (r0 : List Word) (v : Nat → Word) (step : Nat → List Word → Option (List Word))
    (m : Nat) : Prop :=
  ∀ i S r, i < m → Done r0 v S r → ¬ S i →
    ∃ r', step i r = some r' ∧ Done r0 v (fun k => S k ∨ k = i) r'

theorem Done.congr {S T : Nat → Prop} {r : List Word} (h : Done r0 v S r) (hst : ∀ k, S k ↔ T k) :
    Done r0 v T r :=
  ⟨h.1, fun k hk => h.2.1 k ((hst k).2 hk), fun k hk => h.2.2 k (fun hs => hk ((hst k).1 hs))⟩

/-- Run the steps of a list of positions. -/
def runSteps (step : Nat → List Word → Option (List Word)) : List Nat → List Word →
    Option (List Word)
  | [], r => some r
  | i :: t, r => (step i r).bind (runSteps step t)

theorem runSteps_ok (hs : StepOk r0 v step m) : ∀ (is : List Nat) (S : Nat → Prop) (r : List Word),
    Done r0 v S r → is.Nodup → (∀ i ∈ is, i < m ∧ ¬ S i) →
    ∃ r', runSteps step is r = some r' ∧ Done r0 v (fun k => S k ∨ k ∈ is) r' := by
  intro is
  induction is with
  | nil => intro S r h _ _; exact ⟨r, rfl, h.congr (by simp)⟩
  | cons i t ih =>
    intro S r h hnd hi
    rw [List.nodup_cons] at hnd
    obtain ⟨r1, e1, d1⟩ := hs i S r (hi i (by simp)).1 h (hi i (by simp)).2
    obtain ⟨r2, e2, d2⟩ := ih _ r1 d1 hnd.2 (by
      intro j hj
      refine ⟨(hi j (by simp [hj])).1, ?_⟩
      rintro (h | h)
      · exact (hi j (by simp [hj])).2 h
      · subst h; exact hnd.1 hj)
    refine ⟨r2, by rw [runSteps, e1]; exact e2, d2.congr ?_⟩
    intro k; simp; tauto

theorem block_loop (hs : StepOk r0 v step m) {body : Nat → List Word → Option (List Word)}
    (hbody : ∀ k r, body k r = runSteps step [8 * k, 8 * k + 1, 8 * k + 2, 8 * k + 3, 8 * k + 4,
      8 * k + 5, 8 * k + 6, 8 * k + 7] r) :
    ∀ (n lo : Nat) (r : List Word), 8 * (lo + n) ≤ m → Done r0 v (fun k => k < 8 * lo) r →
      ∃ r', forLoop body lo n r = some r' ∧ Done r0 v (fun k => k < 8 * (lo + n)) r' := by
  intro n
  induction n with
  | zero => intro lo r _ h; exact ⟨r, rfl, h⟩
  | succ n ih =>
    intro lo r hm h
    obtain ⟨r1, e1, d1⟩ := runSteps_ok hs [8 * lo, 8 * lo + 1, 8 * lo + 2, 8 * lo + 3, 8 * lo + 4,
      8 * lo + 5, 8 * lo + 6, 8 * lo + 7] _ r h (by simp) (by
        intro i hi
        simp only [List.mem_cons, List.not_mem_nil, or_false] at hi
        omega)
    obtain ⟨r2, e2, d2⟩ := ih (lo + 1) r1 (by omega) (d1.congr (by
      intro k
      simp only [List.mem_cons, List.not_mem_nil, or_false]
      omega))
    refine ⟨r2, ?_, d2.congr (by intro k; omega)⟩
    rw [forLoop, hbody, e1]; exact e2

theorem unrolled8_ok (hs : StepOk r0 v step m) :
    ∃ r', unrolled8 step m r0 = some r' ∧ Done r0 v (fun k => k < m) r' := by
  unfold unrolled8 forRange
  obtain ⟨r1, e1, d1⟩ := block_loop hs (body := fun k r => do
    let i := 8 * k
    let r ← step i r
    let r ← step (i + 1) r
    let r ← step (i + 2) r
    let r ← step (i + 3) r
    let r ← step (i + 4) r
    let r ← step (i + 5) r
    let r ← step (i + 6) r
    step (i + 7) r) (by intro k r; simp [runSteps]) (m / 8 - 0) 0 r0 (by omega)
    ⟨rfl, fun k hk => by omega, fun k _ => rfl⟩
  rw [e1]
  simp only [Option.bind_eq_bind, Option.bind_some]
  have tail : ∀ is : List Nat, is.Nodup →
      (∀ i, i ∈ is ↔ m / 8 * 8 ≤ i ∧ i < m) →
      ∃ r', runSteps step is r1 = some r' ∧ Done r0 v (fun k => k < m) r' := by
    intro is hnd hi
    obtain ⟨r2, e2, d2⟩ := runSteps_ok hs is _ r1 d1 hnd (by
      intro i h; rw [hi] at h; omega)
    refine ⟨r2, e2, d2.congr ?_⟩
    intro k; rw [hi]; omega
  split
  · rename_i heq
    simpa [runSteps] using tail [m / 8 * 8 + 6, m / 8 * 8 + 5, m / 8 * 8 + 4, m / 8 * 8 + 3,
      m / 8 * 8 + 2, m / 8 * 8 + 1, m / 8 * 8] (by simp)
      (by intro i; simp only [List.mem_cons, List.not_mem_nil, or_false]; omega)
  · rename_i heq
    simpa [runSteps] using tail [m / 8 * 8 + 5, m / 8 * 8 + 4, m / 8 * 8 + 3,
      m / 8 * 8 + 2, m / 8 * 8 + 1, m / 8 * 8] (by simp)
      (by intro i; simp only [List.mem_cons, List.not_mem_nil, or_false]; omega)
  · rename_i heq
    simpa [runSteps] using tail [m / 8 * 8 + 4, m / 8 * 8 + 3,
      m / 8 * 8 + 2, m / 8 * 8 + 1, m / 8 * 8] (by simp)
      (by intro i; simp only [List.mem_cons, List.not_mem_nil, or_false]; omega)
  · rename_i heq
    simpa [runSteps] using tail [m / 8 * 8 + 3,
      m / 8 * 8 + 2, m / 8 * 8 + 1, m / 8 * 8] (by simp)
      (by intro i; simp only [List.mem_cons, List.not_mem_nil, or_false]; omega)
  · rename_i heq
    simpa [runSteps] using tail [m / 8 * 8 + 2, m / 8 * 8 + 1, m / 8 * 8] (by simp)
      (by intro i; simp only [List.mem_cons, List.not_mem_nil, or_false]; omega)
  · rename_i heq
    simpa [runSteps] using tail [m / 8 * 8 + 1, m / 8 * 8] (by simp)
      (by intro i; simp only [List.mem_cons, List.not_mem_nil, or_false]; omega)
  · rename_i heq
    simpa [runSteps] using tail [m / 8 * 8] (by simp)
      (by intro i; simp only [List.mem_cons, List.not_mem_nil, or_false]; omega)
  · rename_i g7 g6 g5 g4 g3 g2 g1
    simp only [imp_false] at g7 g6 g5 g4 g3 g2 g1
    have : m - m / 8 * 8 = 0 := by omega
    simpa [runSteps] using tail [] (by simp)
      (by intro i; simp only [List.not_mem_nil, false_iff]; omega)
end

theorem logicalAnd_spec {src1 src2 result : List Word} {m : Nat} (h1 : m ≤ src1.length)
    (h2 : m ≤ src2.length) (h3 : m ≤ result.length) :
    ∃ r, logicalAnd src1 src2 result m = some r ∧ r.length = result.length ∧
      ∀ k, wd r k = if k < m then wd src1 k &&& wd src2 k else wd result k := by
  obtain ⟨r, e, d⟩ := unrolled8_ok (r0 := result) (v := fun k => wd src1 k &&& wd src2 k) (m := m)
    (step := fun i r => do wr r i ((← src1[i]?) &&& (← src2[i]?))) (by
      intro i S r hi hd hS
      simp only [get_wd (show i < src1.length by omega), get_wd (show i < src2.length by omega),
        Option.bind_eq_bind, Option.bind_some]
      have hl := hd.1
      rw [wr_eq (by omega)]
      refine ⟨_, rfl, by simp [hl], ?_, ?_⟩
      · intro k hk
        rw [wd_set (by omega)]
        by_cases hki : k = i
        · rw [if_pos hki, hki]
        · rw [if_neg hki]; exact hd.2.1 k (by tauto)
      · intro k hk
        rw [wd_set (by omega), if_neg (by tauto)]
        exact hd.2.2 k (by tauto))
  refine ⟨r, e, d.1, ?_⟩
  intro k
  by_cases hk : k < m
  · rw [if_pos hk]; exact d.2.1 k hk
  · rw [if_neg hk]; exact d.2.2 k hk

theorem inPlaceLogicalAnd_spec {src dest : List Word} {m : Nat} (h1 : m ≤ src.length)
    (h3 : m ≤ dest.length) :
    ∃ r, inPlaceLogicalAnd src dest m = some r ∧ r.length = dest.length ∧
      ∀ k, wd r k = if k < m then wd dest k &&& wd src k else wd dest k := by
  obtain ⟨r, e, d⟩ := unrolled8_ok (r0 := dest) (v := fun k => wd dest k &&& wd src k) (m := m)
    (step := fun i r => do wr r i ((← r[i]?) &&& (← src[i]?))) (by
      intro i S r hi hd hS
      have hl := hd.1
      simp only [get_wd (show i < r.length by omega), get_wd (show i < src.length by omega),
        Option.bind_eq_bind, Option.bind_some]
      rw [wr_eq (by omega), hd.2.2 i hS]
      refine ⟨_, rfl, by simp [hl], ?_, ?_⟩
      · intro k hk
        rw [wd_set (by omega)]
        by_cases hki : k = i
        · rw [if_pos hki, hki]
        · rw [if_neg hki]; exact hd.2.1 k (by tauto)
      · intro k hk
        rw [wd_set (by omega), if_neg (by tauto)]
        exact hd.2.2 k (by tauto))
  refine ⟨r, e, d.1, ?_⟩
  intro k
  by_cases hk : k < m
  · rw [if_pos hk]; exact d.2.1 k hk
  · rw [if_neg hk]; exact d.2.2 k hk

/-- Bit `j` of the word glued from two neighbours at distance `s`. -/
theorem bit_glue {a b : Word} {s j : Nat} (hs : 0 < s) (hs2 : s < 32) (hj : j < 32) :
    (a >>> s ||| b <<< (32 - s)).getLsbD j =
      if s + j < 32 then a.getLsbD (s + j) else b.getLsbD (s + j - 32) := by
  rw [BitVec.getLsbD_or, bit_shr, bit_shl hj]
  by_cases h : s + j < 32
  · rw [if_pos h, decide_eq_false (by omega)]; simp
  · rw [if_neg h, bit_ge (by omega), decide_eq_true (by omega)]
    simp only [Bool.true_and, Bool.false_or]
    congr 1; omega

theorem bitAt_glue {ws : List Word} {k s j : Nat} (hs : 0 < s) (hs2 : s < 32) (hj : j < 32) :
    (wd ws k >>> s ||| wd ws (k + 1) <<< (32 - s)).getLsbD j = bitAt ws (32 * k + s + j) := by
  rw [bit_glue hs hs2 hj]
  by_cases h : s + j < 32
  · rw [if_pos h, show 32 * k + s + j = 32 * k + (s + j) by omega, bitAt_mk h]
  · rw [if_neg h, show 32 * k + s + j = 32 * (k + 1) + (s + j - 32) by omega, bitAt_mk (by omega)]

theorem bitAt_low {ws : List Word} {k s j : Nat} (h : s + j < 32) :
    (wd ws k >>> s).getLsbD j = bitAt ws (32 * k + s + j) := by
  rw [bit_shr, show 32 * k + s + j = 32 * k + (s + j) by omega, bitAt_mk h]

theorem andW_eq {lhs : List Word} {i : Nat} {v : Word} (h : i < lhs.length) :
    andW lhs i v = some (lhs.set i (wd lhs i &&& v)) := by
  unfold andW
  rw [get_wd h]
  simp only [Option.bind_eq_bind, Option.bind_some]
  exact wr_eq h

/-- The result of `InplaceLogicalAndWithOffsets` on the bits inside of the range; every other word
is untouched. -/
theorem inplaceAnd_spec {n : Nat} {rhs lhs : List Word} {rs ls : Nat} (hn : 0 < n + rs ∨ ls = 0)
    (hrs : rs < 32) (hls : ls < 32)
    (hr : n + rs ≤ 32 * rhs.length) (hl : n + ls ≤ 32 * lhs.length) :
    ∃ r, inplaceLogicalAndWithOffsets n rhs rs lhs ls = some r ∧ r.length = lhs.length ∧
      (∀ i, ls ≤ i → i < ls + n → bitAt r i = (bitAt lhs i && bitAt rhs (i - ls + rs))) ∧
      (∀ k, (n + ls + 31) / 32 ≤ k → wd r k = wd lhs k) := by
  unfold inplaceLogicalAndWithOffsets
  dsimp only
  by_cases he : ls = rs
  · subst he
    rw [if_pos rfl]
    obtain ⟨r, e1, e2, e3⟩ := inPlaceLogicalAnd_spec (src := rhs) (dest := lhs)
      (m := (n + ls + 32 - 1) / 32) (by omega) (by omega)
    refine ⟨r, e1, e2, ?_, ?_⟩
    · refine forall_bit ?_
      intro k j hj h1 h2
      rw [show 32 * k + j - ls + ls = 32 * k + j by omega, bitAt_mk hj, bitAt_mk hj, bitAt_mk hj, e3,
        if_pos (by omega), BitVec.getLsbD_and]
    · intro k hk; rw [e3, if_neg (by omega)]
  · rw [if_neg he]
    by_cases hlt : ls < rs
    · rw [if_pos hlt]
      obtain ⟨l, e1, e2, e3⟩ := forRange_set (base := 0) (lo := 0)
        (hi := (n + rs + 32 - 1) / 32 - 1) (l := lhs)
        (g := fun i w => w &&& (wd rhs i >>> (rs - ls) ||| wd rhs (i + 1) <<< (32 - (rs - ls))))
        (body := fun i lhs => do
          andW lhs i ((← shr (← rhs[i]?) (rs - ls)) ||| (← shl (← rhs[i + 1]?) (32 - (rs - ls)))))
        (by
          intro i l' h1 h2 h3
          rw [get_wd (show i < rhs.length by omega), get_wd (show i + 1 < rhs.length by omega)]
          simp only [Option.bind_eq_bind, Option.bind_some]
          rw [shr_eq (by omega), shl_eq (by omega)]
          simp only [Option.bind_some, Nat.zero_add]
          exact andW_eq (by omega))
        (by omega)
      rw [e1]
      simp only [Option.bind_eq_bind, Option.bind_some]
      by_cases hi : (n + rs + 32 - 1) / 32 - 1 < (n + ls + 32 - 1) / 32
      · rw [if_pos hi, get_wd (by omega)]
        simp only [Option.bind_some]
        rw [shr_eq (by omega)]
        simp only [Option.bind_some]
        rw [andW_eq (by omega)]
        refine ⟨_, rfl, by simp [e2], forall_bit ?_, ?_⟩
        · intro k j hj h1 h2
          rw [bitAt_mk hj, wd_set (by omega), bitAt_mk hj]
          by_cases hk : k = (n + rs + 32 - 1) / 32 - 1
          · rw [if_pos hk, BitVec.getLsbD_and, e3, if_neg (by omega), ← hk, bitAt_low (by omega)]
            congr 2; omega
          · rw [if_neg hk, e3, if_pos (by omega), BitVec.getLsbD_and, Nat.sub_zero,
              bitAt_glue (by omega) (by omega) hj]
            congr 2; omega
        · intro k hk
          rw [wd_set (by omega), if_neg (by omega), e3, if_neg (by omega)]
      · rw [if_neg hi]
        refine ⟨_, rfl, e2, forall_bit ?_, ?_⟩
        · intro k j hj h1 h2
          rw [bitAt_mk hj, bitAt_mk hj]
          rw [e3, if_pos (by omega), BitVec.getLsbD_and, Nat.sub_zero,
            bitAt_glue (by omega) (by omega) hj]
          congr 2; omega
        · intro k hk
          rw [e3, if_neg (by omega)]
    · rw [if_neg hlt]
      rw [get_wd (show 0 < rhs.length by omega)]
      simp only [Option.bind_eq_bind, Option.bind_some]
      rw [shl_eq (by omega)]
      simp only [Option.bind_some]
      rw [andW_eq (by omega)]
      simp only [Option.bind_some]
      have hglue : ∀ i j, j < 32 → 1 ≤ i →
          (wd rhs (i - 1) >>> (32 - (ls - rs)) ||| wd rhs i <<< (ls - rs)).getLsbD j =
            bitAt rhs (32 * i + j - ls + rs) := by
        intro i j hj hi
        have := bitAt_glue (ws := rhs) (k := i - 1) (s := 32 - (ls - rs)) (j := j) (by omega)
          (by omega) hj
        rw [show i - 1 + 1 = i by omega, show 32 - (32 - (ls - rs)) = ls - rs by omega] at this
        rw [this]
        congr 1; omega
      obtain ⟨l, e1, e2, e3⟩ := forRange_set (base := 0) (lo := 1)
        (hi := (n + rs + 32 - 1) / 32) (l := lhs.set 0 (wd lhs 0 &&& wd rhs 0 <<< (ls - rs)))
        (g := fun i w => w &&& (wd rhs (i - 1) >>> (32 - (ls - rs)) ||| wd rhs i <<< (ls - rs)))
        (body := fun i lhs => do
          andW lhs i ((← shr (← rhs[i - 1]?) (32 - (ls - rs))) ||| (← shl (← rhs[i]?) (ls - rs))))
        (by
          intro i l' h1 h2 h3
          simp only [List.length_set] at h3
          rw [get_wd (show i < rhs.length by omega), get_wd (show i - 1 < rhs.length by omega)]
          simp only [Option.bind_eq_bind, Option.bind_some]
          rw [shr_eq (by omega), shl_eq (by omega)]
          simp only [Option.bind_some, Nat.zero_add]
          exact andW_eq (by omega))
        (by simp only [List.length_set]; omega)
      simp only [Option.bind_eq_bind] at e1
      rw [e1]
      simp only [Option.bind_some]
      simp only [List.length_set] at e2
      have hfirst : ∀ j, j < 32 → ls ≤ j →
          (wd rhs 0 <<< (ls - rs)).getLsbD j = bitAt rhs (32 * 0 + j - ls + rs) := by
        intro j hj h1
        rw [bit_shl hj, decide_eq_true (by omega), Bool.true_and,
          show 32 * 0 + j - ls + rs = 32 * 0 + (j - (ls - rs)) by omega, bitAt_mk (by omega)]
      by_cases hi : max 1 ((n + rs + 32 - 1) / 32) < (n + ls + 32 - 1) / 32
      · rw [if_pos hi, get_wd (by omega)]
        simp only [Option.bind_some]
        rw [shr_eq (by omega)]
        simp only [Option.bind_some]
        rw [andW_eq (by omega)]
        refine ⟨_, rfl, by simp [e2], forall_bit ?_, ?_⟩
        · intro k j hj h1 h2
          rw [bitAt_mk hj, wd_set (by omega), bitAt_mk hj]
          by_cases hk : k = max 1 ((n + rs + 32 - 1) / 32)
          · rw [if_pos hk, BitVec.getLsbD_and, e3, if_neg (by omega), wd_set (by omega),
              if_neg (by omega), ← hk, bitAt_low (by omega)]
            congr 2; omega
          · rw [if_neg hk, e3, wd_set (by omega)]
            by_cases hk0 : k = 0
            · subst hk0
              rw [if_neg (by omega), if_pos rfl, BitVec.getLsbD_and, hfirst j hj (by omega)]
            · rw [if_pos (by omega), if_neg hk0, BitVec.getLsbD_and, Nat.sub_zero,
                hglue k j hj (by omega)]
        · intro k hk
          rw [wd_set (by omega), if_neg (by omega), e3, if_neg (by omega), wd_set (by omega),
            if_neg (by omega)]
      · rw [if_neg hi]
        refine ⟨_, rfl, e2, forall_bit ?_, ?_⟩
        · intro k j hj h1 h2
          rw [bitAt_mk hj, bitAt_mk hj, e3, wd_set (by omega)]
          by_cases hk0 : k = 0
          · subst hk0
            rw [if_neg (by omega), if_pos rfl, BitVec.getLsbD_and, hfirst j hj (by omega)]
          · rw [if_pos (by omega), if_neg hk0, BitVec.getLsbD_and, Nat.sub_zero,
              hglue k j hj (by omega)]
        · intro k hk
          rw [e3, if_neg (by omega), wd_set (by omega), if_neg (by omega)]

/-! ## CopyBits -/

theorem blend_eq {lhs : List Word} {i : Nat} {mask v : Word} (h : i < lhs.length) :
    blend lhs i mask v = some (lhs.set i ((wd lhs i &&& ~~~mask) ||| (v &&& mask))) := by
  unfold blend
  rw [get_wd h]
  simp only [Option.bind_eq_bind, Option.bind_some]
  exact wr_eq h

theorem bit_blend {a mask v : Word} {j : Nat} (hj : j < 32) :
    ((a &&& ~~~mask) ||| (v &&& mask)).getLsbD j =
      if mask.getLsbD j then v.getLsbD j else a.getLsbD j := by
  rw [BitVec.getLsbD_or, BitVec.getLsbD_and, BitVec.getLsbD_and, BitVec.getLsbD_not,
    decide_eq_true hj]
  cases mask.getLsbD j <;> simp

/-- The tail part of `CopyBits`: `m > 0` bits are copied from bit `32 * r + rs` to bit `32 * l`. -/
theorem copyRest_spec {m r l rs : Nat} {rhs lhs : List Word} (hm : 0 < m) (hrs : rs < 32)
    (hr : 32 * r + rs + m ≤ 32 * rhs.length) (hl : 32 * l + m ≤ 32 * lhs.length) :
    ∃ res, copyRest rhs r ((m + rs + 31) / 32) rs lhs l ((m + 31) / 32)
        ((m + 31) / 32 * 32 - m) = some res ∧ res.length = lhs.length ∧
      ∀ i, bitAt res i =
        if 32 * l ≤ i ∧ i < 32 * l + m then bitAt rhs (i - 32 * l + (32 * r + rs))
        else bitAt lhs i := by
  unfold copyRest
  dsimp only
  have hfull : (if (m + 31) / 32 * 32 - m = 0 then (m + 31) / 32 else (m + 31) / 32 - 1) = m / 32 := by
    by_cases h : (m + 31) / 32 * 32 - m = 0
    · rw [if_pos h]; omega
    · rw [if_neg h]; omega
  rw [hfull]
  -- the full words
  have hmid : ∃ l1, copyFull rhs r ((m + rs + 31) / 32) rs lhs l (m / 32) = some l1 ∧ l1.length = lhs.length ∧
      (∀ k, ¬ (l ≤ k ∧ k < l + m / 32) → wd l1 k = wd lhs k) ∧
      (∀ k j, j < 32 → l ≤ k → k < l + m / 32 →
        (wd l1 k).getLsbD j = bitAt rhs (32 * (k - l) + j + (32 * r + rs))) := by
    unfold copyFull
    by_cases hf : m / 32 > 0
    · rw [if_pos hf]
      by_cases hz : rs = 0
      · rw [if_pos hz]
        obtain ⟨l1, e1, e2, e3⟩ := forRange_set (base := l) (lo := 0) (hi := m / 32) (l := lhs)
          (g := fun i _ => wd rhs (r + i))
          (body := fun i lhs => do wr lhs (l + i) (← rhs[r + i]?))
          (by
            intro i l' h1 h2 h3
            rw [get_wd (by omega)]
            simp only [Option.bind_eq_bind, Option.bind_some]
            exact wr_eq (by omega))
          (by omega)
        refine ⟨l1, e1, e2, ?_, ?_⟩
        · intro k hk; rw [e3, if_neg (by omega)]
        · intro k j hj h1 h2
          rw [e3, if_pos (by omega), ← bitAt_mk hj]
          congr 1; omega
      · rw [if_neg hz]
        have hmin : min ((m + rs + 31) / 32 - 1) (m / 32) = m / 32 := by omega
        rw [hmin]
        obtain ⟨l1, e1, e2, e3⟩ := forRange_set (base := l) (lo := 0) (hi := m / 32) (l := lhs)
          (g := fun i _ => wd rhs (r + i) >>> rs ||| wd rhs (r + i + 1) <<< (32 - rs))
          (body := fun i lhs => do
            wr lhs (l + i)
              ((← shr (← rhs[r + i]?) rs) ||| (← shl (← rhs[r + (i + 1)]?) (32 - rs))))
          (by
            intro i l' h1 h2 h3
            rw [get_wd (show r + i < rhs.length by omega),
              get_wd (show r + (i + 1) < rhs.length by omega)]
            simp only [Option.bind_eq_bind, Option.bind_some]
            rw [shr_eq (by omega), shl_eq (by omega)]
            simp only [Option.bind_some]
            exact wr_eq (by omega))
          (by omega)
        simp only [Option.bind_eq_bind] at e1
        refine ⟨l1, ?_, e2, ?_, ?_⟩
        · simp only [Option.bind_eq_bind, e1, Option.bind_some]
          rw [if_neg (by omega)]
        · intro k hk; rw [e3, if_neg (by omega)]
        · intro k j hj h1 h2
          rw [e3, if_pos (by omega), bitAt_glue (by omega) (by omega) hj]
          congr 1; omega
    · rw [if_neg hf]
      exact ⟨lhs, rfl, rfl, fun k _ => rfl, fun k j _ _ _ => by omega⟩
  obtain ⟨l1, e1, e2, e3, e4⟩ := hmid
  rw [e1]
  simp only [Option.bind_eq_bind, Option.bind_some]
  by_cases ht : (m + 31) / 32 * 32 - m = 0
  · rw [if_neg (by simpa using ht)]
    refine ⟨l1, rfl, e2, forall_bit ?_⟩
    intro k j hj
    rw [bitAt_mk hj, bitAt_mk hj]
    by_cases hk : l ≤ k ∧ k < l + m / 32
    · rw [e4 k j hj hk.1 hk.2, if_pos (by omega)]
      congr 1; omega
    · rw [e3 k hk, if_neg (by omega)]
  · rw [if_pos ht]
    have hv : ∃ v, copyTailVal rhs (r + m / 32) ((m + rs + 31) / 32 - m / 32) rs = some v ∧
        ∀ j, j < m % 32 → v.getLsbD j = bitAt rhs (32 * (m / 32) + j + (32 * r + rs)) := by
      unfold copyTailVal
      rw [get_wd (by omega)]
      simp only [Option.bind_eq_bind, Option.bind_some]
      rw [shr_eq hrs]
      simp only [Option.bind_some]
      by_cases h2 : (m + rs + 31) / 32 - m / 32 = 2
      · rw [if_pos h2, get_wd (by omega)]
        simp only [Option.bind_some]
        rw [shl_eq (by omega)]
        refine ⟨_, rfl, ?_⟩
        intro j hj
        rw [bitAt_glue (by omega) (by omega) (by omega)]
        congr 1; omega
      · rw [if_neg h2]
        refine ⟨_, rfl, ?_⟩
        intro j hj
        rw [bitAt_low (by omega)]
        congr 1; omega
    obtain ⟨v, f1, f2⟩ := hv
    rw [f1]
    simp only [Option.bind_some]
    rw [shr_eq (by omega)]
    simp only [Option.bind_some]
    rw [blend_eq (by omega)]
    refine ⟨_, rfl, by simp [e2], forall_bit ?_⟩
    intro k j hj
    rw [bitAt_mk hj, bitAt_mk hj, wd_set (by omega)]
    by_cases hk : k = l + m / 32
    · rw [if_pos hk, bit_blend hj, bit_shr_ones]
      by_cases hj2 : j < m % 32
      · rw [if_pos (by simp; omega), if_pos (by omega), f2 j hj2]
        congr 1; omega
      · rw [if_neg (by simp; omega), if_neg (by omega), e3 _ (by omega), hk]
    · rw [if_neg hk]
      by_cases hk : l ≤ k ∧ k < l + m / 32
      · rw [e4 k j hj hk.1 hk.2, if_pos (by omega)]
        congr 1; omega
      · rw [e3 k hk, if_neg (by omega)]

theorem copyFirst_spec {n rs ls : Nat} {rhs : List Word} (hn : 0 < n) (hls0 : 0 < ls)
    (hrs : rs < 32) (hls : ls < 32) (hr : n + rs ≤ 32 * rhs.length) :
    ∃ v, copyFirstVal rhs ((n + rs + 32 - 1) / 32) rs ls = some v ∧
      ∀ j, ls ≤ j → j < 32 → j < ls + n → v.getLsbD j = bitAt rhs (j - ls + rs) := by
  unfold copyFirstVal
  by_cases he : ls = rs
  · rw [if_pos he, get_wd (by omega)]
    refine ⟨_, rfl, ?_⟩
    intro j h1 h2 h3
    rw [show j - ls + rs = 32 * 0 + j by omega, bitAt_mk h2]
  · rw [if_neg he]
    by_cases hlt : ls < rs
    · rw [if_pos hlt, get_wd (by omega)]
      simp only [Option.bind_eq_bind, Option.bind_some]
      rw [shr_eq (by omega)]
      simp only [Option.bind_some]
      by_cases hw : (n + rs + 32 - 1) / 32 > 1
      · rw [if_pos hw, get_wd (by omega)]
        simp only [Option.bind_some]
        rw [shl_eq (by omega)]
        refine ⟨_, rfl, ?_⟩
        intro j h1 h2 h3
        have := bitAt_glue (ws := rhs) (k := 0) (s := rs - ls) (j := j) (by omega) (by omega) h2
        rw [this]; congr 1; omega
      · rw [if_neg hw]
        refine ⟨_, rfl, ?_⟩
        intro j h1 h2 h3
        rw [bitAt_low (by omega)]; congr 1; omega
    · rw [if_neg hlt, get_wd (by omega)]
      simp only [Option.bind_eq_bind, Option.bind_some]
      rw [shl_eq (by omega)]
      refine ⟨_, rfl, ?_⟩
      intro j h1 h2 h3
      rw [bit_shl h2, decide_eq_true (by omega), Bool.true_and,
        show j - ls + rs = 32 * 0 + (j - (ls - rs)) by omega, bitAt_mk (by omega)]

theorem copyBits_spec {n : Nat} {rhs lhs : List Word} {rs ls : Nat} (hrs : rs < 32) (hls : ls < 32)
    (hr : n + rs ≤ 32 * rhs.length) (hl : n + ls ≤ 32 * lhs.length) :
    ∃ res, copyBits n rhs rs lhs ls = some res ∧ res.length = lhs.length ∧
      ∀ i, bitAt res i =
        if ls ≤ i ∧ i < ls + n then bitAt rhs (i - ls + rs) else bitAt lhs i := by
  unfold copyBits
  by_cases hn : n = 0
  · rw [if_pos hn]
    exact ⟨lhs, rfl, rfl, fun i => by rw [if_neg (by omega)]⟩
  · rw [if_neg hn]
    dsimp only
    by_cases hls0 : ls = 0
    · rw [if_neg (by simpa using hls0)]
      subst hls0
      obtain ⟨res, e1, e2, e3⟩ := copyRest_spec (m := n) (r := 0) (l := 0) (rs := rs) (rhs := rhs)
        (lhs := lhs) (by omega) hrs (by omega) (by omega)
      refine ⟨res, e1, e2, ?_⟩
      intro i
      rw [e3]
      simp only [Nat.mul_zero, Nat.zero_add, Nat.zero_le, true_and, Nat.sub_zero]
    · rw [if_pos hls0]
      obtain ⟨v, f1, f2⟩ := copyFirst_spec (n := n) (rs := rs) (ls := ls) (rhs := rhs) (by omega)
        (by omega) hrs hls hr
      rw [f1]
      simp only [Option.bind_eq_bind, Option.bind_some]
      rw [shl_eq (a := ~~~0) (k := ls) (by omega)]
      simp only [Option.bind_some]
      by_cases hw : (n + ls + 32 - 1) / 32 = 1
      · rw [if_pos hw, shr_eq (by omega)]
        simp only [Option.bind_some]
        rw [blend_eq (by omega)]
        refine ⟨_, rfl, by simp, forall_bit ?_⟩
        intro k j hj
        rw [bitAt_mk hj, bitAt_mk hj, wd_set (by omega)]
        by_cases hk : k = 0
        · subst hk
          rw [if_pos rfl, bit_blend hj, BitVec.getLsbD_and, bit_shl_ones hj, bit_shr_ones,
            ← Bool.decide_and]
          by_cases hr : ls ≤ j ∧ j < ls + n
          · rw [if_pos (by rw [decide_eq_true_eq]; omega), if_pos (by omega),
              f2 j hr.1 hj hr.2]
            congr 1; omega
          · rw [if_neg (by rw [decide_eq_true_eq]; omega), if_neg (by omega)]
        · rw [if_neg hk, if_neg (by omega)]
      · rw [if_neg hw, blend_eq (by omega)]
        simp only [Option.bind_some]
        -- the remaining bits
        have fin : ∀ r rs', rs' < 32 → 32 * r + rs' = rs + (32 - ls) →
            ∃ res, copyRest rhs r ((n - (32 - ls) + rs' + 31) / 32) rs'
              (lhs.set 0 ((wd lhs 0 &&& ~~~((~~~(0 : Word)) <<< ls)) ||| (v &&& (~~~(0 : Word)) <<< ls))) 1
              ((n - (32 - ls) + 31) / 32) ((n - (32 - ls) + 31) / 32 * 32 - (n - (32 - ls))) = some res ∧
              res.length = lhs.length ∧ ∀ i, bitAt res i =
                if ls ≤ i ∧ i < ls + n then bitAt rhs (i - ls + rs) else bitAt lhs i := by
          intro r rs' hr1 hr2
          obtain ⟨res, e1, e2, e3⟩ := copyRest_spec (m := n - (32 - ls)) (r := r) (l := 1)
            (rs := rs') (rhs := rhs)
            (lhs := lhs.set 0 ((wd lhs 0 &&& ~~~((~~~(0 : Word)) <<< ls)) ||| (v &&& (~~~(0 : Word)) <<< ls)))
            (by omega) hr1 (by omega) (by simp only [List.length_set]; omega)
          simp only [List.length_set] at e2
          refine ⟨res, e1, e2, forall_bit ?_⟩
          intro k j hj
          rw [e3]
          by_cases hin : 32 * 1 ≤ 32 * k + j ∧ 32 * k + j < 32 * 1 + (n - (32 - ls))
          · rw [if_pos hin, if_pos (by omega)]
            congr 1; omega
          · rw [if_neg hin, bitAt_mk hj, bitAt_mk hj, wd_set (by omega)]
            by_cases hk : k = 0
            · subst hk
              rw [if_pos rfl, bit_blend hj, bit_shl_ones hj]
              by_cases hr : ls ≤ j
              · rw [if_pos (by rw [decide_eq_true_eq]; omega), if_pos (by omega),
                  f2 j hr hj (by omega)]
                congr 1; omega
              · rw [if_neg (by rw [decide_eq_true_eq]; omega), if_neg (by omega)]
            · rw [if_neg hk, if_neg (by omega)]
        have t : (n + ls + 32 - 1) / 32 * 32 - (n + ls) =
            (n - (32 - ls) + 31) / 32 * 32 - (n - (32 - ls)) := by omega
        rw [t, show (n + ls + 32 - 1) / 32 - 1 = (n - (32 - ls) + 31) / 32 by omega]
        by_cases hgt : ls > rs
        · rw [if_pos hgt]
          obtain ⟨res, e⟩ := fin 0 (rs + (32 - ls)) (by omega) (by omega)
          rw [show (n + rs + 32 - 1) / 32 = (n - (32 - ls) + (rs + (32 - ls)) + 31) / 32 by omega]
          exact ⟨res, e⟩
        · rw [if_neg hgt]
          obtain ⟨res, e⟩ := fin 1 (rs - ls) (by omega) (by omega)
          rw [show (n + rs + 32 - 1) / 32 - 1 = (n - (32 - ls) + (rs - ls) + 31) / 32 by omega]
          exact ⟨res, e⟩

end Verif.Bits
