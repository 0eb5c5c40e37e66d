import Verif.Mem.ArenaSpec
import Mathlib.Tactic.ByContra

namespace Verif.Arena

/-- The byte at `x` belongs to a page in use or to a big block. -/
def InUse (a : Arena) (x : Nat) : Prop :=
  (∃ q ∈ a.pages.take a.used, Has (q, a.pageSize) x) ∨ ∃ b ∈ a.bigs, Has b x

/-- The invariant of the arena, where `P` are the bytes of the live buffers. -/
structure AInv (a : Arena) (P : Nat → Prop) : Prop where
  curFin : a.cur ≤ a.fin
  used : a.used ≤ a.pages.length
  held : a.held.Pairwise fun b c => ∀ x, Has b x → ¬ Has c x
  live : ∀ x, P x → InUse a x
  free : ∀ x, a.cur ≤ x → x < a.fin → InUse a x ∧ ¬ P x
  start : a.used = 0 → a.cur = 8 ∧ a.fin = 8
  bigs : ∀ b ∈ a.bigs, 0 < b.2 → 8 ≤ b.1
  pages : ∀ p ∈ a.pages, p % 8 = 0

theorem AInv.mono {a : Arena} {P Q : Nat → Prop} (h : AInv a P) (hq : ∀ x, Q x → P x) : AInv a Q :=
  { h with live := fun x hx => h.live x (hq x hx), free := fun x h1 h2 => ⟨(h.free x h1 h2).1, fun hx => (h.free x h1 h2).2 (hq x hx)⟩ }

theorem init_inv (ps : Nat) : AInv { pageSize := ps } (fun _ => False) where
  curFin := Nat.le_refl _
  used := Nat.le_refl _
  held := by simp [Arena.held]
  live := fun _ h => h.elim
  free := fun x h1 h2 => by simp only at h1 h2; omega
  start := fun _ => ⟨rfl, rfl⟩
  bigs := by simp
  pages := by simp

theorem inUse_held {a : Arena} {x : Nat} (h : InUse a x) : ∃ b ∈ a.held, Has b x := by
  rcases h with ⟨q, hq, hx⟩ | ⟨b, hb, hx⟩
  · exact ⟨(q, a.pageSize), by
      simp only [Arena.held, List.mem_append, List.mem_map]
      exact Or.inl ⟨q, List.mem_of_mem_take hq, rfl⟩, hx⟩
  · exact ⟨b, by simp only [Arena.held, List.mem_append]; exact Or.inr hb, hx⟩

/-- What `SlowAlloc` gives. -/
structure Given (a c : Arena) (P : Nat → Prop) (q n : Nat) : Prop where
  inv : AInv c (fun x => P x ∨ Has (q, n) x)
  fresh : ∀ x, Has (q, n) x → ¬ InUse a x
  aligned : q % 8 = 0

theorem nextPage_given {base : Nat → List Block → Nat → Nat} (hb : BaseOk base) (t : Nat) {a : Arena} {P : Nat → Prop}
    (h : AInv a P) : ∃ c, nextPage (base t) a = some c ∧ AInv c P ∧ (∀ x, c.cur ≤ x → x < c.fin → ¬ InUse a x) ∧ c.cur % 8 = 0 ∧
      c.fin = c.cur + a.pageSize ∧ c.used ≠ 0 := by
  unfold nextPage
  by_cases hu : a.used = a.pages.length
  · rw [if_pos hu]
    obtain ⟨hal, h8, hfr⟩ := hb t a.held a.pageSize
    refine ⟨_, rfl, ?_, ?_, hal, rfl, Nat.succ_ne_zero _⟩
    · have hnew : ∀ x, base t a.held a.pageSize ≤ x → x < base t a.held a.pageSize + a.pageSize → ¬ InUse a x := by
        intro x h1 h2 hin
        obtain ⟨b, hbm, hx⟩ := inUse_held hin
        exact hfr b hbm x hx ⟨h1, h2⟩
      have hmono : ∀ x, InUse a x → InUse { a with used := a.used + 1, cur := base t a.held a.pageSize, fin := base t a.held a.pageSize + a.pageSize, pages := a.pages ++ [base t a.held a.pageSize] } x := by
        rintro x (⟨q, hq, hx⟩ | ⟨b, hbm, hx⟩)
        · exact Or.inl ⟨q, by
            rw [List.take_of_length_le (by simp; omega)]
            exact List.mem_append_left _ (List.mem_of_mem_take hq), hx⟩
        · exact Or.inr ⟨b, hbm, hx⟩
      refine ⟨Nat.le_add_right _ _, by simp; omega, ?_, ?_, ?_, fun hz => absurd hz (Nat.succ_ne_zero _), h.bigs, ?_⟩
      · have hp := h.held
        simp only [Arena.held, List.map_append, List.map_cons, List.map_nil] at hp hfr ⊢
        rw [List.pairwise_append] at hp
        rw [List.append_assoc, List.pairwise_append]
        refine ⟨hp.1, ?_, ?_⟩
        · simp only [List.singleton_append, List.pairwise_cons]
          exact ⟨fun b hbm x h1 h2 => hfr b (List.mem_append_right _ hbm) x h2 h1, hp.2.1⟩
        · intro b hbm c hc x h1 h2
          simp only [List.singleton_append, List.mem_cons] at hc
          rcases hc with rfl | hc
          · exact hfr b (List.mem_append_left _ hbm) x h1 h2
          · exact hp.2.2 b hbm c hc x h1 h2
      · exact fun x hx => hmono x (h.live x hx)
      · intro x h1 h2
        refine ⟨Or.inl ⟨base t a.held a.pageSize, ?_, h1, h2⟩, fun hx => hnew x h1 h2 (h.live x hx)⟩
        rw [List.take_of_length_le (by simp; omega)]
        simp
      · intro p hp
        simp only [List.mem_append, List.mem_singleton] at hp
        rcases hp with hp | rfl
        · exact h.pages p hp
        · exact hal
    · intro x h1 h2 hin
      obtain ⟨b, hbm, hx⟩ := inUse_held hin
      exact hfr b hbm x hx ⟨h1, h2⟩
  · rw [if_neg hu]
    have hlt : a.used < a.pages.length := by have := h.used; omega
    have hg : a.pages[a.used]? = some a.pages[a.used] := List.getElem?_eq_getElem hlt
    rw [hg]
    have hnew : ∀ x, a.pages[a.used] ≤ x → x < a.pages[a.used] + a.pageSize → ¬ InUse a x := by
      intro x h1 h2 hin
      have hp := h.held
      simp only [Arena.held] at hp
      rw [List.pairwise_append] at hp
      rcases hin with ⟨q, hq, hx⟩ | ⟨b, hbm, hx⟩
      · obtain ⟨k, hk, hqk⟩ := List.getElem_of_mem hq
        simp only [List.length_take] at hk
        rw [List.getElem_take] at hqk
        have := List.pairwise_iff_getElem.1 hp.1 k a.used (by simp; omega) (by simpa using hlt) (by omega) x
        simp only [List.getElem_map, hqk] at this
        exact this hx ⟨h1, h2⟩
      · exact hp.2.2 (a.pages[a.used], a.pageSize) (List.mem_map.2 ⟨_, List.getElem_mem hlt, rfl⟩) b hbm x ⟨h1, h2⟩ hx
    have hmono : ∀ x, InUse a x → InUse { a with used := a.used + 1, cur := a.pages[a.used], fin := a.pages[a.used] + a.pageSize } x := by
      rintro x (⟨q, hq, hx⟩ | ⟨b, hbm, hx⟩)
      · exact Or.inl ⟨q, by
          rw [List.take_succ]
          exact List.mem_append_left _ hq, hx⟩
      · exact Or.inr ⟨b, hbm, hx⟩
    refine ⟨_, rfl, ?_, hnew, h.pages _ (List.getElem_mem hlt), rfl, Nat.succ_ne_zero _⟩
    refine ⟨Nat.le_add_right _ _, hlt, h.held, fun x hx => hmono x (h.live x hx), ?_, fun hz => absurd hz (Nat.succ_ne_zero _), h.bigs, h.pages⟩
    intro x h1 h2
    refine ⟨Or.inl ⟨a.pages[a.used], ?_, h1, h2⟩, fun hx => hnew x h1 h2 (h.live x hx)⟩
    exact List.mem_take_iff_getElem.2 ⟨a.used, by simp only; omega, rfl⟩

theorem slowAlloc_given {base : Nat → List Block → Nat → Nat} (hb : BaseOk base) (t : Nat) {a : Arena} {P : Nat → Prop}
    (h : AInv a P) (n : Nat) : ∃ c q, slowAlloc (base t) a n = some (c, q) ∧ Given a c P q n := by
  unfold slowAlloc
  by_cases hc : n > a.pageSize ∨ (a.fin : Int) - a.cur ≥ (a.pageSize / 2 : Nat)
  · rw [if_pos hc]
    obtain ⟨hal, h8, hfr⟩ := hb t a.held n
    refine ⟨_, _, rfl, ?_, ?_, hal⟩
    · have hmono : ∀ x, InUse a x → InUse { a with bigs := a.bigs ++ [(base t a.held n, n)] } x := by
        rintro x (hx | ⟨b, hbm, hx⟩)
        · exact Or.inl hx
        · exact Or.inr ⟨b, List.mem_append_left _ hbm, hx⟩
      refine ⟨h.curFin, h.used, ?_, ?_, ?_, h.start, ?_, h.pages⟩
      · have hp := h.held
        simp only [Arena.held] at hp hfr ⊢
        rw [← List.append_assoc, List.pairwise_append]
        refine ⟨hp, List.pairwise_singleton _ _, ?_⟩
        intro b hbm c hcm x h1 h2
        simp only [List.mem_singleton] at hcm
        subst hcm
        exact hfr b hbm x h1 h2
      · rintro x (hx | hx)
        · exact hmono x (h.live x hx)
        · exact Or.inr ⟨_, List.mem_append_right _ (List.mem_singleton.2 rfl), hx⟩
      · intro x h1 h2
        obtain ⟨hin, hnp⟩ := h.free x h1 h2
        refine ⟨hmono x hin, ?_⟩
        rintro (hx | hx)
        · exact hnp hx
        · obtain ⟨b, hbm, hbx⟩ := inUse_held hin
          exact hfr b hbm x hbx hx
      · intro b hbm hpos
        simp only [List.mem_append, List.mem_singleton] at hbm
        rcases hbm with hbm | rfl
        · exact h.bigs b hbm hpos
        · exact h8 hpos
    · intro x hx hin
      obtain ⟨b, hbm, hbx⟩ := inUse_held hin
      exact hfr b hbm x hbx hx
  · rw [if_neg hc]
    obtain ⟨c, hn, hinv, hnew, hal, hfin, hu⟩ := nextPage_given hb t h
    rw [hn]
    have hle : n ≤ a.pageSize := by
      by_contra hcon
      exact hc (Or.inl (by omega))
    refine ⟨_, _, rfl, ?_, ?_, hal⟩
    · refine ⟨by simp only; omega, hinv.used, hinv.held, ?_, ?_, fun hz => absurd hz hu, hinv.bigs, hinv.pages⟩
      · rintro x (hx | hx)
        · exact hinv.live x hx
        · have := hx.1
          have := hx.2
          simp only at *
          exact (hinv.free x (by omega) (by omega)).1
      · intro x h1 h2
        simp only at h1 h2
        obtain ⟨hin, hnp⟩ := hinv.free x (by omega) h2
        refine ⟨hin, ?_⟩
        rintro (hx | hx)
        · exact hnp hx
        · have := hx.2
          simp only at this
          omega
    · intro x hx
      have := hx.1
      have := hx.2
      simp only at *
      exact hnew x (by omega) (by omega)

theorem create_given {base : Nat → List Block → Nat → Nat} (hb : BaseOk base) (t : Nat) {a : Arena} {P : Nat → Prop}
    (h : AInv a P) (n : Nat) : ∃ c q, createRawBuffer (base t) a n = some (c, q) ∧ AInv c (fun x => P x ∨ Has (q, n) x) ∧
      (∀ x, Has (q, n) x → ¬ P x) ∧ q % 8 = 0 := by
  unfold createRawBuffer
  dsimp only
  by_cases hc : (a.cur + 7) / 8 * 8 + n > a.fin
  · rw [if_pos hc]
    obtain ⟨c, q, he, hg⟩ := slowAlloc_given hb t h n
    exact ⟨c, q, he, hg.inv, fun x hx hp => hg.fresh x hx (h.live x hp), hg.aligned⟩
  · rw [if_neg hc]
    have hge : a.cur ≤ (a.cur + 7) / 8 * 8 := by omega
    refine ⟨_, _, rfl, ?_, ?_, by omega⟩
    · refine ⟨by simp only; omega, h.used, h.held, ?_, ?_, ?_, h.bigs, h.pages⟩
      · rintro x (hx | ⟨h1, h2⟩)
        · exact h.live x hx
        · simp only at h1 h2
          exact (h.free x (by omega) (by omega)).1
      · intro x h1 h2
        simp only at h1 h2
        obtain ⟨hi, hp⟩ := h.free x (by omega) h2
        refine ⟨hi, ?_⟩
        rintro (hx | ⟨_, h4⟩)
        · exact hp hx
        · simp only at h4
          omega
      · intro hz
        obtain ⟨h1, h2⟩ := h.start hz
        simp only
        omega
    · rintro x ⟨h1, h2⟩
      simp only at h1 h2
      exact (h.free x (by omega) (by omega)).2

/-- With no pages the current position cannot be the end of a buffer that is not empty. -/
theorem start_data {a : Arena} {P : Nat → Prop} (h : AInv a P) {data old : Nat} (hl : ∀ x, Has (data, old) x → InUse a x)
    (he : data + old = a.cur) (hz : a.used = 0) : data = 8 ∧ old = 0 := by
  obtain ⟨h1, h2⟩ := h.start hz
  by_cases ho : old = 0
  · omega
  · exfalso
    rcases hl data ⟨Nat.le_refl _, by simp only; omega⟩ with ⟨q, hq, _⟩ | ⟨b, hbm, hx1, hx2⟩
    · rw [hz] at hq
      simp at hq
    · have := h.bigs b hbm (by omega)
      omega

theorem realloc_given {base : Nat → List Block → Nat → Nat} (hb : BaseOk base) (t : Nat) {a : Arena} {P : Nat → Prop}
    {data old : Nat} (h : AInv a (fun x => P x ∨ Has (data, old) x)) (hd : ∀ x, Has (data, old) x → ¬ P x) (hal : data % 8 = 0)
    (mem : Nat → Nat) (n : Nat) :
    ∃ c mem' q, reallocRawBuffer (base t) a mem data old n = some (c, mem', q) ∧ AInv c (fun x => P x ∨ Has (q, n) x) ∧
      (∀ x, Has (q, n) x → ¬ P x) ∧ q % 8 = 0 ∧ (∀ x, P x → mem' x = mem x) ∧
      ∀ j, j < min old n → mem' (q + j) = mem (data + j) := by
  have hl : ∀ x, Has (data, old) x → InUse a x := fun x hx => h.live x (Or.inr hx)
  unfold reallocRawBuffer
  by_cases hc : data + old ≠ a.cur ∨ data + n > a.fin
  · rw [if_pos hc]
    by_cases hs : old ≥ n
    · rw [if_pos hs]
      have hsub : ∀ x, Has (data, n) x → Has (data, old) x := fun x hx => ⟨hx.1, by have := hx.2; simp only at *; omega⟩
      exact ⟨a, mem, data, rfl, h.mono fun x hx => hx.imp id (hsub x), fun x hx => hd x (hsub x hx), hal, fun _ _ => rfl, fun _ _ => rfl⟩
    · rw [if_neg hs]
      dsimp only
      have hbinv : AInv (if data + old = a.cur then { a with cur := data } else a) P ∧
          ∀ x, InUse (if data + old = a.cur then { a with cur := data } else a) x ↔ InUse a x := by
        by_cases he : data + old = a.cur
        · rw [if_pos he]
          refine ⟨⟨?_, h.used, h.held, fun x hx => h.live x (Or.inl hx), ?_, ?_, h.bigs, h.pages⟩, fun x => Iff.rfl⟩
          · have := h.curFin
            simp only
            omega
          · intro x h1 h2
            simp only at h1 h2
            by_cases hx : x < a.cur
            · have hh : Has (data, old) x := ⟨h1, by simp only; omega⟩
              exact ⟨hl x hh, hd x hh⟩
            · obtain ⟨hi, hp⟩ := h.free x (by omega) h2
              exact ⟨hi, fun hx => hp (Or.inl hx)⟩
          · intro hz
            obtain ⟨h1, _⟩ := start_data h hl he hz
            exact ⟨h1, (h.start hz).2⟩
        · rw [if_neg he]
          exact ⟨h.mono fun x hx => Or.inl hx, fun x => Iff.rfl⟩
      obtain ⟨c, q, hsa, hg⟩ := slowAlloc_given hb t hbinv.1 n
      rw [hsa]
      have hfr : ∀ x, Has (q, n) x → ¬ InUse a x := fun x hx hi => hg.fresh x hx ((hbinv.2 x).2 hi)
      have hmin : min old n = old := Nat.min_eq_left (by omega)
      have hcpy : memcpy mem q data (min old n) =
          some (fun x => if q ≤ x ∧ x < q + min old n then mem (data + (x - q)) else mem x) := by
        unfold memcpy
        refine if_pos ?_
        by_contra hcon
        rw [hmin] at hcon
        have h1 : Has (q, n) (max q data) := ⟨Nat.le_max_left _ _, by simp only; omega⟩
        have h2 : Has (data, old) (max q data) := ⟨Nat.le_max_right _ _, by simp only; omega⟩
        exact hfr _ h1 (hl _ h2)
      dsimp only
      rw [hcpy]
      refine ⟨c, _, q, rfl, hg.inv, fun x hx hp => hfr x hx (h.live x (Or.inl hp)), hg.aligned, ?_, ?_⟩
      · intro x hx
        refine if_neg fun hcon => ?_
        exact hfr x ⟨hcon.1, by have := hcon.2; simp only; omega⟩ (h.live x (Or.inl hx))
      · intro j hj
        rw [if_pos ⟨by omega, by omega⟩]
        congr 1
        omega
  · rw [if_neg hc]
    have he : data + old = a.cur := by
      by_contra hcon
      exact hc (Or.inl hcon)
    have hf : data + n ≤ a.fin := by
      by_contra hcon
      exact hc (Or.inr (by omega))
    have hany : ∀ x, data ≤ x → x < a.fin → InUse a x ∧ ¬ P x := by
      intro x h1 h2
      by_cases hx : x < a.cur
      · have hh : Has (data, old) x := ⟨h1, by simp only; omega⟩
        exact ⟨hl x hh, hd x hh⟩
      · obtain ⟨hi, hp⟩ := h.free x (by omega) h2
        exact ⟨hi, fun hx => hp (Or.inl hx)⟩
    refine ⟨_, mem, data, rfl, ?_, ?_, hal, fun _ _ => rfl, fun _ _ => rfl⟩
    · refine ⟨hf, h.used, h.held, ?_, ?_, ?_, h.bigs, h.pages⟩
      · rintro x (hx | ⟨h1, h2⟩)
        · exact h.live x (Or.inl hx)
        · simp only at h1 h2
          exact (hany x h1 (by omega)).1
      · intro x h1 h2
        simp only at h1 h2
        obtain ⟨hi, hp⟩ := hany x (by omega) h2
        refine ⟨hi, ?_⟩
        rintro (hx | ⟨_, h4⟩)
        · exact hp hx
        · simp only at h4
          omega
      · intro hz
        obtain ⟨h1, _⟩ := start_data h hl he hz
        have := (h.start hz).2
        simp only
        omega
    · rintro x ⟨h1, h2⟩
      simp only at h1 h2
      exact (hany x h1 (by omega)).2

/-! ## The client -/

/-- The bytes of the buffers. -/
def Live (bufs : List Block) (x : Nat) : Prop := ∃ (i : Nat) (b : Block), bufs[i]? = some b ∧ Has b x

/-- The bytes of the buffers other than `i`. -/
def Others (bufs : List Block) (i x : Nat) : Prop := ∃ (k : Nat) (b : Block), k ≠ i ∧ bufs[k]? = some b ∧ Has b x

structure WInv (w : World) : Prop where
  inv : AInv w.arena (Live w.bufs)
  disj : Disjoint w.bufs
  aligned : ∀ b ∈ w.bufs, b.1 % 8 = 0

theorem disjoint_append {bufs : List Block} (h : Disjoint bufs) {b : Block} (hb : ∀ x, Has b x → ¬ Live bufs x) :
    Disjoint (bufs ++ [b]) := by
  intro i j c d x hij hc hd h1 h2
  rw [List.getElem?_append] at hc hd
  by_cases hi : i < bufs.length
  · rw [if_pos hi] at hc
    by_cases hj : j < bufs.length
    · rw [if_pos hj] at hd
      exact h i j c d x hij hc hd h1 h2
    · rw [if_neg hj] at hd
      have hdb : d = b := by
        have := List.mem_of_getElem? hd
        simpa using this
      exact hb x (hdb ▸ h2) ⟨i, c, hc, h1⟩
  · rw [if_neg hi] at hc
    have hcb : c = b := by
      have := List.mem_of_getElem? hc
      simpa using this
    by_cases hj : j < bufs.length
    · rw [if_pos hj] at hd
      exact hb x (hcb ▸ h1) ⟨j, d, hd, h2⟩
    · rw [if_neg hj] at hd
      have h3 := (List.getElem?_eq_some_iff.1 hc).1
      have h4 := (List.getElem?_eq_some_iff.1 hd).1
      simp only [List.length_singleton] at h3 h4
      omega

theorem disjoint_set {bufs : List Block} (h : Disjoint bufs) {i : Nat} {b : Block} (hb : ∀ x, Has b x → ¬ Others bufs i x) :
    Disjoint (bufs.set i b) := by
  intro k j c d x hkj hc hd h1 h2
  rw [List.getElem?_set] at hc hd
  by_cases hi : i = k
  · subst hi
    rw [if_neg hkj] at hd
    rw [if_pos rfl] at hc
    split at hc
    · cases hc
      exact hb x h1 ⟨j, d, fun e => hkj e.symm, hd, h2⟩
    · cases hc
  · rw [if_neg hi] at hc
    by_cases hj : i = j
    · subst hj
      rw [if_pos rfl] at hd
      split at hd
      · cases hd
        exact hb x h2 ⟨k, c, hkj, hc, h1⟩
      · cases hd
    · rw [if_neg hj] at hd
      exact h k j c d x hkj hc hd h1 h2

theorem live_append {bufs : List Block} {b : Block} {x : Nat} (h : Live (bufs ++ [b]) x) : Live bufs x ∨ Has b x := by
  obtain ⟨i, c, hc, hx⟩ := h
  rcases List.mem_append.1 (List.mem_of_getElem? hc) with hm | hm
  · obtain ⟨k, hk⟩ := List.getElem?_of_mem hm
    exact Or.inl ⟨k, c, hk, hx⟩
  · simp only [List.mem_singleton] at hm
    exact Or.inr (hm ▸ hx)

theorem live_set {bufs : List Block} {i : Nat} {b : Block} {x : Nat} (h : Live (bufs.set i b) x) : Others bufs i x ∨ Has b x := by
  obtain ⟨k, c, hc, hx⟩ := h
  rw [List.getElem?_set] at hc
  by_cases hi : i = k
  · rw [if_pos hi] at hc
    split at hc
    · cases hc
      exact Or.inr hx
    · cases hc
  · rw [if_neg hi] at hc
    exact Or.inl ⟨k, c, fun e => hi e.symm, hc, hx⟩

theorem live_split {bufs : List Block} {i : Nat} {b : Block} (hi : bufs[i]? = some b) {x : Nat} (h : Others bufs i x ∨ Has b x) :
    Live bufs x := by
  rcases h with ⟨k, c, _, hc, hx⟩ | hx
  · exact ⟨k, c, hc, hx⟩
  · exact ⟨i, b, hi, hx⟩

/-! ### Contents -/

theorem holds_append {mem : Nat → Nat} {bufs : List Block} {s : Ideal} (h : Holds mem bufs s) (q n : Nat) :
    Holds mem (bufs ++ [(q, n)]) (s ++ [List.replicate n none]) := by
  refine ⟨by simp [h.1], ?_⟩
  intro i data m hi
  rw [List.getElem?_append] at hi
  by_cases hl : i < bufs.length
  · rw [if_pos hl] at hi
    obtain ⟨b, hb, hr⟩ := h.2 i data m hi
    exact ⟨b, by rw [List.getElem?_append, if_pos (by rw [← h.1]; exact hl)]; exact hb, hr⟩
  · rw [if_neg hl] at hi
    have h3 := (List.getElem?_eq_some_iff.1 hi).1
    simp only [List.length_singleton] at h3
    have hi0 : i = bufs.length := by omega
    subst hi0
    simp only [Nat.sub_self, List.getElem?_cons_zero, Option.some.injEq, Prod.mk.injEq] at hi
    refine ⟨List.replicate n none, by rw [h.1]; simp, by simp [hi.2], ?_⟩
    intro j v hj
    rw [List.getElem?_replicate] at hj
    split at hj <;> simp at hj

theorem holds_set {mem mem' : Nat → Nat} {bufs : List Block} {s : Ideal} (h : Holds mem bufs s) {i data old : Nat}
    (hi : bufs[i]? = some (data, old)) {b : List (Option Nat)} (hs : s[i]? = some b) (q n : Nat)
    (ho : ∀ x, Others bufs i x → mem' x = mem x) (hk : ∀ j, j < min old n → mem' (q + j) = mem (data + j)) :
    Holds mem' (bufs.set i (q, n)) (s.set i (b.take n ++ List.replicate (n - b.length) none)) := by
  obtain ⟨b', hb', hlen, hv⟩ := h.2 i data old hi
  rw [hs] at hb'
  cases hb'
  refine ⟨by simp [h.1], ?_⟩
  intro k d m hkm
  rw [List.getElem?_set] at hkm
  by_cases hik : i = k
  · subst hik
    have hlt := (List.getElem?_eq_some_iff.1 hs).1
    rw [if_pos rfl] at hkm
    split at hkm
    · cases hkm
      refine ⟨b.take n ++ List.replicate (n - b.length) none, by rw [List.getElem?_set, if_pos rfl, if_pos hlt], by simp; omega, ?_⟩
      intro j v hj
      rw [List.getElem?_append] at hj
      split at hj
      · rename_i hjl
        rw [List.getElem?_take] at hj
        simp only [List.length_take] at hjl
        rw [if_pos (by omega)] at hj
        rw [hk j (by omega)]
        exact hv j v hj
      · rw [List.getElem?_replicate] at hj
        split at hj <;> simp at hj
    · cases hkm
  · rw [if_neg hik] at hkm
    obtain ⟨c, hc, hcl, hcv⟩ := h.2 k d m hkm
    refine ⟨c, by rw [List.getElem?_set, if_neg hik]; exact hc, hcl, ?_⟩
    intro j v hj
    have hjl := (List.getElem?_eq_some_iff.1 hj).1
    rw [ho (d + j) ⟨k, (d, m), fun e => hik e.symm, hkm, Nat.le_add_right _ _, by simp only; omega⟩]
    exact hcv j v hj

theorem holds_write {mem : Nat → Nat} {bufs : List Block} {s : Ideal} (h : Holds mem bufs s) (hd : Disjoint bufs) {i data old : Nat}
    (hi : bufs[i]? = some (data, old)) {b : List (Option Nat)} (hs : s[i]? = some b) {j : Nat} (hj : j < b.length) (v : Nat) :
    Holds (fun x => if x = data + j then v else mem x) bufs (s.set i (b.set j (some v))) := by
  obtain ⟨b', hb', hlen, hv⟩ := h.2 i data old hi
  rw [hs] at hb'
  cases hb'
  refine ⟨by simp [h.1], ?_⟩
  intro k d m hkm
  by_cases hik : i = k
  · subst hik
    rw [hi] at hkm
    cases hkm
    have hlt := (List.getElem?_eq_some_iff.1 hs).1
    refine ⟨b.set j (some v), by rw [List.getElem?_set, if_pos rfl, if_pos hlt], by simp [hlen], ?_⟩
    intro j' v' hj'
    rw [List.getElem?_set] at hj'
    by_cases hjj : j = j'
    · subst hjj
      rw [if_pos rfl, if_pos hj] at hj'
      simp at hj'
      simp [hj']
    · rw [if_neg hjj] at hj'
      dsimp only
      rw [if_neg (by omega)]
      exact hv j' v' hj'
  · obtain ⟨c, hc, hcl, hcv⟩ := h.2 k d m hkm
    refine ⟨c, by rw [List.getElem?_set, if_neg hik]; exact hc, hcl, ?_⟩
    intro j' v' hj'
    have hjl := (List.getElem?_eq_some_iff.1 hj').1
    dsimp only
    rw [if_neg]
    · exact hcv j' v' hj'
    · intro e
      refine hd i k (data, old) (d, m) (d + j') hik hi hkm ⟨?_, ?_⟩ ⟨Nat.le_add_right _ _, ?_⟩
      · simp only; omega
      · simp only; omega
      · simp only; omega

/-! ### Steps -/

theorem step_ok {base : Nat → List Block → Nat → Nat} (hb : BaseOk base) (t : Nat) {w : World} {s s' : Ideal} (hw : WInv w)
    (hh : Holds w.mem w.bufs s) {op : Op} (hs : idealStep s op = some s') :
    ∃ w', step (base t) w op = some w' ∧ WInv w' ∧ Holds w'.mem w'.bufs s' := by
  cases op with
  | create n =>
    simp only [idealStep, Option.some.injEq] at hs
    subst hs
    obtain ⟨c, q, he, hinv, hfr, hal⟩ := create_given hb t hw.inv n
    simp only [step, he]
    refine ⟨_, rfl, ⟨hinv.mono fun x hx => live_append hx, disjoint_append hw.disj hfr, ?_⟩, holds_append hh q n⟩
    intro b hbm
    rcases List.mem_append.1 hbm with hbm | hbm
    · exact hw.aligned b hbm
    · simp only [List.mem_singleton] at hbm
      subst hbm
      exact hal
  | realloc i n =>
    simp only [idealStep] at hs
    cases hsi : s[i]? with
    | none => simp [hsi] at hs
    | some b =>
      simp only [hsi, Option.some.injEq] at hs
      subst hs
      have hlt : i < w.bufs.length := by
        rw [hh.1]
        exact (List.getElem?_eq_some_iff.1 hsi).1
      obtain ⟨data, old, hi⟩ : ∃ data old, w.bufs[i]? = some (data, old) :=
        ⟨_, _, List.getElem?_eq_getElem hlt⟩
      have hd : ∀ x, Has (data, old) x → ¬ Others w.bufs i x := by
        rintro x hx ⟨k, c, hki, hc, hcx⟩
        exact hw.disj i k _ c x (fun e => hki e.symm) hi hc hx hcx
      obtain ⟨c, mem', q, he, hinv, hfr, hal, ho, hk⟩ := realloc_given hb t (P := Others w.bufs i)
        (hw.inv.mono fun x hx => live_split hi hx) hd (hw.aligned _ (List.mem_of_getElem? hi)) w.mem n
      simp only [step, hi, he]
      refine ⟨_, rfl, ⟨hinv.mono fun x hx => live_set hx, disjoint_set hw.disj hfr, ?_⟩, holds_set hh hi hsi q n ho hk⟩
      intro b' hbm
      rcases List.mem_or_eq_of_mem_set hbm with hbm | hbm
      · exact hw.aligned b' hbm
      · subst hbm
        exact hal
  | write i j v =>
    simp only [idealStep] at hs
    cases hsi : s[i]? with
    | none => simp [hsi] at hs
    | some b =>
      simp only [hsi] at hs
      split at hs
      · rename_i hj
        cases hs
        have hlt : i < w.bufs.length := by
          rw [hh.1]
          exact (List.getElem?_eq_some_iff.1 hsi).1
        obtain ⟨data, old, hi⟩ : ∃ data old, w.bufs[i]? = some (data, old) :=
          ⟨_, _, List.getElem?_eq_getElem hlt⟩
        simp only [step, hi]
        exact ⟨_, rfl, ⟨hw.inv, hw.disj, hw.aligned⟩, holds_write hh hw.disj hi hsi hj v⟩
      · cases hs
  | reset =>
    simp only [idealStep, Option.some.injEq] at hs
    subst hs
    have hlive : ∀ x, ¬ Live [] x := by
      rintro x ⟨i, b, hi, _⟩
      simp at hi
    have hnil : Holds w.mem [] [] := ⟨rfl, fun i d n hi => by simp at hi⟩
    have hdn : Disjoint [] := fun i j b c x _ hi => by simp at hi
    have hheld : (w.arena.pages.map (·, w.arena.pageSize)).Pairwise fun b c => ∀ x, Has b x → ¬ Has c x := by
      have := hw.inv.held
      simp only [Arena.held] at this
      exact (List.pairwise_append.1 this).1
    simp only [step, Verif.Arena.reset]
    by_cases hu : w.arena.used ≥ 1
    · rw [if_pos hu]
      have hlt : 0 < w.arena.pages.length := by have := hw.inv.used; omega
      have hg : w.arena.pages[0]? = some w.arena.pages[0] := List.getElem?_eq_getElem hlt
      rw [hg]
      refine ⟨_, rfl, ⟨⟨Nat.le_add_right _ _, hlt, ?_, fun x hx => (hlive x hx).elim, ?_, fun hz => absurd hz (by simp), by simp,
        hw.inv.pages⟩, hdn, by simp⟩, hnil⟩
      · simp only [Arena.held, List.append_nil]
        exact hheld
      · intro x h1 h2
        exact ⟨Or.inl ⟨w.arena.pages[0], List.mem_take_iff_getElem.2 ⟨0, by simp only; omega, rfl⟩, h1, h2⟩, hlive x⟩
    · rw [if_neg hu]
      refine ⟨_, rfl, ⟨⟨hw.inv.curFin, hw.inv.used, ?_, fun x hx => (hlive x hx).elim, ?_, hw.inv.start, by simp, hw.inv.pages⟩, hdn,
        by simp⟩, hnil⟩
      · simp only [Arena.held, List.append_nil]
        exact hheld
      · intro x h1 h2
        have := hw.inv.start (by omega)
        simp only at h1 h2
        omega

theorem run_ok {base : Nat → List Block → Nat → Nat} (hb : BaseOk base) : ∀ (ops : List Op) (t : Nat) {w : World} {s s' : Ideal},
    WInv w → Holds w.mem w.bufs s → idealRun s ops = some s' →
    ∃ w', run base t w ops = some w' ∧ WInv w' ∧ Holds w'.mem w'.bufs s'
  | [], _, w, _, _, hw, hh, hr => by
    simp only [idealRun, Option.some.injEq] at hr
    subst hr
    exact ⟨w, rfl, hw, hh⟩
  | op :: ops, t, w, s, s', hw, hh, hr => by
    simp only [idealRun] at hr
    cases hs : idealStep s op with
    | none => simp [hs] at hr
    | some s1 =>
      simp only [hs] at hr
      obtain ⟨w1, he, hw1, hh1⟩ := step_ok hb t hw hh hs
      obtain ⟨w2, hr2, hw2, hh2⟩ := run_ok hb ops (t + 1) hw1 hh1 hr
      exact ⟨w2, by simp only [run, he, hr2], hw2, hh2⟩

/-! ### The heap factory -/

structure HInv (held bufs : List Block) : Prop where
  disj : Disjoint bufs
  held : ∀ b ∈ bufs, 0 < b.2 → b ∈ held

theorem heapStep_ok {heap : Nat → List Block → Nat → Nat} (hb : BaseOk heap) (t : Nat) {held bufs : List Block} {mem : Nat → Nat}
    {s s' : Ideal} (hw : HInv held bufs) (hh : Holds mem bufs s) {op : Op} (hs : idealStep s op = some s') :
    ∃ held' mem' bufs', heapStep (heap t) held mem bufs op = some (held', mem', bufs') ∧ HInv held' bufs' ∧ Holds mem' bufs' s' := by
  have hempty : ∀ q x, ¬ Has (q, 0) x := fun q x hx => by
    have h1 := hx.1
    have h2 := hx.2
    simp only at h1 h2
    omega
  have hheld : ∀ x, Live bufs x → ∃ b ∈ held, Has b x := by
    rintro x ⟨i, b, hi, hx⟩
    refine ⟨b, hw.held b (List.mem_of_getElem? hi) ?_, hx⟩
    have h1 := hx.1
    have h2 := hx.2
    omega
  cases op with
  | create n =>
    simp only [idealStep, Option.some.injEq] at hs
    subst hs
    simp only [heapStep, heapCreate]
    by_cases hn : n = 0
    · rw [if_pos hn]
      subst hn
      refine ⟨_, _, _, rfl, ⟨disjoint_append hw.disj fun x hx => (hempty _ x hx).elim, ?_⟩, holds_append hh 0 0⟩
      intro b hbm hpos
      rcases List.mem_append.1 hbm with hbm | hbm
      · exact hw.held b hbm hpos
      · simp only [List.mem_singleton] at hbm
        subst hbm
        simp at hpos
    · rw [if_neg hn]
      refine ⟨_, _, _, rfl, ⟨disjoint_append hw.disj ?_, ?_⟩, holds_append hh _ n⟩
      · intro x hx hl
        obtain ⟨b, hbm, hbx⟩ := hheld x hl
        exact (hb t held n).2.2 b hbm x hbx hx
      · intro b hbm hpos
        rcases List.mem_append.1 hbm with hbm | hbm
        · exact List.mem_append_left _ (hw.held b hbm hpos)
        · exact List.mem_append_right _ hbm
  | realloc i n =>
    simp only [idealStep] at hs
    cases hsi : s[i]? with
    | none => simp [hsi] at hs
    | some b =>
      simp only [hsi, Option.some.injEq] at hs
      subst hs
      have hlt : i < bufs.length := by
        rw [hh.1]
        exact (List.getElem?_eq_some_iff.1 hsi).1
      obtain ⟨data, old, hi⟩ : ∃ data old, bufs[i]? = some (data, old) := ⟨_, _, List.getElem?_eq_getElem hlt⟩
      have hother : ∀ x, Others bufs i x → Live bufs x := fun x hx => live_split hi (Or.inl hx)
      have herase : ∀ q m, ∀ c ∈ bufs.set i (q, m), 0 < c.2 → c ∈ held.erase (data, old) ∨ c = (q, m) := by
        intro q m c hc hpos
        obtain ⟨k, hk⟩ := List.getElem?_of_mem hc
        rw [List.getElem?_set] at hk
        by_cases hik : i = k
        · rw [if_pos hik, if_pos hlt] at hk
          cases hk
          exact Or.inr rfl
        · rw [if_neg hik] at hk
          have hne : c ≠ (data, old) := by
            rintro rfl
            exact hw.disj i k _ _ data hik hi hk ⟨Nat.le_refl _, by simp only at *; omega⟩ ⟨Nat.le_refl _, by simp only at *; omega⟩
          exact Or.inl ((List.mem_erase_of_ne hne).2 (hw.held c (List.mem_of_getElem? hk) hpos))
      simp only [heapStep, hi, heapRealloc]
      by_cases hn : n = 0
      · rw [if_pos hn]
        subst hn
        refine ⟨_, _, _, rfl, ⟨disjoint_set hw.disj fun x hx => (hempty _ x hx).elim, ?_⟩,
          holds_set hh hi hsi 0 0 (fun _ _ => rfl) (fun j hj => by omega)⟩
        intro c hc hpos
        rcases herase 0 0 c hc hpos with h | h
        · exact h
        · subst h
          simp at hpos
      · rw [if_neg hn]
        have hfr : ∀ x, Has (heap t held n, n) x → ¬ Live bufs x := by
          intro x hx hl
          obtain ⟨b, hbm, hbx⟩ := hheld x hl
          exact (hb t held n).2.2 b hbm x hbx hx
        by_cases ho : old = 0
        · rw [if_pos ho]
          simp only [heapCreate]
          rw [if_neg hn]
          refine ⟨_, _, _, rfl, ⟨disjoint_set hw.disj fun x hx hx' => hfr x hx (hother x hx'), ?_⟩,
            holds_set hh hi hsi _ n (fun _ _ => rfl) (fun j hj => by omega)⟩
          intro c hc hpos
          rcases herase _ _ c hc hpos with h | h
          · exact List.mem_append_left _ (List.mem_of_mem_erase h)
          · exact List.mem_append_right _ (List.mem_singleton.2 h)
        · rw [if_neg ho]
          have hcpy : memcpy mem (heap t held n) data (min old n) = some (fun x =>
              if heap t held n ≤ x ∧ x < heap t held n + min old n then mem (data + (x - heap t held n)) else mem x) := by
            unfold memcpy
            refine if_pos ?_
            by_contra hcon
            have h1 : Has (heap t held n, n) (max (heap t held n) data) := ⟨Nat.le_max_left _ _, by simp only; omega⟩
            have h2 : Has (data, old) (max (heap t held n) data) := ⟨Nat.le_max_right _ _, by simp only; omega⟩
            exact hfr _ h1 ⟨i, _, hi, h2⟩
          rw [hcpy]
          refine ⟨_, _, _, rfl, ⟨disjoint_set hw.disj fun x hx hx' => hfr x hx (hother x hx'), ?_⟩,
            holds_set hh hi hsi _ n ?_ ?_⟩
          · intro c hc hpos
            rcases herase _ _ c hc hpos with h | h
            · exact List.mem_append_left _ h
            · exact List.mem_append_right _ (List.mem_singleton.2 h)
          · intro x hx
            refine if_neg fun hcon => ?_
            exact hfr x ⟨hcon.1, by have := hcon.2; simp only; omega⟩ (hother x hx)
          · intro j hj
            rw [if_pos ⟨by omega, by omega⟩]
            congr 1
            omega
  | write i j v =>
    simp only [idealStep] at hs
    cases hsi : s[i]? with
    | none => simp [hsi] at hs
    | some b =>
      simp only [hsi] at hs
      split at hs
      · rename_i hj
        cases hs
        have hlt : i < bufs.length := by
          rw [hh.1]
          exact (List.getElem?_eq_some_iff.1 hsi).1
        obtain ⟨data, old, hi⟩ : ∃ data old, bufs[i]? = some (data, old) := ⟨_, _, List.getElem?_eq_getElem hlt⟩
        simp only [heapStep, hi]
        exact ⟨_, _, _, rfl, hw, holds_write hh hw.disj hi hsi hj v⟩
      · cases hs
  | reset =>
    simp only [idealStep, Option.some.injEq] at hs
    subst hs
    exact ⟨_, _, _, rfl, ⟨fun i j b c x _ hi => by simp at hi, by simp⟩, rfl, fun i d n hi => by simp at hi⟩

theorem heapRun_ok {heap : Nat → List Block → Nat → Nat} (hb : BaseOk heap) : ∀ (ops : List Op) (t : Nat) {held bufs : List Block}
    {mem : Nat → Nat} {s s' : Ideal}, HInv held bufs → Holds mem bufs s → idealRun s ops = some s' →
    ∃ held' mem' bufs', heapRun heap t (held, mem, bufs) ops = some (held', mem', bufs') ∧ HInv held' bufs' ∧ Holds mem' bufs' s'
  | [], _, held, bufs, mem, _, _, hw, hh, hr => by
    simp only [idealRun, Option.some.injEq] at hr
    subst hr
    exact ⟨held, mem, bufs, rfl, hw, hh⟩
  | op :: ops, t, held, bufs, mem, s, s', hw, hh, hr => by
    simp only [idealRun] at hr
    cases hs : idealStep s op with
    | none => simp [hs] at hr
    | some s1 =>
      simp only [hs] at hr
      obtain ⟨held1, mem1, bufs1, he, hw1, hh1⟩ := heapStep_ok hb t hw hh hs
      obtain ⟨held2, mem2, bufs2, hr2, hw2, hh2⟩ := heapRun_ok hb ops (t + 1) hw1 hh1 hr
      exact ⟨held2, mem2, bufs2, by simp only [heapRun, he, hr2], hw2, hh2⟩

theorem init_winv (ps : Nat) (mem : Nat → Nat) : WInv { arena := { pageSize := ps }, mem := mem, bufs := [] } where
  inv := (init_inv ps).mono fun x ⟨i, b, hi, _⟩ => by simp at hi
  disj := fun i j b c x _ hi => by simp at hi
  aligned := by simp

end Verif.Arena
