import Verif.Mem.ArenaLemmas

/-!
# C97: buffers of a factory are independent

For every page size, every base factory that gives fresh memory, every contents of the memory and every program of a client.
-/

namespace Verif.Arena

/-- Whatever the client does, a buffer of the arena holds what the client wrote into it, as if every buffer was an array of its own:
no operation is undefined, and no creation, resize, write or reset touches the bytes of another buffer. -/
theorem arena_buffers {base : Nat → List Block → Nat → Nat} (hb : BaseOk base) (pageSize : Nat) (mem : Nat → Nat) (ops : List Op)
    {s : Ideal} (hr : idealRun [] ops = some s) :
    ∃ w, run base 0 { arena := { pageSize := pageSize }, mem := mem, bufs := [] } ops = some w ∧ Holds w.mem w.bufs s := by
  obtain ⟨w, h1, _, h2⟩ := run_ok hb ops 0 (init_winv pageSize mem) ⟨rfl, fun i d n hi => by simp at hi⟩ hr
  exact ⟨w, h1, h2⟩

/-- The buffers do not overlap, their addresses are multiples of 8, and their bytes are in memory that the arena holds. -/
theorem arena_disjoint {base : Nat → List Block → Nat → Nat} (hb : BaseOk base) (pageSize : Nat) (mem : Nat → Nat) (ops : List Op)
    {s : Ideal} (hr : idealRun [] ops = some s) {w : World}
    (hw : run base 0 { arena := { pageSize := pageSize }, mem := mem, bufs := [] } ops = some w) :
    Disjoint w.bufs ∧ (∀ b ∈ w.bufs, b.1 % 8 = 0) ∧ ∀ b ∈ w.bufs, ∀ x, Has b x → ∃ c ∈ w.arena.held, Has c x := by
  obtain ⟨w', h1, h2, _⟩ := run_ok hb ops 0 (init_winv pageSize mem) ⟨rfl, fun i d n hi => by simp at hi⟩ hr
  rw [hw] at h1
  cases h1
  refine ⟨h2.disj, h2.aligned, ?_⟩
  intro b hbm x hx
  obtain ⟨i, hi⟩ := List.getElem?_of_mem hbm
  exact inUse_held (h2.inv.live x ⟨i, b, hi, hx⟩)

/-- A reset releases the big blocks and keeps the pages; a buffer that fits into a page then takes the first page and asks the base
factory for nothing. -/
theorem arena_reset_reuses {base : Nat → List Block → Nat → Nat} (hb : BaseOk base) (pageSize : Nat) (mem : Nat → Nat)
    (ops : List Op) {s : Ideal} (hr : idealRun [] ops = some s) {w : World}
    (hw : run base 0 { arena := { pageSize := pageSize }, mem := mem, bufs := [] } ops = some w) (hu : w.arena.used ≠ 0)
    (n : Nat) (hn : n ≤ w.arena.pageSize) :
    ∃ a page, reset w.arena = some a ∧ a.bigs = [] ∧ a.pages = w.arena.pages ∧ w.arena.pages[0]? = some page ∧
      ∀ other, createRawBuffer other a n = some ({ a with cur := page + n }, page) := by
  obtain ⟨w', h1, h2, _⟩ := run_ok hb ops 0 (init_winv pageSize mem) ⟨rfl, fun i d n hi => by simp at hi⟩ hr
  rw [hw] at h1
  cases h1
  have hlt : 0 < w.arena.pages.length := by have := h2.inv.used; omega
  have hg : w.arena.pages[0]? = some w.arena.pages[0] := List.getElem?_eq_getElem hlt
  have hal := h2.inv.pages _ (List.getElem_mem hlt)
  have hre : reset w.arena = some { w.arena with used := 1, cur := w.arena.pages[0], fin := w.arena.pages[0] + w.arena.pageSize, bigs := [] } := by
    unfold reset
    simp only [hg]
    exact if_pos (by omega)
  refine ⟨_, w.arena.pages[0], hre, rfl, rfl, hg, ?_⟩
  intro other
  have he : (w.arena.pages[0] + 7) / 8 * 8 = w.arena.pages[0] := by omega
  unfold createRawBuffer
  dsimp only
  rw [he, if_neg (by omega)]

/-- The heap factory has the same contract: the buffers do not overlap and hold what was written, also after resizing. -/
theorem heap_buffers {heap : Nat → List Block → Nat → Nat} (hb : BaseOk heap) (mem : Nat → Nat) (ops : List Op)
    {s : Ideal} (hr : idealRun [] ops = some s) :
    ∃ held mem' bufs, heapRun heap 0 ([], mem, []) ops = some (held, mem', bufs) ∧ Holds mem' bufs s ∧ Disjoint bufs ∧
      ∀ b ∈ bufs, 0 < b.2 → b ∈ held := by
  obtain ⟨held, mem', bufs, h1, h2, h3⟩ := heapRun_ok hb ops 0 (held := []) (bufs := []) (mem := mem) (s := [])
    ⟨fun i j b c x _ hi => by simp at hi, by simp⟩ ⟨rfl, fun i d n hi => by simp at hi⟩ hr
  exact ⟨held, mem', bufs, h1, h3, h2.disj, h2.held⟩

/-! ## A concrete case -/

/-- A base factory that puts a block after all blocks that are held. -/
def bump (_ : Nat) (held : List Block) (_ : Nat) : Nat :=
  held.foldr (fun b m => max m ((b.1 + b.2 + 7) / 8 * 8)) 16

theorem bump_ok : BaseOk bump := by
  intro t held n
  have hge : 16 ≤ bump t held n ∧ bump t held n % 8 = 0 ∧ ∀ b ∈ held, b.1 + b.2 ≤ bump t held n := by
    simp only [bump]
    induction held with
    | nil => simp
    | cons b l ih =>
      simp only [List.foldr_cons]
      refine ⟨by omega, ?_, ?_⟩
      · rcases Nat.le_total (l.foldr (fun b m => max m ((b.1 + b.2 + 7) / 8 * 8)) 16) ((b.1 + b.2 + 7) / 8 * 8) with h | h
        · rw [Nat.max_eq_right h]
          omega
        · rw [Nat.max_eq_left h]
          exact ih.2.1
      · intro c hc
        rcases List.mem_cons.1 hc with rfl | hc
        · omega
        · have := ih.2.2 c hc
          omega
  refine ⟨hge.2.1, fun _ => by omega, ?_⟩
  intro b hbm x hx hx'
  have h1 := hge.2.2 b hbm
  have h2 := hx.2
  have h3 := hx'.1
  simp only at h3
  omega

/-- Buffers of 5, 40 and 6 bytes with pages of 16 bytes; the first is resized to 20 bytes, so that it moves, and its old place is not
used by the third. -/
def demo : List Op :=
  [.create 5, .write 0 4 9, .create 40, .write 1 39 7, .create 6, .write 2 0 3, .realloc 0 20, .write 0 19 8, .realloc 2 8, .realloc 1 4]

example : ∃ s, idealRun [] demo = some s ∧ s.map List.length = [20, 4, 8] ∧ (s[0]?.bind (·[4]?)) = some (some 9) := ⟨_, rfl, rfl, rfl⟩

example : ∃ w, run bump 0 { arena := { pageSize := 16 }, mem := fun _ => 0, bufs := [] } demo = some w ∧
    w.bufs = [(72, 20), (32, 4), (24, 8)] ∧ w.mem (72 + 4) = 9 ∧ w.mem (24 + 0) = 3 := ⟨_, rfl, rfl, rfl, rfl⟩

/-- The last buffer is extended in place across the end of a big block into the page that follows it. -/
example : ∃ w, run (fun t h n => if t = 0 then 64 else if t = 2 then 24 else bump t h n) 0
      { arena := { pageSize := 16 }, mem := fun _ => 0, bufs := [] } [.create 8, .realloc 0 0, .create 40, .realloc 1 44] = some w ∧
    w.bufs = [(64, 0), (24, 44)] := ⟨_, rfl, rfl⟩

end Verif.Arena
