import Verif.EdgeOps.ExpandLemmas

/-! `edge.resize_groups_child_side` and `edge.resize_groups_parent_side`. -/

namespace Verif.EdgeOps
open Verif.Bits Verif.Bitmap Verif.Dense Verif.Edge

theorem take_sum_le : ∀ (ns : List Nat) (g n : Nat), ns[g]? = some n → (ns.take g).sum + n ≤ ns.sum := by
  intro ns
  induction ns with
  | nil => intro g n h; simp at h
  | cons a ns ih =>
    intro g n h
    cases g with
    | zero => simp at h; subst h; simp
    | succ g =>
      rw [List.getElem?_cons_succ] at h
      rw [List.take_succ_cons, List.sum_cons, List.sum_cons]
      have := ih g n h
      omega

theorem take_sum_succ {ns : List Nat} {g n : Nat} (h : ns[g]? = some n) :
    (ns.take (g + 1)).sum = (ns.take g).sum + n := by
  rw [List.take_add_one, h]; simp

/-- The groups and their new sizes. -/
structure Ctx (sp : List Int) (ns : List Nat) (getter : Nat → Option Int) : Prop where
  isSP : SP sp
  len : ns.length + 1 = sp.length
  get : ∀ (i n : Nat), ns[i]? = some n → getter i = some (n : Int)
  total : (ns.sum : Int) ≤ maxI64

/-- The state is at group `k`. -/
def At (ns : List Nat) (s : RS) (k : Nat) : Prop :=
  s.idx = k + 1 ∧ s.base = ((ns.take k).sum : Nat) ∧ ∃ n : Nat, ns[k]? = some n ∧ s.size = (n : Int)

theorem advance_spec {sp : List Int} {ns : List Nat} {getter : Nat → Option Int}
    (hc : Ctx sp ns getter) {old g : Nat} (hr : SRel sp old g) :
    ∀ (fuel : Nat) (s : RS) (k : Nat), At ns s k → k ≤ g → g - k < fuel →
    ∃ s', advance sp getter old fuel s = some s' ∧ At ns s' g ∧ s'.b = s.b ∧ s'.seen = s.seen ∧
      s'.neg = s.neg ∧ s'.dup = s.dup := by
  intro fuel
  induction fuel with
  | zero => intro s k _ _ h; omega
  | succ fuel ih =>
    intro s k hs hk hf
    obtain ⟨h1, h2, n, h3, h4⟩ := hs
    obtain ⟨x, y, r1, r2, r3, r4⟩ := hr
    have hgl := (List.getElem?_eq_some_iff.1 r2).1
    have hlen := hc.len
    obtain ⟨z, hz⟩ : ∃ z, sp[k + 1]? = some z := ⟨_, List.getElem?_eq_getElem (by omega)⟩
    rw [advance, h1, hz]
    simp only [Option.bind_eq_bind, Option.bind_some]
    by_cases hkg : k = g
    · subst hkg
      rw [r2] at hz
      simp only [Option.some.injEq] at hz
      subst hz
      rw [if_neg (by omega)]
      exact ⟨s, rfl, ⟨h1, h2, n, h3, h4⟩, rfl, rfl, rfl, rfl⟩
    · have hle : z ≤ x := hc.isSP.mono (by omega) hz r1
      rw [if_pos (by omega)]
      have hb := take_sum_le ns k n h3
      have hsum := hc.total
      obtain ⟨n', hn'⟩ : ∃ n', ns[k + 1]? = some n' := ⟨_, List.getElem?_eq_getElem (by omega)⟩
      rw [chk_ok (by omega) (by omega)]
      simp only [Option.bind_some]
      rw [hc.get _ _ hn']
      simp only [Option.bind_some]
      obtain ⟨s', e1, e2, e3, e4, e5, e6⟩ := ih
        { s with base := s.base + s.size, idx := k + 1 + 1, size := (n' : Int) } (k + 1)
        ⟨rfl, by dsimp only; rw [h2, h4, take_sum_succ h3]; push_cast; rfl, n', hn', rfl⟩ (by omega) (by omega)
      exact ⟨s', e1, e2, e3, e4, e5, e6⟩

/-- The call `x` sets position `new`. -/
def MovedTo (sp : List Int) (ns : List Nat) (x : Nat × Int) (new : Nat) : Prop :=
  ∃ g o n : Nat, SRel sp x.1 g ∧ x.2 = (o : Int) ∧ ns[g]? = some n ∧ o < n ∧
    new = (ns.take g).sum + o

/-- Invariant of the loop: `done` lists the calls processed. -/
structure RInv (sp : List Int) (ns : List Nat) (s : RS) (done : List (Nat × Int)) : Prop where
  neg : s.neg = true ↔ ∃ x ∈ done, x.2 < 0
  seenLen : s.seen.length = ns.sum
  seen : ∀ new, new < ns.sum → (s.seen[new]? = some true ↔ ∃ x ∈ done, MovedTo sp ns x new)
  nodup : s.dup = false → ∀ x ∈ done, ∀ y ∈ done, ∀ new, MovedTo sp ns x new → MovedTo sp ns y new → x = y
  dup : s.dup = true → ∃ x ∈ done, ∃ y ∈ done, ∃ new, x.1 ≠ y.1 ∧ MovedTo sp ns x new ∧ MovedTo sp ns y new
  build : ∃ f, DBInv ns.sum f s.b ∧
    (s.dup = false → ∀ x ∈ done, ∀ new, MovedTo sp ns x new → f new = some (x.1 : Int)) ∧
    ∀ new v, new < ns.sum → f new = some v → ∃ x ∈ done, MovedTo sp ns x new ∧ v = (x.1 : Int)

theorem movedTo_unique {sp : List Int} {ns : List Nat} (h : SP sp) {x : Nat × Int} {a b : Nat}
    (h1 : MovedTo sp ns x a) (h2 : MovedTo sp ns x b) : a = b := by
  obtain ⟨g, o, n, p1, p2, p3, p4, p5⟩ := h1
  obtain ⟨g', o', n', q1, q2, q3, q4, q5⟩ := h2
  have := srel_unique h p1 q1
  subst this
  omega

theorem movedTo_lt {sp : List Int} {ns : List Nat} {x : Nat × Int} {a : Nat}
    (h1 : MovedTo sp ns x a) : a < ns.sum := by
  obtain ⟨g, o, n, p1, p2, p3, p4, p5⟩ := h1
  have := take_sum_le ns g n p3
  omega

/-- A call that sets nothing keeps the invariant. -/
theorem rinv_skip {sp : List Int} {ns : List Nat} {s s' : RS} {done : List (Nat × Int)}
    (h : RInv sp ns s done) {x : Nat × Int} (hx : ∀ new, ¬ MovedTo sp ns x new)
    (hb : s'.b = s.b) (hs : s'.seen = s.seen) (hd : s'.dup = s.dup)
    (hn : s'.neg = true ↔ s.neg = true ∨ x.2 < 0) : RInv sp ns s' (done ++ [x]) := by
  obtain ⟨h1, h2, h3, h4, h5, f, h6, h7, h8⟩ := h
  refine ⟨?_, by rw [hs]; exact h2, ?_, ?_, ?_, f, by rw [hb]; exact h6, ?_, ?_⟩
  · rw [hn, h1]; simp [List.mem_append, or_and_right, exists_or]
  · intro new hnew
    rw [hs, h3 new hnew]
    constructor
    · rintro ⟨y, hy, hm⟩; exact ⟨y, by simp [hy], hm⟩
    · rintro ⟨y, hy, hm⟩
      rcases List.mem_append.1 hy with hy | hy
      · exact ⟨y, hy, hm⟩
      · rw [List.mem_singleton] at hy; subst hy; exact absurd hm (hx _)
  · intro hdup y hy z hz new hmy hmz
    rw [hd] at hdup
    rcases List.mem_append.1 hy with hy | hy
    · rcases List.mem_append.1 hz with hz | hz
      · exact h4 hdup y hy z hz new hmy hmz
      · rw [List.mem_singleton] at hz; subst hz; exact absurd hmz (hx _)
    · rw [List.mem_singleton] at hy; subst hy; exact absurd hmy (hx _)
  · intro hdup
    rw [hd] at hdup
    obtain ⟨y, hy, z, hz, new, hh⟩ := h5 hdup
    exact ⟨y, by simp [hy], z, by simp [hz], new, hh⟩
  · intro hdup y hy new hm
    rw [hd] at hdup
    rcases List.mem_append.1 hy with hy | hy
    · exact h7 hdup y hy new hm
    · rw [List.mem_singleton] at hy; subst hy; exact absurd hm (hx _)
  · intro new v hnew hf
    obtain ⟨y, hy, hh⟩ := h8 new v hnew hf
    exact ⟨y, by simp [hy], hh⟩

theorem resizeStep_spec {sp : List Int} {ns : List Nat} {getter : Nat → Option Int}
    (hc : Ctx sp ns getter) {s : RS} {done : List (Nat × Int)} {k : Nat} (hk : At ns s k)
    (hi : RInv sp ns s done) {x : Nat × Int} {g : Nat} (hr : SRel sp x.1 g) (hkg : k ≤ g)
    (hnew : ∀ y ∈ done, y.1 ≠ x.1) :
    ∃ s', resizeStep sp getter s x = some s' ∧ At ns s' g ∧ RInv sp ns s' (done ++ [x]) := by
  have hgl : g + 1 < sp.length := by
    obtain ⟨_, _, _, r2, _⟩ := hr
    exact (List.getElem?_eq_some_iff.1 r2).1
  obtain ⟨s1, e1, e2, e3, e4, e5, e6⟩ := advance_spec hc hr (sp.length + 1) s k hk hkg (by omega)
  unfold resizeStep
  rw [e1]
  simp only [Option.bind_eq_bind, Option.bind_some]
  by_cases hneg : x.2 < 0
  · rw [if_pos hneg]
    refine ⟨_, rfl, e2, rinv_skip hi ?_ e3 e4 e6 ?_⟩
    · rintro new ⟨_, o, _, _, h2, _⟩; omega
    · simp [hneg]
  · rw [if_neg hneg]
    obtain ⟨a1, a2, n, a3, a4⟩ := e2
    by_cases hsz : x.2 < s1.size
    · rw [if_pos hsz]
      obtain ⟨o, ho⟩ : ∃ o : Nat, x.2 = o := ⟨x.2.toNat, by omega⟩
      have hle := take_sum_le ns g n a3
      have hsum := hc.total
      have hbase : s1.base + x.2 = (((ns.take g).sum + o : Nat) : Int) := by
        rw [a2, ho]; push_cast; rfl
      rw [hbase, chk_ok (by omega) (by omega)]
      simp only [Option.bind_some]
      rw [if_neg (by omega), Int.toNat_natCast]
      generalize hnw : (ns.take g).sum + o = new
      have hmv : MovedTo sp ns x new := ⟨g, o, n, hr, ho, a3, by omega, hnw.symm⟩
      have hlt := movedTo_lt hmv
      have hun : ∀ new', MovedTo sp ns x new' → new' = new := fun new' h => movedTo_unique hc.isSP h hmv
      obtain ⟨h1, h2, h3, h4, h5, f, h6, h7, h8⟩ := hi
      obtain ⟨b', f1, f2⟩ := apply_inv h6 (.set new (some (x.1 : Int))) hlt
      have f1' : s1.b.set new (some (x.1 : Int)) = some b' := by rw [e3]; exact f1
      rw [f1', e4]
      simp only [Option.bind_some]
      have hbuild : ∀ d : Bool, (d = false → s.dup = false ∧ ¬ ∃ y ∈ done, MovedTo sp ns y new) →
          ∃ f, DBInv ns.sum f b' ∧
          (d = false → ∀ y ∈ done ++ [x], ∀ new', MovedTo sp ns y new' → f new' = some (y.1 : Int)) ∧
          ∀ new' v, new' < ns.sum → f new' = some v →
            ∃ y ∈ done ++ [x], MovedTo sp ns y new' ∧ v = (y.1 : Int) := by
        intro d hd
        refine ⟨_, f2, ?_, ?_⟩
        · intro hdf y hy new' hm
          obtain ⟨d1, d2⟩ := hd hdf
          unfold opEffect
          dsimp only
          rcases List.mem_append.1 hy with hy | hy
          · rw [if_neg]
            · exact h7 d1 y hy new' hm
            · rintro rfl; exact d2 ⟨y, hy, hm⟩
          · rw [List.mem_singleton] at hy
            subst hy
            rw [if_pos (hun _ hm)]
        · intro new' v hn' hf
          unfold opEffect at hf
          dsimp only at hf
          by_cases hnn : new' = new
          · rw [if_pos hnn] at hf
            simp only [Option.some.injEq] at hf
            exact ⟨x, by simp, hnn ▸ hmv, hf.symm⟩
          · rw [if_neg hnn] at hf
            obtain ⟨y, hy, hh⟩ := h8 new' v hn' hf
            exact ⟨y, by simp [hy], hh⟩
      have hnegc : s1.neg = true ↔ ∃ y ∈ done ++ [x], y.2 < 0 := by
        rw [e5, h1]
        simp [List.mem_append, or_and_right, exists_or, hneg]
      obtain ⟨sb, hsb⟩ : ∃ sb, s.seen[new]? = some sb := ⟨_, List.getElem?_eq_getElem (by omega)⟩
      rw [hsb]
      simp only [Option.bind_some]
      have hseen := h3 new hlt
      rw [hsb] at hseen
      simp only [Option.some.injEq] at hseen
      cases sb with
      | true =>
        simp only [if_true]
        obtain ⟨y, hy, hym⟩ := hseen.1 rfl
        refine ⟨_, rfl, ⟨a1, a2, n, a3, a4⟩, hnegc, h2, ?_, ?_, ?_, hbuild true (by simp)⟩
        · intro new' hn'
          dsimp only
          rw [h3 new' hn']
          constructor
          · rintro ⟨z, hz, hm⟩; exact ⟨z, by simp [hz], hm⟩
          · rintro ⟨z, hz, hm⟩
            rcases List.mem_append.1 hz with hz | hz
            · exact ⟨z, hz, hm⟩
            · rw [List.mem_singleton] at hz; subst hz
              rw [hun _ hm]
              exact ⟨y, hy, hym⟩
        · intro h; simp at h
        · intro _
          exact ⟨y, by simp [hy], x, by simp, new, hnew y hy, hym, hmv⟩
      | false =>
        simp only [Bool.false_eq_true, if_false]
        have hno : ¬ ∃ y ∈ done, MovedTo sp ns y new := by
          intro h; have := hseen.2 h; simp at this
        unfold wrV
        rw [if_pos (by omega)]
        simp only [Option.bind_some]
        refine ⟨_, rfl, ⟨a1, a2, n, a3, a4⟩, hnegc, by simpa using h2, ?_, ?_, ?_, hbuild s1.dup ?_⟩
        · intro new' hn'
          dsimp only
          rw [List.getElem?_set]
          by_cases hnn : new = new'
          · subst hnn
            rw [if_pos rfl, if_pos (by omega)]
            simp only [true_iff]
            exact ⟨x, by simp, hmv⟩
          · rw [if_neg hnn, h3 new' hn']
            constructor
            · rintro ⟨z, hz, hm⟩; exact ⟨z, by simp [hz], hm⟩
            · rintro ⟨z, hz, hm⟩
              rcases List.mem_append.1 hz with hz | hz
              · exact ⟨z, hz, hm⟩
              · rw [List.mem_singleton] at hz; subst hz
                exact absurd (hun _ hm).symm hnn
        · intro hd y hy z hz new' hmy hmz
          dsimp only at hd
          rw [e6] at hd
          rcases List.mem_append.1 hy with hy1 | hy1
          · rcases List.mem_append.1 hz with hz1 | hz1
            · exact h4 hd y hy1 z hz1 new' hmy hmz
            · rw [List.mem_singleton] at hz1; subst hz1
              rw [hun _ hmz] at hmy
              exact absurd ⟨y, hy1, hmy⟩ hno
          · rw [List.mem_singleton] at hy1; subst hy1
            rcases List.mem_append.1 hz with hz1 | hz1
            · rw [hun _ hmy] at hmz
              exact absurd ⟨z, hz1, hmz⟩ hno
            · rw [List.mem_singleton] at hz1; exact hz1.symm
        · intro hd
          dsimp only at hd
          rw [e6] at hd
          obtain ⟨y, hy, z, hz, w, hh⟩ := h5 hd
          exact ⟨y, by simp [hy], z, by simp [hz], w, hh⟩
        · intro hd
          rw [e6] at hd
          exact ⟨hd, hno⟩
    · rw [if_neg hsz]
      refine ⟨_, rfl, ⟨a1, a2, n, a3, a4⟩, rinv_skip hi ?_ e3 e4 e6 ?_⟩
      · rintro new ⟨g', o, n', p1, p2, p3, p4, _⟩
        have := srel_unique hc.isSP hr p1
        subst this
        rw [a3] at p3
        simp only [Option.some.injEq] at p3
        omega
      · rw [e5]; simp [hneg]

theorem resizeFold_spec {sp : List Int} {ns : List Nat} {getter : Nat → Option Int}
    (hc : Ctx sp ns getter) : ∀ (l done : List (Nat × Int)) (s : RS) (k : Nat), At ns s k →
    RInv sp ns s done → (∀ x ∈ l, ∃ g, SRel sp x.1 g ∧ k ≤ g) → l.Pairwise (fun a b => a.1 < b.1) →
    (∀ y ∈ done, ∀ x ∈ l, y.1 ≠ x.1) →
    ∃ s', l.foldlM (resizeStep sp getter) s = some s' ∧ RInv sp ns s' (done ++ l) := by
  intro l
  induction l with
  | nil => intro done s k _ hi _ _ _; exact ⟨s, rfl, by simpa using hi⟩
  | cons x l ih =>
    intro done s k hk hi hr hp hn
    rw [List.pairwise_cons] at hp
    obtain ⟨g, hg, hkg⟩ := hr x (by simp)
    obtain ⟨s1, e1, e2, e3⟩ := resizeStep_spec hc hk hi hg hkg (fun y hy => hn y hy x (by simp))
    rw [List.foldlM_cons, e1]
    simp only [Option.bind_eq_bind, Option.bind_some]
    obtain ⟨s2, f1, f2⟩ := ih (done ++ [x]) s1 g e2 e3 (by
      intro y hy
      obtain ⟨g', hg', _⟩ := hr y (by simp [hy])
      have := hp.1 y hy
      exact ⟨g', hg', srel_mono hc.isSP (by omega) hg hg'⟩) hp.2 (by
      intro y hy z hz
      rcases List.mem_append.1 hy with hy | hy
      · exact hn y hy z (by simp [hz])
      · rw [List.mem_singleton] at hy; subst hy
        have := hp.1 z hz
        omega)
    refine ⟨s2, f1, ?_⟩
    rw [List.append_assoc] at f2
    exact f2

theorem presentCalls {a : DArr Int} (hv : a.Valid) : ∃ l, a.forEachPresent = some l ∧
    l.Pairwise (fun x y => x.1 < y.1) ∧ ∀ i v, (i, v) ∈ l ↔ elem a i = some v := by
  refine ⟨_, for_each_present_visits a hv, ?_, ?_⟩
  · rw [List.pairwise_filterMap]
    apply List.Pairwise.imp _ List.pairwise_lt_range
    intro i j hij b hb b' hb'
    rw [Option.map_eq_some_iff] at hb hb'
    obtain ⟨_, _, rfl⟩ := hb
    obtain ⟨_, _, rfl⟩ := hb'
    exact hij
  · intro i v
    rw [List.mem_filterMap]
    constructor
    · rintro ⟨j, hj, h⟩
      have hj' : j < a.values.length := List.mem_range.1 hj
      rw [elems_get?, if_pos hj'] at h
      simp only [Option.join_some, Option.map_eq_some_iff, Prod.mk.injEq] at h
      obtain ⟨w, h1, rfl, rfl⟩ := h
      exact h1
    · intro h
      have hlt : i < a.values.length := by
        rw [elem_eq] at h
        split at h
        · exact (List.getElem?_eq_some_iff.1 h).1
        · simp at h
      refine ⟨i, List.mem_range.2 hlt, ?_⟩
      rw [elems_get?, if_pos hlt, h]
      rfl

/-- `FromSplitPoints` of `edge.resize_groups_child_side`. -/
theorem resizeChildCore_spec (mem : Nat → Int) {e : Edge} (hw : WF e) (ht : e.typ = .splitPoints)
    {ns : List Nat} {getter : Nat → Option Int} (hc : Ctx e.values.values ns getter)
    {offsets : DArr Int} (hv : offsets.Valid) (hs : (offsets.size : Int) = e.childSize) :
    (OffsetsOk e ns offsets → ∃ r, resizeChildCore mem e.values.values getter (ns.sum : Nat) offsets =
        some (.ok r) ∧ WF r ∧ r.parentSize = e.childSize ∧ r.childSize = (ns.sum : Nat) ∧
        ∀ new old, Rel r new old ↔ Moved e ns offsets new old) ∧
    (¬ OffsetsOk e ns offsets → ∃ m, resizeChildCore mem e.values.values getter (ns.sum : Nat) offsets =
        some (.error m)) := by
  obtain ⟨w1, w2, w3, w4, w5⟩ := (wf_split_iff ht).1 hw
  have hcs := (wf_sizes hw).2
  have hlen := hc.len
  unfold resizeChildCore
  rw [w5]
  simp only [Option.bind_eq_bind, Option.bind_some]
  rw [if_neg (by omega), Int.toNat_natCast]
  by_cases h2 : e.values.values.length < 2
  · rw [if_pos h2]
    have hns : ns = [] := by cases ns with | nil => rfl | cons a b => simp at hlen; omega
    have hnr : ∀ c p, ¬ Rel e c p := by
      intro c p hr
      rw [rel_split_iff ht w2] at hr
      obtain ⟨_, _, _, r2, _⟩ := hr
      have := (List.getElem?_eq_some_iff.1 r2).1
      omega
    have hch : e.childSize = 0 := by
      rw [List.getLast?_eq_getElem?, show e.values.values.length - 1 = 0 by omega, w3.zero] at w5
      simpa using w5.symm
    have hno : ∀ i, elem offsets i = none := by
      intro i
      have : offsets.values.length = 0 := by have : offsets.size = offsets.values.length := rfl; omega
      rw [elem_eq, List.getElem?_eq_none (by omega)]
      split <;> rfl
    have hok : OffsetsOk e ns offsets := by
      refine ⟨fun i v h => by rw [hno] at h; simp at h, ?_⟩
      rintro new old old' ⟨g, _, _, hr, _⟩
      exact absurd hr (hnr _ _)
    refine ⟨fun _ => ⟨_, rfl, ?_, hch.symm, by rw [hns]; rfl, ?_⟩, fun h => absurd hok h⟩
    · refine (wf_map_iff rfl).2 ⟨valid_nobitmap [], by decide, rfl, ?_⟩
      intro i v h
      dsimp only at h
      rw [elem_nobitmap] at h
      simp at h
    · intro new old
      constructor
      · intro h
        rw [rel_map_iff rfl] at h
        dsimp only at h
        rw [elem_nobitmap] at h
        simp at h
      · rintro ⟨g, _, _, hr, _⟩
        exact absurd hr (hnr _ _)
  · rw [if_neg h2]
    obtain ⟨n0, hn0⟩ : ∃ n, ns[0]? = some n := ⟨_, List.getElem?_eq_getElem (by omega)⟩
    rw [hc.get 0 n0 hn0]
    simp only [Option.bind_some]
    obtain ⟨l, l1, l2, l3⟩ := presentCalls hv
    rw [l1]
    simp only [Option.bind_some]
    have hrel : ∀ x ∈ l, ∃ g, SRel e.values.values x.1 g := by
      rintro ⟨i, v⟩ hx
      have he := (l3 i v).1 hx
      have hlt : i < offsets.values.length := by
        rw [elem_eq] at he
        split at he
        · exact (List.getElem?_eq_some_iff.1 he).1
        · simp at he
      have hsz : offsets.size = offsets.values.length := rfl
      exact srel_exists w3 w5 (c := i) (by omega)
    obtain ⟨s, e1, hi⟩ := resizeFold_spec hc l []
      ⟨1, 0, (n0 : Int), DBuilder.new (uninit mem ns.sum), List.replicate ns.sum false, false, false⟩ 0
      ⟨rfl, by simp, n0, hn0, rfl⟩
      (by
        refine ⟨by simp, by simp, ?_, by simp, by simp, fun _ => none, ?_, by simp, by simp⟩
        · intro new hn
          rw [List.getElem?_replicate, if_pos hn]
          simp
        · have := new_inv (uninit mem ns.sum)
          simpa [uninit] using this)
      (fun x hx => by obtain ⟨g, hg⟩ := hrel x hx; exact ⟨g, hg, by omega⟩) l2 (by simp)
    rw [e1]
    simp only [Option.bind_some]
    rw [List.nil_append] at hi
    have hmoved : ∀ new old, Moved e ns offsets new old ↔
        ∃ x ∈ l, MovedTo e.values.values ns x new ∧ x.1 = old := by
      intro new old
      constructor
      · rintro ⟨g, o, n, m1, m2, m3, m4, m5⟩
        rw [rel_split_iff ht w2] at m1
        exact ⟨(old, (o : Int)), (l3 _ _).2 m2, ⟨g, o, n, m1, rfl, m3, m4, m5⟩, rfl⟩
      · rintro ⟨⟨i, v⟩, hx, ⟨g, o, n, m1, m2, m3, m4, m5⟩, rfl⟩
        dsimp only at m1 m2 ⊢
        subst m2
        exact ⟨g, o, n, (rel_split_iff ht w2 _ _).2 m1, (l3 _ _).1 hx, m3, m4, m5⟩
    have hoff : OffsetsOk e ns offsets ↔ s.neg = false ∧ s.dup = false := by
      constructor
      · rintro ⟨o1, o2⟩
        constructor
        · cases hneg : s.neg with
          | false => rfl
          | true =>
            obtain ⟨⟨i, v⟩, hx, hlt⟩ := hi.neg.1 hneg
            have := o1 i v ((l3 _ _).1 hx)
            dsimp only at hlt
            omega
        · cases hdup : s.dup with
          | false => rfl
          | true =>
            obtain ⟨x, hx, y, hy, new, hne, hmx, hmy⟩ := hi.dup hdup
            exact absurd (o2 new x.1 y.1 ((hmoved _ _).2 ⟨x, hx, hmx, rfl⟩)
              ((hmoved _ _).2 ⟨y, hy, hmy, rfl⟩)) hne
      · rintro ⟨d1, d2⟩
        constructor
        · intro i v h
          by_contra hlt
          have := hi.neg.2 ⟨(i, v), (l3 _ _).2 h, by dsimp only; omega⟩
          rw [d1] at this; simp at this
        · intro new old old' m1 m2
          obtain ⟨x, hx, hxm, rfl⟩ := (hmoved _ _).1 m1
          obtain ⟨y, hy, hym, rfl⟩ := (hmoved _ _).1 m2
          rw [hi.nodup d2 x hx y hy new hxm hym]
    rw [hoff]
    constructor
    · rintro ⟨d1, d2⟩
      rw [d1, d2]
      simp only [Bool.false_eq_true, if_false]
      obtain ⟨f, f1, f2, f3⟩ := hi.build
      obtain ⟨g1, g2⟩ := elems_of_inv f1
      have hfl : s.b.build.values.length = ns.sum := f1.1
      have helem : ∀ new, new < ns.sum → elem s.b.build new = f new := by
        intro new hn
        have := congrArg (fun t => t[new]?) g2
        rw [elems_get?, hfl, if_pos hn, List.getElem?_map, List.getElem?_range hn] at this
        simpa using this
      have hrange : ∀ new v, elem s.b.build new = some v → new < ns.sum := by
        intro new v h
        rw [elem_eq] at h
        split at h
        · have := (List.getElem?_eq_some_iff.1 h).1; omega
        · simp at h
      obtain ⟨r, r1, r2, r3, r4, r5⟩ := (fromMapping_spec g1 e.childSize).1 ⟨hcs, by
        intro v hm
        rw [List.mem_iff_getElem?] at hm
        obtain ⟨new, hnew⟩ := hm
        rw [elems_get?] at hnew
        split at hnew
        · rename_i hlt
          simp only [Option.some.injEq] at hnew
          rw [hfl] at hlt
          rw [helem new hlt] at hnew
          obtain ⟨x, hx, hxm, rfl⟩ := f3 new v hlt hnew
          obtain ⟨g, hg⟩ := hrel x hx
          have := srel_lt w3 w5 hg
          omega
        · simp at hnew⟩
      refine ⟨r, r1, r5, r4, ?_, ?_⟩
      · obtain ⟨_, _, k3, _⟩ := (wf_map_iff r2).1 r5
        rw [k3, r3, hfl]
      · intro new old
        rw [rel_map_iff r2, r3, hmoved]
        constructor
        · intro h
          have hn := hrange new _ h
          rw [helem new hn] at h
          obtain ⟨x, hx, hxm, hxo⟩ := f3 new _ hn h
          exact ⟨x, hx, hxm, by omega⟩
        · rintro ⟨x, hx, hxm, rfl⟩
          rw [helem new (movedTo_lt hxm)]
          exact f2 d2 x hx new hxm
    · intro hn
      cases d1 : s.neg with
      | true => exact ⟨_, rfl⟩
      | false =>
        cases d2 : s.dup with
        | true => exact ⟨_, rfl⟩
        | false => exact absurd ⟨d1, d2⟩ hn

theorem totalSize_nat : ∀ (ns : List Nat) (t : Nat), ((t + ns.sum : Nat) : Int) ≤ maxI64 →
    totalSize (ns.map (fun n : Nat => (n : Int))) t = some ((t + ns.sum : Nat) : Int) := by
  intro ns
  induction ns with
  | nil => intro t _; rfl
  | cons n ns ih =>
    intro t h
    rw [List.sum_cons] at h ⊢
    rw [List.map_cons, totalSize, chk_ok (by omega) (by push_cast at h; omega)]
    simp only [Option.bind_eq_bind, Option.bind_some]
    have := ih (t + n) (by rw [Nat.add_assoc]; exact h)
    rw [Nat.add_assoc] at this
    rw [← this]
    push_cast
    rfl

/-! ## Parent side -/

theorem uniformLoop_spec (s : Nat) : ∀ (n i : Nat) (sp : List Int) (c : Nat), i + 1 + n = sp.length →
    sp[i]? = some (c : Int) → ((c + n * s : Nat) : Int) ≤ maxI64 →
    uniformLoop s n (i + 1) sp = some (sp.take i ++ sums c (List.replicate n s)) := by
  intro n
  induction n with
  | zero =>
    intro i sp c hl hc _
    rw [uniformLoop]
    have : sp.take (i + 1) = sp := List.take_of_length_le (by omega)
    rw [List.take_add_one, hc] at this
    simp only [List.replicate_zero, sums]
    congr 1
    exact this.symm
  | succ n ih =>
    intro i sp c hl hc hm
    have hs : c + (n + 1) * s = c + s + n * s := by rw [Nat.succ_mul]; omega
    rw [hs] at hm
    rw [uniformLoop, Nat.add_sub_cancel, hc]
    simp only [Option.bind_eq_bind, Option.bind_some]
    rw [chk_ok (by omega) (by omega)]
    simp only [Option.bind_some]
    rw [wrV_spec (by omega)]
    simp only [Option.bind_some]
    rw [ih (i + 1) (sp.set (i + 1) ((c : Int) + s)) (c + s) (by rw [List.length_set]; omega)
      (by rw [List.getElem?_set_self (by omega)]; push_cast; rfl) hm, List.take_set_of_le (by omega),
      List.take_add_one, hc, List.replicate_succ, sums]
    simp

end Verif.EdgeOps
