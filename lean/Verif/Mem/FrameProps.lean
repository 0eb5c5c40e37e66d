import Verif.Mem.FrameModel
import Mathlib.Data.List.Nodup
import Mathlib.Data.List.Perm.Basic

/-!
# C51: slots of a frame layout

`Builds b slots`: the builder `b` was produced by some sequence of calls which created the given slots, including those
inside of subframes; the offsets are from the start of the frame.
-/

namespace Verif.Mem

/-- What C++ guarantees about a type (`AddSlot` requires an alignment of at most 16). -/
structure Ty.Ok (t : Ty) : Prop where
  size : 0 < t.size
  align : ∃ k ≤ 4, t.align = 2 ^ k
  multiple : t.align ∣ t.size

/-- The executions: all sequences of `AddSlot` and `AddSubFrame`, the subframes being built in the same way. -/
inductive Builds : Builder → List (Ty × Nat) → Prop where
  | new : Builds {} []
  | slot {b slots t} : Builds b slots → t.Ok → Builds (b.addSlot t).1 (slots ++ [(t, (b.addSlot t).2)])
  | sub {b slots c inner order b' offset} : Builds b slots → Builds c inner → order.Perm c.build.init.type2factory →
      b.addSubFrame c.build order = some (b', offset) →
      Builds b' (slots ++ inner.map fun s => (s.1, s.2 + offset))

/-! ### Initialisers -/

/-- The objects of a list of factories. -/
def objs (fs : List Factory) : List (Ty × Nat) := fs.flatMap fun f => f.offsets.map fun o => (f.type, o)

structure Initializers.Ok (s : Initializers) : Prop where
  map : s.type2factory = s.factories.zipIdx.map fun p => (p.1.type, p.2)
  nodup : (s.factories.map Factory.type).Nodup

theorem find_spec {s : Initializers} (h : s.Ok) (t : Ty) :
    (∀ i, s.find t = some i → ∃ f, s.factories[i]? = some f ∧ f.type = t) ∧
    (s.find t = none → t ∉ s.factories.map Factory.type) := by
  simp only [Initializers.find, h.map, Option.map_eq_some_iff, Option.map_eq_none_iff]
  constructor
  · rintro i ⟨⟨t', j⟩, hf, rfl⟩
    have hm := List.mem_of_find?_eq_some hf
    have hp := List.find?_some hf
    simp only [decide_eq_true_eq] at hp
    subst hp
    obtain ⟨⟨f, k⟩, hfk, he⟩ := List.mem_map.1 hm
    simp only [Prod.mk.injEq] at he
    obtain ⟨rfl, rfl⟩ := he
    exact ⟨f, List.mem_zipIdx_iff_getElem?.1 hfk, rfl⟩
  · intro hn hm
    obtain ⟨f, hf, rfl⟩ := List.mem_map.1 hm
    obtain ⟨i, hi⟩ := List.getElem?_of_mem hf
    have := (List.find?_eq_none.1 hn) (f.type, i)
      (List.mem_map.2 ⟨(f, i), List.mem_zipIdx_iff_getElem?.2 hi, rfl⟩)
    simp at this

theorem objs_modify {fs : List Factory} {f : Factory} {extra : List Nat} : ∀ {i : Nat}, fs[i]? = some f →
    (objs (fs.modify i fun g => { g with offsets := g.offsets ++ extra })).Perm
      (objs fs ++ extra.map fun o => (f.type, o)) := by
  induction fs with
  | nil => intro i h; simp at h
  | cons g rest ih =>
    intro i h
    cases i with
    | zero =>
      simp only [List.getElem?_cons_zero, Option.some.injEq] at h
      subst h
      simp only [List.modify_zero_cons, objs, List.flatMap_cons, List.map_append, List.append_assoc]
      exact List.Perm.append_left _ List.perm_append_comm
    | succ i =>
      simp only [List.getElem?_cons_succ] at h
      simp only [List.modify_succ_cons, objs, List.flatMap_cons, List.append_assoc]
      exact List.Perm.append_left _ (ih h)

theorem types_modify (fs : List Factory) (i : Nat) (extra : List Nat) :
    (fs.modify i fun g => { g with offsets := g.offsets ++ extra }).map Factory.type = fs.map Factory.type := by
  induction fs generalizing i with
  | nil => cases i <;> rfl
  | cons g rest ih => cases i <;> simp [ih]

theorem zip_types (fs : List Factory) : ∀ n, (fs.zipIdx n).map (fun p => (p.1.type, p.2)) =
    (fs.map Factory.type).zipIdx n := by
  induction fs with
  | nil => intro n; rfl
  | cons f rest ih => intro n; simp [ih]

theorem ok_modify {s : Initializers} (h : s.Ok) (i : Nat) (extra : List Nat) :
    ({ s with factories := s.factories.modify i fun g => { g with offsets := g.offsets ++ extra } } : Initializers).Ok where
  map := by
    have := h.map
    rw [zip_types] at this
    simp only [zip_types, types_modify]
    exact this
  nodup := by simp only [types_modify]; exact h.nodup

theorem ok_push {s : Initializers} (h : s.Ok) {f : Factory} (hf : f.type ∉ s.factories.map Factory.type) :
    (⟨s.factories ++ [f], s.type2factory ++ [(f.type, s.factories.length)]⟩ : Initializers).Ok where
  map := by simp [h.map, List.zipIdx_append]
  nodup := by
    rw [List.map_append, List.nodup_append]
    refine ⟨h.nodup, by simp, ?_⟩
    intro a ha b hb
    simp only [List.map_cons, List.map_nil, List.mem_singleton] at hb
    subst hb
    rintro rfl
    exact hf ha

theorem addOffset_spec {s : Initializers} (h : s.Ok) (offset : Nat) (t : Ty) :
    (s.addOffset offset t).Ok ∧ (objs (s.addOffset offset t).factories).Perm (objs s.factories ++ [(t, offset)]) := by
  simp only [Initializers.addOffset]
  cases hf : s.find t with
  | some i =>
    obtain ⟨f, hi, rfl⟩ := (find_spec h t).1 i hf
    simp only
    rw [if_pos (List.getElem?_eq_some_iff.1 hi).1]
    exact ⟨ok_modify h i [offset], objs_modify hi⟩
  | none =>
    have hn := (find_spec h t).2 hf
    simp only
    rw [if_pos (by simp)]
    have hok := ok_push h (f := ⟨t, []⟩) hn
    refine ⟨ok_modify hok _ [offset], ?_⟩
    have := objs_modify (fs := s.factories ++ [⟨t, []⟩]) (f := ⟨t, []⟩) (extra := [offset]) (i := s.factories.length)
      (by simp)
    refine this.trans ?_
    simp [objs]

theorem addDerived_spec (offset : Nat) {derived : Initializers} : ∀ (order : List (Ty × Nat)) (s : Initializers), s.Ok →
    (∀ e ∈ order, ∃ f, derived.factories[e.2]? = some f ∧ f.type = e.1) →
    ∃ s', Initializers.addDerivedLoop offset derived order s = some s' ∧ s'.Ok ∧
      (objs s'.factories).Perm (objs s.factories ++ order.flatMap fun e =>
        (derived.factories[e.2]?.toList.flatMap fun f => f.offsets.map fun o => (f.type, o + offset))) := by
  intro order
  induction order with
  | nil => intro s hs _; exact ⟨s, rfl, hs, by simp⟩
  | cons e rest ih =>
    intro s hs he
    obtain ⟨t, id⟩ := e
    obtain ⟨f, hf, ht⟩ := he (t, id) (by simp)
    simp only at hf ht
    simp only [Initializers.addDerivedLoop, hf, Option.bind_eq_bind, Option.bind_some]
    cases hfind : s.find t with
    | some i =>
      obtain ⟨g, hg, hgt⟩ := (find_spec hs t).1 i hfind
      simp only
      rw [if_pos (List.getElem?_eq_some_iff.1 hg).1]
      obtain ⟨s', h1, h2, h3⟩ := ih _ (ok_modify hs i (f.derive offset).offsets) (fun e he' => he e (by simp [he']))
      refine ⟨s', h1, h2, h3.trans ?_⟩
      simp only [List.flatMap_cons, hf, Option.toList_some, List.flatMap_nil, List.append_nil, ← List.append_assoc]
      refine List.Perm.append_right _ ((objs_modify hg).trans (List.Perm.append_left _ ?_))
      simp [Factory.derive, hgt, ht, Function.comp_def]
    | none =>
      have hn := (find_spec hs t).2 hfind
      have hok := ok_push hs (f := f.derive offset) (by simpa [Factory.derive, ht] using hn)
      have hty : (f.derive offset).type = t := ht
      rw [hty] at hok
      simp only
      obtain ⟨s', h1, h2, h3⟩ := ih _ hok (fun e he' => he e (by simp [he']))
      refine ⟨s', h1, h2, h3.trans ?_⟩
      simp [objs, hf, Factory.derive, Function.comp_def]

theorem addDerived_ok (offset : Nat) {s derived : Initializers} (hs : s.Ok) (hd : derived.Ok) {order : List (Ty × Nat)}
    (ho : order.Perm derived.type2factory) :
    ∃ s', Initializers.addDerivedLoop offset derived order s = some s' ∧ s'.Ok ∧
      (objs s'.factories).Perm (objs s.factories ++ (objs derived.factories).map fun p => (p.1, p.2 + offset)) := by
  have hmem : ∀ e ∈ order, ∃ f, derived.factories[e.2]? = some f ∧ f.type = e.1 := by
    intro e he
    have := ho.mem_iff.1 he
    rw [hd.map] at this
    obtain ⟨⟨f, k⟩, hfk, rfl⟩ := List.mem_map.1 this
    exact ⟨f, List.mem_zipIdx_iff_getElem?.1 hfk, rfl⟩
  obtain ⟨s', h1, h2, h3⟩ := addDerived_spec offset order s hs hmem
  refine ⟨s', h1, h2, h3.trans (List.Perm.append_left _ ?_)⟩
  refine (List.Perm.flatMap_right _ ho).trans ?_
  rw [hd.map]
  have key : ∀ (fs : List Factory) (n : Nat), (∀ i, fs[i]? = derived.factories[n + i]?) →
      ((fs.zipIdx n).map fun p => (p.1.type, p.2)).flatMap (fun e =>
        (derived.factories[e.2]?.toList.flatMap fun f => f.offsets.map fun o => (f.type, o + offset))) =
      (objs fs).map fun p => (p.1, p.2 + offset) := by
    intro fs
    induction fs with
    | nil => intro n _; rfl
    | cons f rest ih =>
      intro n hn
      have h0 := hn 0
      simp only [List.getElem?_cons_zero, Nat.add_zero] at h0
      simp only [List.zipIdx_cons, List.map_cons, List.flatMap_cons, ← h0, Option.toList_some, objs, List.map_append]
      rw [ih (n + 1) (fun i => by have := hn (i + 1); simpa [Nat.add_assoc, Nat.add_comm 1] using this)]
      simp [objs, Function.comp_def]
  rw [key derived.factories 0 (fun i => by simp)]

/-! ### Offsets -/

theorem roundUp_spec {v d : Nat} (hd : 0 < d) : v ≤ roundUp v d ∧ d ∣ roundUp v d ∧ roundUp v d < v + d := by
  refine ⟨?_, ⟨_, Nat.mul_comm _ _⟩, ?_⟩
  · have h1 := Nat.div_add_mod (v + d - 1) d
    have h2 := Nat.mod_lt (v + d - 1) hd
    simp only [roundUp, Nat.mul_comm _ d]
    omega
  · have h1 := Nat.div_mul_le_self (v + d - 1) d
    simp only [roundUp]
    omega

theorem roundUp_of_dvd {v d : Nat} (hd : 0 < d) (h : d ∣ v) : roundUp v d = v := by
  obtain ⟨h1, h2, h3⟩ := roundUp_spec (v := v) hd
  have := (Nat.dvd_sub h2 h)
  have := Nat.eq_zero_of_dvd_of_lt this (by omega)
  omega

/-- The two slots do not overlap and the first one is before the second. -/
def Before (a b : Ty × Nat) : Prop := a.2 + a.1.size ≤ b.2

structure Inv (b : Builder) (slots : List (Ty × Nat)) : Prop where
  align : ∃ k ≤ 4, b.allocAlign = 2 ^ k
  slot : ∀ s ∈ slots, s.1.align ∣ s.2 ∧ s.1.align ∣ b.allocAlign ∧ s.2 + s.1.size ≤ b.allocSize
  order : slots.Pairwise Before
  init : b.init.Ok
  objects : (objs b.init.factories).Perm (slots.filter fun s => s.1.special)

theorem pow_dvd_max {i j : Nat} : 2 ^ i ∣ max (2 ^ i) (2 ^ j) ∧ 2 ^ j ∣ max (2 ^ i) (2 ^ j) := by
  rcases Nat.le_total i j with h | h
  · have := Nat.pow_le_pow_right (n := 2) (by omega) h
    rw [Nat.max_eq_right this]
    exact ⟨Nat.pow_dvd_pow 2 h, Nat.dvd_refl _⟩
  · have := Nat.pow_le_pow_right (n := 2) (by omega) h
    rw [Nat.max_eq_left this]
    exact ⟨Nat.dvd_refl _, Nat.pow_dvd_pow 2 h⟩

theorem pow_max {i j : Nat} (hi : i ≤ 4) (hj : j ≤ 4) : ∃ k ≤ 4, max (2 ^ i) (2 ^ j) = 2 ^ k := by
  rcases Nat.le_total i j with h | h
  · exact ⟨j, hj, Nat.max_eq_right (Nat.pow_le_pow_right (by omega) h)⟩
  · exact ⟨i, hi, Nat.max_eq_left (Nat.pow_le_pow_right (by omega) h)⟩

theorem inv_of_builds {b slots} (h : Builds b slots) : Inv b slots := by
  induction h with
  | new =>
    exact ⟨⟨0, by omega, rfl⟩, by simp, by simp, ⟨rfl, by simp⟩, by simp [objs]⟩
  | @slot b slots t _ ht ih =>
    obtain ⟨i, hi, hbi⟩ := ih.align
    obtain ⟨j, hj, htj⟩ := ht.align
    have hpos : 0 < t.align := by rw [htj]; exact Nat.pow_pos (by omega)
    obtain ⟨r1, r2, r3⟩ := roundUp_spec (v := b.allocSize) hpos
    refine ⟨?_, ?_, ?_, ?_, ?_⟩
    · simp only [Builder.addSlot, hbi, htj]; exact pow_max hi hj
    · intro s hs
      rcases List.mem_append.1 hs with hs | hs
      · obtain ⟨h1, h2, h3⟩ := ih.slot s hs
        refine ⟨h1, ?_, ?_⟩
        · simp only [Builder.addSlot, htj]
          rw [hbi] at h2 ⊢
          exact Nat.dvd_trans h2 pow_dvd_max.1
        · simp only [Builder.addSlot]; omega
      · simp only [List.mem_singleton] at hs
        subst hs
        refine ⟨r2, ?_, Nat.le_refl _⟩
        simp only [Builder.addSlot, hbi, htj]
        exact pow_dvd_max.2
    · rw [List.pairwise_append]
      refine ⟨ih.order, by simp, ?_⟩
      intro a ha c hc
      simp only [List.mem_singleton] at hc
      subst hc
      obtain ⟨_, _, h3⟩ := ih.slot a ha
      simp only [Before, Builder.addSlot]; omega
    · simp only [Builder.addSlot]
      split
      · exact (addOffset_spec ih.init _ _).1
      · exact ih.init
    · simp only [Builder.addSlot]
      split
      · next hsp =>
        simp only [List.filter_append, List.filter_cons, hsp, List.filter_nil, if_true]
        exact ((addOffset_spec ih.init _ _).2).trans (List.Perm.append_right _ ih.objects)
      · next hsp =>
        simpa [List.filter_append, hsp] using ih.objects
  | @sub b slots c inner order b' offset _ _ ho hsub ih ihc =>
    obtain ⟨i, hi, hbi⟩ := ih.align
    obtain ⟨j, hj, hcj⟩ := ihc.align
    have hpos : 0 < c.allocAlign := by rw [hcj]; exact Nat.pow_pos (by omega)
    obtain ⟨r1, r2, r3⟩ := roundUp_spec (v := b.allocSize) hpos
    obtain ⟨q1, q2, q3⟩ := roundUp_spec (v := c.allocSize) hpos
    obtain ⟨s', h1, h2, h3⟩ := addDerived_ok (roundUp b.allocSize c.allocAlign) ih.init ihc.init ho
    simp only [Builder.addSubFrame, Builder.build, h1, Option.bind_eq_bind, Option.bind_some, Option.pure_def,
      Option.some.injEq, Prod.mk.injEq] at hsub
    obtain ⟨rfl, rfl⟩ := hsub
    refine ⟨?_, ?_, ?_, h2, ?_⟩
    · simp only [hbi, hcj]; exact pow_max hi hj
    · intro s hs
      rcases List.mem_append.1 hs with hs | hs
      · obtain ⟨h1, h2, h3⟩ := ih.slot s hs
        refine ⟨h1, ?_, ?_⟩
        · rw [hbi] at h2
          simp only [hbi, hcj]
          exact Nat.dvd_trans h2 pow_dvd_max.1
        · simp only; omega
      · obtain ⟨u, hu, rfl⟩ := List.mem_map.1 hs
        obtain ⟨h1, h2, h3⟩ := ihc.slot u hu
        refine ⟨?_, ?_, ?_⟩
        · exact Nat.dvd_add h1 (Nat.dvd_trans h2 r2)
        · rw [hcj] at h2
          simp only [hbi, hcj]
          exact Nat.dvd_trans h2 pow_dvd_max.2
        · simp only; omega
    · rw [List.pairwise_append]
      refine ⟨ih.order, ?_, ?_⟩
      · rw [List.pairwise_map]
        exact ihc.order.imp fun {a d} h => by simp only [Before] at h ⊢; omega
      · intro a ha d hd
        obtain ⟨u, hu, rfl⟩ := List.mem_map.1 hd
        obtain ⟨_, _, h3⟩ := ih.slot a ha
        simp only [Before]; omega
    · refine h3.trans ?_
      rw [List.filter_append]
      refine List.Perm.append ih.objects ?_
      refine (ihc.objects.map _).trans ?_
      rw [List.filter_map]
      exact List.Perm.refl _

/-! ### C51 -/

/-- Every slot lies within the frame, is aligned in a frame aligned as the layout requests, and no two slots share a
byte. -/
theorem frame_slots {b slots} (h : Builds b slots) :
    (∀ s ∈ slots, s.1.align ∣ s.2 ∧ s.1.align ∣ b.build.allocAlign ∧ s.2 + s.1.size ≤ b.build.allocSize) ∧
    slots.Pairwise Before := by
  have hi := inv_of_builds h
  refine ⟨fun s hs => ?_, hi.order⟩
  obtain ⟨h1, h2, h3⟩ := hi.slot s hs
  obtain ⟨k, _, hk⟩ := hi.align
  have := (roundUp_spec (v := b.allocSize) (d := b.allocAlign) (by rw [hk]; exact Nat.pow_pos (by omega))).1
  exact ⟨h1, h2, by simp only [Builder.build]; omega⟩

/-- The alignment is a power of two and the size a multiple of it: an allocation may be requested, and blocks placed one
after another are all aligned. -/
theorem frame_alignment {b slots} (h : Builds b slots) :
    (∃ k ≤ 4, b.build.allocAlign = 2 ^ k) ∧ b.build.allocAlign ∣ b.build.allocSize := by
  obtain ⟨k, hk4, hk⟩ := (inv_of_builds h).align
  exact ⟨⟨k, hk4, hk⟩, (roundUp_spec (by rw [show b.build.allocAlign = 2 ^ k from hk]; exact Nat.pow_pos (by omega))).2.1⟩

/-- `InitializeAlignedAlloc` constructs exactly the slots of non-trivial types, each once, and `DestroyAlloc` destroys the
same ones. -/
theorem frame_objects {b slots} (h : Builds b slots) :
    b.build.objects.Perm (slots.filter fun s => s.1.special) := (inv_of_builds h).objects

/-- `AddSubFrame` does not fail, whatever the iteration order. -/
theorem addSubFrame_total {b slots c inner} (hb : Builds b slots) (hc : Builds c inner)
    {order} (ho : order.Perm c.build.init.type2factory) : (b.addSubFrame c.build order).isSome := by
  obtain ⟨s', h1, -, -⟩ := addDerived_ok (roundUp b.allocSize c.allocAlign) (inv_of_builds hb).init
    (inv_of_builds hc).init ho
  simp [Builder.addSubFrame, Builder.build, h1]

theorem filter_flatMap_range (p : Ty × Nat → Bool) (slots : List (Ty × Nat)) (size : Nat)
    (hp : ∀ t o o', p (t, o) = p (t, o')) (n : Nat) :
    ((List.range n).flatMap fun i => slots.map fun s => (s.1, s.2 + i * size)).filter p =
      (List.range n).flatMap fun i => (slots.filter p).map fun s => (s.1, s.2 + i * size) := by
  rw [List.filter_flatMap]
  congr 1
  funext i
  rw [List.filter_map]
  congr 1
  apply List.filter_congr
  intro s _
  exact hp _ _ _

/-- The slots of `n` blocks. -/
def slotsN (slots : List (Ty × Nat)) (size n : Nat) : List (Ty × Nat) :=
  (List.range n).flatMap fun i => slots.map fun s => (s.1, s.2 + i * size)

/-- The same for `n` frames in one allocation. -/
theorem frame_blocks {b slots} (h : Builds b slots) (n : Nat) :
    (∀ s ∈ slotsN slots b.build.allocSize n, s.1.align ∣ s.2 ∧ s.2 + s.1.size ≤ n * b.build.allocSize) ∧
    (slotsN slots b.build.allocSize n).Pairwise Before ∧
    (b.build.objectsN n).Perm ((slotsN slots b.build.allocSize n).filter fun s => s.1.special) := by
  obtain ⟨h1, h2⟩ := frame_slots h
  obtain ⟨-, h3⟩ := frame_alignment h
  refine ⟨?_, ?_, ?_⟩
  · intro s hs
    simp only [slotsN, List.mem_flatMap, List.mem_range, List.mem_map] at hs
    obtain ⟨i, hi, u, hu, rfl⟩ := hs
    obtain ⟨a1, a2, a3⟩ := h1 u hu
    refine ⟨Nat.dvd_add a1 (Nat.dvd_trans (Nat.dvd_trans a2 h3) ⟨i, Nat.mul_comm _ _⟩), ?_⟩
    have : (i + 1) * b.build.allocSize ≤ n * b.build.allocSize := Nat.mul_le_mul_right _ hi
    rw [Nat.add_mul] at this
    simp only; omega
  · rw [slotsN, List.pairwise_flatMap]
    refine ⟨fun i _ => ?_, ?_⟩
    · rw [List.pairwise_map]
      exact h2.imp fun {a d} h => by simp only [Before] at h ⊢; omega
    · refine List.pairwise_lt_range.imp fun {i j} hij => ?_
      intro x hx y hy
      simp only [List.mem_map] at hx hy
      obtain ⟨u, hu, rfl⟩ := hx
      obtain ⟨v, hv, rfl⟩ := hy
      obtain ⟨_, _, a3⟩ := h1 u hu
      have : (i + 1) * b.build.allocSize ≤ j * b.build.allocSize := Nat.mul_le_mul_right _ hij
      rw [Nat.add_mul] at this
      simp only [Before]; omega
  · rw [slotsN, filter_flatMap_range (fun s => s.1.special) slots _ (fun _ _ _ => rfl)]
    have ho := frame_objects h
    -- exchange the loops over the factories and over the blocks
    have hswap : ∀ (fs : List Factory) (g : Nat → Nat → Nat), (fs.flatMap fun f => (List.range n).flatMap fun i =>
          f.offsets.map fun o => (f.type, g o i)).Perm
        ((List.range n).flatMap fun i => (objs fs).map fun p => (p.1, g p.2 i)) := by
      intro fs g
      induction fs with
      | nil => simp [objs]
      | cons f rest ih =>
        have e : ∀ i, (objs (f :: rest)).map (fun p => (p.1, g p.2 i)) =
            (f.offsets.map fun o => (f.type, g o i)) ++ (objs rest).map (fun p => (p.1, g p.2 i)) := by
          intro i; simp [objs, Function.comp_def]
        simp only [List.flatMap_cons, e]
        refine (List.Perm.append_left _ ih).trans ?_
        exact List.flatMap_append_perm _ _ _
    refine (hswap _ fun o i => o + i * b.build.allocSize).trans ?_
    exact List.Perm.flatMap_left _ fun i _ => ho.map _

/-- Consecutive calls of `AddSlot<T>` form an array of `T`. -/
theorem frame_array (b : Builder) {t : Ty} (ht : t.Ok) :
    ((b.addSlot t).1.addSlot t).2 = (b.addSlot t).2 + t.size := by
  obtain ⟨k, _, hk⟩ := ht.align
  have hpos : 0 < t.align := by rw [hk]; exact Nat.pow_pos (by omega)
  simp only [Builder.addSlot]
  exact roundUp_of_dvd hpos (Nat.dvd_add (roundUp_spec hpos).2.1 ht.multiple)

/-- `RegisterUnsafeSlot` accepts exactly the byte ranges inside of what has been allocated. -/
theorem registerSlot_iff (b : Builder) (offset : Option Nat) (size : Nat) :
    b.registerSlot offset size = true ↔ ∃ o, offset = some o ∧ o + size ≤ b.allocSize := by
  cases offset with
  | none => simp [Builder.registerSlot]
  | some o => simp [Builder.registerSlot]; omega

/-! A frame with an `int64`, a byte, a string and a subframe which contains a string and two bytes. -/

private def byte : Ty := ⟨0, 1, 1, false⟩
private def int64 : Ty := ⟨1, 8, 8, false⟩
private def str : Ty := ⟨2, 24, 8, true⟩
private def innerFrame : Builder := ((({} : Builder).addSlot byte).1.addSlot str).1
private def outerFrame : Builder := ((({} : Builder).addSlot int64).1.addSlot byte).1.addSlot str |>.1.addSlot byte |>.1

example : byte.Ok ∧ int64.Ok ∧ str.Ok :=
  ⟨⟨by decide, ⟨0, by decide, rfl⟩, by decide⟩, ⟨by decide, ⟨3, by decide, rfl⟩, by decide⟩,
    ⟨by decide, ⟨3, by decide, rfl⟩, by decide⟩⟩
example : innerFrame.build.allocSize = 32 ∧ innerFrame.build.objects = [(str, 8)] := by decide
example : (outerFrame.addSubFrame innerFrame.build innerFrame.build.init.type2factory).map
    (fun r => (r.2, r.1.build.allocSize, r.1.build.allocAlign, r.1.build.objects)) =
    some (48, 80, 8, [(str, 16), (str, 56)]) := by decide

end Verif.Mem
