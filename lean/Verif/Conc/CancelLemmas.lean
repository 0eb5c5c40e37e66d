import Verif.Conc.CancelModel
import Mathlib.Tactic.ByContra

set_option linter.unusedSimpArgs false

namespace Verif.Conc

/-! ## Linked lists -/

/-- The doubly linked list `L`, whose first element has predecessor `p`. -/
def DL (h : Nat → Option Node) : Option Nat → List Nat → Prop
  | _, [] => True
  | p, x :: xs => h x = some ⟨p, xs.head?⟩ ∧ DL h (some x) xs

/-- A doubly linked segment followed by `e`. -/
def Seg (h : Nat → Option Node) (e : Option Nat) : Option Nat → List Nat → Prop
  | _, [] => True
  | p, x :: xs => h x = some ⟨p, xs.head?.or e⟩ ∧ Seg h e (some x) xs

/-- A singly linked list. -/
def SL (h : Nat → Option Node) : List Nat → Prop
  | [] => True
  | x :: xs => (∃ p, h x = some ⟨p, xs.head?⟩) ∧ SL h xs

theorem DL_congr {h h' : Nat → Option Node} : ∀ {L : List Nat} {p : Option Nat},
    (∀ x ∈ L, h' x = h x) → DL h p L → DL h' p L := by
  intro L
  induction L with
  | nil => intro p _ _; trivial
  | cons x xs ih =>
    intro p he hd
    exact ⟨by rw [he x (by simp)]; exact hd.1, ih (fun y hy => he y (by simp [hy])) hd.2⟩

theorem Seg_congr {h h' : Nat → Option Node} {e : Option Nat} : ∀ {L : List Nat} {p : Option Nat},
    (∀ x ∈ L, h' x = h x) → Seg h e p L → Seg h' e p L := by
  intro L
  induction L with
  | nil => intro p _ _; trivial
  | cons x xs ih =>
    intro p he hd
    exact ⟨by rw [he x (by simp)]; exact hd.1, ih (fun y hy => he y (by simp [hy])) hd.2⟩

theorem SL_congr {h h' : Nat → Option Node} : ∀ {L : List Nat},
    (∀ x ∈ L, h' x = h x) → SL h L → SL h' L := by
  intro L
  induction L with
  | nil => intro _ _; trivial
  | cons x xs ih =>
    intro he hd
    exact ⟨by rw [he x (by simp)]; exact hd.1, ih (fun y hy => he y (by simp [hy])) hd.2⟩

theorem SL_of_DL {h : Nat → Option Node} : ∀ {L : List Nat} {p : Option Nat}, DL h p L → SL h L := by
  intro L
  induction L with
  | nil => intro _ _; trivial
  | cons x xs ih => intro p hd; exact ⟨⟨p, hd.1⟩, ih hd.2⟩

theorem DL_append {h : Nat → Option Node} : ∀ {P Q : List Nat} {p : Option Nat},
    DL h p (P ++ Q) ↔ Seg h Q.head? p P ∧ DL h (P.getLast?.or p) Q := by
  intro P
  induction P with
  | nil => intro Q p; simp [Seg]
  | cons x xs ih =>
    intro Q p
    rw [List.cons_append, DL, Seg, ih]
    have h1 : (xs ++ Q).head? = xs.head?.or Q.head? := by cases xs <;> simp
    have h2 : ((x :: xs).getLast?.or p) = xs.getLast?.or (some x) := by
      cases xs with
      | nil => simp
      | cons y ys => simp [List.getLast?_cons]
    rw [h1, h2, and_assoc]

/-- Change the successor of the last element. -/
def upd (h : Nat → Option Node) (i : Nat) (f : Node → Node) : Nat → Option Node :=
  fun j => if j = i then (h i).map f else h j

theorem store_eq {h : Nat → Option Node} {i : Nat} {n : Node} (f : Node → Node) (hi : h i = some n) :
    store h i f = some (upd h i f) := by
  unfold store upd
  rw [hi]
  simp only [Option.bind_eq_bind, Option.bind_some, Option.map_some]

theorem upd_ne {h : Nat → Option Node} {i j : Nat} {f : Node → Node} (hj : j ≠ i) : upd h i f j = h j := by
  unfold upd; rw [if_neg hj]

theorem upd_self {h : Nat → Option Node} {i : Nat} {f : Node → Node} : upd h i f i = (h i).map f := by
  unfold upd; rw [if_pos rfl]

theorem Seg_last {h : Nat → Option Node} {e e' : Option Nat} : ∀ {P : List Nat} {p : Option Nat} {l : Nat},
    P.Nodup → P.getLast? = some l → Seg h e p P → Seg (upd h l (fun m => { m with next := e' })) e' p P := by
  intro P
  induction P with
  | nil => intro p l _ _ _; trivial
  | cons x xs ih =>
    intro p l hn hl hs
    rw [List.nodup_cons] at hn
    cases xs with
    | nil =>
      simp only [List.getLast?_singleton, Option.some.injEq] at hl
      subst hl
      refine ⟨?_, trivial⟩
      rw [upd_self, hs.1]
      rfl
    | cons y ys =>
      have hl' : (y :: ys).getLast? = some l := by simpa [List.getLast?_cons] using hl
      have hlm : l ∈ y :: ys := List.mem_of_getLast? hl'
      refine ⟨?_, ih hn.2 hl' hs.2⟩
      rw [upd_ne (show x ≠ l from fun h => hn.1 (h ▸ hlm)), hs.1]
      rfl

theorem DL_first {h : Nat → Option Node} {p p' : Option Nat} {x : Nat} {xs : List Nat} (hx : x ∉ xs)
    (hd : DL h p (x :: xs)) : DL (upd h x (fun m => { m with prev := p' })) p' (x :: xs) := by
  refine ⟨?_, DL_congr (fun y hy => upd_ne (fun h => hx (h ▸ hy))) hd.2⟩
  rw [upd_self, hd.1]
  rfl

theorem Seg_get {h : Nat → Option Node} {e : Option Nat} : ∀ {P : List Nat} {p : Option Nat}, Seg h e p P →
    ∀ x ∈ P, ∃ n, h x = some n := by
  intro P
  induction P with
  | nil => intro p _ x hx; simp at hx
  | cons y ys ih =>
    intro p hs x hx
    rcases List.mem_cons.1 hx with rfl | hx
    · exact ⟨_, hs.1⟩
    · exact ih hs.2 x hx

/-- Unlinking `i`. -/
theorem unlink_spec {s : St} {P Q : List Nat} {i : Nat} (hnd : (P ++ i :: Q).Nodup)
    (hh : s.head = (P ++ i :: Q).head?) (hd : DL s.heap none (P ++ i :: Q)) :
    ∃ h', unlink s i = some { s with heap := h', head := (P ++ Q).head? } ∧ DL h' none (P ++ Q) ∧
      (∀ x, x ∉ P ++ Q → h' x = s.heap x) ∧ ∀ x, (h' x).isSome = (s.heap x).isSome := by
  rw [DL_append] at hd
  obtain ⟨h1, h2⟩ := hd
  have hni := h2.1
  rw [Option.or_none] at hni
  have hhead : s.head.isNone = false := by rw [hh]; cases P <;> rfl
  have hnd' := List.nodup_append.1 hnd
  obtain ⟨nP, nQ, nPQ⟩ := hnd'
  rw [List.nodup_cons] at nQ
  have updSome : ∀ (h : Nat → Option Node) (l : Nat) (f : Node → Node) x, (upd h l f x).isSome = (h x).isSome := by
    intro h l f x
    by_cases hx : x = l
    · subst hx; rw [upd_self]; simp
    · rw [upd_ne hx]
  unfold unlink
  rw [hhead]
  simp only [Bool.false_eq_true, if_false]
  rw [hni]
  simp only [Option.bind_eq_bind, Option.bind_some]
  -- the predecessor
  have step1 : ∃ s1 : St, unlinkPrev s ⟨P.getLast?, Q.head?⟩ = some s1 ∧
      s1 = { s with heap := s1.heap, head := (P ++ Q).head? } ∧ Seg s1.heap Q.head? none P ∧
      (∀ x, x ∉ P → s1.heap x = s.heap x) ∧ ∀ x, (s1.heap x).isSome = (s.heap x).isSome := by
    unfold unlinkPrev
    cases hP : P.getLast? with
    | none =>
      have : P = [] := by simpa using hP
      subst this
      exact ⟨_, rfl, rfl, trivial, fun _ _ => rfl, fun _ => rfl⟩
    | some l =>
      have hl := List.mem_of_getLast? hP
      obtain ⟨n, hn⟩ := Seg_get h1 l hl
      dsimp only
      rw [store_eq _ hn]
      simp only [Option.bind_eq_bind, Option.bind_some]
      refine ⟨_, rfl, ?_, Seg_last nP hP h1, fun x hx => upd_ne (fun h => hx (h ▸ hl)), updSome _ _ _⟩
      have : (P ++ Q).head? = s.head := by
        rw [hh]
        cases P with
        | nil => simp at hl
        | cons _ _ => rfl
      rw [this]
  obtain ⟨s1, e1, e2, e3, e4, e5⟩ := step1
  rw [e1]
  simp only [Option.bind_some]
  have hQ1 : DL s1.heap (some i) Q := DL_congr (fun x hx => e4 x (fun hc => nPQ x hc x (by simp [hx]) rfl)) h2.2
  cases Q with
  | nil =>
    refine ⟨s1.heap, ?_, ?_, ?_, e5⟩
    · dsimp only [List.head?_nil, storeIf]
      simp only [Option.bind_some]
      rw [e2]
    · rw [DL_append]; exact ⟨e3, trivial⟩
    · intro x hx; exact e4 x (fun hc => hx (by simp [hc]))
  | cons y ys =>
    rw [List.nodup_cons] at nQ
    refine ⟨upd s1.heap y (fun m => { m with prev := P.getLast? }), ?_, ?_, ?_, ?_⟩
    · dsimp only [List.head?_cons, storeIf]
      rw [store_eq _ hQ1.1]
      simp only [Option.bind_some]
      rw [e2]
    · rw [DL_append]
      refine ⟨Seg_congr (fun x hx => upd_ne (fun h => nPQ x hx y (by simp) h)) e3, ?_⟩
      rw [Option.or_none]
      exact DL_first nQ.2.1 hQ1
    · intro x hx
      rw [upd_ne (fun h => hx (by simp [h]))]
      exact e4 x (fun hc => hx (by simp [hc]))
    · intro x
      rw [updSome, e5]

/-- Linking `i`. -/
theorem link_spec {s : St} {L : List Nat} {i : Nat} {nx : Option Nat} (hL : L.Nodup) (hi : i ∉ L)
    (hn : s.heap i = some ⟨none, nx⟩) (hh : s.head = L.head?) (hd : DL s.heap none L) :
    ∃ h', link s i = some { s with heap := h', head := some i, handles := i :: s.handles, log := .subRet i :: s.log } ∧
      DL h' none (i :: L) ∧ (∀ x, x ∉ i :: L → h' x = s.heap x) ∧ ∀ x, (h' x).isSome = (s.heap x).isSome := by
  unfold link
  rw [store_eq _ hn]
  simp only [Option.bind_eq_bind, Option.bind_some]
  have updSome : ∀ (h : Nat → Option Node) (l : Nat) (f : Node → Node) x, (upd h l f x).isSome = (h x).isSome := by
    intro h l f x
    by_cases hx : x = l
    · subst hx; rw [upd_self]; simp
    · rw [upd_ne hx]
  cases L with
  | nil =>
    rw [hh]
    refine ⟨_, rfl, ⟨?_, trivial⟩, ?_, updSome _ _ _⟩
    · rw [upd_self, hn]; rfl
    · intro x hx; exact upd_ne (by simpa using hx)
  | cons y ys =>
    rw [hh]
    have hiy : i ≠ y := fun h => hi (by simp [h])
    have hd' : DL (upd s.heap i (fun n => { n with next := (y :: ys).head? })) none (y :: ys) :=
      DL_congr (fun x hx => upd_ne (fun h => hi (h ▸ hx))) hd
    dsimp only [List.head?_cons, storeIf]
    rw [List.head?_cons] at hd'
    rw [store_eq _ hd'.1]
    simp only [Option.bind_some]
    refine ⟨_, rfl, ⟨?_, DL_first (List.nodup_cons.1 hL).1 hd'⟩, ?_, ?_⟩
    · rw [upd_ne hiy, upd_self, hn]; rfl
    · intro x hx
      simp only [List.mem_cons, not_or] at hx
      rw [upd_ne hx.2.1, upd_ne hx.1]
    · intro x; rw [updSome, updSome]

/-! ## The invariant -/

/-- Callbacks run so far. -/
def runs : List Event → List Nat
  | [] => []
  | .run i :: es => i :: runs es
  | _ :: es => runs es

theorem mem_runs {i : Nat} : ∀ {es : List Event}, i ∈ runs es ↔ Event.run i ∈ es := by
  intro es
  induction es with
  | nil => simp [runs]
  | cons e es ih => cases e <;> simp [runs, ih]

/-- An operation in progress with the nodes it owns. -/
abbrev G := Pc × List Nat

/-- Callbacks the operation may still run. -/
def pendOf : G → List Nat
  | (.cancel2 _ _, r) => r
  | (.cancel3 _ _, r) => r.tail
  | (.sub0 i, _) => [i]
  | (.sub1 i, _) => [i]
  | (.sub2 i, _) => [i]
  | (.sub3 i, _) => [i]
  | _ => []

/-- Handles being destroyed, before unlinking. -/
def delOf : G → List Nat
  | (.del0 i, _) => [i]
  | (.del1 i, _) => [i]
  | _ => []

def IsTrav : Pc → Prop
  | .cancel2 _ _ => True
  | .cancel3 _ _ => True
  | _ => False

def OpOk (s : St) (L : List Nat) : G → Prop
  | (.cancel0 x, r) => r = [] ∧ Event.cancelCall x ∈ s.log
  | (.cancel1 x, r) => r = [] ∧ Event.cancelCall (some x) ∈ s.log
  | (.cancel2 _ n, r) => n = r.head? ∧ SL s.heap r ∧ s.flag = true
  | (.cancel3 _ n, r) => r.head? = some n ∧ SL s.heap r ∧ s.flag = true ∧ Event.run n ∈ s.log
  | (.sub0 _, r) => r = []
  | (.sub1 i, r) => r = [i] ∧ ∃ nx, s.heap i = some ⟨none, nx⟩
  | (.sub2 _, r) => r = [] ∧ s.flag = true
  | (.sub3 i, r) => r = [i] ∧ s.flag = true
  | (.del0 i, r) => r = [] ∧ (s.flag = false → i ∈ L) ∧ Event.delCall i ∈ s.log
  | (.del1 i, r) => r = [] ∧ (s.flag = false → i ∈ L) ∧ Event.delCall i ∈ s.log
  | (.del2 i, r) => r = [i]

/-- How often `j` is run, registered or about to be run. -/
def X (s : St) (L : List Nat) (gs : List G) (j : Nat) : Nat :=
  (runs s.log).count j + L.count j + (gs.flatMap pendOf).count j

structure Core (s : St) (L : List Nat) (gs : List G) : Prop where
  ops : s.ops = gs.map Prod.fst
  alive : s.dead = false
  flag : s.flag = s.status.isSome
  empty : s.flag = true → L = []
  head : s.head = L.head?
  dl : DL s.heap none L
  own : ∀ j, L.count j + (gs.flatMap Prod.snd).count j = if (s.heap j).isSome then 1 else 0
  pend : ∀ j, X s L gs j ≤ 1 ∧ (0 < X s L gs j → j < s.next)
  hnd : ∀ j, s.handles.count j + (gs.flatMap delOf).count j ≤ 1
  hndL : ∀ i ∈ s.handles, s.flag = false → i ∈ L
  runs : runs s.log ≠ [] → s.flag = true
  opok : ∀ g ∈ gs, OpOk s L g
  del2 : ∀ i, (∃ r, (Pc.del2 i, r) ∈ gs) → i < s.next ∧ X s L gs i = 0
  sub : ∀ i, Event.subRet i ∈ s.log → i ∈ Conc.runs s.log ∨ i ∈ L ∨ (∃ g ∈ gs, IsTrav g.1 ∧ i ∈ pendOf g) ∨
    Event.delCall i ∈ s.log
  delRet : ∀ i, Event.delRet i ∈ s.log → s.flag = true ∨ (i < s.next ∧ X s L gs i = 0)
  cret : ∀ x, Event.cancelRet (some x) ∈ s.log → s.flag = true
  stat : ∀ x, s.status = some x → Event.cancelCall (some x) ∈ s.log

/-- Bound on the number of steps left of an operation. -/
def wt : G → Nat
  | (.cancel0 _, _) => 3
  | (.cancel1 _, _) => 2
  | (.cancel2 _ _, r) => 1 + 2 * r.length
  | (.cancel3 _ _, r) => 2 * r.length
  | (.sub0 _, _) => 4
  | (.sub1 _, _) => 3
  | (.sub2 _, _) => 1
  | (.sub3 _, _) => 1
  | (.del0 _, _) => 3
  | (.del1 _, _) => 2
  | (.del2 _, _) => 1

/-- Bound on the number of steps left. -/
def W (L : List Nat) (gs : List G) : Nat := (gs.map wt).sum + 2 * L.length

/-- How a step may change the state. -/
structure Mono (s : St) (L : List Nat) (gs : List G) (s' : St) (L' : List Nat) (gs' : List G) : Prop where
  next : s.next ≤ s'.next
  x : ∀ j, j < s.next → X s' L' gs' j ≤ X s L gs j
  status : ∀ x, s.status = some x → s'.status = some x
  runs : ∀ i, i ∈ Conc.runs s.log → i ∈ Conc.runs s'.log
  trav : s.flag = true → ∀ i, (∃ g ∈ gs, IsTrav g.1 ∧ i ∈ pendOf g) →
    i ∈ Conc.runs s'.log ∨ ∃ g ∈ gs', IsTrav g.1 ∧ i ∈ pendOf g
  sub : s.flag = true → ∀ i, Event.subRet i ∈ s'.log → Event.subRet i ∈ s.log ∨ i ∈ Conc.runs s'.log
  log : ∀ e, e ∈ s.log → e ∈ s'.log

theorem opok_frame {s s' : St} {L L' : List Nat} {g : G} (h : OpOk s L g)
    (hh : ∀ x ∈ g.2, s'.heap x = s.heap x) (hf : s.flag = true → s'.flag = true)
    (hd : ∀ i ∈ delOf g, s'.flag = false → i ∈ L → i ∈ L') (hl : ∀ e, e ∈ s.log → e ∈ s'.log) : OpOk s' L' g := by
  obtain ⟨pc, r⟩ := g
  dsimp only at hh
  have hf' : s'.flag = false → s.flag = false := by
    intro h1
    cases h2 : s.flag with
    | false => rfl
    | true => rw [hf h2] at h1; cases h1
  cases pc with
  | cancel0 x => exact ⟨h.1, hl _ h.2⟩
  | cancel1 x => exact ⟨h.1, hl _ h.2⟩
  | cancel2 x n => exact ⟨h.1, SL_congr hh h.2.1, hf h.2.2⟩
  | cancel3 x n => exact ⟨h.1, SL_congr hh h.2.1, hf h.2.2.1, hl _ h.2.2.2⟩
  | sub0 i => exact h
  | sub1 i =>
    obtain ⟨h1, nx, h2⟩ := h
    exact ⟨h1, nx, by rw [hh i (by rw [h1]; simp)]; exact h2⟩
  | sub2 i => exact ⟨h.1, hf h.2⟩
  | sub3 i => exact ⟨h.1, hf h.2⟩
  | del0 i => exact ⟨h.1, fun h1 => hd i (by simp [delOf]) h1 (h.2.1 (hf' h1)), hl _ h.2.2⟩
  | del1 i => exact ⟨h.1, fun h1 => hd i (by simp [delOf]) h1 (h.2.1 (hf' h1)), hl _ h.2.2⟩
  | del2 i => exact h

theorem flag_mono {s s' : St} (h : ∀ x, s.status = some x → s'.status = some x) (hf : s.flag = s.status.isSome)
    (hf' : s'.flag = s'.status.isSome) : s.flag = true → s'.flag = true := by
  intro h1
  rw [hf, Option.isSome_iff_exists] at h1
  obtain ⟨x, hx⟩ := h1
  rw [hf', h x hx]; rfl

/-- One step of the operation `g`, which becomes `o`. -/
theorem core_step {s s' : St} {L L' : List Nat} {A B o : List G} {g : G} (c : Core s L (A ++ g :: B))
    (hops : s'.ops = (A ++ (o ++ B)).map Prod.fst) (hnext : s'.next = s.next)
    (hflag : s'.flag = s'.status.isSome) (hstm : ∀ x, s.status = some x → s'.status = some x)
    (hempty : s'.flag = true → L' = []) (hhead : s'.head = L'.head?) (hdl : DL s'.heap none L')
    (hheap : ∀ x, x ∉ L → x ∉ g.2 → (s.heap x).isSome → s'.heap x = s.heap x)
    (hown : ∀ j, (L'.count j + (o.flatMap Prod.snd).count j) + (if (s.heap j).isSome then 1 else 0) =
      (L.count j + g.2.count j) + (if (s'.heap j).isSome then 1 else 0))
    (hpend : ∀ j, (runs s'.log).count j + L'.count j + (o.flatMap pendOf).count j ≤
      (runs s.log).count j + L.count j + (pendOf g).count j)
    (hhnd : ∀ j, s'.handles.count j + (o.flatMap delOf).count j ≤ 1 ∨
      s'.handles.count j + (o.flatMap delOf).count j ≤ s.handles.count j + (delOf g).count j)
    (hhnd1 : ∀ j, s.handles.count j + (delOf g).count j < s'.handles.count j + (o.flatMap delOf).count j →
      s.handles.count j + ((A ++ g :: B).flatMap delOf).count j = 0)
    (hndL : ∀ i ∈ s'.handles, s'.flag = false → i ∈ L')
    (hkeep : ∀ i, s'.flag = false → i ∈ L → i ∉ L' → i ∈ delOf g)
    (hruns : runs s'.log ≠ [] → s'.flag = true)
    (hopok : ∀ g' ∈ o, OpOk s' L' g')
    (hdel2 : ∀ i, (∃ r, (Pc.del2 i, r) ∈ o) → 0 < L.count i ∧
      (runs s'.log).count i + L'.count i + (o.flatMap pendOf).count i = 0)
    (hsub : ∀ i, Event.subRet i ∈ s'.log → Event.subRet i ∈ s.log ∨ i ∈ Conc.runs s'.log ∨ i ∈ L')
    (hsub1 : ∀ i, i ∈ Conc.runs s.log → i ∈ Conc.runs s'.log)
    (hsub2 : IsTrav g.1 → ∀ i, i ∈ pendOf g → i ∈ Conc.runs s'.log ∨ ∃ g' ∈ o, IsTrav g'.1 ∧ i ∈ pendOf g')
    (hsub3 : ∀ i, i ∈ L → i ∈ L' ∨ (∃ g' ∈ o, IsTrav g'.1 ∧ i ∈ pendOf g') ∨ Event.delCall i ∈ s'.log)
    (hlog : ∀ e, e ∈ s.log → e ∈ s'.log)
    (hdelRet : ∀ i, Event.delRet i ∈ s'.log → Event.delRet i ∈ s.log ∨ s'.flag = true ∨ g.1 = Pc.del2 i)
    (hcr : ∀ x, Event.cancelRet (some x) ∈ s'.log → Event.cancelRet (some x) ∈ s.log ∨ s'.flag = true)
    (hst : ∀ x, s'.status = some x → s.status = some x ∨ Event.cancelCall (some x) ∈ s'.log)
    (hdead : s'.dead = s.dead) (hW : W L' o < W L [g]) :
    Core s' L' (A ++ (o ++ B)) ∧ Mono s L (A ++ g :: B) s' L' (A ++ (o ++ B)) ∧
      W L' (A ++ (o ++ B)) < W L (A ++ g :: B) := by
  have hfm := flag_mono hstm c.flag hflag
  have hX : ∀ j, X s' L' (A ++ (o ++ B)) j ≤ X s L (A ++ g :: B) j := by
    intro j
    have := hpend j
    unfold X
    simp only [List.flatMap_append, List.flatMap_cons, List.count_append]
    omega
  have hothers : ∀ g' ∈ A ++ B, g' ∈ A ++ g :: B := by
    intro g' h
    rcases List.mem_append.1 h with h | h
    · simp [h]
    · simp [h]
  have hmem : ∀ g', g' ∈ A ++ (o ++ B) ↔ g' ∈ A ++ B ∨ g' ∈ o := by
    intro g'
    simp only [List.mem_append]
    constructor
    · rintro (h | h | h)
      · exact Or.inl (Or.inl h)
      · exact Or.inr h
      · exact Or.inl (Or.inr h)
    · rintro ((h | h) | h)
      · exact Or.inl h
      · exact Or.inr (Or.inr h)
      · exact Or.inr (Or.inl h)
  have hdisj : ∀ g' ∈ A ++ B, ∀ x ∈ g'.2, x ∉ L ∧ x ∉ g.2 ∧ (s.heap x).isSome := by
    intro g' h x hx
    have ho := c.own x
    simp only [List.flatMap_append, List.flatMap_cons, List.count_append] at ho
    have h1 : 0 < ((A.flatMap Prod.snd).count x + (B.flatMap Prod.snd).count x) := by
      rw [← List.count_append, ← List.flatMap_append, List.count_pos_iff]
      exact List.mem_flatMap.2 ⟨g', h, hx⟩
    by_cases hs : (s.heap x).isSome
    · rw [if_pos hs] at ho
      refine ⟨fun hc => ?_, fun hc => ?_, hs⟩
      · have := List.count_pos_iff.2 hc; omega
      · have := List.count_pos_iff.2 hc; omega
    · rw [if_neg hs] at ho; omega
  have htrav : ∀ i, (∃ g' ∈ A ++ g :: B, IsTrav g'.1 ∧ i ∈ pendOf g') →
      i ∈ Conc.runs s'.log ∨ ∃ g' ∈ A ++ (o ++ B), IsTrav g'.1 ∧ i ∈ pendOf g' := by
    rintro i ⟨g', h1, h2, h3⟩
    have : g' = g ∨ g' ∈ A ++ B := by
      simp only [List.mem_append, List.mem_cons] at h1 ⊢
      rcases h1 with h | h | h
      · exact Or.inr (Or.inl h)
      · exact Or.inl h
      · exact Or.inr (Or.inr h)
    rcases this with rfl | h
    · rcases hsub2 h2 i h3 with h | ⟨g'', h4, h5⟩
      · exact Or.inl h
      · exact Or.inr ⟨g'', (hmem g'').2 (Or.inr h4), h5⟩
    · exact Or.inr ⟨g', (hmem g').2 (Or.inl h), h2, h3⟩
  refine ⟨⟨hops, by rw [hdead]; exact c.alive, hflag, hempty, hhead, hdl, ?_, ?_, ?_, hndL, hruns, ?_, ?_, ?_, ?_, ?_, ?_⟩,
    ⟨by omega, fun j _ => hX j, hstm, hsub1, fun _ => htrav, ?_, hlog⟩, ?_⟩
  · intro j
    have h1 := hown j
    have h2 := c.own j
    simp only [List.flatMap_append, List.flatMap_cons, List.count_append] at h2 ⊢
    omega
  · intro j
    have h1 := hX j
    have h2 := c.pend j
    refine ⟨by omega, fun h3 => ?_⟩
    rw [hnext]
    exact h2.2 (by omega)
  · intro j
    have h1 := hhnd j
    have h2 := c.hnd j
    have h3 := hhnd1 j
    simp only [List.flatMap_append, List.flatMap_cons, List.count_append] at h2 h3 ⊢
    omega
  · intro g' hg'
    rcases (hmem g').1 hg' with h | h
    · refine opok_frame (c.opok g' (hothers g' h)) ?_ hfm ?_ hlog
      · intro x hx
        obtain ⟨d1, d2, d3⟩ := hdisj g' h x hx
        exact hheap x d1 d2 d3
      · intro i hi hf hL
        by_contra hc
        have hdg := hkeep i hf hL hc
        have h2 := c.hnd i
        have h3 : 0 < (A.flatMap delOf).count i + (B.flatMap delOf).count i := by
          rw [← List.count_append, ← List.flatMap_append, List.count_pos_iff]
          exact List.mem_flatMap.2 ⟨g', h, hi⟩
        have h4 := List.count_pos_iff.2 hdg
        simp only [List.flatMap_append, List.flatMap_cons, List.count_append] at h2
        omega
    · exact hopok g' h
  · rintro i ⟨r, hr⟩
    rw [hnext]
    rcases (hmem _).1 hr with h | h
    · obtain ⟨h1, h2⟩ := c.del2 i ⟨r, hothers _ h⟩
      have := hX i
      exact ⟨h1, by omega⟩
    · obtain ⟨h1, h2⟩ := hdel2 i ⟨r, h⟩
      have h3 := c.pend i
      have h4 : (A.flatMap pendOf).count i + (B.flatMap pendOf).count i = 0 := by
        have := h3.1
        unfold X at this
        simp only [List.flatMap_append, List.flatMap_cons, List.count_append] at this
        omega
      refine ⟨h3.2 (by unfold X; omega), ?_⟩
      unfold X
      simp only [List.flatMap_append, List.count_append]
      omega
  · intro i hi
    rcases hsub i hi with h | h | h
    · rcases c.sub i h with h | h | h | h
      · exact Or.inl (hsub1 i h)
      · rcases hsub3 i h with h | ⟨g', h1, h2⟩ | h
        · exact Or.inr (Or.inl h)
        · exact Or.inr (Or.inr (Or.inl ⟨g', (hmem g').2 (Or.inr h1), h2⟩))
        · exact Or.inr (Or.inr (Or.inr h))
      · rcases htrav i h with h | h
        · exact Or.inl h
        · exact Or.inr (Or.inr (Or.inl h))
      · exact Or.inr (Or.inr (Or.inr (hlog _ h)))
    · exact Or.inl h
    · exact Or.inr (Or.inl h)
  · intro i hi
    have hdead : (i < s.next ∧ X s L (A ++ g :: B) i = 0) → (i < s'.next ∧ X s' L' (A ++ (o ++ B)) i = 0) := by
      rintro ⟨h1, h2⟩
      have := hX i
      exact ⟨by omega, by omega⟩
    rcases hdelRet i hi with h | h | h
    · rcases c.delRet i h with h | h
      · exact Or.inl (hfm h)
      · exact Or.inr (hdead h)
    · exact Or.inl h
    · obtain ⟨pc, r⟩ := g
      dsimp only at h
      subst h
      exact Or.inr (hdead (c.del2 i ⟨r, by simp⟩))
  · intro x hx
    rcases hcr x hx with h | h
    · exact hfm (c.cret x h)
    · exact h
  · intro x hx
    rcases hst x hx with h | h
    · exact hlog _ (c.stat x h)
    · exact h
  · intro hf i hi
    rcases hsub i hi with h | h | h
    · exact Or.inl h
    · exact Or.inr h
    · rw [hempty (hfm hf)] at h
      simp at h
  · unfold W at hW ⊢
    simp only [List.map_append, List.map_cons, List.sum_append, List.sum_cons, List.map_nil, List.sum_nil] at hW ⊢
    omega

/-- Starting the operations `o` (at most one). -/
theorem core_add {s s' : St} {L : List Nat} {gs o : List G} (c : Core s L gs)
    (hops : s'.ops = s.ops ++ o.map Prod.fst) (hnext : s.next ≤ s'.next)
    (hflag : s'.flag = s.flag) (hstatus : s'.status = s.status) (hhead : s'.head = s.head) (hheap : s'.heap = s.heap)
    (hdead : s'.dead = s.dead) (hown : ∀ g ∈ o, g.2 = []) (hruns : runs s'.log = runs s.log)
    (hpend : ∀ j, j < s.next → (o.flatMap pendOf).count j = 0)
    (hpend' : ∀ j, (o.flatMap pendOf).count j ≤ 1 ∧ (0 < (o.flatMap pendOf).count j → j < s'.next))
    (hhnd : ∀ j, s'.handles.count j + (o.flatMap delOf).count j ≤ s.handles.count j)
    (hopok : ∀ g' ∈ o, OpOk s' L g') (hdel2 : ∀ i r, (Pc.del2 i, r) ∉ o)
    (hlog : ∀ e, e ∈ s.log → e ∈ s'.log)
    (hlog' : ∀ e, e ∈ s'.log → e ∈ s.log ∨ (∀ i, e ≠ .subRet i) ∧ (∀ i, e ≠ .delRet i) ∧ ∀ i, e ≠ .cancelRet i) :
    Core s' L (gs ++ o) ∧ Mono s L gs s' L (gs ++ o) := by
  have hX : ∀ j, j < s.next → X s' L (gs ++ o) j = X s L gs j := by
    intro j hj
    unfold X
    rw [hruns, List.flatMap_append, List.count_append, hpend j hj]
    omega
  have hX' : ∀ j, X s' L (gs ++ o) j = X s L gs j + (o.flatMap pendOf).count j := by
    intro j
    unfold X
    rw [hruns, List.flatMap_append, List.count_append]
    omega
  have hown' : o.flatMap Prod.snd = [] := by
    rw [List.flatMap_eq_nil_iff]
    exact hown
  have hsubret : ∀ i, Event.subRet i ∈ s'.log → Event.subRet i ∈ s.log := by
    intro i hi
    rcases hlog' _ hi with h | h
    · exact h
    · exact absurd rfl (h.1 i)
  refine ⟨⟨?_, by rw [hdead]; exact c.alive, ?_, ?_, ?_, ?_, ?_, ?_, ?_, ?_, ?_, ?_, ?_, ?_, ?_, ?_, ?_⟩, ⟨hnext, ?_, ?_, ?_, ?_, ?_, hlog⟩⟩
  · rw [hops, c.ops, List.map_append]
  · rw [hflag, hstatus]; exact c.flag
  · rw [hflag]; exact c.empty
  · rw [hhead]; exact c.head
  · rw [hheap]; exact c.dl
  · intro j
    rw [hheap, List.flatMap_append, hown', List.append_nil]
    exact c.own j
  · intro j
    have h1 := c.pend j
    have h2 := hpend' j
    have h3 := hX' j
    by_cases hj : j < s.next
    · rw [hX j hj]
      exact ⟨h1.1, fun _ => by omega⟩
    · have : X s L gs j = 0 := by
        by_contra hc
        exact hj (h1.2 (by omega))
      rw [h3, this, Nat.zero_add]
      exact h2
  · intro j
    have h1 := c.hnd j
    have h2 := hhnd j
    rw [List.flatMap_append, List.count_append]
    omega
  · intro i hi
    rw [hflag]
    have h2 := hhnd i
    have h3 := List.count_pos_iff.2 hi
    exact c.hndL i (List.count_pos_iff.1 (by omega))
  · rw [hruns, hflag]; exact c.runs
  · intro g hg
    rcases List.mem_append.1 hg with h | h
    · exact opok_frame (c.opok g h) (fun _ _ => by rw [hheap]) (fun h => by rw [hflag]; exact h) (fun _ _ _ h => h) hlog
    · exact hopok g h
  · rintro i ⟨r, hr⟩
    rcases List.mem_append.1 hr with h | h
    · obtain ⟨h1, h2⟩ := c.del2 i ⟨r, h⟩
      rw [hX i h1]
      exact ⟨by omega, h2⟩
    · exact absurd h (hdel2 i r)
  · intro i hi
    rw [hruns]
    rcases c.sub i (hsubret i hi) with h | h | ⟨g, h1, h2⟩ | h
    · exact Or.inl h
    · exact Or.inr (Or.inl h)
    · exact Or.inr (Or.inr (Or.inl ⟨g, by simp [h1], h2⟩))
    · exact Or.inr (Or.inr (Or.inr (hlog _ h)))
  · intro i hi
    rcases hlog' _ hi with h | h
    · rcases c.delRet i h with h | ⟨h1, h2⟩
      · rw [hflag]; exact Or.inl h
      · rw [hX i h1]
        exact Or.inr ⟨by omega, h2⟩
    · exact absurd rfl (h.2.1 i)
  · intro x hx
    rcases hlog' _ hx with h | h
    · rw [hflag]; exact c.cret x h
    · exact absurd rfl (h.2.2 _)
  · intro x hx
    exact hlog _ (c.stat x (by rw [← hstatus]; exact hx))
  · intro j hj
    rw [hX j hj]
    exact Nat.le_refl _
  · intro x hx; rw [hstatus]; exact hx
  · intro i hi; rw [hruns]; exact hi
  · rintro _ i ⟨g, h1, h2⟩
    exact Or.inr ⟨g, by simp [h1], h2⟩
  · intro _ i hi
    exact Or.inl (hsubret i hi)

/-! ## Steps -/

theorem free_eq {h : Nat → Option Node} {i : Nat} (hi : (h i).isSome) :
    free h i = some (fun j => if j = i then none else h j) := by
  obtain ⟨n, hn⟩ := Option.isSome_iff_exists.1 hi
  unfold free
  rw [hn]
  simp only [Option.bind_eq_bind, Option.bind_some]

theorem own_of_mem {s : St} {L : List Nat} {A B : List G} {g : G} (c : Core s L (A ++ g :: B)) {i : Nat}
    (hi : i ∈ g.2) : (s.heap i).isSome ∧ L.count i = 0 ∧ g.2.count i = 1 := by
  have ho := c.own i
  have h1 := List.count_pos_iff.2 hi
  simp only [List.flatMap_append, List.flatMap_cons, List.count_append] at ho
  by_cases hs : (s.heap i).isSome
  · rw [if_pos hs] at ho
    exact ⟨hs, by omega, by omega⟩
  · rw [if_neg hs] at ho; omega

theorem nodup_of_core {s : St} {L : List Nat} {gs : List G} (c : Core s L gs) : L.Nodup := by
  rw [List.nodup_iff_count]
  intro j
  have ho := c.own j
  by_cases hs : (s.heap j).isSome
  · rw [if_pos hs] at ho; omega
  · rw [if_neg hs] at ho; omega

/-- The node of a `Subscribe` call which has just started is not allocated. -/
theorem fresh_of_sub0 {s : St} {L : List Nat} {A B : List G} {i : Nat} (c : Core s L (A ++ (.sub0 i, []) :: B)) :
    s.heap i = none := by
  cases hs : s.heap i with
  | none => rfl
  | some n =>
    exfalso
    have ho := c.own i
    have hx := (c.pend i).1
    unfold X at hx
    simp only [List.flatMap_append, List.flatMap_cons, List.count_append, pendOf, hs, List.count_singleton,
      List.count_nil, Option.isSome_some, if_true, beq_self_eq_true] at ho hx
    have h1 : L.count i = 0 := by omega
    have h2 : 0 < ((A ++ B).flatMap Prod.snd).count i := by
      rw [List.flatMap_append, List.count_append]; omega
    obtain ⟨g, hg, hi⟩ := List.mem_flatMap.1 (List.count_pos_iff.1 h2)
    have hg' : g ∈ A ++ (.sub0 i, []) :: B := by
      rcases List.mem_append.1 hg with h | h
      · simp [h]
      · simp [h]
    have h3 : ((A ++ B).flatMap pendOf).count i = 0 := by
      rw [List.flatMap_append, List.count_append]; omega
    have h4 : i ∉ pendOf g := fun hc => List.count_eq_zero.1 h3 (List.mem_flatMap.2 ⟨g, hg, hc⟩)
    have h5 : i ∉ runs s.log := fun hc => by
      have := List.count_pos_iff.2 hc
      omega
    have hop := c.opok g hg'
    obtain ⟨pc, r⟩ := g
    cases pc <;> simp only [OpOk, pendOf] at hop h4 hi
    case cancel2 => exact h4 hi
    case cancel3 =>
      cases r with
      | nil => simp at hi
      | cons y ys =>
        simp only [List.head?_cons, Option.some.injEq] at hop
        rcases List.mem_cons.1 hi with rfl | hi
        · rw [mem_runs, hop.1] at h5
          exact h5 hop.2.2.2
        · exact h4 hi
    case del2 j =>
      rw [hop] at hi
      simp only [List.mem_singleton] at hi
      subst hi
      have := (c.del2 i ⟨r, hg'⟩).2
      unfold X at this
      simp only [List.flatMap_append, List.flatMap_cons, List.count_append, pendOf, List.count_singleton,
        beq_self_eq_true, if_true] at this
      omega
    all_goals simp_all

/-- Steps which only change the log and the program counter. -/
theorem core_quiet {s s' : St} {L : List Nat} {A B o : List G} {g : G} (c : Core s L (A ++ g :: B))
    (hs' : s' = { s with ops := s'.ops, log := s'.log })
    (hops : s'.ops = (A ++ (o ++ B)).map Prod.fst)
    (hown : o.flatMap Prod.snd = g.2)
    (hpend : ∀ j, (runs s'.log).count j + (o.flatMap pendOf).count j ≤ (runs s.log).count j + (pendOf g).count j)
    (hhnd : ∀ j, (o.flatMap delOf).count j ≤ (delOf g).count j)
    (hruns : runs s'.log ≠ [] → s.flag = true)
    (hopok : ∀ g' ∈ o, OpOk s' L g') (hdel2 : ∀ i r, (Pc.del2 i, r) ∉ o)
    (hsub : ∀ i, Event.subRet i ∈ s'.log → Event.subRet i ∈ s.log ∨ i ∈ Conc.runs s'.log)
    (hsub2 : IsTrav g.1 → ∀ i, i ∈ pendOf g → i ∈ Conc.runs s'.log ∨ ∃ g' ∈ o, IsTrav g'.1 ∧ i ∈ pendOf g')
    (hlog : ∀ e, e ∈ s.log → e ∈ s'.log)
    (hdelRet : ∀ i, Event.delRet i ∈ s'.log → Event.delRet i ∈ s.log ∨ s.flag = true)
    (hcr : ∀ x, Event.cancelRet (some x) ∈ s'.log → Event.cancelRet (some x) ∈ s.log ∨ s.flag = true)
    (hW : (o.map wt).sum < wt g) :
    ∃ gs', Core s' L gs' ∧ Mono s L (A ++ g :: B) s' L gs' ∧ W L gs' < W L (A ++ g :: B) := by
  have e1 : s'.flag = s.flag := by rw [hs']
  have e2 : s'.status = s.status := by rw [hs']
  have e3 : s'.head = s.head := by rw [hs']
  have e4 : s'.heap = s.heap := by rw [hs']
  have e5 : s'.handles = s.handles := by rw [hs']
  have e6 : s'.next = s.next := by rw [hs']
  refine ⟨_, core_step c hops e6 ?_ ?_ ?_ ?_ ?_ ?_ ?_ ?_ ?_ ?_ ?_ ?_ ?_ hopok ?_ ?_ ?_ hsub2 ?_ hlog ?_ ?_ ?_ (by rw [hs'])
    (by unfold W; simp only [List.map_cons, List.map_nil, List.sum_cons, List.sum_nil]; omega)⟩
  · rw [e1, e2]; exact c.flag
  · intro x; rw [e2]; exact id
  · rw [e1]; exact c.empty
  · rw [e3]; exact c.head
  · rw [e4]; exact c.dl
  · intro x _ _ _; rw [e4]
  · intro j; rw [e4, hown]
  · intro j; have := hpend j; omega
  · intro j; have := hhnd j; rw [e5]; omega
  · intro j h; have := hhnd j; rw [e5] at h; omega
  · rw [e5, e1]; exact c.hndL
  · intro i _ h1 h2; exact absurd h1 h2
  · rw [e1]; exact hruns
  · rintro i ⟨r, hr⟩; exact absurd hr (hdel2 i r)
  · intro i hi
    rcases hsub i hi with h | h
    · exact Or.inl h
    · exact Or.inr (Or.inl h)
  · intro i hi
    rw [mem_runs] at hi ⊢
    exact hlog _ hi
  · intro i hi; exact Or.inl hi
  · intro i hi
    rcases hdelRet i hi with h | h
    · exact Or.inl h
    · rw [e1]; exact Or.inr (Or.inl h)
  · intro x hx
    rw [e1]; exact hcr x hx
  · intro x hx; rw [e2] at hx; exact Or.inl hx

def setOps (s : St) (ops : List Pc) : St := { s with ops := ops }

theorem core_pc {s : St} {L : List Nat} {A B : List G} {pc : Pc} {r : List Nat} {stale : Bool}
    (c : Core s L (A ++ (pc, r) :: B)) :
    ∃ out : Out, stepPc s stale pc = some out ∧ ∃ L' gs',
      Core (setOps out.st (A.map Prod.fst ++ (out.pc.toList ++ B.map Prod.fst))) L' gs' ∧
      Mono s L (A ++ (pc, r) :: B) (setOps out.st (A.map Prod.fst ++ (out.pc.toList ++ B.map Prod.fst))) L' gs' ∧
      W L' gs' < W L (A ++ (pc, r) :: B) := by
  have hop := c.opok (pc, r) (by simp)
  have cf := c.flag
  have ce := c.empty
  have cn := c.hndL
  have cr := c.runs
  have cd := c.dl
  cases pc with
  | cancel0 x =>
    obtain ⟨hr, hl⟩ := hop
    subst hr
    cases x with
    | none =>
      refine ⟨_, rfl, L, core_quiet (o := []) c rfl ?_ ?_ ?_ ?_ ?_ ?_ ?_ ?_ ?_ ?_ ?_ ?_ ?_⟩ <;>
        simp [setOps, runs, pendOf, delOf, wt, W, IsTrav] <;> first | exact c.runs | (intros; simp_all)
    | some x =>
      rw [stepPc]
      by_cases hf : (s.flag && !stale) = true
      · rw [if_pos hf]
        have hf' : s.flag = true := by revert hf; cases s.flag <;> simp
        refine ⟨_, rfl, L, core_quiet (o := []) c rfl ?_ ?_ ?_ ?_ ?_ ?_ ?_ ?_ ?_ ?_ ?_ ?_ ?_⟩ <;>
          simp [setOps, runs, pendOf, delOf, wt, W, IsTrav, hf'] <;> intros <;> simp_all
      · rw [if_neg hf]
        refine ⟨_, rfl, L, core_quiet (o := [(.cancel1 x, [])]) c rfl ?_ ?_ ?_ ?_ ?_ ?_ ?_ ?_ ?_ ?_ ?_ ?_ ?_⟩ <;>
          simp [setOps, runs, pendOf, delOf, wt, W, IsTrav, OpOk, hl] <;> first | exact c.runs | (intros; simp_all)
  | cancel1 x =>
    obtain ⟨hr, hl⟩ := hop
    subst hr
    rw [stepPc]
    cases hst : s.status with
    | some y =>
      have hf : s.flag = true := by rw [c.flag, hst]; rfl
      refine ⟨_, rfl, L, core_quiet (o := [(.cancel2 x none, [])]) c rfl ?_ ?_ ?_ ?_ ?_ ?_ ?_ ?_ ?_ ?_ ?_ ?_ ?_⟩ <;>
        simp [setOps, runs, pendOf, delOf, wt, W, IsTrav, OpOk, SL, hf] <;> intros <;> simp_all
    | none =>
      have hf : s.flag = false := by rw [c.flag, hst]; rfl
      refine ⟨_, rfl, [], _, core_step (o := [(.cancel2 x s.head, L)]) c ?_ ?_ ?_ ?_ ?_ ?_ ?_ ?_ ?_ ?_ ?_ ?_ ?_ ?_ ?_ ?_
        ?_ ?_ ?_ ?_ ?_ ?_ ?_ ?_ ?_ ?_ ?_⟩ <;>
        simp [setOps, runs, pendOf, delOf, wt, W, IsTrav, OpOk, hf, DL, hst, hl, c.head, SL_of_DL c.dl]
      all_goals grind
  | cancel2 x n =>
    obtain ⟨hr, hsl, hf⟩ := hop
    have hL := c.empty hf
    cases n with
    | none =>
      have : r = [] := by
        cases r with
        | nil => rfl
        | cons _ _ => cases hr
      subst this
      clear hr
      refine ⟨_, rfl, L, core_quiet (o := []) c rfl ?_ ?_ ?_ ?_ ?_ ?_ ?_ ?_ ?_ ?_ ?_ ?_ ?_⟩ <;>
        simp [setOps, runs, pendOf, delOf, wt, W, IsTrav, hf] <;> intros <;> simp_all
    | some n =>
      cases r with
      | nil => simp at hr
      | cons y ys =>
        simp only [List.head?_cons, Option.some.injEq] at hr
        subst hr
        obtain ⟨p, hp⟩ := hsl.1
        rw [stepPc, hp]
        refine ⟨_, rfl, L, core_quiet (o := [(.cancel3 x n, n :: ys)]) c rfl ?_ ?_ ?_ ?_ ?_ ?_ ?_ ?_ ?_ ?_ ?_ ?_ ?_⟩ <;>
          simp [setOps, runs, pendOf, delOf, wt, W, IsTrav, OpOk, hf, hsl]
        · intro j; simp only [List.count_cons]; omega
        all_goals grind
  | cancel3 x n =>
    obtain ⟨hr, hsl, hf, -⟩ := hop
    have hL := c.empty hf
    subst hL
    cases r with
    | nil => simp at hr
    | cons y ys =>
      simp only [List.head?_cons, Option.some.injEq] at hr
      subst hr
      obtain ⟨p, hp⟩ := hsl.1
      obtain ⟨o1, _, o3⟩ := own_of_mem c (i := y) (by simp)
      rw [stepPc, hp]
      simp only [Option.bind_eq_bind, Option.bind_some]
      rw [free_eq o1]
      have hyy : y ∉ ys := fun hc => by
        have := List.count_pos_iff.2 hc
        simp at o3
        omega
      have hsl' : SL (fun j => if j = y then none else s.heap j) ys :=
        SL_congr (fun x hx => if_neg (show ¬x = y from fun h => hyy (h ▸ hx))) hsl.2
      refine ⟨_, rfl, [], _, core_step (o := [(.cancel2 x ys.head?, ys)]) c ?_ ?_ ?_ ?_ ?_ ?_ ?_ ?_ ?_ ?_ ?_ ?_ ?_ ?_ ?_ ?_
        ?_ ?_ ?_ ?_ ?_ ?_ ?_ ?_ ?_ ?_ ?_⟩ <;>
        simp [setOps, runs, pendOf, delOf, wt, W, IsTrav, OpOk, hf, DL, c.head]
      all_goals try grind
  | sub0 i =>
    obtain rfl := hop
    rw [stepPc]
    by_cases hf : (s.flag && !stale) = true
    · rw [if_pos hf]
      have hf' : s.flag = true := by revert hf; cases s.flag <;> simp
      refine ⟨_, rfl, L, core_quiet (o := [(.sub2 i, [])]) c rfl ?_ ?_ ?_ ?_ ?_ ?_ ?_ ?_ ?_ ?_ ?_ ?_ ?_⟩ <;>
        simp [setOps, runs, pendOf, delOf, wt, W, IsTrav, OpOk, hf'] <;> intros <;> simp_all
    · rw [if_neg hf]
      have hfr := fresh_of_sub0 c
      have hiL : i ∉ L := fun hc => by
        have ho := c.own i
        rw [hfr] at ho
        have := List.count_pos_iff.2 hc
        simp only [Option.isSome_none, Bool.false_eq_true, if_false] at ho
        omega
      have hd' : DL (fun j => if j = i then some (Node.mk none none) else s.heap j) none L :=
        DL_congr (fun x hx => if_neg (show ¬x = i from fun h => hiL (h ▸ hx))) cd
      refine ⟨_, rfl, L, _, core_step (o := [(.sub1 i, [i])]) c ?_ ?_ ?_ ?_ ?_ ?_ ?_ ?_ ?_ ?_ ?_ ?_ ?_ ?_ ?_ ?_
        ?_ ?_ ?_ ?_ ?_ ?_ ?_ ?_ ?_ ?_ ?_⟩ <;>
        simp [setOps, runs, pendOf, delOf, wt, W, IsTrav, OpOk, DL, c.head]
      all_goals try grind
  | sub1 i =>
    obtain ⟨rfl, nx, hn⟩ := hop
    rw [stepPc]
    by_cases hf : s.flag = true
    · rw [if_neg (by simp [hf])]
      refine ⟨_, rfl, L, core_quiet (o := [(.sub3 i, [i])]) c rfl ?_ ?_ ?_ ?_ ?_ ?_ ?_ ?_ ?_ ?_ ?_ ?_ ?_⟩ <;>
        simp [setOps, runs, pendOf, delOf, wt, W, IsTrav, OpOk, hf] <;> intros <;> simp_all
    · rw [if_pos (by simp [hf])]
      replace hf : s.flag = false := by revert hf; cases s.flag <;> simp
      obtain ⟨o1, o2, o3⟩ := own_of_mem c (i := i) (by simp)
      obtain ⟨h', l1, l2, l3, l4⟩ := link_spec (nodup_of_core c) (List.count_eq_zero.1 o2) hn c.head c.dl
      rw [l1]
      simp only [Option.bind_eq_bind, Option.bind_some]
      have hst : s.status = none := by rw [hf] at cf; simpa using cf.symm
      have hiL := List.count_eq_zero.1 o2
      have hih : s.handles.count i = 0 := List.count_eq_zero.2 (fun hc => hiL (cn i hc hf))
      have hid : ((A ++ (Pc.sub1 i, [i]) :: B).flatMap delOf).count i = 0 := by
        rw [List.count_eq_zero]
        intro hc
        obtain ⟨g, hg, hi⟩ := List.mem_flatMap.1 hc
        have hop := c.opok g hg
        obtain ⟨pc, r⟩ := g
        cases pc <;> simp [delOf] at hi
        · subst hi; exact hiL (hop.2.1 hf)
        · subst hi; exact hiL (hop.2.1 hf)
      have hcons : ∀ j, List.count j (i :: s.handles) = s.handles.count j + if j = i then 1 else 0 := by
        intro j
        rw [List.count_cons]
        by_cases h : j = i
        · subst h; simp
        · rw [if_neg h, if_neg (by simpa using fun h' => h h'.symm)]
      refine ⟨_, rfl, i :: L, _, core_step (o := []) c ?_ ?_ ?_ ?_ ?_ ?_ ?_ ?_ ?_ ?_ ?_ ?_ ?_ ?_ ?_ ?_
        ?_ ?_ ?_ ?_ ?_ ?_ ?_ ?_ ?_ ?_ ?_⟩ <;>
        simp [setOps, runs, pendOf, delOf, wt, W, IsTrav, OpOk, hf, l2]
      all_goals try grind
  | sub2 i =>
    obtain ⟨rfl, hf⟩ := hop
    refine ⟨_, rfl, L, core_quiet (o := []) c rfl ?_ ?_ ?_ ?_ ?_ ?_ ?_ ?_ ?_ ?_ ?_ ?_ ?_⟩ <;>
      simp [setOps, runs, pendOf, delOf, wt, W, IsTrav, hf]
    all_goals try grind
  | sub3 i =>
    obtain ⟨rfl, hf⟩ := hop
    have hL := c.empty hf
    subst hL
    obtain ⟨o1, _, o3⟩ := own_of_mem c (i := i) (by simp)
    obtain ⟨n, hn⟩ := Option.isSome_iff_exists.1 o1
    rw [stepPc, hn]
    simp only [Option.bind_eq_bind, Option.bind_some]
    rw [free_eq o1]
    refine ⟨_, rfl, [], _, core_step (o := []) c ?_ ?_ ?_ ?_ ?_ ?_ ?_ ?_ ?_ ?_ ?_ ?_ ?_ ?_ ?_ ?_
        ?_ ?_ ?_ ?_ ?_ ?_ ?_ ?_ ?_ ?_ ?_⟩ <;>
        simp [setOps, runs, pendOf, delOf, wt, W, IsTrav, OpOk, hf, DL, c.head]
    all_goals try grind
  | del0 i =>
    obtain ⟨rfl, hL, hl⟩ := hop
    rw [stepPc]
    by_cases hf : (s.flag && !stale) = true
    · rw [if_pos hf]
      have hf' : s.flag = true := by revert hf; cases s.flag <;> simp
      refine ⟨_, rfl, L, core_quiet (o := []) c rfl ?_ ?_ ?_ ?_ ?_ ?_ ?_ ?_ ?_ ?_ ?_ ?_ ?_⟩ <;>
        simp [setOps, runs, pendOf, delOf, wt, W, IsTrav, OpOk, hf'] <;> intros <;> simp_all
    · rw [if_neg hf]
      refine ⟨_, rfl, L, core_quiet (o := [(.del1 i, [])]) c rfl ?_ ?_ ?_ ?_ ?_ ?_ ?_ ?_ ?_ ?_ ?_ ?_ ?_⟩ <;>
        simp [setOps, runs, pendOf, delOf, wt, W, IsTrav, OpOk, hl] <;> first | exact c.runs | exact hL | (intros; simp_all)
  | del1 i =>
    obtain ⟨rfl, hL, hl⟩ := hop
    rw [stepPc]
    by_cases hf : s.flag = true
    · rw [if_pos hf]
      refine ⟨_, rfl, L, core_quiet (o := []) c rfl ?_ ?_ ?_ ?_ ?_ ?_ ?_ ?_ ?_ ?_ ?_ ?_ ?_⟩ <;>
        simp [setOps, runs, pendOf, delOf, wt, W, IsTrav, OpOk, hf] <;> intros <;> simp_all
    · rw [if_neg hf]
      replace hf : s.flag = false := by revert hf; cases s.flag <;> simp
      have hiL := hL hf
      have hnd := nodup_of_core c
      obtain ⟨P, Q, rfl⟩ := List.append_of_mem hiL
      obtain ⟨h', l1, l2, l3, l4⟩ := unlink_spec hnd c.head c.dl
      rw [l1]
      simp only [Option.bind_eq_bind, Option.bind_some]
      have hst : s.status = none := by rw [hf] at cf; simpa using cf.symm
      have hih : i ∉ s.handles := fun hc => by
        have h1 := c.hnd i
        have h2 := List.count_pos_iff.2 hc
        simp [delOf] at h1
        omega
      refine ⟨_, rfl, P ++ Q, _, core_step (o := [(.del2 i, [i])]) c ?_ ?_ ?_ ?_ ?_ ?_ ?_ ?_ ?_ ?_ ?_ ?_ ?_ ?_ ?_ ?_
        ?_ ?_ ?_ ?_ ?_ ?_ ?_ ?_ ?_ ?_ ?_⟩ <;>
        simp [setOps, runs, pendOf, delOf, wt, W, IsTrav, OpOk, hf, l2]
      all_goals try grind
  | del2 i =>
    obtain rfl := hop
    obtain ⟨o1, o2, o3⟩ := own_of_mem c (i := i) (by simp)
    rw [stepPc, free_eq o1]
    simp only [Option.bind_eq_bind, Option.bind_some]
    have hd' : DL (fun j => if j = i then none else s.heap j) none L :=
      DL_congr (fun x hx => if_neg (show ¬x = i from fun h => List.count_eq_zero.1 o2 (h ▸ hx))) cd
    refine ⟨_, rfl, L, _, core_step (o := []) c ?_ ?_ ?_ ?_ ?_ ?_ ?_ ?_ ?_ ?_ ?_ ?_ ?_ ?_ ?_ ?_
        ?_ ?_ ?_ ?_ ?_ ?_ ?_ ?_ ?_ ?_ ?_⟩ <;>
        simp [setOps, runs, pendOf, delOf, wt, W, IsTrav, OpOk, DL, c.head]
    all_goals try grind

theorem split_at {gs : List G} : ∀ {k : Nat} {pc : Pc}, (gs.map Prod.fst)[k]? = some pc →
    ∃ A r B, gs = A ++ (pc, r) :: B ∧ k = A.length := by
  induction gs with
  | nil => intro k pc h; simp at h
  | cons g gs ih =>
    intro k pc h
    cases k with
    | zero =>
      simp only [List.map_cons, List.getElem?_cons_zero, Option.some.injEq] at h
      exact ⟨[], g.2, gs, by rw [← h]; rfl, rfl⟩
    | succ k =>
      simp only [List.map_cons, List.getElem?_cons_succ] at h
      obtain ⟨A, r, B, h1, h2⟩ := ih h
      exact ⟨g :: A, r, B, by rw [h1]; rfl, by rw [h2]; rfl⟩

theorem mono_refl {s : St} {L : List Nat} {gs : List G} : Mono s L gs s L gs :=
  ⟨Nat.le_refl _, fun _ _ => Nat.le_refl _, fun _ => id, fun _ => id, fun _ _ h => Or.inr h, fun _ _ h => Or.inl h,
    fun _ => id⟩

theorem freeAll_spec : ∀ (L : List Nat) (h : Nat → Option Node) (f : Nat), L.length ≤ f → L.Nodup → SL h L →
    freeAll h f L.head? = some (fun j => if j ∈ L then none else h j) := by
  intro L
  induction L with
  | nil =>
    intro h f _ _ _
    cases f <;> simp [freeAll]
  | cons x xs ih =>
    intro h f hf hn hs
    cases f with
    | zero => simp at hf
    | succ f =>
      rw [List.nodup_cons] at hn
      obtain ⟨⟨p, hp⟩, hs⟩ := hs
      rw [List.head?_cons, freeAll, hp]
      simp only [Option.bind_eq_bind, Option.bind_some]
      rw [free_eq (by rw [hp]; rfl)]
      simp only [Option.bind_some]
      rw [ih _ f (by simpa using hf) hn.2 (SL_congr (fun y hy => if_neg (show ¬y = x from fun h => hn.1 (h ▸ hy))) hs)]
      congr 1
      funext j
      simp only [List.mem_cons]
      by_cases h1 : j ∈ xs
      · simp [h1]
      · by_cases h2 : j = x
        · simp [h2]
        · simp [h1, h2]

theorem length_le_of_lt {n : Nat} {L : List Nat} (hn : L.Nodup) (hl : ∀ x ∈ L, x < n) : L.length ≤ n := by
  have := List.Nodup.length_le_of_subset (l₂ := List.range n) hn (fun x hx => List.mem_range.2 (hl x hx))
  simpa using this

theorem advance_core {s : St} {L : List Nat} {gs : List G} (c : Core s L gs) (k : Nat) (stale : Bool) :
    ∃ s', advance s k stale = some s' ∧
      ∃ L' gs', Core s' L' gs' ∧ Mono s L gs s' L' gs' ∧ (k < s.ops.length → W L' gs' < W L gs) := by
  unfold advance
  cases hk : s.ops[k]? with
  | none => exact ⟨s, rfl, L, gs, c, mono_refl, fun h => by rw [List.getElem?_eq_none_iff] at hk; omega⟩
  | some pc =>
    dsimp only
    have hk' := hk
    rw [c.ops] at hk'
    obtain ⟨A, r, B, rfl, rfl⟩ := split_at hk'
    obtain ⟨⟨st, pc'⟩, h1, L', gs', h2, h3, h4⟩ := core_pc (stale := stale) c
    rw [h1]
    have e : s.ops = A.map Prod.fst ++ pc :: B.map Prod.fst := by rw [c.ops]; simp
    cases pc' with
    | none =>
      refine ⟨_, rfl, L', gs', ?_⟩
      have : s.ops.eraseIdx A.length = A.map Prod.fst ++ ([] ++ B.map Prod.fst) := by
        rw [e, List.eraseIdx_append_of_length_le (by simp)]
        simp
      rw [this]
      exact ⟨h2, h3, fun _ => h4⟩
    | some pc' =>
      refine ⟨_, rfl, L', gs', ?_⟩
      have : s.ops.set A.length pc' = A.map Prod.fst ++ ([pc'] ++ B.map Prod.fst) := by
        rw [e, List.set_append_right _ _ (by simp)]
        simp
      rw [this]
      exact ⟨h2, h3, fun _ => h4⟩

theorem act_core {s : St} {L : List Nat} {gs : List G} (c : Core s L gs) (a : Act) : ∃ s', act s a = some s' ∧
    ((∃ L' gs', Core s' L' gs' ∧ Mono s L gs s' L' gs') ∨
      (s' = { s with heap := fun _ => none, dead := true } ∧ s.ops = [])) := by
  unfold act
  rw [if_neg (by rw [c.alive]; simp)]
  cases a with
  | startCancel x =>
    refine ⟨_, rfl, Or.inl ⟨L, _, core_add (o := [(.cancel0 x, [])]) c ?_ ?_ ?_ ?_ ?_ ?_ ?_ ?_ ?_ ?_ ?_ ?_ ?_ ?_ ?_ ?_⟩⟩ <;>
      simp [runs, pendOf, delOf, OpOk] <;> grind
  | startSubscribe =>
    refine ⟨_, rfl, Or.inl ⟨L, _, core_add (o := [(.sub0 s.next, [])]) c ?_ ?_ ?_ ?_ ?_ ?_ ?_ ?_ ?_ ?_ ?_ ?_ ?_ ?_ ?_ ?_⟩⟩ <;>
      simp [runs, pendOf, delOf, OpOk] <;> grind
  | startDestroy i =>
    dsimp only
    by_cases hi : i ∈ s.handles
    · rw [if_pos hi]
      have := c.hndL i hi
      refine ⟨_, rfl, Or.inl ⟨L, _, core_add (o := [(.del0 i, [])]) c ?_ ?_ ?_ ?_ ?_ ?_ ?_ ?_ ?_ ?_ ?_ ?_ ?_ ?_ ?_ ?_⟩⟩ <;>
        simp [runs, pendOf, delOf, OpOk] <;> grind
    · rw [if_neg hi]
      exact ⟨s, rfl, Or.inl ⟨L, gs, c, mono_refl⟩⟩
  | detach i =>
    dsimp only
    by_cases hi : i ∈ s.handles
    · rw [if_pos hi]
      refine ⟨_, rfl, Or.inl ⟨L, _, core_add (o := []) c ?_ ?_ ?_ ?_ ?_ ?_ ?_ ?_ ?_ ?_ ?_ ?_ ?_ ?_ ?_ ?_⟩⟩ <;>
        simp [runs, pendOf, delOf, OpOk] <;> grind
    · rw [if_neg hi]
      exact ⟨s, rfl, Or.inl ⟨L, gs, c, mono_refl⟩⟩
  | getStatus =>
    refine ⟨_, rfl, Or.inl ⟨L, _, core_add (o := []) c ?_ ?_ ?_ ?_ ?_ ?_ ?_ ?_ ?_ ?_ ?_ ?_ ?_ ?_ ?_ ?_⟩⟩ <;>
      simp [runs, pendOf, delOf, OpOk]
    all_goals grind
  | advance k stale =>
    obtain ⟨s', h1, L', gs', h2, h3, _⟩ := advance_core c k stale
    exact ⟨s', h1, Or.inl ⟨L', gs', h2, h3⟩⟩
  | destroyContext =>
    dsimp only
    by_cases he : (s.ops.isEmpty && s.handles.isEmpty) = true
    · rw [if_pos he]
      have hops : s.ops = [] := by
        rw [Bool.and_eq_true] at he
        simpa using he.1
      have hgs : gs = [] := by
        have := c.ops
        rw [hops] at this
        simpa using this.symm
      subst hgs
      have hnd := nodup_of_core c
      have hlen : L.length ≤ s.next := length_le_of_lt hnd (fun x hx => by
        refine (c.pend x).2 ?_
        have := List.count_pos_iff.2 hx
        unfold X
        omega)
      rw [c.head, freeAll_spec L s.heap s.next hlen hnd (SL_of_DL c.dl)]
      refine ⟨_, rfl, Or.inr ⟨?_, hops⟩⟩
      have : (fun j => if j ∈ L then none else s.heap j) = fun _ => none := by
        funext j
        by_cases hj : j ∈ L
        · rw [if_pos hj]
        · rw [if_neg hj]
          have ho := c.own j
          rw [List.count_eq_zero.2 hj] at ho
          cases hs : s.heap j with
          | none => rfl
          | some n => rw [hs] at ho; simp at ho
      rw [this]
    · rw [if_neg he]
      exact ⟨s, rfl, Or.inl ⟨L, gs, c, mono_refl⟩⟩

end Verif.Conc
