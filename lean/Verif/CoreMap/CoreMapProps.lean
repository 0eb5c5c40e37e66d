import Verif.CoreMap.CoreMapLemmas

/-! # Evaluation of `core.map` -/

namespace Verif.CoreMap

open Verif.Slots

variable {V E F P : Type} [DecidableEq P]

theorem bind_literals {T K : Type} [DecidableEq T] {cfg : Config K} {layout : List T} {ns : List (Node K V F P T)} {slots : List (Slot P)}
    {st : State V F P T} (hs : Setup cfg layout ns) (hb : bind cfg layout ns = some (.ok (slots, st))) :
    (∀ p ∈ st.literals, layout.length ≤ p.1) ∧ ∀ m, LiteralsAre st.literals (initLiterals st.literals m) := by
  obtain ⟨k, a, hk, ha, hloop, hlast⟩ := bind_cases hb
  have hs' := hs.withOut k
  have hinv := make_inv (P := P) (V := V) hs' ha
  obtain ⟨hinv', _⟩ := bindLoop_ok hs' (usages_dep ns) ns (i := 0) (fun k _ => by rw [Nat.zero_add]) hinv hloop
  exact ⟨fun p hp => (hinv'.lits p hp).1, fun m => initLiterals_are _ _ hinv'.lits_nodup⟩

theorem compileSlots_spec (tys : List Ty) (outTy : Ty) : compileSlots (tys.map elementTy) tys outTy =
    some (⟨tys.map elementTy ++ [outTy], arrIdx 0 tys, List.range' 0 tys.length, scaIdx 0 tys⟩, tys.length) := by
  unfold compileSlots
  rw [if_neg (by simp), compileLoop_spec tys 0 _ rfl]
  simp

theorem arrRows_mem {args : List (Arg V)} {r : List V} : r ∈ arrRows args ↔ Arg.array r ∈ args := by
  induction args with
  | nil => simp [arrRows]
  | cons a args ih => cases a <;> simp [arrRows, ih]

theorem rowCount_rows {args : List (Arg V)} {n : Nat} (h : Rows n args) : rowCount (E := E) (arrRows args) = .ok n := by
  obtain ⟨⟨rows, hm⟩, hall⟩ := h
  have hm' := arrRows_mem.2 hm
  cases hr : arrRows args with
  | nil => rw [hr] at hm'; simp at hm'
  | cons r rest =>
    have hlen : ∀ x ∈ arrRows args, x.length = n := fun x hx => hall x (arrRows_mem.1 hx)
    rw [hr] at hlen
    have hr' := hlen r (by simp)
    simp only [rowCount]
    rw [if_pos]
    · rw [hr']
    · simp only [List.all_eq_true, decide_eq_true_eq]
      intro x hx
      rw [hr', hlen x (by simp [hx])]

/-- The value of the mapper in a row. -/
def rowVal (apply : F → List V → Except E V) (proj : P → V → V) (ns : List (Node Nat V F P Ty)) (env : Nat → V) : Except E V :=
  match values apply proj env ns [] with
  | some (.ok vs) =>
    match vs.getLast? with
    | some v => .ok v
    | none => .ok (env 0)
  | some (.error e) => .error e
  | none => .ok (env 0)

theorem range_slot {n k b : Nat} (h : (List.range' 0 n)[k]? = some b) : b = k ∧ k < n := by
  obtain ⟨h1, h2⟩ := List.getElem?_eq_some_iff.1 h
  simp at h1 h2
  omega

theorem setup_mapper {tys : List Ty} {outTy : Ty} {ns : List (Node Nat V F P Ty)} {allow : Bool} (hl : Leaves ns (tys.map elementTy))
    {s : Slots} {out : Nat} (hc : compileSlots (tys.map elementTy) tys outTy = some (s, out)) :
    Setup (mapperConfig s out allow) s.layout ns := by
  rw [compileSlots_spec] at hc
  simp only [Option.some.injEq, Prod.mk.injEq] at hc
  obtain ⟨rfl, rfl⟩ := hc
  have hslot : ∀ (k b : Nat), (List.range' 0 tys.length)[k]? = some b → b = k ∧ k < tys.length := by
    intro k b h; exact range_slot h
  refine ⟨by simp [mapperConfig], ?_, ?_, ?_⟩
  · intro o n k b hn hk hb
    obtain ⟨rfl, hlt⟩ := hslot k b hb
    have := hl.ty o n b hn hk
    dsimp only
    rw [List.getElem?_append_left (by simpa using hlt)]
    exact this
  · rintro b ⟨o, n, k, hn, hk, hb⟩
    obtain ⟨rfl, hlt⟩ := hslot k b hb
    simp only [mapperConfig]; omega
  · intro _ o o' n n' k k' b hn hn' hk hk' hb hb'
    obtain ⟨rfl, _⟩ := hslot k b hb
    obtain ⟨rfl, _⟩ := hslot k' _ hb'
    exact hl.once o o' n n' _ hn hn' hk hk'

/-- **Every row of the result of `core.map` is the value of the mapper on the row's elements and on the scalar arguments; the error is that of
the first row that fails** — for every program of the mapper that the compiler produces, any number of rows, any values, any contents of the
frames before the call.

What is missing is the case of a mapper compiled with the permission to overwrite its inputs, with scalar arguments and more than 64 rows; there
the claim is false, see `reused_scalar_counterexample`. -/
theorem map_rows_partial {tys : List Ty} {args : List (Arg V)} {n : Nat} {ns : List (Node Nat V F P Ty)} {outTy : Ty} {s : Slots} {out : Nat}
    {allow : Bool} {slots : List (Slot P)} {st : State V F P Ty} {env : Nat → Nat → V} (ht : Typed tys args) (hn : Rows n args)
    (hl : Leaves ns (tys.map elementTy)) (hc : compileSlots (tys.map elementTy) tys outTy = some (s, out))
    (hb : bind (mapperConfig s out allow) s.layout ns = some (.ok (slots, st))) (he : ∀ i, i < n → RowEnv args i (env i))
    (hk : allow = false ∨ (∀ v, Arg.scalar v ∉ args) ∨ n ≤ 64) (apply : F → List V → Except E V) (proj : P → V → V) (init : Frame V) :
    ∃ r, runMap (execute apply proj st.code) st.literals init s out args = some r ∧ MapSpec apply proj ns n env r := by
  have hs := setup_mapper (allow := allow) hl hc
  obtain ⟨hlits, hinit⟩ := bind_literals hs hb
  rw [compileSlots_spec] at hc
  simp only [Option.some.injEq, Prod.mk.injEq] at hc
  obtain ⟨rfl, rfl⟩ := hc
  have hlen := typed_length ht
  have hlay : (tys.map elementTy ++ [outTy]).length = tys.length + 1 := by simp
  have hidx : ∀ k a, args[k]? = some a → k < tys.length := by
    intro k a hk; rw [← hlen]; exact (List.getElem?_eq_some_iff.1 hk).1
  have hshort : ∀ row, row < n → ∀ rows, Arg.array rows ∈ args → row < rows.length := by
    intro row hr rows hm; rw [hn.2 rows hm]; exact hr
  have hinputs : ∀ row f, row < n → (∀ k a, args[k]? = some a → a.at row = some (f k)) →
      InputsAre (mapperConfig ⟨tys.map elementTy ++ [outTy], arrIdx 0 tys, List.range' 0 tys.length, scaIdx 0 tys⟩ tys.length allow) ns (env row) f := by
    intro row f hr hf o nd k b hnd hkd hbk
    simp only [mapperConfig] at hbk
    obtain ⟨rfl, hlt⟩ := range_slot hbk
    have hlt' : b < args.length := by omega
    have h1 : args[b]? = some args[b] := List.getElem?_eq_getElem hlt'
    have h2 := hf b _ h1
    have h3 := he row hr b _ h1
    rw [h2] at h3
    exact Option.some.inj h3
  have hval : ∀ row f, row < n → LiteralsAre st.literals f → (∀ k a, args[k]? = some a → a.at row = some (f k)) →
      MapperIs apply proj ns (env row) (rowVal apply proj ns (env row)) ∧ match rowVal apply proj ns (env row) with
        | .error e => execute apply proj st.code f = .error e
        | .ok v => ∃ f', execute apply proj st.code f = .ok f' ∧ f' tys.length = v ∧ LiteralsAre st.literals f' ∧
            ∀ b, b < tys.length → (allow = false) → f' b = f b := by
    intro row f hr hlf hf
    have := execute_correct hs hb apply proj (env row) f (hinputs row f hr hf) hlf
    unfold rowVal
    cases hv : values apply proj (env row) ns [] with
    | none => rw [hv] at this; exact this.elim
    | some r =>
      rw [hv] at this
      cases r with
      | error e => exact ⟨hv, this⟩
      | ok vs =>
        obtain ⟨m', h1, h2, h3, h4, h5⟩ := this
        simp only [h2]
        refine ⟨⟨vs, hv, h2⟩, m', h1, rfl, h5, ?_⟩
        intro b hb' ha
        apply h4
        refine ⟨by simp; omega, by simp only [mapperConfig]; omega, ?_⟩
        intro h; simp only [mapperConfig, ha] at h; cases h
  have hscal : ∀ b ∈ scaIdx 0 tys, ∃ v, args[b]? = some (.scalar v) := by
    intro b hm
    obtain ⟨_, v, hv⟩ := sca_get ht 0 b hm
    exact ⟨v, by simpa using hv⟩
  obtain ⟨f0, hc0, hc1, hc2⟩ := copyScalars_spec (List.range' 0 tys.length) tys.length rfl hlen (scaIdx 0 tys) hscal
    (initLiterals st.literals init)
  let Good : Frame V → Prop := fun f => LiteralsAre st.literals f ∧ ∀ k v, args[k]? = some (.scalar v) → f k = v
  let Loaded : Nat → Frame V → Prop := fun row f => LiteralsAre st.literals f ∧ ∀ k a, args[k]? = some a → a.at row = some (f k)
  have hgood0 : Good f0 := by
    constructor
    · intro p hp
      rw [hc2]
      · exact hinit init p hp
      · intro hm
        have h1 := (scaIdx_ge hm).2
        have h2 := hlits p hp
        dsimp only at h2
        rw [hlay] at h2
        omega
    · intro k v hkv
      have := get_sca ht 0 k v hkv
      rw [Nat.zero_add] at this
      exact hc1 k this v hkv
  have hsound : Sound (execute apply proj st.code) (arrRows args) (arrIdx 0 tys) tys.length n Good Loaded
      (fun row => rowVal apply proj ns (env row)) (allow = false ∨ ∀ v, Arg.scalar v ∉ args) := by
    refine ⟨?_, ?_, ?_⟩
    · intro row f hr
      obtain ⟨f', h1, _⟩ := loadRow_spec ht 0 row f (hshort row hr)
      exact ⟨f', h1⟩
    · intro row f hr hg
      obtain ⟨f', h1, h2, h3⟩ := loadRow_spec ht 0 row f (hshort row hr)
      refine ⟨f', h1, ?_, ?_⟩
      · intro p hp
        rw [h3]
        · exact hg.1 p hp
        · intro hm
          have h4 := (arrIdx_ge hm).2
          have h5 := hlits p hp
          dsimp only at h5
          rw [hlay] at h5
          omega
      · intro k a hka
        cases a with
        | array rows =>
          have := h2 k rows hka
          rw [Nat.zero_add] at this
          exact this
        | scalar v =>
          have hsc := get_sca ht 0 k v hka
          rw [Nat.zero_add] at hsc
          rw [h3 k (fun hm => arr_not_sca hm hsc), hg.2 k v hka]
          rfl
    · intro row f hr hld
      have := (hval row f hr hld.1 hld.2).2
      cases hrv : rowVal apply proj ns (env row) with
      | error e => rw [hrv] at this; exact this
      | ok v =>
        rw [hrv] at this
        obtain ⟨f', h1, h2, h3, h4⟩ := this
        refine ⟨f', h1, h2, ?_⟩
        intro hkeep
        refine ⟨h3, ?_⟩
        intro k w hkw
        rcases hkeep with hkeep | hkeep
        · rw [h4 k (hidx k _ hkw) hkeep]
          have := hld.2 k _ hkw
          exact (Option.some.inj this).symm
        · exact absurd (List.mem_of_getElem? hkw) (hkeep w)
  -- the mapper has a value or an error in every row
  have hmapper : ∀ row, row < n → MapperIs apply proj ns (env row) (rowVal apply proj ns (env row)) := by
    intro row hr
    obtain ⟨f', _, hld⟩ := hsound.load row f0 hr hgood0
    exact (hval row f' hr hld.1 hld.2).1
  have hspec := evalAll_spec (fun row => rowVal apply proj ns (env row)) 0 n
  unfold runMap
  simp only [inputArrays_spec ht 0, rowCount_rows hn, hc0]
  by_cases hz : n = 0
  · subst hz
    refine ⟨.ok [], rfl, rfl, by simp⟩
  · have hfe := forEach_spec hsound n 0 (List.replicate (min n frameBufferCount) f0) [] (by simp [frameBufferCount]; omega) (by omega)
      (by intro f hm; rw [(List.mem_replicate.1 hm).2]; exact hgood0)
      (by
        rcases hk with h | h | h
        · exact .inl (.inl h)
        · exact .inl (.inr h)
        · right; simp [frameBufferCount]; omega)
    rw [Nat.sub_zero] at hfe
    cases hev : evalAll (fun row => rowVal apply proj ns (env row)) 0 n with
    | error e =>
      rw [hev] at hfe hspec
      obtain ⟨outs, ho⟩ := hfe
      obtain ⟨i, h1, h2, h3⟩ := hspec
      rw [ho]
      refine ⟨_, rfl, i, h1, ?_, ?_⟩
      · have := hmapper i h1
        rw [Nat.zero_add] at h2
        rw [h2] at this
        exact this
      · intro j hj
        obtain ⟨v, hv⟩ := h3 j hj
        rw [Nat.zero_add] at hv
        have := hmapper j (by omega)
        rw [hv] at this
        exact ⟨v, this⟩
    | ok vs =>
      rw [hev] at hfe hspec
      dsimp only at hfe
      rw [hfe]
      refine ⟨_, rfl, hspec.1, ?_⟩
      intro i v hi
      rw [List.nil_append] at hi
      have h2 := hspec.2 i v hi
      rw [Nat.zero_add] at h2
      have hlt : i < n := by rw [← hspec.1]; exact (List.getElem?_eq_some_iff.1 hi).1
      have := hmapper i hlt
      rw [h2] at this
      exact this

/-- Arrays of different sizes are an error and nothing is evaluated. -/
theorem map_sizes {tys : List Ty} {args : List (Arg V)} {outTy : Ty} {s : Slots} {out : Nat} (ht : Typed tys args)
    (hc : compileSlots (tys.map elementTy) tys outTy = some (s, out)) (r r' : List V) (hr : Arg.array r ∈ args) (hr' : Arg.array r' ∈ args)
    (hne : r.length ≠ r'.length) (exec : Frame V → Except E (Frame V)) (lits : List (Nat × V)) (init : Frame V) :
    runMap exec lits init s out args = some (.error .sizes) := by
  rw [compileSlots_spec] at hc
  simp only [Option.some.injEq, Prod.mk.injEq] at hc
  obtain ⟨rfl, rfl⟩ := hc
  unfold runMap
  simp only [inputArrays_spec ht 0]
  have h1 := arrRows_mem.2 hr
  have h2 := arrRows_mem.2 hr'
  cases hrows : arrRows args with
  | nil => rw [hrows] at h1; simp at h1
  | cons x rest =>
    rw [hrows] at h1 h2
    simp only [rowCount]
    rw [if_neg]
    intro hall
    simp only [List.all_eq_true, decide_eq_true_eq] at hall
    have key : ∀ y ∈ x :: rest, y.length = x.length := by
      intro y hy
      rcases List.mem_cons.1 hy with rfl | hy
      · rfl
      · exact hall y hy
    exact hne ((key r h1).trans (key r' h2).symm)

/-! ## A mapper that may overwrite its inputs -/

/-- Operators of the example. -/
inductive XOp
  | succ | add
  deriving DecidableEq, Repr

/-- Successor and sum; the sum fails above 1000. -/
def xapply : XOp → List Nat → Except Unit Nat
  | .succ, [a] => .ok (a + 1)
  | .add, [a, b] => if a + b > 1000 then .error () else .ok (a + b)
  | _, _ => .error ()

/-- The mapper `succ(succ(y)) + x`; `x` and `y` are the arguments 0 and 1. -/
def xnodes : List (Node Nat Nat XOp Unit Ty) :=
  [⟨.leaf 1, [], .optional 0⟩, ⟨.op .succ, [0], .optional 0⟩, ⟨.op .succ, [1], .optional 0⟩, ⟨.leaf 0, [], .optional 0⟩,
   ⟨.op .add, [2, 3], .optional 0⟩]

/-- `core.map(mapper, x, y)` with an array and an optional scalar. -/
def xtys : List Ty := [.array 0 0, .optional 0]

/-- `x` is `n` zeros and `y` is 10. -/
def xargs (n : Nat) : List (Arg Nat) := [.array (List.replicate n 0), .scalar 10]

def xrun (allow : Bool) (n : Nat) : Option (Except (MapError Unit) (List Nat)) :=
  match compileSlots (xtys.map elementTy) xtys (.optional 0) with
  | none => none
  | some (s, out) =>
    match bind (mapperConfig s out allow) s.layout xnodes with
    | some (.ok (_, st)) => runMap (execute xapply (fun _ v => v) st.code) st.literals (fun _ => 0) s out (xargs n)
    | _ => none

theorem xtyped (n : Nat) : Typed xtys (xargs n) := .array rfl (.scalar rfl .nil)

theorem xrows (n : Nat) : Rows n (xargs n) := by
  refine ⟨⟨_, by simp [xargs]; rfl⟩, ?_⟩
  intro rows h
  simp [xargs] at h
  simp [h]

theorem xleaves : Leaves xnodes (xtys.map elementTy) := by
  constructor
  · intro o n k hn hk
    have ho : o < 5 := lt_of_getElem? hn
    match o, ho with
    | 0, _ | 3, _ => cases hn; cases hk; rfl
    | 1, _ | 2, _ | 4, _ => cases hn; cases hk
  · intro o o' n n' k hn hn' hk hk'
    have key : ∀ (o : Nat) (n : Node Nat Nat XOp Unit Ty), xnodes[o]? = some n → n.kind = .leaf k → (o = 0 ∧ k = 1) ∨ (o = 3 ∧ k = 0) := by
      intro o n hn hk
      have ho : o < 5 := lt_of_getElem? hn
      match o, ho with
      | 0, _ => cases hn; cases hk; exact .inl ⟨rfl, rfl⟩
      | 3, _ => cases hn; cases hk; exact .inr ⟨rfl, rfl⟩
      | 1, _ | 2, _ | 4, _ => cases hn; cases hk
    have h1 := key o n hn hk
    have h2 := key o' n' hn' hk'
    omega

/-- **With the permission to overwrite inputs, the 65th row is computed from a wrong scalar argument**: all the rows have the same arguments, 0
and 10, and the mapper's value is 12 in each, but `core.map` yields 14 in the 65th row.  The scalar is copied to the 64 frames once and the
program of the mapper takes its slot for an intermediate result. -/
theorem reused_scalar_counterexample :
    ∃ outs, xrun true 65 = some (.ok outs) ∧ outs.take 64 = List.replicate 64 12 ∧ outs[64]? = some 14 ∧
      (∀ i, i < 65 → RowEnv (xargs 65) i (fun k => if k = 0 then 0 else 10)) ∧
      MapperIs xapply (fun _ v => v) xnodes (fun k => if k = 0 then 0 else 10) (.ok 12) := by
  refine ⟨List.replicate 64 12 ++ [14], by decide +kernel, by decide +kernel, by decide +kernel, ?_, ⟨[10, 11, 12, 0, 12], by decide +kernel, rfl⟩⟩
  intro i hi k a hk
  match k with
  | 0 =>
    simp only [xargs, List.getElem?_cons_zero, Option.some.injEq] at hk
    subst hk
    simp only [Arg.at, if_true, List.getElem?_replicate, if_pos hi]
  | 1 =>
    simp only [xargs, List.getElem?_cons_succ, List.getElem?_cons_zero, Option.some.injEq] at hk
    subst hk
    simp [Arg.at]
  | k + 2 => simp [xargs] at hk

/-- Without the permission the result is right. -/
example : xrun false 65 = some (.ok (List.replicate 65 12)) := by decide +kernel

/-- With the permission and 64 rows too. -/
example : xrun true 64 = some (.ok (List.replicate 64 12)) := by decide +kernel

/-- The first row that fails. -/
example : (match compileSlots (xtys.map elementTy) xtys (.optional 0) with
    | none => none
    | some (s, out) =>
      match bind (mapperConfig s out false) s.layout xnodes with
      | some (.ok (_, st)) => runMap (execute xapply (fun _ v => v) st.code) st.literals (fun _ => 0) s out [.array [1, 2000, 3], .scalar 5]
      | _ => none) = some (.error (.op ())) := by decide +kernel

/-- Arrays of different sizes. -/
example : Typed (V := Nat) [.array 0 0, .array 0 0] [.array [1, 2], .array [1]] := .array rfl (.array rfl .nil)

end Verif.CoreMap
