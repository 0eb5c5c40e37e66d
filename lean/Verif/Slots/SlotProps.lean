import Verif.Slots.LoopLemmas
import Mathlib.Data.List.Induction

/-!
# A compiled expression computes the expression (C43)

Reusing slots, aliasing sub-slots and overwriting inputs are invisible: running the bound program
leaves in the output slot, and in every named output, the value that evaluating the nodes one by one
gives, and reports the error of the first failing node otherwise.
-/

namespace Verif.Slots

variable {K V F P T E : Type} [DecidableEq T] [DecidableEq P]
variable {cfg : Config K} {layout : List T} {ns : List (Node K V F P T)}
  {slots : List (Slot P)} {st : State V F P T}

/-- Side outputs: dependencies of the root but the first are found in the named slots. -/
def NamedAre (proj : P → V → V) (ns : List (Node K V F P T)) (named : List (Slot P)) (vs : List V)
    (m : Frame V) : Prop :=
  ∀ (root : Node K V F P T) (d0 : Nat) (ds : List Nat), ns.getLast? = some root →
    root.kind = .root → root.deps = d0 :: ds →
    named.length = ds.length ∧
    ∀ (k d : Nat) (s : Slot P), ds[k]? = some d → named[k]? = some s →
      vs[d]? = some (readSlot proj m s)

theorem Setup.withOut (hs : Setup cfg layout ns) (k : Nat) :
    Setup { cfg with outIdx := k } layout ns :=
  ⟨hs.out_lt, hs.input_ty, hs.input_out, hs.input_inj⟩

/-- What `bind` did, unfolded. -/
theorem bind_cases (hb : bind cfg layout ns = some (.ok (slots, st))) :
    ∃ k a, outputIndex ns = some k ∧ Alloc.make { cfg with outIdx := k } layout ns = .ok a ∧
      bindLoop { cfg with outIdx := k } ns [] ⟨a, [], [], []⟩ = some (.ok (slots, st)) ∧
      slots.getLast? = some ⟨cfg.out, []⟩ := by
  unfold bind at hb
  split at hb
  · cases hb
  · rename_i k hk
    dsimp only at hb
    split at hb
    · cases hb
    · rename_i a ha
      split at hb
      · rename_i slots' st' hl
        split at hb
        · rename_i hlast
          cases hb
          exact ⟨k, a, hk, ha, hl, hlast⟩
        · cases hb
      · rename_i hne
        exact absurd hb (hne slots st)

theorem make_layout {a : Alloc T} (h : Alloc.make cfg layout ns = .ok a) : a.layout = layout := by
  unfold Alloc.make at h
  dsimp only at h
  split at h
  · split at h
    · cases h
    · cases h; rfl
  · cases h; rfl

/-- Binding reads only nodes already bound, and every program it emits is correct on every frame
that holds the inputs and the literals; it leaves foreign slots and the literals as they are, so it
may be run again. -/
theorem execute_correct (hs : Setup cfg layout ns)
    (hb : bind cfg layout ns = some (.ok (slots, st)))
    (apply : F → List V → Except E V) (proj : P → V → V) (env : K → V) (m : Frame V)
    (hin : InputsAre cfg ns env m) (hl : LiteralsAre st.literals m) :
    match values apply proj env ns [] with
    | none => False
    | some (.error e) => execute apply proj st.code m = .error e
    | some (.ok vs) => ∃ m', execute apply proj st.code m = .ok m' ∧
        vs.getLast? = some (m' cfg.out) ∧ NamedAre proj ns st.named vs m' ∧
        (∀ b, Foreign cfg layout ns b → m' b = m b) ∧ LiteralsAre st.literals m' := by
  obtain ⟨k, a, hk, ha, hloop, hlast⟩ := bind_cases hb
  have hs' := hs.withOut k
  have hinv := make_inv (P := P) (V := V) hs' ha
  have hu := usages_dep ns
  obtain ⟨hinv', es, nl, hc, hls, _, hrun⟩ := bindLoop_ok hs' hu ns (i := 0)
    (fun k _ => by rw [Nat.zero_add]) hinv hloop
  have hm0 : MemInv (P := P) { cfg with outIdx := k } layout ns (lastUsagesLoop 0 ns fun _ => 0) proj env 0
      [] [] a.layout.length m m [] := by
    rw [make_layout ha]; exact mem_init hs' hin
  have hr := hrun E apply proj env m m [] hm0 hl
  have hcode : st.code = es := by simpa using hc
  rw [hcode]
  cases hv : values apply proj env ns [] with
  | none => rw [hv] at hr; exact hr
  | some r =>
    rw [hv] at hr
    cases r with
    | error e => exact hr
    | ok vs =>
      dsimp only at hr ⊢
      obtain ⟨m', he, hm⟩ := hr
      have hlits : LiteralsAre st.literals m' := by
        intro p hp
        have hp1 := hinv'.lits p hp
        have := hs.out_lt
        rw [hm.keep p.1 (Or.inr (Or.inr (List.mem_map_of_mem hp))) (by dsimp only; omega)]
        exact hl p hp
      have hfor : ∀ b, Foreign cfg layout ns b → m' b = m b := by
        intro b hb
        exact hm.keep b (Or.inl hb) hb.2.1
      have hmlen : vs.length = ns.length := by have := hm.len; omega
      -- split off the last node
      obtain ⟨as, r, hns⟩ : ∃ as r, ns = as ++ [r] := by
        rcases List.eq_nil_or_concat ns with h | ⟨as, r, h⟩
        · subst h; simp [outputIndex] at hk
        · exact ⟨as, r, by simpa using h⟩
      have hgl : ns.getLast? = some r := by rw [hns]; simp
      by_cases hroot : r.kind = .root
      · -- the last node is the root operator
        have hk' : r.deps.head? = some k := by
          simpa [outputIndex, hgl, hroot] using hk
        obtain ⟨ds, hds⟩ : ∃ ds, r.deps = k :: ds := by
          cases h : r.deps with
          | nil => rw [h] at hk'; cases hk'
          | cons d ds => rw [h] at hk'; cases hk'; exact ⟨ds, rfl⟩
        rw [hns, bindLoop_append] at hloop
        split at hloop
        case h_2 hne => exact absurd hloop (hne slots st)
        case h_1 slots1 st1 hl1 =>
        have hlen' : ns.length = as.length + 1 := by rw [hns]; simp
        obtain ⟨hinv1, es1, nl1, hc1, hls1, _, hrun1⟩ := bindLoop_ok hs' hu as (i := 0)
          (fun k hk => by rw [Nat.zero_add, hns, List.getElem?_append_left hk]) hinv hl1
        rw [Nat.zero_add] at hinv1
        have hrn : ns[as.length]? = some r := by rw [hns]; simp
        have hur := hu as.length r hrn
        unfold bindLoop at hloop
        cases hin1 : r.deps.mapM (fun d => slots1[d]?) with
        | none => rw [hin1] at hloop; cases hloop
        | some inputs =>
          rw [hin1] at hloop
          dsimp only at hloop
          cases hbn : bindNode { cfg with outIdx := k } slots1.length r inputs st1 with
          | error e => rw [hbn] at hloop; cases hloop
          | ok x =>
            rcases x with ⟨s, st2⟩
            rw [hbn] at hloop
            simp only [bindLoop, Option.some.injEq, Except.ok.injEq, Prod.mk.injEq] at hloop
            obtain ⟨rfl, rfl⟩ := hloop
            -- the root emits no code
            have hst2 : ∃ rest, inputs = ⟨cfg.out, []⟩ :: rest ∧ st2.named = rest ∧ st2.code = st1.code ∧
                st2.literals = st1.literals := by
              unfold bindNode at hbn
              split at hbn
              · cases hbn
              · rename_i s' st3 hco
                cases hbn
                simp only [constructOutput, hroot] at hco
                split at hco
                · cases hco
                · split at hco
                  · cases hco
                  · split at hco
                    · cases hco
                    · rename_i rest _ hne
                      cases hco
                      exact ⟨rest, by simpa using hne, rfl, rfl, rfl⟩
            obtain ⟨rest, hinp, hnamed, hcode2, hlit2⟩ := hst2
            have hl' : LiteralsAre st1.literals m := by rw [← hlit2]; exact hl
            have hr1 := hrun1 E apply proj env m m [] hm0 hl'
            rw [hns, values_append] at hv
            have hes1 : es1 = es := by rw [← hcode, hcode2, hc1]; rfl
            split at hv
            case h_2 hne => exact absurd hv (hne vs)
            case h_1 vs1 hv1 =>
            rw [hv1] at hr1
            obtain ⟨m1, he1, hm1⟩ := hr1
            rw [hes1, he] at he1
            cases he1
            rw [Nat.zero_add] at hm1
            have hargs := hm1.args hinv1.len r.deps inputs hin1 hur
            simp only [values, hargs, nodeValue, hroot, hinp, List.map_cons, List.head?_cons,
              Option.map_some, Option.some.injEq, Except.ok.injEq] at hv
            have hvs : vs = vs1 ++ [m' cfg.out] := by rw [← hv]; rfl
            refine ⟨m', he, by rw [hvs]; simp, ?_, hfor, hlits⟩
            intro root d0 ds' hg hr0 hd0
            rw [hgl] at hg; cases hg
            have := hds.symm.trans hd0
            injection this with e1 e2
            subst e1; subst e2
            rw [hds] at hargs hin1
            rw [hinp] at hargs hin1
            rw [mapM_eq_some_iff] at hargs hin1
            rw [hnamed]
            cases hargs with
            | cons _ hargs =>
            cases hin1 with
            | cons _ hin1 =>
            refine ⟨hin1.length_eq.symm, ?_⟩
            intro q d s hq hs''
            have hl1 := hargs.length_eq
            have : ∀ (ds : List Nat) (rest : List (Slot P)),
                List.Forall₂ (fun x y => vs1[x]? = some y) ds (rest.map (readSlot proj m')) →
                ∀ (q d : Nat) (s : Slot P), ds[q]? = some d → rest[q]? = some s →
                  vs1[d]? = some (readSlot proj m' s) := by
              intro ds rest h
              induction ds generalizing rest with
              | nil => intro q d s hq; simp at hq
              | cons d ds ih =>
                cases rest with
                | nil => cases h
                | cons s rest =>
                  cases h with
                  | cons h1 h2 =>
                    intro q d' s' hq hs
                    cases q with
                    | zero => simp at hq hs; subst hq; subst hs; exact h1
                    | succ q => exact ih rest h2 q d' s' (by simpa using hq) (by simpa using hs)
            have := this ds rest hargs q d s hq hs''
            rw [hvs]; exact getElem?_ext _ this
      · have hko : ns.length - 1 = k := by
          have : (match r.kind with | .root => true | _ => false) = false := by
            cases h : r.kind <;> simp_all
          simpa [outputIndex, hgl, this] using hk
        have hpos : 0 < ns.length := by rw [hns]; simp
        obtain ⟨v, hvk⟩ : ∃ v, vs[k]? = some v :=
          ⟨_, List.getElem?_eq_getElem (by omega)⟩
        refine ⟨m', he, ?_, ?_, hfor, hlits⟩
        · rw [List.getLast?_eq_getElem?, hmlen, hko, hvk]
          rw [hm.outv v (by dsimp only; omega) hvk]
        · intro root d0 ds hg hr0
          rw [hgl] at hg; cases hg
          exact absurd hr0 hroot

/-- The whole life of a bound expression: initialise the literals in a frame with arbitrary contents
and run.  This is the correctness of slot allocation, aliasing and reuse. -/
theorem bind_evaluates (hs : Setup cfg layout ns)
    (hb : bind cfg layout ns = some (.ok (slots, st)))
    (apply : F → List V → Except E V) (proj : P → V → V) (env : K → V) (m : Frame V)
    (hin : InputsAre cfg ns env m) :
    match values apply proj env ns [] with
    | none => False
    | some (.error e) => execute apply proj st.code (initLiterals st.literals m) = .error e
    | some (.ok vs) => ∃ m', execute apply proj st.code (initLiterals st.literals m) = .ok m' ∧
        vs.getLast? = some (m' cfg.out) ∧ NamedAre proj ns st.named vs m' ∧
        (∀ b, Foreign cfg layout ns b → m' b = m b) ∧ LiteralsAre st.literals m' := by
  obtain ⟨k, a, hk, ha, hloop, hlast⟩ := bind_cases hb
  have hs' := hs.withOut k
  have hinv := make_inv (P := P) (V := V) hs' ha
  obtain ⟨hinv', _⟩ := bindLoop_ok hs' (usages_dep ns) ns (i := 0)
    (fun k _ => by rw [Nat.zero_add]) hinv hloop
  have hother : ∀ b, b < layout.length → initLiterals st.literals m b = m b := by
    intro b hb
    apply initLiterals_other
    intro hmem
    obtain ⟨p, hp, rfl⟩ := List.mem_map.1 hmem
    have := (hinv'.lits p hp).1
    omega
  have hin' : InputsAre cfg ns env (initLiterals st.literals m) := by
    intro o n k b hn hk hb
    rw [hother b (lt_of_getElem? (hs.input_ty o n k b hn hk hb))]
    exact hin o n k b hn hk hb
  have := execute_correct hs hb apply proj env _ hin' (initLiterals_are _ _ hinv'.lits_nodup)
  cases hv : values apply proj env ns [] with
  | none => rw [hv] at this; exact this
  | some r =>
    rw [hv] at this
    cases r with
    | error e => exact this
    | ok vs =>
      obtain ⟨m', h1, h2, h3, h4, h5⟩ := this
      exact ⟨m', h1, h2, h3, fun b hb => (h4 b hb).trans (hother b hb.1), h5⟩

/-- No operator of the program reads from the slot it writes: operators that write their output
before they have read all of their inputs are safe. -/
theorem bind_no_alias (hs : Setup cfg layout ns)
    (hb : bind cfg layout ns = some (.ok (slots, st))) : ∀ e ∈ st.code, e.NoAlias := by
  obtain ⟨k, a, hk, ha, hloop, hlast⟩ := bind_cases hb
  have hs' := hs.withOut k
  obtain ⟨_, es, nl, hc, _, hno, _⟩ := bindLoop_ok hs' (usages_dep ns) ns (i := 0)
    (fun k _ => by rw [Nat.zero_add]) (make_inv (P := P) (V := V) hs' ha) hloop
  have : st.code = es := by simpa using hc
  rw [this]; exact hno

/-- A slot that is reused is reused at its own type: the result of every operator node but the output
is in a slot of the layout with the node's type. -/
theorem bind_slot_types (hs : Setup cfg layout ns)
    (hb : bind cfg layout ns = some (.ok (slots, st))) (i k : Nat) (n : Node K V F P T) (f : F)
    (s : Slot P) (hk : outputIndex ns = some k) (hi : i ≠ k) (hn : ns[i]? = some n)
    (hf : n.kind = .op f) (hsl : slots[i]? = some s) : st.alloc.layout[s.base]? = some n.ty := by
  obtain ⟨k', a, hk', ha, hloop, hlast⟩ := bind_cases hb
  rw [hk] at hk'; cases hk'
  have hs' := hs.withOut k
  obtain ⟨hinv, _⟩ := bindLoop_ok hs' (usages_dep ns) ns (i := 0)
    (fun k _ => by rw [Nat.zero_add]) (make_inv (P := P) (V := V) hs' ha) hloop
  exact hinv.op_ty i s n f hsl hn hf hi

end Verif.Slots
