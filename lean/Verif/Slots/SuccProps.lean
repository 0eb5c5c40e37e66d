import Verif.Slots.SlotProps

/-!
# Binding succeeds; concrete programs; why the caller's obligations are needed
-/

namespace Verif.Slots

variable {K V F P T E : Type} [DecidableEq T] [DecidableEq P]

/-- Nodes of a prepared expression, all of whose leaves have slots. -/
structure Bindable (cfg : Config K) (ns : List (Node K V F P T)) : Prop where
  ne : ns ≠ []
  deps : ∀ (i : Nat) (n : Node K V F P T), ns[i]? = some n → ∀ d ∈ n.deps, d < i
  leaf : ∀ (i : Nat) (n : Node K V F P T) (k : K), ns[i]? = some n → n.kind = .leaf k →
    (cfg.inputSlot k).isSome
  part : ∀ (i : Nat) (n : Node K V F P T) (p : P), ns[i]? = some n → n.kind = .part p →
    n.deps.length = 1
  root : ∀ (i : Nat) (n : Node K V F P T), ns[i]? = some n → n.kind = .root →
    i + 1 = ns.length ∧ n.deps.length = cfg.sideOutputs + 1

variable {cfg : Config K} {layout : List T} {ns : List (Node K V F P T)} {u : Nat → Nat} {i : Nat}
  {slots : List (Slot P)}

theorem mapM_some {α β : Type} (f : α → Option β) (l : List α) (h : ∀ x ∈ l, ∃ y, f x = some y) :
    ∃ r, l.mapM f = some r := by
  induction l with
  | nil => exact ⟨[], rfl⟩
  | cons x l ih =>
    obtain ⟨y, hy⟩ := h x (by simp)
    obtain ⟨r, hr⟩ := ih (fun x hx => h x (by simp [hx]))
    exact ⟨y :: r, by rw [List.mapM_cons, hy, hr]; rfl⟩

theorem bindNode_total (hB : Bindable cfg ns) {n : Node K V F P T} {st : State V F P T}
    {inputs : List (Slot P)} (h : Inv cfg layout ns u i i slots st.literals st.alloc)
    (hn : ns[i]? = some n) (hin : n.deps.mapM (fun d => slots[d]?) = some inputs)
    (hroot : n.kind = .root → n.deps.head? = some cfg.outIdx) :
    ∃ r, bindNode cfg i n inputs st = .ok r := by
  have hf := (mapM_eq_some_iff _ _ _).1 hin
  have : ∃ r, constructOutput cfg i n inputs st = .ok r := by
    unfold constructOutput
    cases hk : n.kind with
    | leaf k =>
      obtain ⟨b, hb⟩ := Option.isSome_iff_exists.1 (hB.leaf i n k hn hk)
      exact ⟨_, by simp only [hb]; rfl⟩
    | literal v => exact ⟨_, rfl⟩
    | op f => exact ⟨_, rfl⟩
    | part p =>
      have hl := hB.part i n p hn hk
      have hl' := hf.length_eq
      match hd : n.deps, inputs, hl, hl' with
      | [d], [s], _, _ => exact ⟨_, rfl⟩
    | root =>
      have hr := hroot hk
      have hl := (hB.root i n hn hk).2
      cases hd : n.deps with
      | nil => rw [hd] at hr; cases hr
      | cons d ds =>
        rw [hd] at hr hf hl
        have hdd : d = cfg.outIdx := by simpa using hr
        have hlt := hB.deps i n hn d (by rw [hd]; simp)
        cases hf with
        | @cons _ s _ ss h1 h2 =>
          have hs := h.out_slot (by omega)
          rw [← hdd] at hs
          have hs' : s = ⟨cfg.out, []⟩ := by
            have := h1.symm.trans hs
            exact Option.some.inj this
          have hl2 := h2.length_eq
          refine ⟨(⟨cfg.out, []⟩, { st with named := ss }), ?_⟩
          · subst hs'
            have : ¬ ((⟨cfg.out, []⟩ : Slot P) :: ss).length ≠ cfg.sideOutputs + 1 := by
              simp only [List.length_cons] at hl ⊢; omega
            simp only [if_neg this, ne_eq, not_true_eq_false, if_false]
  obtain ⟨r, hr⟩ := this
  unfold bindNode
  rw [hr]
  exact ⟨_, rfl⟩

theorem bindLoop_total (hs : Setup cfg layout ns) (hB : Bindable cfg ns)
    (hu : ∀ (k : Nat) (n : Node K V F P T), ns[k]? = some n → ∀ d ∈ n.deps, k ≤ u d)
    (hroot : ∀ (i : Nat) (n : Node K V F P T), ns[i]? = some n → n.kind = .root →
      n.deps.head? = some cfg.outIdx)
    (rest : List (Node K V F P T)) {st : State V F P T}
    (hrest : ∀ k, k < rest.length → ns[i + k]? = rest[k]?)
    (h : Inv cfg layout ns u i i slots st.literals st.alloc) :
    ∃ r, bindLoop cfg rest slots st = some (.ok r) := by
  induction rest generalizing i slots st with
  | nil => exact ⟨_, rfl⟩
  | cons n rest ih =>
    have hn : ns[i]? = some n := by
      have := hrest 0 (by simp)
      simpa using this
    obtain ⟨inputs, hin⟩ := mapM_some (fun d => slots[d]?) n.deps (fun d hd => by
      have := hB.deps i n hn d hd
      exact ⟨_, List.getElem?_eq_getElem (by rw [h.len]; omega)⟩)
    obtain ⟨⟨s, st1⟩, hb⟩ := bindNode_total hB h hn hin (hroot i n hn)
    have hst := bindNode_ok hs h hn (hu i n hn) hin hb
    unfold bindLoop
    rw [hin]
    dsimp only
    rw [h.len, hb]
    dsimp only
    refine ih ?_ hst.inv
    intro k hk
    have := hrest (k + 1) (by simp; omega)
    rw [show i + (k + 1) = i + 1 + k by omega] at this
    simpa using this

/-- Binding an expression whose leaves have slots succeeds: the internal errors "first slot was
handled incorrectly" and "bound to a wrong output slot" are never reported. -/
theorem bind_succeeds (hs : Setup cfg layout ns) (hB : Bindable cfg ns) :
    ∃ slots st, bind (V := V) cfg layout ns = some (.ok (slots, st)) := by
  obtain ⟨as, r, hns⟩ : ∃ as r, ns = as ++ [r] := by
    rcases List.eq_nil_or_concat ns with h | ⟨as, r, h⟩
    · exact absurd h hB.ne
    · exact ⟨as, r, by simpa using h⟩
  have hgl : ns.getLast? = some r := by rw [hns]; simp
  have hrn : ns[as.length]? = some r := by rw [hns]; simp
  have hlen : ns.length = as.length + 1 := by rw [hns]; simp
  obtain ⟨k, hk, hroot, hlast⟩ : ∃ k, outputIndex ns = some k ∧
      (∀ (i : Nat) (n : Node K V F P T), ns[i]? = some n → n.kind = .root → n.deps.head? = some k) ∧
      (r.kind ≠ .root → k + 1 = ns.length) := by
    by_cases hr : r.kind = .root
    · obtain ⟨_, hl⟩ := hB.root _ r hrn hr
      cases hd : r.deps with
      | nil => rw [hd] at hl; simp at hl
      | cons d ds =>
        refine ⟨d, by simp [outputIndex, hgl, hr, hd], ?_, fun h => absurd hr h⟩
        intro i n hn hn'
        have := (hB.root i n hn hn').1
        have : i = as.length := by omega
        rw [this, hrn] at hn
        cases hn
        rw [hd]; rfl
    · refine ⟨ns.length - 1, ?_, ?_, fun _ => by omega⟩
      · have : (match r.kind with | .root => true | _ => false) = false := by
          cases h : r.kind <;> simp_all
        simp [outputIndex, hgl]
      · intro i n hn hn'
        have := (hB.root i n hn hn').1
        have : i = as.length := by omega
        rw [this, hrn] at hn
        cases hn
        exact absurd hn' hr
  have hs' := hs.withOut k
  have hB' : Bindable { cfg with outIdx := k } ns := ⟨hB.ne, hB.deps, hB.leaf, hB.part, hB.root⟩
  have hmake : ∃ a, Alloc.make { cfg with outIdx := k } layout ns = .ok a := by
    have hl : ∀ (l : List (Node K V F P T)) (i : Nat) (f : Nat → Option (T × Nat)),
        (∀ n ∈ l, ∀ k, n.kind = .leaf k → (cfg.inputSlot k).isSome) →
        ∃ f', leafSlots { cfg with outIdx := k } i l f = .ok f' := by
      intro l
      induction l with
      | nil => intro i f _; exact ⟨f, rfl⟩
      | cons n l ih =>
        intro i f h
        unfold leafSlots
        split
        · rename_i k' hk'
          obtain ⟨b, hb⟩ := Option.isSome_iff_exists.1 (h n (by simp) k' hk')
          simp only [hb]
          exact ih _ _ (fun n hn => h n (by simp [hn]))
        · exact ih _ _ (fun n hn => h n (by simp [hn]))
    obtain ⟨f', hf'⟩ := hl ns 0 (fun _ => none) (fun n hn k hk => by
      obtain ⟨j, hj⟩ := List.mem_iff_getElem?.1 hn
      exact hB.leaf j n k hj hk)
    unfold Alloc.make
    dsimp only
    split
    · rw [hf']; exact ⟨_, rfl⟩
    · exact ⟨_, rfl⟩
  obtain ⟨a, ha⟩ := hmake
  have hinv := make_inv (P := P) (V := V) hs' ha
  obtain ⟨⟨slots, st⟩, hloop⟩ := bindLoop_total hs' hB' (usages_dep ns) hroot ns (i := 0)
    (st := ⟨a, [], [], []⟩) (fun k _ => by rw [Nat.zero_add]) hinv
  obtain ⟨hinv', _⟩ := bindLoop_ok hs' (usages_dep ns) ns (i := 0)
    (fun k _ => by rw [Nat.zero_add]) hinv hloop
  rw [Nat.zero_add] at hinv'
  have hend : slots.getLast? = some ⟨cfg.out, []⟩ := by
    rw [List.getLast?_eq_getElem?, hinv'.len]
    by_cases hr : r.kind = .root
    · -- the slot of the root is the output slot by the check in `HandleInternalRoot`
      rw [hns, bindLoop_append] at hloop
      split at hloop
      case h_2 hne => exact absurd hloop (hne slots st)
      case h_1 slots1 st1 hl1 =>
      obtain ⟨hinv1, _⟩ := bindLoop_ok hs' (usages_dep ns) as (i := 0)
        (fun k hk => by rw [Nat.zero_add, hns, List.getElem?_append_left hk]) hinv hl1
      rw [Nat.zero_add] at hinv1
      unfold bindLoop at hloop
      split at hloop
      · cases hloop
      · rename_i inputs hin1
        split at hloop
        · cases hloop
        · rename_i s st2 hbn
          simp only [bindLoop, Option.some.injEq, Except.ok.injEq, Prod.mk.injEq] at hloop
          obtain ⟨rfl, rfl⟩ := hloop
          have hsl : s = ⟨cfg.out, []⟩ := by
            unfold bindNode at hbn
            split at hbn
            · cases hbn
            · rename_i s' st3 hco
              cases hbn
              simp only [constructOutput, hr] at hco
              split at hco
              · cases hco
              · split at hco
                · cases hco
                · split at hco
                  · cases hco
                  · rename_i rest _ hne
                    cases hco
                    simpa using hne
          rw [hsl, show ns.length - 1 = slots1.length by rw [hinv1.len]; omega]
          simp
    · have hkl := hlast hr
      rw [show ns.length - 1 = k by omega]
      exact hinv'.out_slot (by dsimp only; omega)
  refine ⟨slots, st, ?_⟩
  unfold bind
  rw [hk]
  dsimp only
  rw [ha]
  dsimp only
  rw [hloop]
  dsimp only
  rw [if_pos hend]

/-! ## Concrete programs -/

/-- Values: numbers and pairs. -/
inductive XV where
  | n (i : Int)
  | pair (a b : XV)
  deriving Repr, DecidableEq

/-- Operators. -/
inductive XF where
  | succ | add | pair
  deriving Repr, DecidableEq

/-- Successor, sum, pair. -/
def xapply : XF → List XV → Except Nat XV
  | .succ, [.n a] => .ok (.n (a + 1))
  | .add, [.n a, .n b] => .ok (.n (a + b))
  | .pair, [a, b] => .ok (.pair a b)
  | _, _ => .error 0

/-- The parts of a pair. -/
def xproj : Bool → XV → XV
  | false, .pair a _ => a
  | true, .pair _ b => b
  | _, v => v

/-- `root((succ(get1(pair(x, succ(succ(x))))) + y) + 7, succ(x))` with `x`, `y` the leaves 0, 1; type
`true` is the type of pairs. -/
def xnodes : List (Node Nat XV XF Bool Bool) :=
  [⟨.leaf 0, [], false⟩, ⟨.op .succ, [0], false⟩, ⟨.op .succ, [1], false⟩,
   ⟨.op .pair, [0, 2], true⟩, ⟨.part true, [3], false⟩, ⟨.op .succ, [4], false⟩,
   ⟨.leaf 1, [], false⟩, ⟨.literal (.n 7), [], false⟩, ⟨.op .add, [5, 6], false⟩,
   ⟨.op .add, [8, 7], false⟩, ⟨.root, [9, 1], false⟩]

/-- Slots 0 and 1 for the inputs, 2 for the output; slot 3 belongs to somebody else. -/
def xcfg (allow : Bool) : Config Nat :=
  ⟨fun k => match k with | 0 => some 0 | 1 => some 1 | _ => none, 2, 0, 1, allow⟩

/-- The slots the program writes, in order. -/
def xwrites (allow : Bool) : Option (List Nat) :=
  match bind (xcfg allow) [false, false, false, false] xnodes with
  | some (.ok (_, st)) => some (st.code.map fun
      | .compute _ _ w => w
      | .copy _ w => w)
  | _ => none

/-- Without permission to overwrite inputs the slot 5 is used twice; slots 0, 1 and 3 are not written. -/
example : xwrites false = some [4, 5, 6, 5, 8, 2] := by
  simp [xwrites, bind, outputIndex, xnodes, xcfg, Alloc.make, lastUsagesLoop, markDeps, leafSlots, bindLoop,
    bindNode, constructOutput, maybeCopy, Alloc.release, Alloc.allocate, Alloc.inherit, Alloc.permanent,
    setAt]

/-- With permission, the slot of `x` is taken after its last use. -/
example : xwrites true = some [4, 5, 6, 5, 0, 2] := by
  simp [xwrites, bind, outputIndex, xnodes, xcfg, Alloc.make, lastUsagesLoop, markDeps, leafSlots, bindLoop,
    bindNode, constructOutput, maybeCopy, Alloc.release, Alloc.allocate, Alloc.inherit, Alloc.permanent,
    setAt]

theorem xsetup (allow : Bool) : Setup (xcfg allow) [false, false, false, false] xnodes := by
  have key : ∀ (o : Nat) (n : Node Nat XV XF Bool Bool) (k : Nat) (b : Nat),
      xnodes[o]? = some n → n.kind = .leaf k → (xcfg allow).inputSlot k = some b →
      (o = 0 ∧ b = 0 ∧ n.ty = false) ∨ (o = 6 ∧ b = 1 ∧ n.ty = false) := by
    intro o n k b hn hk hb
    have ho : o < 11 := lt_of_getElem? hn
    match o, ho with
    | 0, _ | 6, _ =>
      cases hn; cases hk
      simp [xcfg] at hb
      simp [← hb]
    | 1, _ | 2, _ | 3, _ | 4, _ | 5, _ | 7, _ | 8, _ | 9, _ | 10, _ => cases hn; cases hk
  refine ⟨by simp [xcfg], ?_, ?_, ?_⟩
  · intro o n k b hn hk hb
    rcases key o n k b hn hk hb with ⟨_, rfl, h⟩ | ⟨_, rfl, h⟩ <;> rw [h] <;> rfl
  · rintro b ⟨o, n, k, hn, hk, hb⟩
    rcases key o n k b hn hk hb with ⟨_, rfl, h⟩ | ⟨_, rfl, h⟩ <;> simp [xcfg]
  · intro _ o o' n n' k k' b hn hn' hk hk' hb hb'
    rcases key o n k b hn hk hb with ⟨h1, h2, _⟩ | ⟨h1, h2, _⟩ <;>
      rcases key o' n' k' b hn' hk' hb' with ⟨h3, h4, _⟩ | ⟨h3, h4, _⟩ <;> omega

theorem xbindable (allow : Bool) : Bindable (xcfg allow) xnodes := by
  have hlt : ∀ (o : Nat) (n : Node Nat XV XF Bool Bool), xnodes[o]? = some n → o < 11 :=
    fun o n hn => lt_of_getElem? hn
  refine ⟨by simp [xnodes], ?_, ?_, ?_, ?_⟩
  · intro o n hn
    have ho := hlt o n hn
    match o, ho with
    | 0, _ | 1, _ | 2, _ | 3, _ | 4, _ | 5, _ | 6, _ | 7, _ | 8, _ | 9, _ | 10, _ => cases hn; simp
  · intro o n k hn hk
    have ho := hlt o n hn
    match o, ho with
    | 0, _ | 6, _ => cases hn; cases hk; simp [xcfg]
    | 1, _ | 2, _ | 3, _ | 4, _ | 5, _ | 7, _ | 8, _ | 9, _ | 10, _ => cases hn; cases hk
  · intro o n p hn hk
    have ho := hlt o n hn
    match o, ho with
    | 4, _ => cases hn; simp
    | 0, _ | 1, _ | 2, _ | 3, _ | 6, _ | 5, _ | 7, _ | 8, _ | 9, _ | 10, _ => cases hn; cases hk
  · intro o n hn hk
    have ho := hlt o n hn
    match o, ho with
    | 10, _ => cases hn; simp [xnodes, xcfg]
    | 0, _ | 1, _ | 2, _ | 3, _ | 6, _ | 5, _ | 7, _ | 8, _ | 9, _ | 4, _ => cases hn; cases hk

/-- All theorems apply to the example, with and without overwriting: binding succeeds, and by
`bind_evaluates` the output for `x = 10`, `y = 100` is 10 + 3 + 100 + 7. -/
example (allow : Bool) : ∃ slots st,
    bind (xcfg allow) [false, false, false, false] xnodes = some (.ok (slots, st)) ∧
    ∃ m', execute xapply xproj st.code (initLiterals st.literals
        (fun b => if b = 0 then .n 10 else if b = 1 then .n 100 else .n 555)) = .ok m' ∧
      m' 2 = .n 120 ∧ m' 3 = .n 555 := by
  obtain ⟨slots, st, hb⟩ := bind_succeeds (V := XV) (xsetup allow) (xbindable allow)
  refine ⟨slots, st, hb, ?_⟩
  have := bind_evaluates (xsetup allow) hb xapply xproj
    (fun k => if k = 0 then .n 10 else .n 100)
    (fun b => if b = 0 then .n 10 else if b = 1 then .n 100 else .n 555) ?_
  · have hv : values xapply xproj (fun k => if k = 0 then .n 10 else .n 100) xnodes [] =
        some (.ok [.n 10, .n 11, .n 12, .pair (.n 10) (.n 12), .n 12, .n 13, .n 100, .n 7, .n 113,
          .n 120, .n 120]) := by rfl
    rw [hv] at this
    obtain ⟨m', h1, h2, _, h4, _⟩ := this
    refine ⟨m', h1, (Option.some.inj h2).symm, ?_⟩
    have h3 := h4 3 ⟨by simp, by simp [xcfg], fun _ => ?_⟩
    · simpa using h3
    · rintro ⟨o, n, k, hn, hk, hb⟩
      match k, hb with
      | 0, hb => cases hb
      | 1, hb => cases hb
  · intro o n k b hn hk hb
    match k, hb with
    | 0, hb => cases hb; rfl
    | 1, hb => cases hb; rfl

/-! ## The obligations of the caller are needed -/

/-- `succ(succ(x)) + y`. -/
def sharedNodes : List (Node Nat XV XF Bool Bool) :=
  [⟨.leaf 0, [], false⟩, ⟨.op .succ, [0], false⟩, ⟨.op .succ, [1], false⟩, ⟨.leaf 1, [], false⟩,
   ⟨.op .add, [2, 3], false⟩]

/-- Both leaves in slot 0, inputs may be overwritten. -/
def sharedCfg : Config Nat := ⟨fun _ => some 0, 1, 0, 0, true⟩

/-- The frame after running a bound expression in a frame full of fives: the output and the named
outputs. -/
def runFives (cfg : Config Nat) (layout : List Bool) (ns : List (Node Nat XV XF Bool Bool)) :
    Option (XV × List XV) :=
  match bind cfg layout ns with
  | some (.ok (_, st)) =>
    match execute xapply xproj st.code (initLiterals st.literals fun _ => .n 5) with
    | .ok m => some (m cfg.out, st.named.map (readSlot xproj m))
    | .error _ => none
  | _ => none

/-- Two leaves in one slot with `allow_overriding_input_slots`: the slot is reused after the last use
of `x` although `y` still needs it, and 7 + 5 becomes 7 + 7. -/
theorem shared_input_counterexample :
    runFives sharedCfg [false, false] sharedNodes = some (.n 14, []) ∧
    values xapply xproj (fun _ => .n 5) sharedNodes [] =
      some (.ok [.n 5, .n 6, .n 7, .n 5, .n 12]) := by
  refine ⟨?_, rfl⟩
  simp [runFives, sharedCfg, sharedNodes, bind, outputIndex, Alloc.make, lastUsagesLoop, markDeps, leafSlots, bindLoop,
    bindNode, constructOutput, maybeCopy, Alloc.release, Alloc.allocate, Alloc.inherit, Alloc.permanent,
    setAt, initLiterals, execute, Instr.run, readSlot, xapply, xproj]

/-- `root(succ(x), x + x)`. -/
def outNodes : List (Node Nat XV XF Bool Bool) :=
  [⟨.leaf 0, [], false⟩, ⟨.op .succ, [0], false⟩, ⟨.op .add, [0, 0], false⟩, ⟨.root, [1, 2], false⟩]

/-- Leaf and output in slot 0. -/
def outCfg : Config Nat := ⟨fun _ => some 0, 0, 0, 1, false⟩

/-- The output slot is written as soon as its node is computed, so it must not be an input: the side
output `x + x` becomes 12 instead of 10. -/
theorem output_is_input_counterexample :
    runFives outCfg [false] outNodes = some (.n 6, [.n 12]) ∧
    values xapply xproj (fun _ => .n 5) outNodes [] = some (.ok [.n 5, .n 6, .n 10, .n 6]) := by
  refine ⟨?_, rfl⟩
  simp [runFives, outCfg, outNodes, bind, outputIndex, Alloc.make, lastUsagesLoop, markDeps, leafSlots, bindLoop,
    bindNode, constructOutput, maybeCopy, Alloc.release, Alloc.allocate, Alloc.inherit, Alloc.permanent,
    setAt, initLiterals, execute, Instr.run, readSlot, xapply, xproj]

end Verif.Slots
