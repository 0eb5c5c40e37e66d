import Verif.Trace.TraceModel

/-! # Stack traces end, and report where a node came from -/

namespace Verif.Trace

variable {F L : Type} [DecidableEq F]

/-- What the transformations call. -/
inductive Call (F L : Type)
  | initNode (node : Node F L)
  | addTrace (transformed original : Node F L)

def run (s : State F L) : List (Call F L) → State F L
  | [] => s
  | .initNode n :: rest => run (initNode s n) rest
  | .addTrace t o :: rest => run (addTrace s t o) rest

/-- The nodes a node came from, the node first: each is recorded as the origin of the one before it, and nothing is recorded for the last. -/
inductive Origins (traceback : List (F × F)) : F → List F → Prop
  | last {f} : find traceback f = none → Origins traceback f [f]
  | next {f g l} : find traceback f = some g → Origins traceback g l → Origins traceback f (f :: l)

theorem find_emplace {V : Type} (m : List (F × V)) (k k' : F) (v : V) :
    find (emplace m k v) k' = match find m k' with | some x => some x | none => if k = k' then some v else none := by
  unfold emplace
  cases h : find m k with
  | some x =>
    dsimp only
    by_cases hk : k = k'
    · subst hk; rw [h]
    · simp only [hk, if_false]; cases find m k' <;> rfl
  | none =>
    dsimp only
    rw [find]
    by_cases hk : k = k'
    · subst hk; simp [h]
    · simp only [hk, if_false]; cases find m k' <;> rfl

/-- The entries, the newest first: the key of an entry is not an origin in an older entry. -/
def Ordered : List (F × F) → Prop
  | [] => True
  | (t, o) :: rest => t ≠ o ∧ (∀ e ∈ rest, e.2 ≠ t) ∧ (∀ e ∈ rest, e.1 ≠ t) ∧ Ordered rest

def Inv (s : State F L) : Prop := Ordered s.traceback ∧ ∀ e ∈ s.traceback, e.2 ∈ s.originals

theorem find_none_not_mem {V : Type} {m : List (F × V)} {k : F} (h : find m k = none) : ∀ e ∈ m, e.1 ≠ k := by
  induction m with
  | nil => simp
  | cons e m ih =>
    obtain ⟨k', v⟩ := e
    rw [find] at h
    by_cases hk : k' = k
    · simp [hk] at h
    · simp only [hk, if_false] at h
      intro e he
      rcases List.mem_cons.1 he with rfl | he
      · exact hk
      · exact ih h e he

theorem find_some_mem {V : Type} {m : List (F × V)} {k : F} {v : V} (h : find m k = some v) : (k, v) ∈ m := by
  induction m with
  | nil => simp [find] at h
  | cons e m ih =>
    obtain ⟨k', v'⟩ := e
    rw [find] at h
    by_cases hk : k' = k
    · simp only [hk, if_true, Option.some.injEq] at h
      subst hk; subst h; simp
    · simp only [hk, if_false] at h
      exact List.mem_cons_of_mem _ (ih h)

theorem inv_init (s : State F L) (n : Node F L) (h : Inv s) : Inv (initNode s n) := by
  unfold initNode
  dsimp only
  cases n.location with
  | none => exact h
  | some x => exact h

theorem inv_add (s : State F L) (t o : Node F L) (h : Inv s) : Inv (addTrace s t o) := by
  unfold addTrace
  dsimp only
  split
  · exact h
  · split
    · exact h
    · rename_i hne
      split
      · exact h
      · rename_i hnot
        unfold Inv emplace
        dsimp only
        cases hf : find s.traceback t.fp with
        | some x =>
          dsimp only
          exact ⟨h.1, fun e he => List.mem_cons_of_mem _ (h.2 e he)⟩
        | none =>
          dsimp only
          refine ⟨⟨hne, ?_, find_none_not_mem hf, h.1⟩, ?_⟩
          · intro e he heq
            exact hnot (heq ▸ h.2 e he)
          · intro e he
            rcases List.mem_cons.1 he with rfl | he
            · simp
            · exact List.mem_cons_of_mem _ (h.2 e he)

theorem run_inv (s : State F L) (cs : List (Call F L)) (h : Inv s) : Inv (run s cs) := by
  induction cs generalizing s with
  | nil => exact h
  | cons c cs ih =>
    cases c with
    | initNode n => exact ih _ (inv_init s n h)
    | addTrace t o => exact ih _ (inv_add s t o h)

theorem init_inv : Inv (State.init : State F L) := by simp [Inv, State.init, Ordered]

/-- In ordered entries the nodes a node came from are finitely many, all but the first are origins, and there are no repetitions. -/
theorem ordered_origins (tb : List (F × F)) (h : Ordered tb) (f : F) :
    ∃ path, Origins tb f path ∧ path.length ≤ tb.length + 1 ∧ path.Nodup ∧ ∀ g ∈ path, g = f ∨ ∃ e ∈ tb, e.2 = g := by
  induction tb generalizing f with
  | nil => exact ⟨[f], .last rfl, by simp, by simp, by simp⟩
  | cons e tb ih =>
    obtain ⟨t, o⟩ := e
    obtain ⟨hne, hold, hkey, hrest⟩ := h
    -- paths in the older entries from a node other than `t` do not meet `t`
    have lift : ∀ (g : F) (l : List F), g ≠ t → Origins tb g l → Origins ((t, o) :: tb) g l := by
      intro g l hg hl
      induction hl with
      | last hf => exact .last (by rw [find]; simp [Ne.symm hg, hf])
      | next hf _ ih2 =>
        rename_i f' g' l' _
        refine .next (by rw [find]; simp only [Ne.symm hg, if_false]; exact hf) (ih2 ?_)
        exact hold (f', g') (find_some_mem hf)
    by_cases hf : f = t
    · subst hf
      obtain ⟨path, h1, h2, h3, h4⟩ := ih hrest o
      refine ⟨f :: path, .next (by rw [find]; simp) (lift o path (Ne.symm hne) h1), by simp; omega, ?_, ?_⟩
      · rw [List.nodup_cons]
        refine ⟨?_, h3⟩
        intro hmem
        rcases h4 f hmem with rfl | ⟨e, he, heq⟩
        · exact hne rfl
        · exact hold e he heq
      · intro g hg
        rcases List.mem_cons.1 hg with rfl | hg
        · exact .inl rfl
        · rcases h4 g hg with rfl | ⟨e, he, heq⟩
          · exact .inr ⟨(f, g), by simp, rfl⟩
          · exact .inr ⟨e, List.mem_cons_of_mem _ he, heq⟩
    · obtain ⟨path, h1, h2, h3, h4⟩ := ih hrest f
      refine ⟨path, lift f path hf h1, by simp; omega, h3, ?_⟩
      intro g hg
      rcases h4 g hg with rfl | ⟨e, he, heq⟩
      · exact .inl rfl
      · exact .inr ⟨e, List.mem_cons_of_mem _ he, heq⟩

theorem annotate_eq (tb : List (F × F)) (locs : List (F × L)) {f : F} {path : List F} (h : Origins tb f path) (fuel : Nat)
    (hfuel : path.length ≤ fuel) (status : List L) : annotate tb locs fuel status f = some (status ++ path.filterMap (find locs)) := by
  induction h generalizing fuel status with
  | last hf =>
    cases fuel with
    | zero => simp at hfuel
    | succ fuel =>
      rename_i f
      rw [annotate, hf]
      cases hl : find locs f <;> simp [hl]
  | next hf _ ih =>
    cases fuel with
    | zero => simp at hfuel
    | succ fuel =>
      rename_i f g l _
      rw [annotate, hf]
      dsimp only
      rw [ih fuel (by simp at hfuel; omega)]
      cases hl : find locs f <;> simp [hl]

/-- **The loop that annotates an error stops whatever transformations were recorded, and it adds the source locations of the failed node and of the
nodes it came from, in this order, no node twice**. -/
theorem annotation_stops (cs : List (Call F L)) (f : F) : ∃ path : List F,
    let s := run (State.init : State F L) cs
    Origins s.traceback f path ∧ path.Nodup ∧
      ∀ fuel, s.traceback.length < fuel → annotate s.traceback s.locations fuel [] f = some (path.filterMap (find s.locations)) := by
  have h := run_inv (State.init : State F L) cs init_inv
  obtain ⟨path, h1, h2, h3, _⟩ := ordered_origins _ h.1 f
  refine ⟨path, h1, h3, ?_⟩
  intro fuel hfuel
  rw [annotate_eq _ _ h1 fuel (by omega)]
  simp

/-! ## Nothing is lost for fresh nodes -/

def Call.fps : Call F L → List F
  | .initNode _ => []
  | .addTrace t o => [t.fp, o.fp]

theorem originals_subset (s : State F L) (cs : List (Call F L)) (f : F) (h : f ∈ (run s cs).originals) :
    f ∈ s.originals ∨ ∃ c ∈ cs, f ∈ c.fps := by
  induction cs generalizing s with
  | nil => exact .inl h
  | cons c cs ih =>
    cases c with
    | initNode n =>
      rcases ih (initNode s n) h with h | ⟨c, hc, hf⟩
      · left
        unfold initNode at h
        dsimp only at h
        cases hl : n.location with
        | none => rw [hl] at h; exact h
        | some x => rw [hl] at h; exact h
      · exact .inr ⟨c, List.mem_cons_of_mem _ hc, hf⟩
    | addTrace t o =>
      rcases ih (addTrace s t o) h with h | ⟨c, hc, hf⟩
      · unfold addTrace at h
        dsimp only at h
        split at h
        · exact .inl h
        · split at h
          · exact .inl h
          · split at h
            · exact .inl h
            · rcases List.mem_cons.1 h with rfl | h
              · exact .inr ⟨.addTrace t o, by simp, by simp [Call.fps]⟩
              · exact .inl h
      · exact .inr ⟨c, List.mem_cons_of_mem _ hc, hf⟩

theorem keys_subset (s : State F L) (cs : List (Call F L)) (f g : F) (h : find (run s cs).traceback f = some g) :
    find s.traceback f = some g ∨ ∃ c ∈ cs, f ∈ c.fps := by
  induction cs generalizing s with
  | nil => exact .inl h
  | cons c cs ih =>
    cases c with
    | initNode n =>
      rcases ih (initNode s n) h with h | ⟨c, hc, hf⟩
      · left
        unfold initNode at h
        dsimp only at h
        cases hl : n.location with
        | none => rw [hl] at h; exact h
        | some x => rw [hl] at h; exact h
      · exact .inr ⟨c, List.mem_cons_of_mem _ hc, hf⟩
    | addTrace t o =>
      rcases ih (addTrace s t o) h with h | ⟨c, hc, hf⟩
      · unfold addTrace at h
        dsimp only at h
        split at h
        · exact .inl h
        · split at h
          · exact .inl h
          · split at h
            · exact .inl h
            · dsimp only at h
              rw [find_emplace] at h
              cases hf : find s.traceback f with
              | some x => rw [hf] at h; exact .inl h
              | none =>
                rw [hf] at h
                dsimp only at h
                by_cases hk : t.fp = f
                · exact .inr ⟨.addTrace t o, by simp, by simp [Call.fps, hk]⟩
                · simp [hk] at h
      · exact .inr ⟨c, List.mem_cons_of_mem _ hc, hf⟩

/-- Recorded origins stay. -/
theorem traceback_stable (s : State F L) (cs : List (Call F L)) (f g : F) (h : find s.traceback f = some g) :
    find (run s cs).traceback f = some g := by
  induction cs generalizing s with
  | nil => exact h
  | cons c cs ih =>
    cases c with
    | initNode n =>
      apply ih
      unfold initNode
      dsimp only
      cases n.location <;> exact h
    | addTrace t o =>
      apply ih
      unfold addTrace
      dsimp only
      split
      · exact h
      · split
        · exact h
        · split
          · exact h
          · dsimp only
            rw [find_emplace, h]

/-- **The origin of a node is recorded, for good, when a transformation makes a node not seen before**. -/
theorem fresh_recorded (before after : List (Call F L)) (t o : Node F L) (hop : t.isOp = true) (hne : t.fp ≠ o.fp)
    (hfresh : ∀ c ∈ before, t.fp ∉ c.fps) :
    find (run (State.init : State F L) (before ++ .addTrace t o :: after)).traceback t.fp = some o.fp := by
  have split_run : ∀ (s : State F L) (a b : List (Call F L)), run s (a ++ b) = run (run s a) b := by
    intro s a b
    induction a generalizing s with
    | nil => rfl
    | cons c a ih => cases c <;> exact ih _
  rw [split_run]
  generalize hs : run (State.init : State F L) before = s
  have hor : t.fp ∉ s.originals := by
    intro h
    rw [← hs] at h
    rcases originals_subset _ _ _ h with h | ⟨c, hc, hf⟩
    · simp [State.init] at h
    · exact hfresh c hc hf
  have hkey : find s.traceback t.fp = none := by
    cases h : find s.traceback t.fp with
    | none => rfl
    | some g =>
      rw [← hs] at h
      rcases keys_subset _ _ _ _ h with h | ⟨c, hc, hf⟩
      · simp [State.init, find] at h
      · exact absurd hf (hfresh c hc)
  show find (run (addTrace s t o) after).traceback t.fp = some o.fp
  apply traceback_stable
  unfold addTrace
  simp [hop, hne, hor, find_emplace, hkey]

/-! ## Names -/

/-- Recorded names stay. -/
theorem names_stable (s : State F L) (cs : List (Call F L)) (f : F) (x : String) (h : find s.names f = some x) :
    find (run s cs).names f = some x := by
  have hinit : ∀ (names : List (F × String)) (n : Node F L), find names f = some x → find (lightInit names n) f = some x := by
    intro names n h
    unfold lightInit
    split
    · exact h
    · split
      · exact h
      · rw [find_emplace, h]
  induction cs generalizing s with
  | nil => exact h
  | cons c cs ih =>
    cases c with
    | initNode n =>
      apply ih
      unfold initNode
      dsimp only
      cases n.location <;> exact hinit _ _ h
    | addTrace t o =>
      apply ih
      have hl : find (lightAdd s.names t o) f = some x := by
        unfold lightAdd
        split
        · exact h
        · split
          · exact h
          · cases find s.names o.fp with
            | some y => dsimp only; rw [find_emplace, h]
            | none => exact hinit _ _ h
      unfold addTrace
      dsimp only
      split
      · exact hl
      · split
        · exact hl
        · split <;> exact hl

/-- **A node reports the name of the operator it came from**: if a transformation is recorded for a node with a name, a node without a name gets it. -/
theorem name_inherited (s : State F L) (cs : List (Call F L)) (t o : Node F L) (x : String) (ht : t.isOp = true) (ho : o.isOp = true)
    (hname : find s.names o.fp = some x) (hnew : find s.names t.fp = none) :
    find (run s (.addTrace t o :: cs)).names t.fp = some x := by
  apply names_stable (addTrace s t o)
  have hne : t.fp ≠ o.fp := by intro h; rw [h, hname] at hnew; cases hnew
  have hl : find (lightAdd s.names t o) t.fp = some x := by
    unfold lightAdd
    simp [ht, ho, hne, hname, find_emplace, hnew]
  unfold addTrace
  dsimp only
  split
  · exact hl
  · split <;> exact hl

/-! ## Instructions -/

def registerAll (names : List (F × String)) (b : Bound F) : List (Nat × Node F L) → Bound F
  | [] => b
  | (ip, n) :: rest => registerAll names (registerIp names b ip n) rest

/-- What an instruction was first registered for. -/
def firstNode (regs : List (Nat × Node F L)) (ip : Nat) : Option (Node F L) := (regs.find? fun r => r.1 = ip).map Prod.snd

def reportedName (names : List (F × String)) (n : Node F L) : String := (find names n.fp).getD n.displayName

theorem registerAll_spec (names : List (F × String)) (b : Bound F) (regs : List (Nat × Node F L)) (ip : Nat)
    (hb : ∀ i, (find b.opNames i).isSome → i < b.numOperators) :
    let b' := registerAll names b regs
    (find b'.opNames ip = ((find b.opNames ip).or ((firstNode regs ip).map (reportedName names)))) ∧
      (find b'.ipToFp ip = ((find b.ipToFp ip).or ((firstNode regs ip).map Node.fp))) ∧
      (∀ i, (find b'.opNames i).isSome → i < b'.numOperators) := by
  induction regs generalizing b with
  | nil => simp [registerAll, firstNode]; exact fun i h => hb i h
  | cons r regs ih =>
    obtain ⟨ip', n⟩ := r
    have hname : (registerIp names b ip' n).opNames = emplace b.opNames ip' (reportedName names n) := by
      unfold registerIp reportedName
      dsimp only
      cases find names n.fp <;> rfl
    have hb2 : ∀ i, (find (registerIp names b ip' n).opNames i).isSome → i < (registerIp names b ip' n).numOperators := by
      intro i hi
      unfold registerIp at hi ⊢
      dsimp only at hi ⊢
      rw [find_emplace] at hi
      cases hf : find b.opNames i with
      | some x =>
        have := hb i (by simp [hf])
        omega
      | none =>
        rw [hf] at hi
        dsimp only at hi
        by_cases hk : ip' = i
        · omega
        · simp [hk] at hi
    obtain ⟨h1, h2, h3⟩ := ih (registerIp names b ip' n) hb2
    refine ⟨?_, ?_, h3⟩
    · show find (registerAll names (registerIp names b ip' n) regs).opNames ip = _
      rw [h1, hname, find_emplace]
      unfold firstNode
      cases find b.opNames ip with
      | some x => simp
      | none =>
        by_cases hk : ip' = ip
        · simp [hk]
        · simp [hk]
    · show find (registerAll names (registerIp names b ip' n) regs).ipToFp ip = _
      rw [h2]
      unfold registerIp firstNode
      dsimp only
      rw [find_emplace]
      cases find b.ipToFp ip with
      | some x => simp
      | none =>
        by_cases hk : ip' = ip
        · simp [hk]
        · simp [hk]

/-- **An error at an instruction is reported with the name of the operator its node came from and with the source locations of the nodes it came
from; an error at an instruction never registered is reported with an empty name and without locations** — for all transformations and
registrations. -/
theorem error_annotation (cs : List (Call F L)) (regs : List (Nat × Node F L)) (ip fuel : Nat)
    (hfuel : (run (State.init : State F L) cs).traceback.length < fuel) :
    let s := run (State.init : State F L) cs
    let b := registerAll s.names Bound.init regs
    match firstNode regs ip with
    | none => annotateError s b fuel ip = some ("", [])
    | some n => ∃ path, Origins s.traceback n.fp path ∧
        annotateError s b fuel ip = some (reportedName s.names n, path.filterMap (find s.locations)) := by
  intro s b
  obtain ⟨h1, h2, h3⟩ := registerAll_spec s.names (Bound.init : Bound F) regs ip (by simp [Bound.init, find])
  have hlen : (displayNames b).length = b.numOperators := by simp [displayNames]
  have hget : ip < b.numOperators → (displayNames b)[ip]? = some ((find b.opNames ip).getD "") := by
    intro hlt
    simp [displayNames, hlt]
  have hnone : (find (Bound.init : Bound F).opNames ip) = none := rfl
  have hnone2 : (find (Bound.init : Bound F).ipToFp ip) = none := rfl
  rw [hnone, Option.none_or] at h1
  rw [hnone2, Option.none_or] at h2
  change find b.opNames ip = _ at h1
  change find b.ipToFp ip = _ at h2
  change ∀ i, (find b.opNames i).isSome → i < b.numOperators at h3
  cases hn : firstNode regs ip with
  | none =>
    rw [hn] at h1 h2
    simp only [Option.map_none] at h1 h2
    unfold annotateError
    dsimp only
    rw [hlen, h2]
    by_cases hlt : ip < b.numOperators
    · rw [if_pos hlt, hget hlt, h1]; rfl
    · rw [if_neg hlt]
  | some n =>
    rw [hn] at h1 h2
    simp only [Option.map_some] at h1 h2
    obtain ⟨path, p1, _, p3⟩ := annotation_stops cs n.fp
    refine ⟨path, p1, ?_⟩
    have hlt : ip < b.numOperators := h3 ip (by simp [h1])
    unfold annotateError
    dsimp only
    rw [hlen, if_pos hlt, hget hlt, h1, h2]
    dsimp only
    rw [p3 fuel hfuel]
    simp [s]

/-! ## Concrete cases -/

def op (fp : Nat) (name : String) : Node Nat String := ⟨fp, true, name, none⟩
def located (fp dep : Nat) (loc : String) : Node Nat String := ⟨fp, true, "annotation.source_location", some (dep, loc)⟩

/-- 1 is transformed to 2, 2 to 3, and 3 back to 1. -/
def exCalls : List (Call Nat String) :=
  [.initNode (op 1 "math.mean"), .initNode (located 9 1 "a.py:1"), .initNode (located 8 2 "b.py:7"), .addTrace (op 2 "math.divide") (op 1 "math.mean"),
    .addTrace (op 3 "math.multiply") (op 2 "math.divide"), .addTrace (op 1 "math.mean") (op 3 "math.multiply")]

example : (run State.init exCalls).traceback = [(3, 2), (2, 1)] := by decide +kernel
example : annotate (run State.init exCalls).traceback (run State.init exCalls).locations 3 [] 3 = some ["b.py:7", "a.py:1"] := by decide +kernel
example : find (run State.init exCalls).names 3 = some "math.mean" := by decide +kernel
example : annotateError (run State.init exCalls) (registerAll (run State.init exCalls).names Bound.init [(0, op 5 "x"), (2, op 3 "math.multiply")]) 3 2 =
    some ("math.mean", ["b.py:7", "a.py:1"]) := by decide +kernel
/-- Without the check a cycle would be recorded and the loop would not stop. -/
example : annotate [(1, 3), (3, 2), (2, 1)] ([] : List (Nat × String)) 1000 [] 3 = none := by decide +kernel

end Verif.Trace
