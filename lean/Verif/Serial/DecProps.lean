import Verif.Serial.SafeLemmas
import Verif.Serial.SerialExample
import Mathlib.Tactic.ByContra

/-!
# The decoder (C47)
-/

namespace Verif.Serial
open Verif.Expr
variable {V A X E T U : Type}

/-- The indices that a step refers to. -/
def refs : Kind X → List Nat
  | .literal (some j) => [j]
  | .op (some j) is => j :: is
  | .value p => p.inputValues ++ p.inputExprs
  | .outValue j => [j]
  | .outExpr j => [j]
  | _ => []

/-- Without hints, the usage counts are numbers of references. -/
def Counted (js : List Nat) (d d' : Dec V A X E) : Prop :=
  d'.expected = [] ∧ (d'.cells.length = d.cells.length ∧ ∀ j ∈ js, j < d.cells.length) ∧
  ∀ (i : Nat) (c c' : Cell V A X E), d.cells[i]? = some c → d'.cells[i]? = some c' → c'.usage = c.usage + js.count i

theorem Counted.trans {js js' : List Nat} {a b c : Dec V A X E} (h : Counted js a b) (h' : Counted js' b c) :
    Counted (js ++ js') a c := by
  refine ⟨h'.1, ⟨h'.2.1.1.trans h.2.1.1, fun j hj => ?_⟩, fun i x z hx hz => ?_⟩
  · rcases List.mem_append.1 hj with hj | hj
    · exact h.2.1.2 j hj
    · rw [← h.2.1.1]; exact h'.2.1.2 j hj
  have hlt : i < b.cells.length := by rw [h.2.1.1]; exact (List.getElem?_eq_some_iff.1 hx).1
  have hy := List.getElem?_eq_getElem hlt
  rw [h'.2.2 i _ z hy hz, h.2.2 i x _ hx hy, List.count_append]
  omega

theorem Counted.refl {d d' : Dec V A X E} (h : d'.expected = []) (he : d'.cells = d.cells) : Counted [] d d' := by
  refine ⟨h, ⟨by rw [he], by simp⟩, fun i c c' hc hc' => ?_⟩
  rw [he, hc] at hc'
  cases hc'
  simp

theorem load_counted {d d' : Dec V A X E} {i : Nat} {r : Option (VoE V A)} (h : d.expected = [])
    (hl : load d i = .ok (d', r)) : Counted [i] d d' := by
  rw [load_nil h] at hl
  cases hc : d.cells[i]? with
  | none => rw [hc] at hl; cases hl
  | some c =>
    rw [hc] at hl
    cases hl
    have hlt : i < d.cells.length := (List.getElem?_eq_some_iff.1 hc).1
    refine ⟨h, ⟨by simp, by simp [hlt]⟩, fun j x x' hx hx' => ?_⟩
    dsimp only at hx'
    rw [List.getElem?_set] at hx'
    by_cases hj : i = j
    · subst hj
      rw [hc] at hx
      cases hx
      simp [hlt] at hx'
      subst hx'
      simp
    · simp [hj] at hx'
      rw [hx] at hx'
      cases hx'
      simp [hj]

theorem loadValue_counted {d d' : Dec V A X E} {i : Nat} {v : V} (h : d.expected = [])
    (hl : loadValue d i = .ok (d', v)) : Counted [i] d d' := by
  obtain ⟨⟨d1, r⟩, h1, h2⟩ := bind_ok.1 hl
  dsimp only at h2
  split at h2
  · cases h2; exact load_counted h h1
  · cases h2

theorem loadExpr_counted {d d' : Dec V A X E} {i : Nat} {v : Ex V A} (h : d.expected = [])
    (hl : loadExpr d i = .ok (d', v)) : Counted [i] d d' := by
  obtain ⟨⟨d1, r⟩, h1, h2⟩ := bind_ok.1 hl
  dsimp only at h2
  split at h2
  · cases h2; exact load_counted h h1
  · cases h2

theorem loadValues_counted : ∀ (is : List Nat) {d d' : Dec V A X E} {vs : List V}, d.expected = [] →
    loadValues d is = .ok (d', vs) → Counted is d d' := by
  intro is
  induction is with
  | nil => intro d d' vs h hl; cases hl; exact Counted.refl h rfl
  | cons i is ih =>
    intro d d' vs h hl
    obtain ⟨⟨d1, v⟩, h1, h2⟩ := bind_ok.1 hl
    obtain ⟨⟨d2, ws⟩, h3, h4⟩ := bind_ok.1 h2
    cases h4
    have hc := loadValue_counted h h1
    exact hc.trans (ih hc.1 h3)

theorem loadExprs_counted : ∀ (is : List Nat) {d d' : Dec V A X E} {vs : List (Ex V A)}, d.expected = [] →
    loadExprs d is = .ok (d', vs) → Counted is d d' := by
  intro is
  induction is with
  | nil => intro d d' vs h hl; cases hl; exact Counted.refl h rfl
  | cons i is ih =>
    intro d d' vs h hl
    obtain ⟨⟨d1, v⟩, h1, h2⟩ := bind_ok.1 hl
    obtain ⟨⟨d2, ws⟩, h3, h4⟩ := bind_ok.1 h2
    cases h4
    have hc := loadExpr_counted h h1
    exact hc.trans (ih hc.1 h3)

theorem store_counted {d d' : Dec V A X E} {i : Nat} {x : VoE V A} (h : d.expected = []) (hs : store d i x = .ok d') :
    Counted [] d d' := by
  unfold store at hs
  cases hc : d.cells[i]? with
  | none => rw [hc] at hs; cases hs
  | some c =>
    rw [hc] at hs
    dsimp only at hs
    split at hs
    · cases hs
    · rw [check_nil (by exact h)] at hs
      cases hs
      have hlt : i < d.cells.length := (List.getElem?_eq_some_iff.1 hc).1
      refine ⟨h, ⟨by simp, by simp [refs]⟩, fun j x x' hx hx' => ?_⟩
      dsimp only at hx'
      rw [List.getElem?_set] at hx'
      by_cases hj : i = j
      · subst hj
        rw [hc] at hx
        cases hx
        simp [hlt] at hx'
        subst hx'
        simp
      · simp [hj] at hx'
        rw [hx] at hx'
        cases hx'
        simp

theorem onKind_counted (o : Opts V A X E) {d d' : Dec V A X E} {i : Nat} {k : Kind X} (h : d.expected = [])
    (hk : onKind o d i k = .ok d') : Counted (refs k) d d' := by
  cases k with
  | literal j =>
    obtain ⟨⟨d1, e⟩, h1, h2⟩ := bind_ok.1 hk
    cases j with
    | none => cases h1
    | some j =>
      obtain ⟨⟨d2, v⟩, h3, h4⟩ := bind_ok.1 h1
      cases h4
      have hc := loadValue_counted h h3
      have := hc.trans (store_counted hc.1 h2)
      exact this
  | leaf k =>
    cases k with
    | none => cases hk
    | some k => exact store_counted h hk
  | placeholder k =>
    cases k with
    | none => cases hk
    | some k => exact store_counted h hk
  | op j is =>
    obtain ⟨⟨d1, e⟩, h1, h2⟩ := bind_ok.1 hk
    cases j with
    | none => cases h1
    | some j =>
      obtain ⟨⟨d2, v⟩, h3, h4⟩ := bind_ok.1 h1
      dsimp only at h4
      split at h4
      · cases h4
      · obtain ⟨⟨d3, es⟩, h5, h6⟩ := bind_ok.1 h4
        obtain ⟨e', h7, h8⟩ := bind_ok.1 h6
        cases h8
        have hc := loadValue_counted h h3
        have hc' := hc.trans (loadExprs_counted _ hc.1 h5)
        have := hc'.trans (store_counted hc'.1 h2)
        rw [List.append_nil] at this
        exact this
  | value p =>
    obtain ⟨⟨d1, e⟩, h1, h2⟩ := bind_ok.1 hk
    obtain ⟨⟨d2, vs⟩, h3, h4⟩ := bind_ok.1 h1
    obtain ⟨⟨d3, es⟩, h5, h6⟩ := bind_ok.1 h4
    have hc := loadValues_counted _ h h3
    have hc' := hc.trans (loadExprs_counted _ hc.1 h5)
    have hd : d3 = d1 := by
      dsimp only at h6
      split at h6
      · obtain ⟨w, h7, h8⟩ := bind_ok.1 h6; cases h8; rfl
      · obtain ⟨w, h7, h8⟩ := bind_ok.1 h6; cases h8; rfl
    subst hd
    have := hc'.trans (store_counted hc'.1 h2)
    rw [List.append_nil] at this
    exact this
  | codec name =>
    obtain ⟨c, h1, h2⟩ := bind_ok.1 hk
    unfold storeCodec at h2
    cases hc : d.cells[i]? with
    | none => rw [hc] at h2; cases h2
    | some c =>
      rw [hc] at h2
      dsimp only at h2
      split at h2
      · cases h2
      · cases h2
        have hlt : i < d.cells.length := (List.getElem?_eq_some_iff.1 hc).1
        refine ⟨h, ⟨by simp, by simp [refs]⟩, fun j x x' hx hx' => ?_⟩
        dsimp only at hx'
        rw [List.getElem?_set] at hx'
        by_cases hj : i = j
        · subst hj
          rw [hc] at hx
          cases hx
          simp [hlt] at hx'
          subst hx'
          simp [refs]
        · simp [hj] at hx'
          rw [hx] at hx'
          cases hx'
          simp [refs]
  | outValue j =>
    obtain ⟨⟨d1, e⟩, h1, h2⟩ := bind_ok.1 hk
    cases h2
    have := loadValue_counted h h1
    exact ⟨this.1, this.2⟩
  | outExpr j =>
    obtain ⟨⟨d1, e⟩, h1, h2⟩ := bind_ok.1 hk
    cases h2
    have := loadExpr_counted h h1
    exact ⟨this.1, this.2⟩
  | unset => cases hk; exact Counted.refl h rfl

/-- The references of a sequence of steps. -/
def allRefs (ks : List (Nat × Kind X)) : List Nat := ks.flatMap (fun e => refs e.2)

/-- The usage count of a cell, 0 for cells that do not exist. -/
def usageAt (d : Dec V A X E) (i : Nat) : Nat :=
  match d.cells[i]? with
  | some c => c.usage
  | none => 0

theorem onSteps_counted (o : Opts V A X E) : ∀ (evs : List (Nat × Step X)) {d d' : Dec V A X E} (js : List Nat),
    d.expected = [] → (∀ e ∈ evs, e.2.hints = none) → (∀ i, usageAt d i = js.count i) →
    onSteps o d evs = .ok d' → ∀ i, usageAt d' i = (js ++ allRefs (kinds evs)).count i := by
  intro evs
  induction evs with
  | nil => intro d d' js _ _ hj h; cases h; simpa [allRefs, kinds] using hj
  | cons e evs ih =>
    obtain ⟨i, s⟩ := e
    intro d d' js hn hs hj h
    obtain ⟨d1, h1, h2⟩ := bind_ok.1 h
    have hle := onStep_le o hn (hs (i, s) (by simp)) h1
    have hj' : ∀ j, usageAt d1 j = (js ++ refs s.kind).count j := by
      unfold onStep at h1
      rw [show s.hints = none from hs (i, s) (by simp)] at h1
      split at h1
      · cases h1
      obtain ⟨dg, h3, h4⟩ := bind_ok.1 h1
      cases h3
      have hg : (grow d i).expected = [] := by unfold grow; split <;> exact hn
      have hc := onKind_counted o hg h4
      have hgj : ∀ j, usageAt (grow d i) j = js.count j := by
        intro j
        rw [← hj j]
        unfold grow
        split
        · unfold usageAt
          dsimp only
          by_cases hl : j < d.cells.length
          · rw [List.getElem?_append_left hl]
          · rw [List.getElem?_append_right (by omega), List.getElem?_eq_none (by omega : d.cells.length ≤ j)]
            by_cases hz : j - d.cells.length = 0
            · rw [hz]; rfl
            · rw [List.getElem?_eq_none (by simp; omega)]
        · rfl
      intro j
      rw [List.count_append, ← hgj j]
      unfold usageAt
      by_cases hlt : j < (grow d i).cells.length
      · rw [List.getElem?_eq_getElem hlt, List.getElem?_eq_getElem (by rw [hc.2.1.1]; exact hlt)]
        exact hc.2.2 j _ _ (List.getElem?_eq_getElem hlt) (List.getElem?_eq_getElem (by rw [hc.2.1.1]; exact hlt))
      · rw [List.getElem?_eq_none (by rw [hc.2.1.1]; omega), List.getElem?_eq_none (by omega)]
        dsimp only
        rw [List.count_eq_zero_of_not_mem (fun hm => hlt (hc.2.1.2 j hm))]
    have := ih (js ++ refs s.kind) hle.1 (fun e he => hs e (by simp [he])) hj' h2
    intro j
    rw [this j]
    simp [allRefs, kinds, List.append_assoc]

/-! ## Properties -/

/-- Without hints, the decoder computes exactly the meaning of the steps: it succeeds if and only if every reference points to
a result of the requested kind that has been stored before and no cell is written twice, and then the outputs are those of the
reference interpreter. -/
theorem decode_meaning (o : Opts V A X E) (evs : List (Nat × Step X)) (hn : hintsOf evs = []) (vs : List V)
    (es : List (Ex V A)) :
    (∃ d, onSteps o Dec.init evs = .ok d ∧ d.values = vs ∧ d.exprs = es) ↔
    (∃ s, Store.init.run o (kinds evs) = some s ∧ s.values = vs ∧ s.exprs = es) := by
  have h := onSteps_run o evs (d := Dec.init) rfl (by intro c hc; simp [Dec.init] at hc) hn
  have hi : toStore (Dec.init : Dec V A X E) = Store.init := rfl
  rw [hi] at h
  cases hx : onSteps o Dec.init evs with
  | error e =>
    rw [hx] at h
    cases hy : Store.init.run o (kinds evs) with
    | none => simp
    | some s => rw [hy] at h; exact h.elim
  | ok d =>
    rw [hx] at h
    cases hy : Store.init.run o (kinds evs) with
    | none => rw [hy] at h; exact h.elim
    | some s =>
      rw [hy] at h
      obtain ⟨h1, _⟩ := h
      subst h1
      simp [toStore]

theorem same_init : Same (Dec.init : Dec V A X E) Dec.init :=
  ⟨rfl, rfl, rfl, rfl, rfl, fun i c c0 hc => by simp [Dec.init] at hc⟩

theorem hintsOf_strip (evs : List (Nat × Step X)) : hintsOf (evs.map (fun e => (e.1, (⟨none, e.2.kind⟩ : Step X)))) = [] := by
  unfold hintsOf
  rw [List.filterMap_eq_nil_iff]
  intro e he
  obtain ⟨e', _, rfl⟩ := List.mem_map.1 he
  rfl

theorem kinds_strip (evs : List (Nat × Step X)) :
    kinds (evs.map (fun e => (e.1, (⟨none, e.2.kind⟩ : Step X)))) = kinds evs := by
  unfold kinds; rw [List.map_map]; rfl

/-- With any hints, right or wrong, the decoder either fails or computes the meaning of the steps. -/
theorem decode_hints_sound (o : Opts V A X E) (evs : List (Nat × Step X)) (d : Dec V A X E)
    (h : onSteps o Dec.init evs = .ok d) :
    ∃ s, Store.init.run o (kinds evs) = some s ∧ s.values = d.values ∧ s.exprs = d.exprs := by
  obtain ⟨d0, h1, h2⟩ := onSteps_sound o evs same_init h
  have := (decode_meaning o _ (hintsOf_strip evs) d.values d.exprs).1 ⟨d0, h1, h2.values.symm, h2.exprs.symm⟩
  rw [kinds_strip] at this
  exact this

/-- Hints that are given once, count each reference, and do not mark a stored result as unused do no harm: the decoder succeeds
whenever it succeeds without hints. -/
theorem decode_hints_complete (o : Opts V A X E) (evs : List (Nat × Step X)) (counts : List Nat) (s : Store V A X E)
    (hh : hintsOf evs = [counts]) (hs : Store.init.run o (kinds evs) = some s)
    (hc : ∀ (i k : Nat), counts[i]? = some k → (allRefs (kinds evs)).count i ≤ k ∧
      (k = 0 → s.value? i = none ∧ s.expr? i = none)) :
    ∃ d, onSteps o Dec.init evs = .ok d ∧ d.values = s.values ∧ d.exprs = s.exprs := by
  have hr := onSteps_run o (evs.map (fun e => (e.1, (⟨none, e.2.kind⟩ : Step X)))) (d := Dec.init) rfl
    (by intro c hc; simp [Dec.init] at hc) (hintsOf_strip evs)
  rw [kinds_strip, show toStore (Dec.init : Dec V A X E) = Store.init from rfl, hs] at hr
  cases hx : onSteps o Dec.init (evs.map (fun e => (e.1, (⟨none, e.2.kind⟩ : Step X)))) with
  | error e => rw [hx] at hr; exact hr.elim
  | ok d0 =>
    rw [hx] at hr
    obtain ⟨h1, h2⟩ := hr
    have hcnt := onSteps_counted o (evs.map (fun e => (e.1, (⟨none, e.2.kind⟩ : Step X)))) [] rfl
      (by intro e he; obtain ⟨e', _, rfl⟩ := List.mem_map.1 he; rfl) (by intro i; simp [Dec.init, usageAt]) hx
    rw [kinds_strip, List.nil_append] at hcnt
    have hfit : Fits counts d0 := by
      intro i k c hk hcell
      obtain ⟨h3, h4⟩ := hc i k hk
      refine ⟨by have := hcnt i; simp only [usageAt, hcell] at this; omega, fun hsome => ?_⟩
      by_contra hk0
      obtain ⟨h5, h6⟩ := h4 (by omega)
      rw [← h1] at h5 h6
      unfold Store.value? at h5
      unfold Store.expr? at h6
      rw [cells_get, hcell] at h5 h6
      rcases hv : c.voe with _ | (v | e)
      · simp [hv] at hsome
      · simp [hv] at h5
      · simp [hv] at h6
    obtain ⟨d, h3, h4⟩ := onSteps_complete o counts evs same_init (Or.inr ⟨rfl, hh⟩) hx hfit
    refine ⟨d, h3, ?_, ?_⟩
    · rw [h4.values, ← h1]; rfl
    · rw [h4.exprs, ← h1]; rfl

/-- If there are hints and the decoder succeeds, then no result is referred to more often than the hints say, and the hints
were given once. -/
theorem decode_hints_exact (o : Opts V A X E) (evs : List (Nat × Step X)) (d : Dec V A X E) (counts : List Nat)
    (h : onSteps o Dec.init evs = .ok d) (hc : counts ∈ hintsOf evs) :
    (∀ c ∈ hintsOf evs, c = counts) ∧ ∀ (i k : Nat), counts[i]? = some k → (allRefs (kinds evs)).count i ≤ k := by
  obtain ⟨h1, _, h3⟩ := onSteps_bounded o evs h (by intro i k c hk; simp [Dec.init] at hk)
  refine ⟨fun c hc' => (h3 c hc').symm.trans (h3 counts hc), fun i k hk => ?_⟩
  obtain ⟨d0, h4, h5⟩ := onSteps_sound o evs same_init h
  have hcnt := onSteps_counted o (evs.map (fun e => (e.1, (⟨none, e.2.kind⟩ : Step X)))) [] rfl
    (by intro e he; obtain ⟨e', _, rfl⟩ := List.mem_map.1 he; rfl) (by intro i; simp [Dec.init, usageAt]) h4 i
  rw [kinds_strip, List.nil_append] at hcnt
  rw [← hcnt]
  unfold usageAt
  by_cases hi : i < d.cells.length
  · have hi0 : i < d0.cells.length := by rw [← h5.len]; exact hi
    rw [List.getElem?_eq_getElem hi0]
    dsimp only
    rw [← (h5.cell i _ _ (List.getElem?_eq_getElem hi) (List.getElem?_eq_getElem hi0)).1]
    exact h1 i k _ (by rw [h3 counts hc]; exact hk) (List.getElem?_eq_getElem hi)
  · rw [List.getElem?_eq_none (by rw [← h5.len]; omega)]
    exact Nat.zero_le _

/-- A step writes a result only to the cell of its own index, and only if the cell is empty and has never been read, so results
are not overwritten, not even after they have been dropped.  A codec is only written to a cell without one. -/
theorem decode_write_once (o : Opts V A X E) (d d' : Dec V A X E) (i : Nat) (s : Step X) (h : onStep o d i s = .ok d')
    (j : Nat) (c : Cell V A X E) (hc : d.cells[j]? = some c) :
    ∃ c', d'.cells[j]? = some c' ∧ c.usage ≤ c'.usage ∧
      (c'.codec = c.codec ∨ j = i ∧ c.codec = none) ∧
      (c'.voe = c.voe ∨ c'.voe = none ∧ 0 < c'.usage ∨ j = i ∧ c.voe = none ∧ c.usage = 0) := by
  unfold onStep at h
  split at h
  · cases h
  · obtain ⟨d1, h1, h2⟩ := bind_ok.1 h
    refine ((onHints_older h1).then (onKind_changes o h2)).2 j c ?_
    unfold grow
    split
    · dsimp only
      rw [List.getElem?_append_left (List.getElem?_eq_some_iff.1 hc).1]
      exact hc
    · exact hc

/-- The decoder never accesses `decoding_step_results_` out of range, whatever the steps are. -/
theorem decode_no_ub (o : Opts V A X E) : ∀ (evs : List (Nat × Step X)) (d : Dec V A X E), onSteps o d evs ≠ .error .ub := by
  intro evs
  induction evs with
  | nil => intro d h; cases h
  | cons e evs ih =>
    intro d h
    rcases bind_error.1 h with h1 | ⟨d1, h1, h2⟩
    · exact onStep_noUb o d _ _ h1
    · exact ih d1 h2

/-- The same for containers of both versions. -/
theorem decode_container (o : Opts V A X E) (c : Container X) :
    decodeContainer o c ≠ .error .ub ∧
    (∀ vs es, decodeContainer o c = .ok (vs, es) → ∃ s, Store.init.run o (kinds c.events) = some s ∧ s.values = vs ∧ s.exprs = es) ∧
    (hintsOf c.events = [] → (c.version = some 1 ∨ c.version = some 2) → ∀ s, Store.init.run o (kinds c.events) = some s →
      decodeContainer o c = .ok (s.values, s.exprs)) := by
  unfold decodeContainer
  refine ⟨?_, ?_, ?_⟩
  · intro h
    split at h
    · cases h
    · split at h
      · cases h
      · rcases bind_error.1 h with h1 | ⟨d1, h1, h2⟩
        · exact decode_no_ub o _ _ h1
        · cases h2
  · intro vs es h
    split at h
    · cases h
    · split at h
      · cases h
      · obtain ⟨d, h1, h2⟩ := bind_ok.1 h
        cases h2
        exact decode_hints_sound o _ d h1
  · intro hn hv s hs
    obtain ⟨d, h1, h2, h3⟩ := (decode_meaning o _ hn s.values s.exprs).2 ⟨s, hs, rfl, rfl⟩
    rcases hv with hv | hv <;> rw [hv] <;> simp [h1, bind, Except.bind, h2, h3]

/-! ## Examples -/

/-- A codec, the value 7, the literal 7, a lambda operator applied to it, and outputs.  The counts are the numbers of uses. -/
def exEvents (counts : Option (List Nat)) : List (Nat × Step Nat) :=
  [(0, ⟨counts, .codec [1]⟩), (1, ⟨none, .value ⟨[], [], some 0, 14⟩⟩), (2, ⟨none, .literal (some 1)⟩),
   (3, ⟨none, .value ⟨[], [], some 0, 3⟩⟩), (4, ⟨none, .op (some 3) [2, 2]⟩), (5, ⟨none, .outExpr 4⟩), (6, ⟨none, .outValue 1⟩)]

/-- The outputs, if decoding succeeds. -/
def exOut (evs : List (Nat × Step Nat)) : Option (List Val × List (Ex Val Nat)) :=
  match onSteps exOpts Dec.init evs with
  | .ok d => some (d.values, d.exprs)
  | .error _ => none

/-- The hypotheses of `decode_meaning`. -/
example : hintsOf (exEvents none) = [] ∧ exOut (exEvents none) =
    some ([.int 7], [.mk (.op (.op 1)) 2 [.mk (.literal (.int 7)) 1 [], .mk (.literal (.int 7)) 1 []]]) := by decide +kernel

/-- The hypotheses of `decode_hints_complete`: exact counts. -/
example : hintsOf (exEvents (some [0, 2, 2, 1, 1])) = [[0, 2, 2, 1, 1]] ∧
    (∀ i, i < 5 → (allRefs (kinds (exEvents (some [0, 2, 2, 1, 1])))).count i ≤ [0, 2, 2, 1, 1][i]!) ∧
    exOut (exEvents (some [0, 2, 2, 1, 1])) = exOut (exEvents none) := by decide +kernel

/-- Counts that are too small are rejected. -/
example : exOut (exEvents (some [0, 1, 2, 1, 1])) = none ∧ exOut (exEvents (some [0, 2, 2, 0, 1])) = none := by decide +kernel

end Verif.Serial
