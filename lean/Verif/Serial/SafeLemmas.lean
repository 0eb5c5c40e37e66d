import Verif.Serial.HintLemmas

/-!
# Cells are written at most once, no access out of range; the usage counts
-/

namespace Verif.Serial
open Verif.Expr
variable {V A X E T U : Type}

/-- How the cells of a decoder change in between writes: results can disappear, counts grow, codecs stay. -/
def Older (d d' : Dec V A X E) : Prop :=
  d'.cells.length = d.cells.length ∧ ∀ (j : Nat) (c : Cell V A X E), d.cells[j]? = some c →
    ∃ c', d'.cells[j]? = some c' ∧ c.usage ≤ c'.usage ∧ c'.codec = c.codec ∧
      (c'.voe = c.voe ∨ c'.voe = none ∧ 0 < c'.usage)

theorem Older.refl (d : Dec V A X E) : Older d d := ⟨rfl, fun _ c hc => ⟨c, hc, Nat.le_refl _, rfl, Or.inl rfl⟩⟩

theorem Older.trans {a b c : Dec V A X E} (h : Older a b) (h' : Older b c) : Older a c := by
  refine ⟨h'.1.trans h.1, fun j x hx => ?_⟩
  obtain ⟨y, hy, h1, h2, h3⟩ := h.2 j x hx
  obtain ⟨z, hz, h4, h5, h6⟩ := h'.2 j y hy
  refine ⟨z, hz, by omega, h5.trans h2, ?_⟩
  rcases h6 with h6 | h6
  · rcases h3 with h3 | h3
    · exact Or.inl (h6.trans h3)
    · exact Or.inr ⟨h6.trans h3.1, by omega⟩
  · exact Or.inr h6

theorem older_set {d : Dec V A X E} {i : Nat} {c c' : Cell V A X E} (hc : d.cells[i]? = some c)
    (h : c.usage ≤ c'.usage ∧ c'.codec = c.codec ∧
      (c'.voe = c.voe ∨ c'.voe = none ∧ 0 < c'.usage)) :
    Older d { d with cells := d.cells.set i c' } := by
  have hlt : i < d.cells.length := (List.getElem?_eq_some_iff.1 hc).1
  refine ⟨by simp, fun j x hx => ?_⟩
  dsimp only
  rw [List.getElem?_set]
  by_cases hj : i = j
  · subst hj
    rw [hc] at hx
    cases hx
    exact ⟨c', by simp [hlt], h⟩
  · exact ⟨x, by simp [hj, hx], Nat.le_refl _, rfl, Or.inl rfl⟩

/-- No cell has been used more often than expected. -/
def Bounded (d : Dec V A X E) : Prop :=
  ∀ (i k : Nat) (c : Cell V A X E), d.expected[i]? = some k → d.cells[i]? = some c → c.usage ≤ k

/-- A step of the decoder that does not exceed the expected counts. -/
def Keeps (d d' : Dec V A X E) : Prop := d'.expected = d.expected ∧ (Bounded d → Bounded d')

theorem Keeps.trans {a b c : Dec V A X E} (h : Keeps a b) (h' : Keeps b c) : Keeps a c :=
  ⟨h'.1.trans h.1, fun x => h'.2 (h.2 x)⟩

theorem Keeps.refl (d : Dec V A X E) : Keeps d d := ⟨rfl, id⟩

/-- After a check, the cell is within its expected count; other cells do not change. -/
theorem check_bounded {d d' : Dec V A X E} {i : Nat} (h : check d i = .ok d') : d'.expected = d.expected ∧
    d'.cells.length = d.cells.length ∧
    ∀ (j k : Nat) (c' : Cell V A X E), d.expected[j]? = some k → d'.cells[j]? = some c' →
      (j = i → c'.usage ≤ k) ∧ ∃ c, d.cells[j]? = some c ∧ c.usage = c'.usage := by
  unfold check at h
  split at h
  · rename_i hk
    cases h
    refine ⟨rfl, rfl, fun j k c' hj hc => ⟨fun e => ?_, c', hc, rfl⟩⟩
    subst e; rw [hk] at hj; cases hj
  · rename_i k0 hk
    split at h
    · cases h
    · rename_i c hc
      split at h
      · cases h
      · rename_i hu
        split at h
        · cases h
        · split at h
          · cases h
            refine ⟨rfl, by simp, fun j k c' hj hc' => ?_⟩
            dsimp only at hc'
            rw [List.getElem?_set] at hc'
            by_cases hji : i = j
            · subst hji
              rw [hk] at hj
              cases hj
              have hlt : i < d.cells.length := (List.getElem?_eq_some_iff.1 hc).1
              simp [hlt] at hc'
              subst hc'
              exact ⟨fun _ => by dsimp only; omega, c, hc, rfl⟩
            · simp [hji] at hc'
              exact ⟨fun e => absurd e.symm hji, c', hc', rfl⟩
          · cases h
            refine ⟨rfl, rfl, fun j k c' hj hc' => ⟨fun e => ?_, c', hc', rfl⟩⟩
            subst e
            rw [hk] at hj
            rw [hc] at hc'
            cases hj
            cases hc'
            omega

theorem check_keeps {d d' : Dec V A X E} {i : Nat} (h : check d i = .ok d') : Keeps d d' := by
  obtain ⟨h1, _, h2⟩ := check_bounded h
  refine ⟨h1, fun hb j k c' hj hc' => ?_⟩
  rw [h1] at hj
  obtain ⟨_, c, hc, hu⟩ := h2 j k c' hj hc'
  rw [← hu]
  exact hb j k c hj hc

/-- The cell `i` is changed and then checked. -/
theorem check_set_keeps {d d' : Dec V A X E} {i : Nat} {x : Cell V A X E}
    (h : check { d with cells := d.cells.set i x } i = .ok d') : Keeps d d' := by
  obtain ⟨h1, _, h2⟩ := check_bounded h
  refine ⟨h1, fun hb j k c' hj hc' => ?_⟩
  rw [h1] at hj
  obtain ⟨h3, c, hc, hu⟩ := h2 j k c' hj hc'
  by_cases hji : j = i
  · exact h3 hji
  · dsimp only at hc hj
    rw [List.getElem?_set_ne (fun e => hji e.symm)] at hc
    rw [← hu]
    exact hb j k c hj hc

/-- A computation that has no undefined behaviour and does not write results. -/
structure Safe (f : Dec V A X E → Except (Err E) (Dec V A X E × T)) : Prop where
  older : ∀ d d' t, f d = .ok (d', t) → Older d d'
  noUb : ∀ d, f d ≠ .error .ub
  keeps : ∀ d d' t, f d = .ok (d', t) → Keeps d d'

theorem Safe.bind {f : Dec V A X E → Except (Err E) (Dec V A X E × T)}
    {g : Dec V A X E → T → Except (Err E) (Dec V A X E × U)} (hf : Safe f) (hg : ∀ t, Safe (fun d => g d t)) :
    Safe (fun d => f d >>= fun p => g p.1 p.2) := by
  refine ⟨fun d d' u h => ?_, fun d h => ?_, fun d d' u h => ?_⟩
  · obtain ⟨⟨d1, t⟩, h1, h2⟩ := bind_ok.1 h
    exact (hf.older _ _ _ h1).trans ((hg t).older _ _ _ h2)
  · rcases bind_error.1 h with h1 | ⟨⟨d1, t⟩, h1, h2⟩
    · exact hf.noUb d h1
    · exact (hg t).noUb d1 h2
  · obtain ⟨⟨d1, t⟩, h1, h2⟩ := bind_ok.1 h
    exact (hf.keeps _ _ _ h1).trans ((hg t).keeps _ _ _ h2)

theorem Safe.pure (t : T) : Safe (fun d : Dec V A X E => .ok (d, t)) :=
  ⟨fun d d' u h => by cases h; exact Older.refl d, fun d h => (by cases h), fun d d' u h => by cases h; exact Keeps.refl d⟩

theorem Safe.error {e : Err E} (he : e ≠ .ub) : Safe (fun _ : Dec V A X E => (.error e : Except (Err E) (Dec V A X E × T))) :=
  ⟨fun d d' u h => (by cases h), fun d h => (by cases h; exact he rfl), fun d d' u h => (by cases h)⟩

theorem Safe.get (x : Dec V A X E → Except (Err E) T) (hx : ∀ d, x d ≠ .error .ub) :
    Safe (fun d : Dec V A X E => x d >>= fun t => .ok (d, t)) := by
  refine ⟨fun d d' u h => ?_, fun d h => ?_, fun d d' u h => ?_⟩
  · obtain ⟨t, h1, h2⟩ := bind_ok.1 h
    cases h2; exact Older.refl d
  · rcases bind_error.1 h with h1 | ⟨t, h1, h2⟩
    · exact hx d h1
    · cases h2
  · obtain ⟨t, h1, h2⟩ := bind_ok.1 h
    cases h2; exact Keeps.refl d

theorem check_older {d d' : Dec V A X E} {i : Nat} (h : check d i = .ok d') : Older d d' := by
  unfold check at h
  split at h
  · cases h; exact Older.refl d
  · split at h
    · cases h
    · rename_i c hc
      split at h
      · cases h
      · split at h
        · cases h
        · rename_i hk
          split at h
          · rename_i hu
            cases h
            refine older_set hc ⟨Nat.le_refl _, rfl, ?_⟩
            cases hv : c.voe with
            | none => exact Or.inl rfl
            | some x => exact Or.inr ⟨rfl, by simp [hv] at hk; dsimp only; omega⟩
          · cases h; exact Older.refl d

theorem check_noUb {d : Dec V A X E} {i : Nat} (hi : i < d.cells.length) : check d i ≠ .error .ub := by
  intro h
  unfold check at h
  split at h
  · cases h
  · split at h
    · rename_i hc
      rw [List.getElem?_eq_none_iff] at hc; omega
    · split at h
      · cases h
      · split at h
        · cases h
        · split at h <;> cases h

theorem load_safe (i : Nat) : Safe (fun d : Dec V A X E => load d i) := by
  refine ⟨fun d d' u h => ?_, fun d h => ?_, fun d d' u h => ?_⟩
  · unfold load at h
    cases hc : d.cells[i]? with
    | none => rw [hc] at h; cases h
    | some c =>
      rw [hc] at h
      obtain ⟨d1, h1, h2⟩ := bind_ok.1 h
      cases h2
      exact (older_set (c' := { c with usage := c.usage + 1 }) hc ⟨by simp, rfl, Or.inl rfl⟩).trans (check_older h1)
  · unfold load at h
    cases hc : d.cells[i]? with
    | none => rw [hc] at h; cases h
    | some c =>
      rw [hc] at h
      rcases bind_error.1 h with h1 | ⟨t, h1, h2⟩
      · refine check_noUb ?_ h1
        simp [(List.getElem?_eq_some_iff.1 hc).1]
      · cases h2
  · unfold load at h
    cases hc : d.cells[i]? with
    | none => rw [hc] at h; cases h
    | some c =>
      rw [hc] at h
      obtain ⟨d1, h1, h2⟩ := bind_ok.1 h
      cases h2
      exact check_set_keeps h1

theorem loadValue_safe (i : Nat) : Safe (fun d : Dec V A X E => loadValue d i) :=
  Safe.bind (load_safe i) (g := fun d (r : Option (VoE V A)) => match r with
    | some (.val v) => .ok (d, v)
    | _ => .error .noValue) (fun r => by
      rcases r with _ | (v | e)
      · exact Safe.error (by simp)
      · exact Safe.pure v
      · exact Safe.error (by simp))

theorem loadExpr_safe (i : Nat) : Safe (fun d : Dec V A X E => loadExpr d i) :=
  Safe.bind (load_safe i) (g := fun d (r : Option (VoE V A)) => match r with
    | some (.expr v) => .ok (d, v)
    | _ => .error .noExpr) (fun r => by
      rcases r with _ | (v | e)
      · exact Safe.error (by simp)
      · exact Safe.error (by simp)
      · exact Safe.pure e)

theorem loadValues_safe : ∀ (is : List Nat), Safe (fun d : Dec V A X E => loadValues d is) := by
  intro is
  induction is with
  | nil => exact Safe.pure []
  | cons i is ih =>
    exact Safe.bind (loadValue_safe i) (g := fun d v => loadValues d is >>= fun p => .ok (p.1, v :: p.2))
      (fun v => Safe.bind ih (g := fun d vs => .ok (d, v :: vs)) (fun vs => Safe.pure _))

theorem loadExprs_safe : ∀ (is : List Nat), Safe (fun d : Dec V A X E => loadExprs d is) := by
  intro is
  induction is with
  | nil => exact Safe.pure []
  | cons i is ih =>
    exact Safe.bind (loadExpr_safe i) (g := fun d v => loadExprs d is >>= fun p => .ok (p.1, v :: p.2))
      (fun v => Safe.bind ih (g := fun d vs => .ok (d, v :: vs)) (fun vs => Safe.pure _))

theorem lift_noUb {x : Except E T} : lift x ≠ .error .ub := by
  cases x <;> simp [lift]

theorem mkOpNode_noUb (o : Opts V A X E) (w : V) (ds : List (Ex V A)) : mkOpNode o w ds ≠ .error .ub := by
  unfold mkOpNode
  split
  · exact lift_noUb
  · simp

theorem decodeLiteral_safe (o : Opts V A X E) (j : Option Nat) : Safe (fun d : Dec V A X E => decodeLiteral o d j) := by
  cases j with
  | none => exact Safe.error (by simp)
  | some j => exact Safe.bind (loadValue_safe j) (g := fun d v => .ok (d, mkLiteral o v)) (fun v => Safe.pure _)

theorem decodeOp_safe (o : Opts V A X E) (j : Option Nat) (is : List Nat) :
    Safe (fun d : Dec V A X E => decodeOp o d j is) := by
  cases j with
  | none => exact Safe.error (by simp)
  | some j =>
    refine Safe.bind (loadValue_safe j) (g := fun d v => if !o.isOp v then .error .notOperator
      else loadExprs d is >>= fun p => mkOpNode o v p.2 >>= fun e => .ok (p.1, e)) (fun v => ?_)
    cases o.isOp v with
    | false => exact Safe.error (by simp)
    | true =>
      exact Safe.bind (loadExprs_safe is) (g := fun d es => mkOpNode o v es >>= fun e => .ok (d, e))
        (fun es => Safe.get (fun _ => mkOpNode o v es) (fun _ => mkOpNode_noUb o v es))

theorem decodeUnknown_noUb (p : VProto X) (vs : List V) (es : List (Ex V A)) : ∀ (cs : List (Codec V A X E)),
    decodeUnknown p vs es cs ≠ .error .ub := by
  intro cs
  induction cs with
  | nil => simp [decodeUnknown]
  | cons c cs ih =>
    unfold decodeUnknown
    rcases hx : c.dec p vs es with e | (_ | v)
    · simp [lift, bind, Except.bind]
    · simpa [lift, bind, Except.bind] using ih
    · simp [lift, bind, Except.bind]

theorem decodeKnown_noUb (d : Dec V A X E) (p : VProto X) (i : Nat) (vs : List V) (es : List (Ex V A)) :
    decodeKnown d p i vs es ≠ .error .ub := by
  unfold decodeKnown
  cases d.cells[i]? with
  | none => simp
  | some c =>
    cases hc : c.codec with
    | none => simp [hc]
    | some cd =>
      rcases hx : cd.dec p vs es with e | (_ | v) <;> simp [lift, bind, Except.bind, hc, hx]

theorem decodeValue_safe (p : VProto X) : Safe (fun d : Dec V A X E => decodeValue d p) := by
  refine Safe.bind (loadValues_safe p.inputValues) (g := fun d vs => loadExprs d p.inputExprs >>= fun q =>
    match p.codec with
    | some i => decodeKnown q.1 p i vs q.2 >>= fun v => .ok (q.1, v)
    | none => decodeUnknown p vs q.2 q.1.codecs >>= fun v => .ok (q.1, v)) (fun vs => ?_)
  refine Safe.bind (loadExprs_safe p.inputExprs) (g := fun d es =>
    match p.codec with
    | some i => decodeKnown d p i vs es >>= fun v => .ok (d, v)
    | none => decodeUnknown p vs es d.codecs >>= fun v => .ok (d, v)) (fun es => ?_)
  cases p.codec with
  | some i => exact Safe.get (fun d => decodeKnown d p i vs es) (fun d => decodeKnown_noUb d p i vs es)
  | none => exact Safe.get (fun d => decodeUnknown p vs es d.codecs) (fun d => decodeUnknown_noUb p vs es _)

/-- How a cell changes in a step at index `i`: a result is only written to an empty cell that has never been read, at index
`i`; a codec only to a cell without one. -/
def Changes (i : Nat) (d d' : Dec V A X E) : Prop :=
  d'.cells.length = d.cells.length ∧ ∀ (j : Nat) (c : Cell V A X E), d.cells[j]? = some c →
    ∃ c', d'.cells[j]? = some c' ∧ c.usage ≤ c'.usage ∧
      (c'.codec = c.codec ∨ j = i ∧ c.codec = none) ∧
      (c'.voe = c.voe ∨ c'.voe = none ∧ 0 < c'.usage ∨ j = i ∧ c.voe = none ∧ c.usage = 0)

theorem Older.changes {i : Nat} {d d' : Dec V A X E} (h : Older d d') : Changes i d d' := by
  refine ⟨h.1, fun j c hc => ?_⟩
  obtain ⟨c', h1, h2, h3, h4⟩ := h.2 j c hc
  exact ⟨c', h1, h2, Or.inl h3, by rcases h4 with h4 | h4 <;> simp [h4]⟩

theorem Older.then {i : Nat} {d d' d'' : Dec V A X E} (h : Older d d') (h' : Changes i d' d'') : Changes i d d'' := by
  refine ⟨h'.1.trans h.1, fun j c hc => ?_⟩
  obtain ⟨c', h1, h2, h3, h4⟩ := h.2 j c hc
  obtain ⟨c'', h5, h6, h7, h8⟩ := h'.2 j c' h1
  refine ⟨c'', h5, by omega, ?_, ?_⟩
  · rw [h3] at h7; exact h7
  · rcases h8 with h8 | h8 | ⟨h8, h9, h10⟩
    · rcases h4 with h4 | h4
      · exact Or.inl (h8.trans h4)
      · exact Or.inr (Or.inl ⟨h8.trans h4.1, by omega⟩)
    · exact Or.inr (Or.inl h8)
    · rcases h4 with h4 | h4
      · exact Or.inr (Or.inr ⟨h8, by rw [← h4]; exact h9, by omega⟩)
      · omega

theorem Changes.then {i : Nat} {d d' d'' : Dec V A X E} (h : Changes i d d') (h' : Older d' d'') : Changes i d d'' := by
  refine ⟨h'.1.trans h.1, fun j c hc => ?_⟩
  obtain ⟨c', h1, h2, h3, h4⟩ := h.2 j c hc
  obtain ⟨c'', h5, h6, h7, h8⟩ := h'.2 j c' h1
  refine ⟨c'', h5, by omega, by rw [h7]; exact h3, ?_⟩
  rcases h8 with h8 | h8
  · rcases h4 with h4 | h4 | h4
    · exact Or.inl (h8.trans h4)
    · exact Or.inr (Or.inl ⟨h8.trans h4.1, by omega⟩)
    · exact Or.inr (Or.inr h4)
  · exact Or.inr (Or.inl h8)

theorem store_changes {d d' : Dec V A X E} {i : Nat} {x : VoE V A} (h : store d i x = .ok d') : Changes i d d' := by
  unfold store at h
  cases hc : d.cells[i]? with
  | none => rw [hc] at h; cases h
  | some c =>
    rw [hc] at h
    dsimp only at h
    split at h
    · cases h
    · rename_i hn
      refine Changes.then ?_ (check_older h)
      have hlt : i < d.cells.length := (List.getElem?_eq_some_iff.1 hc).1
      refine ⟨by simp, fun j y hy => ?_⟩
      dsimp only
      rw [List.getElem?_set]
      by_cases hj : i = j
      · subst hj
        rw [hc] at hy
        cases hy
        refine ⟨{ c with voe := some x }, by simp [hlt], Nat.le_refl _, Or.inl rfl, Or.inr (Or.inr ⟨rfl, ?_, ?_⟩)⟩
        · cases hv : c.voe with
          | none => rfl
          | some z => exact (hn (Or.inl (by simp [hv]))).elim
        · by_cases q : c.usage > 0
          · exact (hn (Or.inr q)).elim
          · omega
      · exact ⟨y, by simp [hj, hy], Nat.le_refl _, Or.inl rfl, Or.inl rfl⟩

theorem storeCodec_changes {d d' : Dec V A X E} {i : Nat} {x : Codec V A X E} (h : storeCodec d i x = .ok d') :
    Changes i d d' := by
  unfold storeCodec at h
  cases hc : d.cells[i]? with
  | none => rw [hc] at h; cases h
  | some c =>
    rw [hc] at h
    dsimp only at h
    split at h
    · cases h
    · rename_i hn
      cases h
      have hlt : i < d.cells.length := (List.getElem?_eq_some_iff.1 hc).1
      refine ⟨by simp, fun j y hy => ?_⟩
      dsimp only
      rw [List.getElem?_set]
      by_cases hj : i = j
      · subst hj
        rw [hc] at hy
        cases hy
        refine ⟨{ c with codec := some x }, by simp [hlt], Nat.le_refl _, Or.inr ⟨rfl, ?_⟩, Or.inl rfl⟩
        cases hv : c.codec with
        | none => rfl
        | some z => exact (hn (by simp [hv])).elim
      · exact ⟨y, by simp [hj, hy], Nat.le_refl _, Or.inl rfl, Or.inl rfl⟩

theorem store_noUb {d : Dec V A X E} {i : Nat} {x : VoE V A} (hi : i < d.cells.length) : store d i x ≠ .error .ub := by
  intro h
  unfold store at h
  cases hc : d.cells[i]? with
  | none => rw [List.getElem?_eq_none_iff] at hc; omega
  | some c =>
    rw [hc] at h
    dsimp only at h
    split at h
    · cases h
    · exact check_noUb (by simp [hi]) h

theorem storeCodec_noUb {d : Dec V A X E} {i : Nat} {x : Codec V A X E} (hi : i < d.cells.length) :
    storeCodec d i x ≠ .error .ub := by
  intro h
  unfold storeCodec at h
  cases hc : d.cells[i]? with
  | none => rw [List.getElem?_eq_none_iff] at hc; omega
  | some c =>
    rw [hc] at h
    dsimp only at h
    split at h <;> cases h

theorem onKind_changes (o : Opts V A X E) {d d' : Dec V A X E} {i : Nat} {k : Kind X} (h : onKind o d i k = .ok d') :
    Changes i d d' := by
  cases k with
  | literal j =>
    obtain ⟨⟨d1, e⟩, h1, h2⟩ := bind_ok.1 h
    exact ((decodeLiteral_safe o j).older _ _ _ h1).then (store_changes h2)
  | leaf k =>
    cases k with
    | none => cases h
    | some k => exact store_changes h
  | placeholder k =>
    cases k with
    | none => cases h
    | some k => exact store_changes h
  | op j is =>
    obtain ⟨⟨d1, e⟩, h1, h2⟩ := bind_ok.1 h
    exact ((decodeOp_safe o j is).older _ _ _ h1).then (store_changes h2)
  | value p =>
    obtain ⟨⟨d1, e⟩, h1, h2⟩ := bind_ok.1 h
    exact ((decodeValue_safe p).older _ _ _ h1).then (store_changes h2)
  | codec name =>
    obtain ⟨c, h1, h2⟩ := bind_ok.1 h
    exact storeCodec_changes h2
  | outValue j =>
    obtain ⟨⟨d1, e⟩, h1, h2⟩ := bind_ok.1 h
    cases h2
    have := (loadValue_safe j).older _ _ _ h1
    exact (show Older d { d1 with values := d1.values ++ [e] } from ⟨this.1, this.2⟩).changes
  | outExpr j =>
    obtain ⟨⟨d1, e⟩, h1, h2⟩ := bind_ok.1 h
    cases h2
    have := (loadExpr_safe j).older _ _ _ h1
    exact (show Older d { d1 with exprs := d1.exprs ++ [e] } from ⟨this.1, this.2⟩).changes
  | unset => cases h; exact (Older.refl d).changes

theorem onKind_noUb (o : Opts V A X E) {d : Dec V A X E} {i : Nat} {k : Kind X} (hi : i < d.cells.length) :
    onKind o d i k ≠ .error .ub := by
  intro h
  cases k with
  | literal j =>
    rcases bind_error.1 h with h1 | ⟨⟨d1, t⟩, h1, h2⟩
    · exact (decodeLiteral_safe o j).noUb d h1
    · exact store_noUb (by rw [((decodeLiteral_safe o j).older _ _ _ h1).1]; exact hi) h2
  | leaf k =>
    cases k with
    | none => cases h
    | some k => exact store_noUb hi h
  | placeholder k =>
    cases k with
    | none => cases h
    | some k => exact store_noUb hi h
  | op j is =>
    rcases bind_error.1 h with h1 | ⟨⟨d1, t⟩, h1, h2⟩
    · exact (decodeOp_safe o j is).noUb d h1
    · exact store_noUb (by rw [((decodeOp_safe o j is).older _ _ _ h1).1]; exact hi) h2
  | value p =>
    rcases bind_error.1 h with h1 | ⟨⟨d1, t⟩, h1, h2⟩
    · exact (decodeValue_safe p).noUb d h1
    · exact store_noUb (by rw [((decodeValue_safe p).older _ _ _ h1).1]; exact hi) h2
  | codec name =>
    rcases bind_error.1 h with h1 | ⟨c, h1, h2⟩
    · unfold decodeCodec at h1
      cases hp : o.provider with
      | none => rw [hp] at h1; cases h1
      | some f =>
        rw [hp] at h1
        rcases bind_error.1 h1 with h3 | ⟨c, h3, h4⟩
        · exact lift_noUb h3
        · cases h4
    · exact storeCodec_noUb hi h2
  | outValue j =>
    rcases bind_error.1 h with h1 | ⟨⟨d1, t⟩, h1, h2⟩
    · exact (loadValue_safe j).noUb d h1
    · cases h2
  | outExpr j =>
    rcases bind_error.1 h with h1 | ⟨⟨d1, t⟩, h1, h2⟩
    · exact (loadExpr_safe j).noUb d h1
    · cases h2
  | unset => cases h

theorem checks_older : ∀ (is : List Nat) {d d' : Dec V A X E}, checks d is = .ok d' → Older d d' := by
  intro is
  induction is with
  | nil => intro d d' h; cases h; exact Older.refl d
  | cons i is ih =>
    intro d d' h
    obtain ⟨d1, h1, h2⟩ := bind_ok.1 h
    exact (check_older h1).trans (ih h2)

theorem checks_noUb : ∀ (is : List Nat) {d : Dec V A X E}, (∀ i ∈ is, i < d.cells.length) → checks d is ≠ .error .ub := by
  intro is
  induction is with
  | nil => intro d _ h; cases h
  | cons i is ih =>
    intro d hi h
    rcases bind_error.1 h with h1 | ⟨d1, h1, h2⟩
    · exact check_noUb (hi i (by simp)) h1
    · exact ih (fun j hj => by rw [(check_older h1).1]; exact hi j (by simp [hj])) h2

theorem onHints_older {d d' : Dec V A X E} {h : Option (List Nat)} (hh : onHints d h = .ok d') : Older d d' := by
  cases h with
  | none => cases hh; exact Older.refl d
  | some counts =>
    unfold onHints processHints at hh
    dsimp only at hh
    split at hh
    · cases hh; exact Older.refl d
    · split at hh
      · cases hh
      · have := checks_older _ hh
        exact ⟨this.1, this.2⟩

theorem onHints_noUb {d : Dec V A X E} {h : Option (List Nat)} : onHints d h ≠ .error .ub := by
  cases h with
  | none => intro h; cases h
  | some counts =>
    intro hh
    unfold onHints processHints at hh
    dsimp only at hh
    split at hh
    · cases hh
    · split at hh
      · cases hh
      · refine checks_noUb _ ?_ hh
        intro i hi
        rw [List.mem_range] at hi
        dsimp only
        omega

theorem grow_length (d : Dec V A X E) {i : Nat} (h : ¬ i > d.cells.length) : i < (grow d i).cells.length := by
  unfold grow
  split
  · simp; omega
  · omega

theorem onStep_noUb (o : Opts V A X E) (d : Dec V A X E) (i : Nat) (s : Step X) : onStep o d i s ≠ .error .ub := by
  intro h
  unfold onStep at h
  split at h
  · cases h
  · rename_i hi
    rcases bind_error.1 h with h1 | ⟨d1, h1, h2⟩
    · exact onHints_noUb h1
    · exact onKind_noUb o (by rw [(onHints_older h1).1]; exact grow_length d hi) h2

theorem store_keeps {d d' : Dec V A X E} {i : Nat} {x : VoE V A} (h : store d i x = .ok d') : Keeps d d' := by
  unfold store at h
  cases hc : d.cells[i]? with
  | none => rw [hc] at h; cases h
  | some c =>
    rw [hc] at h
    dsimp only at h
    split at h
    · cases h
    · exact check_set_keeps h

theorem onKind_keeps (o : Opts V A X E) {d d' : Dec V A X E} {i : Nat} {k : Kind X} (h : onKind o d i k = .ok d') :
    Keeps d d' := by
  cases k with
  | literal j =>
    obtain ⟨⟨d1, e⟩, h1, h2⟩ := bind_ok.1 h
    exact ((decodeLiteral_safe o j).keeps _ _ _ h1).trans (store_keeps h2)
  | leaf k =>
    cases k with
    | none => cases h
    | some k => exact store_keeps h
  | placeholder k =>
    cases k with
    | none => cases h
    | some k => exact store_keeps h
  | op j is =>
    obtain ⟨⟨d1, e⟩, h1, h2⟩ := bind_ok.1 h
    exact ((decodeOp_safe o j is).keeps _ _ _ h1).trans (store_keeps h2)
  | value p =>
    obtain ⟨⟨d1, e⟩, h1, h2⟩ := bind_ok.1 h
    exact ((decodeValue_safe p).keeps _ _ _ h1).trans (store_keeps h2)
  | codec name =>
    obtain ⟨x, h1, h2⟩ := bind_ok.1 h
    unfold storeCodec at h2
    cases hc : d.cells[i]? with
    | none => rw [hc] at h2; cases h2
    | some c =>
      rw [hc] at h2
      dsimp only at h2
      split at h2
      · cases h2
      · cases h2
        refine ⟨rfl, fun hb j k c' hj hc' => ?_⟩
        dsimp only at hj hc'
        rw [List.getElem?_set] at hc'
        by_cases hji : i = j
        · subst hji
          have hlt : i < d.cells.length := (List.getElem?_eq_some_iff.1 hc).1
          simp [hlt] at hc'
          subst hc'
          exact hb i k c hj hc
        · simp [hji] at hc'
          exact hb j k c' hj hc'
  | outValue j =>
    obtain ⟨⟨d1, e⟩, h1, h2⟩ := bind_ok.1 h
    cases h2
    have := (loadValue_safe j).keeps _ _ _ h1
    exact ⟨this.1, this.2⟩
  | outExpr j =>
    obtain ⟨⟨d1, e⟩, h1, h2⟩ := bind_ok.1 h
    cases h2
    have := (loadExpr_safe j).keeps _ _ _ h1
    exact ⟨this.1, this.2⟩
  | unset => cases h; exact Keeps.refl d

theorem checks_bounded : ∀ (is : List Nat) {d d' : Dec V A X E}, checks d is = .ok d' → d'.expected = d.expected ∧
    d'.cells.length = d.cells.length ∧
    ∀ (j k : Nat) (c' : Cell V A X E), d.expected[j]? = some k → d'.cells[j]? = some c' →
      (j ∈ is → c'.usage ≤ k) ∧ ∃ c, d.cells[j]? = some c ∧ c.usage = c'.usage := by
  intro is
  induction is with
  | nil => intro d d' h; cases h; exact ⟨rfl, rfl, fun j k c' _ hc => ⟨by simp, c', hc, rfl⟩⟩
  | cons i is ih =>
    intro d d' h
    obtain ⟨d1, h1, h2⟩ := bind_ok.1 h
    obtain ⟨g1, g2, g3⟩ := check_bounded h1
    obtain ⟨h3, h4, h5⟩ := ih h2
    refine ⟨h3.trans g1, h4.trans g2, fun j k c' hj hc' => ?_⟩
    obtain ⟨h6, c1, h7, h8⟩ := h5 j k c' (by rw [g1]; exact hj) hc'
    obtain ⟨h9, c, h10, h11⟩ := g3 j k c1 hj h7
    refine ⟨fun hm => ?_, c, h10, h11.trans h8⟩
    rcases List.mem_cons.1 hm with e | e
    · rw [← h8]; exact h9 e
    · exact h6 e

theorem onHints_bounded {d d' : Dec V A X E} {h : Option (List Nat)} (hh : onHints d h = .ok d') (hb : Bounded d) :
    Bounded d' ∧ (d'.expected = d.expected ∨ h = some d'.expected) := by
  cases h with
  | none => cases hh; exact ⟨hb, .inl rfl⟩
  | some counts =>
    unfold onHints processHints at hh
    dsimp only at hh
    split at hh
    · cases hh; exact ⟨hb, .inl rfl⟩
    · split at hh
      · cases hh
      · obtain ⟨h1, h2, h3⟩ := checks_bounded _ hh
        refine ⟨fun j k c' hj hc' => ?_, .inr (by rw [h1])⟩
        rw [h1] at hj
        refine (h3 j k c' hj hc').1 ?_
        rw [List.mem_range]
        have := (List.getElem?_eq_some_iff.1 hj).1
        have := (List.getElem?_eq_some_iff.1 hc').1
        dsimp only at *
        omega

/-- The non-empty hints stay in force. -/
theorem onHints_expected {d d' : Dec V A X E} {h : Option (List Nat)} (hh : onHints d h = .ok d') :
    (d.expected ≠ [] → d'.expected = d.expected) ∧ (∀ c, h = some c → c ≠ [] → d'.expected = c) := by
  cases h with
  | none => cases hh; exact ⟨fun _ => rfl, by simp⟩
  | some counts =>
    unfold onHints processHints at hh
    dsimp only at hh
    split at hh
    · rename_i hn
      cases hh
      refine ⟨fun _ => rfl, fun c hc hne => ?_⟩
      cases hc
      exact absurd hn hne
    · split at hh
      · cases hh
      · rename_i he
        obtain ⟨h1, _⟩ := checks_bounded _ hh
        refine ⟨fun h => absurd h (by simpa using he), fun c hc _ => ?_⟩
        cases hc
        exact h1

theorem onStep_bounded (o : Opts V A X E) {d d' : Dec V A X E} {i : Nat} {s : Step X} (h : onStep o d i s = .ok d')
    (hb : Bounded d) : Bounded d' ∧ (d.expected ≠ [] → d'.expected = d.expected) ∧
    (∀ c, s.hints = some c → c ≠ [] → d'.expected = c) := by
  unfold onStep at h
  split at h
  · cases h
  · obtain ⟨d1, h1, h2⟩ := bind_ok.1 h
    have hg : (grow d i).expected = d.expected := by unfold grow; split <;> rfl
    have hb' : Bounded (grow d i) := by
      intro j k c hj hc
      rw [hg] at hj
      unfold grow at hc
      split at hc
      · dsimp only at hc
        by_cases hl : j < d.cells.length
        · rw [List.getElem?_append_left hl] at hc
          exact hb j k c hj hc
        · rw [List.getElem?_append_right (by omega)] at hc
          have := List.mem_of_getElem? hc
          simp at this
          subst this
          exact Nat.zero_le _
      · exact hb j k c hj hc
    have hk := onKind_keeps o h2
    obtain ⟨h3, h4⟩ := onHints_expected h1
    rw [hg] at h3
    refine ⟨hk.2 (onHints_bounded h1 hb').1, fun h => ?_, fun c hc hne => ?_⟩
    · rw [hk.1]; exact h3 h
    · rw [hk.1]; exact h4 c hc hne

theorem onSteps_bounded (o : Opts V A X E) : ∀ (evs : List (Nat × Step X)) {d d' : Dec V A X E},
    onSteps o d evs = .ok d' → Bounded d → Bounded d' ∧ (d.expected ≠ [] → d'.expected = d.expected) ∧
    ∀ c ∈ hintsOf evs, d'.expected = c := by
  intro evs
  induction evs with
  | nil => intro d d' h hb; cases h; exact ⟨hb, fun _ => rfl, by simp [hintsOf]⟩
  | cons e evs ih =>
    obtain ⟨i, s⟩ := e
    intro d d' h hb
    obtain ⟨d1, h1, h2⟩ := bind_ok.1 h
    obtain ⟨h3, h4, h5⟩ := onStep_bounded o h1 hb
    obtain ⟨h6, h7, h8⟩ := ih h2 h3
    refine ⟨h6, fun hne => ?_, fun c hc => ?_⟩
    · rw [h7 (by rw [h4 hne]; exact hne), h4 hne]
    · unfold hintsOf at hc
      rw [List.filterMap_cons] at hc
      dsimp only at hc
      cases hs : s.hints with
      | none => rw [hs] at hc; exact h8 c hc
      | some cs =>
        rw [hs] at hc
        by_cases hcs : cs = []
        · simp only [hcs, ne_eq, not_true_eq_false, decide_false, Option.filter_some, Bool.false_eq_true, if_false] at hc
          exact h8 c hc
        · have he : (Option.filter (fun c => decide (c ≠ [])) (some cs)) = some cs := by simp [hcs]
          rw [he] at hc
          rcases List.mem_cons.1 hc with hc | hc
          · subst hc
            have := h5 c hs hcs
            rw [h7 (by rw [this]; exact hcs), this]
          · exact h8 c hc

end Verif.Serial
