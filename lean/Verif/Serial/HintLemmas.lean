import Verif.Serial.DecLemmas

/-!
# A run with hints against the run without hints
-/

namespace Verif.Serial
open Verif.Expr
variable {V A X E T U : Type}

/-- The state `d` of a run with hints and the state `d0` of the run without: the same, except that results that have been used
as often as expected are gone from `d`. -/
structure Same (d d0 : Dec V A X E) : Prop where
  nil : d0.expected = []
  codecs : d.codecs = d0.codecs
  values : d.values = d0.values
  exprs : d.exprs = d0.exprs
  len : d.cells.length = d0.cells.length
  cell : ∀ (i : Nat) (c c0 : Cell V A X E), d.cells[i]? = some c → d0.cells[i]? = some c0 →
    c.usage = c0.usage ∧ c.codec = c0.codec ∧
    (c.voe = c0.voe ∨ c.voe = none ∧ d.expected[i]? = some c.usage ∧ 0 < c.usage)

/-- The expected counts are large enough for the state. -/
def Fits (expected : List Nat) (d : Dec V A X E) : Prop :=
  ∀ (i k : Nat) (c : Cell V A X E), expected[i]? = some k → d.cells[i]? = some c →
    c.usage ≤ k ∧ (c.voe.isSome = true → 1 ≤ k)

/-- Usage counts grow, results stay. -/
def Le (d d' : Dec V A X E) : Prop :=
  d'.expected = [] ∧ ∀ (i : Nat) (c : Cell V A X E), d.cells[i]? = some c →
    ∃ c', d'.cells[i]? = some c' ∧ c.usage ≤ c'.usage ∧ (c.voe.isSome = true → c'.voe.isSome = true)

theorem Le.refl {d : Dec V A X E} (h : d.expected = []) : Le d d := ⟨h, fun _ c hc => ⟨c, hc, Nat.le_refl _, id⟩⟩

theorem Le.trans {a b c : Dec V A X E} (h : Le a b) (h' : Le b c) : Le a c := by
  refine ⟨h'.1, fun i x hx => ?_⟩
  obtain ⟨y, hy, h1, h2⟩ := h.2 i x hx
  obtain ⟨z, hz, h3, h4⟩ := h'.2 i y hy
  exact ⟨z, hz, by omega, fun q => h4 (h2 q)⟩

theorem Fits.mono {expected : List Nat} {d d' : Dec V A X E} (h : Fits expected d') (hl : Le d d') : Fits expected d := by
  intro i k c hk hc
  obtain ⟨c', hc', h1, h2⟩ := hl.2 i c hc
  obtain ⟨h3, h4⟩ := h i k c' hk hc'
  exact ⟨by omega, fun q => h4 (h2 q)⟩

/-- A computation behaves the same with and without hints, as long as the counts are large enough. -/
structure Hinted (f : Dec V A X E → Except (Err E) (Dec V A X E × T)) : Prop where
  sound : ∀ d d0 d' t, Same d d0 → f d = .ok (d', t) →
    ∃ d0', f d0 = .ok (d0', t) ∧ Same d' d0' ∧ d'.expected = d.expected
  complete : ∀ d d0 d0' t, Same d d0 → f d0 = .ok (d0', t) → Fits d.expected d0' →
    ∃ d', f d = .ok (d', t) ∧ Same d' d0' ∧ d'.expected = d.expected
  mono : ∀ d0 d0' t, d0.expected = [] → f d0 = .ok (d0', t) → Le d0 d0'

theorem Hinted.bind {f : Dec V A X E → Except (Err E) (Dec V A X E × T)}
    {g : Dec V A X E → T → Except (Err E) (Dec V A X E × U)} (hf : Hinted f) (hg : ∀ t, Hinted (fun d => g d t)) :
    Hinted (fun d => f d >>= fun p => g p.1 p.2) := by
  refine ⟨?_, ?_, ?_⟩
  · intro d d0 d' u hs h
    obtain ⟨⟨d1, t⟩, h1, h2⟩ := bind_ok.1 h
    obtain ⟨d01, h3, h4, h5⟩ := hf.sound d d0 d1 t hs h1
    obtain ⟨d02, h6, h7, h8⟩ := (hg t).sound d1 d01 d' u h4 h2
    exact ⟨d02, bind_ok.2 ⟨_, h3, h6⟩, h7, by rw [h8, h5]⟩
  · intro d d0 d0' u hs h hfit
    obtain ⟨⟨d01, t⟩, h1, h2⟩ := bind_ok.1 h
    have hl := hf.mono _ _ _ hs.nil h1
    have hl' := (hg t).mono _ _ _ hl.1 h2
    obtain ⟨d1, h3, h4, h5⟩ := hf.complete d d0 d01 t hs h1 (hfit.mono hl')
    obtain ⟨d2, h6, h7, h8⟩ := (hg t).complete d1 d01 d0' u h4 h2 (by rw [h5]; exact hfit)
    exact ⟨d2, bind_ok.2 ⟨_, h3, h6⟩, h7, by rw [h8, h5]⟩
  · intro d0 d0' u hn h
    obtain ⟨⟨d01, t⟩, h1, h2⟩ := bind_ok.1 h
    have hl := hf.mono _ _ _ hn h1
    exact hl.trans ((hg t).mono _ _ _ hl.1 h2)

theorem Hinted.pure (t : T) : Hinted (fun d : Dec V A X E => .ok (d, t)) := by
  refine ⟨?_, ?_, ?_⟩
  · intro d d0 d' u hs h; cases h; exact ⟨d0, rfl, hs, rfl⟩
  · intro d d0 d0' u hs h _; cases h; exact ⟨d, rfl, hs, rfl⟩
  · intro d0 d0' u hn h; cases h; exact Le.refl hn

theorem Hinted.error (e : Err E) : Hinted (fun _ : Dec V A X E => (.error e : Except (Err E) (Dec V A X E × T))) := by
  refine ⟨?_, ?_, ?_⟩
  · intro d d0 d' u hs h; cases h
  · intro d d0 d0' u hs h _; cases h
  · intro d0 d0' u hn h; cases h

/-- A computation that only looks at what the two runs share. -/
theorem Hinted.get (x : Dec V A X E → Except (Err E) T) (hx : ∀ d d0, Same d d0 → x d = x d0) :
    Hinted (fun d : Dec V A X E => x d >>= fun t => .ok (d, t)) := by
  refine ⟨?_, ?_, ?_⟩
  · intro d d0 d' u hs h
    obtain ⟨t, h1, h2⟩ := bind_ok.1 h
    cases h2
    exact ⟨d0, bind_ok.2 ⟨_, by rw [← hx d d0 hs]; exact h1, rfl⟩, hs, rfl⟩
  · intro d d0 d0' u hs h _
    obtain ⟨t, h1, h2⟩ := bind_ok.1 h
    cases h2
    exact ⟨d, bind_ok.2 ⟨_, by rw [hx d d0 hs]; exact h1, rfl⟩, hs, rfl⟩
  · intro d0 d0' u hn h
    obtain ⟨t, h1, h2⟩ := bind_ok.1 h
    cases h2
    exact Le.refl hn

theorem check_expected {d d' : Dec V A X E} {i : Nat} (h : check d i = .ok d') :
    d'.expected = d.expected ∧ d'.cells.length = d.cells.length := by
  unfold check at h
  split at h
  · cases h; exact ⟨rfl, rfl⟩
  · split at h
    · cases h
    · split at h
      · cases h
      · split at h
        · cases h
        · split at h
          · cases h; simp
          · cases h; exact ⟨rfl, rfl⟩

theorem check_sound {d d0 d' : Dec V A X E} {i : Nat} (hs : Same d d0) (h : check d i = .ok d') : Same d' d0 := by
  unfold check at h
  cases hk : d.expected[i]? with
  | none => rw [hk] at h; cases h; exact hs
  | some k =>
    rw [hk] at h
    dsimp only at h
    cases hc : d.cells[i]? with
    | none => rw [hc] at h; cases h
    | some c =>
      rw [hc] at h
      dsimp only at h
      split at h
      · cases h
      split at h
      · cases h
      rename_i h1 h2
      split at h
      · rename_i h3
        cases h
        refine ⟨hs.nil, hs.codecs, hs.values, hs.exprs, by simp [hs.len], ?_⟩
        intro j x x0 hx hx0
        dsimp only at hx ⊢
        rw [List.getElem?_set] at hx
        by_cases hj : i = j
        · subst hj
          have hlt : i < d.cells.length := (List.getElem?_eq_some_iff.1 hc).1
          simp [hlt] at hx
          subst hx
          obtain ⟨h4, h5, h6⟩ := hs.cell i c x0 hc hx0
          refine ⟨h4, h5, ?_⟩
          dsimp only
          rcases h6 with h6 | h6
          · cases hv : c.voe with
            | none => left; rw [← h6, hv]
            | some y =>
              right
              have : ¬ (k < 1) := fun q => h2 ⟨by simp [hv], q⟩
              exact ⟨rfl, by rw [hk, h3], by omega⟩
          · exact Or.inr ⟨rfl, h6.2⟩
        · simp [hj] at hx
          exact hs.cell j x x0 hx hx0
      · cases h; exact hs

theorem check_complete {d d0 : Dec V A X E} {i : Nat} (hs : Same d d0) (hi : i < d.cells.length) (hf : Fits d.expected d0) :
    ∃ d', check d i = .ok d' := by
  unfold check
  cases hk : d.expected[i]? with
  | none => exact ⟨_, rfl⟩
  | some k =>
    dsimp only
    have hc : d.cells[i]? = some d.cells[i] := List.getElem?_eq_getElem hi
    have hc0 : d0.cells[i]? = some (d0.cells[i]'(by rw [← hs.len]; exact hi)) := List.getElem?_eq_getElem _
    generalize d.cells[i] = c at hc
    generalize d0.cells[i]'(by rw [← hs.len]; exact hi) = c0 at hc0
    rw [hc]
    obtain ⟨h4, h5, h6⟩ := hs.cell i c c0 hc hc0
    obtain ⟨h7, h8⟩ := hf i k c0 hk hc0
    dsimp only
    rw [if_neg (by omega)]
    rw [if_neg]
    · split
      · exact ⟨_, rfl⟩
      · exact ⟨_, rfl⟩
    · rintro ⟨q1, q2⟩
      rcases h6 with h6 | h6
      · have := h8 (by rw [← h6]; exact q1); omega
      · rw [h6.1] at q1; cases q1

/-- Reading a result. -/
def read (d : Dec V A X E) (i : Nat) : Except (Err E) (Dec V A X E × VoE V A) := do
  let (d, r) ← load d i
  match r with
  | some x => .ok (d, x)
  | none => .error .noValue

theorem load_nil {d : Dec V A X E} (h : d.expected = []) (i : Nat) : load d i = match d.cells[i]? with
    | none => .error .range
    | some c => .ok ({ d with cells := d.cells.set i { c with usage := c.usage + 1 } }, c.voe) := by
  unfold load
  cases d.cells[i]? with
  | none => rfl
  | some c =>
    dsimp only
    rw [check_nil (by exact h)]
    rfl

theorem same_used {d d0 : Dec V A X E} (hs : Same d d0) {i : Nat} {c c0 : Cell V A X E} (hc : d.cells[i]? = some c)
    (hc0 : d0.cells[i]? = some c0) (hv : c.voe = c0.voe) :
    Same { d with cells := d.cells.set i { c with usage := c.usage + 1 } }
      { d0 with cells := d0.cells.set i { c0 with usage := c0.usage + 1 } } := by
  have hlt : i < d.cells.length := (List.getElem?_eq_some_iff.1 hc).1
  have hlt0 : i < d0.cells.length := (List.getElem?_eq_some_iff.1 hc0).1
  refine ⟨hs.nil, hs.codecs, hs.values, hs.exprs, by simp [hs.len], ?_⟩
  intro j x x0 hx hx0
  dsimp only at hx hx0 ⊢
  rw [List.getElem?_set] at hx hx0
  by_cases hj : i = j
  · subst hj
    simp [hlt] at hx
    simp [hlt0] at hx0
    subst hx hx0
    obtain ⟨h4, h5, _⟩ := hs.cell i c c0 hc hc0
    exact ⟨by dsimp only; omega, h5, Or.inl hv⟩
  · simp [hj] at hx hx0
    exact hs.cell j x x0 hx hx0

theorem le_set {d : Dec V A X E} (h : d.expected = []) {i : Nat} {c c' : Cell V A X E} (hc : d.cells[i]? = some c)
    (hu : c.usage ≤ c'.usage) (hv : c.voe.isSome = true → c'.voe.isSome = true) (cs : List (Codec V A X E)) :
    Le d { d with cells := d.cells.set i c', codecs := cs } := by
  have hlt : i < d.cells.length := (List.getElem?_eq_some_iff.1 hc).1
  refine ⟨h, fun j x hx => ?_⟩
  dsimp only
  rw [List.getElem?_set]
  by_cases hj : i = j
  · subst hj
    rw [hc] at hx
    cases hx
    exact ⟨c', by simp [hlt], hu, hv⟩
  · exact ⟨x, by simp [hj, hx], Nat.le_refl _, id⟩

theorem read_hinted (i : Nat) : Hinted (fun d : Dec V A X E => read d i) := by
  refine ⟨?_, ?_, ?_⟩
  · intro d d0 d' t hs h
    unfold read at h
    obtain ⟨⟨d1, r⟩, h1, h2⟩ := bind_ok.1 h
    dsimp only at h2
    cases r with
    | none => cases h2
    | some x =>
      cases h2
      unfold load at h1
      cases hc : d.cells[i]? with
      | none => rw [hc] at h1; cases h1
      | some c =>
        rw [hc] at h1
        obtain ⟨d2, h3, h4⟩ := bind_ok.1 h1
        simp only [Except.ok.injEq, Prod.mk.injEq] at h4
        obtain ⟨rfl, hx⟩ := h4
        have hlt : i < d0.cells.length := by rw [← hs.len]; exact (List.getElem?_eq_some_iff.1 hc).1
        have hc0 : d0.cells[i]? = some d0.cells[i] := List.getElem?_eq_getElem hlt
        generalize d0.cells[i] = c0 at hc0
        obtain ⟨h5, h6, h7⟩ := hs.cell i c c0 hc hc0
        have hv : c.voe = c0.voe := by
          rcases h7 with h7 | h7
          · exact h7
          · rw [h7.1] at hx; cases hx
        refine ⟨{ d0 with cells := d0.cells.set i { c0 with usage := c0.usage + 1 } }, ?_, ?_, ?_⟩
        · unfold read
          rw [load_nil hs.nil, hc0]
          simp [bind, Except.bind, ← hv, hx]
        · exact check_sound (same_used hs hc hc0 hv) h3
        · exact (check_expected h3).1
  · intro d d0 d0' t hs h hf
    unfold read at h
    rw [load_nil hs.nil] at h
    cases hc0 : d0.cells[i]? with
    | none => rw [hc0] at h; cases h
    | some c0 =>
      rw [hc0] at h
      cases hx : c0.voe with
      | none => simp [bind, Except.bind, hx] at h
      | some x =>
        simp only [bind, Except.bind, hx, Except.ok.injEq, Prod.mk.injEq] at h
        obtain ⟨rfl, rfl⟩ := h
        have hlt0 : i < d0.cells.length := (List.getElem?_eq_some_iff.1 hc0).1
        have hlt : i < d.cells.length := by rw [hs.len]; exact hlt0
        have hc : d.cells[i]? = some d.cells[i] := List.getElem?_eq_getElem hlt
        generalize d.cells[i] = c at hc
        obtain ⟨h5, h6, h7⟩ := hs.cell i c c0 hc hc0
        have hv : c.voe = c0.voe := by
          rcases h7 with h7 | ⟨_, h8, _⟩
          · exact h7
          · have := (hf i c.usage { c0 with voe := some x, usage := c0.usage + 1 } h8 (by simp [hlt0, ← hx])).1
            dsimp only at this
            omega
        have hs' := same_used hs hc hc0 hv
        rw [hx] at hs'
        obtain ⟨d', hd'⟩ := check_complete hs' (i := i) (by simp [hlt]) hf
        refine ⟨d', ?_, check_sound hs' hd', (check_expected hd').1⟩
        unfold read load
        rw [hc]
        dsimp only
        rw [hv, hx] at hd' ⊢
        simp [bind, Except.bind, hd']
  · intro d0 d0' t hn h
    unfold read at h
    rw [load_nil hn] at h
    cases hc0 : d0.cells[i]? with
    | none => rw [hc0] at h; cases h
    | some c0 =>
      rw [hc0] at h
      cases hx : c0.voe with
      | none => simp [bind, Except.bind, hx] at h
      | some x =>
        simp only [bind, Except.bind, hx, Except.ok.injEq, Prod.mk.injEq] at h
        obtain ⟨rfl, rfl⟩ := h
        exact le_set hn hc0 (by dsimp only; omega) (fun _ => rfl) _

/-- The computation, apart from its errors. -/
theorem Hinted.congr {f g : Dec V A X E → Except (Err E) (Dec V A X E × T)} (hf : Hinted f)
    (h : ∀ d r, g d = .ok r ↔ f d = .ok r) : Hinted g := by
  refine ⟨?_, ?_, ?_⟩
  · intro d d0 d' t hs hg
    obtain ⟨d0', h1, h2⟩ := hf.sound d d0 d' t hs ((h _ _).1 hg)
    exact ⟨d0', (h _ _).2 h1, h2⟩
  · intro d d0 d0' t hs hg hfit
    obtain ⟨d', h1, h2⟩ := hf.complete d d0 d0' t hs ((h _ _).1 hg) hfit
    exact ⟨d', (h _ _).2 h1, h2⟩
  · intro d0 d0' t hn hg
    exact hf.mono d0 d0' t hn ((h _ _).1 hg)

theorem loadValue_hinted (i : Nat) : Hinted (fun d : Dec V A X E => loadValue d i) := by
  refine (Hinted.bind (read_hinted i) (g := fun d x => match x with
    | .val v => .ok (d, v)
    | .expr _ => .error .noValue) ?_).congr ?_
  · intro x
    cases x with
    | val v => exact Hinted.pure v
    | expr e => exact Hinted.error _
  · intro d r
    unfold loadValue read
    cases load d i with
    | error e => simp [bind, Except.bind]
    | ok p => rcases p with ⟨d1, _ | (v | e)⟩ <;> simp [bind, Except.bind]

theorem loadExpr_hinted (i : Nat) : Hinted (fun d : Dec V A X E => loadExpr d i) := by
  refine (Hinted.bind (read_hinted i) (g := fun d x => match x with
    | .expr v => .ok (d, v)
    | .val _ => .error .noValue) ?_).congr ?_
  · intro x
    cases x with
    | expr v => exact Hinted.pure v
    | val e => exact Hinted.error _
  · intro d r
    unfold loadExpr read
    cases load d i with
    | error e => simp [bind, Except.bind]
    | ok p => rcases p with ⟨d1, _ | (v | e)⟩ <;> simp [bind, Except.bind]

theorem loadValues_hinted : ∀ (is : List Nat), Hinted (fun d : Dec V A X E => loadValues d is) := by
  intro is
  induction is with
  | nil => exact Hinted.pure []
  | cons i is ih =>
    exact Hinted.bind (loadValue_hinted i) (g := fun d v => loadValues d is >>= fun p => .ok (p.1, v :: p.2))
      (fun v => Hinted.bind ih (g := fun d vs => .ok (d, v :: vs)) (fun vs => Hinted.pure _))

theorem loadExprs_hinted : ∀ (is : List Nat), Hinted (fun d : Dec V A X E => loadExprs d is) := by
  intro is
  induction is with
  | nil => exact Hinted.pure []
  | cons i is ih =>
    exact Hinted.bind (loadExpr_hinted i) (g := fun d v => loadExprs d is >>= fun p => .ok (p.1, v :: p.2))
      (fun v => Hinted.bind ih (g := fun d vs => .ok (d, v :: vs)) (fun vs => Hinted.pure _))

theorem decodeLiteral_hinted (o : Opts V A X E) (j : Option Nat) : Hinted (fun d : Dec V A X E => decodeLiteral o d j) := by
  cases j with
  | none => exact Hinted.error _
  | some j => exact Hinted.bind (loadValue_hinted j) (g := fun d v => .ok (d, mkLiteral o v)) (fun v => Hinted.pure _)

theorem decodeOp_hinted (o : Opts V A X E) (j : Option Nat) (is : List Nat) :
    Hinted (fun d : Dec V A X E => decodeOp o d j is) := by
  cases j with
  | none => exact Hinted.error _
  | some j =>
    refine Hinted.bind (loadValue_hinted j) (g := fun d v => if !o.isOp v then .error .notOperator
      else loadExprs d is >>= fun p => mkOpNode o v p.2 >>= fun e => .ok (p.1, e)) (fun v => ?_)
    cases o.isOp v with
    | false => exact Hinted.error _
    | true =>
      exact Hinted.bind (loadExprs_hinted is) (g := fun d es => mkOpNode o v es >>= fun e => .ok (d, e))
        (fun es => Hinted.get (fun _ => mkOpNode o v es) (fun _ _ _ => rfl))

theorem same_known {d d0 : Dec V A X E} (hs : Same d d0) (p : VProto X) (i : Nat) (vs : List V) (es : List (Ex V A)) :
    decodeKnown d p i vs es = decodeKnown d0 p i vs es := by
  unfold decodeKnown
  cases hc : d.cells[i]? with
  | none =>
    have : d0.cells[i]? = none := by
      rw [List.getElem?_eq_none_iff] at hc ⊢; rw [← hs.len]; exact hc
    rw [this]
  | some c =>
    have hlt : i < d0.cells.length := by rw [← hs.len]; exact (List.getElem?_eq_some_iff.1 hc).1
    have hc0 : d0.cells[i]? = some d0.cells[i] := List.getElem?_eq_getElem hlt
    generalize d0.cells[i] = c0 at hc0
    rw [hc0]
    dsimp only
    rw [(hs.cell i c c0 hc hc0).2.1]

theorem decodeValue_hinted (p : VProto X) : Hinted (fun d : Dec V A X E => decodeValue d p) := by
  refine Hinted.bind (loadValues_hinted p.inputValues) (g := fun d vs => loadExprs d p.inputExprs >>= fun q =>
    match p.codec with
    | some i => decodeKnown q.1 p i vs q.2 >>= fun v => .ok (q.1, v)
    | none => decodeUnknown p vs q.2 q.1.codecs >>= fun v => .ok (q.1, v)) (fun vs => ?_)
  refine Hinted.bind (loadExprs_hinted p.inputExprs) (g := fun d es =>
    match p.codec with
    | some i => decodeKnown d p i vs es >>= fun v => .ok (d, v)
    | none => decodeUnknown p vs es d.codecs >>= fun v => .ok (d, v)) (fun es => ?_)
  cases p.codec with
  | some i => exact Hinted.get (fun d => decodeKnown d p i vs es) (fun d d0 hs => same_known hs p i vs es)
  | none => exact Hinted.get (fun d => decodeUnknown p vs es d.codecs) (fun d d0 hs => by rw [hs.codecs])

/-- The same for computations without a result. -/
def HintedS (f : Dec V A X E → Except (Err E) (Dec V A X E)) : Prop := Hinted (fun d => f d >>= fun d => .ok (d, ()))

theorem Hinted.bindS {f : Dec V A X E → Except (Err E) (Dec V A X E × T)} {g : Dec V A X E → T → Except (Err E) (Dec V A X E)}
    (hf : Hinted f) (hg : ∀ t, HintedS (fun d => g d t)) : HintedS (fun d => f d >>= fun p => g p.1 p.2) := by
  unfold HintedS at hg ⊢
  refine (Hinted.bind hf (g := fun d t => g d t >>= fun d => .ok (d, ())) hg).congr ?_
  intro d r
  cases hfd : f d <;> simp [Bind.bind, Except.bind, hfd]

theorem store_hinted (i : Nat) (x : VoE V A) : HintedS (fun d : Dec V A X E => store d i x) := by
  have hset : ∀ {d d0 : Dec V A X E} {c c0 : Cell V A X E}, Same d d0 → d.cells[i]? = some c → d0.cells[i]? = some c0 →
      Same { d with cells := d.cells.set i { c with voe := some x } }
        { d0 with cells := d0.cells.set i { c0 with voe := some x } } := by
    intro d d0 c c0 hs hc hc0
    have hlt : i < d.cells.length := (List.getElem?_eq_some_iff.1 hc).1
    have hlt0 : i < d0.cells.length := (List.getElem?_eq_some_iff.1 hc0).1
    refine ⟨hs.nil, hs.codecs, hs.values, hs.exprs, by simp [hs.len], ?_⟩
    intro j y y0 hy hy0
    dsimp only at hy hy0 ⊢
    rw [List.getElem?_set] at hy hy0
    by_cases hj : i = j
    · subst hj
      simp [hlt] at hy
      simp [hlt0] at hy0
      subst hy hy0
      obtain ⟨h4, h5, _⟩ := hs.cell i c c0 hc hc0
      exact ⟨h4, h5, Or.inl rfl⟩
    · simp [hj] at hy hy0
      exact hs.cell j y y0 hy hy0
  refine ⟨?_, ?_, ?_⟩
  · intro d d0 d' t hs h
    obtain ⟨d1, h1, h2⟩ := bind_ok.1 h
    cases h2
    dsimp only at h1
    unfold store at h1
    cases hc : d.cells[i]? with
    | none => rw [hc] at h1; cases h1
    | some c =>
      rw [hc] at h1
      dsimp only at h1
      split at h1
      · cases h1
      rename_i hn
      have hlt : i < d0.cells.length := by rw [← hs.len]; exact (List.getElem?_eq_some_iff.1 hc).1
      have hc0 : d0.cells[i]? = some d0.cells[i] := List.getElem?_eq_getElem hlt
      generalize d0.cells[i] = c0 at hc0
      obtain ⟨h5, h6, h7⟩ := hs.cell i c c0 hc hc0
      have hu : c.usage = 0 := by
        by_cases q : c.usage > 0
        · exact (hn (Or.inr q)).elim
        · omega
      have hv : c.voe = c0.voe := by
        rcases h7 with h7 | h7
        · exact h7
        · omega
      refine ⟨{ d0 with cells := d0.cells.set i { c0 with voe := some x } }, bind_ok.2 ⟨_, ?_, rfl⟩,
        check_sound (hset hs hc hc0) h1, (check_expected h1).1⟩
      show store _ i x = _
      unfold store
      rw [hc0]
      dsimp only
      rw [if_neg (by rw [← hv, ← h5]; exact hn), check_nil (by exact hs.nil)]
  · intro d d0 d0' t hs h hf
    obtain ⟨d1, h1, h2⟩ := bind_ok.1 h
    cases h2
    dsimp only at h1
    unfold store at h1
    cases hc0 : d0.cells[i]? with
    | none => rw [hc0] at h1; cases h1
    | some c0 =>
      rw [hc0] at h1
      dsimp only at h1
      split at h1
      · cases h1
      rename_i hn
      rw [check_nil (by exact hs.nil)] at h1
      cases h1
      have hlt0 : i < d0.cells.length := (List.getElem?_eq_some_iff.1 hc0).1
      have hlt : i < d.cells.length := by rw [hs.len]; exact hlt0
      have hc : d.cells[i]? = some d.cells[i] := List.getElem?_eq_getElem hlt
      generalize d.cells[i] = c at hc
      obtain ⟨h5, h6, h7⟩ := hs.cell i c c0 hc hc0
      have hu : c0.usage = 0 := by
        by_cases q : c0.usage > 0
        · exact (hn (Or.inr q)).elim
        · omega
      have hv : c.voe = c0.voe := by
        rcases h7 with h7 | h7
        · exact h7
        · omega
      obtain ⟨d', hd'⟩ := check_complete (hset hs hc hc0) (i := i) (by simp [hlt]) hf
      refine ⟨d', bind_ok.2 ⟨_, ?_, rfl⟩, check_sound (hset hs hc hc0) hd', (check_expected hd').1⟩
      show store _ i x = _
      unfold store
      rw [hc]
      dsimp only
      rw [if_neg (by rw [hv, h5]; exact hn)]
      exact hd'
  · intro d0 d0' t hn h
    obtain ⟨d1, h1, h2⟩ := bind_ok.1 h
    cases h2
    dsimp only at h1
    unfold store at h1
    cases hc0 : d0.cells[i]? with
    | none => rw [hc0] at h1; cases h1
    | some c0 =>
      rw [hc0] at h1
      dsimp only at h1
      split at h1
      · cases h1
      rw [check_nil (by exact hn)] at h1
      cases h1
      exact le_set (c' := { c0 with voe := some x }) hn hc0 (Nat.le_refl _) (fun _ => rfl) _

theorem storeCodec_hinted (i : Nat) (x : Codec V A X E) : HintedS (fun d : Dec V A X E => storeCodec d i x) := by
  have hset : ∀ {d d0 : Dec V A X E} {c c0 : Cell V A X E}, Same d d0 → d.cells[i]? = some c → d0.cells[i]? = some c0 →
      Same { d with cells := d.cells.set i { c with codec := some x }, codecs := d.codecs ++ [x] }
        { d0 with cells := d0.cells.set i { c0 with codec := some x }, codecs := d0.codecs ++ [x] } := by
    intro d d0 c c0 hs hc hc0
    have hlt : i < d.cells.length := (List.getElem?_eq_some_iff.1 hc).1
    have hlt0 : i < d0.cells.length := (List.getElem?_eq_some_iff.1 hc0).1
    refine ⟨hs.nil, by simp [hs.codecs], hs.values, hs.exprs, by simp [hs.len], ?_⟩
    intro j y y0 hy hy0
    dsimp only at hy hy0 ⊢
    rw [List.getElem?_set] at hy hy0
    by_cases hj : i = j
    · subst hj
      simp [hlt] at hy
      simp [hlt0] at hy0
      subst hy hy0
      obtain ⟨h4, h5, h6⟩ := hs.cell i c c0 hc hc0
      exact ⟨h4, rfl, h6⟩
    · simp [hj] at hy hy0
      exact hs.cell j y y0 hy hy0
  refine ⟨?_, ?_, ?_⟩
  · intro d d0 d' t hs h
    obtain ⟨d1, h1, h2⟩ := bind_ok.1 h
    cases h2
    dsimp only at h1
    unfold storeCodec at h1
    cases hc : d.cells[i]? with
    | none => rw [hc] at h1; cases h1
    | some c =>
      rw [hc] at h1
      dsimp only at h1
      split at h1
      · cases h1
      rename_i hn
      cases h1
      have hlt : i < d0.cells.length := by rw [← hs.len]; exact (List.getElem?_eq_some_iff.1 hc).1
      have hc0 : d0.cells[i]? = some d0.cells[i] := List.getElem?_eq_getElem hlt
      generalize d0.cells[i] = c0 at hc0
      obtain ⟨h5, h6, h7⟩ := hs.cell i c c0 hc hc0
      refine ⟨_, bind_ok.2 ⟨_, ?_, rfl⟩, hset hs hc hc0, rfl⟩
      show storeCodec _ i x = _
      unfold storeCodec
      rw [hc0]
      dsimp only
      rw [if_neg (by rw [← h6]; exact hn)]
  · intro d d0 d0' t hs h hf
    obtain ⟨d1, h1, h2⟩ := bind_ok.1 h
    cases h2
    dsimp only at h1
    unfold storeCodec at h1
    cases hc0 : d0.cells[i]? with
    | none => rw [hc0] at h1; cases h1
    | some c0 =>
      rw [hc0] at h1
      dsimp only at h1
      split at h1
      · cases h1
      rename_i hn
      cases h1
      have hlt0 : i < d0.cells.length := (List.getElem?_eq_some_iff.1 hc0).1
      have hlt : i < d.cells.length := by rw [hs.len]; exact hlt0
      have hc : d.cells[i]? = some d.cells[i] := List.getElem?_eq_getElem hlt
      generalize d.cells[i] = c at hc
      obtain ⟨h5, h6, h7⟩ := hs.cell i c c0 hc hc0
      refine ⟨_, bind_ok.2 ⟨_, ?_, rfl⟩, hset hs hc hc0, rfl⟩
      show storeCodec _ i x = _
      unfold storeCodec
      rw [hc]
      dsimp only
      rw [if_neg (by rw [h6]; exact hn)]
  · intro d0 d0' t hn h
    obtain ⟨d1, h1, h2⟩ := bind_ok.1 h
    cases h2
    dsimp only at h1
    unfold storeCodec at h1
    cases hc0 : d0.cells[i]? with
    | none => rw [hc0] at h1; cases h1
    | some c0 =>
      rw [hc0] at h1
      dsimp only at h1
      split at h1
      · cases h1
      cases h1
      exact le_set (c' := { c0 with codec := some x }) hn hc0 (Nat.le_refl _) id _

/-- Adding to the outputs. -/
theorem output_hinted (vs : List V) (es : List (Ex V A)) :
    HintedS (fun d : Dec V A X E => .ok { d with values := d.values ++ vs, exprs := d.exprs ++ es }) := by
  have hadd : ∀ {d d0 : Dec V A X E}, Same d d0 → Same { d with values := d.values ++ vs, exprs := d.exprs ++ es }
      { d0 with values := d0.values ++ vs, exprs := d0.exprs ++ es } := by
    intro d d0 hs
    exact ⟨hs.nil, hs.codecs, by simp [hs.values], by simp [hs.exprs], hs.len, hs.cell⟩
  refine ⟨?_, ?_, ?_⟩
  · intro d d0 d' t hs h
    cases h
    exact ⟨_, rfl, hadd hs, rfl⟩
  · intro d d0 d' t hs h _
    cases h
    exact ⟨_, rfl, hadd hs, rfl⟩
  · intro d0 d0' t hn h
    cases h
    exact ⟨hn, fun i c hc => ⟨c, hc, Nat.le_refl _, id⟩⟩

theorem HintedS.error (e : Err E) : HintedS (fun _ : Dec V A X E => .error e) :=
  (Hinted.error (T := Unit) e).congr (fun d r => by simp [bind, Except.bind])

theorem onKind_hinted (o : Opts V A X E) (i : Nat) (k : Kind X) : HintedS (fun d : Dec V A X E => onKind o d i k) := by
  cases k with
  | literal j => exact Hinted.bindS (decodeLiteral_hinted o j) (g := fun d e => store d i (.expr e)) (fun e => store_hinted i _)
  | leaf k =>
    cases k with
    | none => exact HintedS.error _
    | some k => exact store_hinted i _
  | placeholder k =>
    cases k with
    | none => exact HintedS.error _
    | some k => exact store_hinted i _
  | op j is => exact Hinted.bindS (decodeOp_hinted o j is) (g := fun d e => store d i (.expr e)) (fun e => store_hinted i _)
  | value p => exact Hinted.bindS (decodeValue_hinted p) (g := fun d e => store d i (.val e)) (fun e => store_hinted i _)
  | codec name =>
    exact Hinted.bindS (Hinted.get (fun _ => decodeCodec o name) (fun _ _ _ => rfl)) (g := fun d c => storeCodec d i c)
      (fun c => storeCodec_hinted i c) |>.congr (fun d r => by
        unfold onKind
        cases hq : decodeCodec o name <;> simp [bind, Except.bind, hq])
  | outValue j =>
    exact Hinted.bindS (loadValue_hinted j) (g := fun d v => .ok { d with values := d.values ++ [v] })
      (fun v => (output_hinted [v] []).congr (fun d r => by simp))
  | outExpr j =>
    exact Hinted.bindS (loadExpr_hinted j) (g := fun d v => .ok { d with exprs := d.exprs ++ [v] })
      (fun v => (output_hinted [] [v]).congr (fun d r => by simp))
  | unset => exact (output_hinted [] []).congr (fun d r => by simp [onKind])

theorem HintedS.sound {f : Dec V A X E → Except (Err E) (Dec V A X E)} (hf : HintedS f) {d d0 d' : Dec V A X E}
    (hs : Same d d0) (h : f d = .ok d') : ∃ d0', f d0 = .ok d0' ∧ Same d' d0' ∧ d'.expected = d.expected := by
  obtain ⟨d0', h1, h2, h3⟩ := Hinted.sound hf d d0 d' () hs (bind_ok.2 ⟨_, h, rfl⟩)
  obtain ⟨d1, h4, h5⟩ := bind_ok.1 h1
  cases h5
  exact ⟨_, h4, h2, h3⟩

theorem HintedS.complete {f : Dec V A X E → Except (Err E) (Dec V A X E)} (hf : HintedS f) {d d0 d0' : Dec V A X E}
    (hs : Same d d0) (h : f d0 = .ok d0') (hfit : Fits d.expected d0') :
    ∃ d', f d = .ok d' ∧ Same d' d0' ∧ d'.expected = d.expected := by
  obtain ⟨d', h1, h2, h3⟩ := Hinted.complete hf d d0 d0' () hs (bind_ok.2 ⟨_, h, rfl⟩) hfit
  obtain ⟨d1, h4, h5⟩ := bind_ok.1 h1
  cases h5
  exact ⟨_, h4, h2, h3⟩

theorem HintedS.mono {f : Dec V A X E → Except (Err E) (Dec V A X E)} (hf : HintedS f) {d0 d0' : Dec V A X E}
    (hn : d0.expected = []) (h : f d0 = .ok d0') : Le d0 d0' :=
  Hinted.mono hf d0 d0' () hn (bind_ok.2 ⟨_, h, rfl⟩)

/-! ## Steps -/

theorem same_grow {d d0 : Dec V A X E} (hs : Same d d0) (i : Nat) : Same (grow d i) (grow d0 i) := by
  unfold grow
  rw [hs.len]
  by_cases h : i = d0.cells.length
  · rw [if_pos h, if_pos h]
    refine ⟨hs.nil, hs.codecs, hs.values, hs.exprs, by simp [hs.len], ?_⟩
    intro j c c0 hc hc0
    dsimp only at hc hc0 ⊢
    by_cases hj : j < d0.cells.length
    · rw [List.getElem?_append_left (by rw [hs.len]; exact hj)] at hc
      rw [List.getElem?_append_left hj] at hc0
      exact hs.cell j c c0 hc hc0
    · rw [List.getElem?_append_right (by rw [hs.len]; omega)] at hc
      rw [List.getElem?_append_right (by omega)] at hc0
      rw [hs.len, hc0] at hc
      cases hc
      refine ⟨rfl, rfl, Or.inl rfl⟩
  · rw [if_neg h, if_neg h]; exact hs

theorem grow_le {d : Dec V A X E} (h : d.expected = []) (i : Nat) : Le d (grow d i) := by
  unfold grow
  split
  · refine ⟨h, fun j c hc => ⟨c, ?_, Nat.le_refl _, id⟩⟩
    dsimp only
    rw [List.getElem?_append_left (List.getElem?_eq_some_iff.1 hc).1]
    exact hc
  · exact Le.refl h

theorem checks_sound : ∀ (is : List Nat) {d d' d0 : Dec V A X E}, Same d d0 → checks d is = .ok d' →
    Same d' d0 ∧ d'.expected = d.expected := by
  intro is
  induction is with
  | nil => intro d d' d0 hs h; cases h; exact ⟨hs, rfl⟩
  | cons i is ih =>
    intro d d' d0 hs h
    obtain ⟨d1, h1, h2⟩ := bind_ok.1 h
    obtain ⟨h3, h4⟩ := ih (check_sound hs h1) h2
    exact ⟨h3, by rw [h4, (check_expected h1).1]⟩

theorem checks_complete : ∀ (is : List Nat) {d d0 : Dec V A X E}, Same d d0 → (∀ i ∈ is, i < d.cells.length) →
    Fits d.expected d0 → ∃ d', checks d is = .ok d' := by
  intro is
  induction is with
  | nil => intro d d0 hs _ _; exact ⟨d, rfl⟩
  | cons i is ih =>
    intro d d0 hs hi hf
    obtain ⟨d1, h1⟩ := check_complete hs (hi i (by simp)) hf
    obtain ⟨h2, h3⟩ := check_expected h1
    obtain ⟨d2, h4⟩ := ih (check_sound hs h1) (fun j hj => by rw [h3]; exact hi j (by simp [hj])) (by rw [h2]; exact hf)
    exact ⟨d2, bind_ok.2 ⟨_, h1, h4⟩⟩

theorem same_expected {d d0 : Dec V A X E} (hs : Same d d0) (h : d.expected = []) (counts : List Nat) :
    Same { d with expected := counts } d0 := by
  refine ⟨hs.nil, hs.codecs, hs.values, hs.exprs, hs.len, ?_⟩
  intro i c c0 hc hc0
  obtain ⟨h1, h2, h3⟩ := hs.cell i c c0 hc hc0
  refine ⟨h1, h2, Or.inl ?_⟩
  rcases h3 with h3 | h3
  · exact h3
  · rw [h] at h3; simp at h3

theorem onHints_sound {d d' d0 : Dec V A X E} {h : Option (List Nat)} (hs : Same d d0) (hh : onHints d h = .ok d') :
    Same d' d0 := by
  cases h with
  | none => cases hh; exact hs
  | some counts =>
    unfold onHints processHints at hh
    dsimp only at hh
    split at hh
    · cases hh; exact hs
    · split at hh
      · cases hh
      · rename_i hn
        exact (checks_sound _ (same_expected hs (by simpa using hn) counts) hh).1

/-- One step with hints, against the same step without. -/
theorem onStep_sound (o : Opts V A X E) {d d' d0 : Dec V A X E} {i : Nat} {s : Step X} (hs : Same d d0)
    (h : onStep o d i s = .ok d') : ∃ d0', onStep o d0 i ⟨none, s.kind⟩ = .ok d0' ∧ Same d' d0' := by
  unfold onStep at h
  split at h
  · cases h
  rename_i hi
  obtain ⟨d1, h1, h2⟩ := bind_ok.1 h
  have h3 := onHints_sound (same_grow hs i) h1
  obtain ⟨d0', h4, h5, _⟩ := (onKind_hinted o i s.kind).sound h3 h2
  refine ⟨d0', ?_, h5⟩
  unfold onStep
  rw [if_neg (by rw [← hs.len]; exact hi)]
  exact bind_ok.2 ⟨_, rfl, h4⟩

theorem onSteps_sound (o : Opts V A X E) : ∀ (evs : List (Nat × Step X)) {d d' d0 : Dec V A X E}, Same d d0 →
    onSteps o d evs = .ok d' → ∃ d0', onSteps o d0 (evs.map (fun e => (e.1, ⟨none, e.2.kind⟩))) = .ok d0' ∧ Same d' d0' := by
  intro evs
  induction evs with
  | nil => intro d d' d0 hs h; cases h; exact ⟨d0, rfl, hs⟩
  | cons e evs ih =>
    intro d d' d0 hs h
    obtain ⟨d1, h1, h2⟩ := bind_ok.1 h
    obtain ⟨d01, h3, h4⟩ := onStep_sound o hs h1
    obtain ⟨d0', h5, h6⟩ := ih h4 h2
    exact ⟨d0', bind_ok.2 ⟨_, h3, h5⟩, h6⟩

theorem onStep_le (o : Opts V A X E) {d d' : Dec V A X E} {i : Nat} {s : Step X} (hn : d.expected = [])
    (hs : s.hints = none) (h : onStep o d i s = .ok d') : Le d d' := by
  unfold onStep at h
  rw [hs] at h
  split at h
  · cases h
  · obtain ⟨d1, h1, h2⟩ := bind_ok.1 h
    cases h1
    have hl := grow_le hn i
    exact hl.trans ((onKind_hinted o i s.kind).mono hl.1 h2)

theorem onSteps_le (o : Opts V A X E) : ∀ (evs : List (Nat × Step X)) {d d' : Dec V A X E}, d.expected = [] →
    (∀ e ∈ evs, e.2.hints = none) → onSteps o d evs = .ok d' → Le d d' := by
  intro evs
  induction evs with
  | nil => intro d d' hn _ h; cases h; exact Le.refl hn
  | cons e evs ih =>
    intro d d' hn hs h
    obtain ⟨d1, h1, h2⟩ := bind_ok.1 h
    have hl := onStep_le o hn (hs e (by simp)) h1
    exact hl.trans (ih hl.1 (fun e he => hs e (by simp [he])) h2)

/-- With large enough counts, which are given at most once, the run with hints succeeds. -/
theorem onSteps_complete (o : Opts V A X E) (counts : List Nat) : ∀ (evs : List (Nat × Step X)) {d d0 d0' : Dec V A X E},
    Same d d0 → (d.expected = counts ∧ hintsOf evs = [] ∨ d.expected = [] ∧ hintsOf evs = [counts]) →
    onSteps o d0 (evs.map (fun e => (e.1, ⟨none, e.2.kind⟩))) = .ok d0' → Fits counts d0' →
    ∃ d', onSteps o d evs = .ok d' ∧ Same d' d0' := by
  intro evs
  induction evs with
  | nil => intro d d0 d0' hs _ h _; cases h; exact ⟨d, rfl, hs⟩
  | cons e evs ih =>
    obtain ⟨i, s⟩ := e
    intro d d0 d0' hs hh h hf
    obtain ⟨d01, h1, h2⟩ := bind_ok.1 h
    have hle := onStep_le o hs.nil rfl h1
    have hle2 := onSteps_le o _ hle.1 (by intro e he; obtain ⟨e', _, rfl⟩ := List.mem_map.1 he; rfl) h2
    unfold onStep at h1
    dsimp only at h1
    split at h1
    · cases h1
    rename_i hi
    obtain ⟨dg, h3, h4⟩ := bind_ok.1 h1
    cases h3
    have hg := same_grow hs i
    have hgl := (onKind_hinted o i s.kind).mono hg.nil h4
    -- the hints of this step
    have key : ∃ d1, onHints (grow d i) s.hints = .ok d1 ∧ Same d1 (grow d0 i) ∧
        (d1.expected = counts ∧ hintsOf evs = [] ∨ d1.expected = [] ∧ hintsOf evs = [counts]) := by
      have hexp : (grow d i).expected = d.expected := by unfold grow; split <;> rfl
      cases hx : s.hints.filter (fun c => c ≠ []) with
      | none =>
        have : hintsOf ((i, s) :: evs) = hintsOf evs := by
          unfold hintsOf; rw [List.filterMap_cons]; dsimp only; rw [hx]
        rw [this] at hh
        exact ⟨_, hints_nil hx, hg, by rw [hexp]; exact hh⟩
      | some c =>
        have : hintsOf ((i, s) :: evs) = c :: hintsOf evs := by
          unfold hintsOf; rw [List.filterMap_cons]; dsimp only; rw [hx]
        rw [this] at hh
        rcases hh with ⟨_, hh⟩ | ⟨h5, hh⟩
        · cases hh
        · obtain ⟨rfl, hr⟩ := List.cons.inj hh
          have hc : s.hints = some c ∧ c ≠ [] := by
            cases hq : s.hints with
            | none => rw [hq] at hx; cases hx
            | some q =>
              rw [hq] at hx
              rw [Option.filter_eq_some_iff] at hx
              obtain ⟨h6, h7⟩ := hx
              cases h6
              exact ⟨rfl, by simpa using h7⟩
          have hse := same_expected hg (by rw [hexp]; exact h5) c
          obtain ⟨d1, hd1⟩ := checks_complete (List.range (min c.length (grow d i).cells.length)) hse
            (by intro j hj; rw [List.mem_range] at hj; dsimp only; omega) (hf.mono (hgl.trans hle2))
          obtain ⟨h8, h9⟩ := checks_sound _ hse hd1
          refine ⟨d1, ?_, h8, Or.inl ⟨h9, hr⟩⟩
          rw [hc.1]
          unfold onHints processHints
          dsimp only
          rw [if_neg hc.2, if_neg (by rw [hexp]; simp [h5])]
          exact hd1
    obtain ⟨d1, h5, h6, h7⟩ := key
    have hfit : Fits d1.expected d01 := by
      rcases h7 with h7 | h7
      · rw [h7.1]; exact hf.mono hle2
      · rw [h7.1]; intro j k c hk; simp at hk
    obtain ⟨d2, h8, h9, h10⟩ := (onKind_hinted o i s.kind).complete h6 h4 hfit
    obtain ⟨d3, h11, h12⟩ := ih h9 (by rw [h10]; exact h7) h2 hf
    refine ⟨d3, bind_ok.2 ⟨_, ?_, h11⟩, h12⟩
    unfold onStep
    rw [if_neg (by rw [hs.len]; exact hi)]
    exact bind_ok.2 ⟨_, h5, h8⟩

end Verif.Serial
