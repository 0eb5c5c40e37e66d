import Verif.LoopSig.LoopSigModel
import Verif.Sig.TextProps

/-!
# Properties of the fingerprints of while loops (C175)
-/

namespace Verif.LoopSig

open Verif.Sig

variable {V E : Type}

/-! ## Specification -/

/-- A signature without the default values: the name and the kind of each parameter and whether it has a default value. -/
def shape (s : Signature V) : List (List Nat × Kind × Bool) := s.params.map fun p => (p.name, p.kind, p.dflt.isSome)

/-- Well-formed, and without blanks at the ends of the policy. -/
structure Good (s : Signature V) : Prop where
  valid : Valid s
  name : Trimmed s.auxName
  opts : Trimmed s.auxOpts

/-! ## The text of a signature -/

theorem parseParam_shape {d : List Nat} {ds es : List V} {p q : Param V} {ds' es' : List V} (h1 : parseParam d ds = .ok (p, ds'))
    (h2 : parseParam d es = .ok (q, es')) : (p.name, p.kind, p.dflt.isSome) = (q.name, q.kind, q.dflt.isSome) := by
  unfold parseParam at h1 h2
  dsimp only at h1 h2
  generalize (if (strip d).head? = some star then stripLeading ((strip d).drop 1) else strip d) = x at h1 h2
  by_cases hx : x.getLast? = some equals
  · simp only [hx, if_true] at h1 h2
    cases ds <;> cases es <;> simp at h1 h2
    obtain ⟨rfl, _⟩ := h1; obtain ⟨rfl, _⟩ := h2; rfl
  · simp only [hx, if_false] at h1 h2
    simp at h1 h2
    obtain ⟨rfl, _⟩ := h1; obtain ⟨rfl, _⟩ := h2; rfl

theorem parseParams_shape : ∀ {ts : List (List Nat)} {ds es ds' es' : List V} {ps qs : List (Param V)}, parseParams ts ds = .ok (ps, ds') →
    parseParams ts es = .ok (qs, es') → ps.map (fun p => (p.name, p.kind, p.dflt.isSome)) = qs.map fun p => (p.name, p.kind, p.dflt.isSome) := by
  intro ts
  induction ts with
  | nil => intro ds es ds' es' ps qs h1 h2; simp only [parseParams, Except.ok.injEq, Prod.mk.injEq] at h1 h2; rw [← h1.1, ← h2.1]
  | cons t ts ih =>
    intro ds es ds' es' ps qs h1 h2
    unfold parseParams at h1 h2
    cases hp : parseParam t ds with
    | error e => simp [hp] at h1
    | ok r1 =>
      cases hq : parseParam t es with
      | error e => simp [hq] at h2
      | ok r2 =>
        obtain ⟨p, d1⟩ := r1
        obtain ⟨q, d2⟩ := r2
        simp only [hp] at h1
        simp only [hq] at h2
        cases h3 : parseParams ts d1 with
        | error e => simp [h3] at h1
        | ok r3 =>
          cases h4 : parseParams ts d2 with
          | error e => simp [h4] at h2
          | ok r4 =>
            obtain ⟨ps', _⟩ := r3
            obtain ⟨qs', _⟩ := r4
            simp only [h3, Except.ok.injEq, Prod.mk.injEq] at h1
            simp only [h4, Except.ok.injEq, Prod.mk.injEq] at h2
            rw [← h1.1, ← h2.1, List.map_cons, List.map_cons, parseParam_shape hp hq, ih h3 h4]

theorem make_shape {spec : List Nat} {ds es : List V} {s t : Signature V} (h1 : make spec ds = .ok s) (h2 : make spec es = .ok t) :
    shape s = shape t ∧ s.auxName = t.auxName ∧ s.auxOpts = t.auxOpts := by
  unfold make at h1 h2
  dsimp only at h1 h2
  split at h1
  · cases h1
  · rename_i ps ds' hp
    split at h2
    · cases h2
    · rename_i qs es' hq
      split at h1
      · cases h1
      · split at h2
        · cases h2
        · split at h1
          · cases h1
          · split at h2
            · cases h2
            · cases h1; cases h2
              exact ⟨parseParams_shape hp hq, rfl, rfl⟩

/-- The text of a signature tells all of it but the default values. -/
theorem showSpec_shape {s t : Signature V} (hs : Good s) (ht : Good t) (h : showSpec s = showSpec t) :
    shape s = shape t ∧ s.auxName = t.auxName ∧ s.auxOpts = t.auxOpts := by
  have h1 := make_show s hs.valid hs.name hs.opts
  have h2 := make_show t ht.valid ht.name ht.opts
  rw [h] at h1
  exact make_shape h1 h2

theorem no_defaults {s : Signature V} : s.defaults = [] ↔ ∀ x ∈ shape s, x.2.2 = false := by
  unfold Signature.defaults shape
  rw [List.filterMap_eq_nil_iff]
  simp

/-! ## Loops -/

/-- A loop is made exactly when it has a parameter and the three signatures have the same text. -/
theorem makeLoop_iff (name : List Nat) (sig : Signature V) (cond body : Operator V) (w : WhileOp V) :
    makeLoop name sig cond body = .ok w ↔
      sig.params ≠ [] ∧ showSpec sig = showSpec body.sig ∧ showSpec sig = showSpec cond.sig ∧ w = ⟨name, sig, cond, body⟩ := by
  unfold makeLoop
  by_cases h1 : sig.params = [] <;> by_cases h2 : showSpec sig = showSpec body.sig <;> by_cases h3 : showSpec sig = showSpec cond.sig <;>
    simp [h1, h2, h3, eq_comm (a := w)] <;> simp_all

/-- A loop takes the parameters of its condition and of its body: the same names and kinds, and a default value for the same parameters. -/
theorem loop_parameters {name : List Nat} {sig : Signature V} {cond body : Operator V} {w : WhileOp V} (hm : makeLoop name sig cond body = .ok w)
    (hs : Good sig) (hc : Good cond.sig) (hb : Good body.sig) : shape w.sig = shape cond.sig ∧ shape w.sig = shape body.sig := by
  obtain ⟨_, h2, h3, rfl⟩ := (makeLoop_iff ..).1 hm
  exact ⟨(showSpec_shape hs hc h3).1, (showSpec_shape hs hb h2).1⟩

/-- Loops with the same fingerprint have the same parameters, up to default values. -/
theorem fingerprint_shape {w u : WhileOp V} {n1 n2 : List Nat} {s1 s2 : Signature V} {c1 c2 b1 b2 : Operator V}
    (hw : makeLoop n1 s1 c1 b1 = .ok w) (hu : makeLoop n2 s2 c2 b2 = .ok u) (h1 : Good s1) (h2 : Good s2)
    (hc : c1.fp = c2.fp → c1 = c2) (hb : b1.fp = b2.fp → b1 = b2) (h : w.fingerprint = u.fingerprint) :
    shape w.sig = shape u.sig ∧ w.sig.auxName = u.sig.auxName ∧ w.sig.auxOpts = u.sig.auxOpts ∧ w.name = u.name ∧ w.cond = u.cond ∧ w.body = u.body := by
  obtain ⟨_, _, h3, rfl⟩ := (makeLoop_iff ..).1 hw
  obtain ⟨_, _, h4, rfl⟩ := (makeLoop_iff ..).1 hu
  simp only [WhileOp.fingerprint, Prod.mk.injEq] at h
  have hc := hc h.2.1
  have hb := hb h.2.2
  obtain ⟨h5, h6, h7⟩ := showSpec_shape h1 h2 (by rw [h3, h4, hc])
  exact ⟨h5, h6, h7, h.1, hc, hb⟩

/-- **C175.**  Loops with the same fingerprint bind arguments alike, if they have no default values.  Missing: default values, which are not part of the
fingerprint (`fingerprint_counterexample`). -/
theorem same_fingerprint_partial {w u : WhileOp V} {n1 n2 : List Nat} {s1 s2 : Signature V} {c1 c2 b1 b2 : Operator V}
    (hw : makeLoop n1 s1 c1 b1 = .ok w) (hu : makeLoop n2 s2 c2 b2 = .ok u) (h1 : Good s1) (h2 : Good s2)
    (hc : c1.fp = c2.fp → c1 = c2) (hb : b1.fp = b2.fp → b1 = b2) (h : w.fingerprint = u.fingerprint) (hd : w.sig.defaults = []) :
    w = u ∧ ∀ (lit : V → E) (args : List E) (kw : List (List Nat × E)), bindArguments lit w.sig args kw = bindArguments lit u.sig args kw := by
  obtain ⟨h3, h4, h5, h6, h7, h8⟩ := fingerprint_shape hw hu h1 h2 hc hb h
  have hd' : u.sig.defaults = [] := by rw [no_defaults, ← h3, ← no_defaults]; exact hd
  obtain ⟨_, _, h9, rfl⟩ := (makeLoop_iff ..).1 hw
  obtain ⟨_, _, h10, rfl⟩ := (makeLoop_iff ..).1 hu
  dsimp only at *
  subst h6; subst h7; subst h8
  have hsig : s1 = s2 :=
    show_injective s1 s2 h1.valid h2.valid h1.name h1.opts h2.name h2.opts (by rw [h9, h10]) (by rw [hd, hd'])
  subst hsig
  exact ⟨rfl, fun _ _ _ => rfl⟩

/-- Lambda operators, on the other hand, have the same signature if they have the same fingerprint. -/
theorem lambda_signature {s t : Signature V} (h : sigFingerprint s = sigFingerprint t) : s = t := by
  obtain ⟨ps, n, o⟩ := s
  obtain ⟨qs, m, r⟩ := t
  simp only [sigFingerprint, Prod.mk.injEq] at h
  obtain ⟨_, hp, rfl, rfl⟩ := h
  have : ps = qs := by
    refine (List.map_inj_right (f := fun p : Param V => (p.name, p.kind, p.dflt)) ?_).1 hp
    rintro ⟨a, b, c⟩ ⟨d, e, f⟩ h
    simp only [Prod.mk.injEq] at h
    simp [h.1, h.2.1, h.2.2]
  rw [this]

/-! ## Examples -/

/-- `x, y=v`. -/
def exSig (v : Nat) : Signature Nat := ⟨[⟨[120], none, .positional⟩, ⟨[121], some v, .positional⟩], [], []⟩

theorem exGood (v : Nat) : Good (exSig v) :=
  ⟨validate_iff'.1 rfl, ⟨by simp [exSig], by simp [exSig]⟩, ⟨by simp [exSig], by simp [exSig]⟩⟩

def exOp (n : Nat) : Operator Nat := ⟨n, exSig 3⟩

def exLoop (v : Nat) : WhileOp Nat := ⟨[108], exSig v, exOp 1, exOp 2⟩

theorem exMake (v : Nat) : makeLoop [108] (exSig v) (exOp 1) (exOp 2) = .ok (exLoop v) := rfl

/-- Two loops with the same condition and body whose second parameter has the default values 5 and 6: both are made, they have the same fingerprint, and
the same call gives them different arguments. -/
theorem fingerprint_counterexample :
    makeLoop [108] (exSig 5) (exOp 1) (exOp 2) = .ok (exLoop 5) ∧ makeLoop [108] (exSig 6) (exOp 1) (exOp 2) = .ok (exLoop 6) ∧
    Good (exSig 5) ∧ Good (exSig 6) ∧ (exLoop 5).fingerprint = (exLoop 6).fingerprint ∧
    bindArguments id (exLoop 5).sig [1] [] = .ok [1, 5] ∧ bindArguments id (exLoop 6).sig [1] [] = .ok [1, 6] :=
  ⟨exMake 5, exMake 6, exGood 5, exGood 6, rfl, rfl, rfl⟩

/-- `x, *y`: no default values. -/
def exPlain : Signature Nat := ⟨[⟨[120], none, .positional⟩, ⟨[121], none, .variadic⟩], [97], [98]⟩

example : Good exPlain := ⟨validate_iff'.1 rfl, ⟨by simp [exPlain, Blank], by simp [exPlain, Blank]⟩,
  ⟨by simp [exPlain, Blank], by simp [exPlain, Blank]⟩⟩

example : exPlain.defaults = [] ∧ (∃ w, makeLoop [108] exPlain ⟨1, exPlain⟩ ⟨2, exPlain⟩ = .ok w ∧ w.sig = exPlain) := ⟨rfl, _, rfl, rfl⟩

example : makeLoop [108] exPlain (exOp 1) ⟨2, exPlain⟩ = .error .conditionSignature := rfl

example : makeLoop [108] (⟨[], [], []⟩ : Signature Nat) (exOp 1) (exOp 2) = .error .noParameters := rfl

end Verif.LoopSig
