import Verif.Serial.DecLemmas
import Verif.Expr.VisitorProps

/-!
# The steps written by the encoder rebuild what was encoded
-/

namespace Verif.Serial
open Verif.Expr
variable {V A X E : Type}

/-- The events of a list of steps. -/
def indexed (steps : List (Step X)) : List (Nat × Kind X) := kinds (steps.zipIdx.map (fun e => (e.2, e.1)))

theorem indexed_snoc (steps : List (Step X)) (x : Step X) : indexed (steps ++ [x]) = indexed steps ++ [(steps.length, x.kind)] := by
  simp [indexed, kinds, List.zipIdx_append]

theorem run_append (o : Opts V A X E) : ∀ (l l' : List (Nat × Kind X)) (s : Store V A X E),
    s.run o (l ++ l') = (s.run o l).bind (fun t => t.run o l') := by
  intro l
  induction l with
  | nil => intro l' s; rfl
  | cons e l ih =>
    obtain ⟨i, k⟩ := e
    intro l' s
    show (do (← s.step o i k).run o (l ++ l')) = Option.bind (do (← s.step o i k).run o l) _
    cases s.step o i k with
    | none => rfl
    | some t => exact ih l' t

/-- A store with one more cell. -/
def Store.push (s : Store V A X E) (x : Option (VoE V A)) (c : Option (Codec V A X E)) : Store V A X E :=
  { s with cells := s.cells ++ [(x, c)] }

/-- Whatever can be read from `s` can be read from `t`. -/
structure Store.Le (s t : Store V A X E) : Prop where
  value : ∀ i v, s.value? i = some v → t.value? i = some v
  expr : ∀ i e, s.expr? i = some e → t.expr? i = some e
  codec : ∀ i c, s.codec? i = some c → t.codec? i = some c

theorem Store.Le.refl (s : Store V A X E) : s.Le s := ⟨fun _ _ h => h, fun _ _ h => h, fun _ _ h => h⟩

theorem Store.Le.trans {a b c : Store V A X E} (h : a.Le b) (h' : b.Le c) : a.Le c :=
  ⟨fun i v x => h'.value i v (h.value i v x), fun i v x => h'.expr i v (h.expr i v x), fun i v x => h'.codec i v (h.codec i v x)⟩

theorem le_of_cells {s t : Store V A X E} (h : ∀ (i : Nat) (c : Option (VoE V A) × Option (Codec V A X E)), s.cells[i]? = some c → t.cells[i]? = some c) : s.Le t := by
  refine ⟨fun i v hv => ?_, fun i v hv => ?_, fun i v hv => ?_⟩
  · unfold Store.value? at hv ⊢
    split at hv
    · rename_i c hc
      rw [h _ _ hc]
      exact hv
    · cases hv
  · unfold Store.expr? at hv ⊢
    split at hv
    · rename_i c hc
      rw [h _ _ hc]
      exact hv
    · cases hv
  · unfold Store.codec? at hv ⊢
    split at hv
    · rename_i c hc
      rw [h _ _ hc]
      exact hv
    · cases hv

theorem le_push (s : Store V A X E) (x : Option (VoE V A)) (c : Option (Codec V A X E)) : s.Le (s.push x c) :=
  le_of_cells (fun i c hc => by
    unfold Store.push
    dsimp only
    rw [List.getElem?_append_left (List.getElem?_eq_some_iff.1 hc).1]
    exact hc)

theorem push_last (s : Store V A X E) (x : Option (VoE V A)) (c : Option (Codec V A X E)) :
    (s.push x c).cells[s.cells.length]? = some (x, c) := by
  simp [Store.push]

theorem push_write (s : Store V A X E) (x : VoE V A) : (s.push none none).write s.cells.length x = some (s.push (some x) none) := by
  unfold Store.write
  rw [push_last]
  simp [Store.push, List.set_append_right]

theorem push_writeCodec (s : Store V A X E) (c : Codec V A X E) : (s.push none none).writeCodec s.cells.length c =
    some { s.push none (some c) with codecs := s.codecs ++ [c] } := by
  unfold Store.writeCodec
  rw [push_last]
  simp [Store.push, List.set_append_right]

theorem step_new (o : Opts V A X E) (s : Store V A X E) (k : Kind X) :
    s.step o s.cells.length k = (s.push none none).apply o s.cells.length k := by
  unfold Store.step
  rw [if_neg (Nat.lt_irrefl _), if_pos rfl]
  rfl

theorem mapM_mono {α β : Type} {f g : α → Option β} (h : ∀ x y, f x = some y → g x = some y) :
    ∀ (l : List α) (ys : List β), l.mapM f = some ys → l.mapM g = some ys := by
  intro l
  induction l with
  | nil => intro ys hy; exact hy
  | cons x l ih =>
    intro ys hy
    rw [List.mapM_cons] at hy ⊢
    cases hx : f x with
    | none => rw [hx] at hy; cases hy
    | some y =>
      rw [hx] at hy
      rw [h x y hx]
      cases hl : l.mapM f with
      | none => rw [hl] at hy; cases hy
      | some zs =>
        rw [hl] at hy
        rw [ih zs hl]
        exact hy

/-- The encoder is consistent with the store that results from its steps. -/
structure Good (o : Opts V A X E) (s : Enc V A X) (st : Store V A X E) : Prop where
  run : Store.init.run o (indexed s.steps) = some st
  lens : st.cells.length = s.steps.length ∧ ∀ k ∈ s.steps, k.hints = none
  values : ∀ v i, (v, i) ∈ s.values → st.value? i = some v
  exprs : ∀ e i, (e, i) ∈ s.exprs → st.expr? i = some e
  codecs : ∀ n i, (n, i) ∈ s.codecs → ∃ f dec, o.provider = some f ∧ f n = .ok dec ∧ st.codec? i = some ⟨n, dec⟩

theorem Good.len {o : Opts V A X E} {s : Enc V A X} {st : Store V A X E} (h : Good o s st) :
    st.cells.length = s.steps.length := h.lens.1

/-- The encoder has written further steps, none of them outputs. -/
structure Grows (o : Opts V A X E) (s : Enc V A X) (st : Store V A X E) (s' : Enc V A X) (st' : Store V A X E) : Prop where
  good : Good o s' st'
  le : st.Le st'
  nesting : s'.nesting = s.nesting
  outV : st'.values = st.values
  outE : st'.exprs = st.exprs

theorem Grows.refl {o : Opts V A X E} {s : Enc V A X} {st : Store V A X E} (h : Good o s st) : Grows o s st s st :=
  ⟨h, Store.Le.refl _, rfl, rfl, rfl⟩

theorem Grows.trans {o : Opts V A X E} {a b c : Enc V A X} {x y z : Store V A X E} (h : Grows o a x b y)
    (h' : Grows o b y c z) : Grows o a x c z :=
  ⟨h'.good, h.le.trans h'.le, h'.nesting.trans h.nesting, h'.outV.trans h.outV, h'.outE.trans h.outE⟩

/-- Only `nesting_` changes. -/
theorem Good.nest {o : Opts V A X E} {s : Enc V A X} {st : Store V A X E} (h : Good o s st) (n : Nat) :
    Good o { s with nesting := n } st := ⟨h.run, h.lens, h.values, h.exprs, h.codecs⟩

theorem Good.add {o : Opts V A X E} {s : Enc V A X} {st st' : Store V A X E} (h : Good o s st) {k : Kind X}
    (hs : st.step o st.cells.length k = some st') (hle : st.Le st') (hlen : st'.cells.length = st.cells.length + 1) :
    Good o (s.add k) st' := by
  refine ⟨?_, ⟨by simp [Enc.add, hlen, h.len], ?_⟩, fun v i hv => hle.value _ _ (h.values v i hv),
    fun v i hv => hle.expr _ _ (h.exprs v i hv), fun n i hn => ?_⟩
  · unfold Enc.add
    dsimp only
    rw [indexed_snoc, run_append, h.run]
    show (do (← st.step o s.steps.length k).run o []) = _
    rw [← h.len, hs]
    rfl
  · intro x hx
    rcases List.mem_append.1 hx with h1 | h1
    · exact h.lens.2 x h1
    · rw [List.mem_singleton.1 h1]
  · obtain ⟨f, dec, h1, h2, h3⟩ := h.codecs n i hn
    exact ⟨f, dec, h1, h2, hle.codec _ _ h3⟩

theorem step_value {o : Opts V A X E} {st : Store V A X E} {p : VProto X} {vs : List V} {es : List (Ex V A)} {j : Nat}
    {c : Codec V A X E} {v : V} (hv : p.inputValues.mapM st.value? = some vs) (he : p.inputExprs.mapM st.expr? = some es)
    (hj : p.codec = some j) (hc : st.codec? j = some c) (hd : c.dec p vs es = .ok (some v)) :
    st.step o st.cells.length (.value p) = some (st.push (some (.val v)) none) := by
  have hle := le_push st none none
  rw [step_new]
  simp only [Store.apply]
  rw [mapM_mono hle.value _ _ hv, mapM_mono hle.expr _ _ he, hj]
  simp [hle.codec _ _ hc, hd, firstExt, push_write]

theorem step_literal {o : Opts V A X E} {st : Store V A X E} {j : Nat} {v : V} (hv : st.value? j = some v) :
    st.step o st.cells.length (.literal (some j)) =
      some (st.push (some (.expr (.mk (.literal v) (o.lang.litAttr v) []))) none) := by
  have hle := le_push st none none
  rw [step_new]
  simp [Store.apply, hle.value _ _ hv, push_write]

theorem step_op {o : Opts V A X E} (hi : o.infer = true) {st : Store V A X E} {j : Nat} {w : V} {is : List Nat}
    {ds : List (Ex V A)} {a : A} (hv : st.value? j = some w) (ho : o.isOp w = true) (hd : is.mapM st.expr? = some ds)
    (ha : o.lang.infer w (ds.map Expr.attr) = .ok a) :
    st.step o st.cells.length (.op (some j) is) = some (st.push (some (.expr (.mk (.op w) a ds))) none) := by
  have hle := le_push st none none
  rw [step_new]
  simp only [Store.apply]
  rw [hle.value _ _ hv, mapM_mono hle.expr _ _ hd]
  simp [ho, opNode, hi, ha, push_write]

theorem step_codec {o : Opts V A X E} {st : Store V A X E} {n : List Nat} {f : List Nat → Except E (VDec V A X E)}
    {dec : VDec V A X E} (hf : o.provider = some f) (hd : f n = .ok dec) :
    st.step o st.cells.length (.codec n) = some { st.push none (some ⟨n, dec⟩) with codecs := st.codecs ++ [⟨n, dec⟩] } := by
  rw [step_new]
  simp only [Store.apply]
  rw [hf]
  simp [hd, push_writeCodec]

theorem value_push (st : Store V A X E) (v : V) (c : Option (Codec V A X E)) :
    (st.push (some (.val v)) c).value? st.cells.length = some v := by
  unfold Store.value?; rw [push_last]

theorem expr_push (st : Store V A X E) (e : Ex V A) (c : Option (Codec V A X E)) :
    (st.push (some (.expr e)) c).expr? st.cells.length = some e := by
  unfold Store.expr?; rw [push_last]

theorem push_len (st : Store V A X E) (x : Option (VoE V A)) (c : Option (Codec V A X E)) :
    (st.push x c).cells.length = st.cells.length + 1 := by simp [Store.push]

theorem assoc_mem {K : Type} [DecidableEq K] {m : List (K × Nat)} {k : K} {i : Nat} (h : assoc m k = some i) : (k, i) ∈ m := by
  unfold assoc at h
  cases hf : m.find? (fun e => decide (e.1 = k)) with
  | none => rw [hf] at h; cases h
  | some e =>
    rw [hf] at h
    simp at h
    have h1 := List.find?_some hf
    have h2 := List.mem_of_find?_eq_some hf
    simp at h1
    subst h1 h
    exact h2

section
variable [DecidableEq V] [DecidableEq A]

/-- What is expected of an argument. -/
def ItemOk (o : Opts V A X E) : Item V A → Prop
  | .expr (some e) => Valid o e
  | _ => True

/-- The cell at an index holds the argument. -/
def Holds (st : Store V A X E) (i : Nat) : Item V A → Prop
  | .value v => st.value? i = some v
  | .expr (some e) => st.expr? i = some e
  | .expr none => False

theorem Holds.mono {st st' : Store V A X E} (h : st.Le st') {i : Nat} {x : Item V A} (hx : Holds st i x) : Holds st' i x := by
  cases x with
  | value v => exact h.value _ _ hx
  | expr e =>
    cases e with
    | none => exact hx
    | some e => exact h.expr _ _ hx

/-- A method that encodes arguments correctly when it is called by a value encoder. -/
def SoundRec (o : Opts V A X E) (rec : Item V A → Enc V A X → Res V A X E Nat) : Prop :=
  ∀ x s st s' r, Good o s st → 0 < s.nesting → ItemOk o x → rec x s = some (s', r) →
    ∃ st', Grows o s st s' st' ∧ ∀ i, r = .ok i → Holds st' i x

theorem encodeCodec_sound {o : Opts V A X E} {s : Enc V A X} {st : Store V A X E} (hg : Good o s st) {n : List Nat}
    {f : List Nat → Except E (VDec V A X E)} {dec : VDec V A X E} (hf : o.provider = some f) (hd : f n = .ok dec) :
    ∃ st', Grows o s st (encodeCodec s n).1 st' ∧ st'.codec? (encodeCodec s n).2 = some ⟨n, dec⟩ := by
  unfold encodeCodec
  cases ha : assoc s.codecs n with
  | some i =>
    refine ⟨st, Grows.refl hg, ?_⟩
    obtain ⟨f', dec', h1, h2, h3⟩ := hg.codecs n i (assoc_mem ha)
    rw [hf] at h1
    cases h1
    rw [hd] at h2
    cases h2
    exact h3
  | none =>
    have hle : st.Le { st.push none (some ⟨n, dec⟩) with codecs := st.codecs ++ [⟨n, dec⟩] } := by
      have := le_push st none (some ⟨n, dec⟩)
      exact ⟨this.value, this.expr, this.codec⟩
    have hnew : Store.codec? { st.push none (some ⟨n, dec⟩) with codecs := st.codecs ++ [⟨n, dec⟩] } s.steps.length =
        some ⟨n, dec⟩ := by
      unfold Store.codec?
      rw [← hg.len]
      dsimp only
      rw [push_last]
    have hadd := hg.add (step_codec hf hd) hle (by simp [Store.push])
    refine ⟨_, ⟨⟨hadd.run, hadd.lens, hadd.values, hadd.exprs, ?_⟩, hle, rfl, rfl, rfl⟩, hnew⟩
    intro m i hm
    rcases List.mem_cons.1 hm with h | h
    · cases h
      exact ⟨f, dec, hf, hd, hnew⟩
    · exact hadd.codecs m i h

theorem encodeParts_sound {o : Opts V A X E} {rec : Item V A → Enc V A X → Res V A X E Nat} (hr : SoundRec o rec) :
    ∀ (ps : List (Item V A)) (s : Enc V A X) (st : Store V A X E) (s' : Enc V A X) (r), Good o s st → 0 < s.nesting →
      (∀ x ∈ ps, ItemOk o x) → encodeParts rec ps s = some (s', r) →
      ∃ st', Grows o s st s' st' ∧ ∀ vs es, r = .ok (vs, es) →
        vs.mapM st'.value? = some (valuesOf ps) ∧ es.mapM st'.expr? = some (exprsOf ps) := by
  intro ps
  induction ps with
  | nil =>
    intro s st s' r hg _ _ h
    cases h
    refine ⟨st, Grows.refl hg, ?_⟩
    intro vs es h
    cases h
    exact ⟨rfl, rfl⟩
  | cons p ps ih =>
    intro s st s' r hg hn ho h
    simp only [encodeParts] at h
    rcases h1 : rec p s with _ | ⟨s1, e | i⟩
    · rw [h1] at h; cases h
    · rw [h1] at h
      cases h
      obtain ⟨st', h2, _⟩ := hr p s st _ _ hg hn (ho p (by simp)) h1
      exact ⟨st', h2, by intro vs es h; cases h⟩
    · rw [h1] at h
      obtain ⟨st1, h2, h3⟩ := hr p s st _ _ hg hn (ho p (by simp)) h1
      dsimp only at h
      rcases h4 : encodeParts rec ps s1 with _ | ⟨s2, e | ⟨vs, es⟩⟩
      · rw [h4] at h; cases h
      · rw [h4] at h
        cases h
        obtain ⟨st2, h5, _⟩ := ih s1 st1 _ _ h2.good (by rw [h2.nesting]; exact hn) (fun x hx => ho x (by simp [hx])) h4
        exact ⟨st2, h2.trans h5, by intro vs es h; cases h⟩
      · rw [h4] at h
        obtain ⟨st2, h5, h6⟩ := ih s1 st1 _ _ h2.good (by rw [h2.nesting]; exact hn) (fun x hx => ho x (by simp [hx])) h4
        obtain ⟨h7, h8⟩ := h6 vs es rfl
        have h9 := (h3 i rfl).mono h5.le
        cases p with
        | value v =>
          cases h
          refine ⟨st2, h2.trans h5, ?_⟩
          intro vs' es' h
          cases h
          have h9 : st2.value? i = some v := h9
          refine ⟨?_, by simpa [exprsOf] using h8⟩
          rw [List.mapM_cons, h9, h7]
          simp [valuesOf]
        | expr e =>
          cases h
          refine ⟨st2, h2.trans h5, ?_⟩
          intro vs' es' h
          cases h
          cases e with
          | none => exact h9.elim
          | some e =>
            have h9 : st2.expr? i = some e := h9
            refine ⟨by simpa [valuesOf] using h7, ?_⟩
            rw [List.mapM_cons, h9, h8]
            simp [exprsOf]

theorem valueIndex_sound {o : Opts V A X E} {plan : V → Plan V A X E} (hl : Lawful o plan)
    {rec : Item V A → Enc V A X → Res V A X E Nat} (hr : SoundRec o rec) {v : V} {s s' : Enc V A X} {st : Store V A X E} {r}
    (hg : Good o s st) (h : valueIndex plan rec v s = some (s', r)) :
    ∃ st', Grows o s st s' st' ∧ ∀ i, r = .ok i → st'.value? i = some v := by
  unfold valueIndex at h
  cases ha : assoc s.values v with
  | some i =>
    rw [ha] at h
    cases h
    refine ⟨st, Grows.refl hg, ?_⟩
    intro j hj
    cases hj
    exact hg.values v i (assoc_mem ha)
  | none =>
    rw [ha] at h
    dsimp only at h
    unfold runPlan at h
    cases hc : (plan v).codec with
    | error e =>
      rw [hc] at h
      cases h
      exact ⟨st, ⟨hg.nest _, Store.Le.refl _, rfl, rfl, rfl⟩, by intro i h; cases h⟩
    | ok name =>
      rw [hc] at h
      dsimp only at h
      obtain ⟨f, dec, hf, hd, hinv⟩ := hl.inverse v name hc
      obtain ⟨st1, h1, h2⟩ := encodeCodec_sound (hg.nest (s.nesting + 1)) hf hd
      rcases hs1 : encodeCodec { s with nesting := s.nesting + 1 } name with ⟨s1, c⟩
      rw [hs1] at h h1 h2
      dsimp only at h h1 h2
      have hn1 : 0 < s1.nesting := by rw [h1.nesting]; exact Nat.succ_pos _
      rcases h4 : encodeParts rec (plan v).parts s1 with _ | ⟨s2, r2⟩
      · rw [h4] at h; cases h
      · obtain ⟨st2, h5, h6⟩ := encodeParts_sound hr (plan v).parts s1 st1 s2 r2 h1.good hn1
          (by intro x hx
              cases x with
              | value w => exact trivial
              | expr e =>
                cases e with
                | none => exact trivial
                | some e => exact hl.valid v e hx) h4
        have hn2 : s2.nesting = s.nesting + 1 := h5.nesting.trans h1.nesting
        rw [h4] at h
        have herr : ∃ st', Grows o s st { s2 with nesting := s2.nesting - 1 } st' :=
          ⟨st2, h5.good.nest _, h1.le.trans h5.le, by simp [hn2], h5.outV.trans h1.outV, h5.outE.trans h1.outE⟩
        cases r2 with
        | error e =>
          cases h
          obtain ⟨st', h⟩ := herr
          exact ⟨st', h, by intro i h; cases h⟩
        | ok ve =>
          obtain ⟨vs, es⟩ := ve
          dsimp only at h
          cases hx : (plan v).ext with
          | error e =>
            rw [hx] at h
            cases h
            obtain ⟨st', h⟩ := herr
            exact ⟨st', h, by intro i h; cases h⟩
          | ok x =>
            rw [hx] at h
            cases h
            obtain ⟨h7, h8⟩ := h6 vs es rfl
            have h9 := hinv ⟨vs, es, some c, x⟩ hx
            have hstep := step_value (o := o) (p := ⟨vs, es, some c, x⟩) h7 h8 rfl (h5.le.codec _ _ h2) h9
            have hadd := h5.good.add hstep (le_push _ _ _) (push_len _ _ _)
            have hnew : (st2.push (some (.val v)) none).value? s2.steps.length = some v := by
              rw [← h5.good.len]; exact value_push _ _ _
            refine ⟨_, ⟨⟨hadd.run, hadd.lens, ?_, hadd.exprs, hadd.codecs⟩, (h1.le.trans h5.le).trans (le_push _ _ _),
              by simp [Enc.add, hn2], h5.outV.trans h1.outV, h5.outE.trans h1.outE⟩, ?_⟩
            · intro w i hw
              rcases List.mem_cons.1 hw with h | h
              · cases h; exact hnew
              · exact hadd.values w i h
            · intro i hi
              cases hi
              exact hnew

theorem addExpr_sound {o : Opts V A X E} {s : Enc V A X} {st : Store V A X E} (hg : Good o s st) {n : Ex V A} {k : Kind X}
    (hs : st.step o st.cells.length k = some (st.push (some (.expr n)) none)) :
    Grows o s st (addExpr s n k) (st.push (some (.expr n)) none) := by
  have hadd := hg.add hs (le_push _ _ _) (push_len _ _ _)
  refine ⟨⟨hadd.run, hadd.lens, hadd.values, ?_, hadd.codecs⟩, le_push _ _ _, rfl, rfl, rfl⟩
  intro w i hw
  rcases List.mem_cons.1 hw with h | h
  · cases h
    show (st.push (some (.expr n)) none).expr? s.steps.length = some n
    rw [← hg.len]
    exact expr_push _ _ _
  · exact hadd.exprs w i h

theorem depIndices_sound {o : Opts V A X E} {s : Enc V A X} {st : Store V A X E} (hg : Good o s st) :
    ∀ (ds : List (Ex V A)) (is : List Nat), depIndices s ds = some is → is.mapM st.expr? = some ds := by
  intro ds
  induction ds with
  | nil => intro is h; cases h; rfl
  | cons d ds ih =>
    intro is h
    simp only [depIndices] at h
    cases ha : assoc s.exprs d with
    | none => rw [ha] at h; cases h
    | some i =>
      rw [ha] at h
      dsimp only at h
      cases hd : depIndices s ds with
      | none => rw [hd] at h; cases h
      | some is' =>
        rw [hd] at h
        cases h
        rw [List.mapM_cons, hg.exprs d i (assoc_mem ha), ih is' hd]
        rfl

theorem encodeNode_sound {o : Opts V A X E} (hi : o.infer = true) {rec : Item V A → Enc V A X → Res V A X E Nat}
    (hr : SoundRec o rec) {n : Ex V A} (hv : Valid o n) {s s' : Enc V A X} {st : Store V A X E} {r} (hg : Good o s st)
    (hn : 0 < s.nesting) (h : encodeNode rec n s = some (s', r)) : ∃ st', Grows o s st s' st' := by
  unfold encodeNode at h
  split at h
  · cases h; exact ⟨st, Grows.refl hg⟩
  · obtain ⟨hwf, hop⟩ := hv
    cases hwf with
    | leaf k =>
      simp only [Expr.label] at h
      cases h
      refine ⟨_, addExpr_sound hg ?_⟩
      rw [step_new]
      simp [Store.apply, push_write]
    | placeholder k =>
      simp only [Expr.label] at h
      cases h
      refine ⟨_, addExpr_sound hg ?_⟩
      rw [step_new]
      simp [Store.apply, push_write]
    | literal v =>
      simp only [Expr.label] at h
      rcases h1 : rec (.value v) s with _ | ⟨s1, e | i⟩
      · rw [h1] at h; cases h
      · rw [h1] at h
        cases h
        obtain ⟨st', h2, _⟩ := hr (.value v) s st _ _ hg hn trivial h1
        exact ⟨st', h2⟩
      · rw [h1] at h
        cases h
        obtain ⟨st1, h2, h3⟩ := hr (.value v) s st _ _ hg hn trivial h1
        exact ⟨_, h2.trans (addExpr_sound h2.good (step_literal (h3 i rfl)))⟩
    | op w a ds hds ha =>
      simp only [Expr.label] at h
      rcases h1 : rec (.value w) s with _ | ⟨s1, e | i⟩
      · rw [h1] at h; cases h
      · rw [h1] at h
        cases h
        obtain ⟨st', h2, _⟩ := hr (.value w) s st _ _ hg hn trivial h1
        exact ⟨st', h2⟩
      · rw [h1] at h
        dsimp only at h
        obtain ⟨st1, h2, h3⟩ := hr (.value w) s st _ _ hg hn trivial h1
        cases hd : depIndices s1 (Expr.mk (.op w) a ds).deps with
        | none => rw [hd] at h; cases h; exact ⟨st1, h2⟩
        | some is =>
          rw [hd] at h
          cases h
          have hds' := depIndices_sound h2.good _ _ hd
          exact ⟨_, h2.trans (addExpr_sound h2.good
            (step_op hi (h3 i rfl) (hop _ w (.refl _) rfl) hds' ha))⟩

theorem encodeNodes_sound {o : Opts V A X E} (hi : o.infer = true) {rec : Item V A → Enc V A X → Res V A X E Nat}
    (hr : SoundRec o rec) : ∀ (ns : List (Ex V A)) (s : Enc V A X) (st : Store V A X E) (s' : Enc V A X) (r), Good o s st →
    0 < s.nesting → (∀ n ∈ ns, Valid o n) → encodeNodes rec ns s = some (s', r) → ∃ st', Grows o s st s' st' := by
  intro ns
  induction ns with
  | nil => intro s st s' r hg _ _ h; cases h; exact ⟨st, Grows.refl hg⟩
  | cons n ns ih =>
    intro s st s' r hg hn hv h
    simp only [encodeNodes] at h
    rcases h1 : encodeNode rec n s with _ | ⟨s1, e | i⟩
    · rw [h1] at h; cases h
    · rw [h1] at h
      cases h
      exact encodeNode_sound hi hr (hv n (by simp)) hg hn h1
    · rw [h1] at h
      obtain ⟨st1, h2⟩ := encodeNode_sound hi hr (hv n (by simp)) hg hn h1
      obtain ⟨st2, h3⟩ := ih s1 st1 _ _ h2.good (by rw [h2.nesting]; exact hn) (fun m hm => hv m (by simp [hm])) h
      exact ⟨st2, h2.trans h3⟩

theorem WF.sub {G : Lang V V A E} {n e : Ex V A} (h : Sub n e) : WF G e → WF G n := by
  induction h with
  | refl => exact id
  | dep _ hd ih =>
    intro hw
    apply ih
    cases hw with
    | leaf k => cases hd
    | placeholder k => cases hd
    | literal k => cases hd
    | op o a ds hds _ => exact hds _ hd

theorem Valid.sub {o : Opts V A X E} {n e : Ex V A} (h : Sub n e) (hv : Valid o e) : Valid o n :=
  ⟨WF.sub h hv.1, fun m w hm hl => hv.2 m w (hm.trans h) hl⟩

theorem visitorOrder_spec (e : Ex V A) : ∃ nodes, visitorOrder e = some nodes ∧ ∀ n, n ∈ nodes ↔ Sub n e := by
  obtain ⟨po, h1, h2⟩ := visitor_order e
  obtain ⟨po', h3, _, h5, _⟩ := post_order e
  rw [h1] at h3
  cases h3
  exact ⟨_, h2, h5⟩

theorem exprIndex_sound {o : Opts V A X E} (hi : o.infer = true) {rec : Item V A → Enc V A X → Res V A X E Nat}
    (hr : SoundRec o rec) {e : Ex V A} (hv : Valid o e) {s s' : Enc V A X} {st : Store V A X E} {r} (hg : Good o s st)
    (h : exprIndex rec e s = some (s', r)) : ∃ st', Grows o s st s' st' ∧ ∀ i, r = .ok i → st'.expr? i = some e := by
  unfold exprIndex at h
  cases ha : assoc s.exprs e with
  | some i =>
    rw [ha] at h
    cases h
    refine ⟨st, Grows.refl hg, ?_⟩
    intro j hj
    cases hj
    exact hg.exprs e i (assoc_mem ha)
  | none =>
    rw [ha] at h
    obtain ⟨nodes, hn1, hn2⟩ := visitorOrder_spec e
    rw [hn1] at h
    dsimp only at h
    rcases h1 : encodeNodes rec nodes { s with nesting := s.nesting + 1 } with _ | ⟨s1, r1⟩
    · rw [h1] at h; cases h
    · obtain ⟨st1, h2⟩ := encodeNodes_sound hi hr nodes _ st s1 r1 (hg.nest _) (Nat.succ_pos _)
        (fun n hn => hv.sub ((hn2 n).1 hn)) h1
      rw [h1] at h
      have hgr : Grows o s st { s1 with nesting := s1.nesting - 1 } st1 :=
        ⟨h2.good.nest _, h2.le, by simp [h2.nesting], h2.outV, h2.outE⟩
      cases r1 with
      | error e => cases h; exact ⟨st1, hgr, by intro i h; cases h⟩
      | ok u =>
        dsimp only at h
        cases ha2 : assoc s1.exprs e with
        | none => rw [ha2] at h; cases h
        | some i =>
          rw [ha2] at h
          cases h
          refine ⟨st1, hgr, ?_⟩
          intro j hj
          cases hj
          exact h2.good.exprs e i (assoc_mem ha2)

theorem encode_sound {o : Opts V A X E} {plan : V → Plan V A X E} (hl : Lawful o plan) (hi : o.infer = true) :
    ∀ fuel, SoundRec o (encode plan fuel) := by
  intro fuel
  induction fuel with
  | zero => intro x s st s' r _ _ _ h; cases h
  | succ fuel ih =>
    intro x s st s' r hg hn hx h
    cases x with
    | value v =>
      simp only [encode] at h
      rcases h1 : valueIndex plan (encode plan fuel) v s with _ | ⟨s1, e | i⟩
      · rw [h1] at h; cases h
      · rw [h1] at h
        cases h
        obtain ⟨st', h2, _⟩ := valueIndex_sound hl ih hg h1
        exact ⟨st', h2, by intro i h; cases h⟩
      · rw [h1] at h
        obtain ⟨st', h2, h3⟩ := valueIndex_sound hl ih hg h1
        dsimp only at h
        rw [if_neg (by rw [h2.nesting]; omega)] at h
        cases h
        exact ⟨st', h2, h3⟩
    | expr e =>
      cases e with
      | none => cases h; exact ⟨st, Grows.refl hg, by intro i h; cases h⟩
      | some e =>
        simp only [encode] at h
        rcases h1 : exprIndex (encode plan fuel) e s with _ | ⟨s1, err | i⟩
        · rw [h1] at h; cases h
        · rw [h1] at h
          cases h
          obtain ⟨st', h2, _⟩ := exprIndex_sound hi ih hx hg h1
          exact ⟨st', h2, by intro i h; cases h⟩
        · rw [h1] at h
          obtain ⟨st', h2, h3⟩ := exprIndex_sound hi ih hx hg h1
          dsimp only at h
          rw [if_neg (by rw [h2.nesting]; omega)] at h
          cases h
          exact ⟨st', h2, h3⟩

/-- The outputs that a call adds. -/
def outV (x : Item V A) (r : Except (EncErr E) Nat) : List V :=
  match x, r with
  | .value v, .ok _ => [v]
  | _, _ => []

/-- The outputs that a call adds. -/
def outE (x : Item V A) (r : Except (EncErr E) Nat) : List (Ex V A) :=
  match x, r with
  | .expr (some e), .ok _ => [e]
  | _, _ => []

theorem encode_top {o : Opts V A X E} {plan : V → Plan V A X E} (hl : Lawful o plan) (hi : o.infer = true) {fuel : Nat}
    {x : Item V A} {s s' : Enc V A X} {st : Store V A X E} {r} (hg : Good o s st) (hn : s.nesting = 0) (hx : ItemOk o x)
    (h : encode plan fuel x s = some (s', r)) :
    ∃ st', Good o s' st' ∧ st.Le st' ∧ s'.nesting = 0 ∧ st'.values = st.values ++ outV x r ∧
      st'.exprs = st.exprs ++ outE x r ∧ ∀ i, r = .ok i → Holds st' i x := by
  cases fuel with
  | zero => cases h
  | succ fuel =>
    have ih := encode_sound hl hi fuel
    cases x with
    | value v =>
      simp only [encode] at h
      rcases h1 : valueIndex plan (encode plan fuel) v s with _ | ⟨s1, e | i⟩
      · rw [h1] at h; cases h
      · rw [h1] at h
        cases h
        obtain ⟨st', h2, _⟩ := valueIndex_sound hl ih hg h1
        exact ⟨st', h2.good, h2.le, h2.nesting.trans hn, by simp [outV, h2.outV], by simp [outE, h2.outE],
          by intro i h; cases h⟩
      · rw [h1] at h
        obtain ⟨st', h2, h3⟩ := valueIndex_sound hl ih hg h1
        have h3 := h3 i rfl
        dsimp only at h
        rw [if_pos (h2.nesting.trans hn)] at h
        cases h
        have hle : st'.Le { st'.push none none with values := st'.values ++ [v] } := by
          have := le_push st' none none
          exact ⟨this.value, this.expr, this.codec⟩
        have hstep : st'.step o st'.cells.length (.outValue i) = some { st'.push none none with values := st'.values ++ [v] } := by
          rw [step_new]
          simp [Store.apply, (le_push st' none none).value _ _ h3]
          rfl
        have hadd := h2.good.add hstep hle (push_len _ _ _)
        refine ⟨_, hadd, h2.le.trans hle, h2.nesting.trans hn, by simp [outV, h2.outV], by simp [outE, Store.push, h2.outE], ?_⟩
        intro j hj
        cases hj
        exact hle.value _ _ h3
    | expr e =>
      cases e with
      | none => cases h; exact ⟨st, hg, Store.Le.refl _, hn, by simp [outV], by simp [outE], by intro i h; cases h⟩
      | some e =>
        simp only [encode] at h
        rcases h1 : exprIndex (encode plan fuel) e s with _ | ⟨s1, err | i⟩
        · rw [h1] at h; cases h
        · rw [h1] at h
          cases h
          obtain ⟨st', h2, _⟩ := exprIndex_sound hi ih hx hg h1
          exact ⟨st', h2.good, h2.le, h2.nesting.trans hn, by simp [outV, h2.outV], by simp [outE, h2.outE],
            by intro i h; cases h⟩
        · rw [h1] at h
          obtain ⟨st', h2, h3⟩ := exprIndex_sound hi ih hx hg h1
          have h3 := h3 i rfl
          dsimp only at h
          rw [if_pos (h2.nesting.trans hn)] at h
          cases h
          have hle : st'.Le { st'.push none none with exprs := st'.exprs ++ [e] } := by
            have := le_push st' none none
            exact ⟨this.value, this.expr, this.codec⟩
          have hstep : st'.step o st'.cells.length (.outExpr i) = some { st'.push none none with exprs := st'.exprs ++ [e] } := by
            rw [step_new]
            simp [Store.apply, (le_push st' none none).expr _ _ h3]
            rfl
          have hadd := h2.good.add hstep hle (push_len _ _ _)
          refine ⟨_, hadd, h2.le.trans hle, h2.nesting.trans hn, by simp [outV, Store.push, h2.outV], by simp [outE, h2.outE], ?_⟩
          intro j hj
          cases hj
          exact hle.expr _ _ h3

theorem encodeAll_sound {o : Opts V A X E} {plan : V → Plan V A X E} (hl : Lawful o plan) (hi : o.infer = true) {fuel : Nat} :
    ∀ (calls : List (Item V A)) (s : Enc V A X) (st : Store V A X E) (s' : Enc V A X) (rs), Good o s st → s.nesting = 0 →
    (∀ x ∈ calls, ItemOk o x) → encodeAll plan fuel calls s = some (s', rs) →
    ∃ st', Good o s' st' ∧ s'.nesting = 0 ∧ st'.values = st.values ++ encodedValues calls rs ∧
      st'.exprs = st.exprs ++ encodedExprs calls rs := by
  intro calls
  induction calls with
  | nil =>
    intro s st s' rs hg hn _ h
    cases h
    exact ⟨st, hg, hn, by simp [encodedValues], by simp [encodedExprs]⟩
  | cons x xs ih =>
    intro s st s' rs hg hn hx h
    simp only [encodeAll] at h
    rcases h1 : encode plan fuel x s with _ | ⟨s1, r⟩
    · rw [h1] at h; cases h
    · rw [h1] at h
      dsimp only at h
      rcases h2 : encodeAll plan fuel xs s1 with _ | ⟨s2, rs'⟩
      · rw [h2] at h; cases h
      · rw [h2] at h
        cases h
        obtain ⟨st1, hg1, _, hn1, hv1, he1, _⟩ := encode_top hl hi hg hn (hx x (by simp)) h1
        obtain ⟨st2, hg2, hn2, hv2, he2⟩ := ih s1 st1 s2 rs' hg1 hn1 (fun y hy => hx y (by simp [hy])) h2
        refine ⟨st2, hg2, hn2, ?_, ?_⟩
        · rw [hv2, hv1, List.append_assoc]
          congr 1
          unfold encodedValues outV
          rw [List.zip_cons_cons, List.filterMap_cons]
          cases x <;> cases r <;> simp
        · rw [he2, he1, List.append_assoc]
          congr 1
          unfold encodedExprs outE
          rw [List.zip_cons_cons, List.filterMap_cons]
          rcases x with v | (_ | e) <;> cases r <;> simp

end
end Verif.Serial
