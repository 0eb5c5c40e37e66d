import Verif.Tuple.TupleProps

/-!
# Properties of the operators that apply an operator to the fields of a tuple
-/

namespace Verif.Tuple

variable {E : Type}

/-! ## C150 -/

theorem le_refl (a : Attr) : a.Le a := ⟨fun _ h => h, fun _ h => h⟩

theorem le_ofType {t : Ty} {b : Attr} (h : b.qtype = some t) : (Attr.ofType t).Le b :=
  ⟨fun u hu => by rw [h]; exact hu, fun c hc => (nomatch hc)⟩

theorem forall₂_append {α β : Type} {P : α → β → Prop} {a c : List α} {b d : List β} (h : List.Forall₂ P a b) (h' : List.Forall₂ P c d) :
    List.Forall₂ P (a ++ c) (b ++ d) := by
  induction h with
  | nil => exact h'
  | cons hp _ ih => exact .cons hp ih

theorem forall₂_le_refl (as : List Attr) : List.Forall₂ Attr.Le as as := by
  induction as with
  | nil => exact .nil
  | cons a as ih => exact .cons (le_refl a) ih

theorem forall₂_fields {ts : List Ty} {fs : List (Node E)} (h : fs.map (·.attr.qtype) = ts.map some) :
    List.Forall₂ Attr.Le (ts.map .ofType) (fs.map (·.attr)) := by
  induction fs generalizing ts with
  | nil =>
    cases ts with
    | nil => exact .nil
    | cons t ts => cases h
  | cons f fs ih =>
    cases ts with
    | nil => cases h
    | cons t ts =>
      rw [List.map_cons, List.map_cons, List.cons.injEq] at h
      exact .cons (le_ofType h.1) (ih h.2)

/-- `core.apply_varargs`: if a type is inferred, the operator is lowered to the application of the operator to the arguments and the fields
of the tuple.  If the tuple is not literal the lowering succeeds and keeps the attributes; otherwise the lowered expression has the inferred
type. -/
theorem apply_varargs (args : List (Node E)) (tuple : Node E) (htup : tuple.Ok) (op : Op) (binary : Bool)
    (attr : Attr) (h : applyVarargsInfer (.literal op binary) ((args ++ [tuple]).map (·.attr)) = some attr) (q : Ty)
    (hq : attr.qtype = some q) :
    applyVarargsLower attr (.literal op binary) (args ++ [tuple]) ≠ some none ∧
      (tuple.attr.qvalue = none → ∃ n, applyVarargsLower attr (.literal op binary) (args ++ [tuple]) = some (some n) ∧ n.attr = attr) ∧
      ∀ n, applyVarargsLower attr (.literal op binary) (args ++ [tuple]) = some (some n) →
        (op.Stable → n.attr.qtype = some q) ∧
          ∀ e (as : List Val) v, args.map (fun n => n.run e) = as.map some → tuple.run e = some v → n.run e = op.eval (as ++ v.fields) := by
  have hinf : ∃ t, tuple.attr.qtype = some t ∧ op.infer (args.map (·.attr) ++ t.fields.map .ofType) = some attr := by
    unfold applyVarargsInfer at h
    rw [List.map_append, List.map_cons, List.map_nil, List.getLast?_concat] at h
    dsimp only at h
    split at h
    · cases h
    split at h
    · obtain rfl := Option.some.inj h
      cases hq
    split at h
    · obtain rfl := Option.some.inj h
      cases hq
    · rename_i t ht
      rw [List.dropLast_concat] at h
      exact ⟨t, ht, h⟩
  obtain ⟨t, ht, hi⟩ := hinf
  obtain ⟨fs, hfs, h1, h2, h3, -⟩ := fieldNodes_all htup ht
  have hlow : applyVarargsLower attr (.literal op binary) (args ++ [tuple]) = (makeOpNode op (args ++ fs)).map some := by
    unfold applyVarargsLower
    rw [List.getLast?_concat]
    dsimp only
    rw [hq, ht]
    dsimp only
    rw [hfs, List.dropLast_concat]
  rw [hlow]
  refine ⟨?_, ?_, ?_⟩
  · cases makeOpNode op (args ++ fs) <;> exact fun h => (nomatch h)
  · intro hv
    obtain ⟨n, hn, ha, -⟩ := makeOpNode_of (op := op) (args := args ++ fs) (a := attr) (by rw [List.map_append, h2 hv]; exact hi)
    exact ⟨n, by rw [hn]; rfl, ha⟩
  · intro n hn
    obtain ⟨m, hm, hmn⟩ := Option.map_eq_some_iff.1 hn
    obtain rfl := Option.some.inj hmn
    obtain ⟨g1, g2⟩ := makeOpNode_iff hm
    constructor
    · intro hs
      rw [List.map_append] at g1
      exact (hs _ _ _ _ (forall₂_append (forall₂_le_refl _) (forall₂_fields h1)) hi g1).1 q hq
    · intro e as v has hv
      exact g2 e _ (by rw [List.map_append, List.map_append, has, h3 e v hv])

/-- The operator is applied to a value and to a tuple of one field. -/
example : let n : Node Nat := ⟨.ofType (.other 0 []), fun x => some (.other 0 (x + 50) [])⟩
    let t : Node Nat := ⟨.ofType (.tuple [.other 0 []]), fun x => some (.tuple [.other 0 x []])⟩
    ∃ m, applyVarargsLower (.ofType (.other 0 [])) (.literal sampleOp true) [n, t] = some (some m) ∧ m.run 3 = some (.other 0 150 []) :=
  ⟨_, rfl, rfl⟩

/-- The hypotheses can be met. -/
example : applyVarargsInfer (.literal sampleOp true)
    (([⟨.ofType (.other 0 []), fun x => some (.other 0 (x + 50) [])⟩, ⟨.ofType (.tuple [.other 0 []]), fun x => some (.tuple [.other 0 x []])⟩] :
      List (Node Nat)).map (·.attr)) = some (.ofType (.other 0 [])) := rfl

theorem reduceLoop_exact (op : Op) (ns : List (Node E)) (ts : List Ty) (hns : ns.map (·.attr) = ts.map .ofType) (r : Node E) (a : Attr)
    (h : reduceInferLoop op r.attr ts = some a) : ∃ n, reduceLowerLoop op r ns = some n ∧ n.attr = a := by
  induction ns generalizing ts r with
  | nil =>
    cases ts with
    | nil => exact ⟨r, rfl, Option.some.inj h⟩
    | cons t ts => cases hns
  | cons n ns ih =>
    cases ts with
    | nil => cases hns
    | cons t ts =>
      rw [List.map_cons, List.map_cons, List.cons.injEq] at hns
      unfold reduceInferLoop at h
      split at h
      · cases h
      · rename_i b hb
        obtain ⟨m, hm, rfl, -⟩ := makeOpNode_of (op := op) (args := [r, n]) (a := b) (by
          rw [List.map_cons, List.map_cons, hns.1]
          exact hb)
        unfold reduceLowerLoop
        rw [hm]
        exact ih ts hns.2 m h

theorem reduceLoop_stable (op : Op) (hs : op.Stable) (ns : List (Node E)) (ts : List Ty)
    (hns : ns.map (·.attr.qtype) = ts.map some) (r n : Node E) (b a : Attr) (hle : b.Le r.attr)
    (h : reduceInferLoop op b ts = some a) (hn : reduceLowerLoop op r ns = some n) : a.Le n.attr := by
  induction ns generalizing ts r b with
  | nil =>
    cases ts with
    | nil =>
      obtain rfl := Option.some.inj h
      obtain rfl := Option.some.inj hn
      exact hle
    | cons t ts => cases hns
  | cons m ns ih =>
    cases ts with
    | nil => cases hns
    | cons t ts =>
      rw [List.map_cons, List.map_cons, List.cons.injEq] at hns
      unfold reduceInferLoop at h
      unfold reduceLowerLoop at hn
      split at h
      · cases h
      split at hn
      · cases hn
      rename_i c hc _ d hd
      refine ih ts hns.2 d c ?_ h hn
      exact hs _ _ _ _ (.cons hle (.cons (le_ofType hns.1) .nil)) hc (makeOpNode_iff hd).1

theorem reduceLoop_run (op : Op) (ns : List (Node E)) (r n : Node E) (hn : reduceLowerLoop op r ns = some n) (e : E) (ws : List Val)
    (hw : ns.map (fun m => m.run e) = ws.map some) :
    n.run e = (r.run e).bind fun v => ws.foldlM (fun a b => op.eval [a, b]) v := by
  induction ns generalizing r ws with
  | nil =>
    cases ws with
    | nil =>
      obtain rfl := Option.some.inj hn
      cases r.run e <;> rfl
    | cons w ws => cases hw
  | cons m ns ih =>
    cases ws with
    | nil => cases hw
    | cons w ws =>
      rw [List.map_cons, List.map_cons, List.cons.injEq] at hw
      unfold reduceLowerLoop at hn
      split at hn
      · cases hn
      rename_i d hd
      rw [ih d hn ws hw.2, makeOpNode_bind hd e, List.map_cons, List.map_cons, List.map_nil, hw.1]
      cases r.run e with
      | none => rfl
      | some v => rfl

/-- `core.reduce_tuple`: if a type is inferred, the operator is lowered to the application of the operator to the fields from left to
right.  If the tuple is not literal the lowering succeeds and keeps the attributes; otherwise the lowered expression has the inferred
type. -/
theorem reduce_tuple (tuple : Node E) (htup : tuple.Ok) (op : Op) (binary : Bool) (attr : Attr)
    (h : reduceInfer (.literal op binary) tuple.attr = some attr) (q : Ty) (hq : attr.qtype = some q) :
    reduceLower attr (.literal op binary) tuple ≠ some none ∧
      (tuple.attr.qvalue = none → ∃ n, reduceLower attr (.literal op binary) tuple = some (some n) ∧ n.attr = attr) ∧
      ∀ n, reduceLower attr (.literal op binary) tuple = some (some n) →
        (op.Stable → n.attr.qtype = some q) ∧
          ∀ e v, tuple.run e = some v →
            ∃ w ws, v.fields = w :: ws ∧ n.run e = ws.foldlM (fun a b => op.eval [a, b]) w := by
  have hinf : ∃ t f fs, tuple.attr.qtype = some t ∧ t.fields = f :: fs ∧ reduceInferLoop op (.ofType f) fs = some attr := by
    unfold reduceInfer at h
    split at h
    · cases h
    cases ht : tuple.attr.qtype with
    | some t =>
      rw [ht] at h
      dsimp only at h
      split at h
      · cases h
      · rename_i f fs hf
        exact ⟨t, f, fs, rfl, hf, h⟩
    | none =>
      rw [ht] at h
      obtain rfl := Option.some.inj h
      cases hq
  obtain ⟨t, f, fs, ht, hf, hi⟩ := hinf
  obtain ⟨ns, hns, h1, h2, h3, -⟩ := fieldNodes_all htup ht
  rw [hf] at h1 h2
  cases ns with
  | nil => cases h1
  | cons m ms =>
  rw [List.map_cons, List.map_cons, List.cons.injEq] at h1
  have hlow : reduceLower attr (.literal op binary) tuple = (reduceLowerLoop op m ms).map some := by
    unfold reduceLower
    rw [hq, ht]
    dsimp only
    rw [hns]
  rw [hlow]
  refine ⟨?_, ?_, ?_⟩
  · cases reduceLowerLoop op m ms <;> exact fun h => (nomatch h)
  · intro hv
    have h2' := h2 hv
    rw [List.map_cons, List.map_cons, List.cons.injEq] at h2'
    obtain ⟨n, hn, ha⟩ := reduceLoop_exact op ms fs h2'.2 m attr (by rw [h2'.1]; exact hi)
    exact ⟨n, by rw [hn]; rfl, ha⟩
  · intro n hn
    obtain ⟨m', hm, hmn⟩ := Option.map_eq_some_iff.1 hn
    obtain rfl := Option.some.inj hmn
    constructor
    · intro hs
      exact (reduceLoop_stable op hs ms fs h1.2 m m' _ attr (le_ofType h1.1) hi hm).1 q hq
    · intro e v hv
      have h4 := h3 e v hv
      cases hw : v.fields with
      | nil => rw [hw] at h4; cases h4
      | cons w ws =>
        rw [hw, List.map_cons, List.map_cons, List.cons.injEq] at h4
        refine ⟨w, ws, rfl, ?_⟩
        rw [reduceLoop_run op ms m m' hm e ws h4.2, h4.1]
        rfl

/-- A reduction from the left. -/
example : ∃ n, reduceLower (.ofType (.other 0 [])) (.literal sampleOp true) sampleTriple = some (some n) ∧
    n.run 3 = some (.other 0 (100 + (100 + 3 - 5) - 7) []) := by
  obtain ⟨-, h, h'⟩ := reduce_tuple sampleTriple sampleTriple_ok sampleOp true (.ofType (.other 0 [])) rfl _ rfl
  obtain ⟨n, hn, -⟩ := h rfl
  obtain ⟨w, ws, hw, hr⟩ := (h' n hn).2 3 _ rfl
  refine ⟨n, hn, ?_⟩
  cases hw
  rw [hr]
  rfl

/-- `core.reduce_tuple` rejects the empty tuple. -/
theorem reduce_tuple_empty (op : OpArg) (tuple : Attr) (t : Ty) (ht : tuple.qtype = some t) (he : t.fields = []) :
    reduceInfer op tuple = none := by
  have hc : reduceCheck op tuple = false := by
    unfold reduceCheck
    rw [ht]
    dsimp only
    rw [he, List.isEmpty_nil, Bool.not_true, Bool.and_false]
  unfold reduceInfer
  rw [hc]
  rfl

theorem mapLoop_exact (op : Op) (extra : List (Node E)) (fs : List (Node E)) (ts us : List Ty)
    (h : mapInferLoop op (extra.map (·.attr)) ts = some us) (hf : fs.map (·.attr) = ts.map .ofType) :
    ∃ ds, collect (fs.map fun f => makeOpNode op (f :: extra)) = some ds ∧ ds.map (·.attr.qtype) = us.map some := by
  induction fs generalizing ts us with
  | nil =>
    cases ts with
    | nil =>
      obtain rfl := Option.some.inj h
      exact ⟨[], rfl, rfl⟩
    | cons t ts => cases hf
  | cons f fs ih =>
    cases ts with
    | nil => cases hf
    | cons t ts =>
      rw [List.map_cons, List.map_cons, List.cons.injEq] at hf
      unfold mapInferLoop at h
      split at h
      · cases h
      rename_i a ha
      split at h
      · cases h
      rename_i u hu
      split at h
      · cases h
      rename_i us' hus
      obtain rfl := Option.some.inj h
      obtain ⟨ds, h1, h2⟩ := ih ts us' hus hf.2
      obtain ⟨d, hd, rfl, -⟩ := makeOpNode_of (op := op) (args := f :: extra) (a := a) (by rw [List.map_cons, hf.1]; exact ha)
      refine ⟨d :: ds, ?_, ?_⟩
      · rw [List.map_cons, hd, collect, h1]
      · rw [List.map_cons, List.map_cons, hu, h2]

theorem mapLoop_stable (op : Op) (hs : op.Stable) (extra : List (Node E)) (fs : List (Node E)) (ts us : List Ty)
    (h : mapInferLoop op (extra.map (·.attr)) ts = some us) (hf : fs.map (·.attr.qtype) = ts.map some) (ds : List (Node E))
    (hds : collect (fs.map fun f => makeOpNode op (f :: extra)) = some ds) : ds.map (·.attr.qtype) = us.map some := by
  induction fs generalizing ts us ds with
  | nil =>
    cases ts with
    | nil =>
      obtain rfl := Option.some.inj h
      obtain rfl := Option.some.inj hds
      rfl
    | cons t ts => cases hf
  | cons f fs ih =>
    cases ts with
    | nil => cases hf
    | cons t ts =>
      rw [List.map_cons, List.map_cons, List.cons.injEq] at hf
      unfold mapInferLoop at h
      split at h
      · cases h
      rename_i a ha
      split at h
      · cases h
      rename_i u hu
      split at h
      · cases h
      rename_i us' hus
      obtain rfl := Option.some.inj h
      rw [collect_iff] at hds
      cases ds with
      | nil => cases hds
      | cons d ds =>
        rw [List.map_cons, List.map_cons, List.cons.injEq] at hds
        rw [List.map_cons, List.map_cons, ih ts us' hus hf.2 ds (collect_iff.2 hds.2)]
        have hd := (makeOpNode_iff hds.1).1
        have := (hs _ _ _ _ (.cons (le_ofType hf.1) (forall₂_le_refl _)) ha hd).1 u hu
        rw [this]

theorem mapLoop_run (op : Op) (extra : List (Node E)) (fs ds : List (Node E))
    (hds : collect (fs.map fun f => makeOpNode op (f :: extra)) = some ds) (e : E) (ws es : List Val)
    (hw : fs.map (fun n => n.run e) = ws.map some) (he : extra.map (fun n => n.run e) = es.map some) :
    ds.map (fun d => d.run e) = ws.map fun w => op.eval (w :: es) := by
  rw [collect_iff] at hds
  induction fs generalizing ds ws with
  | nil =>
    cases ds with
    | cons d ds => cases hds
    | nil =>
      cases ws with
      | nil => rfl
      | cons w ws => cases hw
  | cons f fs ih =>
    cases ds with
    | nil => cases hds
    | cons d ds =>
      cases ws with
      | nil => cases hw
      | cons w ws =>
        rw [List.map_cons, List.map_cons, List.cons.injEq] at hds hw
        rw [List.map_cons, List.map_cons, ih ds hds.2 ws hw.2]
        rw [(makeOpNode_iff hds.1).2 e (w :: es) (by rw [List.map_cons, List.map_cons, hw.1, he])]

/-- `core.map_tuple`: if a type is inferred, the operator is lowered to the tuple of the values of the operator for each field and the extra
arguments.  If the tuple is not literal the lowering succeeds; the lowered expression has the inferred type. -/
theorem map_tuple (tuple : Node E) (htup : tuple.Ok) (extra : List (Node E)) (op : Op) (binary : Bool) (attr : Attr)
    (h : mapInfer (.literal op binary) tuple.attr (extra.map (·.attr)) = some attr) (q : Ty) (hq : attr.qtype = some q) :
    mapLower attr (.literal op binary) tuple extra ≠ some none ∧
      (tuple.attr.qvalue = none → ∃ n, mapLower attr (.literal op binary) tuple extra = some (some n) ∧ n.attr.qtype = some q) ∧
      ∀ n, mapLower attr (.literal op binary) tuple extra = some (some n) →
        (op.Stable → n.attr.qtype = some q) ∧
          ∀ e v (es : List Val), tuple.run e = some v → extra.map (fun n => n.run e) = es.map some →
            n.run e = (collect (v.fields.map fun w => op.eval (w :: es))).map .tuple := by
  have hinf : ∃ t us, tuple.attr.qtype = some t ∧ mapInferLoop op (extra.map (·.attr)) t.fields = some us ∧ q = .tuple us := by
    unfold mapInfer at h
    dsimp only at h
    split at h
    · cases h
    cases ht : tuple.attr.qtype with
    | some t =>
      rw [ht] at h
      dsimp only at h
      split at h
      · obtain rfl := Option.some.inj h
        cases hq
      · obtain ⟨us, hus, rfl⟩ := Option.map_eq_some_iff.1 h
        exact ⟨t, us, rfl, hus, (Option.some.inj hq).symm⟩
    | none =>
      rw [ht] at h
      obtain rfl := Option.some.inj h
      cases hq
  obtain ⟨t, us, ht, hi, rfl⟩ := hinf
  obtain ⟨fs, hfs, h1, h2, h3, -⟩ := fieldNodes_all htup ht
  have hlow : mapLower attr (.literal op binary) tuple extra =
      match collect (fs.map fun f => makeOpNode op (f :: extra)) with
      | none => none
      | some ds => (makeOpNode makeTuple ds).map some := by
    unfold mapLower
    rw [hq, ht]
    dsimp only
    rw [hfs]
    rfl
  rw [hlow]
  refine ⟨?_, ?_, ?_⟩
  · cases collect (fs.map fun f => makeOpNode op (f :: extra)) with
    | none => exact fun h => (nomatch h)
    | some ds =>
      dsimp only
      cases makeOpNode makeTuple ds <;> exact fun h => (nomatch h)
  · intro hv
    obtain ⟨ds, hds, hq'⟩ := mapLoop_exact op extra fs t.fields us hi (h2 hv)
    rw [hds]
    obtain ⟨n, hn, ha, -⟩ := makeOpNode_of (makeTuple_infer (attrs := ds.map (·.attr)) (ts := us) (by rw [List.map_map]; exact hq'))
    refine ⟨n, ?_, by rw [ha]; rfl⟩
    dsimp only
    rw [hn]
    rfl
  · intro n hn
    split at hn
    · cases hn
    rename_i ds hds
    obtain ⟨m, hm, hmn⟩ := Option.map_eq_some_iff.1 hn
    obtain rfl := Option.some.inj hmn
    constructor
    · intro hs
      have hq' := mapLoop_stable op hs extra fs t.fields us hi h1 ds hds
      have h5 := makeTuple_infer (attrs := ds.map (·.attr)) (ts := us) (by rw [List.map_map]; exact hq')
      have h6 := (makeOpNode_iff hm).1
      rw [h5] at h6
      rw [← Option.some.inj h6]
      rfl
    · intro e v es hv hes
      rw [makeOpNode_bind hm e, mapLoop_run op extra fs ds hds e v.fields es (h3 e v hv) hes]
      cases collect (v.fields.map fun w => op.eval (w :: es)) <;> rfl

/-- An operator is applied to every field and to a further argument. -/
example : let a : Node Nat := ⟨.ofType (.other 0 []), fun x => some (.other 0 (2 * x) [])⟩
    ∃ n, mapLower (.ofType (.tuple [.other 0 [], .other 0 [], .other 0 []])) (.literal sampleOp true) sampleTriple [a] = some (some n) ∧
      n.run 3 = some (.tuple [.other 0 97 [], .other 0 99 [], .other 0 101 []]) := by
  intro a
  obtain ⟨-, h, h'⟩ := map_tuple sampleTriple sampleTriple_ok [a] sampleOp true
    (.ofType (.tuple [.other 0 [], .other 0 [], .other 0 []])) rfl _ rfl
  obtain ⟨n, hn, -⟩ := h rfl
  refine ⟨n, hn, ?_⟩
  rw [(h' n hn).2 3 _ [.other 0 6 []] rfl rfl]
  rfl

end Verif.Tuple
