import Verif.Tuple.TupleLemmas

/-!
# Properties of the tuple operators
-/

namespace Verif.Tuple

variable {E : Type}

/-! ## C149: operators that rearrange fields -/

theorem makeOpNode_bind {op : Op} {args : List (Node E)} {n : Node E} (h : makeOpNode op args = some n) (e : E) :
    n.run e = (collect (args.map fun m => m.run e)).bind op.eval := by
  unfold makeOpNode at h
  split at h
  · cases h
  · obtain rfl := Option.some.inj h
    dsimp only
    cases collect (args.map fun m => m.run e) <;> rfl

theorem known_types {attrs : List Attr} {ts : List Ty} (h : attrs.map (·.qtype) = ts.map some) :
    hasAllQTypes attrs = true ∧ qtypes attrs = ts := by
  induction attrs generalizing ts with
  | nil =>
    cases ts with
    | nil => exact ⟨rfl, rfl⟩
    | cons t ts => cases h
  | cons a attrs ih =>
    cases ts with
    | nil => cases h
    | cons t ts =>
      rw [List.map_cons, List.map_cons, List.cons.injEq] at h
      obtain ⟨h1, h2⟩ := ih h.2
      constructor
      · unfold hasAllQTypes at h1 ⊢
        rw [List.all_cons, h1, h.1]
        rfl
      · unfold qtypes at h2 ⊢
        rw [List.filterMap_cons, h.1, h2]

theorem basicInfer_known {f : List Ty → Option Ty} {attrs : List Attr} {ts : List Ty} (h : attrs.map (·.qtype) = ts.map some) :
    basicInfer f attrs = (f ts).map .ofType := by
  obtain ⟨h1, h2⟩ := known_types h
  unfold basicInfer
  rw [h1, h2]
  rfl

theorem concatOutputQType_eq (ts : List Ty) :
    concatOutputQType ts = if ts.all Ty.isTuple then some (.tuple (ts.flatMap Ty.fields)) else none := by
  induction ts with
  | nil => rfl
  | cons t ts ih =>
    unfold concatOutputQType
    rw [ih, List.all_cons, List.flatMap_cons]
    cases t.isTuple <;> cases ts.all Ty.isTuple <;> rfl

theorem concatArgs_spec (deps : List (Node E)) (hok : ∀ n ∈ deps, n.Ok) (ts : List Ty) (ht : deps.map (·.attr.qtype) = ts.map some) :
    ∃ args, concatArgs deps = some (some args) ∧ args.map (·.attr.qtype) = (ts.flatMap Ty.fields).map some ∧ (∀ f ∈ args, f.Ok) ∧
      ∀ e (vs : List Val), deps.map (fun n => n.run e) = vs.map some → args.map (fun n => n.run e) = (vs.flatMap Val.fields).map some := by
  induction deps generalizing ts with
  | nil =>
    cases ts with
    | nil =>
      refine ⟨[], rfl, rfl, fun f hf => (nomatch hf), ?_⟩
      intro e vs hvs
      cases vs with
      | nil => rfl
      | cons v vs => cases hvs
    | cons t ts => cases ht
  | cons n deps ih =>
    cases ts with
    | nil => cases ht
    | cons t ts =>
      rw [List.map_cons, List.map_cons, List.cons.injEq] at ht
      obtain ⟨gs, h1, h2, h3, h4⟩ := ih (fun x hx => hok x (List.mem_cons_of_mem _ hx)) ts ht.2
      obtain ⟨fs, hfs, g1, -, g2, g3⟩ := fieldNodes_all (hok n List.mem_cons_self) ht.1
      refine ⟨fs ++ gs, ?_, ?_, ?_, ?_⟩
      · unfold concatArgs
        rw [ht.1]
        dsimp only
        rw [hfs, h1]
      · rw [List.map_append, List.flatMap_cons, List.map_append, g1, h2]
      · intro f hf
        rcases List.mem_append.1 hf with hf | hf
        · exact g3 f hf
        · exact h3 f hf
      · intro e vs hvs
        cases vs with
        | nil => cases hvs
        | cons v vs =>
          rw [List.map_cons, List.map_cons, List.cons.injEq] at hvs
          rw [List.map_append, List.flatMap_cons, List.map_append, g2 e v hvs.1, h4 e vs hvs.2]

/-- `core.concat_tuples` accepts exactly tuples, infers the type of the concatenation, and is lowered to an expression of this type whose
value is the tuple of all fields. -/
theorem concat_tuples (deps : List (Node E)) (hok : ∀ n ∈ deps, n.Ok) (ts : List Ty) (ht : deps.map (·.attr.qtype) = ts.map some) :
    ((∃ t ∈ ts, t.isTuple = false) → basicInfer concatOutputQType (deps.map (·.attr)) = none) ∧
      ((∀ t ∈ ts, t.isTuple = true) →
        basicInfer concatOutputQType (deps.map (·.attr)) = some (.ofType (.tuple (ts.flatMap Ty.fields))) ∧
          ∃ n, concatLower deps = some (some n) ∧ n.attr = .ofType (.tuple (ts.flatMap Ty.fields)) ∧
            ∀ e (vs : List Val), deps.map (fun n => n.run e) = vs.map some → n.run e = some (.tuple (vs.flatMap Val.fields))) := by
  have hi := basicInfer_known (f := concatOutputQType) (attrs := deps.map (·.attr)) (ts := ts) (by rw [List.map_map]; exact ht)
  rw [hi, concatOutputQType_eq]
  constructor
  · rintro ⟨t, hm, hf⟩
    have : ts.all Ty.isTuple = false := by
      rw [List.all_eq_false]
      exact ⟨t, hm, by rw [hf]; exact Bool.false_ne_true⟩
    rw [this]
    rfl
  · intro hall
    have : ts.all Ty.isTuple = true := List.all_eq_true.2 hall
    rw [this]
    refine ⟨rfl, ?_⟩
    obtain ⟨args, h1, h2, h3, h4⟩ := concatArgs_spec deps hok ts ht
    obtain ⟨n, hn, ha, -, hr⟩ := makeTuple_node h2 h3
    refine ⟨n, ?_, ha, ?_⟩
    · unfold concatLower
      rw [h1]
      dsimp only
      rw [hn]
      rfl
    · intro e vs hvs
      exact hr e _ (h4 e vs hvs)

/-- A concatenation. -/
example : ∃ n, concatLower [samplePair, sampleTriple] = some (some n) ∧
    n.run 3 = some (.tuple [.other 0 3 [], .other 1 4 [], .other 0 3 [], .other 0 5 [], .other 0 7 []]) := by
  obtain ⟨-, n, hn, -, hr⟩ := (concat_tuples [samplePair, sampleTriple] (by
    intro n hn
    rcases List.mem_cons.1 hn with rfl | hn
    · exact samplePair_ok
    · rw [List.mem_singleton.1 hn]
      exact sampleTriple_ok) [.tuple [.other 0 [], .other 1 []], .tuple [.other 0 [], .other 0 [], .other 0 []]] rfl).2 (by
    intro t ht
    rcases List.mem_cons.1 ht with rfl | ht
    · rfl
    · rw [List.mem_singleton.1 ht]
      rfl)
  exact ⟨n, hn, hr 3 [.tuple [.other 0 3 [], .other 1 4 []], .tuple [.other 0 3 [], .other 0 5 [], .other 0 7 []]] rfl⟩

theorem collect_range {α : Type} (l : List α) (o k : Nat) (h : o + k ≤ l.length) :
    collect ((List.range k).map fun (i : Nat) => l[o + i]?) = some ((l.drop o).take k) := by
  rw [collect_iff]
  apply List.ext_getElem?
  intro i
  rw [List.getElem?_map, List.getElem?_map]
  by_cases hi : i < k
  · rw [List.getElem?_range hi, List.getElem?_take, if_pos hi, List.getElem?_drop, Option.map_some, List.getElem?_eq_getElem (by omega)]
    rfl
  · rw [List.getElem?_eq_none (by rw [List.length_range]; omega), List.getElem?_take, if_neg hi]
    rfl

/-- `core.slice_tuple` accepts exactly slices within a tuple or named tuple (−1 stands for the remaining fields), infers their type, and is
lowered to an expression of this type whose value is the tuple of the fields of the slice. -/
theorem slice_tuple (n : Node E) (hn : n.Ok) (t : Ty) (ht : n.attr.qtype = some t) (o s : Int) :
    let count := if s = -1 then (t.fields.length : Int) - o else s
    let accepted := (t.isTuple = true ∨ t.isNamed = true) ∧ 0 ≤ o ∧ 0 ≤ count ∧ o + count ≤ t.fields.length
    (¬ accepted → sliceInfer n.attr (.literal o) (.literal s) = none) ∧
      (accepted →
        let attr := Attr.ofType (.tuple ((t.fields.drop o.toNat).take count.toNat))
        sliceInfer n.attr (.literal o) (.literal s) = some attr ∧
          ∃ m, sliceLower attr n (.literal o) (.literal s) = some (some m) ∧ m.attr = attr ∧
            ∀ e v, n.run e = some v → m.run e = some (.tuple ((v.fields.drop o.toNat).take count.toNat))) := by
  intro count accepted
  have hinf : sliceInfer n.attr (.literal o) (.literal s) =
      if !t.isTuple && !t.isNamed then none
      else if o < 0 ∨ o > t.fields.length ∨ s < -1 ∨ s > t.fields.length - o then none
      else
        match collect ((List.range count.toNat).map fun (i : Nat) => t.fields[o.toNat + i]?) with
        | none => none
        | some fs => some (.ofType (.tuple fs)) := by
    unfold sliceInfer
    dsimp only [intOr, unwrapInt]
    rw [ht]
    rfl
  constructor
  · intro hna
    rw [hinf]
    split
    · rfl
    · rename_i h1
      split
      · rfl
      · rename_i h2
        refine absurd ⟨?_, ?_⟩ hna
        · cases ha : t.isTuple <;> cases hb : t.isNamed <;> simp [ha, hb] at h1 ⊢
        · simp only [count]
          split <;> omega
  · intro hacc attr
    obtain ⟨hk, h0, hc, hle⟩ := hacc
    have hcol := collect_range t.fields o.toNat count.toNat (by omega)
    refine ⟨?_, ?_⟩
    · rw [hinf, if_neg, if_neg, hcol]
      · simp only [count] at hc hle
        split at hc <;> omega
      · rcases hk with hk | hk <;> simp [hk]
    · obtain ⟨fs, hfs, hF⟩ := fieldNodes_spec hn ht o.toNat count.toNat (by omega)
      obtain ⟨m, hm, ha, -, hr⟩ := makeTuple_node hF.types hF.ok
      refine ⟨m, ?_, ha, ?_⟩
      · unfold sliceLower
        rw [ht]
        show (match fieldNodes n o.toNat count.toNat with | none => none | some fs => _) = _
        rw [hfs]
        dsimp only
        rw [hm]
        rfl
      · intro e v hv
        exact hr e _ (hF.runs e v hv)

/-- The last two fields. -/
example : ∃ n, sliceLower (.ofType (.tuple [.other 0 [], .other 0 []])) sampleTriple (.literal 1) (.literal (-1)) = some (some n) ∧
    n.run 3 = some (.tuple [.other 0 5 [], .other 0 7 []]) := by
  obtain ⟨-, n, hn, -, hr⟩ := (slice_tuple sampleTriple sampleTriple_ok _ rfl 1 (-1)).2 ⟨.inl rfl, by decide, by decide, by decide⟩
  exact ⟨n, hn, hr 3 _ rfl⟩

/-- Too many fields. -/
example : sliceInfer sampleTriple.attr (.literal 2) (.literal 2) = none :=
  (slice_tuple sampleTriple sampleTriple_ok _ rfl 2 2).1 (fun h => absurd h.2.2.2 (by decide))

/-- `core.get_nth` returns the field, of the inferred type, and rejects indices out of range. -/
theorem get_nth (n : Node E) (hn : n.Ok) (t : Ty) (ht : n.attr.qtype = some t) (k : Int) :
    ((k < 0 ∨ t.fields.length ≤ k) → coreGetNthInfer n.attr (.literal k) = none) ∧
      (∀ (i : Nat) f, k = i → t.fields[i]? = some f →
        ∃ m, coreGetNthLower n (.literal k) = some (some m) ∧ coreGetNthInfer n.attr (.literal k) = some m.attr ∧ m.attr.qtype = some f ∧
          ∀ e v, n.run e = some v → ∃ w, m.run e = some w ∧ v.fields[i]? = some w ∧ w.ty = f) := by
  constructor
  · intro hk
    unfold coreGetNthInfer
    dsimp only [unwrapInt]
    split
    · rfl
    · unfold getNthInfer
      rw [ht]
      dsimp only
      split
      · rfl
      · rw [if_pos (by omega)]
  · rintro i f rfl hf
    obtain ⟨m, hm, h1, -, h3, h4⟩ := getNth_node hn ht hf
    refine ⟨m, ?_, ?_, h1, ?_⟩
    · unfold coreGetNthLower
      dsimp only [unwrapInt]
      rw [hm]
      rfl
    · unfold coreGetNthInfer
      dsimp only [unwrapInt]
      rw [if_neg (by omega)]
      exact (makeOpNode_iff hm).1
    · intro e v hv
      have hty := (hn.2 e v hv).1 t ht
      have hf' := hf
      rw [← hty, ty_fields, List.getElem?_map] at hf'
      obtain ⟨w, hw, rfl⟩ := Option.map_eq_some_iff.1 hf'
      exact ⟨w, by rw [h4 e v hv, hw], hw, rfl⟩

/-- The second field. -/
example : ∃ m, coreGetNthLower samplePair (.literal 1) = some (some m) ∧ coreGetNthInfer samplePair.attr (.literal 1) = some m.attr := by
  obtain ⟨m, h1, h2, -⟩ := (get_nth samplePair samplePair_ok _ rfl 1).2 1 (.other 1 []) rfl rfl
  exact ⟨m, h1, h2⟩

theorem collect_map {α β : Type} {l : List α} {g : α → Option β} {P : α → β → Prop} (h : ∀ a ∈ l, ∃ x, g a = some x ∧ P a x) :
    ∃ xs, collect (l.map g) = some xs ∧ List.Forall₂ P l xs := by
  induction l with
  | nil => exact ⟨[], rfl, .nil⟩
  | cons a l ih =>
    obtain ⟨x, hx, hp⟩ := h a List.mem_cons_self
    obtain ⟨xs, h1, h2⟩ := ih fun b hb => h b (List.mem_cons_of_mem _ hb)
    refine ⟨x :: xs, ?_, .cons hp h2⟩
    rw [List.map_cons, hx, collect, h1]

theorem forall₂_map {α β γ : Type} {f : α → γ} {g : β → γ} {P : α → β → Prop} (h : ∀ a b, P a b → f a = g b) {l : List α} {r : List β}
    (hl : List.Forall₂ P l r) : l.map f = r.map g := by
  induction hl with
  | nil => rfl
  | cons hp _ ih => rw [List.map_cons, List.map_cons, h _ _ hp, ih]

theorem forall₂_map_mem {α β γ : Type} {f : α → γ} {g : β → γ} {P : α → β → Prop} {l : List α} {r : List β}
    (hl : List.Forall₂ P l r) : (∀ a ∈ l, ∀ b, P a b → f a = g b) → l.map f = r.map g := by
  induction hl with
  | nil => exact fun _ => rfl
  | cons hp _ ih =>
    intro h
    rw [List.map_cons, List.map_cons, h _ List.mem_cons_self _ hp, ih fun a ha => h a (List.mem_cons_of_mem _ ha)]

theorem forall₂_range {β : Type} {P : Nat → β → Prop} {k : Nat} {r : List β} (h : List.Forall₂ P (List.range k) r) :
    r.length = k ∧ ∀ (j : Nat) b, r[j]? = some b → P j b := by
  have hl : r.length = k := by rw [← h.length_eq, List.length_range]
  refine ⟨hl, ?_⟩
  intro j b hj
  obtain ⟨hlt, rfl⟩ := List.getElem?_eq_some_iff.1 hj
  have := h.get (i := j) (by rw [List.length_range]; omega) hlt
  simpa using this

theorem column_exists {α β : Type} (f : β → List α) (l : List β) (j : Nat) (h : ∀ b ∈ l, j < (f b).length) :
    ∃ us, collect (l.map fun b => (f b)[j]?) = some us := by
  obtain ⟨us, hu, -⟩ := collect_map (l := l) (g := fun b => (f b)[j]?) (P := fun _ _ => True)
    fun b hb => ⟨(f b)[j]'(h b hb), List.getElem?_eq_getElem (h b hb), trivial⟩
  exact ⟨us, hu⟩

theorem zipCheck_spec (k : Nat) (ns : List (Node E)) (ts : List Ty) (ht : ns.map (·.attr.qtype) = ts.map some) :
    zipCheck k ns = if ts.all (fun t => hasSubfieldsOrIsTuple t && decide (t.fields.length = k)) then some true else none := by
  induction ns generalizing ts with
  | nil =>
    cases ts with
    | nil => rfl
    | cons t ts => cases ht
  | cons n ns ih =>
    cases ts with
    | nil => cases ht
    | cons t ts =>
      rw [List.map_cons, List.map_cons, List.cons.injEq] at ht
      unfold zipCheck
      rw [ht.1, List.all_cons]
      dsimp only
      rw [ih ts ht.2]
      cases hasSubfieldsOrIsTuple t with
      | false => rfl
      | true =>
        by_cases hl : t.fields.length = k
        · simp [hl]
        · simp [hl]

/-- `core.zip` accepts exactly tuples (or other types with fields) of the same size, infers the type of the transposed tuple, and is lowered
to an expression of this type whose value is the transposed tuple. -/
theorem zip (deps : List (Node E)) (hok : ∀ n ∈ deps, n.Ok) (ts : List Ty) (ht : deps.map (·.attr.qtype) = ts.map some) (hne : ts ≠ []) :
    ((¬ ∃ k, ∀ t ∈ ts, (t.fields ≠ [] ∨ t.isTuple = true) ∧ t.fields.length = k) →
        basicInfer zipOutputQType (deps.map (·.attr)) = none) ∧
      ∀ k, (∀ t ∈ ts, (t.fields ≠ [] ∨ t.isTuple = true) ∧ t.fields.length = k) →
        ∃ columns, IsZip k (ts.map Ty.fields) columns ∧
          basicInfer zipOutputQType (deps.map (·.attr)) = some (.ofType (.tuple (columns.map .tuple))) ∧
          ∃ n, zipLower deps = some (some n) ∧ n.attr = .ofType (.tuple (columns.map .tuple)) ∧
            ∀ e (vs : List Val), deps.map (fun n => n.run e) = vs.map some →
              ∃ rows, IsZip k (vs.map Val.fields) rows ∧ n.run e = some (.tuple (rows.map .tuple)) := by
  have hi := basicInfer_known (f := zipOutputQType) (attrs := deps.map (·.attr)) (ts := ts) (by rw [List.map_map]; exact ht)
  rw [hi]
  have hsub : ∀ t : Ty, hasSubfieldsOrIsTuple t = true ↔ (t.fields ≠ [] ∨ t.isTuple = true) := by
    intro t
    unfold hasSubfieldsOrIsTuple
    rw [Bool.or_eq_true]
    cases t.fields <;> simp
  cases ts with
  | nil => exact absurd rfl hne
  | cons t ts =>
  constructor
  · intro hno
    unfold zipOutputQType
    dsimp only
    split
    · rename_i h1
      split
      · rename_i h2
        refine absurd ⟨t.fields.length, ?_⟩ hno
        intro u hu
        refine ⟨(hsub u).1 (List.all_eq_true.1 h1 u hu), ?_⟩
        rcases List.mem_cons.1 hu with rfl | hu
        · rfl
        · exact of_decide_eq_true (List.all_eq_true.1 h2 u hu)
      · rfl
    · rfl
  · intro k hk
    obtain rfl : t.fields.length = k := (hk t List.mem_cons_self).2
    -- The types.
    obtain ⟨cs, hcs, hP⟩ := collect_map (l := List.range t.fields.length)
      (g := fun j => (collect ((t :: ts).map fun u => u.fields[j]?)).map Ty.tuple)
      (P := fun j c => ∃ us, c = Ty.tuple us ∧ us.map some = (t :: ts).map fun u => u.fields[j]?) (by
        intro j hj
        rw [List.mem_range] at hj
        obtain ⟨us, hus⟩ := column_exists Ty.fields (t :: ts) j (fun u hu => by rw [(hk u hu).2]; exact hj)
        exact ⟨.tuple us, by rw [hus]; rfl, us, rfl, (collect_iff.1 hus).symm⟩)
    obtain ⟨hlen, hcol⟩ := forall₂_range hP
    -- The columns without the tuples around them.
    obtain ⟨columns, hcolumns⟩ : ∃ columns : List (List Ty), cs = columns.map .tuple := by
      refine ⟨cs.map Ty.fields, ?_⟩
      rw [List.map_map]
      refine (List.map_id' cs).symm.trans (List.map_congr_left ?_)
      intro c hc
      obtain ⟨j, hj, rfl⟩ := List.getElem_of_mem hc
      obtain ⟨us, hus, -⟩ := hcol j _ (List.getElem?_eq_getElem hj)
      rw [hus]
      rfl
    subst hcolumns
    have hz : IsZip t.fields.length ((t :: ts).map Ty.fields) columns := by
      refine ⟨by rw [← hlen, List.length_map], ?_⟩
      intro j c hc
      obtain ⟨us, hus, hmap⟩ := hcol j (.tuple c) (by rw [List.getElem?_map, hc]; rfl)
      injection hus with hus
      rw [hus, hmap, List.map_map]
      rfl
    refine ⟨columns, hz, ?_, ?_⟩
    · unfold zipOutputQType
      dsimp only
      rw [if_pos (List.all_eq_true.2 fun u hu => (hsub u).2 (hk u hu).1),
        if_pos (List.all_eq_true.2 fun u hu => decide_eq_true (hk u (List.mem_cons_of_mem _ hu)).2), hcs]
      rfl
    · cases deps with
      | nil => cases ht
      | cons d ds =>
      rw [List.map_cons, List.map_cons, List.cons.injEq] at ht
      -- The nodes of the inner tuples.
      have inner : ∀ j ∈ List.range t.fields.length, ∃ m,
          zipInner (d :: ds) j = some m ∧
            (m.attr.qtype = (columns[j]?).map .tuple ∧ m.Ok ∧
              ∀ e (vs : List Val), (d :: ds).map (fun n => n.run e) = vs.map some →
                ∃ r, m.run e = some (.tuple r) ∧ r.map some = vs.map fun v => v.fields[j]?) := by
        intro j hj
        rw [List.mem_range] at hj
        have hty : (d :: ds).map (·.attr.qtype) = (t :: ts).map some := by rw [List.map_cons, List.map_cons, ht.1, ht.2]
        obtain ⟨fs, hfs, hF⟩ := collect_map (l := d :: ds) (g := fun m => makeOpNode (getNth ((j : Nat) : Int)) [m])
          (P := fun n m => (n.attr.qtype.bind fun u => u.fields[j]?) = m.attr.qtype ∧ m.Ok ∧
            ∀ e, ((n.run e).bind fun v => v.fields[j]?) = if (n.run e).isSome then m.run e else none) (by
            intro n hn
            have hmem : n.attr.qtype ∈ (d :: ds).map (·.attr.qtype) := List.mem_map.2 ⟨n, hn, rfl⟩
            rw [hty] at hmem
            obtain ⟨u, hu, hun⟩ := List.mem_map.1 hmem
            obtain ⟨f, hf⟩ : ∃ f, u.fields[j]? = some f := ⟨_, List.getElem?_eq_getElem (by rw [(hk u hu).2]; exact hj)⟩
            obtain ⟨m, h1, h2, -, h4, h5⟩ := getNth_node (hok n hn) hun.symm hf
            refine ⟨m, h1, ?_, h4, ?_⟩
            · rw [← hun, h2]
              exact hf
            · intro e
              cases hv : n.run e with
              | none => rfl
              | some v => exact (h5 e v hv).symm)
        obtain ⟨c, hc⟩ : ∃ c, columns[j]? = some c := ⟨_, List.getElem?_eq_getElem (by rw [hz.1]; exact hj)⟩
        have hqs : fs.map (·.attr.qtype) = c.map some := by
          rw [hz.2 j c hc, List.map_map, ← forall₂_map (fun a b h => h.1) hF]
          have : (d :: ds).map (fun n => n.attr.qtype.bind fun u => u.fields[j]?) =
              ((d :: ds).map (·.attr.qtype)).map (fun q => q.bind fun u => u.fields[j]?) := by rw [List.map_map]; rfl
          rw [this, hty, List.map_map]
          rfl
        have hfok : ∀ f ∈ fs, f.Ok := by
          intro f hf
          obtain ⟨i, hi, rfl⟩ := List.getElem_of_mem hf
          have := hF.get (i := i) (by rw [hF.length_eq]; exact hi) hi
          exact this.2.1
        obtain ⟨m, hm, hma, hmok, hmr⟩ := makeTuple_node hqs hfok
        refine ⟨m, ?_, ?_, hmok, ?_⟩
        · unfold zipInner
          rw [hfs]
          exact hm
        · rw [hma, hc]
          rfl
        · intro e vs hvs
          have hrun : (d :: ds).map (fun n => (n.run e).bind fun v => v.fields[j]?) = fs.map fun m => m.run e := by
            have hall : ∀ n ∈ d :: ds, (n.run e).isSome = true := by
              intro n hn
              have : n.run e ∈ (d :: ds).map (fun n => n.run e) := List.mem_map.2 ⟨n, hn, rfl⟩
              rw [hvs] at this
              obtain ⟨v, -, hv⟩ := List.mem_map.1 this
              rw [← hv]
              rfl
            exact forall₂_map_mem hF fun n hn m h => by rw [h.2.2 e, if_pos (hall n hn)]
          have hrun' : (d :: ds).map (fun n => (n.run e).bind fun v => v.fields[j]?) = vs.map fun v => v.fields[j]? := by
            have : (d :: ds).map (fun n => (n.run e).bind fun v => v.fields[j]?) =
                ((d :: ds).map fun n => n.run e).map fun r => r.bind fun v => v.fields[j]? := by rw [List.map_map]; rfl
            rw [this, hvs, List.map_map]
            rfl
          have hex : ∃ r, collect (vs.map fun v => v.fields[j]?) = some r := by
            apply column_exists Val.fields
            intro v hv
            have : some v ∈ (d :: ds).map (fun n => n.run e) := by
              rw [hvs]
              exact List.mem_map.2 ⟨v, hv, rfl⟩
            obtain ⟨n, hn, hnv⟩ := List.mem_map.1 this
            have hmem : n.attr.qtype ∈ (d :: ds).map (·.attr.qtype) := List.mem_map.2 ⟨n, hn, rfl⟩
            rw [hty] at hmem
            obtain ⟨u, hu, hun⟩ := List.mem_map.1 hmem
            have h1 := ((hok n hn).2 e v hnv).1 u hun.symm
            have h2 := (hk u hu).2
            rw [← h1, ty_fields, List.length_map] at h2
            rw [h2]
            exact hj
          obtain ⟨r, hr⟩ := hex
          refine ⟨r, ?_, (collect_iff.1 hr).symm⟩
          exact hmr e r (by rw [← hrun, hrun', collect_iff.1 hr])
      obtain ⟨ms, hms, hM⟩ := collect_map inner
      obtain ⟨hmlen, hmP⟩ := forall₂_range hM
      have hmq : ms.map (·.attr.qtype) = (columns.map Ty.tuple).map some := by
        apply List.ext_getElem?
        intro j
        rw [List.getElem?_map, List.getElem?_map, List.getElem?_map]
        by_cases hj : j < ms.length
        · have := (hmP j _ (List.getElem?_eq_getElem hj)).1
          rw [List.getElem?_eq_getElem hj, Option.map_some, this]
          have hj' : j < columns.length := by rw [hz.1, ← hmlen]; exact hj
          rw [List.getElem?_eq_getElem hj']
          rfl
        · have hj' : ¬ j < columns.length := by rw [hz.1, ← hmlen]; exact hj
          rw [List.getElem?_eq_none (by omega), List.getElem?_eq_none (by omega)]
          rfl
      have hmok : ∀ f ∈ ms, f.Ok := by
        intro f hf
        obtain ⟨i, hi, rfl⟩ := List.getElem_of_mem hf
        exact (hmP i _ (List.getElem?_eq_getElem hi)).2.1
      obtain ⟨n, hn, hna, -, hnr⟩ := makeTuple_node hmq hmok
      refine ⟨n, ?_, hna, ?_⟩
      · unfold zipLower
        dsimp only
        rw [ht.1]
        dsimp only
        rw [(hsub t).2 (hk t List.mem_cons_self).1, zipCheck_spec _ _ _ ht.2,
          if_pos (List.all_eq_true.2 fun u hu => by
            have := hk u (List.mem_cons_of_mem _ hu)
            rw [(hsub u).2 this.1, this.2]
            simp)]
        dsimp only
        rw [if_neg (show ¬ ((!true) = true) from Bool.false_ne_true), hms]
        dsimp only
        rw [hn]
        rfl
      · intro e vs hvs
        obtain ⟨rs, hrs, hR⟩ := collect_map (l := ms) (g := fun m => (m.run e).bind fun v =>
            match v with
            | .tuple r => some r
            | _ => none)
          (P := fun m r => m.run e = some (.tuple r)) (by
            intro m hm
            obtain ⟨i, hi, rfl⟩ := List.getElem_of_mem hm
            obtain ⟨r, h1, -⟩ := (hmP i _ (List.getElem?_eq_getElem hi)).2.2 e vs hvs
            exact ⟨r, by rw [h1]; rfl, h1⟩)
        refine ⟨rs, ⟨?_, ?_⟩, ?_⟩
        · rw [← hR.length_eq, hmlen]
        · intro j c hc
          obtain ⟨hj, rfl⟩ := List.getElem?_eq_some_iff.1 hc
          have hj' : j < ms.length := by rw [hR.length_eq]; exact hj
          have h1 := hR.get (i := j) hj' hj
          obtain ⟨r, h2, h3⟩ := (hmP j _ (List.getElem?_eq_getElem hj')).2.2 e vs hvs
          have h4 : ms[j].run e = some (.tuple rs[j]) := h1
          rw [h4] at h2
          have h5 := Option.some.inj h2
          injection h5 with h5
          rw [h5, h3, List.map_map]
          rfl
        · apply hnr e
          rw [List.map_map]
          exact forall₂_map (fun a b h => h) hR

/-- Two pairs are zipped. -/
example : ∃ n, zipLower [samplePair, samplePair] = some (some n) ∧ ∃ rows, IsZip 2
    [[.other 0 3 [], .other 1 4 []], [.other 0 3 [], .other 1 4 []]] rows ∧ n.run 3 = some (.tuple (rows.map .tuple)) := by
  obtain ⟨-, -, -, n, hn, -, hr⟩ := (zip [samplePair, samplePair] (by
    intro n hn
    rcases List.mem_cons.1 hn with rfl | hn
    · exact samplePair_ok
    · rw [List.mem_singleton.1 hn]
      exact samplePair_ok) [.tuple [.other 0 [], .other 1 []], .tuple [.other 0 [], .other 1 []]] rfl (List.cons_ne_nil _ _)).2 2 (by
    intro t ht
    rcases List.mem_cons.1 ht with rfl | ht
    · exact ⟨.inr rfl, rfl⟩
    · rw [List.mem_singleton.1 ht]
      exact ⟨.inr rfl, rfl⟩)
  exact ⟨n, hn, hr 3 [.tuple [.other 0 3 [], .other 1 4 []], .tuple [.other 0 3 [], .other 1 4 []]] rfl⟩

/-- A pair and a triple are not. -/
example : basicInfer zipOutputQType [samplePair.attr, sampleTriple.attr] = none := rfl

/-- `core.zip` without arguments is the empty tuple. -/
theorem zip_empty :
    basicInfer zipOutputQType [] = some (.ofType (.tuple [])) ∧
      ∃ n : Node E, zipLower [] = some (some n) ∧ n.attr.qtype = some (.tuple []) ∧ ∀ e, n.run e = some (.tuple []) :=
  ⟨rfl, _, rfl, rfl, fun _ => rfl⟩

end Verif.Tuple
