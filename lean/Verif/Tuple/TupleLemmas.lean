import Verif.Tuple.TupleSpec
import Mathlib.Data.List.Basic

/-!
# Lemmas about the tuple operators
-/

namespace Verif.Tuple

variable {E : Type}

theorem tys_eq (vs : List Val) : tys vs = vs.map Val.ty := by
  induction vs with
  | nil => rfl
  | cons v vs ih => rw [tys, ih, List.map_cons]

theorem ty_fields (v : Val) : v.ty.fields = v.fields.map Val.ty := by
  cases v <;> simp [Val.ty, Ty.fields, Val.fields, tys_eq]

theorem ty_tuple (vs : List Val) : (Val.tuple vs).ty = .tuple (vs.map Val.ty) := by rw [Val.ty, tys_eq]

theorem collect_iff {α : Type} {l : List (Option α)} {r : List α} : collect l = some r ↔ l = r.map some := by
  induction l generalizing r with
  | nil =>
    cases r with
    | nil => exact ⟨fun _ => rfl, fun _ => rfl⟩
    | cons b r => exact ⟨fun h => (nomatch h), fun h => (nomatch h)⟩
  | cons a l ih =>
    cases a with
    | none =>
      cases r with
      | nil => exact ⟨fun h => (nomatch h), fun h => (nomatch h)⟩
      | cons b r => exact ⟨fun h => (nomatch h), fun h => (nomatch h)⟩
    | some a =>
      unfold collect
      cases hc : collect l with
      | none =>
        constructor
        · intro h
          cases h
        · intro h
          cases r with
          | nil => cases h
          | cons b r =>
            rw [List.map_cons, List.cons.injEq] at h
            rw [ih.2 h.2] at hc
            cases hc
      | some q =>
        have hq := ih.1 hc
        cases r with
        | nil => exact ⟨fun h => (nomatch h), fun h => (nomatch h)⟩
        | cons b r =>
          rw [List.map_cons, List.cons.injEq, Option.some.injEq, Option.some.injEq, List.cons.injEq]
          constructor
          · rintro ⟨rfl, rfl⟩
            exact ⟨rfl, hq⟩
          · rintro ⟨rfl, h⟩
            refine ⟨rfl, ?_⟩
            rw [← ih, hc] at h
            exact Option.some.inj h

theorem collect_map_some {α : Type} (r : List α) : collect (r.map some) = some r := collect_iff.2 rfl

/-- The node that `makeOpNode` makes. -/
theorem makeOpNode_iff {op : Op} {args : List (Node E)} {n : Node E} (h : makeOpNode op args = some n) :
    op.infer (args.map (·.attr)) = some n.attr ∧ ∀ e vs, args.map (fun m => m.run e) = vs.map some → n.run e = op.eval vs := by
  unfold makeOpNode at h
  split at h
  · cases h
  · rename_i attr ha
    obtain rfl := Option.some.inj h
    refine ⟨ha, ?_⟩
    intro e vs hvs
    dsimp only
    rw [hvs, collect_map_some]

theorem makeOpNode_of {op : Op} {args : List (Node E)} {a : Attr} (h : op.infer (args.map (·.attr)) = some a) :
    ∃ n, makeOpNode op args = some n ∧ n.attr = a ∧ ∀ e vs, args.map (fun m => m.run e) = vs.map some → n.run e = op.eval vs := by
  cases hn : makeOpNode op args with
  | none =>
    unfold makeOpNode at hn
    rw [h] at hn
    cases hn
  | some n =>
    obtain ⟨h1, h2⟩ := makeOpNode_iff hn
    refine ⟨n, rfl, ?_, h2⟩
    rw [h] at h1
    exact (Option.some.inj h1).symm

/-- An expression fails if one of its arguments does. -/
theorem makeOpNode_run {op : Op} {args : List (Node E)} {n : Node E} (h : makeOpNode op args = some n) {e : E} {v : Val}
    (hv : n.run e = some v) : ∃ vs, args.map (fun m => m.run e) = vs.map some ∧ op.eval vs = some v := by
  unfold makeOpNode at h
  split at h
  · cases h
  · obtain rfl := Option.some.inj h
    dsimp only at hv
    split at hv
    · cases hv
    · rename_i vs hvs
      exact ⟨vs, collect_iff.1 hvs, hv⟩

theorem makeOpNode_ok {op : Op} {args : List (Node E)} {n : Node E} (h : makeOpNode op args = some n) (hs : op.Sound)
    (ha : ∀ a ∈ args, a.Ok) : n.Ok := by
  obtain ⟨h1, h2⟩ := makeOpNode_iff h
  obtain ⟨h3, h4⟩ := hs _ _ h1
  refine ⟨h3, ?_⟩
  intro e v hv
  obtain ⟨vs, hvs, he⟩ := makeOpNode_run h hv
  refine h4 vs v ?_ ?_ he
  · have := congrArg List.length hvs
    simpa using this
  · intro i b w hb hw
    have hi := congrArg (fun l => l[i]?) hvs
    rw [List.getElem?_map, List.getElem?_map, hw] at hi
    rw [List.getElem?_map] at hb
    cases hx : args[i]? with
    | none => rw [hx] at hb; cases hb
    | some x =>
      rw [hx] at hb hi
      obtain rfl := Option.some.inj hb
      exact (ha x (List.mem_of_getElem? hx)).2 e w (Option.some.inj hi)

theorem getNth_sound (k : Int) : (getNth k).Sound := by
  intro as a h
  unfold getNth at h
  dsimp only at h
  split at h
  · rename_i b
    unfold getNthInfer at h
    split at h
    · obtain rfl := Option.some.inj h
      exact ⟨fun c hc => (nomatch hc), fun vs v _ _ _ => ⟨fun t ht => (nomatch ht), fun c hc => (nomatch hc)⟩⟩
    · rename_i t ht
      split at h
      · cases h
      split at h
      · cases h
      rename_i hk
      have hk0 : ¬ k < 0 := fun hh => hk (Or.inl hh)
      split at h
      · obtain ⟨u, hu, rfl⟩ := Option.map_eq_some_iff.1 h
        refine ⟨fun c hc => (nomatch hc), ?_⟩
        intro vs v hl hh hv
        match vs, hl with
        | [w], _ =>
          have hw := hh 0 b w rfl rfl
          change (if k < 0 then none else w.fields[k.toNat]?) = some v at hv
          rw [if_neg hk0] at hv
          refine ⟨?_, fun c hc => (nomatch hc)⟩
          intro t' ht'
          obtain rfl := Option.some.inj ht'
          have := hw.1 t ht
          rw [← this, ty_fields, List.getElem?_map, hv] at hu
          exact Option.some.inj hu
      · rename_i c hc
        obtain ⟨u, hu, rfl⟩ := Option.map_eq_some_iff.1 h
        refine ⟨fun c hc => ?_, ?_⟩
        · obtain rfl := Option.some.inj hc
          rfl
        · intro vs v hl hh hv
          match vs, hl with
          | [w], _ =>
            have hw := hh 0 b w rfl rfl
            change (if k < 0 then none else w.fields[k.toNat]?) = some v at hv
            rw [if_neg hk0] at hv
            have := hw.2 c hc
            subst this
            rw [hv] at hu
            obtain rfl := Option.some.inj hu
            exact ⟨fun t ht => Option.some.inj ht, fun c hc => Option.some.inj hc⟩
  · cases h

theorem makeTuple_infer {attrs : List Attr} {ts : List Ty} (h : attrs.map (·.qtype) = ts.map some) :
    makeTuple.infer attrs = some (.ofType (.tuple ts)) := by
  have h1 : hasAllQTypes attrs = true := by
    unfold hasAllQTypes
    rw [List.all_eq_true]
    intro a ha
    have : a.qtype ∈ attrs.map (·.qtype) := List.mem_map.2 ⟨a, ha, rfl⟩
    rw [h] at this
    obtain ⟨t, -, ht⟩ := List.mem_map.1 this
    rw [← ht]
    rfl
  have h2 : qtypes attrs = ts := by
    unfold qtypes
    have : attrs.filterMap (fun a => a.qtype) = (attrs.map (·.qtype)).filterMap id := by rw [List.filterMap_map]; rfl
    rw [this, h, List.filterMap_map]
    simp
  show some (if hasAllQTypes attrs then _ else _) = _
  rw [h1, h2]
  rfl

theorem makeTuple_sound : makeTuple.Sound := by
  intro as a h
  change some (if hasAllQTypes as then Attr.ofType (.tuple (qtypes as)) else .empty) = some a at h
  split at h
  · rename_i hall
    obtain rfl := Option.some.inj h
    refine ⟨fun c hc => (nomatch hc), ?_⟩
    intro vs v hl hh hv
    change some (Val.tuple vs) = some v at hv
    obtain rfl := Option.some.inj hv
    refine ⟨?_, fun c hc => (nomatch hc)⟩
    intro t ht
    obtain rfl := Option.some.inj ht
    rw [ty_tuple]
    congr 1
    clear h hv ht
    induction as generalizing vs with
    | nil =>
      cases vs with
      | nil => rfl
      | cons w vs => cases hl
    | cons b as ih =>
      cases vs with
      | nil => cases hl
      | cons w vs =>
        unfold hasAllQTypes at hall
        rw [List.all_cons, Bool.and_eq_true] at hall
        cases hb : b.qtype with
        | none => rw [hb] at hall; cases hall.1
        | some u =>
          unfold qtypes
          rw [List.filterMap_cons, hb, List.map_cons, (hh 0 b w rfl rfl).1 u hb]
          dsimp only
          congr 1
          refine ih hall.2 vs ?_ ?_
          · simpa using hl
          · intro i b' w' h1 h2
            exact hh (i + 1) b' w' h1 h2
  · obtain rfl := Option.some.inj h
    exact ⟨fun c hc => (nomatch hc), fun vs v _ _ _ => ⟨fun t ht => (nomatch ht), fun c hc => (nomatch hc)⟩⟩

/-! ## The nodes of the fields -/

theorem getNth_node {n : Node E} (hn : n.Ok) {t f : Ty} (ht : n.attr.qtype = some t) {i : Nat} (hf : t.fields[i]? = some f) :
    ∃ m, makeOpNode (getNth (i : Int)) [n] = some m ∧ m.attr.qtype = some f ∧ (n.attr.qvalue = none → m.attr = .ofType f) ∧
      m.Ok ∧ ∀ e v, n.run e = some v → m.run e = v.fields[i]? := by
  have hi : i < t.fields.length := (List.getElem?_eq_some_iff.1 hf).1
  have hinf : ∃ a, getNthInfer (i : Int) n.attr = some a ∧ a.qtype = some f ∧ (n.attr.qvalue = none → a = .ofType f) := by
    unfold getNthInfer
    rw [ht]
    dsimp only
    have hne : (t.fields.isEmpty && !t.isTuple) = false := by
      cases hh : t.fields with
      | nil => rw [hh] at hi; exact absurd hi (Nat.not_lt_zero _)
      | cons _ _ => rfl
    rw [hne, if_neg Bool.false_ne_true]
    have hk : ¬ ((i : Int) < 0 ∨ (i : Int).toNat ≥ t.fields.length) := by omega
    rw [if_neg hk]
    cases hv : n.attr.qvalue with
    | none =>
      dsimp only
      rw [Int.toNat_natCast, hf]
      exact ⟨_, rfl, rfl, fun _ => rfl⟩
    | some v =>
      dsimp only
      have h1 := hn.1 v hv
      rw [ht] at h1
      obtain rfl := Option.some.inj h1
      rw [ty_fields, List.getElem?_map] at hf
      obtain ⟨w, hw, rfl⟩ := Option.map_eq_some_iff.1 hf
      rw [Int.toNat_natCast, hw]
      exact ⟨_, rfl, rfl, fun h => (nomatch h)⟩
  obtain ⟨a, ha, hq, hnone⟩ := hinf
  obtain ⟨m, hm, rfl, hrun⟩ := makeOpNode_of (op := getNth (i : Int)) (args := [n]) (a := a) ha
  refine ⟨m, hm, hq, hnone, makeOpNode_ok hm (getNth_sound _) ?_, ?_⟩
  · intro x hx
    rw [List.mem_singleton] at hx
    rw [hx]
    exact hn
  · intro e v hv
    rw [hrun e [v] (by rw [List.map_cons, hv]; rfl)]
    show (if (i : Int) < 0 then none else v.fields[(i : Int).toNat]?) = _
    rw [if_neg (by omega), Int.toNat_natCast]

/-- What the nodes of the fields are. -/
structure Fields (n : Node E) (t : Ty) (o k : Nat) (fs : List (Node E)) : Prop where
  types : fs.map (·.attr.qtype) = ((t.fields.drop o).take k).map some
  attrs : n.attr.qvalue = none → fs.map (·.attr) = ((t.fields.drop o).take k).map .ofType
  runs : ∀ e v, n.run e = some v → fs.map (fun f => f.run e) = ((v.fields.drop o).take k).map some
  ok : ∀ f ∈ fs, f.Ok

theorem fieldNodes_succ (n : Node E) (o k : Nat) :
    fieldNodes n o (k + 1) =
      match makeOpNode (getNth (o : Int)) [n] with
      | none => none
      | some f =>
        match fieldNodes n (o + 1) k with
        | none => none
        | some fs => some (f :: fs) := by
  unfold fieldNodes
  rw [List.range_succ_eq_map, List.map_cons, List.map_map]
  have : ((fun i => makeOpNode (getNth ((o + i : Nat) : Int)) [n]) ∘ Nat.succ) =
      fun i => makeOpNode (getNth ((o + 1 + i : Nat) : Int)) [n] := by
    funext i
    show makeOpNode (getNth ((o + (i + 1) : Nat) : Int)) [n] = _
    rw [show o + (i + 1) = o + 1 + i by omega]
  rw [this]
  show collect (makeOpNode (getNth (o : Int)) [n] :: _) = _
  cases makeOpNode (getNth (o : Int)) [n] with
  | none => rfl
  | some f =>
    rw [collect]
    cases collect ((List.range k).map fun i => makeOpNode (getNth ((o + 1 + i : Nat) : Int)) [n]) <;> rfl

theorem fieldNodes_spec {n : Node E} (hn : n.Ok) {t : Ty} (ht : n.attr.qtype = some t) (o k : Nat) (hk : o + k ≤ t.fields.length) :
    ∃ fs, fieldNodes n o k = some fs ∧ Fields n t o k fs := by
  induction k generalizing o with
  | zero =>
    refine ⟨[], rfl, ?_⟩
    constructor
    · simp
    · intro _
      simp
    · intro e v _
      simp
    · intro f hf
      cases hf
  | succ k ih =>
    obtain ⟨fs, hfs, hF⟩ := ih (o + 1) (by omega)
    have ho : o < t.fields.length := by omega
    obtain ⟨m, hm, h1, h2, h3, h4⟩ := getNth_node hn ht (List.getElem?_eq_getElem ho)
    refine ⟨m :: fs, ?_, ?_⟩
    · rw [fieldNodes_succ, hm, hfs]
    · have hd : (t.fields.drop o).take (k + 1) = t.fields[o] :: (t.fields.drop (o + 1)).take k := by
        rw [List.drop_eq_getElem_cons ho, List.take_succ_cons]
      constructor
      · rw [hd, List.map_cons, List.map_cons, h1, hF.types]
      · intro hv
        rw [hd, List.map_cons, List.map_cons, h2 hv, hF.attrs hv]
      · intro e v hv
        have hvo : o < v.fields.length := by
          have := (hn.2 e v hv).1 t ht
          rw [← this, ty_fields, List.length_map] at ho
          exact ho
        rw [List.drop_eq_getElem_cons hvo, List.take_succ_cons, List.map_cons, List.map_cons, h4 e v hv, hF.runs e v hv,
          List.getElem?_eq_getElem hvo]
      · intro f hf
        rcases List.mem_cons.1 hf with rfl | hf
        · exact h3
        · exact hF.ok f hf

theorem fieldNodes_all {n : Node E} (hn : n.Ok) {t : Ty} (ht : n.attr.qtype = some t) :
    ∃ fs, fieldNodes n 0 t.fields.length = some fs ∧ fs.map (·.attr.qtype) = t.fields.map some ∧
      (n.attr.qvalue = none → fs.map (·.attr) = t.fields.map .ofType) ∧
      (∀ e v, n.run e = some v → fs.map (fun f => f.run e) = v.fields.map some) ∧ ∀ f ∈ fs, f.Ok := by
  obtain ⟨fs, hfs, hF⟩ := fieldNodes_spec hn ht 0 t.fields.length (by omega)
  refine ⟨fs, hfs, ?_, ?_, ?_, hF.ok⟩
  · have := hF.types
    rwa [List.drop_zero, List.take_length] at this
  · intro h
    have := hF.attrs h
    rwa [List.drop_zero, List.take_length] at this
  · intro e v hv
    have h1 := hF.runs e v hv
    have h2 := (hn.2 e v hv).1 t ht
    have h3 : t.fields.length = v.fields.length := by rw [← h2, ty_fields, List.length_map]
    rwa [List.drop_zero, h3, List.take_length] at h1

/-- A tuple of nodes. -/
theorem makeTuple_node {fs : List (Node E)} {ts : List Ty} (ht : fs.map (·.attr.qtype) = ts.map some) (hok : ∀ f ∈ fs, f.Ok) :
    ∃ n, makeOpNode makeTuple fs = some n ∧ n.attr = .ofType (.tuple ts) ∧ n.Ok ∧
      ∀ e vs, fs.map (fun m => m.run e) = vs.map some → n.run e = some (.tuple vs) := by
  have h : makeTuple.infer (fs.map (·.attr)) = some (.ofType (.tuple ts)) := by
    apply makeTuple_infer
    rw [List.map_map]
    exact ht
  obtain ⟨n, hn, ha, hr⟩ := makeOpNode_of h
  exact ⟨n, hn, ha, makeOpNode_ok hn makeTuple_sound hok, hr⟩

/-! ## Examples of expressions -/

/-- A pair of different types. -/
def samplePair : Node Nat := ⟨.ofType (.tuple [.other 0 [], .other 1 []]), fun x => some (.tuple [.other 0 x [], .other 1 (x + 1) []])⟩

theorem samplePair_ok : samplePair.Ok := by
  refine ⟨?_, ?_⟩
  · intro v h
    cases h
  · intro e v h
    obtain rfl := Option.some.inj h
    refine ⟨?_, ?_⟩
    · intro t ht
      obtain rfl := Option.some.inj ht
      rfl
    · intro w hw
      cases hw

/-- A triple of one type. -/
def sampleTriple : Node Nat :=
  ⟨.ofType (.tuple [.other 0 [], .other 0 [], .other 0 []]), fun x => some (.tuple [.other 0 x [], .other 0 5 [], .other 0 7 []])⟩

theorem sampleTriple_ok : sampleTriple.Ok := by
  refine ⟨?_, ?_⟩
  · intro v h
    cases h
  · intro e v h
    obtain rfl := Option.some.inj h
    refine ⟨?_, ?_⟩
    · intro t ht
      obtain rfl := Option.some.inj ht
      rfl
    · intro w hw
      cases hw

/-- Subtraction of values of the type `other 0`. -/
def sampleOp : Op where
  infer
    | [a, b] =>
      match a.qtype, b.qtype with
      | some (.other 0 []), some (.other 0 []) => some (.ofType (.other 0 []))
      | none, _ | _, none => some .empty
      | _, _ => none
    | _ => none
  eval
    | [.other 0 x [], .other 0 y []] => some (.other 0 (100 + x - y) [])
    | _ => none

/-- A named tuple. -/
def sampleNamed (names : List String) (k : Nat) : Node Nat :=
  ⟨.ofType (.named names [.other k [], .other 1 []]), fun x => some (.named names [.other k x [], .other 1 (x + k) []])⟩

theorem sampleNamed_ok (names : List String) (k : Nat) : (sampleNamed names k).Ok := by
  refine ⟨?_, ?_⟩
  · intro v h
    cases h
  · intro e v h
    obtain rfl := Option.some.inj h
    refine ⟨?_, ?_⟩
    · intro t ht
      obtain rfl := Option.some.inj ht
      rfl
    · intro w hw
      cases hw

end Verif.Tuple
