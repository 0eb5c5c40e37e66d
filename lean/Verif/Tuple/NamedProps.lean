import Verif.Tuple.TupleProps
import Mathlib.Data.List.Nodup

/-!
# Properties of the operators on named tuples
-/

namespace Verif.Tuple

variable {E : Type}

/-! ## C151 -/

theorem ty_is_tuple {v : Val} {fs : List Ty} (h : v.ty = .tuple fs) : ∃ vs, v = .tuple vs := by
  cases v with
  | tuple vs => exact ⟨vs, rfl⟩
  | named ns vs => rw [Val.ty] at h; cases h
  | other n x vs => rw [Val.ty] at h; cases h

theorem ty_is_named {v : Val} {ns : List String} {fs : List Ty} (h : v.ty = .named ns fs) : ∃ vs, v = .named ns vs := by
  cases v with
  | tuple vs => rw [Val.ty] at h; cases h
  | named ns' vs =>
    rw [Val.ty] at h
    injection h with h1 h2
    exact ⟨vs, by rw [h1]⟩
  | other n x vs => rw [Val.ty] at h; cases h

theorem downcast_node {n : Node E} {names : List String} {fs : List Ty} (ht : n.attr.qtype = some (.tuple fs)) :
    ∃ m, downcastTo (.named names fs) n = some (some m) ∧ m.attr = .ofType (.named names fs) ∧
      ∀ e vs, n.run e = some (.tuple vs) → m.run e = some (.named names vs) := by
  obtain ⟨m, hm, ha, hr⟩ := makeOpNode_of (op := downcast names fs) (args := [n]) (a := .ofType (.named names fs)) (by
    unfold downcast
    rw [List.map_cons, List.map_nil]
    dsimp only
    rw [ht]
    dsimp only
    rw [if_pos rfl])
  refine ⟨m, ?_, ha, ?_⟩
  · unfold downcastTo
    dsimp only
    rw [hm]
    rfl
  · intro e vs hv
    rw [hr e [.tuple vs] (by rw [List.map_cons, hv]; rfl)]
    rfl

/-- `namedtuple._make` accepts exactly tuples with as many fields as there are names, which must be different; it is lowered to an expression
of the inferred type whose value has these fields. -/
theorem named_make (n : Node E) (hn : n.Ok) (t : Ty) (ht : n.attr.qtype = some t) (names : List String) :
    (¬ (∃ fs, t = .tuple fs ∧ names.length = fs.length ∧ names.Nodup) → namedMakeInfer (.literal names) n.attr = none) ∧
      ∀ fs, t = .tuple fs → names.length = fs.length → names.Nodup →
        namedMakeInfer (.literal names) n.attr = some (.ofType (.named names fs)) ∧
          ∃ m, namedMakeLower (.ofType (.named names fs)) n = some (some m) ∧ m.attr = .ofType (.named names fs) ∧
            ∀ e v, n.run e = some v → m.run e = some (.named names v.fields) := by
  constructor
  · intro hno
    unfold namedMakeInfer
    dsimp only
    rw [ht]
    dsimp only
    cases t with
    | tuple fs =>
      unfold makeNamedTupleQType
      dsimp only
      split
      · rfl
      · rename_i hl
        split
        · rename_i hd
          exact absurd ⟨fs, rfl, not_not.1 hl, hd⟩ hno
        · rfl
    | named _ _ => rfl
    | other _ _ => rfl
  · rintro fs rfl hl hd
    refine ⟨?_, ?_⟩
    · unfold namedMakeInfer
      dsimp only
      rw [ht]
      dsimp only
      unfold makeNamedTupleQType
      dsimp only
      rw [if_neg (not_not.2 hl), if_pos hd]
      rfl
    · obtain ⟨m, hm, ha, hr⟩ := downcast_node (names := names) ht
      refine ⟨m, hm, ha, ?_⟩
      intro e v hv
      obtain ⟨vs, rfl⟩ := ty_is_tuple ((hn.2 e v hv).1 _ ht)
      exact hr e vs hv

/-- Two names for a pair. -/
example : namedMakeInfer (.literal ["a", "b"]) samplePair.attr = some (.ofType (.named ["a", "b"] [.other 0 [], .other 1 []])) :=
  ((named_make samplePair samplePair_ok _ rfl ["a", "b"]).2 _ rfl rfl (by decide)).1

/-- A name that is repeated. -/
example : namedMakeInfer (.literal ["a", "a"]) samplePair.attr = none :=
  (named_make samplePair samplePair_ok _ rfl ["a", "a"]).1 (fun ⟨_, _, _, h⟩ => absurd h (by decide))

theorem findIdx_of_nodup {names : List String} (hd : names.Nodup) {i : Nat} {name : String} (h : names[i]? = some name) :
    names.findIdx? (· = name) = some i := by
  obtain ⟨hi, rfl⟩ := List.getElem?_eq_some_iff.1 h
  rw [List.findIdx?_eq_some_iff_getElem]
  refine ⟨hi, by simp, ?_⟩
  intro j hj
  simp only [decide_eq_true_eq]
  intro he
  have := (List.Nodup.getElem_inj_iff hd).1 he
  omega

/-- `namedtuple.get_field` returns the field of this name, of the inferred type, and rejects other names. -/
theorem named_get_field (n : Node E) (hn : n.Ok) (names : List String) (fs : List Ty) (ht : n.attr.qtype = some (.named names fs))
    (hd : names.Nodup) (name : String) :
    (name ∉ names → getFieldInfer n.attr (.literal name) = none) ∧
      ∀ (i : Nat) f, names[i]? = some name → fs[i]? = some f →
        getFieldInfer n.attr (.literal name) = some (.ofType f) ∧
          ∃ m, getFieldLower (.ofType f) n (.literal name) = some (some m) ∧ m.attr.qtype = some f ∧
            ∀ e v, n.run e = some v → ∃ w, m.run e = some w ∧ v.fields[i]? = some w ∧ w.ty = f := by
  constructor
  · intro hno
    unfold getFieldInfer
    rw [ht]
    dsimp only
    have : (Ty.named names fs).fieldIndex name = none := by
      unfold Ty.fieldIndex Ty.names
      rw [List.findIdx?_eq_none_iff]
      intro x hx
      simp only [decide_eq_false_iff_not]
      rintro rfl
      exact hno hx
    rw [this]
  · intro i f hi hf
    have hidx : (Ty.named names fs).fieldIndex name = some i := findIdx_of_nodup hd hi
    refine ⟨?_, ?_⟩
    · unfold getFieldInfer
      rw [ht]
      dsimp only
      rw [hidx]
      show fs[i]?.map _ = _
      rw [hf]
      rfl
    · obtain ⟨m, hm, h1, -, -, h4⟩ := getNth_node hn ht (i := i) (f := f) hf
      refine ⟨m, ?_, h1, ?_⟩
      · unfold getFieldLower
        rw [ht]
        show (match (Ty.named names fs).fieldIndex name with | none => none | some i => _) = _
        rw [hidx]
        dsimp only
        rw [hm]
        rfl
      · intro e v hv
        have hty := (hn.2 e v hv).1 _ ht
        have hf' : v.ty.fields[i]? = some f := by rw [hty]; exact hf
        rw [ty_fields, List.getElem?_map] at hf'
        obtain ⟨w, hw, rfl⟩ := Option.map_eq_some_iff.1 hf'
        exact ⟨w, by rw [h4 e v hv, hw], hw, rfl⟩

/-- The field `b`. -/
example : ∃ m, getFieldLower (.ofType (.other 1 [])) (sampleNamed ["a", "b"] 4) (.literal "b") = some (some m) ∧
    ∃ w, m.run 3 = some w ∧ w.ty = .other 1 [] := by
  obtain ⟨-, m, hm, -, hr⟩ := (named_get_field (sampleNamed ["a", "b"] 4) (sampleNamed_ok _ _) _ _ rfl (by decide) "b").2 1 (.other 1 [])
    rfl rfl
  obtain ⟨w, h1, -, h3⟩ := hr 3 _ rfl
  exact ⟨m, hm, w, h1, h3⟩

/-! ### The union -/

/-- `field_name_to_index` is the index of the fields. -/
def Inv (st : List Descriptor × List (String × Nat)) : Prop :=
  ∀ k, lookupName k st.2 = (st.1.map (·.name)).findIdx? (· = k)

theorem addField_spec (st : List Descriptor × List (String × Nat)) (hi : Inv st) (hd : (st.1.map (·.name)).Nodup) (d : Descriptor) :
    Inv (addField st d) ∧
      (addField st d).1.map (·.name) = (if d.name ∈ st.1.map (·.name) then st.1.map (·.name) else st.1.map (·.name) ++ [d.name]) ∧
      ∀ x ∈ (addField st d).1, x = d ∨ (x ∈ st.1 ∧ x.name ≠ d.name) := by
  obtain ⟨ds, m⟩ := st
  dsimp only at hd ⊢
  unfold Inv at hi
  dsimp only at hi
  cases hl : lookupName d.name m with
  | none =>
    have he : addField (ds, m) d = (ds ++ [d], (d.name, ds.length) :: m) := by
      unfold addField
      dsimp only
      rw [hl]
    have hno : d.name ∉ ds.map (·.name) := by
      have h1 := hi d.name
      rw [hl] at h1
      have h2 := List.findIdx?_eq_none_iff.1 h1.symm
      intro hm
      have := h2 _ hm
      simp at this
    rw [he, if_neg hno]
    refine ⟨?_, by simp, ?_⟩
    · intro k
      dsimp only
      rw [List.map_append, List.findIdx?_append, lookupName, hi k]
      by_cases hk : d.name = k
      · subst hk
        rw [if_pos rfl]
        have h1 := hi d.name
        rw [hl] at h1
        rw [← h1]
        simp
      · rw [if_neg hk]
        have : ([d].map (·.name)).findIdx? (· = k) = none := by simp [hk]
        rw [this]
        simp
    · intro x hx
      rcases List.mem_append.1 hx with hx | hx
      · right
        refine ⟨hx, ?_⟩
        intro hc
        exact hno (List.mem_map.2 ⟨x, hx, hc⟩)
      · left
        exact List.mem_singleton.1 hx
  | some i =>
    have he : addField (ds, m) d = (ds.set i d, m) := by
      unfold addField
      dsimp only
      rw [hl]
    have h1 := hi d.name
    rw [hl] at h1
    obtain ⟨hlt, hp, -⟩ := List.findIdx?_eq_some_iff_getElem.1 h1.symm
    rw [decide_eq_true_eq] at hp
    have hmem : d.name ∈ ds.map (·.name) := by
      rw [← hp]
      exact List.getElem_mem _
    have hnames : (ds.set i d).map (·.name) = ds.map (·.name) := by
      rw [List.map_set, ← hp, List.set_getElem_self]
    rw [he, if_pos hmem]
    refine ⟨?_, hnames, ?_⟩
    · intro k
      dsimp only
      rw [hnames]
      exact hi k
    · intro x hx
      dsimp only at hx
      obtain ⟨j, hj, rfl⟩ := List.getElem_of_mem hx
      rw [List.length_set] at hj
      by_cases hij : i = j
      · subst hij
        left
        rw [List.getElem_set_self]
      · right
        rw [List.getElem_set_ne hij]
        refine ⟨List.getElem_mem _, ?_⟩
        intro hc
        have h2 : (ds.map (·.name))[j]'(by rw [List.length_map]; exact hj) = (ds.map (·.name))[i] := by
          rw [hp, List.getElem_map]
          exact hc
        exact hij ((List.Nodup.getElem_inj_iff hd).1 h2).symm

theorem foldFields_spec (l : List Descriptor) (hl : (l.map (·.name)).Nodup) (st : List Descriptor × List (String × Nat)) (hi : Inv st)
    (hd : (st.1.map (·.name)).Nodup) :
    Inv (l.foldl addField st) ∧
      (l.foldl addField st).1.map (·.name) = st.1.map (·.name) ++ (l.map (·.name)).filter (fun k => k ∉ st.1.map (·.name)) ∧
      ((l.foldl addField st).1.map (·.name)).Nodup ∧
      ∀ x ∈ (l.foldl addField st).1, x ∈ l ∨ (x ∈ st.1 ∧ x.name ∉ l.map (·.name)) := by
  induction l generalizing st with
  | nil => exact ⟨hi, by simp, hd, fun x hx => .inr ⟨hx, by simp⟩⟩
  | cons d l ih =>
    rw [List.map_cons, List.nodup_cons] at hl
    obtain ⟨h1, h2, h3⟩ := addField_spec st hi hd d
    have hd' : ((addField st d).1.map (·.name)).Nodup := by
      rw [h2]
      split
      · exact hd
      · rename_i hno
        rw [List.nodup_append]
        refine ⟨hd, List.nodup_singleton _, ?_⟩
        intro a ha b hb
        rw [List.mem_singleton] at hb
        subst hb
        rintro rfl
        exact hno ha
    obtain ⟨g1, g2, g3, g4⟩ := ih hl.2 (addField st d) h1 hd'
    rw [List.foldl_cons]
    refine ⟨g1, ?_, g3, ?_⟩
    · rw [g2, h2, List.map_cons]
      split
      · rename_i hm
        rw [List.filter_cons, if_neg (by simpa using hm)]
      · rename_i hm
        rw [List.filter_cons, if_pos (by simpa using hm), List.append_assoc]
        congr 1
        rw [List.cons_append, List.nil_append]
        congr 1
        apply List.filter_congr
        intro k hk
        have : k ≠ d.name := by
          rintro rfl
          exact hl.1 hk
        simp [this]
    · intro x hx
      rcases g4 x hx with hx | ⟨hx, hxn⟩
      · exact .inl (List.mem_cons_of_mem _ hx)
      · rcases h3 x hx with rfl | ⟨hx, hne⟩
        · exact .inl List.mem_cons_self
        · refine .inr ⟨hx, ?_⟩
          rw [List.map_cons, List.mem_cons]
          rintro (h | h)
          · exact hne h
          · exact hxn h

theorem descriptors_names (c : Nat) (names : List String) : (descriptors c names).map (·.name) = names := by
  unfold descriptors
  rw [List.map_map]
  show names.zipIdx.map (fun x => x.1) = names
  exact List.zipIdx_map_fst 0 names

theorem mem_descriptors {c : Nat} {names : List String} {d : Descriptor} (h : d ∈ descriptors c names) :
    d.comesFrom = c ∧ names[d.index]? = some d.name := by
  unfold descriptors at h
  obtain ⟨⟨k, i⟩, hx, rfl⟩ := List.mem_map.1 h
  exact ⟨rfl, List.mk_mem_zipIdx_iff_getElem?.1 hx⟩

theorem unionFields_spec (ns ms : List String) (fs gs : List Ty) (hn : ns.Nodup) (hm : ms.Nodup) :
    ∃ ds, unionFields (.named ns fs) (.named ms gs) = some ds ∧ ds.map (·.name) = ns ++ ms.filter (fun m => m ∉ ns) ∧
      (ds.map (·.name)).Nodup ∧
      ∀ d ∈ ds, (d.comesFrom ≠ 0 ∧ ms[d.index]? = some d.name) ∨ (d.comesFrom = 0 ∧ ns[d.index]? = some d.name ∧ d.name ∉ ms) := by
  obtain ⟨a1, a2, a3, a4⟩ := foldFields_spec (descriptors 0 ns) (by rw [descriptors_names]; exact hn) ([], []) (fun k => rfl)
    List.nodup_nil
  obtain ⟨-, b2, b3, b4⟩ := foldFields_spec (descriptors 1 ms) (by rw [descriptors_names]; exact hm) _ a1 a3
  have hnames : ((descriptors 0 ns).foldl addField ([], [])).1.map (·.name) = ns := by
    rw [a2, descriptors_names]
    simp
  refine ⟨_, rfl, ?_, b3, ?_⟩
  · rw [hnames, descriptors_names] at b2
    exact b2
  · intro d hd
    rcases b4 d hd with h | ⟨h, h'⟩
    · obtain ⟨h1, h2⟩ := mem_descriptors h
      exact .inl ⟨by rw [h1]; decide, h2⟩
    · rcases a4 d h with h | ⟨h, -⟩
      · obtain ⟨h1, h2⟩ := mem_descriptors h
        rw [descriptors_names] at h'
        exact .inr ⟨h1, h2, h'⟩
      · cases h

theorem isUnion_of {α : Type} {ns ms : List String} {xs ys zs : List α} {ds : List Descriptor}
    (hds : ds.map (·.name) = ns ++ ms.filter (fun m => m ∉ ns))
    (hmem : ∀ d ∈ ds, (d.comesFrom ≠ 0 ∧ ms[d.index]? = some d.name) ∨ (d.comesFrom = 0 ∧ ns[d.index]? = some d.name ∧ d.name ∉ ms))
    (hz : zs.map some = ds.map fun d => (if d.comesFrom = 0 then xs else ys)[d.index]?) :
    IsUnion ns ms xs ys (ns ++ ms.filter (fun m => m ∉ ns)) zs := by
  have hlen : zs.length = ds.length := by simpa using congrArg List.length hz
  refine ⟨rfl, ?_, ?_⟩
  · rw [← hds, List.length_map, hlen]
  · intro j name hj
    rw [← hds, List.getElem?_map] at hj
    obtain ⟨d, hd, rfl⟩ := Option.map_eq_some_iff.1 hj
    have hzj : (zs.map some)[j]? = some ((if d.comesFrom = 0 then xs else ys)[d.index]?) := by
      rw [hz, List.getElem?_map, hd]
      rfl
    rw [List.getElem?_map] at hzj
    obtain ⟨z, hzz, hzd⟩ := Option.map_eq_some_iff.1 hzj
    rcases hmem d (List.mem_of_getElem? hd) with ⟨h1, h2⟩ | ⟨h1, h2, h3⟩
    · rw [if_neg h1] at hzd
      exact .inl ⟨d.index, h2, by rw [hzz]; exact hzd⟩
    · rw [if_pos h1] at hzd
      exact .inr ⟨h3, d.index, h2, by rw [hzz]; exact hzd⟩

/-- `namedtuple.union`: the fields of the first named tuple in their order, then those of the second that are not in the first; a field that
is in both has the type and the value of the second.  The lowered expression has the inferred type. -/
theorem named_union (first second : Node E) (h1 : first.Ok) (h2 : second.Ok) (ns ms : List String) (fs gs : List Ty)
    (t1 : first.attr.qtype = some (.named ns fs)) (t2 : second.attr.qtype = some (.named ms gs)) (hn : ns.Nodup) (hm : ms.Nodup)
    (ln : ns.length = fs.length) (lm : ms.length = gs.length) :
    ∃ names ts, IsUnion ns ms fs gs names ts ∧ unionInfer first.attr second.attr = some (.ofType (.named names ts)) ∧
      ∃ n, unionLower (.ofType (.named names ts)) first second = some (some n) ∧ n.attr = .ofType (.named names ts) ∧
        ∀ e v w, first.run e = some v → second.run e = some w →
          ∃ zs, n.run e = some (.named names zs) ∧ IsUnion ns ms v.fields w.fields names zs := by
  obtain ⟨ds, hds, hnames, hnodup, hmem⟩ := unionFields_spec ns ms fs gs hn hm
  -- The nodes of the fields.
  obtain ⟨nodes, hnodes, hF⟩ := collect_map (l := ds)
    (g := fun d => makeOpNode (getNth (d.index : Int)) [if d.comesFrom = 0 then first else second])
    (P := fun d m => m.attr.qtype = (if d.comesFrom = 0 then Ty.named ns fs else Ty.named ms gs).fields[d.index]? ∧ m.attr.qtype.isSome ∧
      m.Ok ∧ ∀ e v w, first.run e = some v → second.run e = some w →
        m.run e = (if d.comesFrom = 0 then v else w).fields[d.index]? ∧ (m.run e).isSome) (by
      intro d hd
      have key : ∀ (n : Node E) (k : List String) (xs : List Ty), n.Ok → n.attr.qtype = some (.named k xs) → k.length = xs.length →
          k[d.index]? = some d.name → ∃ m, makeOpNode (getNth (d.index : Int)) [n] = some m ∧ m.attr.qtype = xs[d.index]? ∧
            m.attr.qtype.isSome ∧ m.Ok ∧ ∀ e v, n.run e = some v → m.run e = v.fields[d.index]? ∧ (m.run e).isSome := by
        intro n k xs hn ht hl hk
        have hlt : d.index < xs.length := by
          rw [← hl]
          exact (List.getElem?_eq_some_iff.1 hk).1
        obtain ⟨m, g1, g2, -, g4, g5⟩ := getNth_node hn ht (i := d.index) (f := xs[d.index]) (List.getElem?_eq_getElem hlt)
        refine ⟨m, g1, by rw [g2, List.getElem?_eq_getElem hlt], by rw [g2]; rfl, g4, ?_⟩
        intro e v hv
        refine ⟨g5 e v hv, ?_⟩
        have hty := (hn.2 e v hv).1 _ ht
        have : d.index < v.fields.length := by
          have h3 : v.ty.fields.length = xs.length := by rw [hty]; rfl
          rw [ty_fields, List.length_map] at h3
          rw [h3]
          exact hlt
        rw [g5 e v hv, List.getElem?_eq_getElem this]
        rfl
      rcases hmem d hd with ⟨hc, hi⟩ | ⟨hc, hi, -⟩
      · obtain ⟨m, g1, g2, g3, g4, g5⟩ := key second ms gs h2 t2 lm hi
        refine ⟨m, by rw [if_neg hc]; exact g1, by rw [if_neg hc]; exact g2, g3, g4, ?_⟩
        intro e v w hv hw
        rw [if_neg hc]
        exact g5 e w hw
      · obtain ⟨m, g1, g2, g3, g4, g5⟩ := key first ns fs h1 t1 ln hi
        refine ⟨m, by rw [if_pos hc]; exact g1, by rw [if_pos hc]; exact g2, g3, g4, ?_⟩
        intro e v w hv hw
        rw [if_pos hc]
        exact g5 e v hv)
  -- The types of the fields.
  obtain ⟨ts, hts⟩ : ∃ ts : List Ty, nodes.map (·.attr.qtype) = ts.map some := by
    obtain ⟨ts, hc, -⟩ := collect_map (l := nodes) (g := fun n => n.attr.qtype) (P := fun _ _ => True) (by
      intro m hm
      obtain ⟨i, hi, rfl⟩ := List.getElem_of_mem hm
      have := (hF.get (i := i) (by rw [hF.length_eq]; exact hi) hi).2.1
      obtain ⟨q, hq⟩ := Option.isSome_iff_exists.1 this
      exact ⟨q, hq, trivial⟩)
    exact ⟨ts, collect_iff.1 hc⟩
  have htypes : (ds.map fun d => (if d.comesFrom = 0 then Ty.named ns fs else Ty.named ms gs).fields[d.index]?) = ts.map some := by
    rw [← hts]
    exact forall₂_map (fun d m h => h.1.symm) hF
  have hu : IsUnion ns ms fs gs (ns ++ ms.filter (fun m => m ∉ ns)) ts := by
    apply isUnion_of hnames hmem
    rw [← htypes]
    apply List.map_congr_left
    intro d _
    split <;> rfl
  have hok : ∀ f ∈ nodes, f.Ok := by
    intro m hm
    obtain ⟨i, hi, rfl⟩ := List.getElem_of_mem hm
    exact (hF.get (i := i) (by rw [hF.length_eq]; exact hi) hi).2.2.1
  obtain ⟨tn, htn, hta, -, htr⟩ := makeTuple_node hts hok
  obtain ⟨n, hnn, hna, hnr⟩ := downcast_node (n := tn) (names := ns ++ ms.filter (fun m => m ∉ ns)) (fs := ts) (by rw [hta]; rfl)
  refine ⟨_, ts, hu, ?_, n, ?_, hna, ?_⟩
  · unfold unionInfer
    rw [t1, t2]
    dsimp only
    rw [hds]
    dsimp only
    rw [collect_iff.2 htypes]
    dsimp only
    unfold makeNamedTupleQType
    dsimp only
    rw [if_neg, if_pos hnodup, hnames]
    · rfl
    · rw [not_not, hnames]
      exact hu.2.1.symm
  · unfold unionLower
    dsimp only [Attr.ofType]
    rw [t1, t2]
    dsimp only
    rw [hds]
    dsimp only
    rw [hnodes]
    dsimp only
    rw [htn]
    exact hnn
  · intro e v w hv hw
    obtain ⟨zs, hzs⟩ : ∃ zs : List Val, nodes.map (fun m => m.run e) = zs.map some := by
      obtain ⟨zs, hc, -⟩ := collect_map (l := nodes) (g := fun n => n.run e) (P := fun _ _ => True) (by
        intro m hm
        obtain ⟨i, hi, rfl⟩ := List.getElem_of_mem hm
        have := ((hF.get (i := i) (by rw [hF.length_eq]; exact hi) hi).2.2.2 e v w hv hw).2
        obtain ⟨q, hq⟩ := Option.isSome_iff_exists.1 this
        exact ⟨q, hq, trivial⟩)
      exact ⟨zs, collect_iff.1 hc⟩
    refine ⟨zs, hnr e zs (htr e zs hzs), ?_⟩
    apply isUnion_of hnames hmem
    rw [← hzs, ← forall₂_map (fun d m h => ((h.2.2.2 e v w hv hw).1).symm) hF]
    apply List.map_congr_left
    intro d _
    split <;> rfl

/-- The field `b` is in both. -/
example : ∃ names ts, IsUnion ["a", "b"] ["b", "c"] [.other 4 [], .other 1 []] [.other 6 [], .other 1 []] names ts ∧
    unionInfer (sampleNamed ["a", "b"] 4).attr (sampleNamed ["b", "c"] 6).attr = some (.ofType (.named names ts)) := by
  obtain ⟨names, ts, h1, h2, -⟩ := named_union (sampleNamed ["a", "b"] 4) (sampleNamed ["b", "c"] 6) (sampleNamed_ok _ _) (sampleNamed_ok _ _)
    _ _ _ _ rfl rfl (by decide) (by decide) rfl rfl
  exact ⟨names, ts, h1, h2⟩

example : unionInfer (sampleNamed ["a", "b"] 4).attr (sampleNamed ["b", "c"] 6).attr =
    some (.ofType (.named ["a", "b", "c"] [.other 4 [], .other 6 [], .other 1 []])) := rfl

end Verif.Tuple
