import Verif.Edge.ConvLemmas

/-! `ComposeEdges`. -/

namespace Verif.Edge
open Verif.Bitmap Verif.Dense

/-- The edges form a chain from `p` parents to `q` children. -/
def Chain : List Edge → Int → Int → Prop
  | [], p, q => p = q
  | e :: es, p, q => e.parentSize = p ∧ Chain es e.childSize q

theorem chain_append : ∀ (xs ys : List Edge) (p q : Int),
    Chain (xs ++ ys) p q ↔ ∃ m, Chain xs p m ∧ Chain ys m q := by
  intro xs
  induction xs with
  | nil => intro ys p q; simp [Chain]
  | cons e xs ih =>
    intro ys p q
    simp only [List.cons_append, Chain, ih]
    constructor
    · rintro ⟨h, m, h1, h2⟩; exact ⟨m, ⟨h, h1⟩, h2⟩
    · rintro ⟨m, ⟨h, h1⟩, h2⟩; exact ⟨h, m, h1, h2⟩

theorem relComp_append : ∀ (xs ys : List Edge) (c p : Nat),
    RelComp (xs ++ ys) c p ↔ ∃ m, RelComp ys c m ∧ RelComp xs m p := by
  intro xs
  induction xs with
  | nil => intro ys c p; simp [RelComp]
  | cons e xs ih =>
    intro ys c p
    simp only [List.cons_append, RelComp, ih]
    constructor
    · rintro ⟨m, ⟨k, h1, h2⟩, h3⟩; exact ⟨k, h1, m, h2, h3⟩
    · rintro ⟨k, h1, m, h2, h3⟩; exact ⟨m, ⟨k, h1, h2⟩, h3⟩

theorem relComp_single (e : Edge) (c p : Nat) : RelComp [e] c p ↔ Rel e c p := by
  simp [RelComp]

/-! ## Split points -/

theorem comp_split {prev sp : List Int} (hp : SP prev) (hs : SP sp) {m q : Int}
    (hm : prev.getLast? = some m) (hq : sp.getLast? = some q) (hl : m + 1 = sp.length) :
    ∃ cur, prev.mapM (getI sp) = some cur ∧ cur.length = prev.length ∧ SP cur ∧
      cur.getLast? = some q ∧
      ∀ c p, SRel cur c p ↔ ∃ k, SRel sp c k ∧ SRel prev k p := by
  have hrange : ∀ (i : Nat) (v : Int), prev[i]? = some v → 0 ≤ v ∧ v < sp.length := by
    intro i v hi
    have hil := (List.getElem?_eq_some_iff.1 hi).1
    have hm' := hm
    rw [List.getLast?_eq_getElem?] at hm'
    have := hp.mono (show i ≤ prev.length - 1 by omega) hi hm'
    exact ⟨hp.nonneg hi, by omega⟩
  have hmap : prev.mapM (getI sp) = some (prev.map (fun v => sp.getD v.toNat 0)) := by
    apply mapM_some
    intro v hv
    rw [List.mem_iff_getElem?] at hv
    obtain ⟨i, hi⟩ := hv
    have := hrange i v hi
    unfold getI
    rw [if_neg (by omega), List.getD_eq_getElem?_getD,
      List.getElem?_eq_getElem (show v.toNat < sp.length by omega)]; rfl
  have hget : ∀ (i : Nat) (v : Int), prev[i]? = some v →
      ∃ w, sp[v.toNat]? = some w ∧ (prev.map (fun v => sp.getD v.toNat 0))[i]? = some w := by
    intro i v hi
    have := hrange i v hi
    refine ⟨_, List.getElem?_eq_getElem (show v.toNat < sp.length by omega), ?_⟩
    rw [List.getElem?_map, hi, Option.map_some, List.getD_eq_getElem?_getD,
      List.getElem?_eq_getElem (show v.toNat < sp.length by omega)]; rfl
  have hget' : ∀ (i : Nat) (w : Int), (prev.map (fun v => sp.getD v.toNat 0))[i]? = some w →
      ∃ v, prev[i]? = some v ∧ 0 ≤ v ∧ sp[v.toNat]? = some w := by
    intro i w hi
    rw [List.getElem?_map] at hi
    cases h : prev[i]? with
    | none => rw [h] at hi; simp at hi
    | some v =>
      obtain ⟨w', h1, h2⟩ := hget i v h
      rw [List.getElem?_map, hi] at h2
      exact ⟨v, rfl, (hrange i v h).1, by rw [h1, h2]⟩
  have hlen : (prev.map (fun v => sp.getD v.toNat 0)).length = prev.length := by simp
  have hspc : SP (prev.map (fun v => sp.getD v.toNat 0)) := by
    refine ⟨?_, ?_⟩
    · rw [List.head?_eq_getElem?]
      obtain ⟨w, h1, h2⟩ := hget 0 0 hp.zero
      rw [h2, ← h1]
      exact hs.zero
    · rw [List.pairwise_iff_getElem]
      intro i j hi hj hij
      obtain ⟨v, a1, a2, a3⟩ := hget' i _ (List.getElem?_eq_getElem hi)
      obtain ⟨v', b1, b2, b3⟩ := hget' j _ (List.getElem?_eq_getElem hj)
      have := hp.mono (Nat.le_of_lt hij) a1 b1
      exact hs.mono (by omega) a3 b3
  refine ⟨_, hmap, hlen, hspc, ?_, ?_⟩
  · rw [List.getLast?_eq_getElem?] at hm hq ⊢
    rw [hlen]
    obtain ⟨w, h1, h2⟩ := hget _ _ hm
    rw [h2, ← h1, ← hq]
    congr 1
    omega
  · intro c p
    constructor
    · rintro ⟨a, b, x1, x2, x3, x4⟩
      obtain ⟨v, a1, a2, a3⟩ := hget' p _ x1
      obtain ⟨v', b1, b2, b3⟩ := hget' (p + 1) _ x2
      obtain ⟨k, hk1, a', b', y1, y2, y3, y4⟩ := srel_exists_aux hs _ _ b3 x4
      refine ⟨k, ⟨a', b', y1, y2, y3, y4⟩, v, v', a1, b1, ?_, ?_⟩
      · rcases Int.lt_or_le (k : Int) v with hlt | hle
        · have := hs.mono (show k + 1 ≤ v.toNat by omega) y2 a3
          omega
        · exact hle
      · omega
    · rintro ⟨k, ⟨a', b', y1, y2, y3, y4⟩, v, v', a1, b1, z1, z2⟩
      obtain ⟨w, g1, g2⟩ := hget _ _ a1
      obtain ⟨w', g1', g2'⟩ := hget _ _ b1
      have hv := hp.nonneg a1
      have := hs.mono (show v.toNat ≤ k by omega) g1 y1
      have := hs.mono (show k + 1 ≤ v'.toNat by omega) y2 g1'
      exact ⟨w, w', g2, g2', by omega, by omega⟩

theorem splitCompLoop_spec : ∀ (es : List Edge) (prev : List Int) (m q : Int), SP prev →
    prev.getLast? = some m → Chain es m q → (∀ e ∈ es, WF e ∧ e.typ = .splitPoints) →
    ∃ cur, splitCompLoop es prev = some cur ∧ cur.length = prev.length ∧ SP cur ∧
      cur.getLast? = some q ∧
      ∀ c p, SRel cur c p ↔ ∃ k, RelComp es c k ∧ SRel prev k p := by
  intro es
  induction es with
  | nil =>
    intro prev m q h1 h2 h3 _
    simp only [Chain] at h3
    subst h3
    refine ⟨prev, rfl, rfl, h1, h2, ?_⟩
    intro c p; simp [RelComp]
  | cons e es ih =>
    intro prev m q h1 h2 h3 h4
    obtain ⟨hc1, hc2⟩ := h3
    obtain ⟨hw, ht⟩ := h4 e (by simp)
    obtain ⟨hv, hf, s3, s4, s5⟩ := (wf_split_iff ht).1 hw
    obtain ⟨cur, c1, c2, c3, c4, c5⟩ := comp_split h1 s3 h2 s5 (by omega)
    obtain ⟨cur', d1, d2, d3, d4, d5⟩ := ih cur _ q c3 c4 hc2
      (fun x hx => h4 x (List.mem_cons_of_mem _ hx))
    rw [splitCompLoop, c1]
    simp only [Option.bind_eq_bind, Option.bind_some]
    refine ⟨cur', d1, by omega, d3, d4, ?_⟩
    intro c p
    rw [d5]
    simp only [RelComp, c5, rel_split_iff ht hf]
    constructor
    · rintro ⟨k, r1, j, r2, r3⟩; exact ⟨j, ⟨k, r1, r2⟩, r3⟩
    · rintro ⟨j, ⟨k, r1, r2⟩, r3⟩; exact ⟨k, r1, j, r2, r3⟩

theorem composeSplit_spec {es : List Edge} {p q : Int} (hne : es ≠ []) (hc : Chain es p q)
    (hw : ∀ e ∈ es, WF e ∧ e.typ = .splitPoints) :
    ∃ r, composeSplit es = some r ∧ r.typ = .splitPoints ∧ WF r ∧ r.parentSize = p ∧
      r.childSize = q ∧ ∀ c x, Rel r c x ↔ RelComp es c x := by
  cases es with
  | nil => exact absurd rfl hne
  | cons e es =>
    obtain ⟨hc1, hc2⟩ := hc
    obtain ⟨hwe, ht⟩ := hw e (by simp)
    obtain ⟨hv, hf, s3, s4, s5⟩ := (wf_split_iff ht).1 hwe
    obtain ⟨cur, d1, d2, d3, d4, d5⟩ := splitCompLoop_spec es e.values.values _ q s3 s5 hc2
      (fun x hx => hw x (List.mem_cons_of_mem _ hx))
    have htake : e.values.values.take e.values.size = e.values.values := List.take_length
    rw [composeSplit, htake, d1]
    simp only [Option.bind_eq_bind, Option.bind_some]
    unfold unsafeFromSplitPoints
    dsimp only
    rw [d4]
    simp only [Option.bind_eq_bind, Option.bind_some]
    have hfr := elems_nobitmap cur
    refine ⟨_, rfl, rfl, ?_, ?_, rfl, ?_⟩
    · rw [wf_split_iff rfl]
      refine ⟨valid_nobitmap _, hfr, d3, ?_, d4⟩
      dsimp only [DArr.size]; omega
    · dsimp only [DArr.size]; omega
    · intro c x
      rw [rel_split_iff rfl hfr]
      dsimp only
      rw [d5]
      simp only [RelComp, rel_split_iff ht hf]

/-! ## Mappings -/

theorem filterMap_congr' {α β : Type} {f g : α → Option β} : ∀ {l : List α},
    (∀ x ∈ l, f x = g x) → l.filterMap f = l.filterMap g := by
  intro l
  induction l with
  | nil => intro _; rfl
  | cons a t ih =>
    intro h
    rw [List.filterMap_cons, List.filterMap_cons, h a (by simp), ih (fun x hx => h x (by simp [hx]))]


theorem foldl_sets (f : Nat → Option (Option Int)) : ∀ (n : Nat) (i : Nat),
    ((List.range n).filterMap (fun i => (f i).map (fun v => DBuilder.Op.set i v))).foldl opEffect
      (fun _ => (none : Option Int)) i = if i < n then (f i).join else none := by
  intro n
  induction n with
  | zero => intro i; simp
  | succ n ih =>
    intro i
    rw [List.range_succ, List.filterMap_append, List.foldl_append]
    cases hf : f n with
    | none =>
      simp only [List.filterMap_cons, hf, Option.map_none, List.filterMap_nil, List.foldl_nil, ih]
      by_cases hi : i < n
      · rw [if_pos hi, if_pos (by omega)]
      · rw [if_neg hi]
        by_cases hi2 : i = n
        · subst hi2; rw [if_pos (by omega), hf]; rfl
        · rw [if_neg (by omega)]
    | some o =>
      simp only [List.filterMap_cons, hf, Option.map_some, List.filterMap_nil, List.foldl_cons,
        List.foldl_nil]
      cases o with
      | none =>
        simp only [opEffect, ih]
        by_cases hi : i < n
        · rw [if_pos hi, if_pos (by omega)]
        · rw [if_neg hi]
          by_cases hi2 : i = n
          · subst hi2; rw [if_pos (by omega), hf]; rfl
          · rw [if_neg (by omega)]
      | some v =>
        simp only [opEffect, ih]
        by_cases hi2 : i = n
        · subst hi2; rw [if_pos rfl, if_pos (by omega), hf]; rfl
        · rw [if_neg hi2]
          by_cases hi : i < n
          · rw [if_pos hi, if_pos (by omega)]
          · rw [if_neg hi, if_neg (by omega)]

theorem elem_none {a : DArr Int} {i : Nat} (h : a.values.length ≤ i) : elem a i = none := by
  rw [elem_eq, List.getElem?_eq_none h]; split <;> rfl

theorem mapStep_spec (mem : Nat → Int) {n : Nat} {me m : DArr Int} (hme : me.Valid) (hm : m.Valid)
    (hn : m.values.length = n)
    (hr : ∀ i v, elem m i = some v → 0 ≤ v ∧ v < me.values.length) :
    ∃ r, mapStep mem n me m = some r ∧ r.Valid ∧ r.values.length = n ∧
      ∀ i, elem r i = (elem m i).bind (fun v => elem me v.toNat) := by
  unfold mapStep
  rw [for_each_present_visits m hm]
  simp only [Option.bind_eq_bind, Option.bind_some]
  have hl : (List.range m.size).filterMap (fun i => ((elems m)[i]?).join.map (fun v => (i, v))) =
      (List.range n).filterMap (fun i => (elem m i).map (fun v => (i, v))) := by
    have : m.size = n := hn
    rw [this]
    apply filterMap_congr'
    intro i hi
    rw [List.mem_range] at hi
    rw [elems_get?, if_pos (by omega)]; rfl
  rw [hl]
  have hcalls : ((List.range n).filterMap (fun i => (elem m i).map (fun v => (i, v)))).mapM
      (fun (x : Nat × Int) => if x.2 < 0 then none else
        (me.at? x.2.toNat).bind fun o => some (DBuilder.Op.set x.1 o)) =
      some (((List.range n).filterMap (fun i => (elem m i).map (fun v => (i, v)))).map
        (fun x => DBuilder.Op.set x.1 (elem me x.2.toNat))) := by
    apply mapM_some
    intro x hx
    rw [List.mem_filterMap] at hx
    obtain ⟨i, _, hi⟩ := hx
    cases he : elem m i with
    | none => rw [he] at hi; simp at hi
    | some v =>
      rw [he] at hi
      simp at hi
      subst hi
      have := hr i v he
      dsimp only
      rw [if_neg (by omega), at_eq hme (by omega)]; rfl
  rw [hcalls]
  simp only [Option.bind_some]
  have hops : ((List.range n).filterMap (fun i => (elem m i).map (fun v => (i, v)))).map
        (fun x => DBuilder.Op.set x.1 (elem me x.2.toNat)) =
      (List.range n).filterMap (fun i => ((elem m i).map (fun v => elem me v.toNat)).map
        (fun o => DBuilder.Op.set i o)) := by
    rw [List.map_filterMap]
    apply filterMap_congr'
    intro i _
    cases elem m i <;> rfl
  rw [hops]
  have hlen : (uninit mem n).length = n := by simp [uninit]
  obtain ⟨b, b1, b2, b3⟩ := builder_elements (uninit mem n)
    ((List.range n).filterMap (fun i => ((elem m i).map (fun v => elem me v.toNat)).map
        (fun o => DBuilder.Op.set i o))) (by
    intro o ho
    rw [List.mem_filterMap] at ho
    obtain ⟨i, hi, h⟩ := ho
    rw [List.mem_range] at hi
    cases he : elem m i with
    | none => rw [he] at h; simp at h
    | some v =>
      rw [he] at h
      simp at h
      subst h
      rw [hlen]; exact hi)
  rw [b1]
  simp only [Option.bind_some]
  rw [hlen] at b3
  have hbl : b.build.values.length = n := by
    have := congrArg List.length b3
    rw [elems_length] at this
    simpa using this
  refine ⟨_, rfl, b2, hbl, ?_⟩
  intro i
  by_cases hi : i < n
  · have h := congrArg (fun l => l[i]?) b3
    simp only [elems_get?, hbl, if_pos hi, List.getElem?_map, List.getElem?_range hi,
      Option.map_some, Option.some.injEq] at h
    rw [h, foldl_sets (fun i => (elem m i).map (fun v => elem me v.toNat)) n i, if_pos hi]
    cases elem m i <;> rfl
  · rw [elem_none (by omega), elem_none (a := m) (by omega)]; rfl

theorem mapLoop_spec (mem : Nat → Int) {n : Nat} : ∀ (es : List Edge) (m : DArr Int) (p k : Int),
    m.Valid → m.values.length = n → (∀ i v, elem m i = some v → 0 ≤ v ∧ v < k) →
    Chain es.reverse p k → (∀ e ∈ es, WF e) →
    ∃ r, mapLoop mem n es m = some r ∧ r.Valid ∧ r.values.length = n ∧
      (∀ i v, elem r i = some v → 0 ≤ v ∧ v < p) ∧
      ∀ c x : Nat, elem r c = some (x : Int) ↔
        ∃ j : Nat, elem m c = some (j : Int) ∧ RelComp es.reverse j x := by
  intro es
  induction es with
  | nil =>
    intro m p k h1 h2 h3 h4 _
    simp only [List.reverse_nil, Chain] at h4
    subst h4
    refine ⟨m, rfl, h1, h2, h3, ?_⟩
    intro c x; simp [RelComp]
  | cons e es ih =>
    intro m p k h1 h2 h3 h4 h5
    rw [List.reverse_cons, chain_append] at h4
    obtain ⟨k', hch, hk1, hk2⟩ := h4
    simp only [Chain] at hk2
    have hwe := h5 e (by simp)
    obtain ⟨me, m1, m2, m3, m4, m5, m6⟩ := toMapping_spec mem hwe
    obtain ⟨n1, n2, n3, n4⟩ := (wf_map_iff m2).1 m3
    rw [mapLoop, m1]
    simp only [Option.bind_eq_bind, Option.bind_some]
    obtain ⟨r1, s1, s2, s3, s4⟩ := mapStep_spec mem n1 h1 h2 (by
      intro i v hi
      have := h3 i v hi
      omega)
    rw [s1]
    simp only [Option.bind_some]
    obtain ⟨r, t1, t2, t3, t4, t5⟩ := ih r1 p k' s2 s3 (by
      intro i v hi
      rw [s4] at hi
      cases hm : elem m i with
      | none => rw [hm] at hi; simp at hi
      | some w =>
        rw [hm] at hi
        have := n4 _ _ hi
        omega) hch (fun x hx => h5 x (List.mem_cons_of_mem _ hx))
    refine ⟨r, t1, t2, t3, t4, ?_⟩
    intro c x
    rw [t5, List.reverse_cons]
    simp only [relComp_append, relComp_single, s4]
    constructor
    · rintro ⟨j, g1, g2⟩
      cases hm : elem m c with
      | none => rw [hm] at g1; simp at g1
      | some w =>
        rw [hm] at g1
        obtain ⟨w', rfl⟩ := Int.eq_ofNat_of_zero_le (h3 _ _ hm).1
        refine ⟨w', rfl, j, ?_, g2⟩
        rw [← m6, rel_map_iff m2]
        exact g1
    · rintro ⟨w, g1, j, g2, g3⟩
      refine ⟨j, ?_, g3⟩
      rw [← m6, rel_map_iff m2] at g2
      rw [g1]
      exact g2

theorem composeMapping_spec (mem : Nat → Int) {es : List Edge} {p q : Int} (hne : es ≠ [])
    (hc : Chain es p q) (hw : ∀ e ∈ es, WF e) :
    ∃ r, composeMapping mem es = some r ∧ r.typ = .mapping ∧ WF r ∧ r.parentSize = p ∧
      r.childSize = q ∧ ∀ c x, Rel r c x ↔ RelComp es c x := by
  unfold composeMapping
  have hsplit := List.dropLast_concat_getLast hne
  rw [List.getLast?_eq_some_getLast hne]
  generalize hb : es.getLast hne = back at hsplit ⊢
  have hback : WF back := hw back (by rw [← hb]; exact List.getLast_mem hne)
  obtain ⟨front, hf⟩ : ∃ f, es.head? = some f := by
    cases es with
    | nil => exact absurd rfl hne
    | cons a t => exact ⟨a, rfl⟩
  have hfp : front.parentSize = p := by
    cases es with
    | nil => exact absurd rfl hne
    | cons a t => simp at hf; subst hf; exact hc.1
  have hc' : Chain (es.dropLast ++ [back]) p q := by rw [hsplit]; exact hc
  rw [chain_append] at hc'
  obtain ⟨k, hch, hk1, hk2⟩ := hc'
  simp only [Chain] at hk2
  rw [hf]
  simp only [Option.bind_eq_bind, Option.bind_some]
  obtain ⟨me, m1, m2, m3, m4, m5, m6⟩ := toMapping_spec mem hback
  obtain ⟨n1, n2, n3, n4⟩ := (wf_map_iff m2).1 m3
  rw [m1]
  simp only [Option.bind_some]
  obtain ⟨r, t1, t2, t3, t4, t5⟩ := mapLoop_spec mem (n := back.childSize.toNat)
    es.dropLast.reverse me.values p k n1 (by omega) (by
      intro i v hi
      have := n4 i v hi
      omega) (by rw [List.reverse_reverse]; exact hch)
    (fun x hx => hw x (List.dropLast_subset _ (List.mem_reverse.1 hx)))
  rw [t1]
  simp only [Option.bind_some]
  have hsz := wf_sizes hback
  have hp0 : 0 ≤ p := by
    rw [← hfp]
    exact (wf_sizes (hw front (List.mem_of_head? hf))).1
  refine ⟨_, rfl, rfl, ?_, hfp, ?_, ?_⟩
  · rw [wf_map_iff rfl]
    refine ⟨t2, by simp only [unsafeFromMapping]; omega, rfl, ?_⟩
    intro i v hi
    have := t4 i v hi
    simp only [unsafeFromMapping]; omega
  · simp only [unsafeFromMapping, DArr.size]; omega
  · intro c x
    rw [rel_map_iff rfl]
    simp only [unsafeFromMapping]
    rw [t5, List.reverse_reverse]
    have : RelComp es c x ↔ RelComp (es.dropLast ++ [back]) c x := by rw [hsplit]
    rw [this, relComp_append]
    simp only [relComp_single, ← m6, rel_map_iff m2]

/-! ## Grouping -/

theorem takeWhile_all {α : Type} {P : α → Bool} : ∀ {l : List α}, (∀ x ∈ l, P x = true) →
    l.takeWhile P = l := by
  intro l
  induction l with
  | nil => intro _; rfl
  | cons a t ih =>
    intro h
    rw [List.takeWhile_cons_of_pos (h a (by simp)), ih (fun x hx => h x (by simp [hx]))]

theorem groupRuns_spec : ∀ (fuel : Nat) (es : List Edge) (p q : Int), es.length < fuel →
    Chain es p q → (∀ e ∈ es, WF e) →
    ∃ t, groupRuns fuel es = some t ∧ Chain t p q ∧ (∀ e ∈ t, WF e) ∧
      (∀ c x, RelComp t c x ↔ RelComp es c x) ∧ (es ≠ [] → t ≠ []) ∧
      ((∀ e ∈ es, e.typ = .splitPoints) → es ≠ [] → ∃ x, t = [x] ∧ x.typ = .splitPoints) ∧
      (∀ x, t = [x] → es = [x] ∨ ∀ e ∈ es, e.typ = .splitPoints) := by
  intro fuel
  induction fuel with
  | zero => intro es _ _ h; omega
  | succ fuel ih =>
    intro es p q hfu hc hw
    cases es with
    | nil =>
      exact ⟨[], rfl, hc, hw, fun _ _ => Iff.rfl, fun h => absurd rfl h, fun _ h => absurd rfl h,
        fun x h => by simp at h⟩
    | cons e es =>
      rw [groupRuns]
      generalize hrun : (e :: es).takeWhile (fun x => decide (x.typ = .splitPoints)) = run
      have hrt : ∀ x ∈ run, x.typ = .splitPoints := by
        intro x hx
        rw [← hrun] at hx
        have := List.all_takeWhile (l := e :: es) (p := fun x => decide (x.typ = .splitPoints))
        rw [List.all_eq_true] at this
        simpa using this x hx
      have hpre : run ++ (e :: es).drop run.length = e :: es := by
        have h := List.takeWhile_append_dropWhile (l := e :: es)
          (p := fun x => decide (x.typ = .splitPoints))
        rw [hrun] at h
        have h2 : (e :: es).drop run.length = (e :: es).dropWhile
            (fun x => decide (x.typ = .splitPoints)) := by
          conv => lhs; arg 2; rw [← h]
          rw [List.drop_left]
        rw [h2, h]
      by_cases hl : run.length ≥ 2
      · rw [if_pos hl]
        have hne : run ≠ [] := by intro h; rw [h] at hl; simp at hl
        have hc' : Chain (run ++ (e :: es).drop run.length) p q := by rw [hpre]; exact hc
        rw [chain_append] at hc'
        obtain ⟨k, hk1, hk2⟩ := hc'
        have hsub : ∀ x ∈ run, WF x := by
          intro x hx
          apply hw
          rw [← hpre]
          exact List.mem_append_left _ hx
        obtain ⟨r, r1, r2, r3, r4, r5, r6⟩ := composeSplit_spec hne hk1
          (fun x hx => ⟨hsub x hx, hrt x hx⟩)
        obtain ⟨t, t1, t2, t3, t4, t5, t6, t7⟩ := ih ((e :: es).drop run.length) k q (by
          rw [List.length_drop]; simp only [List.length_cons] at hfu ⊢; omega) hk2 (fun x hx => hw x (List.drop_subset _ _ hx))
        rw [r1, t1]
        simp only [Option.bind_eq_bind, Option.bind_some]
        refine ⟨r :: t, rfl, ⟨r4, by rw [r5]; exact t2⟩, ?_, ?_, by simp, ?_, ?_⟩
        · intro x hx
          rcases List.mem_cons.1 hx with rfl | hx
          · exact r3
          · exact t3 x hx
        · intro c x
          have : RelComp (e :: es) c x ↔ RelComp (run ++ (e :: es).drop run.length) c x := by
            rw [hpre]
          rw [this, relComp_append]
          simp only [RelComp, r6, t4]
        · intro hall _
          have : run = e :: es := by
            rw [← hrun]
            exact takeWhile_all (fun x hx => by simpa using hall x hx)
          rw [this, List.drop_length] at t1
          cases fuel with
          | zero => simp [groupRuns] at t1
          | succ f =>
            simp only [groupRuns, Option.some.injEq] at t1
            exact ⟨r, by rw [← t1], r2⟩
        · intro x hx
          right
          have ht : t = [] := by simpa using (List.cons.inj hx).2
          have hd : (e :: es).drop run.length = [] := by
            by_contra hd
            exact t5 hd ht
          rw [hd, List.append_nil] at hpre
          rw [← hpre]; exact hrt
      · rw [if_neg hl]
        obtain ⟨hc1, hc2⟩ := hc
        obtain ⟨t, t1, t2, t3, t4, t5, t6, t7⟩ := ih es _ q (by simp at hfu; omega) hc2
          (fun x hx => hw x (List.mem_cons_of_mem _ hx))
        rw [t1]
        simp only [Option.bind_eq_bind, Option.bind_some]
        refine ⟨e :: t, rfl, ⟨hc1, t2⟩, ?_, ?_, by simp, ?_, ?_⟩
        · intro x hx
          rcases List.mem_cons.1 hx with rfl | hx
          · exact hw _ (by simp)
          · exact t3 x hx
        · intro c x; simp only [RelComp, t4]
        · intro hall _
          have : run = e :: es := by
            rw [← hrun]
            exact takeWhile_all (fun x hx => by simpa using hall x hx)
          rw [this] at hl
          have hes : es = [] := by
            cases es with
            | nil => rfl
            | cons a b => simp at hl
          subst hes
          cases fuel with
          | zero => simp [groupRuns] at t1
          | succ f =>
            simp only [groupRuns, Option.some.injEq] at t1
            exact ⟨e, by rw [← t1], hall e (by simp)⟩
        · intro x hx
          left
          obtain ⟨h1, h2⟩ := List.cons.inj hx
          have : es = [] := by
            by_contra hes
            exact t5 hes h2
          rw [this, h1]

theorem chainOk_iff : ∀ (es : List Edge) (e : Edge),
    chainOk e.parentSize (e :: es) = true ↔ Compatible (e :: es) := by
  intro es
  induction es with
  | nil => intro e; simp [chainOk, Compatible]
  | cons f es ih =>
    intro e
    have := ih f
    simp only [chainOk, decide_true, Bool.true_and, Compatible] at this ⊢
    rw [Bool.and_eq_true, decide_eq_true_eq, this]
    constructor
    · rintro ⟨h1, h2⟩; exact ⟨h1.symm, h2⟩
    · rintro ⟨h1, h2⟩; exact ⟨h1.symm, h2⟩

theorem chain_of_compatible : ∀ (es : List Edge) (e : Edge), Compatible (e :: es) →
    Chain (e :: es) e.parentSize ((e :: es).getLast (by simp)).childSize := by
  intro es
  induction es with
  | nil => intro e _; exact ⟨rfl, rfl⟩
  | cons f es ih =>
    intro e h
    refine ⟨rfl, ?_⟩
    have := ih f h.2
    rw [h.1, List.getLast_cons (by simp)]
    exact this

theorem composeEdges_spec (mem : Nat → Int) (e : Edge) (es : List Edge) (hw : ∀ x ∈ e :: es, WF x) :
    (Compatible (e :: es) → ∃ r, composeEdges mem (e :: es) = some (.ok r) ∧ WF r ∧
      r.parentSize = e.parentSize ∧ r.childSize = ((e :: es).getLast (by simp)).childSize ∧
      (∀ c p, Rel r c p ↔ RelComp (e :: es) c p) ∧
      (r.typ = .splitPoints ↔ ∀ x ∈ e :: es, x.typ = .splitPoints)) ∧
    (¬ Compatible (e :: es) → ∃ m, composeEdges mem (e :: es) = some (.error m)) := by
  cases es with
  | nil =>
    refine ⟨fun _ => ⟨e, rfl, hw e (by simp), rfl, rfl, ?_, by simp⟩, fun h => ?_⟩
    · intro c p; exact (relComp_single e c p).symm
    · exact absurd trivial h
  | cons f es =>
    unfold composeEdges
    dsimp only
    rw [← chainOk_iff]
    cases hco : chainOk e.parentSize (e :: f :: es) with
    | false =>
      rw [if_pos (by rfl)]
      exact ⟨fun h => by simp at h, fun _ => ⟨_, rfl⟩⟩
    | true =>
      rw [if_neg (by simp)]
      refine ⟨fun _ => ?_, fun h => by simp at h⟩
      have hch := chain_of_compatible _ _ ((chainOk_iff _ _).1 hco)
      obtain ⟨t, t1, t2, t3, t4, t5, t6, t7⟩ := groupRuns_spec ((f :: es).length + 2) (e :: f :: es)
        _ _ (by simp) hch hw
      rw [t1]
      simp only [Option.bind_eq_bind, Option.bind_some]
      by_cases hsing : ∃ x, t = [x]
      · obtain ⟨x, rfl⟩ := hsing
        obtain ⟨hp, hq⟩ := t2
        simp only [Chain] at hq
        refine ⟨x, rfl, t3 x (by simp), hp, hq, ?_, ?_⟩
        · intro c p; rw [← t4, relComp_single]
        · have hall : ∀ y ∈ e :: f :: es, y.typ = .splitPoints := by
            rcases t7 x rfl with h | h
            · simp at h
            · exact h
          obtain ⟨y, hy, hyt⟩ := t6 hall (by simp)
          simp at hy
          subst hy
          exact ⟨fun _ => hall, fun _ => hyt⟩
      · obtain ⟨r, r1, r2, r3, r4, r5, r6⟩ := composeMapping_spec mem (t5 (by simp)) t2 t3
        refine ⟨r, ?_, r3, r4, r5, ?_, ?_⟩
        · split
          · exact absurd ⟨_, rfl⟩ hsing
          · rw [r1]; rfl
        · intro c p; rw [r6, t4]
        · rw [r2]
          constructor
          · intro h; cases h
          · intro h
            obtain ⟨x, hx, _⟩ := t6 h (by simp)
            exact absurd ⟨x, hx⟩ hsing

end Verif.Edge
