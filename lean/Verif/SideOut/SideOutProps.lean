import Mathlib.Data.List.Basic
import Mathlib.Data.List.Nodup
import Mathlib.Data.List.Induction
import Verif.SideOut.SideOutModel

/-!
# Properties of `ExtractSideOutputs` (C179)
-/

namespace Verif.SideOut

/-! ## Specification -/

/-- The value of an expression. -/
def Tree.eval {V : Type} (sem : Op → List V → V) : Tree → V
  | .node op args => sem op (args.map (Tree.eval sem))

/-- Annotations have the value of their first input. -/
def Transparent {V : Type} (sem : Op → List V → V) : Prop :=
  (∀ tag x t, sem (.exp tag) [x, t] = x) ∧ (∀ tag x t v, sem (.expValue tag) [x, t, v] = x)

/-- There are no annotations in the expression. -/
inductive Clean : Tree → Prop
  | node (k args) : (∀ a ∈ args, Clean a) → Clean (.node (.plain k) args)

/-- Inputs come before the node, and annotations have two or three inputs. -/
def NodeOk (i : Nat) (n : Node) : Prop :=
  (∀ j ∈ n.deps, j < i) ∧
  match n.op with
  | .plain _ => True
  | .exp _ => n.deps.length = 2
  | .expValue _ => n.deps.length = 3

/-- A post order of an expression. -/
def PostOrder (nodes : List Node) : Prop := ∀ i n, nodes[i]? = some n → NodeOk i n

/-- The values of the nodes, in order. -/
def values {V : Type} (sem : Op → List V → V) (nodes : List Node) : List V :=
  nodes.foldl (fun vs n => vs ++ [sem n.op (n.deps.filterMap (vs[·]?))]) []

/-- The tag of an annotation. -/
def Op.tag : Op → Option String
  | .plain _ => none
  | .exp t => some t
  | .expValue t => some t

/-- The position of the exported value. -/
def Node.exported (n : Node) : Option Nat :=
  match n.op with
  | .plain _ => none
  | .exp _ => n.deps[0]?
  | .expValue _ => n.deps[2]?

/-! ## Lemmas -/

theorem inputs_ok {results : List Tree} : ∀ {deps : List Nat}, (∀ j ∈ deps, j < results.length) →
    inputs results deps = some (deps.filterMap (results[·]?)) ∧ (deps.filterMap (results[·]?)).length = deps.length := by
  intro deps
  induction deps with
  | nil => intro _; exact ⟨rfl, rfl⟩
  | cons d deps ih =>
    intro h
    obtain ⟨h1, h2⟩ := ih fun j hj => h j (by simp [hj])
    have hd := List.getElem?_eq_getElem (h d (by simp))
    constructor
    · unfold inputs at h1 ⊢
      rw [List.mapM_cons, hd, h1]
      simp [List.filterMap_cons, hd]
    · simp [List.filterMap_cons, hd, h2]

theorem eval_inputs {V : Type} (sem : Op → List V → V) (results : List Tree) (deps : List Nat) :
    (deps.filterMap (results[·]?)).map (Tree.eval sem) = deps.filterMap ((results.map (Tree.eval sem))[·]?) := by
  rw [List.map_filterMap]
  simp [List.getElem?_map]

theorem values_append {V : Type} (sem : Op → List V → V) (nodes : List Node) (n : Node) :
    values sem (nodes ++ [n]) =
      values sem nodes ++ [sem n.op (n.deps.filterMap ((values sem nodes)[·]?))] := by
  simp [values, List.foldl_append]

theorem values_length {V : Type} (sem : Op → List V → V) (nodes : List Node) : (values sem nodes).length = nodes.length := by
  induction nodes using List.reverseRecOn with
  | nil => rfl
  | append_singleton l n ih => rw [values_append]; simp [ih]

/-- The state after the nodes `nodes`. -/
structure Inv (nodes : List Node) (acc : Acc) : Prop where
  length : acc.1.length = nodes.length
  clean : ∀ t ∈ acc.1, Clean t
  sideClean : ∀ p ∈ acc.2, Clean p.2
  tags : acc.2.map Prod.fst = nodes.filterMap (fun n => n.op.tag)
  nodup : (acc.2.map Prod.fst).Nodup
  eval : ∀ {V : Type} (sem : Op → List V → V), Transparent sem → acc.1.map (Tree.eval sem) = values sem nodes
  sideEval : ∀ {V : Type} (sem : Op → List V → V), Transparent sem →
    acc.2.map (fun p => some (p.2.eval sem)) =
      (nodes.filterMap Node.exported).map fun j => (values sem nodes)[j]?

theorem exported_lt {i : Nat} {n : Node} (h : NodeOk i n) {j : Nat} (hj : n.exported = some j) : j < i := by
  unfold Node.exported at hj
  split at hj
  · cases hj
  · exact h.1 j (List.mem_of_getElem? hj)
  · exact h.1 j (List.mem_of_getElem? hj)

theorem exported_values {V : Type} (sem : Op → List V → V) {nodes : List Node} (hp : PostOrder nodes) (n : Node) :
    ((nodes.filterMap Node.exported).map fun j => (values sem (nodes ++ [n]))[j]?) =
      (nodes.filterMap Node.exported).map fun j => (values sem nodes)[j]? := by
  refine List.map_congr_left fun j hj => ?_
  obtain ⟨m, hm, hj⟩ := List.mem_filterMap.1 hj
  obtain ⟨i, hi, rfl⟩ := List.getElem_of_mem hm
  have := exported_lt (hp i _ (List.getElem?_eq_getElem hi)) hj
  rw [values_append, List.getElem?_append_left (by rw [values_length]; omega)]

theorem step_inv {nodes : List Node} {acc : Acc} {n : Node} (hi : Inv nodes acc) (hp : PostOrder nodes)
    (hn : NodeOk nodes.length n) :
    (∃ acc', extractStep acc n = .ok acc' ∧ Inv (nodes ++ [n]) acc' ∧
      ∀ t, n.op.tag = some t → t ∉ nodes.filterMap (fun n => n.op.tag)) ∨
    (∃ t, extractStep acc n = .error (.duplicated t) ∧ n.op.tag = some t ∧ t ∈ nodes.filterMap (fun n => n.op.tag)) := by
  obtain ⟨results, side⟩ := acc
  have hlen : results.length = nodes.length := hi.length
  have hlt : ∀ j ∈ n.deps, j < results.length := fun j hj => by rw [hlen]; exact hn.1 j hj
  obtain ⟨h1, h2⟩ := inputs_ok hlt
  have hev : ∀ {V : Type} (sem : Op → List V → V), Transparent sem →
      (n.deps.filterMap (results[·]?)).map (Tree.eval sem) = n.deps.filterMap ((values sem nodes)[·]?) := by
    intro V sem hs
    rw [eval_inputs, hi.eval sem hs]
  have hcl : ∀ t ∈ n.deps.filterMap (results[·]?), Clean t := by
    intro t ht
    obtain ⟨j, -, hj⟩ := List.mem_filterMap.1 ht
    exact hi.clean t (List.mem_of_getElem? hj)
  have hmemtag : ∀ tag, side.any (·.1 == tag) = true ↔ tag ∈ nodes.filterMap (fun n => n.op.tag) := by
    intro tag
    have := hi.tags
    simp only at this
    rw [← this]
    simp [List.any_eq_true]
  -- an annotation with the annotated expression `x` and the value `v`
  have hann : ∀ (tag : String) (x v : Tree) (j : Nat), n.op.tag = some tag → n.exported = some j → results[j]? = some v →
      readExport n.op (n.deps.filterMap (results[·]?)) = some (tag, x, v) → Clean x →
      (∀ {V : Type} (sem : Op → List V → V), Transparent sem →
        x.eval sem = sem n.op (n.deps.filterMap ((values sem nodes)[·]?))) →
      (∃ acc', extractStep (results, side) n = .ok acc' ∧ Inv (nodes ++ [n]) acc' ∧
        ∀ t, n.op.tag = some t → t ∉ nodes.filterMap (fun n => n.op.tag)) ∨
      (∃ t, extractStep (results, side) n = .error (.duplicated t) ∧ n.op.tag = some t ∧
        t ∈ nodes.filterMap (fun n => n.op.tag)) := by
    intro tag x v j ht hj hv hr hx hxe
    by_cases hd : side.any (·.1 == tag) = true
    · right
      refine ⟨tag, ?_, ht, (hmemtag tag).1 hd⟩
      simp only [extractStep, h1, hr, hd, if_true]
    · left
      have hnot : tag ∉ nodes.filterMap (fun n => n.op.tag) := fun h => hd ((hmemtag tag).2 h)
      have htags : side.map Prod.fst = nodes.filterMap (fun n => n.op.tag) := hi.tags
      refine ⟨(results ++ [x], side ++ [(tag, v)]), by simp only [extractStep, h1, hr, hd]; rfl, ?_, ?_⟩
      · refine ⟨by simp [hlen], ?_, ?_, ?_, ?_, ?_, ?_⟩
        · intro t h
          rcases List.mem_append.1 h with h | h
          · exact hi.clean t h
          · rw [List.mem_singleton.1 h]; exact hx
        · intro p h
          rcases List.mem_append.1 h with h | h
          · exact hi.sideClean p h
          · rw [List.mem_singleton.1 h]; exact hi.clean v (List.mem_of_getElem? hv)
        · simp [htags, ht, List.filterMap_append]
        · rw [List.map_append, htags]
          refine List.nodup_append.2 ⟨htags ▸ hi.nodup, by simp, ?_⟩
          intro a ha b hb
          simp only [List.map_cons, List.map_nil, List.mem_singleton] at hb
          rw [hb]
          rintro rfl
          exact hnot ha
        · intro V sem hs
          have e : results.map (Tree.eval sem) = values sem nodes := hi.eval sem hs
          rw [values_append, List.map_append, e, ← hxe sem hs]
          rfl
        · intro V sem hs
          have e : results.map (Tree.eval sem) = values sem nodes := hi.eval sem hs
          have e' := hi.sideEval sem hs
          have hjl := exported_lt hn hj
          rw [List.filterMap_append, List.map_append, List.map_append, exported_values sem hp, ← e']
          congr 1
          simp only [List.filterMap_cons, hj, List.filterMap_nil, List.map_cons, List.map_nil]
          rw [values_append, List.getElem?_append_left (by rw [values_length]; exact hjl), ← e, List.getElem?_map, hv]
          rfl
      · intro t h
        rw [ht] at h
        cases h
        exact hnot
  obtain ⟨op, deps⟩ := n
  cases op with
  | plain k =>
    left
    refine ⟨(results ++ [.node (.plain k) (deps.filterMap (results[·]?))], side), by
      simp only [extractStep, h1, readExport], ?_, by intro t h; cases h⟩
    refine ⟨by simp [hlen], ?_, hi.sideClean, ?_, hi.nodup, ?_, ?_⟩
    · intro t h
      rcases List.mem_append.1 h with h | h
      · exact hi.clean t h
      · rw [List.mem_singleton.1 h]; exact .node _ _ hcl
    · have := hi.tags
      simp only at this
      simp [this, Op.tag, List.filterMap_append]
    · intro V sem hs
      have e : results.map (Tree.eval sem) = values sem nodes := hi.eval sem hs
      rw [values_append, List.map_append, e, ← hev sem hs]
      simp [Tree.eval]
    · intro V sem hs
      rw [List.filterMap_append]
      simp only [List.filterMap_cons, Node.exported, List.filterMap_nil, List.append_nil]
      rw [exported_values sem hp]
      exact hi.sideEval sem hs
  | exp tag =>
    have hl : deps.length = 2 := hn.2
    match deps, hl with
    | [a, b], _ =>
      have ha := List.getElem?_eq_getElem (hlt a (by simp))
      have hb := List.getElem?_eq_getElem (hlt b (by simp))
      have hf : ([a, b].filterMap (results[·]?)) = [(results[a]'(hlt a (by simp))), (results[b]'(hlt b (by simp)))] := by
        simp [List.filterMap_cons, ha, hb]
      refine hann tag _ _ a rfl rfl ha (by rw [hf]; rfl) (hi.clean _ (List.mem_of_getElem? ha)) ?_
      intro V sem hs
      rw [← hev sem hs]
      simp only at hf ⊢
      rw [hf]
      simp only [List.map_cons, List.map_nil]
      rw [hs.1]
  | expValue tag =>
    have hl : deps.length = 3 := hn.2
    match deps, hl with
    | [a, b, c], _ =>
      have ha := List.getElem?_eq_getElem (hlt a (by simp))
      have hb := List.getElem?_eq_getElem (hlt b (by simp))
      have hc := List.getElem?_eq_getElem (hlt c (by simp))
      have hf : ([a, b, c].filterMap (results[·]?)) =
          [(results[a]'(hlt a (by simp))), (results[b]'(hlt b (by simp))), (results[c]'(hlt c (by simp)))] := by
        simp [List.filterMap_cons, ha, hb, hc]
      refine hann tag _ _ c rfl rfl hc (by rw [hf]; rfl) (hi.clean _ (List.mem_of_getElem? ha)) ?_
      intro V sem hs
      rw [← hev sem hs]
      simp only at hf ⊢
      rw [hf]
      simp only [List.map_cons, List.map_nil]
      rw [hs.2]

theorem loop_inv : ∀ (rest nodes : List Node) (acc : Acc), PostOrder (nodes ++ rest) → Inv nodes acc →
    (∃ acc', extractLoop rest acc = .ok acc' ∧ Inv (nodes ++ rest) acc') ∨
    (∃ t, extractLoop rest acc = .error (.duplicated t) ∧ ¬ ((nodes ++ rest).filterMap (fun n => n.op.tag)).Nodup) := by
  intro rest
  induction rest with
  | nil => intro nodes acc _ hi; exact .inl ⟨acc, rfl, by simpa using hi⟩
  | cons n rest ih =>
    intro nodes acc hp hi
    have hp' : PostOrder nodes := by
      intro i m hm
      refine hp i m ?_
      have hlt : i < nodes.length := by
        by_contra h
        rw [List.getElem?_eq_none (by omega)] at hm
        cases hm
      rw [List.getElem?_append_left hlt, hm]
    have hn : NodeOk nodes.length n := hp _ n (by simp)
    have he : nodes ++ n :: rest = (nodes ++ [n]) ++ rest := by simp
    rcases step_inv hi hp' hn with ⟨acc', h1, h2, -⟩ | ⟨t, h1, h2, h3⟩
    · rw [he] at hp ⊢
      simp only [extractLoop, h1]
      exact ih _ _ hp h2
    · refine .inr ⟨t, by simp only [extractLoop, h1], ?_⟩
      intro hnd
      rw [List.filterMap_append, List.nodup_append] at hnd
      exact hnd.2.2 t h3 t (by simp [List.filterMap_cons, h2]) rfl

theorem inv_nil : Inv [] ([], []) := by
  constructor <;> simp [values]

/-! ## Theorems -/

/-- If it succeeds, no annotations are left in the expression and in the side outputs, the expression has the value of the original one,
and the side outputs are, in the order of the annotations, their tags with the values that were annotated; the tags are different. -/
theorem extract_values (nodes : List Node) (hp : PostOrder nodes) (r : Option Tree) (side : List (String × Tree))
    (h : extractSideOutputs nodes = .ok (r, side)) {V : Type} (sem : Op → List V → V) (hs : Transparent sem) :
    (∀ t, r = some t → Clean t) ∧ (∀ p ∈ side, Clean p.2) ∧
    r.map (Tree.eval sem) = (values sem nodes).getLast? ∧
    side.map Prod.fst = nodes.filterMap (fun n => n.op.tag) ∧ (side.map Prod.fst).Nodup ∧
    side.map (fun p => some (p.2.eval sem)) = (nodes.filterMap Node.exported).map fun j => (values sem nodes)[j]? := by
  unfold extractSideOutputs at h
  rcases loop_inv nodes [] ([], []) (by simpa using hp) inv_nil with ⟨acc, h1, hi⟩ | ⟨t, h1, -⟩
  · rw [h1] at h
    cases h
    rw [List.nil_append] at hi
    refine ⟨fun t ht => hi.clean t (List.mem_of_getLast? ht), hi.sideClean, ?_, hi.tags, hi.nodup, hi.sideEval sem hs⟩
    rw [← hi.eval sem hs, List.getLast?_map]
  · rw [h1] at h
    cases h

/-- It fails exactly if two annotations have the same tag, also for the same value. -/
theorem extract_fails (nodes : List Node) (hp : PostOrder nodes) :
    (∃ e, extractSideOutputs nodes = .error e) ↔ ¬ (nodes.filterMap (fun n => n.op.tag)).Nodup := by
  unfold extractSideOutputs
  rcases loop_inv nodes [] ([], []) (by simpa using hp) inv_nil with ⟨acc, h1, hi⟩ | ⟨t, h1, h2⟩
  · rw [h1]
    rw [List.nil_append] at hi
    have := hi.nodup
    rw [hi.tags] at this
    simp [this]
  · rw [h1]
    rw [List.nil_append] at h2
    simp [h2]

/-! ### Examples -/

/-- `export(f(export_value(x, 'a', g(x))), 'b')` -/
def sample : List Node :=
  [⟨.plain 0, []⟩, ⟨.plain 1, []⟩, ⟨.plain 2, [0]⟩, ⟨.expValue "a", [0, 1, 2]⟩, ⟨.plain 3, [3]⟩, ⟨.plain 4, []⟩, ⟨.exp "b", [4, 5]⟩]

theorem sample_ok : PostOrder sample := by
  intro i n h
  match i with
  | 0 | 1 | 2 | 3 | 4 | 5 | 6 => cases h; simp [NodeOk]
  | i + 7 => simp [sample] at h

example : extractSideOutputs sample = .ok (some (.node (.plain 3) [.node (.plain 0) []]),
    [("a", .node (.plain 2) [.node (.plain 0) []]), ("b", .node (.plain 3) [.node (.plain 0) []])]) := by
  rfl

example : extractSideOutputs (sample ++ [⟨.exp "a", [6, 5]⟩]) = .error (.duplicated "a") := by rfl

/-- Annotations are ignored, other operators add their number to the sum of the inputs. -/
example : Transparent (fun op (l : List Nat) => match op with | .plain k => k + l.sum | _ => l.headD 0) :=
  ⟨fun _ _ _ => rfl, fun _ _ _ _ => rfl⟩

end Verif.SideOut
