import Verif.Group.GroupLemmas
import Verif.Dense.DenseProps
import Verif.Arr.BuildLemmas
import Mathlib.Data.List.Nodup

/-!
# Lemmas: arrays of results
-/

namespace Verif.Group
open Verif.Dense Verif.Arr Verif.Agg

variable {V P A R E S β : Type}

theorem lookup_iff : ∀ {l : List (Nat × X)}, (l.map Prod.fst).Nodup → ∀ {k : Nat} {v : X},
    l.lookup k = some v ↔ (k, v) ∈ l
  | [], _, k, v => by simp
  | (k', v') :: l, hn, k, v => by
    simp only [List.map_cons, List.nodup_cons] at hn
    rw [List.lookup_cons]
    by_cases hk : k = k'
    · subst hk
      simp only [beq_self_eq_true, List.mem_cons, Prod.mk.injEq, true_and]
      constructor
      · intro h; injection h with h; exact Or.inl h.symm
      · rintro (h | h)
        · rw [h]
        · exact absurd (List.mem_map_of_mem (f := Prod.fst) h) hn.1
    · rw [show (k == k') = false by simpa using hk]
      simp only [List.mem_cons, Prod.mk.injEq, hk, false_and, false_or]
      exact lookup_iff hn.2

theorem lookup_none {l : List (Nat × X)} {k : Nat} : l.lookup k = none ↔ k ∉ l.map Prod.fst := by
  rw [List.lookup_eq_none_iff]
  simp only [List.mem_map, Prod.exists, exists_and_right, exists_eq_right, not_exists]
  constructor
  · intro h x hx; simpa using h _ hx
  · intro h p hp
    have : ¬ k = p.1 := fun e => h p.2 (by rw [e]; exact hp)
    simpa using this

/-- Lists with the same entries have the same lookups. -/
theorem lookup_congr {l m : List (Nat × X)} (hl : (l.map Prod.fst).Nodup) (hm : (m.map Prod.fst).Nodup)
    (h : ∀ x, x ∈ l ↔ x ∈ m) (k : Nat) : l.lookup k = m.lookup k := by
  apply Option.ext
  intro v
  rw [lookup_iff hl, lookup_iff hm, h]

/-! ## Dense results -/

theorem foldl_sets (opt : R → Option β) : ∀ (l : List (Nat × R)) (f : Nat → Option β) (c : Nat),
    (l.map Prod.fst).Nodup →
    (l.map (fun x => DBuilder.Op.set x.1 (opt x.2))).foldl opEffect f c = ((l.lookup c).bind opt).or (f c) := by
  intro l
  induction l with
  | nil => intro f c _; simp
  | cons x l ih =>
    intro f c hn
    simp only [List.map_cons, List.nodup_cons] at hn
    rw [List.map_cons, List.foldl_cons, ih _ _ hn.2, opEffect_set, List.lookup_cons]
    by_cases hc : c = x.1
    · rw [lookup_none.2 (hc ▸ hn.1), hc]
      cases h : opt x.2 <;> simp [h]
    · rw [show (c == x.1) = false by simpa using hc]
      simp [hc]

theorem buildDense_spec (op : GroupOp V P A R E S β) (mem : Nat → β) {n : Nat} {l : List (Nat × R)}
    (hn : (l.map Prod.fst).Nodup) (hb : ∀ x ∈ l, x.1 < n) :
    ∃ d, op.buildDense mem n l = some d ∧
      goodDense d ((List.range n).map fun c => (l.lookup c).bind op.opt) := by
  obtain ⟨b, e1, e2, e3⟩ := builder_elements ((List.range n).map mem)
    (l.map (fun x => DBuilder.Op.set x.1 (op.opt x.2))) (by
      intro o ho
      obtain ⟨x, hx, rfl⟩ := List.mem_map.1 ho
      simpa [opOk] using hb x hx)
  refine ⟨b.build, ?_, e2, ?_⟩
  · unfold GroupOp.buildDense
    rw [e1]; rfl
  · rw [e3]
    simp only [List.length_map, List.length_range]
    apply List.map_congr_left
    intro c _
    rw [foldl_sets op.opt l _ c hn]
    simp

/-! ## Sparse results -/

theorem sIds_append (a b : List (SOp α)) : sIds (a ++ b) = sIds a ++ sIds b := List.filterMap_append

theorem sVals_append : ∀ (a b : List (SOp α)) (k : Nat) (f : Nat → Option α),
    sVals k f (a ++ b) = sVals (k + (sIds a).length) (sVals k f a) b
  | [], b, k, f => by simp [sIds, sVals]
  | .add _ v :: a, b, k, f => by
    rw [List.cons_append, sVals, sVals_append a b, sVals]
    simp [sIds, Nat.add_assoc, Nat.add_comm]
  | .addId _ :: a, b, k, f => by
    rw [List.cons_append, sVals, sVals_append a b, sVals]
    simp [sIds, Nat.add_assoc, Nat.add_comm]
  | .setByOffset _ v :: a, b, k, f => by
    rw [List.cons_append, sVals, sVals_append a b, sVals]
    simp [sIds]

/-- Calls of a `SparseArrayBuilder` which has `k` ids, adding the results `l`. -/
structure Adds (opt : R → Option β) (k : Nat) (l : List (Nat × R)) (ops : List (SOp β)) : Prop where
  ids : sIds ops = l.map Prod.fst
  vals : ∀ f : Nat → Option β, (∀ o, k ≤ o → f o = none) → ∀ o : Nat,
    sVals k f ops o = if k ≤ o then (l[o - k]?).bind (fun x => opt x.2) else f o
  bound : ∀ o v, SOp.setByOffset o v ∈ ops → o < k + l.length

theorem Adds.nil (opt : R → Option β) (k : Nat) : Adds opt k [] [] :=
  ⟨rfl, by intro f hf o; by_cases h : k ≤ o <;> simp [sVals, h, hf], by simp⟩

theorem Adds.append {opt : R → Option β} {k : Nat} {l m : List (Nat × R)} {a b : List (SOp β)}
    (h1 : Adds opt k l a) (h2 : Adds opt (k + l.length) m b) : Adds opt k (l ++ m) (a ++ b) := by
  refine ⟨by rw [sIds_append, h1.ids, h2.ids, List.map_append], ?_, ?_⟩
  · intro f hf o
    rw [sVals_append, h1.ids, List.length_map, h2.vals]
    · by_cases hk : k + l.length ≤ o
      · rw [if_pos hk, if_pos (by omega), List.getElem?_append_right (by omega)]
        congr 2
        omega
      · rw [if_neg hk, h1.vals f hf]
        by_cases hk2 : k ≤ o
        · rw [if_pos hk2, if_pos hk2, List.getElem?_append_left (by omega)]
        · rw [if_neg hk2, if_neg hk2]
    · intro o ho
      rw [h1.vals f hf, if_pos (by omega), List.getElem?_eq_none (by omega)]
      rfl
  · intro o v hm
    rw [List.length_append]
    rcases List.mem_append.1 hm with h | h
    · have := h1.bound o v h; omega
    · have := h2.bound o v h; omega

theorem Adds.one (opt : R → Option β) (k c : Nat) (r : R) :
    Adds opt k [(c, r)] [.setByOffset k (opt r), .addId c] := by
  refine ⟨rfl, ?_, ?_⟩
  · intro f hf o
    simp only [sVals]
    by_cases ho : o = k
    · subst ho
      cases h : opt r <;> simp [h, hf]
    · by_cases hk : k ≤ o
      · rw [if_neg (fun hh => ho hh.1), if_pos hk, hf o hk, List.getElem?_eq_none (by simp; omega)]
        rfl
      · rw [if_neg (fun hh => ho hh.1), if_neg hk]
  · intro o v hm
    simp only [List.mem_cons, SOp.setByOffset.injEq, reduceCtorEq, List.not_mem_nil, or_false] at hm
    simp [hm.1]

/-- `SetByOffset` for consecutive offsets. -/
def setsFrom (opt : R → Option β) (o : Nat) (rs : List R) : List (SOp β) :=
  (rs.zipIdx o).map fun x => .setByOffset x.2 (opt x.1)

theorem sIds_setsFrom (opt : R → Option β) : ∀ (rs : List R) (o : Nat), sIds (setsFrom opt o rs) = []
  | [], _ => rfl
  | r :: rs, o => by
    have := sIds_setsFrom opt rs (o + 1)
    simp only [setsFrom, List.zipIdx_cons, List.map_cons] at this ⊢
    simpa [sIds] using this

theorem sVals_setsFrom (opt : R → Option β) : ∀ (rs : List R) (o k : Nat) (f : Nat → Option β) (j : Nat),
    (∀ j, o ≤ j → f j = none) →
    sVals k f (setsFrom opt o rs) j = if o ≤ j then (rs[j - o]?).bind opt else f j
  | [], o, k, f, j, hf => by
    by_cases h : o ≤ j <;> simp [setsFrom, sVals, h, hf]
  | r :: rs, o, k, f, j, hf => by
    have ih := sVals_setsFrom opt rs (o + 1) k (fun p => if p = o ∧ (opt r).isSome then opt r else f p) j (by
      intro p hp
      rw [if_neg (by omega)]
      exact hf p (by omega))
    simp only [setsFrom, List.zipIdx_cons, List.map_cons, sVals] at ih ⊢
    rw [ih]
    by_cases h1 : o + 1 ≤ j
    · rw [if_pos h1, if_pos (by omega), show j - o = (j - (o + 1)) + 1 by omega, List.getElem?_cons_succ]
    · rw [if_neg h1]
      by_cases h2 : j = o
      · subst h2
        cases h : opt r <;> simp [hf, h]
      · rw [if_neg (fun hh => h2 hh.1), if_neg (by omega)]

theorem sVals_addIds : ∀ (cs : List Nat) (k : Nat) (f : Nat → Option β),
    sVals k f (cs.map .addId) = f
  | [], _, _ => rfl
  | _ :: cs, k, f => by rw [List.map_cons, sVals, sVals_addIds cs]

theorem sIds_addIds (cs : List Nat) : sIds (cs.map (SOp.addId (α := β))) = cs := by
  induction cs with
  | nil => rfl
  | cons c cs ih => simpa [sIds] using ih

theorem Adds.full (opt : R → Option β) (k : Nat) (cs : List Nat) (rs : List R) (h : rs.length = cs.length) :
    Adds opt k (cs.zip rs) (cs.map .addId ++ setsFrom opt k rs) := by
  refine ⟨?_, ?_, ?_⟩
  · rw [sIds_append, sIds_addIds, sIds_setsFrom, List.append_nil, List.map_fst_zip (by omega)]
  · intro f hf o
    rw [sVals_append, sVals_addIds, sVals_setsFrom opt rs _ _ _ _ hf]
    by_cases hk : k ≤ o
    · rw [if_pos hk, if_pos hk]
      by_cases ho : o - k < cs.length
      · rw [List.getElem?_eq_getElem (l := rs) (by omega),
          List.getElem?_eq_getElem (l := cs.zip rs) (by rw [List.length_zip]; omega)]
        simp
      · rw [List.getElem?_eq_none (by omega), List.getElem?_eq_none (by rw [List.length_zip]; omega)]
        rfl
    · rw [if_neg hk, if_neg hk]
  · intro o v hm
    rcases List.mem_append.1 hm with h1 | h1
    · obtain ⟨c, _, hc⟩ := List.mem_map.1 h1; cases hc
    · obtain ⟨x, hx, he⟩ := List.mem_map.1 h1
      injection he with h2 h3
      have := List.mem_zipIdx hx
      rw [List.length_zip]
      omega

theorem elems_eq {a : Arr β} {n : Nat} (hs : a.size = n) {f : Nat → Option β} (h : ∀ i, i < n → a.elem i = f i) :
    a.elems = (List.range n).map f := by
  unfold Arr.elems
  rw [hs]
  apply List.map_congr_left
  intro i hi
  exact h i (List.mem_range.1 hi)

theorem nodup_of_inc {l : List Nat} (h : l.Pairwise (· < ·)) : l.Nodup :=
  h.imp (by intro a b hab; omega)

theorem buildSparse_spec (op : GroupOp V P A R E S β) (env : Env V S β) {n cnt : Nat} {l : List (Nat × R)}
    {ops : List (SOp β)} (h : Adds op.opt 0 l ops) (hinc : (l.map Prod.fst).Pairwise (· < ·))
    (hb : ∀ x ∈ l, x.1 < n) (hc : l.length ≤ cnt) :
    ∃ d, buildSparse env n cnt ops = some d ∧
      goodArr d ((List.range n).map fun c => (l.lookup c).bind op.opt) := by
  obtain ⟨b, e1, e2, e3, e4, e5⟩ := sbuilder_spec (size := n) ((List.range cnt).map env.rmem)
    ((List.range cnt).map env.idmem) (by simp) (ops := ops) (by rw [h.ids]; simpa using hc) (by
      intro o v hm
      have := h.bound o v hm
      simp; omega) (by rw [h.ids]; exact hinc) (by
      intro i hi
      rw [h.ids] at hi
      obtain ⟨x, hx, rfl⟩ := List.mem_map.1 hi
      exact hb x hx)
  refine ⟨b.build, ?_, e2, elems_eq e3 ?_⟩
  · unfold buildSparse; rw [e1]; rfl
  · intro i hi
    rw [h.ids] at e4 e5
    cases hl : l.lookup i with
    | none =>
      rw [e5 i hi (lookup_none.1 hl)]; rfl
    | some r =>
      have hm := (lookup_iff (nodup_of_inc hinc)).1 hl
      obtain ⟨o, ho⟩ := List.mem_iff_getElem?.1 hm
      rw [e4 o i (by rw [List.getElem?_map, ho]; rfl), h.vals _ (fun _ _ => rfl), if_pos (Nat.zero_le o), Nat.sub_zero, ho]
      rfl

/-! ## Results of groups with a value for the others -/

theorem zipIdx_sets (opt : R → Option β) : ∀ (out : List (Nat × R)) (k : Nat) (f : Nat → Option β) (o : Nat),
    (∀ o, k ≤ o → f o = none) →
    ((out.zipIdx k).map (fun x => DBuilder.Op.set x.2 (opt x.1.2))).foldl opEffect f o =
      if k ≤ o then (out[o - k]?).bind (fun x => opt x.2) else f o := by
  intro out
  induction out with
  | nil => intro k f o hf; by_cases h : k ≤ o <;> simp [h, hf]
  | cons x out ih =>
    intro k f o hf
    rw [List.zipIdx_cons, List.map_cons, List.foldl_cons, ih, opEffect_set]
    · by_cases h1 : k + 1 ≤ o
      · rw [if_pos h1, if_pos (by omega), show o - k = (o - (k + 1)) + 1 by omega, List.getElem?_cons_succ]
      · rw [if_neg h1]
        by_cases h2 : o = k
        · subst h2
          cases h : opt x.2 <;> simp [hf, h]
        · dsimp only
          rw [if_neg (fun hh => h2 hh.1), if_neg (by omega)]
    · intro o ho
      rw [opEffect_set]
      dsimp only
      rw [if_neg (by omega)]
      exact hf o (by omega)

theorem buildGroups_spec (op : GroupOp V P A R E S β) (env : Env V S β) {np cap : Nat} {out : List (Nat × R)}
    (hinc : (out.map Prod.fst).Pairwise (· < ·)) (hb : ∀ x ∈ out, x.1 < np) (hc : out.length ≤ cap) (m : Option β) :
    ∃ d, op.buildGroups env np cap out m = some d ∧
      goodArr d ((List.range np).map fun c => match out.lookup c with | some r => op.opt r | none => m) := by
  obtain ⟨b, e1, e2, e3⟩ := builder_prefix ((List.range cap).map env.rmem)
    (out.zipIdx.map fun x => DBuilder.Op.set x.2 (op.opt x.1.2)) (by
      intro o ho
      obtain ⟨x, hx, rfl⟩ := List.mem_map.1 ho
      have := List.mem_zipIdx hx
      simp [opOk]; omega) out.length (by simpa using hc)
  have hlen : (b.buildSize out.length).values.length = out.length := by
    have := congrArg List.length e3
    rw [elems_length] at this
    simpa using this
  obtain ⟨m1, m2, m3, m4⟩ := make_spec (n := np) (off := 0) (ids := out.map fun x => (x.1 : Int)) (by
      unfold Inc
      rw [show (out.map fun x => (x.1 : Int)) = (out.map Prod.fst).map (fun (i : Nat) => (i : Int)) by simp,
        List.pairwise_map]
      exact hinc.imp (by intro x y h; omega)) (by
      intro x hx
      obtain ⟨y, hy, rfl⟩ := List.mem_map.1 hx
      have := hb y hy
      omega) e2 (by rw [hlen]; simp) m
  refine ⟨_, by unfold GroupOp.buildGroups; rw [e1]; rfl, m1, elems_eq (show _ = np from rfl) ?_⟩
  intro i hi
  cases hl : out.lookup i with
  | none =>
    refine m4 i hi ?_
    intro hm
    obtain ⟨y, hy, he⟩ := List.mem_map.1 hm
    apply lookup_none.1 hl
    have : y.1 = i := by omega
    exact this ▸ List.mem_map_of_mem (f := Prod.fst) hy
  | some r =>
    have hm := (lookup_iff (nodup_of_inc hinc)).1 hl
    obtain ⟨o, ho⟩ := List.mem_iff_getElem?.1 hm
    rw [m3 o i (by rw [List.getElem?_map, ho]; simp)]
    have hol := (List.getElem?_eq_some_iff.1 ho).1
    refine elem_of_elems e3 ?_
    rw [List.getElem?_map, List.getElem?_range (by omega)]
    simp only [Option.map_some]
    rw [zipIdx_sets op.opt out 0 _ o (fun _ _ => rfl), if_pos (Nat.zero_le o), Nat.sub_zero, ho]
    rfl

end Verif.Group
