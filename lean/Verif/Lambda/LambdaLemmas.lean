import Verif.Lambda.LambdaSpec
import Verif.Expr.TraverseLemmas

namespace Verif.Lambda
open Verif.Expr
variable {O V Q E T X : Type}

theorem setAt_of_lt {l : List T} {i : Nat} (h : i < l.length) (x : T) : setAt l i x = some (l.set i x) := by
  unfold setAt; rw [if_pos h]

/-! ## Indices of parameters -/

theorem keysUnique_iff : ∀ (ns : List (Node O V Q)) (seen : List (List Nat)), keysUnique ns seen = true ↔
    (ns.filterMap placeholderKey).Nodup ∧ ∀ k ∈ ns.filterMap placeholderKey, k ∉ seen := by
  intro ns
  induction ns with
  | nil => intro seen; simp [keysUnique]
  | cons n ns ih =>
    intro seen
    rw [keysUnique]
    cases h : placeholderKey n with
    | none => rw [List.filterMap_cons_none h]; exact ih seen
    | some k =>
      rw [List.filterMap_cons_some h]
      simp only
      by_cases hk : k ∈ seen
      · rw [if_pos hk]
        simp only [Bool.false_eq_true, false_iff]
        rintro ⟨-, h2⟩
        exact h2 k (by simp) hk
      · rw [if_neg hk, ih, List.nodup_cons]
        constructor
        · rintro ⟨h1, h2⟩
          refine ⟨⟨fun hm => h2 k hm (by simp), h1⟩, ?_⟩
          intro k' hk'
          rcases List.mem_cons.1 hk' with rfl | hk'
          · exact hk
          · exact fun hs => h2 k' hk' (by simp [hs])
        · rintro ⟨⟨h1, h2⟩, h3⟩
          refine ⟨h2, ?_⟩
          intro k' hk' hs
          rcases List.mem_cons.1 hs with rfl | hs
          · exact h1 hk'
          · exact h3 k' (by simp [hk']) hs

theorem sigIndex_eq (key : List Nat) : ∀ (ps : List (List Nat)) (i : Nat), ps.Nodup →
    sigIndex key ps i = if key ∈ ps then some (i + ps.idxOf key) else none := by
  intro ps
  induction ps with
  | nil => intro i _; rfl
  | cons p ps ih =>
    intro i hnd
    rw [List.nodup_cons] at hnd
    rw [sigIndex, ih (i + 1) hnd.2]
    by_cases hp : p = key
    · subst hp
      rw [if_neg hnd.1]
      simp
    · by_cases hm : key ∈ ps
      · rw [if_pos hm]
        simp only
        rw [if_pos (by simp [hm]), List.idxOf_cons_ne _ hp]
        congr 1
        omega
      · rw [if_neg hm]
        simp only
        rw [if_neg hp, if_neg (by
          simp only [List.mem_cons, not_or]
          exact ⟨fun h => hp h.symm, hm⟩)]

theorem indexLoop_spec {params : List (List Nat)} (hnd : params.Nodup) : ∀ (ns : List (Node O V Q)) (i : Nat)
    (ix : List (Option Nat)), (ns.filterMap placeholderKey).Nodup → (∀ k ∈ ns.filterMap placeholderKey, k ∈ params) →
    ix.length = params.length →
    ∃ ix', indexLoop params ns i ix = some ix' ∧ ix'.length = params.length ∧
      ∀ (j m : Nat) (p : List Nat), params[j]? = some p → (ix'[j]? = some (some m) ↔
        (∃ (t : Nat) (n : Node O V Q), ns[t]? = some n ∧ placeholderKey n = some p ∧ m = i + t) ∨
        (ix[j]? = some (some m) ∧ p ∉ ns.filterMap placeholderKey)) := by
  intro ns
  induction ns with
  | nil =>
    intro i ix _ _ hl
    refine ⟨ix, rfl, hl, ?_⟩
    intro j m p hp
    simp
  | cons n ns ih =>
    intro i ix hu hk hl
    rw [indexLoop]
    cases h : placeholderKey n with
    | none =>
      rw [List.filterMap_cons_none h] at hu hk
      obtain ⟨ix', h1, h2, h3⟩ := ih (i + 1) ix hu hk hl
      refine ⟨ix', h1, h2, ?_⟩
      intro j m p hp
      rw [h3 j m p hp, List.filterMap_cons_none h]
      apply or_congr_left
      constructor
      · rintro ⟨t, n', g1, g2, g3⟩
        exact ⟨t + 1, n', by simpa using g1, g2, by omega⟩
      · rintro ⟨t, n', g1, g2, g3⟩
        cases t with
        | zero => simp at g1; rw [g1] at h; rw [h] at g2; cases g2
        | succ t => exact ⟨t, n', by simpa using g1, g2, by omega⟩
    | some k =>
      rw [List.filterMap_cons_some h] at hu hk
      rw [List.nodup_cons] at hu
      have hkp := hk k (by simp)
      have hj0 : params.idxOf k < params.length := List.idxOf_lt_length_of_mem hkp
      simp only
      rw [sigIndex_eq k params 0 hnd, if_pos hkp]
      simp only [Nat.zero_add]
      rw [setAt_of_lt (by omega)]
      simp only
      obtain ⟨ix', h1, h2, h3⟩ := ih (i + 1) (ix.set (params.idxOf k) (some i)) hu.2 (fun k' hk' => hk k' (by simp [hk']))
        (by simpa using hl)
      refine ⟨ix', h1, h2, ?_⟩
      intro j m p hp
      rw [h3 j m p hp, List.filterMap_cons_some h]
      have hjl := (List.getElem?_eq_some_iff.1 hp).1
      by_cases hpk : p = k
      · subst hpk
        have hj : params.idxOf p = j := by
          have := (List.getElem?_eq_some_iff.1 hp).2
          rw [← this]
          exact hnd.idxOf_getElem j hjl
        rw [hj, List.getElem?_set_self (by omega)]
        constructor
        · rintro (⟨t, n', g1, g2, g3⟩ | ⟨g1, g2⟩)
          · exact absurd (List.mem_filterMap.2 ⟨n', List.mem_of_getElem? g1, g2⟩) hu.1
          · left
            simp only [Option.some.injEq] at g1
            exact ⟨0, n, rfl, h, by omega⟩
        · rintro (⟨t, n', g1, g2, g3⟩ | ⟨g1, g2⟩)
          · cases t with
            | zero => right; exact ⟨by simp only [Nat.add_zero] at g3; rw [g3], hu.1⟩
            | succ t =>
              exact absurd (List.mem_filterMap.2 ⟨n', List.mem_of_getElem? (by simpa using g1), g2⟩) hu.1
          · exact absurd (by simp) g2
      · have hj : params.idxOf k ≠ j := by
          intro he
          have : params[j]? = some k := by
            rw [← he, List.getElem?_eq_getElem hj0]
            simp
          rw [hp] at this
          exact hpk (Option.some.inj this)
        rw [List.getElem?_set_ne hj]
        have hmem : (p ∉ k :: ns.filterMap placeholderKey) ↔ p ∉ ns.filterMap placeholderKey := by
          simp [hpk]
        rw [hmem]
        apply or_congr_left
        constructor
        · rintro ⟨t, n', g1, g2, g3⟩
          exact ⟨t + 1, n', by simpa using g1, g2, by omega⟩
        · rintro ⟨t, n', g1, g2, g3⟩
          cases t with
          | zero => simp at g1; rw [g1] at h; rw [h] at g2; cases g2; exact absurd rfl hpk
          | succ t => exact ⟨t, n', by simpa using g1, g2, by omega⟩

/-- What the construction guarantees about the indices. -/
structure IndexOk (L : LambdaOp O V Q) : Prop where
  nodup : L.params.Nodup
  var : L.variadic = true → L.params ≠ []
  len : L.paramIndices.length = L.params.length
  idx : ∀ (j m : Nat), L.paramIndices[j]? = some (some m) ↔
    ∃ (n : Node O V Q) (p : List Nat), L.body.nodes[m]? = some n ∧ placeholderKey n = some p ∧ L.params[j]? = some p
  known : ∀ n ∈ L.body.nodes, ∀ p, placeholderKey n = some p → p ∈ L.params

/-! ## Presetting the results of parameters -/

theorem presetLoop_spec (wr : X → T) : ∀ (ix : List (Option Nat)) (inputs : List X) (res : List T),
    ix.length ≤ inputs.length → (∀ (j m : Nat), ix[j]? = some (some m) → m < res.length) →
    (∀ (j j' m : Nat), ix[j]? = some (some m) → ix[j']? = some (some m) → j = j') →
    ∃ res', presetLoop wr ix inputs res = some res' ∧ res'.length = res.length ∧
      (∀ (j m : Nat), ix[j]? = some (some m) → ∃ x, inputs[j]? = some x ∧ res'[m]? = some (wr x)) ∧
      ∀ (m : Nat), (∀ j : Nat, ix[j]? ≠ some (some m)) → res'[m]? = res[m]? := by
  intro ix
  induction ix with
  | nil => intro inputs res _ _ _; exact ⟨res, rfl, rfl, by simp, fun _ _ => rfl⟩
  | cons o ix ih =>
    intro inputs res hl hb hi
    cases inputs with
    | nil => simp at hl
    | cons x inputs =>
      have hl' : ix.length ≤ inputs.length := by simpa using hl
      have hi' : ∀ (j j' m : Nat), ix[j]? = some (some m) → ix[j']? = some (some m) → j = j' := by
        intro j j' m h1 h2
        have := hi (j + 1) (j' + 1) m (by simpa using h1) (by simpa using h2)
        omega
      cases o with
      | none =>
        obtain ⟨res', h1, h2, h3, h4⟩ := ih inputs res hl' (fun j m h => hb (j + 1) m (by simpa using h)) hi'
        refine ⟨res', by rw [presetLoop]; exact h1, h2, ?_, ?_⟩
        · intro j m h
          cases j with
          | zero => simp at h
          | succ j => simpa using h3 j m (by simpa using h)
        · intro m h
          exact h4 m (fun j => by simpa using h (j + 1))
      | some k =>
        have hk := hb 0 k (by simp)
        obtain ⟨res', h1, h2, h3, h4⟩ := ih inputs (res.set k (wr x)) hl'
          (fun j m h => by rw [List.length_set]; exact hb (j + 1) m (by simpa using h)) hi'
        refine ⟨res', by rw [presetLoop, setAt_of_lt hk]; exact h1, by rw [h2, List.length_set], ?_, ?_⟩
        · intro j m h
          cases j with
          | zero =>
            simp only [List.getElem?_cons_zero, Option.some.injEq] at h
            subst h
            refine ⟨x, by simp, ?_⟩
            rw [h4 k (fun j hj => by
              have := hi 0 (j + 1) k (by simp) (by simpa using hj)
              omega), List.getElem?_set_self hk]
          | succ j => simpa using h3 j m (by simpa using h)
        · intro m h
          rw [h4 m (fun j => by simpa using h (j + 1))]
          have : k ≠ m := by
            rintro rfl
            exact h 0 (by simp)
          rw [List.getElem?_set_ne this]

theorem fits_iff (L : LambdaOp O V Q) (hv : L.variadic = true → L.params ≠ []) (c : Nat) :
    depsCountOk L c = true ↔ Fits L.params L.variadic c := by
  unfold depsCountOk Fits
  have : L.params ≠ [] → 0 < L.params.length := List.length_pos_iff.2
  cases h : L.variadic with
  | true => have := this (hv h); simp
  | false => simp; omega

theorem preset_spec {L : LambdaOp O V Q} (h : IndexOk L) (wr : X → T) (tuple : List X → X) (inputs : List X) (res : List T)
    (hf : Fits L.params L.variadic inputs.length) (hres : res.length = L.body.nodes.length) :
    ∃ res', preset wr L (fun xs => (.ok (tuple xs) : Except (Err E) X)) inputs res = some (.ok res') ∧
      res'.length = res.length ∧
      ∀ (m : Nat) (n : Node O V Q) (p : List Nat), L.body.nodes[m]? = some n → placeholderKey n = some p →
        ∃ x, argOf L.params L.variadic tuple inputs p = some x ∧ res'[m]? = some (wr x) := by
  unfold preset
  have hlen := h.len
  cases hlast : L.paramIndices.getLast? with
  | none =>
    have : L.paramIndices = [] := List.getLast?_eq_none_iff.1 hlast
    rw [this] at hlen
    refine ⟨res, rfl, rfl, ?_⟩
    intro m n p hm hp
    have := h.known n (List.mem_of_getElem? hm) p hp
    rw [List.length_eq_zero_iff.1 hlen.symm] at this
    cases this
  | some last =>
    simp only
    have hne : L.paramIndices ≠ [] := by rintro e; rw [e] at hlast; cases hlast
    have hpos : 0 < L.params.length := by rw [← hlen]; exact List.length_pos_iff.2 hne
    have hlastIdx : L.paramIndices[L.params.length - 1]? = some last := by
      rw [List.getLast?_eq_getElem?, hlen] at hlast; exact hlast
    have hsplit : ∀ j : Nat, j + 1 < L.params.length → L.paramIndices.dropLast[j]? = L.paramIndices[j]? := by
      intro j hj
      rw [List.getElem?_dropLast, if_pos (by omega)]
    have hdl : ∀ (j m : Nat), L.paramIndices.dropLast[j]? = some (some m) → j + 1 < L.params.length ∧ L.paramIndices[j]? = some (some m) := by
      intro j m hj
      have hjl := (List.getElem?_eq_some_iff.1 hj).1
      rw [List.length_dropLast] at hjl
      exact ⟨by omega, by rw [← hsplit j (by omega)]; exact hj⟩
    have hbound : ∀ (j m : Nat), L.paramIndices[j]? = some (some m) → m < res.length := by
      intro j m hj
      obtain ⟨n, p, h1, -, -⟩ := (h.idx j m).1 hj
      rw [hres]
      exact (List.getElem?_eq_some_iff.1 h1).1
    have hinj : ∀ (j j' m : Nat), L.paramIndices[j]? = some (some m) → L.paramIndices[j']? = some (some m) → j = j' := by
      intro j j' m hj hj'
      obtain ⟨n, p, h1, h2, h3⟩ := (h.idx j m).1 hj
      obtain ⟨n', p', h1', h2', h3'⟩ := (h.idx j' m).1 hj'
      rw [h1] at h1'; cases h1'
      rw [h2] at h2'; cases h2'
      have a := List.getElem?_eq_some_iff.1 h3
      have b := List.getElem?_eq_some_iff.1 h3'
      have e1 := h.nodup.idxOf_getElem j a.1
      have e2 := h.nodup.idxOf_getElem j' b.1
      rw [a.2] at e1
      rw [b.2] at e2
      omega
    have hin : L.params.length ≤ inputs.length + 1 := by
      unfold Fits at hf
      split at hf <;> omega
    obtain ⟨res1, h1, h2, h3, h4⟩ := presetLoop_spec wr L.paramIndices.dropLast inputs res
      (by rw [List.length_dropLast]; omega)
      (fun j m hj => hbound j m (hdl j m hj).2)
      (fun j j' m hj hj' => hinj j j' m (hdl j m hj).2 (hdl j' m hj').2)
    rw [h1]
    simp only
    -- what holds for the parameters other than the last
    have hparam : ∀ (m : Nat) (n : Node O V Q) (p : List Nat), L.body.nodes[m]? = some n → placeholderKey n = some p →
        L.params.idxOf p < L.params.length ∧ L.paramIndices[L.params.idxOf p]? = some (some m) := by
      intro m n p hm hp
      have hk := h.known n (List.mem_of_getElem? hm) p hp
      have hlt := List.idxOf_lt_length_of_mem hk
      refine ⟨hlt, (h.idx _ m).2 ⟨n, p, hm, hp, ?_⟩⟩
      rw [List.getElem?_eq_getElem hlt]; simp
    have hother : ∀ (m : Nat) (n : Node O V Q) (p : List Nat), L.body.nodes[m]? = some n → placeholderKey n = some p →
        L.params.idxOf p + 1 < L.params.length →
        ∃ x, argOf L.params L.variadic tuple inputs p = some x ∧ res1[m]? = some (wr x) := by
      intro m n p hm hp hlt
      obtain ⟨-, hix⟩ := hparam m n p hm hp
      obtain ⟨x, hx1, hx2⟩ := h3 _ m (by rw [hsplit _ hlt]; exact hix)
      refine ⟨x, ?_, hx2⟩
      unfold argOf
      rw [if_neg (by simpa using h.known n (List.mem_of_getElem? hm) p hp), if_neg (by omega)]
      exact hx1
    have hlastcase : ∀ (m : Nat) (n : Node O V Q) (p : List Nat), L.body.nodes[m]? = some n → placeholderKey n = some p →
        ¬ L.params.idxOf p + 1 < L.params.length → last = some m ∧ L.params.idxOf p = L.params.length - 1 := by
      intro m n p hm hp hlt
      obtain ⟨hb, hix⟩ := hparam m n p hm hp
      have : L.params.idxOf p = L.params.length - 1 := by omega
      rw [this, hlastIdx] at hix
      exact ⟨Option.some.inj hix, this⟩
    cases last with
    | none =>
      refine ⟨res1, rfl, h2, ?_⟩
      intro m n p hm hp
      by_cases hlt : L.params.idxOf p + 1 < L.params.length
      · exact hother m n p hm hp hlt
      · cases (hlastcase m n p hm hp hlt).1
    | some k =>
      have hkb := hbound _ k hlastIdx
      have finish : ∀ x, (∀ (n : Node O V Q) (p : List Nat), L.body.nodes[k]? = some n → placeholderKey n = some p →
          argOf L.params L.variadic tuple inputs p = some x) →
          ∀ (m : Nat) (n : Node O V Q) (p : List Nat), L.body.nodes[m]? = some n → placeholderKey n = some p →
          ∃ x', argOf L.params L.variadic tuple inputs p = some x' ∧ (res1.set k (wr x))[m]? = some (wr x') := by
        intro x hx m n p hm hp
        by_cases hlt : L.params.idxOf p + 1 < L.params.length
        · obtain ⟨x', g1, g2⟩ := hother m n p hm hp hlt
          refine ⟨x', g1, ?_⟩
          have : k ≠ m := by
            rintro rfl
            have := hinj _ _ k hlastIdx (hparam k n p hm hp).2
            omega
          rw [List.getElem?_set_ne this]
          exact g2
        · obtain ⟨e1, e2⟩ := hlastcase m n p hm hp hlt
          cases e1
          exact ⟨x, hx n p hm hp, List.getElem?_set_self (by rw [h2]; exact hkb)⟩
      have hk : ∀ (n : Node O V Q) (p : List Nat), L.body.nodes[k]? = some n → placeholderKey n = some p →
          L.params.idxOf p = L.params.length - 1 ∧ p ∈ L.params := by
        intro n p hm hp
        have := hinj _ _ k hlastIdx (hparam k n p hm hp).2
        exact ⟨this.symm, h.known n (List.mem_of_getElem? hm) p hp⟩
      simp only
      cases hv : L.variadic with
      | true =>
        rw [if_pos rfl, if_neg (by omega)]
        rw [setAt_of_lt (by rw [h2]; exact hkb)]
        refine ⟨_, rfl, by rw [List.length_set, h2], ?_⟩
        rw [hv] at finish
        refine finish _ ?_
        intro n p hm hp
        obtain ⟨e1, e2⟩ := hk n p hm hp
        unfold argOf
        rw [if_neg (by simpa using e2), if_pos ⟨rfl, by omega⟩, hlen]
      | false =>
        rw [if_neg (by simp)]
        have hfl : inputs.length = L.params.length := by
          unfold Fits at hf; rw [hv] at hf; simpa using hf
        cases hx : inputs.getLast? with
        | none =>
          have := List.getLast?_eq_none_iff.1 hx
          rw [this] at hfl
          simp at hfl; omega
        | some x =>
          simp only
          rw [setAt_of_lt (by rw [h2]; exact hkb)]
          refine ⟨_, rfl, by rw [List.length_set, h2], ?_⟩
          rw [hv] at finish
          refine finish x ?_
          intro n p hm hp
          obtain ⟨e1, e2⟩ := hk n p hm hp
          unfold argOf
          rw [if_neg (by simpa using e2), if_neg (by simp), e1, ← hfl, ← List.getLast?_eq_getElem?, hx]

/-! ## The loop over the body -/

section
variable [DecidableEq O] [DecidableEq V] [DecidableEq Q]

/-- The results known before node `i`. -/
structure Inv (v : Node O V Q → List X → Except (Err E) X) (rd : T → Option X) (nodes : List (Node O V Q)) (i : Nat)
    (res : List T) : Prop where
  len : res.length = nodes.length
  val : ∀ (j : Nat) (n : Node O V Q), nodes[j]? = some n → (j < i ∨ placeholderKey n ≠ none) →
    ∃ x t, fold v n = .ok x ∧ res[j]? = some t ∧ rd t = some x

theorem gather_inv {v : Node O V Q → List X → Except (Err E) X} {rd : T → Option X} {nodes : List (Node O V Q)} {i : Nat}
    {res : List T} (h : Inv v rd nodes i res) : ∀ (ix : List Nat) (ds : List (Node O V Q)),
    ix.map (fun k => nodes[k]?) = ds.map some → (∀ k ∈ ix, k < i) →
    ∃ ts xs, gather res ix = some ts ∧ readAll rd ts = some xs ∧ folds v ds = .ok xs := by
  intro ix
  induction ix with
  | nil =>
    intro ds hd _
    cases ds with
    | nil => exact ⟨[], [], rfl, rfl, by rw [folds]⟩
    | cons d ds => simp at hd
  | cons k ix ih =>
    intro ds hd hk
    cases ds with
    | nil => simp at hd
    | cons d ds =>
      simp only [List.map_cons, List.cons.injEq] at hd
      obtain ⟨ts, xs, h1, h2, h3⟩ := ih ds hd.2 (fun k' hk' => hk k' (by simp [hk']))
      obtain ⟨x, t, g1, g2, g3⟩ := h.val k d hd.1 (Or.inl (hk k (by simp)))
      refine ⟨t :: ts, x :: xs, ?_, ?_, ?_⟩
      · rw [gather, g2, h1]
      · rw [readAll, g3, h2]; rfl
      · rw [folds_cons, g1, h3]; rfl

theorem bodyLoop_eq {v : Node O V Q → List X → Except (Err E) X} {rd : T → Option X} {wr : X → T}
    (hrw : ∀ x, rd (wr x) = some x) {root : Node O V Q} {po : PostOrder O V (Attr Q V)} (hpo : postOrder root = some po)
    {step : Nat → Node O V Q → List X → Except (Err E) X}
    (hstep : ∀ (i : Nat) (n : Node O V Q) (args : List X), po.nodes[i]? = some n → placeholderKey n = none →
      folds v n.deps = .ok args → step i n args = v n args) :
    ∀ (m i : Nat) (res : List T), i + m = po.nodes.length → Inv v rd po.nodes i res →
      backOf rd (bodyLoop rd wr po step m i res) = some (fold v root) := by
  obtain ⟨po', hpo', hnd, hsub, hlast, hdep, _⟩ := post_order root
  rw [hpo] at hpo'; cases hpo'
  have hnodes := nodes_eq hpo
  intro m
  induction m with
  | zero =>
    intro i res him h
    have hl : po.nodes[po.nodes.length - 1]? = some root := by rw [← List.getLast?_eq_getElem?]; exact hlast
    have hlt := (List.getElem?_eq_some_iff.1 hl).1
    obtain ⟨x, t, g1, g2, g3⟩ := h.val _ root hl (Or.inl (by omega))
    rw [bodyLoop, backOf, List.getLast?_eq_getElem?, h.len, g2, g1]
    simp only [Option.bind_some]
    rw [g3]
    rfl
  | succ m ih =>
    intro i res him h
    have hi : po.nodes[i]? = some po.nodes[i] := List.getElem?_eq_getElem (by omega)
    generalize po.nodes[i] = n at hi
    rw [bodyLoop, hi]
    simp only
    cases hp : placeholderKey n with
    | some k =>
      refine ih (i + 1) res (by omega) ⟨h.len, ?_⟩
      intro j n' hj hc
      rcases hc with hc | hc
      · rcases Nat.lt_or_ge j i with h' | h'
        · exact h.val j n' hj (Or.inl h')
        · have : j = i := by omega
          subst this
          rw [hi] at hj; cases hj
          exact h.val j n hi (Or.inr (by rw [hp]; simp))
      · exact h.val j n' hj (Or.inr hc)
    | none =>
      simp only
      obtain ⟨ix, d1, d2, d3⟩ := hdep i n hi
      obtain ⟨ts, xs, g1, g2, g3⟩ := gather_inv h ix n.deps d2 d3
      rw [d1]
      simp only
      rw [g1]
      simp only
      rw [g2]
      simp only
      rw [hstep i n xs hi hp g3]
      have hfold : fold v n = v n xs := by rw [fold_eq, g3]; rfl
      cases hv : v n xs with
      | error e =>
        simp only [backOf]
        have hok : AllOk v ((visit root []).take i) := by
          intro x hx
          rw [← hnodes] at hx
          obtain ⟨j, hj⟩ := List.mem_iff_getElem?.1 hx
          have hji : j < i := by
            have := (List.getElem?_eq_some_iff.1 hj).1
            rw [List.length_take] at this
            omega
          rw [List.getElem?_take_of_lt hji] at hj
          obtain ⟨t, _, h1, _⟩ := h.val j x hj (Or.inl hji)
          exact ⟨t, h1⟩
        rw [root_err (v := v) hok (by rw [← hnodes]; exact hi) (by rw [hfold, hv])]
      | ok x =>
        simp only
        rw [setAt_of_lt (by rw [h.len]; omega)]
        refine ih (i + 1) _ (by omega) ⟨by rw [List.length_set]; exact h.len, ?_⟩
        intro j n' hj hc
        by_cases hji : i = j
        · subst hji
          rw [hi] at hj; cases hj
          exact ⟨x, wr x, by rw [hfold, hv], List.getElem?_set_self (by rw [h.len]; omega), hrw x⟩
        · rw [List.getElem?_set_ne hji]
          rcases hc with hc | hc
          · exact h.val j n' hj (Or.inl (by omega))
          · exact h.val j n' hj (Or.inr hc)

end

theorem wf_sub {G : Lang O V (Attr Q V) E} {n s : Node O V Q} (h : WF G n) (hs : Sub s n) : WF G s := by
  induction hs with
  | refl => exact h
  | dep _ hd ih =>
    cases h with
    | leaf k => simp [Expr.deps] at hd
    | placeholder k => simp [Expr.deps] at hd
    | literal w => simp [Expr.deps] at hd
    | op o a ds h1 h2 => exact ih (h1 _ hd)

end Verif.Lambda
