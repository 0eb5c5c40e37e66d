import Verif.FCodec.FCodecLemmas

/-!
# C116: decision forests survive serialization

`fromProto` is the decoder, `toProto` the encoder, `fromTrees` the validation at the construction of a forest.
-/

namespace Verif.FCodec

open Verif.Forest (Ref NodeId Tag Err)

variable {F : Type}

theorem splits_round_trip (t : Tree F) (hok : OkTree t) (hs : t.adjustments.length ≤ 2 ^ 31) (ns : List (Split F))
    (hsub : ∀ n ∈ ns, n ∈ t.splits)
    (hsup : ∀ n ∈ ns, (∃ input l r, n.cond = .interval input l r) ∨
      ∃ input vs d, n.cond = .setI64 input vs d ∧ vs.Pairwise (· < ·)) :
    ∃ ps, splitsToProto ns = some ps ∧ splitsFromProto ps = some ns := by
  induction ns with
  | nil => exact ⟨[], rfl, rfl⟩
  | cons n rest ih =>
    obtain ⟨ps, h1, h2⟩ := ih (fun m hm => hsub m (List.mem_cons_of_mem _ hm))
      (fun m hm => hsup m (List.mem_cons_of_mem _ hm))
    obtain ⟨c1, c2⟩ := hok.children n (hsub n (by simp))
    have r1 := nodeId_round_trip t _ c1 hok.regions hs
    have r2 := nodeId_round_trip t _ c2 hok.regions hs
    obtain ⟨f, g, c⟩ := n
    rcases hsup ⟨f, g, c⟩ List.mem_cons_self with ⟨input, l, r, hc⟩ | ⟨input, vs, d, hc, hv⟩
    · dsimp only at hc r1 r2
      subst hc
      refine ⟨_, by simp only [splitsToProto, condToProto, h1]; rfl, ?_⟩
      simp only [splitsFromProto, condFromProto, h2, r1, r2]
    · dsimp only at hc r1 r2
      subst hc
      refine ⟨_, by simp only [splitsToProto, condToProto, h1]; rfl, ?_⟩
      simp only [splitsFromProto, condFromProto, h2, r1, r2, toSet_of_sorted vs hv]

/-- A forest which could be built, with conditions which the format knows and at most `2^31` regions in a tree, is
written, and reading the message gives the same trees, counts and required inputs. -/
theorem forest_round_trip (sigs : Nat → List (Int × Ty)) (trees : List (Tree F)) (m : Meta)
    (hm : fromTrees sigs trees = some (.ok m)) (hsup : Supported trees)
    (hs : ∀ t ∈ trees, t.adjustments.length ≤ 2 ^ 31) :
    ∃ p, toProto trees = some p ∧ fromProto sigs p = some (.ok (trees, m)) := by
  have hok := initTrees_ok sigs trees _ m hm
  have key : ∀ ts : List (Tree F), (∀ t ∈ ts, t ∈ trees) →
      ∃ p, toProto ts = some p ∧ treesFromProto p = some ts := by
    intro ts
    induction ts with
    | nil => exact fun _ => ⟨[], rfl, rfl⟩
    | cons t rest ih =>
      intro hsub
      obtain ⟨p, h1, h2⟩ := ih (fun u hu => hsub u (List.mem_cons_of_mem _ hu))
      have ht := hsub t (by simp)
      obtain ⟨ps, h3, h4⟩ := splits_round_trip t (hok t ht) (hs t ht) t.splits (fun _ h => h) (hsup t ht)
      refine ⟨_, by simp only [toProto, h3, h1]; rfl, ?_⟩
      simp only [treesFromProto, h4, h2]
  obtain ⟨p, h1, h2⟩ := key trees (fun _ h => h)
  exact ⟨p, h1, by simp only [fromProto, h2, hm]⟩

/-- Different forests have different messages. -/
theorem forest_encoding_injective (sigs : Nat → List (Int × Ty)) (ts us : List (Tree F)) (m n : Meta)
    (hm : fromTrees sigs ts = some (.ok m)) (hn : fromTrees sigs us = some (.ok n))
    (h1 : Supported ts) (h2 : Supported us)
    (s1 : ∀ t ∈ ts, t.adjustments.length ≤ 2 ^ 31) (s2 : ∀ t ∈ us, t.adjustments.length ≤ 2 ^ 31)
    (h : toProto ts = toProto us) : ts = us := by
  obtain ⟨p, e1, d1⟩ := forest_round_trip sigs ts m hm h1 s1
  obtain ⟨q, e2, d2⟩ := forest_round_trip sigs us n hn h2 s2
  rw [e1, e2] at h
  cases h
  rw [d1] at d2
  simp only [Option.some.injEq, Except.ok.injEq, Prod.mk.injEq] at d2
  exact d2.1

theorem splitsToProto_none (ns : List (Split F)) :
    splitsToProto ns = none ↔ ∃ n ∈ ns, ∃ k, n.cond = .other k := by
  induction ns with
  | nil => simp [splitsToProto]
  | cons n rest ih =>
    obtain ⟨f, g, c⟩ := n
    cases c with
    | other k => simp [splitsToProto, condToProto]
    | interval i l r =>
      cases hr : splitsToProto rest with
      | none =>
        obtain ⟨n, hn, k, hk⟩ := ih.1 hr
        simp only [splitsToProto, condToProto, hr, true_iff]
        exact ⟨n, List.mem_cons_of_mem _ hn, k, hk⟩
      | some ps =>
        simp only [splitsToProto, condToProto, hr, reduceCtorEq, false_iff]
        rintro ⟨n, hn, k, hk⟩
        rcases List.mem_cons.1 hn with rfl | hn
        · simp at hk
        · have := ih.2 ⟨n, hn, k, hk⟩
          rw [hr] at this; simp at this
    | setI64 i l r =>
      cases hr : splitsToProto rest with
      | none =>
        obtain ⟨n, hn, k, hk⟩ := ih.1 hr
        simp only [splitsToProto, condToProto, hr, true_iff]
        exact ⟨n, List.mem_cons_of_mem _ hn, k, hk⟩
      | some ps =>
        simp only [splitsToProto, condToProto, hr, reduceCtorEq, false_iff]
        rintro ⟨n, hn, k, hk⟩
        rcases List.mem_cons.1 hn with rfl | hn
        · simp at hk
        · have := ih.2 ⟨n, hn, k, hk⟩
          rw [hr] at this; simp at this

/-- The encoder fails exactly on the forests with a condition which the format does not know. -/
theorem forest_encoding_fails_iff (trees : List (Tree F)) :
    toProto trees = none ↔ ∃ t ∈ trees, ∃ n ∈ t.splits, ∃ k, n.cond = .other k := by
  induction trees with
  | nil => simp [toProto]
  | cons t rest ih =>
    rw [List.exists_mem_cons_iff, ← ih, ← splitsToProto_none]
    simp only [toProto]
    cases splitsToProto t.splits with
    | none => simp
    | some ps => cases toProto rest <;> simp

theorem splitsFromProto_some (ps : List (PSplit F)) :
    (∃ ns, splitsFromProto ps = some ns) ↔ ∀ n ∈ ps, n.cond ≠ .unset := by
  induction ps with
  | nil => simp [splitsFromProto]
  | cons n rest ih =>
    obtain ⟨f, g, c⟩ := n
    rw [List.forall_mem_cons, ← ih]
    simp only [splitsFromProto]
    cases c with
    | unset => simp [condFromProto]
    | interval i l r => cases splitsFromProto rest <;> simp [condFromProto]
    | setI64 i l r => cases splitsFromProto rest <;> simp [condFromProto]

theorem names_toRef {c : PNode} {r : Ref} (h : Names c r) : toRef (nodeIdFromProto c) = r := by
  cases h with
  | split k =>
    show (if (k : Int) < 0 then Ref.leaf (-(k : Int) - 1).toNat else Ref.split (k : Int).toNat) = _
    rw [if_neg (by omega)]; congr 1
  | leaf k =>
    show (if -(k : Int) - 1 < 0 then Ref.leaf (-(-(k : Int) - 1) - 1).toNat else Ref.split (-(k : Int) - 1).toNat) = _
    rw [if_pos (by omega)]; congr 1; omega

theorem splitsFromProto_spec (ps : List (PSplit F)) (ns : List (Split F)) (h : splitsFromProto ps = some ns) :
    List.Forall₂ (fun p s => SameCond p.cond s.cond ∧ s.ifFalse = nodeIdFromProto p.ifFalse ∧
      s.ifTrue = nodeIdFromProto p.ifTrue) ps ns := by
  induction ps generalizing ns with
  | nil =>
    simp only [splitsFromProto, Option.some.injEq] at h
    subst h; exact .nil
  | cons n rest ih =>
    obtain ⟨f, g, c⟩ := n
    simp only [splitsFromProto] at h
    split at h
    · simp at h
    · rename_i c' hc
      split at h
      · simp at h
      · rename_i ns' hns
        simp only [Option.some.injEq] at h
        subst h
        refine .cons ⟨?_, rfl, rfl⟩ (ih _ hns)
        cases c with
        | unset => simp [condFromProto] at hc
        | interval i l r =>
          simp only [condFromProto, Option.some.injEq] at hc
          subst hc; exact .interval i l r
        | setI64 i vs d =>
          simp only [condFromProto, Option.some.injEq] at hc
          subst hc; exact .setI64 i vs _ d (toSet_sorted vs) (fun x => mem_toSet x vs)

theorem treesFromProto_spec (p : PForest F) (ts : List (Tree F)) (h : treesFromProto p = some ts) :
    List.Forall₂ (fun p t => splitsFromProto p.splits = some t.splits ∧ t.adjustments = p.adjustments ∧
      t.weight = p.weight ∧ t.tag = ⟨p.step, p.submodel⟩) p ts := by
  induction p generalizing ts with
  | nil =>
    simp only [treesFromProto, Option.some.injEq] at h
    subst h; exact .nil
  | cons n rest ih =>
    simp only [treesFromProto] at h
    split at h
    · simp at h
    · rename_i ns hns
      split at h
      · simp at h
      · rename_i ts' hts
        simp only [Option.some.injEq] at h
        subst h
        exact .cons ⟨hns, rfl, rfl, rfl⟩ (ih _ hts)

theorem treesFromProto_some (p : PForest F) :
    (∃ ts, treesFromProto p = some ts) ↔ ∀ t ∈ p, ∀ n ∈ t.splits, n.cond ≠ .unset := by
  induction p with
  | nil => simp [treesFromProto]
  | cons t rest ih =>
    rw [List.forall_mem_cons, ← ih, ← splitsFromProto_some]
    simp only [treesFromProto]
    cases splitsFromProto t.splits with
    | none => simp
    | some ps => cases treesFromProto rest <;> simp

theorem forall₂_mem_left {α β : Type} {R : α → β → Prop} {l : List α} {m : List β} (h : List.Forall₂ R l m) :
    ∀ a ∈ l, ∃ b ∈ m, R a b := by
  induction h with
  | nil => simp
  | cons h _ ih =>
    intro a ha
    rcases List.mem_cons.1 ha with rfl | ha
    · exact ⟨_, by simp, h⟩
    · obtain ⟨b, hb, hr⟩ := ih a ha
      exact ⟨b, List.mem_cons_of_mem _ hb, hr⟩

theorem forall₂_mem_right {α β : Type} {R : α → β → Prop} {l : List α} {m : List β} (h : List.Forall₂ R l m) :
    ∀ b ∈ m, ∃ a ∈ l, R a b := by
  induction h with
  | nil => simp
  | cons h _ ih =>
    intro a ha
    rcases List.mem_cons.1 ha with rfl | ha
    · exact ⟨_, by simp, h⟩
    · obtain ⟨b, hb, hr⟩ := ih a ha
      exact ⟨b, List.mem_cons_of_mem _ hb, hr⟩

theorem sameCond_input (sigs : Nat → List (Int × Ty)) {p : PCond F} {c : Cond F} (h : SameCond p c) (id : Int) (q : Ty) :
    Input p id q ↔ (id, q) ∈ signatures sigs c := by
  cases h with
  | interval i l r =>
    simp only [signatures, List.mem_singleton, Prod.mk.injEq]
    constructor
    · intro h; cases h; exact ⟨rfl, rfl⟩
    · rintro ⟨rfl, rfl⟩; exact .interval _ _ _
  | setI64 i ps vs d _ _ =>
    simp only [signatures, List.mem_singleton, Prod.mk.injEq]
    constructor
    · intro h; cases h; exact ⟨rfl, rfl⟩
    · rintro ⟨rfl, rfl⟩; exact .setI64 _ _ _

theorem encSig_mem (e : Int × Ty) (l : List (Int × Ty)) : encSig e ∈ l.map encSig ↔ e ∈ l := by
  constructor
  · intro h
    obtain ⟨x, hx, he⟩ := List.mem_map.1 h
    obtain ⟨a, b⟩ := x; obtain ⟨c, d⟩ := e
    simp only [encSig, Prod.mk.injEq] at he
    rw [← (enc_inj a c).1 he.1, ← he.2]; exact hx
  · exact fun h => List.mem_map.2 ⟨e, h, rfl⟩

/-- Whatever message is read: if a forest comes out, every tree in it has only references to its own nodes, and its
evaluation does not leave the bounds of the vectors. -/
theorem decoded_forest_safe {M : Type} (sigs : Nat → List (Int × Ty)) (p : PForest F) (trees : List (Tree F)) (m : Meta)
    (h : fromProto sigs p = some (.ok (trees, m))) (zero : M) (add : M → F → F → M) (ev : Cond F → Bool)
    (filter : Forest.Filter) (fuel : Nat) :
    (∀ t ∈ trees, Forest.WellFormed (toForestTree t)) ∧
    Forest.naive zero add ev filter fuel (trees.map toForestTree) ≠ .outOfBounds := by
  simp only [fromProto] at h
  split at h
  · simp at h
  · rename_i ts hts
    split at h
    · simp at h
    · simp at h
    · rename_i m1 hm
      simp only [Option.some.injEq, Except.ok.injEq, Prod.mk.injEq] at h
      obtain ⟨rfl, rfl⟩ := h
      have hok := initTrees_ok sigs ts _ m1 hm
      obtain ⟨x, hx, hy⟩ := initTrees_enc sigs ts ⟨0, 0, []⟩ (fun t ht => ⟨(hok t ht).step.2, (hok t ht).submodel.2⟩)
      rw [fromTrees] at hm
      rw [hm] at hx
      simp only [Option.some.injEq] at hx
      subst hx
      have hf : Forest.fromTrees (encSigs sigs) (ts.map toForestTree) = .ok (encMeta m1) := hy
      refine ⟨fun t ht => ?_, (Forest.naive_sound _ _ _ hf zero add ev filter fuel).1⟩
      exact ((Forest.from_trees_accepts _ _).1.1 ⟨_, hf⟩).1 _ (List.mem_map_of_mem ht)

/-- With all step and submodel ids below `INT_MAX` reading a message is defined: it gives a forest or an error. -/
theorem decoding_defined_partial (sigs : Nat → List (Int × Ty)) (p : PForest F) (hs : SmallTags p) :
    fromProto sigs p ≠ none := by
  simp only [fromProto]
  split
  · simp
  · rename_i ts hts
    have := treesFromProto_spec p ts hts
    obtain ⟨x, hx, _⟩ := initTrees_enc sigs ts ⟨0, 0, []⟩ (fun t ht => by
      obtain ⟨q, hq, _, _, _, htag⟩ := forall₂_mem_right this t ht
      rw [htag]
      exact hs q hq)
    rw [fromTrees, hx]
    cases x <;> simp

/-- Among the messages with all node ids present and not negative, and tags below `INT_MAX`, the decoder accepts exactly
those which describe a forest, and the trees are the ones of the message. -/
theorem decoding_exact_partial (sigs : Nat → List (Int × Ty)) (p : PForest F) (hn : Named p) (hs : SmallTags p) :
    ((∃ trees m, fromProto sigs p = some (.ok (trees, m))) ↔ Valid p) ∧
    ∀ trees m, fromProto sigs p = some (.ok (trees, m)) →
      List.Forall₂ SameTree p trees ∧
      ∀ id q, (id, q) ∈ m.required ↔ ∃ t ∈ p, ∃ n ∈ t.splits, Input n.cond id q := by
  cases hts : treesFromProto p with
  | none =>
    have hno : ¬ ∀ t ∈ p, ∀ n ∈ t.splits, n.cond ≠ .unset := by
      rw [← treesFromProto_some, hts]; simp
    refine ⟨⟨?_, fun hv => absurd (fun t ht n hn => (hv.trees t ht).conds n hn) hno⟩, ?_⟩
    · rintro ⟨trees, m, h⟩; simp [fromProto, hts] at h
    · intro trees m h; simp [fromProto, hts] at h
  | some ts =>
    have hall : ∀ t ∈ p, ∀ n ∈ t.splits, n.cond ≠ .unset := (treesFromProto_some p).1 ⟨ts, hts⟩
    have hspec := treesFromProto_spec p ts hts
    obtain ⟨x, hx, hy⟩ := initTrees_enc sigs ts ⟨0, 0, []⟩ (fun t ht => by
      obtain ⟨q, hq, _, _, _, htag⟩ := forall₂_mem_right hspec t ht
      rw [htag]
      exact hs q hq)
    have hx' : fromTrees sigs ts = some x := hx
    have hf : Forest.fromTrees (encSigs sigs) (ts.map toForestTree) = encRes x := hy
    have hacc := Forest.from_trees_accepts (encSigs sigs) (ts.map toForestTree)
    -- uses of inputs
    have huses : ∀ id q, Forest.Uses (encSigs sigs) (ts.map toForestTree) (enc id) q ↔
        ∃ t ∈ p, ∃ n ∈ t.splits, Input n.cond id q := by
      intro id q
      constructor
      · rintro ⟨t', ht', n', hn', hin⟩
        obtain ⟨t, ht, rfl⟩ := List.mem_map.1 ht'
        obtain ⟨n, hn, rfl⟩ := List.mem_map.1 hn'
        obtain ⟨pt, hpt, hsp, _⟩ := forall₂_mem_right hspec t ht
        obtain ⟨pn, hpn, hc, _⟩ := forall₂_mem_right (splitsFromProto_spec _ _ hsp) n hn
        exact ⟨pt, hpt, pn, hpn, (sameCond_input sigs hc id q).2 ((encSig_mem (id, q) _).1 hin)⟩
      · rintro ⟨pt, hpt, pn, hpn, hin⟩
        obtain ⟨t, ht, hsp, _⟩ := forall₂_mem_left hspec pt hpt
        obtain ⟨n, hn, hc, _⟩ := forall₂_mem_left (splitsFromProto_spec _ _ hsp) pn hpn
        exact ⟨_, List.mem_map_of_mem ht, _, List.mem_map_of_mem hn,
          (encSig_mem (id, q) _).2 ((sameCond_input sigs hc id q).1 hin)⟩
    have hkey : ∀ k q, Forest.Uses (encSigs sigs) (ts.map toForestTree) k q → ∃ id, k = enc id := by
      rintro k q ⟨_, _, _, _, hin⟩
      obtain ⟨e, _, he⟩ := List.mem_map.1 hin
      exact ⟨e.1, (congrArg Prod.fst he).symm⟩
    -- trees
    have htree : ∀ pt t, pt ∈ p → (splitsFromProto pt.splits = some t.splits ∧ t.adjustments = pt.adjustments ∧
        t.weight = pt.weight ∧ t.tag = ⟨pt.step, pt.submodel⟩) →
        SameTree pt t ∧ (Forest.WellFormed (toForestTree t) ↔ ValidTree pt) := by
      rintro pt t hpt ⟨hsp, ha, hw, htag⟩
      have hspl := splitsFromProto_spec _ _ hsp
      have hlen := hspl.length_eq
      have hsame : List.Forall₂ SameSplit pt.splits t.splits := by
        have hnp := hn pt hpt
        have : ∀ (ps : List (PSplit F)) (ss : List (Split F)), (∀ n ∈ ps, n ∈ pt.splits) →
            List.Forall₂ (fun p s => SameCond p.cond s.cond ∧ s.ifFalse = nodeIdFromProto p.ifFalse ∧
              s.ifTrue = nodeIdFromProto p.ifTrue) ps ss → List.Forall₂ SameSplit ps ss := by
          intro ps ss hsub h
          induction h with
          | nil => exact .nil
          | cons h _ ih =>
            rename_i a b l1 l2 _
            obtain ⟨⟨r1, h1⟩, r2, h2⟩ := hnp a (hsub a (by simp))
            refine .cons ⟨?_, ?_, h.1⟩ (ih (fun n hn => hsub n (List.mem_cons_of_mem _ hn)))
            · rw [h.2.1, names_toRef h1]; exact h1
            · rw [h.2.2, names_toRef h2]; exact h2
        exact this _ _ (fun _ h => h) hspl
      refine ⟨⟨hsame, ha, hw, by rw [htag], by rw [htag]⟩, ?_, ?_⟩
      · intro hwf
        have hsub := hwf.submodel
        have hstep := hwf.step
        have hreg := hwf.regions
        simp only [toForestTree, List.length_map, htag, ha] at hsub hstep hreg
        refine ⟨hsub, hstep, by omega, hall pt hpt, ?_⟩
        intro n hn c hc
        obtain ⟨s, hs', hss⟩ := forall₂_mem_left hsame n hn
        have hmem : (⟨toRef s.ifFalse, toRef s.ifTrue, s.cond⟩ : Forest.SplitNode (Cond F)) ∈ (toForestTree t).splits :=
          List.mem_map.2 ⟨s, hs', rfl⟩
        have hex : ∀ r, (toRef s.ifFalse = r ∨ toRef s.ifTrue = r) → Exists pt r := by
          intro r hr
          cases r with
          | leaf i =>
            have := hwf.leaf _ hmem i hr
            simpa [toForestTree, ha, Exists] using this
          | split i =>
            have := hwf.split _ hmem i hr
            simp only [toForestTree, List.length_map] at this
            simp only [Exists]; omega
        rcases hc with rfl | rfl
        · exact ⟨_, hss.ifFalse, hex _ (Or.inl rfl)⟩
        · exact ⟨_, hss.ifTrue, hex _ (Or.inr rfl)⟩
      · intro hv
        have hch : ∀ n ∈ (toForestTree t).splits, ∀ r, (n.ifFalse = r ∨ n.ifTrue = r) → Exists pt r := by
          intro n hn' r hr
          obtain ⟨s, hs', rfl⟩ := List.mem_map.1 hn'
          obtain ⟨pn, hpn, hss⟩ := forall₂_mem_right hsame s hs'
          rcases hr with rfl | rfl
          · obtain ⟨r', h1, h2⟩ := hv.children pn hpn _ (Or.inl rfl)
            have e1 := names_toRef h1
            rw [names_toRef hss.ifFalse] at e1
            dsimp only
            rw [e1]; exact h2
          · obtain ⟨r', h1, h2⟩ := hv.children pn hpn _ (Or.inr rfl)
            have e1 := names_toRef h1
            rw [names_toRef hss.ifTrue] at e1
            dsimp only
            rw [e1]; exact h2
        refine ⟨by simp only [toForestTree, htag]; exact hv.submodel, by simp only [toForestTree, htag]; exact hv.step, ?_,
          ?_, ?_⟩
        · have := hv.regions
          simp only [toForestTree, List.length_map, ha]; omega
        · intro n hn' i hi
          have := hch n hn' _ hi
          simpa [toForestTree, ha, Exists] using this
        · intro n hn' i hi
          have := hch n hn' _ hi
          simp only [Exists] at this
          simp only [toForestTree, List.length_map]; omega
    have hsametrees : List.Forall₂ SameTree p ts := by
      have : ∀ (ps : List (PTree F)) (us : List (Tree F)), (∀ t ∈ ps, t ∈ p) →
          List.Forall₂ (fun p t => splitsFromProto p.splits = some t.splits ∧ t.adjustments = p.adjustments ∧
            t.weight = p.weight ∧ t.tag = ⟨p.step, p.submodel⟩) ps us → List.Forall₂ SameTree ps us := by
        intro ps us hsub h
        induction h with
        | nil => exact .nil
        | cons h _ ih =>
          exact .cons (htree _ _ (hsub _ (by simp)) h).1 (ih (fun n hn => hsub n (List.mem_cons_of_mem _ hn)))
      exact this _ _ (fun _ h => h) hspec
    have hwf : (∀ t ∈ ts.map toForestTree, Forest.WellFormed t) ↔ ∀ t ∈ p, ValidTree t := by
      constructor
      · intro h pt hpt
        obtain ⟨t, ht, hr⟩ := forall₂_mem_left hspec pt hpt
        exact (htree pt t hpt hr).2.1 (h _ (List.mem_map_of_mem ht))
      · intro h t' ht'
        obtain ⟨t, ht, rfl⟩ := List.mem_map.1 ht'
        obtain ⟨pt, hpt, hr⟩ := forall₂_mem_right hspec t ht
        exact (htree pt t hpt hr).2.2 (h pt hpt)
    have hcons : (∀ id q q', Forest.Uses (encSigs sigs) (ts.map toForestTree) id q →
        Forest.Uses (encSigs sigs) (ts.map toForestTree) id q' → q = q') ↔
        ∀ id q q', (∃ t ∈ p, ∃ n ∈ t.splits, Input n.cond id q) → (∃ t ∈ p, ∃ n ∈ t.splits, Input n.cond id q') →
          q = q' := by
      constructor
      · intro h id q q' h1 h2
        exact h (enc id) q q' ((huses id q).2 h1) ((huses id q').2 h2)
      · intro h k q q' h1 h2
        obtain ⟨id, rfl⟩ := hkey k q h1
        exact h id q q' ((huses id q).1 h1) ((huses id q').1 h2)
    cases x with
    | error e =>
      refine ⟨⟨?_, fun hv => ?_⟩, ?_⟩
      · rintro ⟨trees, m, h⟩; simp [fromProto, hts, hx'] at h
      · obtain ⟨m, hm⟩ := hacc.1.2 ⟨hwf.2 hv.trees, hcons.2 hv.inputs⟩
        rw [hf] at hm; simp [encRes] at hm
      · intro trees m h; simp [fromProto, hts, hx'] at h
    | ok m0 =>
      have hdec : fromProto sigs p = some (.ok (ts, m0)) := by simp only [fromProto, hts, hx']
      refine ⟨⟨fun _ => ?_, fun _ => ⟨ts, m0, hdec⟩⟩, ?_⟩
      · obtain ⟨h1, h2⟩ := hacc.1.1 ⟨_, hf⟩
        exact ⟨hwf.1 h1, hcons.1 h2⟩
      · intro trees m h
        rw [hdec] at h
        simp only [Option.some.injEq, Except.ok.injEq, Prod.mk.injEq] at h
        obtain ⟨rfl, rfl⟩ := h
        refine ⟨hsametrees, fun id q => ?_⟩
        rw [← huses id q, ← (hacc.2 _ hf).1 (enc id) q]
        exact (encSig_mem (id, q) m0.required).symm

/-! ### What the decoder accepts beyond that -/

/-- A child which is absent in the message is read as the root, so a tree with a cycle is accepted: the message does not
describe a forest. -/
theorem absent_child_counterexample (sigs : Nat → List (Int × Ty)) :
    let p : PForest Nat := [⟨[⟨.unset, .adjustment 1, .interval 0 0 1⟩], [10, 20], 1, 0, 0⟩]
    ¬ Valid p ∧
    fromProto sigs p = some (.ok ([⟨[⟨⟨0⟩, ⟨-2⟩, .interval 0 0 1⟩], [10, 20], 1, ⟨0, 0⟩⟩],
      ⟨1, 1, [(0, .optFloat32)]⟩)) ∧
    ∀ fuel, Forest.naive 0 (fun acc a w => acc + a * w) (fun _ => false) {} fuel
      [toForestTree (⟨[⟨⟨0⟩, ⟨-2⟩, .interval 0 0 1⟩], [10, 20], 1, ⟨0, 0⟩⟩ : Tree Nat)] = .running := by
  intro p
  refine ⟨fun h => ?_, rfl, fun fuel => ?_⟩
  · obtain ⟨r, hr, _⟩ := (h.trees _ List.mem_cons_self).children _ List.mem_cons_self _ (Or.inl rfl)
    cases hr
  · have hw : ∀ fuel, Forest.walk (fun _ => false)
        (toForestTree (⟨[⟨⟨0⟩, ⟨-2⟩, .interval 0 0 1⟩], [10, 20], 1, ⟨0, 0⟩⟩ : Tree Nat)) fuel (.split 0) = .running := by
      intro fuel
      induction fuel with
      | zero => rfl
      | succ n ih => exact ih
    show Forest.naiveLoop _ _ _ _ _ _ = _
    simp only [Forest.naiveLoop]
    rw [if_neg (by decide)]
    have : Forest.Tree.root (toForestTree (⟨[⟨⟨0⟩, ⟨-2⟩, .interval 0 0 1⟩], [10, 20], 1, ⟨0, 0⟩⟩ : Tree Nat)) = .split 0 := rfl
    rw [this, hw fuel]

/-- A negative adjustment id is read as a split node, a negative split node id as an adjustment. -/
theorem negative_id_counterexample (sigs : Nat → List (Int × Ty)) :
    let p : PForest Nat := [⟨[⟨.split (-1), .split (-2), .interval 0 0 1⟩], [10, 20], 1, 0, 0⟩]
    ¬ Valid p ∧
    fromProto sigs p = some (.ok ([⟨[⟨⟨-1⟩, ⟨-2⟩, .interval 0 0 1⟩], [10, 20], 1, ⟨0, 0⟩⟩],
      ⟨1, 1, [(0, .optFloat32)]⟩)) ∧
    toRef (nodeIdFromProto (.adjustment (-1))) = .split 0 := by
  intro p
  refine ⟨fun h => ?_, rfl, rfl⟩
  obtain ⟨r, hr, _⟩ := (h.trees _ List.mem_cons_self).children _ List.mem_cons_self _ (Or.inl rfl)
  generalize hx : (PNode.split (-1)) = c at hr
  cases hr with
  | split k => simp only [PNode.split.injEq] at hx; omega
  | leaf k => cases hx

/-- The step `INT_MAX` in a message, in an otherwise valid tree, is an overflow. -/
theorem max_step_counterexample (sigs : Nat → List (Int × Ty)) :
    let p : PForest Nat := [⟨[], [10], 1, 2 ^ 31 - 1, 0⟩]
    Valid p ∧ fromProto sigs p = none := by
  intro p
  refine ⟨⟨?_, ?_⟩, rfl⟩
  · intro t ht
    simp only [p, List.mem_singleton] at ht
    subst ht
    exact ⟨by simp, by simp, rfl, by simp, by simp⟩
  · rintro id q q' ⟨t, ht, n, hn, _⟩
    simp only [p, List.mem_singleton] at ht
    subst ht
    simp at hn

/-- The bound on the size is needed: the format has 32-bit ids. -/
theorem large_tree_counterexample :
    nodeIdFromProto (nodeIdToProto (Forest.splitNodeId (2 ^ 31))) ≠ Forest.splitNodeId (2 ^ 31) := by
  decide +kernel

/-! ### Non-vacuity -/

/-- A forest with two trees, an interval and a set of values. -/
def sample : List (Tree Nat) :=
  [⟨[⟨⟨1⟩, ⟨-1⟩, .interval 0 5 7⟩, ⟨⟨-2⟩, ⟨-3⟩, .setI64 3 [1, 4] true⟩], [10, 20, 30], 2, ⟨1, 0⟩⟩,
    ⟨[], [40], 1, ⟨0, 2⟩⟩]

example : fromTrees (fun _ => []) sample = some (.ok ⟨3, 2, [(0, .optFloat32), (3, .optInt64)]⟩) := rfl

example : Supported sample ∧ ∀ t ∈ sample, t.adjustments.length ≤ 2 ^ 31 := by
  refine ⟨?_, ?_⟩
  · intro t ht n hn
    simp only [sample, List.mem_cons, List.not_mem_nil, or_false] at ht
    rcases ht with rfl | rfl
    · simp only [List.mem_cons, List.not_mem_nil, or_false] at hn
      rcases hn with rfl | rfl
      · exact Or.inl ⟨0, 5, 7, rfl⟩
      · exact Or.inr ⟨3, [1, 4], true, rfl, by simp⟩
    · simp at hn
  · intro t ht
    simp only [sample, List.mem_cons, List.not_mem_nil, or_false] at ht
    rcases ht with rfl | rfl <;> simp

/-- The message of the sample, which is also a message with names and small tags. -/
def sampleMessage : PForest Nat :=
  [⟨[⟨.split 1, .adjustment 0, .interval 0 5 7⟩, ⟨.adjustment 1, .adjustment 2, .setI64 3 [1, 4] true⟩],
      [10, 20, 30], 2, 1, 0⟩,
    ⟨[], [40], 1, 0, 2⟩]

example : toProto sample = some sampleMessage := rfl

example : Named sampleMessage ∧ SmallTags sampleMessage := by
  refine ⟨?_, ?_⟩
  · intro t ht n hn
    simp only [sampleMessage, List.mem_cons, List.not_mem_nil, or_false] at ht
    rcases ht with rfl | rfl
    · simp only [List.mem_cons, List.not_mem_nil, or_false] at hn
      rcases hn with rfl | rfl
      · exact ⟨⟨_, .split 1⟩, _, .leaf 0⟩
      · exact ⟨⟨_, .leaf 1⟩, _, .leaf 2⟩
    · simp at hn
  · intro t ht
    simp only [sampleMessage, List.mem_cons, List.not_mem_nil, or_false] at ht
    rcases ht with rfl | rfl <;> simp

example : toProto [(⟨[⟨⟨-1⟩, ⟨-2⟩, .other 0⟩], [10, 20], 2, ⟨1, 0⟩⟩ : Tree Nat)] = none := rfl

end Verif.FCodec
