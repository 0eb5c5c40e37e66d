import Verif.FCodec.FCodecSpec
import Verif.Forest.ForestProps

/-! # Lemmas about the codec of decision forests -/

namespace Verif.FCodec

open Verif.Forest (Ref NodeId Tag Err)

variable {F : Type}

/-! ### Sets -/

theorem mem_insertSorted (x y : Int) (l : List Int) : y ∈ insertSorted x l ↔ y = x ∨ y ∈ l := by
  fun_induction insertSorted x l with
  | case1 => simp
  | case2 => simp
  | case3 => simp_all
  | case4 z zs h1 h2 ih => simp only [List.mem_cons, ih]; grind

theorem insertSorted_sorted (x : Int) (l : List Int) (h : l.Pairwise (· < ·)) :
    (insertSorted x l).Pairwise (· < ·) := by
  fun_induction insertSorted x l with
  | case1 => simp
  | case2 y ys hlt =>
    refine List.pairwise_cons.2 ⟨fun z hz => ?_, h⟩
    rcases List.mem_cons.1 hz with rfl | hz
    · exact hlt
    · exact Int.lt_trans hlt ((List.pairwise_cons.1 h).1 z hz)
  | case3 => exact h
  | case4 y ys h1 h2 ih =>
    refine List.pairwise_cons.2 ⟨fun z hz => ?_, ih (List.pairwise_cons.1 h).2⟩
    rcases (mem_insertSorted x z ys).1 hz with rfl | hz
    · omega
    · exact (List.pairwise_cons.1 h).1 z hz

theorem mem_toSet (x : Int) (l : List Int) : x ∈ toSet l ↔ x ∈ l := by
  induction l with
  | nil => simp [toSet]
  | cons y ys ih =>
    show x ∈ insertSorted y (toSet ys) ↔ _
    rw [mem_insertSorted, ih, List.mem_cons]

theorem toSet_sorted (l : List Int) : (toSet l).Pairwise (· < ·) := by
  induction l with
  | nil => simp [toSet]
  | cons y ys ih => exact insertSorted_sorted y _ ih

theorem toSet_of_sorted (l : List Int) (h : l.Pairwise (· < ·)) : toSet l = l := by
  induction l with
  | nil => rfl
  | cons y ys ih =>
    show insertSorted y (toSet ys) = _
    rw [ih (List.pairwise_cons.1 h).2]
    cases ys with
    | nil => rfl
    | cons z zs =>
      simp only [insertSorted]
      rw [if_pos ((List.pairwise_cons.1 h).1 z (by simp))]

/-! ### Node ids -/

theorem wrap32_id (x : Int) (h0 : 0 ≤ x) (h1 : x < 2 ^ 31) : wrap32 x = x := by
  unfold wrap32; omega

theorem nodeId_round_trip (t : Tree F) (n : NodeId) (h : childOk t n = true)
    (hr : t.splits.length + 1 = t.adjustments.length) (hs : t.adjustments.length ≤ 2 ^ 31) :
    nodeIdFromProto (nodeIdToProto n) = n := by
  obtain ⟨v⟩ := n
  simp only [childOk, NodeId.isLeaf] at h
  simp only [nodeIdToProto, NodeId.isLeaf]
  by_cases hv : v < 0
  · simp only [hv, decide_true, if_true, decide_eq_true_eq] at h ⊢
    rw [wrap32_id _ (by omega) (by omega)]
    simp only [nodeIdFromProto, NodeId.mk.injEq]
    omega
  · simp only [hv, decide_false, if_false, decide_eq_true_eq, Bool.false_eq_true] at h ⊢
    rw [wrap32_id _ (by omega) (by omega)]
    rfl

/-! ### `Initialize` -/

theorem initNodes_children (sigs : Nat → List (Int × Ty)) (t : Tree F) (ns : List (Split F)) (req req' : List (Int × Ty))
    (h : initNodes sigs t ns req = .ok req') :
    ∀ n ∈ ns, childOk t n.ifFalse = true ∧ childOk t n.ifTrue = true := by
  induction ns generalizing req with
  | nil => simp
  | cons n rest ih =>
    simp only [initNodes] at h
    split at h
    · simp at h
    · rename_i hc
      split at h
      · simp at h
      · rename_i r _
        intro m hm
        rcases List.mem_cons.1 hm with rfl | hm
        · simpa using hc
        · exact ih _ h m hm

/-- What an accepted tree satisfies. -/
structure OkTree (t : Tree F) : Prop where
  submodel : 0 ≤ t.tag.submodel ∧ t.tag.submodel < 2 ^ 31 - 1
  step : 0 ≤ t.tag.step ∧ t.tag.step < 2 ^ 31 - 1
  regions : t.splits.length + 1 = t.adjustments.length
  children : ∀ n ∈ t.splits, childOk t n.ifFalse = true ∧ childOk t n.ifTrue = true

theorem initTree_ok (sigs : Nat → List (Int × Ty)) (m m' : Meta) (t : Tree F) (h : initTree sigs m t = some (.ok m')) :
    OkTree t := by
  simp only [initTree] at h
  split at h
  · simp at h
  · split at h
    · simp at h
    · split at h
      · rename_i h1 h2 _ _ sub step e1 e2
        simp only [succ32] at e1 e2
        split at e1
        · split at e2
          · split at h
            · simp at h
            · split at h
              · simp at h
              · rename_i hn
                exact ⟨by omega, by omega, by omega, initNodes_children _ _ _ _ _ hn⟩
          · simp at e2
        · simp at e1
      · simp at h

theorem initTrees_ok (sigs : Nat → List (Int × Ty)) (trees : List (Tree F)) (m m' : Meta)
    (h : initTrees sigs trees m = some (.ok m')) : ∀ t ∈ trees, OkTree t := by
  induction trees generalizing m with
  | nil => simp
  | cons t rest ih =>
    simp only [initTrees] at h
    split at h
    · simp at h
    · simp at h
    · rename_i m1 h1
      intro u hu
      rcases List.mem_cons.1 hu with rfl | hu
      · exact initTree_ok _ _ _ _ h1
      · exact ih _ h u hu

/-! ### The forest in the form of `Verif.Forest` -/

/-- Input ids as natural numbers. -/
def enc : Int → Nat
  | .ofNat n => 2 * n
  | .negSucc n => 2 * n + 1

theorem enc_inj (a b : Int) : enc a = enc b ↔ a = b := by
  constructor
  · intro h
    cases a <;> cases b <;> simp only [enc] at h
    · congr 1; omega
    · omega
    · omega
    · congr 1; omega
  · rintro rfl; rfl

def encSig (e : Int × Ty) : Nat × Ty := (enc e.1, e.2)

def toForestTree (t : Tree F) : Forest.Tree (Cond F) F :=
  ⟨t.splits.map fun n => ⟨toRef n.ifFalse, toRef n.ifTrue, n.cond⟩, t.adjustments, t.weight, t.tag⟩

def encSigs (sigs : Nat → List (Int × Ty)) (c : Cond F) : List (Nat × Ty) := (signatures sigs c).map encSig

def encMeta (m : Meta) : Forest.Meta Ty := ⟨m.submodelCount, m.stepCount, m.required.map encSig⟩

def encRes : Except Err Meta → Except Err (Forest.Meta Ty)
  | .error e => .error e
  | .ok m => .ok (encMeta m)

def encReq : Except Err (List (Int × Ty)) → Except Err (List (Nat × Ty))
  | .error e => .error e
  | .ok m => .ok (m.map encSig)

theorem find_enc (id : Int) (req : List (Int × Ty)) :
    (req.map encSig).find? (fun e => e.1 == enc id) = (req.find? (fun e => e.1 == id)).map encSig := by
  induction req with
  | nil => rfl
  | cons e rest ih =>
    simp only [List.map_cons, List.find?_cons]
    have : ((encSig e).1 == enc id) = (e.1 == id) := by
      rw [Bool.eq_iff_iff, beq_iff_eq, beq_iff_eq]; exact enc_inj _ _
    rw [this]
    cases e.1 == id
    · exact ih
    · rfl

theorem addSigs_enc (l req : List (Int × Ty)) :
    Forest.addSignatures (l.map encSig) (req.map encSig) = encReq (addSigs l req) := by
  induction l generalizing req with
  | nil => rfl
  | cons e rest ih =>
    obtain ⟨id, q⟩ := e
    simp only [List.map_cons, encSig, Forest.addSignatures, addSigs]
    have hf := find_enc id req
    cases hx : req.find? (fun e => e.1 == id) with
    | none =>
      rw [hx] at hf
      simp only [Option.map_none] at hf
      rw [hf]
      have := ih (req ++ [(id, q)])
      simp only [List.map_append, List.map_cons, List.map_nil, encSig] at this
      exact this
    | some e =>
      rw [hx] at hf
      simp only [Option.map_some] at hf
      rw [hf]
      dsimp only
      have e2 : (encSig e).2 = e.2 := rfl
      by_cases hq : e.2 ≠ q
      · rw [if_pos hq, if_pos (by rw [e2]; exact hq)]; rfl
      · rw [if_neg hq, if_neg (by rw [e2]; exact hq)]; exact ih req

theorem childOk_toRef (t : Tree F) (n : NodeId) : Forest.childOk (toForestTree t) (toRef n) = childOk t n := by
  simp only [toRef, childOk, NodeId.isLeaf]
  by_cases h : n.val < 0
  · simp only [h, if_true, decide_true, Forest.childOk, toForestTree]
    exact decide_eq_decide.2 (by omega)
  · simp only [h, if_false, decide_false, Forest.childOk, toForestTree, List.length_map, Bool.false_eq_true]
    exact decide_eq_decide.2 (by omega)

theorem initNodes_enc (sigs : Nat → List (Int × Ty)) (t : Tree F) (ns : List (Split F)) (req : List (Int × Ty)) :
    Forest.initNodes (encSigs sigs) (toForestTree t)
      (ns.map fun n => ⟨toRef n.ifFalse, toRef n.ifTrue, n.cond⟩) (req.map encSig) =
      encReq (initNodes sigs t ns req) := by
  induction ns generalizing req with
  | nil => rfl
  | cons n rest ih =>
    simp only [List.map_cons, Forest.initNodes, initNodes, childOk_toRef]
    split
    · rfl
    · have := addSigs_enc (signatures sigs n.cond) req
      simp only [encSigs]
      rw [this]
      cases addSigs (signatures sigs n.cond) req with
      | error e => rfl
      | ok r => exact ih r

theorem initTrees_enc (sigs : Nat → List (Int × Ty)) (trees : List (Tree F)) (m : Meta)
    (h : ∀ t ∈ trees, t.tag.step < 2 ^ 31 - 1 ∧ t.tag.submodel < 2 ^ 31 - 1) :
    ∃ x, initTrees sigs trees m = some x ∧
      Forest.initTrees (encSigs sigs) (trees.map toForestTree) (encMeta m) = encRes x := by
  induction trees generalizing m with
  | nil => exact ⟨_, rfl, rfl⟩
  | cons t rest ih =>
    have ht := h t (by simp)
    have hrest := fun m => ih m (fun u hu => h u (List.mem_cons_of_mem _ hu))
    have key : ∃ x, initTree sigs m t = some x ∧
        Forest.initTree (encSigs sigs) (encMeta m) (toForestTree t) = encRes x := by
      simp only [initTree, Forest.initTree]
      have e1 : (toForestTree t).tag = t.tag := rfl
      rw [e1]
      by_cases h1 : t.tag.submodel < 0
      · simp only [h1, if_true]; exact ⟨_, rfl, rfl⟩
      · by_cases h2 : t.tag.step < 0
        · simp only [h1, h2, if_true, if_false]; exact ⟨_, rfl, rfl⟩
        · simp only [h1, h2, if_false]
          have s1 : succ32 t.tag.submodel = some (t.tag.submodel + 1) := by
            simp only [succ32]; rw [if_pos (by omega)]
          have s2 : succ32 t.tag.step = some (t.tag.step + 1) := by
            simp only [succ32]; rw [if_pos (by omega)]
          simp only [s1, s2]
          have e2 : (toForestTree t).splits.length = t.splits.length := by simp [toForestTree]
          have e3 : (toForestTree t).adjustments = t.adjustments := rfl
          rw [e2, e3]
          by_cases h3 : t.splits.length + 1 ≠ t.adjustments.length
          · rw [if_pos h3, if_pos h3]; exact ⟨_, rfl, rfl⟩
          · rw [if_neg h3, if_neg h3]
            have := initNodes_enc sigs t t.splits m.required
            simp only [encMeta]
            have e4 : (toForestTree t).splits = t.splits.map fun n => ⟨toRef n.ifFalse, toRef n.ifTrue, n.cond⟩ := rfl
            rw [e4, this]
            cases initNodes sigs t t.splits m.required with
            | error e => exact ⟨_, rfl, rfl⟩
            | ok r => exact ⟨_, rfl, rfl⟩
    obtain ⟨x, hx, hy⟩ := key
    simp only [List.map_cons, initTrees, Forest.initTrees, hx, hy]
    cases x with
    | error e => exact ⟨_, rfl, rfl⟩
    | ok m1 => exact hrest m1

end Verif.FCodec
