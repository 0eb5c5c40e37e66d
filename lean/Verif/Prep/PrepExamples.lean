import Verif.Prep.ExtractProps

/-!
# A small language meeting the hypotheses of the theorems on preparation, and a counterexample
-/

namespace Verif.Prep.Ex
open Verif.Expr Verif.Prep

/-- `x + y`; `x + 1`, lowered to the former; the same by a registered name; `annotation.qtype`; `annotation.name`; the root. -/
inductive Op | add | inc | regInc | qtype | name | root
deriving DecidableEq

inductive Ty | int | text | qtype
deriving DecidableEq

inductive Val | int (n : Int) | text (n : Nat) | qt (t : Ty)
deriving DecidableEq

def tyOf : Val → Ty
  | .int _ => .int
  | .text _ => .text
  | .qt _ => .qtype

def asQ : Val → Option Ty
  | .qt t => some t
  | _ => none

abbrev N := Node Op Val Ty
abbrev X := Except (Err Unit)

def decay : Op → X Op
  | .regInc => .ok .inc
  | o => .ok o

def inferAnno : List (Attr Ty Val) → X (Attr Ty Val)
  | [a, t] =>
    if t.qtype = none then .ok a
    else match t.qvalue with
      | none => .error .badAnno
      | some v => match asQ v with
        | none => .error .badAnno
        | some q => if a.qtype ≠ none ∧ a.qtype ≠ some q then .error .badAnno else .ok ⟨some q, a.qvalue⟩
  | _ => .error .badAnno

def infer : Op → List (Attr Ty Val) → X (Attr Ty Val)
  | .add, [a, b] =>
    if a.qtype = some .int ∧ b.qtype = some .int then .ok ⟨some .int, none⟩
    else if (a.qtype = none ∨ a.qtype = some .int) ∧ (b.qtype = none ∨ b.qtype = some .int) then .ok noAttr
    else .error (.other ())
  | .inc, [a] | .regInc, [a] =>
    if a.qtype = some .int then .ok ⟨some .int, none⟩ else if a.qtype = none then .ok noAttr else .error (.other ())
  | .qtype, as => inferAnno as
  | .name, [a, _] => .ok a
  | .root, a :: _ => .ok ⟨a.qtype, none⟩
  | _, _ => .error (.other ())

def ops : Op → List Val → Val
  | .add, [.int a, .int b] => .int (a + b)
  | .inc, [.int a] | .regInc, [.int a] => .int (a + 1)
  | .qtype, d :: _ | .name, d :: _ | .root, d :: _ => d
  | _, _ => .int 0

def lit (v : Val) : N := .mk (.literal v) ⟨some (tyOf v), some v⟩ []

def lang : Lang Op Val (Attr Ty Val) (Err Unit) := ⟨noAttr, fun v => ⟨some (tyOf v), some v⟩, infer, .deps⟩

def lower : Op → N → X N
  | .inc, n => match n.deps with
    | [x] => lang.mkOp .add [x, lit (.int 1)]
    | _ => .ok n
  | _, n => .ok n

def invoke (n : N) : X Val :=
  match n.label with
  | .op o => .ok (ops o (n.deps.filterMap (fun d => d.attr.qvalue)))
  | _ => .error (.other ())

def env : Env Op Val Ty Unit where
  typeOf := tyOf
  ofQType := .qt
  asQType := asQ
  infer := infer
  decay := decay
  isQTypeAnno o := o = .qtype
  isAnno o := o = .qtype || o = .name
  qtypeAnno := .qtype
  rootOp := .root
  lower := lower
  invoke := invoke
  casting n _ := .ok n
  optimizer := some .ok
  extension n _ := .ok n
  whereFn := .ok

def all : Stages := ⟨true, true, true, true, true, true, true, false, true⟩

def leaf (k : Nat) : N := .mk (.leaf [k]) noAttr []
def annoLeaf (k : Nat) (t : Ty) : N := .mk (.op .qtype) ⟨some t, none⟩ [leaf k, lit (.qt t)]

/-- `name(inc(x), "n") + inc(inc(2))`, all types unknown. -/
def e1 : N := .mk (.op .add) noAttr [.mk (.op .name) noAttr [.mk (.op .regInc) noAttr [leaf 1], lit (.text 7)],
  .mk (.op .inc) ⟨some .int, none⟩ [.mk (.op .regInc) ⟨some .int, none⟩ [lit (.int 2)]]]

def okOf {ε α : Type} : Option (Except ε α) → Option α
  | some (.ok a) => some a
  | _ => none

/-- Is prepared as `(qtype(x, int) + 1) + 4`. -/
example : okOf (env.prepare 100 all (fun k => if k = [1] then some .int else none) e1) =
    some (.mk (.op .add) ⟨some .int, none⟩ [.mk (.op .add) ⟨some .int, none⟩ [annoLeaf 1 .int, lit (.int 1)], lit (.int 4)]) := by
  decide +kernel

/-- And compiled as `(x + 1) + 4`. -/
example : (okOf (env.compile true 100 all (fun k => if k = [1] then some .int else none) e1)).map
      (fun (r, types, used) => (r, types.length, used)) =
    some (.mk (.op .add) noAttr [.mk (.op .add) noAttr [leaf 1, lit (.int 1)], lit (.int 4)], 6, [([1], .int)]) := by
  decide +kernel

/-- A type is missing. -/
example : env.prepare 100 all (fun _ => none) e1 = some (.error (.other (.missing [[1]]))) := by rfl

/-! The language keeps its promises. -/

def sem (l : List Nat → Val) : Sem Op Val Ty Val := ⟨ops, id, l, fun _ => .int 0, tyOf⟩

theorem isQA_iff (o : Op) : IsQA env o ↔ o = .qtype := by
  unfold IsQA env decay
  cases o <;> simp

theorem infer_ok (l : List Nat → Val) (o : Op) (as : List (Attr Ty Val)) (a : Attr Ty Val) (ds : List Val)
    (h : infer o as = .ok a) (hl : as.length = ds.length)
    (hf : ∀ (i : Nat) b d, as[i]? = some b → ds[i]? = some d → (sem l).Fits b d)
    (hq : IsQA env o → AnnoTrue env (sem l) ds) : (sem l).Fits a (ops o ds) := by
  have two : ∀ x y : Attr Ty Val, as = [x, y] → ∃ d e, ds = [d, e] ∧ (sem l).Fits x d ∧ (sem l).Fits y e := by
    intro x y has
    subst has
    match ds, hl with
    | [d, e], _ => exact ⟨d, e, rfl, hf 0 x d rfl rfl, hf 1 y e rfl rfl⟩
  have one : ∀ x : Attr Ty Val, as = [x] → ∃ d, ds = [d] ∧ (sem l).Fits x d := by
    intro x has
    subst has
    match ds, hl with
    | [d], _ => exact ⟨d, rfl, hf 0 x d rfl rfl⟩
  have none_ok : ∀ d, (sem l).Fits noAttr d := fun d => ⟨(by intro q h; cases h), (by intro q h; cases h)⟩
  have int_ok : ∀ o : Op, o = .add ∨ o = .inc ∨ o = .regInc → tyOf (ops o ds) = .int := by
    intro o ho
    rcases ho with rfl | rfl | rfl <;> unfold ops <;> split <;> first | rfl | simp_all
  unfold infer at h
  split at h
  · split at h
    · cases h
      exact ⟨(by intro q hq'; cases hq'; exact int_ok _ (Or.inl rfl)), (by intro v hv; cases hv)⟩
    · split at h
      · cases h; exact none_ok _
      · cases h
  · split at h
    · cases h
      exact ⟨(by intro q hq'; cases hq'; exact int_ok _ (Or.inr (Or.inl rfl))), (by intro v hv; cases hv)⟩
    · split at h
      · cases h; exact none_ok _
      · cases h
  · split at h
    · cases h
      exact ⟨(by intro q hq'; cases hq'; exact int_ok _ (Or.inr (Or.inr rfl))), (by intro v hv; cases hv)⟩
    · split at h
      · cases h; exact none_ok _
      · cases h
  · unfold inferAnno at h
    split at h
    · rename_i x t
      obtain ⟨d, e, rfl, h1, h2⟩ := two x t rfl
      split at h
      · cases h; exact h1
      · split at h
        · cases h
        · rename_i v hv
          split at h
          · cases h
          · rename_i q hqv
            split at h
            · cases h
            · cases h
              refine ⟨?_, h1.2⟩
              intro q' hq'
              cases hq'
              refine hq ((isQA_iff _).2 rfl) d v q ?_ hqv
              rw [h2.2 v hv]
    · cases h
  · rename_i x t
    obtain ⟨d, e, rfl, h1, h2⟩ := two x t rfl
    cases h
    exact h1
  · rename_i x xs
    match ds, hl with
    | d :: ds, _ =>
      cases h
      exact ⟨(hf 0 x d rfl rfl).1, (by intro v hv; cases hv)⟩
  · cases h

theorem faithful (l : List Nat → Val) : Faithful env (sem l) := by
  have hfits : ∀ n, Good env (sem l) n → (sem l).Fits n.attr ((sem l).val n) :=
    fun n hn => good_fits (fun v => rfl) (fun o as a ds h1 h2 h3 h4 => infer_ok l o as a ds h1 h2 h3 h4) n hn
  refine ⟨fun v => rfl, fun v w h => h, fun q => rfl, fun o as a ds h1 h2 h3 h4 => infer_ok l o as a ds h1 h2 h3 h4, ?_, ?_, ?_, rfl, rfl,
    ?_, ?_, ?_, ?_, ?_, ?_, ?_⟩
  · intro o o' h
    cases o <;> cases h <;> try rfl
    funext ds
    show ops .regInc ds = ops .inc ds
    match ds with
    | [] => rfl
    | [.int _] => rfl
    | [.text _] => rfl
    | [.qt _] => rfl
    | .int _ :: _ :: _ => rfl
    | .text _ :: _ :: _ => rfl
    | .qt _ :: _ :: _ => rfl
  · intro o d ds h
    cases o <;> simp [env] at h <;> rfl
  · intro o h
    cases o <;> simp [env] at h ⊢
  · intro q; cases q <;> rfl
  · intro n o v hg hd hall hi
    obtain ⟨o0, h1, h2⟩ := decayOf_some hd
    have hi : invoke n = .ok v := hi
    unfold invoke at hi
    rw [h1] at hi
    cases hi
    rw [val_op h1]
    show ops o0 _ = ops o0 _
    congr 1
    have : ∀ ds : List N, (∀ d ∈ ds, d.attr.qvalue ≠ none ∧ Good env (sem l) d) →
        ds.map (sem l).val = ds.filterMap (fun d => d.attr.qvalue) := by
      intro ds
      induction ds with
      | nil => intro _; rfl
      | cons d ds ih =>
        intro h
        obtain ⟨h3, h4⟩ := h d (by simp)
        cases hq : d.attr.qvalue with
        | none => exact absurd hq h3
        | some w =>
          rw [List.map_cons, List.filterMap_cons, hq, ih (fun x hx => h x (by simp [hx]))]
          dsimp only
          rw [(hfits d h4).2 w hq]
          rfl
    exact this n.deps (fun d hd => ⟨hall d hd, hg.dep hd⟩)
  · intro n o m hg hd h
    have h : lower o n = .ok m := h
    obtain ⟨o0, h1, h2⟩ := decayOf_some hd
    unfold lower at h
    split at h
    · split at h
      · rename_i x hx
        have hgd : ∀ d ∈ [x, lit (.int 1)], Good env (sem l) d := by
          intro d hd
          simp only [List.mem_cons, List.not_mem_nil, or_false] at hd
          rcases hd with rfl | rfl
          · exact hg.dep (by rw [hx]; simp)
          · exact good_literal (env := env) (.int 1)
        obtain ⟨h3, h4, h5⟩ := good_mkOp (env := env) (S := sem l) hgd h (by intro hc; rw [isQA_iff] at hc; cases hc)
        refine ⟨h3, ?_⟩
        rw [val_op h4, val_op h1, h5, hx]
        have ho : o0 = .inc ∨ o0 = .regInc := by
          cases o0 <;> first | exact Or.inl rfl | exact Or.inr rfl | (cases h2)
        show ops .add [(sem l).val x, .int 1] = ops o0 [(sem l).val x]
        rcases ho with rfl | rfl <;> cases (sem l).val x <;> rfl
      · cases h; exact ⟨hg, rfl⟩
    · cases h; exact ⟨hg, rfl⟩
  · intro n o m hg hd h; cases h; exact ⟨hg, rfl⟩
  · intro f hf n o m hg hd h; cases hf; cases h; exact ⟨hg, rfl⟩
  · intro n o m hg hd h; cases h; exact ⟨hg, rfl⟩
  · intro n m hg h; cases h; exact ⟨hg, rfl⟩

theorem builds : Builds env := by
  refine ⟨fun q => by cases q <;> rfl, ?_, ?_, ?_, ?_, ?_⟩
  · intro n o m hg h
    have h : lower o n = .ok m := h
    unfold lower at h
    split at h
    · split at h
      · rename_i x hx
        unfold Lang.mkOp at h
        split at h
        · cases h
        · rename_i a ha
          cases h
          refine .op _ _ _ ?_ ha
          intro d hd
          simp only [List.mem_cons, List.not_mem_nil, or_false] at hd
          rcases hd with rfl | rfl
          · exact wf_dep hg (by rw [hx]; simp)
          · exact .literal (G := env.lang) (.int 1)
      · cases h; exact hg
    · cases h; exact hg
  · intro n o m hg h; cases h; exact hg
  · intro f n m hf hg h; cases hf; cases h; exact hg
  · intro n o m hg h; cases h; exact hg
  · intro n m hg h; cases h; exact hg

theorem annoInfer : AnnoInfer env := by
  intro o ho
  rw [isQA_iff] at ho
  subst ho
  funext as
  show inferAnno as = env.inferQTypeAnno as
  unfold inferAnno Env.inferQTypeAnno
  match as with
  | [] => rfl
  | [_] => rfl
  | _ :: _ :: _ :: _ => rfl
  | [a, t] =>
    by_cases h1 : t.qtype = none
    · simp only [h1, ↓reduceIte]
    · simp only [h1, ↓reduceIte]
      cases t.qvalue with
      | none => rfl
      | some v =>
        have he : env.asQType v = asQ v := rfl
        dsimp only
        rw [he]
        cases asQ v with
        | none => rfl
        | some q => dsimp only

theorem monotone : Monotone env := by
  intro o as bs a b ha hb hl hle
  have ha : infer o as = .ok a := ha
  have hb : infer o bs = .ok b := hb
  have hone : ∀ x : Attr Ty Val, Attr.Le noAttr x := fun x => ⟨(by intro q h; cases h), (by intro q h; cases h)⟩
  match o, as, bs, hl with
  | .add, [a1, a2], [b1, b2], _ =>
    have h1 := hle 0 a1 b1 rfl rfl
    have h2 := hle 1 a2 b2 rfl rfl
    unfold infer at ha hb
    dsimp only at ha hb
    split at ha
    · rename_i hc
      cases ha
      rw [if_pos ⟨h1.1 _ hc.1, h2.1 _ hc.2⟩] at hb
      cases hb
      exact .refl _
    · split at ha
      · cases ha; exact hone _
      · cases ha
  | .inc, [a1], [b1], _ =>
    have h1 := hle 0 a1 b1 rfl rfl
    unfold infer at ha hb
    dsimp only at ha hb
    split at ha
    · rename_i hc
      cases ha
      rw [if_pos (h1.1 _ hc)] at hb
      cases hb
      exact .refl _
    · split at ha
      · cases ha; exact hone _
      · cases ha
  | .regInc, [a1], [b1], _ =>
    have h1 := hle 0 a1 b1 rfl rfl
    unfold infer at ha hb
    dsimp only at ha hb
    split at ha
    · rename_i hc
      cases ha
      rw [if_pos (h1.1 _ hc)] at hb
      cases hb
      exact .refl _
    · split at ha
      · cases ha; exact hone _
      · cases ha
  | .name, [a1, a2], [b1, b2], _ =>
    cases ha; cases hb
    exact hle 0 _ _ rfl rfl
  | .root, a1 :: as, b1 :: bs, _ =>
    cases ha; cases hb
    exact ⟨(hle 0 _ _ rfl rfl).1, (by intro v hv; cases hv)⟩
  | .qtype, [a1, a2], [b1, b2], _ =>
    have h1 := hle 0 a1 b1 rfl rfl
    have h2 := hle 1 a2 b2 rfl rfl
    unfold infer inferAnno at ha hb
    dsimp only at ha hb
    by_cases ht : a2.qtype = none
    · rw [if_pos ht] at ha
      cases ha
      split at hb
      · cases hb; exact h1
      · split at hb
        · cases hb
        · split at hb
          · cases hb
          · rename_i q _
            split at hb
            · cases hb
            · rename_i hc
              cases hb
              refine ⟨?_, h1.2⟩
              intro q' hq'
              have := h1.1 _ hq'
              by_contra hne
              exact hc ⟨by rw [this]; simp, by rw [this]; exact fun h => hne h.symm⟩
    · rw [if_neg ht] at ha
      cases hv : a2.qvalue with
      | none => rw [hv] at ha; cases ha
      | some v =>
        cases htq : a2.qtype with
        | none => exact absurd htq ht
        | some tq =>
          rw [hv] at ha
          rw [if_neg (by rw [h2.1 _ htq]; simp), h2.2 _ hv] at hb
          dsimp only at ha hb
          split at ha
          · cases ha
          · rename_i q hq
            rw [hq] at hb
            dsimp only at hb
            split at ha
            · cases ha
            · split at hb
              · cases hb
              · cases ha; cases hb
                exact ⟨fun q h => h, h1.2⟩

theorem wf_lit (v : Val) : WF env.lang (lit v) := .literal (G := env.lang) v
theorem wf_leaf' (k : Nat) : WF env.lang (leaf k) := .leaf (G := env.lang) [k]

theorem wf_e1 : WF env.lang e1 := by
  refine .op _ _ _ ?_ rfl
  intro d hd
  simp only [List.mem_cons, List.not_mem_nil, or_false] at hd
  rcases hd with rfl | rfl
  · refine .op _ _ _ ?_ rfl
    intro d hd
    simp only [List.mem_cons, List.not_mem_nil, or_false] at hd
    rcases hd with rfl | rfl
    · refine .op _ _ _ ?_ rfl
      intro d hd
      simp only [List.mem_cons, List.not_mem_nil, or_false] at hd
      subst hd
      exact wf_leaf' 1
    · exact wf_lit _
  · refine .op _ _ _ ?_ rfl
    intro d hd
    simp only [List.mem_cons, List.not_mem_nil, or_false] at hd
    subst hd
    refine .op _ _ _ ?_ rfl
    intro d hd
    simp only [List.mem_cons, List.not_mem_nil, or_false] at hd
    subst hd
    exact wf_lit _

/-! ## Counterexample -/

/-- `qtype(qtype(x, t), int) + inc(t)`: the type of `x` is first annotated by the value of another input. -/
def e2 : N := .mk (.op .root) ⟨some .int, none⟩ [.mk (.op .qtype) ⟨some .int, none⟩ [.mk (.op .qtype) noAttr [leaf 1, leaf 2], lit (.qt .int)], leaf 2]

/-- Without the condition on annotations the compiled expression may take an input of another type than declared: `x` is declared
as a text and used as an integer. -/
theorem compile_inputs_counterexample :
    WF env.lang e2 ∧
    ∃ r types, env.compile true 100 all (fun k => if k = [1] then some .text else if k = [2] then some .qtype else none) e2 =
      some (.ok (r, types, [([1], .int), ([2], .qtype)])) := by
  refine ⟨?_, _, _, rfl⟩
  refine .op _ _ _ ?_ rfl
  intro d hd
  simp only [List.mem_cons, List.not_mem_nil, or_false] at hd
  rcases hd with rfl | rfl
  · refine .op _ _ _ ?_ rfl
    intro d hd
    simp only [List.mem_cons, List.not_mem_nil, or_false] at hd
    rcases hd with rfl | rfl
    · refine .op _ _ _ ?_ rfl
      intro d hd
      simp only [List.mem_cons, List.not_mem_nil, or_false] at hd
      rcases hd with rfl | rfl
      · exact wf_leaf' 1
      · exact wf_leaf' 2
    · exact wf_lit _
  · exact wf_leaf' 2

/-- Two types for one node after the annotations are gone. -/
example : env.extractQTypes true (.mk (.op .root) noAttr [annoLeaf 1 .int, annoLeaf 1 .text]) [] = some (.error .mismatch) := by rfl

end Verif.Prep.Ex
