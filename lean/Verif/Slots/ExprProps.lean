import Verif.Slots.SuccProps
import Verif.Expr.TransformProps

/-!
# From expressions to frames

`BindToExecutableBuilder` walks `PostOrder(prepared_expr)`.  Put together with the model of `PostOrder`
(Verif/Expr), binding and running a compiled expression computes the recursively defined value of
the expression.
-/

namespace Verif.Slots

open Verif.Expr (Expr PostOrder postOrder fold Sub)

variable {O W A K V F P T E : Type} [DecidableEq O] [DecidableEq W] [DecidableEq A]

/-- The nodes the visitor sees: class and type of every node of the post order, its dependencies by
`dep_indices` (dynamic_compiled_expr.cc 452-470). -/
def nodesOf (cls : Expr O W A → Kind K V F P) (ty : Expr O W A → T) (po : PostOrder O W A) :
    Option (List (Node K V F P T)) :=
  po.nodes.zipIdx.mapM (fun p => (po.depIndices p.2).map (fun ds => ⟨cls p.1, ds, ty p.1⟩))

theorem nodesOf_eq (cls : Expr O W A → Kind K V F P) (ty : Expr O W A → T) {root : Expr O W A}
    {po : PostOrder O W A} (hpo : postOrder root = some po) :
    nodesOf cls ty po =
      some (po.nodes.map (fun n => ⟨cls n, n.deps.map (fun d => po.nodes.idxOf d), ty n⟩)) := by
  unfold nodesOf
  rw [mapM_eq_some_iff]
  have : ∀ (l : List (Expr O W A)) (i : Nat), (∀ j, j < l.length → po.nodes[i + j]? = l[j]?) →
      List.Forall₂ (fun (x : Expr O W A × Nat) (y : Node K V F P T) => (po.depIndices x.2).map
          (fun ds => (⟨cls x.1, ds, ty x.1⟩ : Node K V F P T)) = some y) (l.zipIdx i)
        (l.map (fun n => ⟨cls n, n.deps.map (fun d => po.nodes.idxOf d), ty n⟩)) := by
    intro l
    induction l with
    | nil => intro i _; exact .nil
    | cons n l ih =>
      intro i h
      refine .cons ?_ (ih (i + 1) ?_)
      · have h0 := h 0 (by simp)
        have hd := Verif.Expr.depIndices_eq hpo (i := i) (n := n) (by simpa using h0)
        dsimp only
        rw [hd]; rfl
      · intro j hj
        have := h (j + 1) (by simp; omega)
        rw [show i + (j + 1) = i + 1 + j by omega] at this
        simpa using this
  have := this po.nodes 0 (fun j _ => by rw [Nat.zero_add])
  exact this

theorem gather_eq (results : List V) (ix : List Nat) :
    Verif.Expr.gather results ix = ix.mapM (fun d => results[d]?) := by
  induction ix with
  | nil => rfl
  | cons k ks ih =>
    rw [List.mapM_cons]
    simp only [Verif.Expr.gather, ih]
    cases results[k]? with
    | none => rfl
    | some r => cases ks.mapM (fun d => results[d]?) <;> rfl

/-- The node by node evaluation is the traversal of the post order. -/
theorem values_traverse (cls : Expr O W A → Kind K V F P) (ty : Expr O W A → T) {root : Expr O W A}
    {po : PostOrder O W A} (hpo : postOrder root = some po)
    (apply : F → List V → Except E V) (proj : P → V → V) (env : K → V)
    (v : Expr O W A → List V → Except E V)
    (hv : ∀ (n : Expr O W A) (ds : List Nat) (args : List V), n ∈ po.nodes →
      args.length = n.deps.length → nodeValue apply proj env ⟨cls n, ds, ty n⟩ args = some (v n args))
    (rest : List (Expr O W A)) (x : Expr O W A) (i : Nat) (vs : List V)
    (h : ∀ j, j < (x :: rest).length → po.nodes[i + j]? = (x :: rest)[j]?) :
    Verif.Expr.traverseLoop po v rest.length i vs =
      match values apply proj env ((x :: rest).map
        (fun n => (⟨cls n, n.deps.map (fun d => po.nodes.idxOf d), ty n⟩ : Node K V F P T))) vs with
      | none => none
      | some (.error e) => some (.error e)
      | some (.ok vs') => vs'.getLast?.map .ok := by
  have h0 : po.nodes[i]? = some x := by simpa using h 0 (by simp)
  have hinv : Verif.Expr.invoke po v vs i =
      match (x.deps.map (fun d => po.nodes.idxOf d)).mapM (fun d => vs[d]?) with
      | none => none
      | some args => some (v x args) := by
    unfold Verif.Expr.invoke
    rw [h0, Verif.Expr.depIndices_eq hpo h0]
    simp only [gather_eq]
    cases (x.deps.map (fun d => po.nodes.idxOf d)).mapM (fun d => vs[d]?) <;> rfl
  induction rest generalizing x i vs with
  | nil =>
    simp only [List.length_nil, Verif.Expr.traverseLoop, List.map_cons, List.map_nil, values, hinv]
    cases ha : (x.deps.map (fun d => po.nodes.idxOf d)).mapM (fun d => vs[d]?) with
    | none => rfl
    | some args =>
      have hl : args.length = x.deps.length := by
        have := ((mapM_eq_some_iff _ _ _).1 ha).length_eq
        simpa using this.symm
      dsimp only
      rw [hv x _ args (List.mem_of_getElem? h0) hl]
      cases v x args with
      | error e => rfl
      | ok r => simp
  | cons y rest ih =>
    rw [List.map_cons]
    simp only [List.length_cons, Verif.Expr.traverseLoop, hinv]
    conv_rhs => unfold values
    dsimp only
    cases ha : (x.deps.map (fun d => po.nodes.idxOf d)).mapM (fun d => vs[d]?) with
    | none => rfl
    | some args =>
      have hl : args.length = x.deps.length := by
        have := ((mapM_eq_some_iff _ _ _).1 ha).length_eq
        simpa using this.symm
      dsimp only
      rw [hv x _ args (List.mem_of_getElem? h0) hl]
      cases v x args with
      | error e => rfl
      | ok r =>
        dsimp only
        have h' : ∀ j, j < (y :: rest).length → po.nodes[i + 1 + j]? = (y :: rest)[j]? := by
          intro j hj
          have := h (j + 1) (by simp at hj ⊢; omega)
          rw [show i + (j + 1) = i + 1 + j by omega] at this
          simpa using this
        have h1 : po.nodes[i + 1]? = some y := by simpa using h' 0 (by simp)
        refine ih y (i + 1) (vs ++ [r]) h' h1 ?_
        unfold Verif.Expr.invoke
        rw [h1, Verif.Expr.depIndices_eq hpo h1]
        simp only [gather_eq]
        cases (y.deps.map (fun d => po.nodes.idxOf d)).mapM (fun d => (vs ++ [r])[d]?) <;> rfl

/-- Compiling and running an expression gives its value, defined by recursion over the expression
(`fold`), or the error that this recursion reports. -/
theorem compiled_expr_value [DecidableEq T] [DecidableEq P] (cls : Expr O W A → Kind K V F P)
    (ty : Expr O W A → T) {root : Expr O W A} {po : PostOrder O W A}
    {ns : List (Node K V F P T)} {cfg : Config K} {layout : List T} {slots : List (Slot P)}
    {st : State V F P T} (hpo : postOrder root = some po) (hns : nodesOf cls ty po = some ns)
    (hs : Setup cfg layout ns) (hb : bind cfg layout ns = some (.ok (slots, st)))
    (apply : F → List V → Except E V) (proj : P → V → V) (env : K → V)
    (v : Expr O W A → List V → Except E V)
    (hv : ∀ (n : Expr O W A) (ds : List Nat) (args : List V), Sub n root →
      args.length = n.deps.length → nodeValue apply proj env ⟨cls n, ds, ty n⟩ args = some (v n args))
    (m : Frame V) (hin : InputsAre cfg ns env m) :
    match fold v root with
    | .error e => execute apply proj st.code (initLiterals st.literals m) = .error e
    | .ok x => ∃ m', execute apply proj st.code (initLiterals st.literals m) = .ok m' ∧
        m' cfg.out = x ∧ (∀ b, Foreign cfg layout ns b → m' b = m b) ∧
        LiteralsAre st.literals m' := by
  have hev := bind_evaluates hs hb apply proj env m hin
  have htr := Verif.Expr.traverse_eq v root
  obtain ⟨po', hpo', _, hsub, hlast, _⟩ := Verif.Expr.post_order root
  rw [hpo] at hpo'; cases hpo'
  unfold Verif.Expr.traverseExpr Verif.Expr.traverse at htr
  rw [hpo] at htr
  dsimp only [Option.bind_some] at htr
  rw [nodesOf_eq cls ty hpo] at hns
  cases hns
  obtain ⟨x, rest, hn⟩ : ∃ x rest, po.nodes = x :: rest := by
    cases hn : po.nodes with
    | nil => rw [hn] at hlast; cases hlast
    | cons x rest => exact ⟨x, rest, rfl⟩
  · have hvt := values_traverse cls ty hpo apply proj env v
      (fun n ds args hm hl => hv n ds args ((hsub n).1 hm) hl) rest x 0 []
      (fun j _ => by rw [Nat.zero_add, hn])
    rw [show rest.length = po.nodes.length - 1 by rw [hn]; simp, htr, ← hn] at hvt
    cases hvv : values apply proj env (po.nodes.map
        (fun n => (⟨cls n, n.deps.map (fun d => po.nodes.idxOf d), ty n⟩ : Node K V F P T))) [] with
    | none => rw [hvv] at hvt; cases hvt
    | some r =>
      rw [hvv] at hvt hev
      cases r with
      | error e =>
        dsimp only at hvt hev
        rw [Option.some.inj hvt]; exact hev
      | ok vs =>
        dsimp only at hvt hev
        obtain ⟨m', h1, h2, _, h4, h5⟩ := hev
        rw [h2] at hvt
        rw [Option.some.inj hvt]
        exact ⟨m', h1, rfl, h4, h5⟩

/-! ## A concrete case: `x + (x + 7)` -/

/-- Every node by what it is. -/
def xcls : Expr Unit Int Unit → Kind (List Nat) Int Unit Unit
  | .mk (.leaf k) _ _ => .leaf k
  | .mk (.placeholder k) _ _ => .leaf k
  | .mk (.literal v) _ _ => .literal v
  | .mk (.op _) _ _ => .op ()

/-- Sum of the arguments. -/
def xsum : Unit → List Int → Except Unit Int := fun _ l => .ok l.sum

/-- `x + (x + 7)`. -/
def xexpr : Expr Unit Int Unit :=
  .mk (.op ()) () [.mk (.leaf [0]) () [], .mk (.op ()) () [.mk (.leaf [0]) () [], .mk (.literal 7) () []]]

/-- The visitor: leaves are 5. -/
def xvisit : Expr Unit Int Unit → List Int → Except Unit Int
  | .mk (.leaf _) _ _, _ => .ok 5
  | .mk (.placeholder _) _ _, _ => .ok 5
  | .mk (.literal v) _ _, _ => .ok v
  | .mk (.op _) _ _, args => .ok args.sum

/-- The nodes of `xexpr`. -/
def xexprNodes : List (Node (List Nat) Int Unit Unit Unit) :=
  [⟨.leaf [0], [], ()⟩, ⟨.literal 7, [], ()⟩, ⟨.op (), [0, 1], ()⟩, ⟨.op (), [0, 2], ()⟩]

/-- The theorem applied: whatever slots are chosen, the output slot holds 5 + (5 + 7). -/
example : ∃ po slots st, postOrder xexpr = some po ∧ nodesOf xcls (fun _ => ()) po = some xexprNodes ∧
    bind (⟨fun _ => some 0, 1, 0, 0, true⟩ : Config (List Nat)) [(), ()] xexprNodes = some (.ok (slots, st)) ∧
    ∃ m', execute xsum (fun _ v => v) st.code (initLiterals st.literals (fun _ => 5)) = .ok m' ∧
      m' 1 = 17 := by
  obtain ⟨po, hpo, _⟩ := Verif.Expr.post_order xexpr
  have hns : nodesOf xcls (fun _ => ()) po = some xexprNodes := by
    have : postOrder xexpr = some ⟨[.mk (.leaf [0]) () [], .mk (.literal 7) () [],
      .mk (.op ()) () [.mk (.leaf [0]) () [], .mk (.literal 7) () []], xexpr], _, _⟩ := rfl
    rw [this] at hpo
    cases hpo
    rfl
  have key : ∀ (o : Nat) (n : Node (List Nat) Int Unit Unit Unit) (k : List Nat),
      xexprNodes[o]? = some n → n.kind = .leaf k → o = 0 := by
    intro o n k hn hk
    have ho : o < 4 := lt_of_getElem? hn
    match o, ho with
    | 0, _ => rfl
    | 1, _ | 2, _ | 3, _ => cases hn; cases hk
  have hs : Setup (⟨fun _ => some 0, 1, 0, 0, true⟩ : Config (List Nat)) [(), ()] xexprNodes := by
    refine ⟨by simp, ?_, ?_, ?_⟩
    · intro o n k b _ _ hb; cases hb; rfl
    · rintro b ⟨o, n, k, _, _, hb⟩; cases hb; simp
    · intro _ o o' n n' k k' b hn hn' hk hk' _ _
      rw [key o n k hn hk, key o' n' k' hn' hk']
  have hB : Bindable (⟨fun _ => some 0, 1, 0, 0, true⟩ : Config (List Nat)) xexprNodes := by
    have hlt : ∀ (o : Nat) (n : Node (List Nat) Int Unit Unit Unit), xexprNodes[o]? = some n → o < 4 :=
      fun o n hn => lt_of_getElem? hn
    refine ⟨by simp [xexprNodes], ?_, fun _ _ _ _ _ => rfl, ?_, ?_⟩
    · intro o n hn
      match o, hlt o n hn with
      | 0, _ | 1, _ | 2, _ | 3, _ => cases hn; simp
    · intro o n p hn hk
      match o, hlt o n hn with
      | 0, _ | 1, _ | 2, _ | 3, _ => cases hn; cases hk
    · intro o n hn hk
      match o, hlt o n hn with
      | 0, _ | 1, _ | 2, _ | 3, _ => cases hn; cases hk
  obtain ⟨slots, st, hb⟩ := bind_succeeds hs hB
  have := compiled_expr_value xcls (fun _ => ()) hpo hns hs hb xsum (fun _ v => v) (fun _ => 5) xvisit
    (by
      intro n ds args _ _
      match n with
      | .mk (.leaf _) _ _ | .mk (.placeholder _) _ _ | .mk (.literal _) _ _ | .mk (.op _) _ _ => rfl)
    (fun _ => 5) (fun _ _ _ _ _ _ _ => rfl)
  have hf : fold xvisit xexpr = .ok 17 := rfl
  rw [hf] at this
  obtain ⟨m', h1, h2, _⟩ := this
  exact ⟨po, slots, st, hpo, hns, hb, m', h1, h2⟩

end Verif.Slots
