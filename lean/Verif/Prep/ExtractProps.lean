import Verif.Prep.PrepProps
import Verif.Expr.VisitorProps

/-!
# `ExtractQTypesForCompilation` and the types of the inputs (C79)
-/

namespace Verif.Prep
open Verif.Expr

variable {O V Q E D : Type} [DecidableEq O] [DecidableEq V] [DecidableEq Q]
variable {env : Env O V Q E} {S : Sem O V Q D}

/-! ## Specification -/

/-- A node without the annotations, when `rs` are its dependencies without annotations. -/
def Env.stripped (env : Env O V Q E) (n : Node O V Q) (rs : List (Node O V Q)) : Node O V Q :=
  match n.label, rs with
  | .op o, [] => if n.deps = [] then n else .mk (.op o) noAttr []
  | .op o, r :: rs =>
    if env.isAnnotation n then r
    else if r :: rs = n.deps then n
    else .mk (.op o) noAttr (r :: rs)
  | _, _ => n

mutual
/-- The expression without annotations. -/
def Env.strip (env : Env O V Q E) : Node O V Q → Node O V Q
  | .mk l a ds => env.stripped (.mk l a ds) (env.strips ds)
/-- The same for lists. -/
def Env.strips (env : Env O V Q E) : List (Node O V Q) → List (Node O V Q)
  | [] => []
  | d :: ds => env.strip d :: env.strips ds
end

/-- The node is an annotation of its first dependency. -/
def HasAnno (env : Env O V Q E) (s : Node O V Q) : Prop :=
  ∃ o o', s.label = .op o ∧ env.decay o = .ok o' ∧ env.isAnno o' = true ∧ s.deps ≠ []

/-- Two nodes that are the same without annotations have different types. -/
def Conflict (env : Env O V Q E) (types : Types O V Q) (root : Node O V Q) : Prop :=
  ∃ s q q', Sub s root ∧ s.attr.qtype = some q ∧ q' ≠ q ∧
    (lookup types (env.strip s) = some q' ∨ ∃ s', Sub s' root ∧ env.strip s' = env.strip s ∧ s'.attr.qtype = some q')

/-! ## Lemmas -/

theorem strips_map : ∀ ds : List (Node O V Q), env.strips ds = ds.map env.strip := by
  intro ds
  induction ds with
  | nil => rw [Env.strips]; rfl
  | cons d ds ih => rw [Env.strips, ih]; rfl

theorem strip_eq (n : Node O V Q) : env.strip n = env.stripped n (n.deps.map env.strip) := by
  cases n; rw [Env.strip, strips_map]; rfl

theorem isAnnotation_iff {n : Node O V Q} : env.isAnnotation n = true ↔ HasAnno env n := by
  unfold Env.isAnnotation HasAnno
  by_cases hd : n.deps = []
  · rw [if_pos hd]
    simp [hd]
  · rw [if_neg hd]
    constructor
    · intro h
      cases hx : env.decayOf n with
      | error e => rw [hx] at h; cases h
      | ok x =>
        cases x with
        | none => rw [hx] at h; cases h
        | some o' =>
          rw [hx] at h
          obtain ⟨o, h1, h2⟩ := decayOf_some hx
          exact ⟨o, o', h1, h2, h, hd⟩
    · rintro ⟨o, o', h1, h2, h3, _⟩
      rw [decayOf_op h1 h2]
      exact h3

theorem extractNode_eq (debug : Bool) (n : Node O V Q) :
    env.extractNode debug n (n.deps.map env.strip) =
      some (if debug && n.isOp && env.isAnnotation n && !env.isQTypeAnnotation n then .error .unexpected else .ok (env.strip n)) := by
  rw [strip_eq]
  unfold Env.extractNode Env.stripped Expr.isOp
  cases hl : n.label with
  | op o =>
    dsimp only
    cases hd : n.deps with
    | nil =>
      have : env.isAnnotation n = false := by unfold Env.isAnnotation; rw [if_pos hd]
      simp [this]
    | cons d ds =>
      rw [List.map_cons]
      dsimp only
      by_cases ha : env.isAnnotation n = true
      · simp only [ha, if_true, Bool.and_true]
        cases debug <;> cases env.isQTypeAnnotation n <;> simp
      · simp only [ha, if_false, Bool.and_false, Bool.false_and, Bool.false_eq_true]
        by_cases he : d :: ds = env.strip d :: ds.map env.strip
        · rw [if_pos he, if_pos he.symm]
        · rw [if_neg he, if_neg (fun h => he h.symm)]
  | _ => simp

theorem lookup_append {T : Type} {m : List (Node O V Q × T)} {n k : Node O V Q} {t : T} (h : lookup m n = none) :
    lookup (m ++ [(n, t)]) k = if k = n then some t else lookup m k := by
  unfold lookup at h ⊢
  rw [List.find?_append]
  by_cases hk : k = n
  · subst hk
    rw [Option.map_eq_none_iff] at h
    simp [h]
  · cases hf : m.find? (fun e => e.1 = k) with
    | some x => simp [hk]
    | none => simp [hk]; exact fun h => hk h.symm

/-- The map after the nodes `done`. -/
def TypesOk (env : Env O V Q E) (types0 : Types O V Q) (done : List (Node O V Q)) (types : Types O V Q) : Prop :=
  ∀ m q, lookup types m = some q ↔ lookup types0 m = some q ∨ ∃ s ∈ done, env.strip s = m ∧ s.attr.qtype = some q

theorem setType_ok {types0 types : Types O V Q} {done : List (Node O V Q)} {n : Node O V Q} (h : TypesOk env types0 done types) :
    (∃ types', setType (E := E) types (env.strip n) n.attr.qtype = .ok types' ∧ TypesOk env types0 (done ++ [n]) types') ∨
    (setType (E := E) types (env.strip n) n.attr.qtype = .error .mismatch ∧ ∃ q q', n.attr.qtype = some q ∧ q' ≠ q ∧
      (lookup types0 (env.strip n) = some q' ∨ ∃ s ∈ done, env.strip s = env.strip n ∧ s.attr.qtype = some q')) := by
  unfold setType
  cases hq : n.attr.qtype with
  | none =>
    left
    refine ⟨types, rfl, ?_⟩
    intro m q
    rw [h m q]
    constructor
    · rintro (h1 | ⟨s, hs, h1⟩)
      · exact Or.inl h1
      · exact Or.inr ⟨s, by simp [hs], h1⟩
    · rintro (h1 | ⟨s, hs, h1⟩)
      · exact Or.inl h1
      · rw [List.mem_append, List.mem_singleton] at hs
        rcases hs with hs | rfl
        · exact Or.inr ⟨s, hs, h1⟩
        · rw [hq] at h1; cases h1.2
  | some q =>
    dsimp only
    cases hl : lookup types (env.strip n) with
    | none =>
      left
      refine ⟨_, rfl, ?_⟩
      intro m q'
      rw [lookup_append hl]
      constructor
      · intro h1
        by_cases hm : m = env.strip n
        · rw [if_pos hm] at h1
          cases h1
          exact Or.inr ⟨n, by simp, hm.symm, hq⟩
        · rw [if_neg hm] at h1
          rcases (h m q').1 h1 with h2 | ⟨s, hs, h2⟩
          · exact Or.inl h2
          · exact Or.inr ⟨s, by simp [hs], h2⟩
      · intro h1
        by_cases hm : m = env.strip n
        · rw [if_pos hm]
          rcases h1 with h1 | ⟨s, hs, h1, h2⟩
          · have := (h m q').2 (Or.inl h1)
            rw [hm, hl] at this; cases this
          · rw [List.mem_append, List.mem_singleton] at hs
            rcases hs with hs | rfl
            · have := (h m q').2 (Or.inr ⟨s, hs, h1, h2⟩)
              rw [hm, hl] at this; cases this
            · rw [hq] at h2; exact h2
        · rw [if_neg hm]
          apply (h m q').2
          rcases h1 with h1 | ⟨s, hs, h1, h2⟩
          · exact Or.inl h1
          · rw [List.mem_append, List.mem_singleton] at hs
            rcases hs with hs | rfl
            · exact Or.inr ⟨s, hs, h1, h2⟩
            · exact absurd h1.symm hm
    | some q' =>
      dsimp only
      by_cases hqq : q' = q
      · rw [if_neg (by simpa using hqq)]
        left
        refine ⟨types, rfl, ?_⟩
        subst hqq
        intro m q2
        constructor
        · intro h1
          rcases (h m q2).1 h1 with h2 | ⟨s, hs, h2⟩
          · exact Or.inl h2
          · exact Or.inr ⟨s, by simp [hs], h2⟩
        · rintro (h1 | ⟨s, hs, h1, h2⟩)
          · exact (h m q2).2 (Or.inl h1)
          · rw [List.mem_append, List.mem_singleton] at hs
            rcases hs with hs | rfl
            · exact (h m q2).2 (Or.inr ⟨s, hs, h1, h2⟩)
            · rw [hq] at h2
              cases h2
              rw [← h1]
              exact hl
      · rw [if_pos hqq]
        right
        exact ⟨rfl, q, q', rfl, hqq, (h _ q').1 hl⟩

theorem extractLoop_ok (debug : Bool) {root : Node O V Q} {po : PostOrder O V (Attr Q V)} (hpo : postOrder root = some po)
    (types0 : Types O V Q) : ∀ (m i : Nat) (types : Types O V Q), i + m = po.nodes.length →
    TypesOk env types0 (po.nodes.take i) types →
    (debug = true → ∀ s ∈ po.nodes.take i, s.isOp = true → env.isAnnotation s = true → env.isQTypeAnnotation s = true) →
    (∃ types', env.extractLoop debug po m i ((po.nodes.take i).map env.strip) types = some (.ok (po.nodes.map env.strip, types')) ∧
      TypesOk env types0 po.nodes types' ∧
      (debug = true → ∀ s ∈ po.nodes, s.isOp = true → env.isAnnotation s = true → env.isQTypeAnnotation s = true)) ∨
    (env.extractLoop debug po m i ((po.nodes.take i).map env.strip) types = some (.error .mismatch) ∧ Conflict env types0 root) ∨
    (env.extractLoop debug po m i ((po.nodes.take i).map env.strip) types = some (.error .unexpected) ∧ debug = true ∧
      ∃ s, Sub s root ∧ s.isOp = true ∧ env.isAnnotation s = true ∧ env.isQTypeAnnotation s = false) := by
  obtain ⟨po', hpo', hnd, hsub, hlast, hdep, _⟩ := post_order root
  rw [hpo] at hpo'; cases hpo'
  intro m
  induction m with
  | zero =>
    intro i types him h hdbg
    left
    have : po.nodes.take i = po.nodes := List.take_of_length_le (by omega)
    rw [this] at h hdbg ⊢
    exact ⟨types, rfl, h, hdbg⟩
  | succ m ih =>
    intro i types him h hdbg
    have hi : i < po.nodes.length := by omega
    obtain ⟨n, hn⟩ : ∃ n, po.nodes[i]? = some n := ⟨_, List.getElem?_eq_getElem hi⟩
    have hnm : n ∈ po.nodes := List.mem_of_getElem? hn
    obtain ⟨ix, hix, hmap, hlt⟩ := hdep i n hn
    have hg : gather ((po.nodes.take i).map env.strip) ix = some (n.deps.map env.strip) := by
      rw [gather_map]
      have : ∀ k ∈ ix, ((po.nodes.take i).map env.strip)[k]? = (po.nodes[k]?).map env.strip := by
        intro k hk
        rw [List.getElem?_map, List.getElem?_take_of_lt (hlt k hk)]
      rw [List.map_congr_left this]
      have h2 : ix.map (fun k => (po.nodes[k]?).map env.strip) = (ix.map (fun k => po.nodes[k]?)).map (Option.map env.strip) := by
        rw [List.map_map]; rfl
      rw [h2, hmap, List.map_map, List.map_map]
      rfl
    have htake : po.nodes.take (i + 1) = po.nodes.take i ++ [n] := by
      rw [List.take_add_one, hn]; rfl
    rw [Env.extractLoop, hn, hix]
    dsimp only
    rw [hg]
    dsimp only
    rw [extractNode_eq]
    by_cases hbad : (debug && n.isOp && env.isAnnotation n && !env.isQTypeAnnotation n) = true
    · rw [if_pos hbad]
      right; right
      simp only [Bool.and_eq_true, Bool.not_eq_true'] at hbad
      exact ⟨rfl, hbad.1.1.1, n, (hsub n).1 hnm, hbad.1.1.2, hbad.1.2, hbad.2⟩
    · rw [if_neg hbad]
      dsimp only
      rcases setType_ok (n := n) h with ⟨types', h1, h2⟩ | ⟨h1, q, q', h2, h3, h4⟩
      · rw [h1]
        dsimp only
        have := ih (i + 1) types' (by omega) (by rw [htake]; exact h2) (by
          intro hdb s hs hop ha
          rw [htake, List.mem_append, List.mem_singleton] at hs
          rcases hs with hs | rfl
          · exact hdbg hdb s hs hop ha
          · by_contra hc
            exact hbad (by simp [hdb, hop, ha, hc]))
        rw [htake, List.map_append] at this
        exact this
      · rw [h1]
        right; left
        refine ⟨rfl, n, q, q', (hsub n).1 hnm, h2, h3, ?_⟩
        rcases h4 with h4 | ⟨s, hs, h4⟩
        · exact Or.inl h4
        · exact Or.inr ⟨s, (hsub s).1 (List.mem_of_mem_take hs), h4⟩

/-! ## The property -/

/-- `ExtractQTypesForCompilation` returns the expression without annotations; the map gains exactly the types of the nodes of the
original expression, under the nodes without annotations; it fails only if two nodes that are then the same have different types,
or (debug builds) if there is another annotation than `annotation.qtype`. -/
theorem extract_types (debug : Bool) (root : Node O V Q) (types0 : Types O V Q) :
    (∃ types, env.extractQTypes debug root types0 = some (.ok (env.strip root, types)) ∧
      ∀ m q, lookup types m = some q ↔ lookup types0 m = some q ∨ ∃ s, Sub s root ∧ env.strip s = m ∧ s.attr.qtype = some q) ∨
    (env.extractQTypes debug root types0 = some (.error .mismatch) ∧ Conflict env types0 root) ∨
    (env.extractQTypes debug root types0 = some (.error .unexpected) ∧ debug = true ∧
      ∃ s, Sub s root ∧ s.isOp = true ∧ env.isAnnotation s = true ∧ env.isQTypeAnnotation s = false) := by
  obtain ⟨po, hpo, hnd, hsub, hlast, _⟩ := post_order root
  unfold Env.extractQTypes
  rw [hpo]
  dsimp only
  rcases extractLoop_ok (env := env) debug hpo types0 po.nodes.length 0 types0 (by omega)
      (by intro m q; simp) (by intro _ s hs; simp at hs) with ⟨types, h1, h2, _⟩ | ⟨h1, h2⟩ | ⟨h1, h2⟩
  · left
    rw [List.take_zero, List.map_nil] at h1
    rw [h1]
    dsimp only
    have : (po.nodes.map env.strip).getLast? = some (env.strip root) := by rw [List.getLast?_map, hlast]; rfl
    rw [this]
    refine ⟨types, rfl, ?_⟩
    intro m q
    rw [h2 m q]
    constructor
    · rintro (h | ⟨s, hs, h⟩)
      · exact Or.inl h
      · exact Or.inr ⟨s, (hsub s).1 hs, h⟩
    · rintro (h | ⟨s, hs, h⟩)
      · exact Or.inl h
      · exact Or.inr ⟨s, (hsub s).2 hs, h⟩
  · rw [List.take_zero, List.map_nil] at h1
    rw [h1]
    exact Or.inr (Or.inl ⟨rfl, h2⟩)
  · rw [List.take_zero, List.map_nil] at h1
    rw [h1]
    exact Or.inr (Or.inr ⟨rfl, h2⟩)

/-- It fails on a conflict: in particular the two kinds of outcome exclude each other. -/
theorem extract_conflict (root : Node O V Q) (types0 : Types O V Q) :
    (∃ out, env.extractQTypes false root types0 = some (.ok out)) ↔ ¬ Conflict env types0 root := by
  rcases extract_types (env := env) false root types0 with ⟨types, h1, h2⟩ | ⟨h1, h2⟩ | ⟨_, h2, _⟩
  · refine iff_of_true ⟨_, h1⟩ ?_
    rintro ⟨s, q, q', hs, hq, hne, h⟩
    have e1 := (h2 (env.strip s) q).2 (Or.inr ⟨s, hs, rfl, hq⟩)
    have e2 : lookup types (env.strip s) = some q' := by
      rw [h2]
      rcases h with h | ⟨s', h3, h4, h5⟩
      · exact Or.inl h
      · exact Or.inr ⟨s', h3, h4, h5⟩
    rw [e1] at e2
    cases e2
    exact hne rfl
  · refine iff_of_false ?_ (not_not.2 h2)
    rintro ⟨out, h⟩
    rw [h1] at h
    cases h
  · cases h2

/-- The value is unchanged. -/
theorem extract_value (hf : Faithful env S) (n : Node O V Q) : S.val (env.strip n) = S.val n := by
  induction n using Expr.ind with
  | h n ih =>
    have hmap : (n.deps.map env.strip).map S.val = n.deps.map S.val := by
      rw [List.map_map]
      exact List.map_congr_left (fun d hd => ih d hd)
    rw [strip_eq]
    unfold Env.stripped
    cases hl : n.label with
    | op o =>
      cases hd : n.deps with
      | nil => simp
      | cons d ds =>
        rw [hd] at hmap
        rw [List.map_cons]
        dsimp only
        split
        · rename_i ha
          unfold Env.isAnnotation at ha
          rw [if_neg (by rw [hd]; simp)] at ha
          rw [ih d (by rw [hd]; simp)]
          cases hdec : env.decayOf n with
          | error e => rw [hdec] at ha; cases ha
          | ok x =>
            cases x with
            | none => rw [hdec] at ha; cases ha
            | some o' =>
              rw [hdec] at ha
              obtain ⟨o2, h1, h2⟩ := decayOf_some hdec
              rw [hl] at h1
              cases h1
              rw [val_op hl, hd, hf.decayOps _ _ h2, List.map_cons, hf.annoOps _ _ _ ha]
        · split
          · rfl
          · rw [val_op hl, hd, val_op (n := .mk (.op o) noAttr _) rfl]
            congr 1
    | _ => rfl

theorem strip_plain (n s : Node O V Q) (hwf : WF env.lang n) (hs : Sub s (env.strip n)) (o : O) (hl : s.label = .op o) : env.isAnnotation s = false := by
  induction n using Expr.ind generalizing s o with
  | h n ih =>
    rw [strip_eq] at hs
    unfold Env.stripped at hs
    cases hn : n.label with
    | op p =>
      rw [hn] at hs
      cases hd : n.deps with
      | nil =>
        rw [hd] at hs
        simp only [List.map_nil, if_true] at hs
        rcases sub_cases hs with rfl | ⟨d, hdm, _⟩
        · unfold Env.isAnnotation; rw [if_pos hd]
        · rw [hd] at hdm; cases hdm
      | cons d ds =>
        rw [hd] at hs
        rw [List.map_cons] at hs
        dsimp only at hs
        split at hs
        · exact ih d (by rw [hd]; simp) s (wf_dep hwf (by rw [hd]; simp)) hs o hl
        · rename_i ha
          split at hs
          · rename_i he
            rcases sub_cases hs with rfl | ⟨x, hx, hsx⟩
            · simpa using ha
            · have : x ∈ n.deps.map env.strip := by rw [hd, List.map_cons, he, ← hd]; exact hx
              obtain ⟨y, hy, rfl⟩ := List.mem_map.1 this
              exact ih y hy s (wf_dep hwf hy) hsx o hl
          · rcases sub_cases hs with rfl | ⟨x, hx, hsx⟩
            · have hne : env.isAnnotation (.mk (.op p) noAttr (env.strip d :: ds.map env.strip)) = env.isAnnotation n := by
                unfold Env.isAnnotation Env.decayOf
                rw [hn, hd]
                rw [if_neg (by simp [Expr.deps]), if_neg (by simp)]
                rfl
              rw [hne]
              simpa using ha
            · have : x ∈ n.deps.map env.strip := by rw [hd, List.map_cons]; exact hx
              obtain ⟨y, hy, rfl⟩ := List.mem_map.1 this
              exact ih y hy s (wf_dep hwf hy) hsx o hl
    | _ =>
      rw [hn] at hs
      simp only at hs
      have hnd : n.deps = [] := by cases hwf <;> first | rfl | cases hn
      rcases sub_cases hs with rfl | ⟨x, hx, hsx⟩
      · rw [hn] at hl; cases hl
      · rw [hnd] at hx; cases hx

/-- No annotation is left. -/
theorem extract_plain (n s : Node O V Q) (hwf : WF env.lang n) (hs : Sub s (env.strip n)) : ¬ HasAnno env s := by
  intro h
  have h' := h
  obtain ⟨o, o', h1, _⟩ := h'
  have := strip_plain n s hwf hs o h1
  rw [isAnnotation_iff.2 h] at this
  cases this

theorem strip_terminal (n s : Node O V Q) (hs : Sub s (env.strip n)) (hl : ∀ o, s.label ≠ .op o) : Sub s n := by
  induction n using Expr.ind generalizing s with
  | h n ih =>
    rw [strip_eq] at hs
    unfold Env.stripped at hs
    cases hn : n.label with
    | op p =>
      rw [hn] at hs
      cases hd : n.deps with
      | nil => rw [hd] at hs; simpa using hs
      | cons d ds =>
        rw [hd] at hs
        rw [List.map_cons] at hs
        dsimp only at hs
        have below : ∀ x ∈ n.deps.map env.strip, Sub s x → Sub s n := by
          intro x hx hsx
          obtain ⟨y, hy, rfl⟩ := List.mem_map.1 hx
          exact .dep (ih y hy s hsx hl) hy
        split at hs
        · exact below _ (by rw [hd]; simp) hs
        · split at hs
          · exact hs
          · rcases sub_cases hs with rfl | ⟨x, hx, hsx⟩
            · exact absurd rfl (hl p)
            · exact below x (by rw [hd, List.map_cons]; exact hx) hsx
    | _ =>
      rw [hn] at hs
      exact hs

theorem deep_wf {fn : Node O V Q → Except (Err E) (Node O V Q)}
    (hfn : ∀ n m, WF env.lang n → fn n = .ok m → WF env.lang m) {n r : Node O V Q}
    (hd : Deep env.lang fn n r) (hg : WF env.lang n) : WF env.lang r := by
  have step : ∀ (n m : Node O V Q) (ds : List (Node O V Q)), ds.length = n.deps.length →
      (∀ (i : Nat) d d', n.deps[i]? = some d → ds[i]? = some d' → WF env.lang d → WF env.lang d') →
      env.lang.withNewDeps n ds = .ok m → WF env.lang n → WF env.lang m := by
    intro n m ds hl ih hw hg
    refine (with_new_deps_wf env.lang n m ds hg ?_ hw).1
    intro d' hd'
    obtain ⟨i, hi⟩ := list_get_of_mem hd'
    have hlt : i < n.deps.length := by
      rw [← hl]
      by_contra hc
      rw [List.getElem?_eq_none (by omega)] at hi
      cases hi
    exact ih i _ d' (List.getElem?_eq_getElem hlt) hi (wf_dep hg (List.getElem_mem hlt))
  induction hd with
  | done n m ds hl hd hw hf ih => exact step n m ds hl ih hw hg
  | more n m t r ds hl hd hw hf ht hr ih1 ih2 => exact ih2 (hfn m t (step n m ds hl ih1 hw hg) hf)

theorem wf_sub {n s : Node O V Q} (h : WF env.lang n) (hs : Sub s n) : WF env.lang s := by
  induction hs with
  | refl => exact h
  | dep _ hd ih => exact ih (wf_dep h hd)

theorem prepare_wf (hb : Builds env) {limit : Nat} {st : Stages} {inputTypes : List Nat → Option Q} {expr p : Node O V Q}
    (hg : WF env.lang expr) (h : env.prepare limit st inputTypes expr = some (.ok p)) : WF env.lang p := by
  rcases prepare_cases h with ⟨hl, ⟨_, h1⟩ | ⟨_, rfl⟩⟩ | ⟨_, m, hm', ⟨_, hw⟩ | ⟨_, rfl⟩⟩
  · exact wf_annotateLeaf hb hg h1
  · exact hg
  · exact hb.whereFn m p (deep_wf (fun n m h1 h2 => (nodeFn_wf (wf_all hb st expr) n m h1 h2).1) (deep_sound limit expr _ hm').1 hg) hw
  · exact deep_wf (fun n m h1 h2 => (nodeFn_wf (wf_all hb st expr) n m h1 h2).1) (deep_sound limit expr _ hm').1 hg

/-- All type annotations carry a type.  (An attribute with a value has a type: `DCHECK` in the constructors of
`ExprAttributes`.) -/
def Readable (env : Env O V Q E) (p : Node O V Q) : Prop :=
  ∀ s o, Sub s p → s.label = .op o → IsQA env o →
    ∃ d t v q, s.deps = [d, t] ∧ t.attr.qvalue = some v ∧ env.asQType v = some q ∧ t.attr.qtype ≠ none

/-- `annotation.qtype` is implemented by `QTypeAnnotation`. -/
def AnnoInfer (env : Env O V Q E) : Prop := ∀ o, IsQA env o → env.infer o = env.inferQTypeAnno

theorem anno_attr (hq : AnnoInfer env) {p s : Node O V Q} {o : O} (hwf : WF env.lang p) (hr : Readable env p) (hs : Sub s p)
    (hl : s.label = .op o) (ho : IsQA env o) : ∃ d t v q, s.deps = [d, t] ∧ t.attr.qvalue = some v ∧ env.asQType v = some q ∧
      s.attr.qtype = some q := by
  obtain ⟨d, t, v, q, h1, h2, h3, ht⟩ := hr s o hs hl ho
  refine ⟨d, t, v, q, h1, h2, h3, ?_⟩
  have hws := wf_sub hwf hs
  obtain ⟨l, a, ds⟩ := s
  cases hl
  cases h1
  cases hws with
  | op _ _ _ h4 h5 =>
    have h5 : env.infer o [d.attr, t.attr] = .ok a := h5
    rw [hq o ho] at h5
    unfold Env.inferQTypeAnno at h5
    dsimp only at h5
    rw [if_neg ht, h2] at h5
    dsimp only at h5
    rw [h3] at h5
    dsimp only at h5
    split at h5
    · cases h5
    · cases h5; rfl

/-- What is known about annotations and leaves after preparation. -/
theorem prepared_annos (hd : env.decay env.qtypeAnno = .ok env.qtypeAnno ∧ env.isQTypeAnno env.qtypeAnno = true)
    (has : ∀ q, env.asQType (env.ofQType q) = some q) {limit : Nat} {st : Stages}
    {inputTypes : List Nat → Option Q} {expr p : Node O V Q} (hst : st.populateQTypes = true ∧ st.stripAnnotations = true ∧ st.whereOps = false)
    (hwf : WF env.lang expr)
    (h : env.prepare limit st inputTypes expr = some (.ok p)) :
    (∀ s o o', Sub s p → s.label = .op o → env.decay o = .ok o' → env.isAnno o' = true →
      env.isQTypeAnno o' = true ∧ ∃ d ds, s.deps = d :: ds ∧ d.attr.qtype = none) ∧
    ∀ s o d t k v q q', Sub s p → s.label = .op o → IsQA env o → s.deps = [d, t] →
      d.label = .leaf k → t.attr.qvalue = some v → env.asQType v = some q → inputTypes k = some q' → q = q' := by
  obtain ⟨hp, hs, hw⟩ := hst
  by_cases hnl : isLeaf expr = true
  · rcases prepare_cases h with ⟨_, ⟨_, h1⟩ | ⟨h1, _⟩⟩ | ⟨h1, _⟩
    · unfold isLeaf at hnl
      cases hx : expr.label with
      | leaf k =>
        unfold Env.annotateLeaf at h1
        rw [hx] at h1
        dsimp only at h1
        cases hk : inputTypes k with
        | none => rw [hk] at h1; cases h1
        | some q =>
          rw [hk] at h1
          cases h1
          have hle := wf_leaf hwf hx
          subst hle
          have honly : ∀ s o, Sub s (Expr.mk (.op env.qtypeAnno) ⟨some q, none⟩ [.mk (.leaf k) noAttr [], env.literal (env.ofQType q)]) →
              s.label = .op o → s = .mk (.op env.qtypeAnno) ⟨some q, none⟩ [.mk (.leaf k) noAttr [], env.literal (env.ofQType q)] := by
            intro s o hsub hlo
            rcases sub_cases hsub with rfl | ⟨d, hdm, hsd⟩
            · rfl
            · have : d = .mk (.leaf k) noAttr [] ∨ d = env.literal (env.ofQType q) := by simpa [Expr.deps] using hdm
              rcases this with rfl | rfl
              · rcases sub_cases hsd with rfl | ⟨_, hc, _⟩
                · cases hlo
                · cases hc
              · rcases sub_cases hsd with rfl | ⟨_, hc, _⟩
                · cases hlo
                · cases hc
          refine ⟨?_, ?_⟩
          · intro s o o' hsub hlo hdo _
            have := honly s o hsub hlo
            subst this
            cases hlo
            rw [hd.1] at hdo
            cases hdo
            exact ⟨hd.2, _, _, rfl, rfl⟩
          · intro s o d t k' v q1 q2 hsub hlo _ hds hdl htv hv hk'
            have := honly s o hsub hlo
            subst this
            cases hds
            cases hdl
            cases htv
            rw [has] at hv
            cases hv
            rw [hk] at hk'
            cases hk'
            rfl
      | _ => rw [hx] at hnl; cases hnl
    · rw [hp] at h1; cases h1
    · rw [hnl] at h1; cases h1
  · have hprep := prepare_normal limit st inputTypes hw expr p (by simpa using hnl) h
    exact ⟨hprep.stripped hs, hprep.types hp⟩

/-- A type found for a leaf is the declared one. -/
theorem leaf_type (hq : AnnoInfer env) {p : Node O V Q} (hwf : WF env.lang p) (hr : Readable env p)
    {inputTypes : List Nat → Option Q}
    (hst : ∀ s o o', Sub s p → s.label = .op o → env.decay o = .ok o' → env.isAnno o' = true →
      env.isQTypeAnno o' = true ∧ ∃ d ds, s.deps = d :: ds ∧ d.attr.qtype = none)
    (hty : ∀ s o d t k v q q', Sub s p → s.label = .op o → IsQA env o → s.deps = [d, t] →
      d.label = .leaf k → t.attr.qvalue = some v → env.asQType v = some q → inputTypes k = some q' → q = q')
    {s : Node O V Q} {k : List Nat} {q q' : Q} (hs : Sub s p) (hk : env.strip s = .mk (.leaf k) noAttr [])
    (hsq : s.attr.qtype = some q) (hin : inputTypes k = some q') : q = q' := by
  -- a node whose stripped form is a leaf is the leaf or an annotation
  have hcase : ∀ x : Node O V Q, Sub x p → env.strip x = .mk (.leaf k) noAttr [] →
      x = .mk (.leaf k) noAttr [] ∨ ∃ o o' d ds, x.label = .op o ∧ env.decay o = .ok o' ∧ env.isAnno o' = true ∧ x.deps = d :: ds ∧
        env.strip d = .mk (.leaf k) noAttr [] := by
    intro x hx hxk
    rw [strip_eq] at hxk
    unfold Env.stripped at hxk
    cases hl : x.label with
    | op o =>
      right
      rw [hl] at hxk
      cases hd : x.deps with
      | nil =>
        rw [hd] at hxk
        simp only [List.map_nil, if_true] at hxk
        rw [hxk] at hl; cases hl
      | cons d ds =>
        rw [hd, List.map_cons] at hxk
        dsimp only at hxk
        split at hxk
        · rename_i ha
          obtain ⟨o2, o', h1, h2, h3, _⟩ := isAnnotation_iff.1 ha
          rw [hl] at h1
          cases h1
          exact ⟨o, o', d, ds, rfl, h2, h3, rfl, hxk⟩
        · split at hxk
          · rw [hxk] at hl; cases hl
          · cases hxk
    | _ => rw [hl] at hxk; exact Or.inl hxk
  rcases hcase s hs hk with rfl | ⟨o, o', d, ds, h1, h2, h3, h4, h5⟩
  · cases hsq
  · obtain ⟨h6, d', ds', h7, h8⟩ := hst s o o' hs h1 h2 h3
    rw [h4] at h7
    cases h7
    obtain ⟨d', t, v, q1, h9, h10, h11, h12⟩ := anno_attr hq hwf hr hs h1 ⟨o', h2, h6⟩
    rw [h4] at h9
    cases h9
    have hq1 : q1 = q := by rw [hsq] at h12; cases h12; rfl
    subst hq1
    have hds : Sub d p := by
      have : Sub d s := .dep (.refl d) (by rw [h4]; simp)
      exact Sub.trans this hs
    rcases hcase d hds h5 with rfl | ⟨o2, o2', e, es, g1, g2, g3, g4, g5⟩
    · exact hty s o _ t k v q1 q' hs h1 ⟨o', h2, h6⟩ h4 rfl h10 h11 hin
    · exfalso
      obtain ⟨g6, e', es', g7, g8⟩ := hst d o2 o2' hds g1 g2 g3
      rw [g4] at g7
      cases g7
      obtain ⟨e', t2, v2, q2, g9, g10, g11, g12⟩ := anno_attr hq hwf hr hds g1 ⟨o2', g2, g6⟩
      rw [h8] at g12
      cases g12

theorem lookupLeaf_mem {types : Types O V Q} : ∀ {ks : List (List Nat)} {used : List (List Nat × Q)},
    lookupLeafQTypes (E := E) types ks = .ok used →
    used.map Prod.fst = ks ∧ ∀ k q, (k, q) ∈ used → lookup types (.mk (.leaf k) noAttr []) = some q := by
  intro ks
  induction ks with
  | nil => intro used h; cases h; exact ⟨rfl, by simp⟩
  | cons k ks ih =>
    intro used h
    rw [lookupLeafQTypes, lookupQType] at h
    cases hl : lookup types (.mk (.leaf k) noAttr []) with
    | none => rw [hl] at h; cases h
    | some q =>
      rw [hl] at h
      dsimp only at h
      cases hr : lookupLeafQTypes (E := E) types ks with
      | error e => rw [hr] at h; cases h
      | ok m =>
        rw [hr] at h
        cases h
        obtain ⟨h1, h2⟩ := ih hr
        refine ⟨by simp [h1], ?_⟩
        intro k' q' hm
        rcases List.mem_cons.1 hm with he | hm
        · cases he; exact hl
        · exact h2 k' q' hm

/-- After successful compilation the expression has the inputs reported as used, each with the type declared by the caller (if
one was declared), and no placeholders. -/
theorem compile_inputs (hq : AnnoInfer env) (hb : Builds env)
    (hd : env.decay env.qtypeAnno = .ok env.qtypeAnno ∧ env.isQTypeAnno env.qtypeAnno = true)
    (has : ∀ q, env.asQType (env.ofQType q) = some q) (debug : Bool) (limit : Nat) (st : Stages)
    (hst : st.populateQTypes = true ∧ st.stripAnnotations = true ∧ st.whereOps = false)
    (inputTypes : List Nat → Option Q) (expr r : Node O V Q) (types : Types O V Q) (used : List (List Nat × Q))
    (hwf : WF env.lang expr)
    (hr : ∀ p, env.prepare limit st inputTypes expr = some (.ok p) → Readable env p)
    (h : env.compile debug limit st inputTypes expr = some (.ok (r, types, used))) :
    (∀ k q q', (k, q) ∈ used → inputTypes k = some q' → q = q') ∧
    (∀ s k, Sub s r → s.label = .leaf k → ∃ q, (k, q) ∈ used ∧ lookup types s = some q) ∧
    (∀ s k, Sub s r → s.label ≠ .placeholder k) := by
  unfold Env.compile at h
  cases hp : env.prepare limit st inputTypes expr with
  | none => rw [hp] at h; cases h
  | some x =>
    rw [hp] at h
    cases x with
    | error e => cases h
    | ok p =>
      dsimp only at h
      have hwp := prepare_wf hb hwf hp
      obtain ⟨lks, po, _, hpo, hlk, _, hlmem⟩ := leaf_keys env.lang p (fun n hn => wf_sub hwp hn) leafKey (Or.inl rfl)
      obtain ⟨pks, po', _, hpo', hpk, _, hpmem⟩ := leaf_keys env.lang p (fun n hn => wf_sub hwp hn) placeholderKey (Or.inr rfl)
      rw [hpo] at hpo'
      cases hpo'
      rw [hpo] at h
      dsimp only at h
      rw [hlk, hpk] at h
      split at h
      · cases h
      · rename_i hpe
        have hpe : pks = [] := by simpa using hpe
        have hex := extract_types (env := env) debug p []
        rcases hex with ⟨types', h1, h2⟩ | ⟨h1, _⟩ | ⟨h1, _⟩
        · rw [h1] at h
          dsimp only at h
          cases hu : lookupLeafQTypes (E := E) types' lks with
          | error e => rw [hu] at h; cases h
          | ok used' =>
            rw [hu] at h
            simp only [Option.some.injEq, Except.ok.injEq, Prod.mk.injEq] at h
            obtain ⟨rfl, rfl, rfl⟩ := h
            obtain ⟨hkeys, hlook⟩ := lookupLeaf_mem hu
            obtain ⟨ha, ht⟩ := prepared_annos hd has hst hwf hp
            refine ⟨?_, ?_, ?_⟩
            · intro k q q' hm hin
              rcases (h2 _ q).1 (hlook k q hm) with hc | ⟨s, hs, hsk, hsq⟩
              · cases hc
              · exact leaf_type hq hwp (hr p hp) ha ht hs hsk hsq hin
            · intro s k hs hl
              have hsp := strip_terminal p s hs (by intro o ho; rw [hl] at ho; cases ho)
              have hk : k ∈ lks := (hlmem k).2 ⟨s, hsp, by unfold leafKey; rw [hl]⟩
              rw [← hkeys, List.mem_map] at hk
              obtain ⟨⟨k', q⟩, hm, rfl⟩ := hk
              refine ⟨q, hm, ?_⟩
              rw [wf_leaf (wf_sub hwp hsp) hl]
              exact hlook _ _ hm
            · intro s k hs hl
              have hsp := strip_terminal p s hs (by intro o ho; rw [hl] at ho; cases ho)
              have hk : k ∈ pks := (hpmem k).2 ⟨s, hsp, by unfold placeholderKey; rw [hl]⟩
              rw [hpe] at hk
              cases hk
        · rw [h1] at h; cases h
        · rw [h1] at h; cases h

/-- The compiled expression computes the value of the original one, and the types recorded for its nodes are the types of their
values. -/
theorem compile_value (hf : Faithful env S) (debug : Bool) (limit : Nat) (st : Stages) (inputTypes : List Nat → Option Q)
    (hin : ∀ k q, inputTypes k = some q → S.ty (S.leaf k) = q) (expr r : Node O V Q) (hg : Good env S expr)
    (types : Types O V Q) (used : List (List Nat × Q))
    (h : env.compile debug limit st inputTypes expr = some (.ok (r, types, used))) :
    S.val r = S.val expr ∧ (∀ s, Sub s r → ¬ HasAnno env s) ∧ ∀ m q, lookup types m = some q → S.ty (S.val m) = q := by
  unfold Env.compile at h
  cases hp : env.prepare limit st inputTypes expr with
  | none => rw [hp] at h; cases h
  | some x =>
    rw [hp] at h
    cases x with
    | error e => cases h
    | ok p =>
      dsimp only at h
      obtain ⟨hgp, hvp⟩ := prepare_value hf limit st inputTypes hin expr p hg hp
      obtain ⟨po, hpo, _⟩ := post_order p
      rw [hpo] at h
      dsimp only at h
      split at h
      · cases h
      · rcases extract_types (env := env) debug p [] with ⟨types', h1, h2⟩ | ⟨h1, _⟩ | ⟨h1, _⟩
        · rw [h1] at h
          dsimp only at h
          split at h
          · cases h
          · simp only [Option.some.injEq, Except.ok.injEq, Prod.mk.injEq] at h
            obtain ⟨rfl, rfl, rfl⟩ := h
            refine ⟨by rw [extract_value hf, hvp], fun s hs => extract_plain p s hgp.1 hs, ?_⟩
            intro m q hm
            rcases (h2 m q).1 hm with hc | ⟨s, hs, rfl, hsq⟩
            · cases hc
            · rw [extract_value hf]
              exact (good_fits hf.litTy hf.inferOk s (hgp.sub hs)).1 q hsq
        · rw [h1] at h; cases h
        · rw [h1] at h; cases h

end Verif.Prep

