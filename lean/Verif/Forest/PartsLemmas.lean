import Verif.Forest.CoreLemmas
import Mathlib.Tactic.Abel

/-!
# Lemmas: what the builders contain after the loop over the trees
-/

namespace Verif.Forest

variable {M : Type} [Semiring M]

/-- The trees of one group. -/
def ofGroup (L : List (Tree Cond M × Nat)) (g : Nat) : List (Tree Cond M) :=
  (L.filter fun p => decide (p.2 = g)).map Prod.fst

/-- The entry of every group is related to the trees of the group. -/
def GroupRel {X : Type} (R : X → List (Tree Cond M) → Prop) (G : Nat) (L : List (Tree Cond M × Nat)) (xs : List X) : Prop :=
  xs.length = G ∧ ∀ (g : Nat) (x : X), xs[g]? = some x → R x (ofGroup L g)

theorem ofGroup_append (L L' : List (Tree Cond M × Nat)) (g : Nat) : ofGroup (L ++ L') g = ofGroup L g ++ ofGroup L' g := by
  simp [ofGroup]

theorem groupRel_add {X : Type} {R : X → List (Tree Cond M) → Prop} {G : Nat} {L : List (Tree Cond M × Nat)} {xs : List X}
    (h : GroupRel R G L xs) {f : X → X} {t : Tree Cond M} (g : Nat) (hf : ∀ x ts, R x ts → R (f x) (ts ++ [t])) :
    GroupRel R G (L ++ [(t, g)]) (xs.modify g f) := by
  refine ⟨by rw [List.length_modify]; exact h.1, fun g' x hx => ?_⟩
  rw [List.getElem?_modify] at hx
  cases hy : xs[g']? with
  | none => simp [hy] at hx
  | some y =>
    simp only [hy, Option.map_eq_map, Option.map_some, Option.some.injEq] at hx
    rw [ofGroup_append]
    have := h.2 g' y hy
    by_cases hg : g = g'
    · subst hg
      simp only [if_true] at hx
      subst hx
      simpa [ofGroup] using hf y _ this
    · simp only [hg, if_false] at hx
      subst hx
      simpa [ofGroup, hg] using this

theorem groupRel_new {X : Type} {R : X → List (Tree Cond M) → Prop} (G : Nat) {x : X} (h : R x []) :
    GroupRel R G [] (List.replicate G x) := by
  refine ⟨by simp, fun g y hy => ?_⟩
  rw [List.getElem?_replicate] at hy
  split at hy
  · cases hy; exact h
  · cases hy

/-- The compiled trees. -/
def CompiledAs (cs : List (Compact Cond M × Int)) (ts : List (Tree Cond M)) : Prop :=
  cs.map (fun p => some (.ok p.1)) = ts.map (compileRegular (fun a w : M => a * w))

/-- The value of a tree without splits. -/
def constVal (t : Tree Cond M) : M := (t.adjustments[0]?).getD 0 * t.weight

def ConstsOf (m : List (Int × M)) (ts : List (Tree Cond M)) : Prop := (m.map Prod.snd).sum = (ts.map constVal).sum

theorem sum_upsert (k : Int) (v : M) : ∀ m : List (Int × M),
    ((upsert k 0 (· + v) m).map Prod.snd).sum = (m.map Prod.snd).sum + v := by
  intro m
  induction m with
  | nil => simp [upsert]
  | cons x m ih =>
    obtain ⟨k', x⟩ := x
    simp only [upsert]
    split
    · simp only [List.map_cons, List.sum_cons]; abel
    · simp only [List.map_cons, List.sum_cons, ih]; abel

/-- The trees of the single input builder of a group. -/
def SinglesOf (osig : Nat → List (Nat × QT)) (s : Singles M) (ts : List (Tree Cond M)) : Prop :=
  (s.f32.flatMap Prod.snd ++ s.i64.flatMap Prod.snd).Perm ts ∧
  (∀ e ∈ s.f32, ∀ t ∈ e.2, singleInput osig t = some (e.1, .f32)) ∧
  (∀ e ∈ s.i64, ∀ t ∈ e.2, singleInput osig t = some (e.1, .i64))

theorem upsert_trees (id : Nat) (t : Tree Cond M) : ∀ l : List (Nat × List (Tree Cond M)),
    ((upsert id [] (· ++ [t]) l).flatMap Prod.snd).Perm (l.flatMap Prod.snd ++ [t]) ∧
    ∀ P : Nat → Tree Cond M → Prop, (∀ e ∈ l, ∀ t ∈ e.2, P e.1 t) → P id t →
      ∀ e ∈ upsert id [] (· ++ [t]) l, ∀ t ∈ e.2, P e.1 t := by
  intro l
  induction l with
  | nil => simp [upsert]
  | cons x l ih =>
    obtain ⟨id', ts⟩ := x
    simp only [upsert]
    split
    · rename_i h
      subst h
      refine ⟨?_, fun P h1 h2 e he => ?_⟩
      · simp only [List.flatMap_cons, List.append_assoc]
        exact List.Perm.append_left _ List.perm_append_comm
      · simp only [List.mem_cons] at he
        rcases he with rfl | he
        · intro t' ht'
          rcases List.mem_append.1 ht' with g | g
          · exact h1 (id', ts) (by simp) t' g
          · simp only [List.mem_singleton] at g; subst g; exact h2
        · exact h1 e (by simp [he])
    · refine ⟨?_, fun P h1 h2 e he => ?_⟩
      · simp only [List.flatMap_cons, List.append_assoc]
        exact List.Perm.append_left _ ih.1
      · simp only [List.mem_cons] at he
        rcases he with rfl | he
        · exact h1 _ (by simp)
        · exact ih.2 P (fun e he => h1 e (by simp [he])) h2 e he

theorem singlesOf_add {osig : Nat → List (Nat × QT)} {s : Singles M} {ts : List (Tree Cond M)} (h : SinglesOf osig s ts)
    {t : Tree Cond M} {id : Nat} {q : QT} (hq : q.supported = true) (ht : singleInput osig t = some (id, q)) :
    SinglesOf osig (s.add id q t) (ts ++ [t]) := by
  obtain ⟨h1, h2, h3⟩ := h
  cases q with
  | f32 =>
    obtain ⟨g1, g2⟩ := upsert_trees id t s.f32
    refine ⟨?_, g2 (fun i t => singleInput osig t = some (i, .f32)) h2 ht, h3⟩
    refine (List.Perm.append_right _ g1).trans ?_
    rw [List.append_assoc]
    refine (List.Perm.append_left _ List.perm_append_comm).trans ?_
    rw [← List.append_assoc]
    exact List.Perm.append_right _ h1
  | i64 =>
    obtain ⟨g1, g2⟩ := upsert_trees id t s.i64
    refine ⟨?_, h2, g2 (fun i t => singleInput osig t = some (i, .i64)) h3 ht⟩
    refine (List.Perm.append_left _ g1).trans ?_
    rw [← List.append_assoc]
    exact List.Perm.append_right _ h1
  | other n => simp [QT.supported] at hq

/-- The state after the trees `l` with their groups. -/
structure Inv (ctx : Ctx) (G : Nat) (l : List (Tree Cond M × Nat)) (p : Parts M)
    (U I K S : List (Tree Cond M × Nat)) (ops : List (AddOp M M × Tree Cond M)) : Prop where
  sum : ∀ w : Tree Cond M × Nat → M, (l.map w).sum = (U.map w).sum + (I.map w).sum + (K.map w).sum + (S.map w).sum +
    (ops.map fun x => w (x.2, x.1.group)).sum
  mem : ∀ x, x ∈ U ∨ x ∈ I ∨ x ∈ K ∨ x ∈ S → x ∈ l
  universal : GroupRel CompiledAs G U p.universal
  interval : GroupRel CompiledAs G I p.interval
  consts : GroupRel ConstsOf G K p.consts
  const : ∀ x ∈ K, x.1.splits = []
  singles : GroupRel (SinglesOf ctx.osig) G S p.singles
  bitmask : addOps (fun a w : M => a * w) ctx.fuel (ops.map Prod.fst) {} = some p.bitmask
  ops : ∀ x ∈ ops, x.1.Ok G ∧ (∀ t g, x.1 = .small t g → t.splits.length ≤ ctx.fuel) ∧
    TreeOk x.2 ∧ ∀ env v, TreeValue env x.2 v → x.1.Value (fun a w : M => a * w) env v

/-- Some lists of trees describe the builders. -/
def HasInv (ctx : Ctx) (G : Nat) (params : Params) (l : List (Tree Cond M × Nat)) (p : Parts M) : Prop :=
  ∃ U I K S ops, Inv ctx G l p U I K S ops ∧ (params.single = false → S = [])

theorem hasInv_new (ctx : Ctx) (G : Nat) (params : Params) : HasInv ctx G params [] (newParts M G) :=
  ⟨[], [], [], [], [], ⟨by simp, by simp, groupRel_new G rfl, groupRel_new G rfl, groupRel_new G rfl, by simp,
    groupRel_new G ⟨by simp, by simp, by simp⟩, rfl, by simp⟩, fun _ => rfl⟩

/-- The outcome of adding a tree: a builder which contains it, or no evaluator is suitable. -/
def Added (ctx : Ctx) (G : Nat) (params : Params) (l : List (Tree Cond M × Nat)) (r : Option (Except FErr (Parts M))) : Prop :=
  (params.regular = false ∧ r = some (.error .noEvaluator)) ∨ ∃ p, r = some (.ok p) ∧ HasInv ctx G params l p

theorem compiledAs_add {cs : List (Compact Cond M × Int)} {ts : List (Tree Cond M)} (h : CompiledAs cs ts) {t : Tree Cond M}
    {c : Compact Cond M} (hc : compileRegular (fun a w : M => a * w) t = some (.ok c)) :
    CompiledAs (cs ++ [(c, t.tag.submodel)]) (ts ++ [t]) := by
  rw [CompiledAs, List.map_append, List.map_append, h]
  simp [hc]

theorem addRegular_inv {ctx : Ctx} {G : Nat} {params : Params} {l : List (Tree Cond M × Nat)} {p : Parts M} (h : HasInv ctx G params l p)
    {t : Tree Cond M} (ht : TreeOk t) (g : Nat) :
    ∃ p', p.addRegular t g = some (.ok p') ∧ HasInv ctx G params (l ++ [(t, g)]) p' := by
  obtain ⟨U, I, K, S, ops, h, hS⟩ := h
  obtain ⟨c, hc⟩ := (regular_compile_iff (fun a w : M => a * w) ht.toWellFormed).1.2 ht.toProper
  simp only [Parts.addRegular, hc]
  by_cases hi : onlyIntervals t = true
  · rw [if_pos hi]
    refine ⟨_, rfl, U, I ++ [(t, g)], K, S, ops, ?_, hS⟩
    refine ⟨fun w => ?_, ?_, h.universal, groupRel_add h.interval g fun x ts hx => compiledAs_add hx hc, h.consts, h.const,
      h.singles, h.bitmask, h.ops⟩
    · simp only [List.map_append, List.sum_append, h.sum w, List.map_cons, List.map_nil, List.sum_cons, List.sum_nil]; abel
    · intro x hx
      have := h.mem x
      simp only [List.mem_append, List.mem_singleton] at hx ⊢
      tauto
  · rw [if_neg hi]
    refine ⟨_, rfl, U ++ [(t, g)], I, K, S, ops, ?_, hS⟩
    refine ⟨fun w => ?_, ?_, groupRel_add h.universal g fun x ts hx => compiledAs_add hx hc, h.interval, h.consts, h.const,
      h.singles, h.bitmask, h.ops⟩
    · simp only [List.map_append, List.sum_append, h.sum w, List.map_cons, List.map_nil, List.sum_cons, List.sum_nil]; abel
    · intro x hx
      have := h.mem x
      simp only [List.mem_append, List.mem_singleton] at hx ⊢
      tauto

theorem addRegularIf_inv {ctx : Ctx} {G : Nat} (params : Params) {l : List (Tree Cond M × Nat)} {p : Parts M} (h : HasInv ctx G params l p)
    {t : Tree Cond M} (ht : TreeOk t) (g : Nat) :
    Added ctx G params (l ++ [(t, g)]) (p.addRegularIf params.regular t g) := by
  rw [Parts.addRegularIf]
  by_cases hr : params.regular = true
  · rw [if_pos hr]
    exact .inr (addRegular_inv h ht g)
  · rw [if_neg hr]
    exact .inl ⟨by simpa using hr, rfl⟩

theorem addOps_append {A : Type} (scale : A → A → M) (fuel : Nat) : ∀ (ops ops' : List (AddOp A M)) (b : BBuilder M),
    addOps scale fuel (ops ++ ops') b = (addOps scale fuel ops b).bind (addOps scale fuel ops') := by
  intro ops
  induction ops with
  | nil => intro ops' b; rfl
  | cons op ops ih =>
    intro ops' b
    cases op with
    | small t g =>
      simp only [List.cons_append, addOps]
      cases addSmallTree scale fuel b t g with
      | none => rfl
      | some b' => simp only [Option.bind_some, ih]
    | oblivious t => simp only [List.cons_append, addOps, ih]

theorem addSmallOr_inv {ctx : Ctx} {G : Nat} (params : Params) {l : List (Tree Cond M × Nat)} {p : Parts M} (h : HasInv ctx G params l p)
    {t : Tree Cond M} (ht : TreeOk t) (hf : FuelOk ctx t) {g : Nat} (hg : g < G)
    (hs : ∀ n ∈ t.splits, n.cond.supported = true) :
    Added ctx G params (l ++ [(t, g)]) (p.addSmallOr ctx params t g) := by
  rw [Parts.addSmallOr]
  split
  · rename_i hsize
    right
    obtain ⟨U, I, K, S, ops, h, hS⟩ := h
    have hop : (AddOp.small t g : AddOp M M).Ok G := ⟨hg, ht.toProper, hsize, fun n hn => ⟨hs n hn, ht.nonan n hn⟩⟩
    obtain ⟨b', hb, -⟩ := addOps_ok (fun a w : M => a * w) G ctx.fuel [.small t g] p.bitmask
      (by intro op ho; simp only [List.mem_singleton] at ho; subst ho; exact hop)
      (by intro t' g' ho; simp only [List.mem_singleton, AddOp.small.injEq] at ho; rw [ho.1]; exact Nat.le_of_lt hf.1)
    have hb' : addSmallTree (fun a w : M => a * w) ctx.fuel p.bitmask t g = some b' := by
      simp only [addOps] at hb
      cases hx : addSmallTree (fun a w : M => a * w) ctx.fuel p.bitmask t g with
      | none => simp [hx] at hb
      | some x => simp only [hx, Option.bind_some, Option.some.injEq] at hb; rw [hb]
    refine ⟨{ p with bitmask := b' }, by rw [hb']; rfl, U, I, K, S, ops ++ [(.small t g, t)], ?_, hS⟩
    refine ⟨fun w => ?_, ?_, h.universal, h.interval, h.consts, h.const, h.singles, ?_, ?_⟩
    · simp only [List.map_append, List.sum_append, h.sum w, List.map_cons, List.map_nil, List.sum_cons, List.sum_nil,
        AddOp.group]; abel
    · intro x hx; exact List.mem_append_left _ (h.mem x hx)
    · rw [List.map_append, addOps_append, h.bitmask]
      exact hb
    · intro x hx
      rcases List.mem_append.1 hx with hx | hx
      · exact h.ops x hx
      · simp only [List.mem_singleton] at hx
        subst hx
        refine ⟨hop, ?_, ht, fun env v hv => hv⟩
        intro t' g' ho
        simp only [AddOp.small.injEq] at ho
        rw [← ho.1]; exact Nat.le_of_lt hf.1
  · exact addRegularIf_inv params h ht g

theorem addBitmaskOr_inv {ctx : Ctx} {G : Nat} (params : Params) {l : List (Tree Cond M × Nat)} {p : Parts M} (h : HasInv ctx G params l p)
    {t : Tree Cond M} (ht : TreeOk t) (hf : FuelOk ctx t) {g : Nat} (hg : g < G) :
    Added ctx G params (l ++ [(t, g)]) (p.addBitmaskOr ctx params t g) := by
  rw [Parts.addBitmaskOr]
  split
  · rename_i hs
    simp only [Bool.and_eq_true, List.all_eq_true] at hs
    obtain ⟨hlt, r, hr, ho⟩ := hf
    rw [hr]
    cases r with
    | none => exact addSmallOr_inv params h ht ⟨hlt, none, hr, ho⟩ hg hs.2
    | some obl =>
      obtain ⟨h1, h2, h3⟩ := ho obl rfl
      simp only [Option.bind_some]
      rw [if_pos (by omega)]
      right
      obtain ⟨U, I, K, S, ops, h, hS⟩ := h
      refine ⟨_, rfl, U, I, K, S, ops ++ [(.oblivious ⟨g, t.tag, obl⟩, t)], ?_, hS⟩
      refine ⟨fun w => ?_, ?_, h.universal, h.interval, h.consts, h.const, h.singles, ?_, ?_⟩
      · simp only [List.map_append, List.sum_append, h.sum w, List.map_cons, List.map_nil, List.sum_cons, List.sum_nil,
          AddOp.group]; abel
      · intro x hx; exact List.mem_append_left _ (h.mem x hx)
      · rw [List.map_append, addOps_append, h.bitmask]
        rfl
      · intro x hx
        rcases List.mem_append.1 hx with hx | hx
        · exact h.ops x hx
        · simp only [List.mem_singleton] at hx
          subst hx
          have hop : (AddOp.oblivious ⟨g, t.tag, obl⟩ : AddOp M M).Ok G := by
            refine ⟨hg, h1, h2, fun c hc => ?_⟩
            obtain ⟨n, hn, rfl⟩ := toOblivious_conds hr c hc
            exact ⟨hs.2 n hn, ht.nonan n hn⟩
          exact ⟨hop, fun t' g' ho => (by cases ho), ht, h3⟩
  · exact addRegularIf_inv params h ht g

theorem addTree_inv {ctx : Ctx} {G : Nat} (params : Params) {l : List (Tree Cond M × Nat)} {p : Parts M} (h : HasInv ctx G params l p)
    {t : Tree Cond M} (ht : TreeOk t) (hf : FuelOk ctx t) {g : Nat} (hg : g < G) :
    Added ctx G params (l ++ [(t, g)]) (p.addTree ctx params t g) := by
  rw [Parts.addTree]
  split
  · rename_i hc
    simp only [Bool.and_eq_true, List.isEmpty_iff] at hc
    right
    obtain ⟨U, I, K, S, ops, h, hS⟩ := h
    have hl := ht.regions
    rw [hc.2] at hl
    have ha : t.adjustments[0]? = some t.adjustments[0] := List.getElem?_eq_getElem (by rw [hl]; simp)
    rw [ha]
    refine ⟨_, rfl, U, I, K ++ [(t, g)], S, ops, ?_, hS⟩
    refine ⟨fun w => ?_, ?_, h.universal, h.interval, groupRel_add h.consts g fun x ts hx => ?_, ?_, h.singles, h.bitmask, h.ops⟩
    · simp only [List.map_append, List.sum_append, h.sum w, List.map_cons, List.map_nil, List.sum_cons, List.sum_nil]; abel
    · intro x hx
      have := h.mem x
      simp only [List.mem_append, List.mem_singleton] at hx ⊢
      tauto
    · simp only [ConstsOf] at hx ⊢
      rw [sum_upsert, hx]
      simp [constVal, ha]
    · intro x hx
      rcases List.mem_append.1 hx with hx | hx
      · exact h.const x hx
      · simp only [List.mem_singleton] at hx; subst hx; exact hc.2
  · split
    · rename_i id q hq
      split at hq
      · right
        obtain ⟨hq1, hq2⟩ := Option.filter_eq_some_iff.1 hq
        obtain ⟨U, I, K, S, ops, h, hS⟩ := h
        refine ⟨_, rfl, U, I, K, S ++ [(t, g)], ops, ?_, fun hx => by simp_all⟩
        refine ⟨fun w => ?_, ?_, h.universal, h.interval, h.consts, h.const,
          groupRel_add h.singles g fun x ts hx => singlesOf_add hx hq2 hq1, h.bitmask, h.ops⟩
        · simp only [List.map_append, List.sum_append, h.sum w, List.map_cons, List.map_nil, List.sum_cons, List.sum_nil]; abel
        · intro x hx
          have := h.mem x
          simp only [List.mem_append, List.mem_singleton] at hx ⊢
          tauto
      · cases hq
    · exact addBitmaskOr_inv params h ht hf hg

/-- The trees which are used, with their groups. -/
def used : List (Tree Cond M) → List (Option Nat) → List (Tree Cond M × Nat)
  | t :: ts, some g :: as => (t, g) :: used ts as
  | _ :: ts, none :: as => used ts as
  | _, _ => []

theorem addTrees_inv {ctx : Ctx} {G : Nat} (params : Params) : ∀ (ts : List (Tree Cond M)) (as : List (Option Nat))
    (l : List (Tree Cond M × Nat)) (p : Parts M), HasInv ctx G params l p →
    (∀ t ∈ ts, TreeOk t ∧ FuelOk ctx t) → (∀ g, some g ∈ as → g < G) →
    Added ctx G params (l ++ used ts as) (addTrees ctx params ts as p) := by
  intro ts
  induction ts with
  | nil =>
    intro as l p h _ _
    rw [used.eq_3 _ _ (by simp) (by simp), List.append_nil]
    exact .inr ⟨p, by rw [addTrees.eq_3 _ _ _ _ _ (by simp) (by simp)], h⟩
  | cons t ts ih =>
    intro as l p h ht has
    cases as with
    | nil => exact .inr ⟨p, rfl, by rw [used.eq_3 _ _ (by simp) (by simp), List.append_nil]; exact h⟩
    | cons a as =>
      have hts : ∀ t ∈ ts, TreeOk t ∧ FuelOk ctx t := fun t h => ht t (by simp [h])
      have has' : ∀ g, some g ∈ as → g < G := fun g h => has g (by simp [h])
      cases a with
      | none =>
        rw [addTrees, used]
        exact ih as l p h hts has'
      | some g =>
        rw [addTrees, used]
        rcases addTree_inv params h (ht t (by simp)).1 (ht t (by simp)).2 (has g (by simp)) with ⟨h1, h2⟩ | ⟨p', h1, h2⟩
        · rw [h2]; exact .inl ⟨h1, rfl⟩
        · rw [h1]
          have := ih as (l ++ [(t, g)]) p' h2 hts has'
          rw [List.append_assoc] at this
          exact this

end Verif.Forest
