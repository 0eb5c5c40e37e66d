import Verif.Jagged.InterLemmas
import Verif.Jagged.ShapeLemmas

/-! The loops of `concat.h` compute `inter` and `nextGs`. -/

namespace Verif.Jagged
open Verif.Dense Verif.Edge

/-! ## Split points as partial sums -/

def psums (a : Int) : List Nat → List Int
  | [] => [a]
  | x :: xs => a :: psums (a + x) xs

theorem psums_length (a : Int) (xs : List Nat) : (psums a xs).length = xs.length + 1 := by
  induction xs generalizing a with
  | nil => rfl
  | cons x xs ih => rw [psums, List.length_cons, ih, List.length_cons]

theorem psums_get (a : Int) (xs : List Nat) (p : Nat) (h : p ≤ xs.length) :
    (psums a xs)[p]? = some (a + ((xs.take p).sum : Nat)) := by
  induction xs generalizing a p with
  | nil =>
    have : p = 0 := by simpa using h
    subst this
    simp [psums]
  | cons x xs ih =>
    cases p with
    | zero => simp [psums]
    | succ p =>
      rw [psums, List.getElem?_cons_succ, ih _ _ (by simpa using h), List.take_succ_cons, List.sum_cons]
      congr 1
      push_cast
      omega

theorem psums_cons (a : Int) (xs : List Nat) : ∃ t, psums a xs = a :: t := by
  cases xs with
  | nil => exact ⟨_, rfl⟩
  | cons x xs => exact ⟨_, rfl⟩

theorem psums_diffs (a : Int) (xs : List Nat) :
    List.zipWith (fun a b => (b - a).toNat) (psums a xs) (psums a xs).tail = xs := by
  induction xs generalizing a with
  | nil => rfl
  | cons x xs ih =>
    have := ih (a + x)
    obtain ⟨t, ht⟩ := psums_cons (a + x) xs
    rw [psums, List.tail_cons]
    rw [ht] at this ⊢
    rw [List.zipWith_cons_cons]
    rw [List.tail_cons] at this
    rw [this]
    congr 1
    omega

theorem psums_last (a : Int) (xs : List Nat) : (psums a xs).getLast? = some (a + (xs.sum : Nat)) := by
  rw [List.getLast?_eq_getElem?, psums_length, Nat.add_sub_cancel, psums_get _ _ _ (Nat.le_refl _),
    List.take_length]

theorem psums_ge (a : Int) (xs : List Nat) : ∀ y ∈ psums a xs, a ≤ y := by
  induction xs generalizing a with
  | nil => intro y hy; simp [psums] at hy; omega
  | cons x xs ih =>
    intro y hy
    rcases List.mem_cons.1 hy with rfl | hy
    · exact Int.le_refl _
    · have := ih _ y hy; omega

theorem psums_pairwise (a : Int) (xs : List Nat) : (psums a xs).Pairwise (· ≤ ·) := by
  induction xs generalizing a with
  | nil => simp [psums]
  | cons x xs ih =>
    rw [psums, List.pairwise_cons]
    exact ⟨fun y hy => by have := psums_ge _ _ y hy; omega, ih _⟩

theorem psums_sp (xs : List Nat) : SP (psums 0 xs) := by
  refine ⟨?_, psums_pairwise _ _⟩
  cases xs <;> rfl

theorem psums_of_sorted : ∀ (sp : List Int) (a : Int), (a :: sp).Pairwise (· ≤ ·) →
    a :: sp = psums a (List.zipWith (fun a b => (b - a).toNat) (a :: sp) sp) := by
  intro sp
  induction sp with
  | nil => intro a _; rfl
  | cons b sp ih =>
    intro a h
    rw [List.pairwise_cons] at h
    have h1 := h.1 b (by simp)
    rw [List.zipWith_cons_cons, psums, show a + ((b - a).toNat : Int) = b by omega, ← ih b h.2]

theorem values_psums {e : Edge} (hw : WF e) (ht : e.typ = .splitPoints) :
    e.values.values = psums 0 (sizes e) := by
  obtain ⟨_, _, ⟨h1, h2⟩, _, _⟩ := (wf_split_iff ht).1 hw
  unfold sizes
  cases hv : e.values.values with
  | nil => rw [hv] at h1; simp at h1
  | cons a sp =>
    rw [hv] at h1 h2
    have : a = 0 := by simpa using h1
    subst this
    rw [List.tail_cons]
    exact psums_of_sorted sp 0 h2

theorem sizes_length {e : Edge} (hw : WF e) (ht : e.typ = .splitPoints) :
    ((sizes e).length : Int) = e.parentSize := by
  obtain ⟨_, _, _, h4, _⟩ := (wf_split_iff ht).1 hw
  rw [values_psums hw ht, psums_length] at h4
  omega

theorem sizes_sum {e : Edge} (hw : WF e) (ht : e.typ = .splitPoints) :
    ((sizes e).sum : Int) = e.childSize := by
  obtain ⟨_, _, _, _, h5⟩ := (wf_split_iff ht).1 hw
  rw [values_psums hw ht, psums_last] at h5
  have := Option.some.inj h5
  omega

theorem sameEdge_sizes {a b : Edge} (ha : WF a) (hb : WF b) (ta : a.typ = .splitPoints)
    (tb : b.typ = .splitPoints) (h : SameEdge a b) : sizes a = sizes b := by
  obtain ⟨_, a2, a3, a4, a5⟩ := (wf_split_iff ta).1 ha
  obtain ⟨_, b2, b3, b4, b5⟩ := (wf_split_iff tb).1 hb
  have : a.values.values = b.values.values := by
    refine srel_inj a3 b3 ?_ a5 (by rw [b5, h.2.1]) ?_
    · have := h.1; omega
    · intro c p
      rw [← rel_split_iff ta a2, ← rel_split_iff tb b2]
      exact h.2.2 c p
  unfold sizes
  rw [this]

/-- The edge with the given row sizes. -/
def mkEdge (xs : List Nat) : Edge := ⟨.splitPoints, xs.length, xs.sum, ⟨psums 0 xs, [], 0⟩⟩

theorem mkEdge_wf (xs : List Nat) : WF (mkEdge xs) := by
  rw [wf_split_iff rfl]
  refine ⟨valid_nobitmap _, elems_nobitmap _, psums_sp xs, ?_, ?_⟩
  · simp [mkEdge, psums_length]
  · simp [mkEdge, psums_last]

theorem mkEdge_sizes (xs : List Nat) : sizes (mkEdge xs) = xs := psums_diffs 0 xs

theorem mkEdge_rel (xs : List Nat) (c p : Nat) : Rel (mkEdge xs) c p ↔
    p < xs.length ∧ (xs.take p).sum ≤ c ∧ c < (xs.take (p + 1)).sum := by
  rw [rel_split_iff rfl (elems_nobitmap _)]
  unfold SRel mkEdge
  dsimp only
  constructor
  · rintro ⟨a, b, h1, h2, h3, h4⟩
    have hl : p + 1 < (psums 0 xs).length := (List.getElem?_eq_some_iff.1 h2).1
    rw [psums_length] at hl
    rw [psums_get _ _ _ (by omega)] at h1 h2
    have h1 := Option.some.inj h1
    have h2 := Option.some.inj h2
    omega
  · rintro ⟨h1, h2, h3⟩
    refine ⟨_, _, psums_get _ _ _ (by omega), psums_get _ _ _ (by omega), by omega, by omega⟩

/-- C27 specification check: the sizes of an edge describe its relation. -/
theorem sizes_rel {e : Edge} (hw : WF e) (ht : e.typ = .splitPoints) (c p : Nat) : Rel e c p ↔
    p < (sizes e).length ∧ ((sizes e).take p).sum ≤ c ∧ c < ((sizes e).take (p + 1)).sum := by
  obtain ⟨_, h2, _, _, _⟩ := (wf_split_iff ht).1 hw
  rw [← mkEdge_rel, rel_split_iff ht h2, rel_split_iff rfl (elems_nobitmap _), values_psums hw ht]
  rfl

theorem uniform_sizes {n g : Nat} {e : Edge} (hw : WF e) (ht : e.typ = .splitPoints)
    (hp : e.parentSize = n) (hc : e.childSize = (n : Int) * g)
    (hr : ∀ c p, Rel e c p ↔ ((p : Int) < n ∧ p * g ≤ (c : Int) ∧ (c : Int) < p * g + g)) :
    sizes e = List.replicate n g := by
  rw [← mkEdge_sizes (List.replicate n g)]
  refine sameEdge_sizes hw (mkEdge_wf _) ht rfl ⟨?_, ?_, ?_⟩
  · rw [hp]; simp [mkEdge]
  · rw [hc]; simp [mkEdge, List.sum_replicate_nat]
  · intro c p
    rw [hr, mkEdge_rel, List.length_replicate]
    constructor
    · rintro ⟨h1, h2, h3⟩
      have h1' : p < n := by omega
      refine ⟨h1', ?_, ?_⟩
      · rw [List.take_replicate, List.sum_replicate_nat, Nat.min_eq_left (by omega)]
        exact_mod_cast h2
      · rw [List.take_replicate, List.sum_replicate_nat, Nat.min_eq_left (by omega), Nat.succ_mul]
        exact_mod_cast h3
    · rintro ⟨h1, h2, h3⟩
      rw [List.take_replicate, List.sum_replicate_nat, Nat.min_eq_left (by omega)] at h2 h3
      rw [Nat.succ_mul] at h3
      exact ⟨by omega, by exact_mod_cast h2, by exact_mod_cast h3⟩

/-! ## The loops -/

def C (l : List Nat) : List Int := l.map (fun (n : Nat) => (n : Int))

theorem C_append (a b : List Nat) : C (a ++ b) = C a ++ C b := List.map_append
theorem C_cons (a : Nat) (b : List Nat) : C (a :: b) = (a : Int) :: C b := rfl
theorem C_length (a : List Nat) : (C a).length = a.length := List.length_map _
theorem C_sum (a : List Nat) : (C a).sum = (a.sum : Nat) := by
  induction a with
  | nil => rfl
  | cons x a ih => rw [C_cons, List.sum_cons, ih, List.sum_cons]; push_cast; rfl

def Good (e : Edge) : Prop := WF e ∧ e.typ = .splitPoints

theorem splitSize_spec {e : Edge} (h : Good e) {i : Nat} (hi : i < (sizes e).length) :
    splitSize e i = some ((sizes e)[i] : Int) := by
  unfold splitSize
  rw [values_psums h.1 h.2, psums_get _ _ _ (by omega), psums_get _ _ _ (by omega)]
  simp only [Option.bind_eq_bind, Option.bind_some]
  rw [List.take_succ, List.getElem?_eq_getElem hi, Option.toList_some, List.sum_append, List.sum_singleton]
  congr 1
  push_cast
  omega

theorem takeSplits_spec {e : Edge} (h : Good e) : ∀ (n pos : Nat), pos + n ≤ (sizes e).length →
    takeSplits e pos n = some (C (((sizes e).drop pos).take n)) := by
  intro n
  induction n with
  | zero => intro pos _; simp [takeSplits, C]
  | succ n ih =>
    intro pos hn
    rw [takeSplits, splitSize_spec h (by omega), ih (pos + 1) (by omega)]
    simp only [Option.bind_eq_bind, Option.bind_some]
    rw [List.drop_eq_getElem_cons (show pos < (sizes e).length by omega), List.take_succ_cons, C_cons]

def stS (st : List (Edge × Nat)) : List (List Nat) := st.map (fun x => (sizes x.1).drop x.2)

theorem shapeLoop_spec : ∀ (st : List (Edge × Nat)) (row : List Nat) (rest : List Int),
    (∀ x ∈ st, Good x.1) → List.Forall₂ (fun g (x : List Nat) => g ≤ x.length) row (stS st) →
    ∃ st', shapeLoop st (C row ++ rest) = some (C (rowCat row (stS st)), C (rowSum row (stS st)), st', rest) ∧
      stS st' = rowDrop row (stS st) ∧ ∀ x ∈ st', Good x.1 := by
  intro st
  induction st with
  | nil =>
    intro row rest _ h
    cases h
    exact ⟨[], rfl, rfl, by simp⟩
  | cons x st ih =>
    intro row rest hg h
    obtain ⟨e, pos⟩ := x
    have hs : stS ((e, pos) :: st) = (sizes e).drop pos :: stS st := rfl
    rw [hs] at h ⊢
    cases h with
    | @cons g _ row _ h1 h2 =>
      obtain ⟨st', r1, r2, r3⟩ := ih row rest (fun x hx => hg x (by simp [hx])) h2
      rw [C_cons, List.cons_append, shapeLoop, Int.toNat_natCast]
      have ht : takeSplits e pos g = some (C (((sizes e).drop pos).take g)) := by
        by_cases hg0 : g = 0
        · subst hg0; simp [takeSplits, C]
        · exact takeSplits_spec (e := e) (hg (e, pos) (by simp)) g pos (by rw [List.length_drop] at h1; omega)
      rw [ht, r1]
      simp only [Option.bind_eq_bind, Option.bind_some]
      refine ⟨(e, pos + g) :: st', ?_, ?_, ?_⟩
      · rw [rowCat, rowSum, C_append, C_cons, C_sum]
      · rw [rowDrop, ← r2, List.drop_drop]; rfl
      · intro x hx
        rcases List.mem_cons.1 hx with rfl | hx
        · exact hg (e, pos) (by simp)
        · exact r3 x hx

theorem groupLoop_spec (ic : Bool) : ∀ (gs : List (List Nat)) (st : List (Edge × Nat)),
    (∀ x ∈ st, Good x.1) → Fit gs (stS st) →
    groupLoop ic gs.length st (C gs.flatten) =
      some (C (if ic then (nextGs gs (stS st)).map List.sum else inter gs (stS st)),
        C (nextGs gs (stS st)).flatten) := by
  intro gs
  induction gs with
  | nil => intro st _ _; cases ic <;> rfl
  | cons row gs ih =>
    intro st hg h
    obtain ⟨st', r1, r2, r3⟩ := shapeLoop_spec st row (C gs.flatten) hg h.1
    rw [List.length_cons, groupLoop, List.flatten_cons, C_append, r1]
    simp only [Option.bind_eq_bind, Option.bind_some]
    rw [ih st' r3 (by rw [r2]; exact h.2), r2]
    simp only [Option.bind_some]
    rw [nextGs, List.flatten_cons, C_append, inter]
    cases ic with
    | false => simp only [Bool.false_eq_true, if_false]; rw [C_append]
    | true => simp only [if_true]; rw [List.map_cons, C_cons, C_sum]; rfl

theorem splitsFrom_spec : ∀ (xs : List Nat) (acc : Int), acc + (xs.sum : Nat) ≤ maxI64 →
    ∃ t, splitsFrom acc (C xs) = some t ∧ acc :: t = psums acc xs := by
  intro xs
  induction xs with
  | nil => intro acc _; exact ⟨[], rfl, rfl⟩
  | cons x xs ih =>
    intro acc h
    rw [List.sum_cons] at h
    push_cast at h
    obtain ⟨t, t1, t2⟩ := ih (acc + x) (by omega)
    refine ⟨(acc + x) :: t, ?_, ?_⟩
    · rw [C_cons, splitsFrom, if_pos (by omega), t1]; rfl
    · rw [t2]; rfl

theorem buildSuffixEdge_spec {shapes : List Shape} {dim : Nat} {es : List Edge}
    (hes : shapes.mapM (fun s => s[dim]?) = some es) (hg : ∀ e ∈ es, Good e) {gs : List (List Nat)}
    (hf : Fit gs (es.map sizes)) {ps : Int} (ic : Bool)
    (hps : ps = if ic then (gs.length : Int) else (gs.flatten.sum : Nat))
    (hb : ((es.map (fun e => (sizes e).sum)).sum : Nat) ≤ maxI64) :
    buildSuffixEdge shapes dim (C gs.flatten) gs.length ps ic =
      some (mkEdge (if ic then (nextGs gs (es.map sizes)).map List.sum else inter gs (es.map sizes)),
        C (nextGs gs (es.map sizes)).flatten) := by
  have hst : stS (es.map (fun e => (e, 0))) = es.map sizes := by
    unfold stS; rw [List.map_map]; rfl
  unfold buildSuffixEdge
  rw [hes]
  simp only [Option.bind_eq_bind, Option.bind_some]
  rw [groupLoop_spec ic gs _ (by
    intro x hx
    obtain ⟨e, h1, rfl⟩ := List.mem_map.1 hx
    exact hg e h1) (by rw [hst]; exact hf), hst]
  simp only [Option.bind_some]
  have htot := inter_total gs _ hf
  rw [List.map_map] at htot
  have hsum : (if ic then (nextGs gs (es.map sizes)).map List.sum else inter gs (es.map sizes)).sum =
      (inter gs (es.map sizes)).sum := by
    cases ic with
    | false => rfl
    | true => simp only [if_true]; rw [map_sum_sum, nextGs_sum]
  have hlen : ((C (if ic then (nextGs gs (es.map sizes)).map List.sum else inter gs (es.map sizes))).length : Int)
      = ps := by
    rw [hps, C_length]
    cases ic with
    | false =>
      simp only [Bool.false_eq_true, if_false]
      rw [(inter_length gs _ hf).1]
    | true => simp only [if_true]; rw [List.length_map, nextGs_length]
  rw [if_neg (by simpa using hlen)]
  obtain ⟨t, t1, t2⟩ := splitsFrom_spec
    (if ic then (nextGs gs (es.map sizes)).map List.sum else inter gs (es.map sizes)) 0 (by
      rw [hsum, htot, Int.zero_add]; exact hb)
  rw [t1]
  simp only [Option.bind_some]
  rw [t2]
  unfold unsafeFromSplitPoints
  dsimp only
  rw [psums_last]
  simp only [Option.bind_eq_bind, Option.bind_some, DArr.size, psums_length]
  congr 2
  unfold mkEdge
  congr 1
  · push_cast; omega
  · omega

/-! ## Levels of several shapes -/

def lvls (ss : List Shape) : Nat → Nat → List (List (List Nat))
  | _, 0 => []
  | d, n + 1 => ss.map (fun s => ((s.map sizes)[d]?).getD []) :: lvls ss (d + 1) n

variable {β : Type}

theorem zipWith_same {A B D E : Type} (f : B → D → E) (g : A → B) (h : A → D) (l : List A) :
    List.zipWith f (l.map g) (l.map h) = l.map (fun x => f (g x) (h x)) := by
  induction l with
  | nil => rfl
  | cons x l ih => rw [List.map_cons, List.map_cons, List.zipWith_cons_cons, ih, List.map_cons]

theorem drop_levels {s : Shape} {d : Nat} (h : d < s.length) :
    (s.map sizes).drop d = ((s.map sizes)[d]?).getD [] :: (s.map sizes).drop (d + 1) := by
  have h' : d < (s.map sizes).length := by rw [List.length_map]; exact h
  rw [List.drop_eq_getElem_cons h', List.getElem?_eq_getElem h']
  rfl

theorem forests_eq (zs : List (Shape × List β)) : ∀ (n d : Nat), (∀ z ∈ zs, z.1.length = d + n) →
    forests (lvls (zs.map Prod.fst) d n) (zs.map Prod.snd) =
      zs.map (fun z => forest ((z.1.map sizes).drop d) z.2) := by
  intro n
  induction n with
  | zero =>
    intro d h
    rw [lvls, forests, List.map_map]
    apply List.map_congr_left
    intro z hz
    rw [List.drop_eq_nil_of_le (by rw [List.length_map, h z hz]; omega)]
    rfl
  | succ n ih =>
    intro d h
    rw [lvls, forests, ih (d + 1) (by intro z hz; rw [h z hz]; omega), List.map_map, zipWith_same,
      List.map_map]
    apply List.map_congr_left
    intro z hz
    rw [drop_levels (by rw [h z hz]; omega)]
    rfl

theorem linked_chn : ∀ (s : List Edge) (n : Int), 0 ≤ n → Linked n s → (∀ e ∈ s, Good e) →
    Chn n.toNat (s.map sizes) (endSize n s).toNat := by
  intro s
  induction s with
  | nil => intro n _ _ _; rfl
  | cons e s ih =>
    intro n hn hl hg
    have h1 := sizes_length (hg e (by simp)).1 (hg e (by simp)).2
    have h2 := sizes_sum (hg e (by simp)).1 (hg e (by simp)).2
    have hl1 : e.parentSize = n := hl.1
    rw [List.map_cons, endSize_cons]
    refine ⟨by omega, ?_⟩
    have := ih e.childSize (by omega) hl.2 (fun x hx => hg x (by simp [hx]))
    rwa [show (sizes e).sum = e.childSize.toNat by omega]

theorem shape_chn {s : Shape} (h : ShapeOk s) : Chn 1 (s.map sizes) (size s).toNat :=
  linked_chn s 1 (by decide) h.1 h.2

theorem forest_drop_length {s : Shape} (h : ShapeOk s) {xs : List β} (hx : (xs.length : Int) = size s)
    {d : Nat} (hd : d ≤ s.length) : ((forest ((s.map sizes).drop d) xs).length : Int) = rows s d := by
  have hp := shapeOk_parts h d d (Nat.le_refl _)
  have hg : ∀ e ∈ s.drop d, Good e := fun e he => h.2 e (List.mem_of_mem_drop he)
  have hnn : 0 ≤ endSize 1 (s.take d) :=
    endSize_nonneg _ _ (by decide) (fun e he => (h.2 e (List.mem_of_mem_take he)).1)
  have hc := linked_chn _ _ hnn hp.2.2.1 hg
  rw [← endSize_append, List.take_append_drop, ← size_eq s, ← hx, Int.toNat_natCast] at hc
  rw [← List.map_drop, forest_length _ _ _ hc, rows_eq hd]
  omega

theorem level_sum {s : Shape} (h : ShapeOk s) {d : Nat} (hd : d < s.length) :
    (((((s.map sizes)[d]?).getD []).sum : Nat) : Int) = rows s (d + 1) := by
  have hg := h.2 s[d] (List.getElem_mem hd)
  unfold rows
  dsimp only
  rw [List.getElem?_map, List.getElem?_eq_getElem hd]
  simp only [Option.map_some, Option.getD_some]
  exact sizes_sum hg.1 hg.2

theorem level_length {s : Shape} (h : ShapeOk s) {d : Nat} (hd : d < s.length) :
    (((((s.map sizes)[d]?).getD []).length : Nat) : Int) = rows s d := by
  have hg := h.2 s[d] (List.getElem_mem hd)
  rw [List.getElem?_map, List.getElem?_eq_getElem hd]
  simp only [Option.map_some, Option.getD_some]
  rw [sizes_length hg.1 hg.2, rows_eq (by omega)]
  have hp := (shapeOk_parts h d d (Nat.le_refl _)).2.2.1
  rw [List.drop_eq_getElem_cons hd] at hp
  exact hp.1

theorem aligned_of {A : Type} (f : A → List Nat) (g : A → List β) (zs : List A)
    (h : ∀ z ∈ zs, (g z).length = (f z).sum) : Aligned (zs.map f) (zs.map g) := by
  induction zs with
  | nil => exact .nil
  | cons z zs ih => exact .cons (h z (by simp)) (ih (fun x hx => h x (by simp [hx])))

/-- The inputs: valid shapes of one rank with values of the right number. -/
def Inputs (r : Nat) (zs : List (Shape × List β)) : Prop :=
  ∀ z ∈ zs, ShapeOk z.1 ∧ z.1.length = r ∧ (z.2.length : Int) = size z.1

theorem aligned_lvls {r : Nat} {zs : List (Shape × List β)} (hz : Inputs r zs) : ∀ (n d : Nat), d + n = r →
    AlignedAll (lvls (zs.map Prod.fst) d n) (zs.map Prod.snd) := by
  intro n
  induction n with
  | zero => intro d _; exact trivial
  | succ n ih =>
    intro d hd
    refine ⟨?_, ih (d + 1) (by omega)⟩
    rw [forests_eq zs n (d + 1) (fun z hz' => by rw [(hz z hz').2.1]; omega), List.map_map]
    apply aligned_of
    intro z hz'
    obtain ⟨h1, h2, h3⟩ := hz z hz'
    have e1 := forest_drop_length h1 h3 (show d + 1 ≤ z.1.length by omega)
    have e2 := level_sum h1 (show d < z.1.length by omega)
    simp only [Function.comp_apply]
    omega

theorem fit_congr {γ : Type} : ∀ (gs : List (List Nat)) (Xs : List (List β)) (Ys : List (List γ)),
    Xs.map List.length = Ys.map List.length → Fit gs Xs → Fit gs Ys := by
  intro gs
  induction gs with
  | nil =>
    intro Xs Ys h hf y hy
    have : y.length ∈ Xs.map List.length := by rw [h]; exact List.mem_map_of_mem hy
    obtain ⟨x, h1, h2⟩ := List.mem_map.1 this
    rw [← h2]
    exact hf x h1
  | cons row gs ih =>
    intro Xs Ys h hf
    refine ⟨?_, ih (rowDrop row Xs) (rowDrop row Ys) ?_ hf.2⟩
    · replace hf := hf.1
      clear ih
      induction hf generalizing Ys with
      | nil =>
        have : Ys = [] := by simpa using h.symm
        subst this
        exact .nil
      | cons h1 _ ihf =>
        cases Ys with
        | nil => simp at h
        | cons Y Ys =>
          simp only [List.map_cons, List.cons.injEq] at h
          exact .cons (by omega) (ihf Ys h.2)
    · clear ih hf
      induction row generalizing Xs Ys with
      | nil => rfl
      | cons g row ihr =>
        cases Xs with
        | nil =>
          have : Ys = [] := by simpa using h.symm
          subst this
          rfl
        | cons X Xs =>
          cases Ys with
          | nil => simp at h
          | cons Y Ys =>
            simp only [List.map_cons, List.cons.injEq] at h
            simp only [rowDrop, List.map_cons, List.length_drop, h.1, ihr Xs Ys h.2]

theorem mapM_get {ss : List Shape} {d : Nat} (h : ∀ s ∈ ss, d < s.length) :
    ∃ es, ss.mapM (fun s => s[d]?) = some es ∧ es.map sizes = ss.map (fun s => ((s.map sizes)[d]?).getD []) ∧
      ∀ e ∈ es, ∃ s ∈ ss, e ∈ s := by
  induction ss with
  | nil => exact ⟨[], rfl, rfl, by simp⟩
  | cons s ss ih =>
    obtain ⟨es, h1, h2, h3⟩ := ih (fun x hx => h x (by simp [hx]))
    have hd := h s (by simp)
    refine ⟨s[d] :: es, ?_, ?_, ?_⟩
    · rw [List.mapM_cons, List.getElem?_eq_getElem hd, h1]; rfl
    · rw [List.map_cons, List.map_cons, h2, List.getElem?_map, List.getElem?_eq_getElem hd]; rfl
    · intro e he
      rcases List.mem_cons.1 he with rfl | he
      · exact ⟨s, by simp, List.getElem_mem hd⟩
      · obtain ⟨s', h4, h5⟩ := h3 e he
        exact ⟨s', by simp [h4], h5⟩

theorem size_append (es : List Edge) (e : Edge) : size (es ++ [e]) = e.childSize := by
  rw [size_eq, endSize_append]; rfl

theorem rows_sum {r : Nat} {zs : List (Shape × List β)} (hz : Inputs r zs) {d : Nat} (hd : d < r) :
    ((((zs.map Prod.fst).map (fun s => ((s.map sizes)[d]?).getD [])).map List.sum).sum : Nat) =
      ((zs.map Prod.fst).map (fun s => rows s (d + 1))).sum := by
  induction zs with
  | nil => rfl
  | cons z zs ih =>
    obtain ⟨h1, h2, _⟩ := hz z (by simp)
    have := level_sum h1 (show d < z.1.length by omega)
    simp only [List.map_cons, List.sum_cons]
    push_cast
    rw [ih (fun x hx => hz x (by simp [hx])), this]

/-- A suffix dimension other than the concatenation dimension. -/
theorem suffix_edge {r : Nat} {zs : List (Shape × List β)} (hz : Inputs r zs) {d n : Nat} (hd : d + (n + 1) = r)
    {gs : List (List Nat)} (ic : Bool) {ps : Int}
    (hps : ps = if ic then (gs.length : Int) else (gs.flatten.sum : Nat))
    (hb : ∀ k, d ≤ k → ((zs.map Prod.fst).map (fun s => rows s (k + 1))).sum ≤ maxI64)
    (hf : Fit gs (forests (lvls (zs.map Prod.fst) d (n + 1)) (zs.map Prod.snd))) :
    let S := (zs.map Prod.fst).map (fun s => ((s.map sizes)[d]?).getD [])
    buildSuffixEdge (zs.map Prod.fst) d (C gs.flatten) gs.length ps ic =
      some (mkEdge (if ic then (nextGs gs S).map List.sum else inter gs S), C (nextGs gs S).flatten) ∧
    Fit gs S ∧ Fit (nextGs gs S) (forests (lvls (zs.map Prod.fst) (d + 1) n) (zs.map Prod.snd)) := by
  intro S
  have hlt : ∀ s ∈ zs.map Prod.fst, d < s.length := by
    intro s hs
    obtain ⟨z, h1, rfl⟩ := List.mem_map.1 hs
    rw [(hz z h1).2.1]; omega
  obtain ⟨es, e1, e2, e3⟩ := mapM_get hlt
  have hal := aligned_lvls hz (n + 1) d hd
  have hfS : Fit gs S := by
    refine fit_congr gs _ S ?_ hf
    rw [lvls, forests, List.map_map]
    have hl : S.length = (forests (lvls (zs.map Prod.fst) (d + 1) n) (zs.map Prod.snd)).length :=
      hal.1.length_eq
    apply List.ext_getElem
    · rw [List.length_map, List.length_map, List.length_zipWith]
      show min S.length _ = _
      omega
    · intro i h1 h2
      simp only [S, List.getElem_map, List.getElem_zipWith, Function.comp_apply, List.length_map, chunk_length]
  refine ⟨?_, hfS, fit_next _ _ _ hal.1 hfS⟩
  have := buildSuffixEdge_spec e1 (by
    intro e he
    obtain ⟨s, s1, s2⟩ := e3 e he
    obtain ⟨z, h1, rfl⟩ := List.mem_map.1 s1
    exact (hz z h1).1.2 e s2) (gs := gs) (by rw [e2]; exact hfS) ic hps (by
      have h1 := hb d (Nat.le_refl _)
      rw [← rows_sum hz (by omega)] at h1
      have h2 : es.map (fun e => (sizes e).sum) = (es.map sizes).map List.sum := by
        rw [List.map_map]; rfl
      rw [h2, e2]
      exact h1)
  rw [e2] at this
  exact this

theorem suffixLoop_spec {r : Nat} {zs : List (Shape × List β)} (hz : Inputs r zs) (insert : Bool) (dim : Nat) :
    ∀ (n d : Nat) (gs : List (List Nat)) (es : List Edge), d + n = r → (insert = true ∨ dim < d) →
    size es = (gs.flatten.sum : Nat) →
    (∀ k, d ≤ k → ((zs.map Prod.fst).map (fun s => rows s (k + 1))).sum ≤ maxI64) →
    Fit gs (forests (lvls (zs.map Prod.fst) d n) (zs.map Prod.snd)) →
    ∃ new, suffixLoop (zs.map Prod.fst) gs.length insert dim n d es (C gs.flatten) =
        some (es ++ new, C (finalGs gs (lvls (zs.map Prod.fst) d n)).flatten) ∧
      new.map sizes = resLevels gs (lvls (zs.map Prod.fst) d n) ∧ Linked (size es) new ∧
      (∀ e ∈ new, Good e) ∧ Fit (finalGs gs (lvls (zs.map Prod.fst) d n)) (zs.map Prod.snd) ∧
      (finalGs gs (lvls (zs.map Prod.fst) d n)).length = gs.length ∧
      endSize (size es) new = ((finalGs gs (lvls (zs.map Prod.fst) d n)).flatten.sum : Nat) := by
  intro n
  induction n with
  | zero =>
    intro d gs es _ _ hps _ hf
    refine ⟨[], by rw [List.append_nil]; rfl, rfl, trivial, by simp, ?_, rfl, hps⟩
    rw [lvls, forests] at hf
    refine fit_congr _ _ _ ?_ hf
    rw [List.map_map]
    apply List.map_congr_left
    intro x _
    simp
  | succ n ih =>
    intro d gs es hd hi hps hb hf
    have hic : (!insert && d == dim) = false := by
      rcases hi with rfl | h
      · rfl
      · have : (d == dim) = false := by simp; omega
        rw [this, Bool.and_false]
    obtain ⟨b1, b2, b3⟩ := suffix_edge hz hd false (ps := size es) hps hb hf
    simp only [Bool.false_eq_true, if_false] at b1
    rw [suffixLoop, hic, b1]
    simp only [Option.bind_eq_bind, Option.bind_some]
    have hchild : size (es ++ [mkEdge (inter gs ((zs.map Prod.fst).map (fun s => ((s.map sizes)[d]?).getD [])))])
        = ((nextGs gs ((zs.map Prod.fst).map (fun s => ((s.map sizes)[d]?).getD []))).flatten.sum : Nat) := by
      rw [size_append, nextGs_sum]; rfl
    obtain ⟨new, n1, n2, n3, n4, n5, n6, n7⟩ := ih (d + 1) _ _ (by omega) (by rcases hi with h | h <;> [exact Or.inl h; (right; omega)])
      hchild (fun k hk => hb k (by omega)) b3
    rw [nextGs_length] at n1 n6
    refine ⟨mkEdge (inter gs ((zs.map Prod.fst).map (fun s => ((s.map sizes)[d]?).getD []))) :: new, ?_, ?_,
      ⟨?_, ?_⟩, ?_, n5, n6, ?_⟩
    · rw [n1, List.append_assoc]; rfl
    · rw [List.map_cons, n2, mkEdge_sizes]; rfl
    · rw [hps, ← (inter_length _ _ b2).1]; rfl
    · rw [size_append] at n3; exact n3
    · intro e he
      rcases List.mem_cons.1 he with rfl | he
      · exact ⟨mkEdge_wf _, rfl⟩
      · exact n4 e he
    · rw [endSize_cons, ← size_append es, n7]; rfl

/-! ## Shapes -/

theorem zipRows_single (f : List (Tree β) → Tree β) {A : Type} (g : A → List (Tree β)) (l : List A) (hne : l ≠ [])
    (h : ∀ x ∈ l, (g x).length = 1) :
    zipRows f (l.map g) = [f (l.map (fun x => (g x).headD (.node [])))] := by
  rw [zipRows_succ (n := 0) f (by simpa using hne) (by
    intro G hG
    obtain ⟨x, h1, rfl⟩ := List.mem_map.1 hG
    exact h x h1), zipRows_nil]
  · congr 2
    rw [List.filterMap_map]
    clear hne
    induction l with
    | nil => rfl
    | cons x l ih =>
      have hx := h x (by simp)
      rw [List.filterMap_cons, List.map_cons, ih (fun y hy => h y (by simp [hy]))]
      simp only [Function.comp_apply]
      cases hg : g x with
      | nil => rw [hg] at hx; simp at hx
      | cons a t => rfl
  · intro G hG
    rw [List.map_map] at hG
    obtain ⟨x, h1, rfl⟩ := List.mem_map.1 hG
    simp [h x h1]

theorem samePrefix_sizes {s t : Shape} (h : SameShape s t) (hs : ∀ e ∈ s, Good e) (ht : ∀ e ∈ t, Good e) :
    s.map sizes = t.map sizes := by
  unfold SameShape at h
  induction h with
  | nil => rfl
  | @cons a b s t h1 _ ih =>
    rw [List.map_cons, List.map_cons, ih (fun e he => hs e (by simp [he])) (fun e he => ht e (by simp [he])),
      sameEdge_sizes (hs a (by simp)).1 (ht b (by simp)).1 (hs a (by simp)).2 (ht b (by simp)).2 h1]

theorem checkShapes_spec (mem : Nat → Int) {first : Shape} {dim : Nat} (hd : dim ≤ first.length)
    (hf : ShapeOk first) : ∀ (ss : List Shape), (∀ s ∈ ss, ShapeOk s) →
    ((∀ s ∈ ss, s.length = first.length ∧ SameShape (first.take dim) (s.take dim)) →
      checkShapes mem first dim ss = some (.ok ())) ∧
    (¬ (∀ s ∈ ss, s.length = first.length ∧ SameShape (first.take dim) (s.take dim)) →
      ∃ m, checkShapes mem first dim ss = some (.error m)) := by
  intro ss
  induction ss with
  | nil => intro _; exact ⟨fun _ => rfl, fun h => absurd (by simp) h⟩
  | cons s ss ih =>
    intro hs
    obtain ⟨i1, i2⟩ := ih (fun x hx => hs x (by simp [hx]))
    rw [checkShapes]
    by_cases hl : s.length = first.length
    · rw [if_neg (by simpa using hl)]
      have htl : (first.take dim).length = dim := by rw [List.length_take]; omega
      obtain ⟨r, r1, r2⟩ := edgesLoop_spec mem (first.take dim) s
        (fun e he => (hf.2 e (List.mem_of_mem_take he)).1) (fun e he => ((hs s (by simp)).2 e he).1) (by omega)
      rw [htl] at r2
      unfold samePrefix
      rw [r1]
      simp only [Option.bind_eq_bind, Option.bind_some]
      cases r with
      | true =>
        have hsp := r2.1 rfl
        simp only [Bool.not_true, Bool.false_eq_true, if_false]
        refine ⟨fun h => i1 (fun x hx => h x (by simp [hx])), fun h => i2 (fun hc => h ?_)⟩
        intro x hx
        rcases List.mem_cons.1 hx with rfl | hx
        · exact ⟨hl, hsp⟩
        · exact hc x hx
      | false =>
        simp only [Bool.not_false, if_true]
        refine ⟨fun h => ?_, fun _ => ⟨_, rfl⟩⟩
        have := r2.2 (h s (by simp)).2
        simp at this
    · rw [if_pos (by simpa using hl)]
      exact ⟨fun h => absurd (h s (by simp)).1 hl, fun _ => ⟨_, rfl⟩⟩

theorem C_ones (n m : Nat) : C (ones n m).flatten = List.replicate (n * m) 1 := by
  unfold ones
  rw [List.flatten_replicate_replicate]
  unfold C
  rw [List.map_replicate]
  rfl

theorem ones_sum (n m : Nat) : (ones n m).flatten.sum = n * m := by
  unfold ones
  rw [List.flatten_replicate_replicate, List.sum_replicate_nat, Nat.mul_one]

theorem linked_take {s : Shape} (h : ShapeOk s) (d : Nat) : Linked 1 (s.take d) ∧ ∀ e ∈ s.take d, Good e :=
  ⟨(shapeOk_parts h d d (Nat.le_refl _)).2.1, fun e he => h.2 e (List.mem_of_mem_take he)⟩

/-- The result shape, the final groups, and the resulting jagged array. -/
def BodyOk (mem : Nat → Int) (first : Shape) (zs : List (Shape × List β)) (d : Nat) (insert : Bool)
    (f : List (Tree β) → Tree β) : Prop :=
  ∃ shape Gf, concatBody mem first (zs.map Prod.fst) d insert = some (.ok (shape, C Gf.flatten)) ∧
    ShapeOk shape ∧ shape.length = first.length + (if insert then 1 else 0) ∧
    Fit Gf (zs.map Prod.snd) ∧ (∃ e, shape[d]? = some e ∧ e.parentSize = Gf.length) ∧
    size shape = Gf.flatten.sum ∧
    forest (shape.map sizes) (inter Gf (zs.map Prod.snd)) =
      [nestAt f d (zs.map (fun z => tree z.1 z.2))]

theorem body_finish {r : Nat} {zs : List (Shape × List β)} (hne : zs ≠ []) (hz : Inputs r zs) {first : Shape}
    {d : Nat} (hd : d ≤ r)
    (hpre : ∀ z ∈ zs, (z.1.take d).map sizes = (first.take d).map sizes) (hf1 : ShapeOk first)
    (hfr : first.length = r) {f : List (Tree β) → Tree β} {R : List (List Nat)} {Y : List β}
    (h : forest R Y = zipRows f (zs.map (fun z => forest ((z.1.map sizes).drop d) z.2))) :
    forest ((first.take d).map sizes ++ R) Y = [nestAt f d (zs.map (fun z => tree z.1 z.2))] := by
  have hlt := linked_take hf1 d
  have hc := linked_chn _ 1 (by decide) hlt.1 hlt.2
  have hrows : rows first d = endSize 1 (first.take d) := rows_eq (by omega)
  have hP : ((first.take d).map sizes).length = d := by rw [List.length_map, List.length_take]; omega
  have hk : ∀ z ∈ zs, (forest ((z.1.map sizes).drop d) z.2).length = (rows first d).toNat := by
    intro z hz'
    obtain ⟨h1, h2, h3⟩ := hz z hz'
    have e1 := forest_drop_length h1 h3 (show d ≤ z.1.length by omega)
    have hlz := linked_take h1 d
    have hcz := linked_chn _ 1 (by decide) hlz.1 hlz.2
    have : rows z.1 d = rows first d := by
      rw [rows_eq (by omega), hrows]
      have hn1 := endSize_nonneg (z.1.take d) 1 (by decide) (fun e he => (hlz.2 e he).1)
      have hn2 := endSize_nonneg (first.take d) 1 (by decide) (fun e he => (hlt.2 e he).1)
      rw [hpre z hz'] at hcz
      have huniq : ∀ (ls : List (List Nat)) (n a b : Nat), Chn n ls a → Chn n ls b → a = b := by
        intro ls
        induction ls with
        | nil => intro n a b x y; exact x.symm.trans y
        | cons l ls ih => intro n a b x y; exact ih _ a b x.2 y.2
      have := huniq _ _ _ _ hcz hc
      omega
    omega
  have key := prefix_forest f R Y (zs.map (fun z => ((z.1.map sizes).drop d, z.2))) (by simpa using hne)
    ((first.take d).map sizes) 1 (endSize 1 (first.take d)).toNat hc (by
      intro x hx
      obtain ⟨z, h1, rfl⟩ := List.mem_map.1 hx
      rw [← hrows]
      exact hk z h1) (by rw [List.map_map]; exact h)
  rw [hP, List.map_map] at key
  rw [key]
  have hall : zs.map ((fun x : List (List Nat) × List β => forest ((first.take d).map sizes ++ x.1) x.2) ∘
      fun z => ((z.1.map sizes).drop d, z.2)) = zs.map (fun z => forest (z.1.map sizes) z.2) := by
    apply List.map_congr_left
    intro z hz'
    simp only [Function.comp_apply]
    rw [← hpre z hz', List.map_take, List.take_append_drop]
  rw [hall, zipRows_single _ _ _ hne]
  · rfl
  · intro z hz'
    obtain ⟨h1, h2, h3⟩ := hz z hz'
    exact forest_length _ 1 _ (by
      have := shape_chn h1
      rwa [← h3, Int.toNat_natCast] at this)

theorem fromEdges_split (mem : Nat → Int) {es : List Edge} (hl : Linked 1 es) (hg : ∀ e ∈ es, Good e) :
    fromEdges mem es = some (.ok es) := by
  obtain ⟨r, r1, _, _, r2⟩ := (fromEdges_spec mem es (fun e he => (hg e he).1)).1
    ⟨hl, fun e he => totalMono_split (hg e he).2 (hg e he).1⟩
  rw [r1, r2 (fun e he => (hg e he).2)]

theorem forests_length_eq {r : Nat} {zs : List (Shape × List β)} (hz : Inputs r zs) {d n N : Nat} (hd : d + n = r)
    (hN : ∀ z ∈ zs, rows z.1 d = N) :
    (forests (lvls (zs.map Prod.fst) d n) (zs.map Prod.snd)).length = zs.length ∧
    ∀ G ∈ forests (lvls (zs.map Prod.fst) d n) (zs.map Prod.snd), G.length = N := by
  rw [forests_eq zs n d (fun z hz' => by rw [(hz z hz').2.1]; omega)]
  refine ⟨List.length_map _, ?_⟩
  intro G hG
  obtain ⟨z, h1, rfl⟩ := List.mem_map.1 hG
  obtain ⟨a1, a2, a3⟩ := hz z h1
  have := forest_drop_length a1 a3 (show d ≤ z.1.length by omega)
  rw [hN z h1] at this
  omega

theorem stack_body (mem : Nat → Int) {r : Nat} {zs : List (Shape × List β)} (hne : zs ≠ []) (hz : Inputs r zs)
    {first : Shape} {d : Nat} (hd : d ≤ r) (hpre : ∀ z ∈ zs, (z.1.take d).map sizes = (first.take d).map sizes)
    (hf1 : ShapeOk first) (hfr : first.length = r) {N : Nat} (hN : rows first d = N)
    (hNz : ∀ z ∈ zs, rows z.1 d = N) (hfit : SizesFit true (zs.map Prod.fst) d) :
    BodyOk mem first zs d true (stackAt 0) := by
  obtain ⟨z0, zt, hz0⟩ : ∃ z0 zt, zs = z0 :: zt := by
    cases zs with
    | nil => exact absurd rfl hne
    | cons a b => exact ⟨a, b, rfl⟩
  have hfit2 := hfit.2 rfl z0.1 (by rw [hz0]; simp)
  rw [hNz z0 (by rw [hz0]; simp), List.length_map] at hfit2
  have hlt := linked_take hf1 d
  have hsz : size (first.take d) = N := by rw [← hN, rows_eq (by omega)]; rfl
  obtain ⟨u, u1, u2, u3, u4, u5, u6⟩ := (fromUniformGroups_spec (n := N) (g := (zs.length : Int)) hfit2.1).1
    ⟨by omega, by omega, hfit2.2⟩
  have hus := uniform_sizes u5 u2 u3 u4 u6
  unfold BodyOk concatBody concatPrefix
  dsimp only
  rw [if_pos rfl, hsz, List.length_map, u1]
  simp only [Option.bind_eq_bind, Option.bind_some, Int.toNat_natCast]
  obtain ⟨fl1, fl2⟩ := forests_length_eq hz (d := d) (n := r - d) (by omega) hNz
  have hones : (ones N zs.length).length = N := by simp [ones]
  have hfit1 : Fit (ones N zs.length) (forests (lvls (zs.map Prod.fst) d (r - d)) (zs.map Prod.snd)) := by
    rw [← fl1]; exact fit_ones N _ fl2
  obtain ⟨new, n1, n2, n3, n4, n5, n6, n7⟩ := suffixLoop_spec hz true d (r - d) d (ones N zs.length)
    (first.take d ++ [u]) (by omega) (Or.inl rfl)
    (by rw [size_append, u4, ones_sum]; push_cast; rfl) hfit.1 hfit1
  rw [hones] at n1 n6
  rw [C_ones] at n1
  rw [hfr, n1]
  simp only [Option.bind_some]
  have hlink : Linked 1 (first.take d ++ [u] ++ new) := by
    rw [linked_append, linked_append]
    refine ⟨⟨hlt.1, ?_, trivial⟩, ?_⟩
    · rw [u3, ← hsz]; rfl
    · exact n3
  have hgood : ∀ e ∈ first.take d ++ [u] ++ new, Good e := by
    intro e he
    simp only [List.mem_append, List.mem_singleton] at he
    rcases he with (he | rfl) | he
    · exact hlt.2 e he
    · exact ⟨u5, u2⟩
    · exact n4 e he
  rw [fromEdges_split mem hlink hgood]
  have htl : (first.take d).length = d := by rw [List.length_take]; omega
  have hnl : new.length = r - d := by
    have := congrArg List.length n2
    rw [List.length_map] at this
    rw [this]
    have hrl : ∀ (n d : Nat) (gs : List (List Nat)), (resLevels gs (lvls (zs.map Prod.fst) d n)).length = n := by
      intro n
      induction n with
      | zero => intro d gs; rfl
      | succ n ih => intro d gs; rw [lvls, resLevels, List.length_cons, ih]
    exact hrl _ _ _
  refine ⟨_, _, rfl, ⟨hlink, hgood⟩, ?_, n5, ⟨u, ?_, ?_⟩, ?_, ?_⟩
  · simp only [List.length_append, htl, hnl, List.length_singleton, if_true]; omega
  · rw [List.append_assoc, List.getElem?_append_right (by omega), htl, Nat.sub_self]; rfl
  · rw [n6, u3]
  · rw [size_eq, endSize_append, ← size_eq, n7]
  · rw [List.map_append, List.map_append, List.append_assoc]
    apply body_finish hne hz hd hpre hf1 hfr
    rw [List.map_singleton, List.singleton_append, forest, n2, suffix_forest _ _ _ (aligned_lvls hz _ _ (by omega)),
      hus, ← forests_eq zs (r - d) d (fun z hz' => by rw [(hz z hz').2.1]; omega)]
    have hl := stack_level N (forests (lvls (zs.map Prod.fst) d (r - d)) (zs.map Prod.snd)) (by
      intro hc
      rw [hc] at fl1
      exact hne (List.length_eq_zero_iff.1 fl1.symm)) fl2
    rw [fl1] at hl
    exact hl

theorem concat_body (mem : Nat → Int) {r : Nat} {zs : List (Shape × List β)} (hne : zs ≠ []) (hz : Inputs r zs)
    {first : Shape} {d : Nat} (hd : d < r) (hpre : ∀ z ∈ zs, (z.1.take d).map sizes = (first.take d).map sizes)
    (hf1 : ShapeOk first) (hfr : first.length = r) {N : Nat} (hN : rows first d = N)
    (hNz : ∀ z ∈ zs, rows z.1 d = N) (hfit : SizesFit false (zs.map Prod.fst) d) :
    BodyOk mem first zs d false (concatAt 0) := by
  have hlt := linked_take hf1 d
  have hsz : size (first.take d) = N := by rw [← hN, rows_eq (by omega)]; rfl
  obtain ⟨n, hn⟩ : ∃ n, r - d = n + 1 := ⟨r - d - 1, by omega⟩
  unfold BodyOk concatBody concatPrefix
  dsimp only
  rw [if_neg (by simp), hsz, List.length_map]
  simp only [Option.bind_eq_bind, Option.bind_some, Int.toNat_natCast]
  obtain ⟨fl1, fl2⟩ := forests_length_eq hz (d := d) (n := n + 1) (by omega) hNz
  have hones : (ones N zs.length).length = N := by simp [ones]
  have hfit1 : Fit (ones N zs.length) (forests (lvls (zs.map Prod.fst) d (n + 1)) (zs.map Prod.snd)) := by
    rw [← fl1]; exact fit_ones N _ fl2
  obtain ⟨b1, b2, b3⟩ := suffix_edge hz (d := d) (n := n) (by omega) (gs := ones N zs.length) true
    (ps := N) (by simp [hones]) hfit.1 hfit1
  simp only [if_true] at b1
  generalize hS : (zs.map Prod.fst).map (fun s => ((s.map sizes)[d]?).getD []) = S at b1 b2 b3
  obtain ⟨new, n1, n2, n3, n4, n5, n6, n7⟩ := suffixLoop_spec hz false d n (d + 1) (nextGs (ones N zs.length) S)
    (first.take d ++ [mkEdge ((nextGs (ones N zs.length) S).map List.sum)]) (by omega) (Or.inr (by omega))
    (by rw [size_append, ← map_sum_sum]; rfl) (fun k hk => hfit.1 k (by omega)) b3
  rw [nextGs_length, hones] at n1 n6
  rw [hones] at b1
  rw [hfr, hn, suffixLoop, hsz, ← C_ones]
  have hcond : (!false && d == d) = true := by simp
  rw [hcond, b1]
  simp only [Option.bind_eq_bind, Option.bind_some]
  rw [n1]
  simp only [Option.bind_some]
  have hel : ((nextGs (ones N zs.length) S).map List.sum).length = N := by
    rw [List.length_map, nextGs_length, hones]
  have hlink : Linked 1 (first.take d ++ [mkEdge ((nextGs (ones N zs.length) S).map List.sum)] ++ new) := by
    rw [linked_append, linked_append]
    refine ⟨⟨hlt.1, ?_, trivial⟩, n3⟩
    show ((((nextGs (ones N zs.length) S).map List.sum).length : Nat) : Int) = _
    rw [hel, ← hsz]; rfl
  have hgood : ∀ e ∈ first.take d ++ [mkEdge ((nextGs (ones N zs.length) S).map List.sum)] ++ new, Good e := by
    intro e he
    simp only [List.mem_append, List.mem_singleton] at he
    rcases he with (he | rfl) | he
    · exact hlt.2 e he
    · exact ⟨mkEdge_wf _, rfl⟩
    · exact n4 e he
  rw [fromEdges_split mem hlink hgood]
  have htl : (first.take d).length = d := by rw [List.length_take]; omega
  have hnl : new.length = n := by
    have := congrArg List.length n2
    rw [List.length_map] at this
    rw [this]
    have hrl : ∀ (n d : Nat) (gs : List (List Nat)), (resLevels gs (lvls (zs.map Prod.fst) d n)).length = n := by
      intro n
      induction n with
      | zero => intro d gs; rfl
      | succ n ih => intro d gs; rw [lvls, resLevels, List.length_cons, ih]
    exact hrl _ _ _
  refine ⟨_, _, rfl, ⟨hlink, hgood⟩, ?_, n5,
    ⟨mkEdge ((nextGs (ones N zs.length) S).map List.sum), ?_, ?_⟩, ?_, ?_⟩
  · simp only [List.length_append, htl, hnl, List.length_singleton, Bool.false_eq_true, if_false]; omega
  · rw [List.append_assoc, List.getElem?_append_right (by omega), htl, Nat.sub_self]; rfl
  · rw [n6]; exact congrArg Nat.cast hel
  · rw [size_eq, endSize_append, ← size_eq, n7]
  · rw [List.map_append, List.map_append, List.append_assoc]
    apply body_finish hne hz (by omega) hpre hf1 hfr
    have hal := aligned_lvls hz (n + 1) d (by omega)
    rw [List.map_singleton, List.singleton_append, forest, n2, suffix_forest _ _ _ hal.2,
      mkEdge_sizes, ← forests_eq zs (n + 1) d (fun z hz' => by rw [(hz z hz').2.1]; omega), lvls, forests, hS]
    have hSl : S.length = zs.length := by rw [← hS, List.length_map, List.length_map]
    have hal1 := hal.1
    rw [hS] at hal1
    have := concat_level N S (forests (lvls (zs.map Prod.fst) (d + 1) n) (zs.map Prod.snd)) (by
      intro hc
      rw [hc] at hSl
      exact hne (List.length_eq_zero_iff.1 hSl.symm)) (by
      intro x hx
      rw [← hS, List.map_map] at hx
      obtain ⟨z, h1, rfl⟩ := List.mem_map.1 hx
      obtain ⟨a1, a2, a3⟩ := hz z h1
      have := level_length a1 (show d < z.1.length by omega)
      rw [hNz z h1] at this
      simp only [Function.comp_apply]
      omega) hal1
    rw [hSl] at this
    exact this

/-- What is computed for inputs which can be combined. -/
def ShapesOk (mem : Nat → Int) (zs : List (Shape × List β)) (dim : Int) (insert : Bool) : Prop :=
  ∃ shape Gf, concatShapes mem (zs.map Prod.fst) dim insert = some (.ok (shape, C Gf.flatten)) ∧
    ShapeOk shape ∧ (∀ z ∈ zs, shape.length = z.1.length + (if insert then 1 else 0)) ∧
    Fit Gf (zs.map Prod.snd) ∧ (∃ e, shape[dim.toNat]? = some e ∧ e.parentSize = Gf.length) ∧
    size shape = Gf.flatten.sum ∧
    forest (shape.map sizes) (inter Gf (zs.map Prod.snd)) =
      [(if insert then stackAt dim.toNat else concatAt dim.toNat) (zs.map (fun z => tree z.1 z.2))]

theorem concatShapes_spec (mem : Nat → Int) {zs : List (Shape × List β)} {dim : Int} {insert : Bool}
    (hs : ∀ z ∈ zs, ShapeOk z.1 ∧ (z.2.length : Int) = size z.1) :
    (Combinable insert (zs.map Prod.fst) dim → SizesFit insert (zs.map Prod.fst) dim.toNat →
      ShapesOk mem zs dim insert) ∧
    (¬ Combinable insert (zs.map Prod.fst) dim →
      ∃ m, concatShapes mem (zs.map Prod.fst) dim insert = some (.error m)) := by
  cases zs with
  | nil =>
    refine ⟨fun h => ?_, fun _ => ⟨_, rfl⟩⟩
    obtain ⟨a, b, h1, _⟩ := h
    simp at h1
  | cons z0 zt =>
    have hs0 := (hs z0 (by simp)).1
    have hiff : Combinable insert ((z0 :: zt).map Prod.fst) dim ↔ (0 ≤ dim ∧
        dim < (z0.1.length : Int) + (if insert then 1 else 0) ∧
        ∀ s ∈ (z0 :: zt).map Prod.fst, s.length = z0.1.length ∧
          SameShape (z0.1.take dim.toNat) (s.take dim.toNat)) := by
      constructor
      · rintro ⟨a, b, h1, h2, h3, h4⟩
        rw [List.map_cons, List.cons.injEq] at h1
        obtain ⟨rfl, rfl⟩ := h1
        refine ⟨h2, h3, ?_⟩
        intro s hs'
        rw [List.map_cons] at hs'
        rcases List.mem_cons.1 hs' with rfl | hs'
        · exact ⟨rfl, sameShape_refl _⟩
        · exact h4 s hs'
      · rintro ⟨h2, h3, h4⟩
        exact ⟨z0.1, zt.map Prod.fst, rfl, h2, h3, fun s hs' => h4 s (by rw [List.map_cons]; simp [hs'])⟩
    rw [hiff]
    unfold ShapesOk concatShapes
    rw [List.map_cons]
    dsimp only
    have hrr : (if insert then (z0.1.length : Int) + 1 else z0.1.length) =
        (z0.1.length : Int) + (if insert then 1 else 0) := by cases insert <;> simp
    rw [hrr]
    by_cases h0 : (z0.1.length : Int) + (if insert then 1 else 0) = 0
    · rw [if_pos h0]
      exact ⟨fun h => by omega, fun _ => ⟨_, rfl⟩⟩
    · rw [if_neg h0]
      by_cases h1 : dim < 0 ∨ dim ≥ (z0.1.length : Int) + (if insert then 1 else 0)
      · rw [if_pos h1]
        exact ⟨fun h => by omega, fun _ => ⟨_, rfl⟩⟩
      · rw [if_neg h1]
        have hle : (if insert then (1 : Int) else 0) ≤ 1 := by cases insert <;> simp
        have hdl : dim.toNat ≤ z0.1.length := by omega
        obtain ⟨k1, k2⟩ := checkShapes_spec mem hdl hs0 (z0.1 :: zt.map Prod.fst) (by
          intro s hs'
          rw [← List.map_cons (f := Prod.fst)] at hs'
          obtain ⟨z, h2, rfl⟩ := List.mem_map.1 hs'
          exact (hs z h2).1)
        by_cases hall : ∀ s ∈ z0.1 :: zt.map Prod.fst, s.length = z0.1.length ∧
            SameShape (z0.1.take dim.toNat) (s.take dim.toNat)
        · rw [k1 hall]
          simp only [Option.bind_eq_bind, Option.bind_some]
          refine ⟨fun _ hfit => ?_, fun h => absurd ⟨by omega, by omega, hall⟩ h⟩
          have hall' : ∀ z ∈ z0 :: zt, z.1.length = z0.1.length ∧
              SameShape (z0.1.take dim.toNat) (z.1.take dim.toNat) := by
            intro z hz
            apply hall
            rw [← List.map_cons (f := Prod.fst)]
            exact List.mem_map_of_mem hz
          have hin : Inputs z0.1.length (z0 :: zt) := fun z hz => ⟨(hs z hz).1, (hall' z hz).1, (hs z hz).2⟩
          have hpre : ∀ z ∈ z0 :: zt, (z.1.take dim.toNat).map sizes = (z0.1.take dim.toNat).map sizes := by
            intro z hz
            exact (samePrefix_sizes (hall' z hz).2 (fun e he => hs0.2 e (List.mem_of_mem_take he))
              (fun e he => (hs z hz).1.2 e (List.mem_of_mem_take he))).symm
          have hnn : 0 ≤ endSize 1 (z0.1.take dim.toNat) :=
            endSize_nonneg _ _ (by decide) (fun e he => (hs0.2 e (List.mem_of_mem_take he)).1)
          have hN : rows z0.1 dim.toNat = ((rows z0.1 dim.toNat).toNat : Nat) := by
            rw [rows_eq hdl]; omega
          have hNz : ∀ z ∈ z0 :: zt, rows z.1 dim.toNat = ((rows z0.1 dim.toNat).toNat : Nat) := by
            intro z hz
            rw [← hN, rows_eq (by rw [(hall' z hz).1]; exact hdl), rows_eq hdl]
            exact (sameShape_size (hall' z hz).2).symm
          cases insert with
          | true =>
            obtain ⟨shape, Gf, g1, g2, g3, g4, g5, g6, g7⟩ := stack_body mem (by simp) hin hdl hpre hs0 rfl
              hN hNz hfit
            exact ⟨shape, Gf, g1, g2, fun z hz => by rw [g3, (hall' z hz).1], g4, g5, g6, by
              rw [g7, nestAt_stack]; rfl⟩
          | false =>
            have hlt : dim.toNat < z0.1.length := by simp at h1; omega
            obtain ⟨shape, Gf, g1, g2, g3, g4, g5, g6, g7⟩ := concat_body mem (by simp) hin hlt hpre hs0 rfl
              hN hNz hfit
            exact ⟨shape, Gf, g1, g2, fun z hz => by rw [g3, (hall' z hz).1], g4, g5, g6, by
              rw [g7, nestAt_concat]; rfl⟩
        · obtain ⟨m, hm⟩ := k2 hall
          rw [hm]
          exact ⟨fun h => absurd h.2.2 hall, fun _ => ⟨m, rfl⟩⟩

end Verif.Jagged
