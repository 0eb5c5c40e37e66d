import Verif.Forest.FloatLemmas
import Verif.Forest.BitmaskLemmas

/-!
# Lemmas about split points and piecewise constant evaluators
-/

namespace Verif.Forest

variable {T M A : Type}

/-- The order of the values which are not NaN. -/
structure NumKind.Laws (k : NumKind T) : Prop where
  irrefl : ∀ a, k.lt a a = false
  trans : ∀ a b c, k.lt a b = true → k.lt b c = true → k.lt a c = true
  tri : ∀ a b, k.nan a = false → k.nan b = false → k.lt a b = true ∨ a = b ∨ k.lt b a = true
  eq_iff : ∀ a b, k.nan a = false → (k.eq a b = true ↔ a = b)
  zero : k.nan k.zero = false
  lowest : k.nan k.lowest = false
  max : k.nan k.max = false

theorem i64Kind_laws : i64Kind.Laws where
  irrefl a := by simp [i64Kind]
  trans a b c := by simp only [i64Kind, decide_eq_true_eq]; omega
  tri a b _ _ := by simp only [i64Kind, decide_eq_true_eq]; omega
  eq_iff a b _ := by simp [i64Kind]
  zero := rfl
  lowest := rfl
  max := rfl

theorem f32Kind_laws : f32Kind.Laws where
  irrefl a := by cases a <;> simp [f32Kind, Fl.lt, Fl.le]
  trans a b c := by
    cases a <;> cases b <;> cases c <;> simp [f32Kind, Fl.lt, Fl.le] <;> omega
  tri a b := by
    cases a <;> cases b <;> simp [f32Kind, Fl.lt, Fl.le] <;> omega
  eq_iff a b := by
    cases a <;> cases b <;> simp [f32Kind, Fl.eq, Fl.le] <;> omega
  zero := by simp [f32Kind]
  lowest := by simp [f32Kind]
  max := by simp [f32Kind]

theorem laws_asymm {k : NumKind T} (hk : k.Laws) {a b : T} (h : k.lt a b = true) : k.lt b a = false := by
  cases h' : k.lt b a with
  | false => rfl
  | true => have := hk.trans _ _ _ h h'; rw [hk.irrefl] at this; cases this

theorem laws_strictWeak {k : NumKind T} (hk : k.Laws) {l : List T} (hl : ∀ a ∈ l, k.nan a = false) :
    StrictWeak k.lt l := by
  refine ⟨fun a _ => hk.irrefl a, fun a _ b _ c _ => hk.trans a b c, fun a ha b hb c hc h1 h2 => ?_⟩
  cases h : k.lt a c with
  | false => rfl
  | true =>
    exfalso
    rcases hk.tri a b (hl a ha) (hl b hb) with g | rfl | g
    · rw [g] at h1; cases h1
    · rw [h] at h2; cases h2
    · rw [hk.trans _ _ _ g h] at h2; cases h2

/-! ### Split points -/

theorem uniqueLoop_spec {k : NumKind T} (hk : k.Laws) : ∀ (l : List T) (cur : T),
    (∀ a ∈ cur :: l, k.nan a = false) → (cur :: l).Pairwise (fun a b => k.lt b a = false) →
    (uniqueLoop k.eq cur l).Pairwise (fun a b => k.lt a b = true) ∧
    (∀ x, x ∈ uniqueLoop k.eq cur l ↔ x ∈ cur :: l) := by
  intro l
  induction l with
  | nil => intro cur _ _; simp [uniqueLoop]
  | cons y ys ih =>
    intro cur hn hp
    obtain ⟨h1, h2⟩ := List.pairwise_cons.1 hp
    rw [uniqueLoop]
    split
    · rename_i he
      have hce : cur = y := (hk.eq_iff _ _ (hn cur (by simp))).1 he
      subst hce
      obtain ⟨a, b⟩ := ih cur (fun a ha => hn a (by simp at ha ⊢; tauto)) h2
      exact ⟨a, fun x => by rw [b]; simp⟩
    · rename_i he
      obtain ⟨a, b⟩ := ih y (fun a ha => hn a (by simp at ha ⊢; tauto)) h2
      refine ⟨List.pairwise_cons.2 ⟨fun z hz => ?_, a⟩, fun x => by rw [List.mem_cons, b]; simp⟩
      have hlt : k.lt cur y = true := by
        rcases hk.tri cur y (hn cur (by simp)) (hn y (by simp)) with g | rfl | g
        · exact g
        · exact absurd ((hk.eq_iff cur cur (hn cur (by simp))).2 rfl) he
        · rw [h1 y (by simp)] at g; cases g
      rcases List.mem_cons.1 ((b z).1 hz) with rfl | hz'
      · exact hlt
      · have hyz := (List.pairwise_cons.1 h2).1 z hz'
        rcases hk.tri y z (hn y (by simp)) (hn z (by simp [hz'])) with g | rfl | g
        · exact hk.trans _ _ _ hlt g
        · exact hlt
        · rw [hyz] at g; cases g

theorem splitPoints_spec {k : NumKind T} (hk : k.Laws) {o : Oracles} (ho : o.Ok) {trees : List (Tree Cond A)} {ps : List T}
    (hps : allPoints k (trees.flatMap fun t => t.splits.map (·.cond)) = some ps) (hn : ∀ a ∈ ps, k.nan a = false) :
    ∃ qs, splitPoints k o trees = some qs ∧ qs.Pairwise (fun a b => k.lt a b = true) ∧ ∀ x, x ∈ qs ↔ x ∈ ps := by
  refine ⟨_, by rw [splitPoints, hps]; rfl, ?_⟩
  have hperm := ho.sort_perm k.lt ps
  have hsort := ho.sort_sorted k.lt ps (laws_strictWeak hk hn)
  cases hs : o.sort k.lt ps with
  | nil =>
    rw [hs] at hperm
    have : ps = [] := by have := hperm.length_eq; simpa using this.symm
    subst this
    show (unique k.eq (o.sort k.lt [])).Pairwise _ ∧ _
    rw [hs]
    exact ⟨.nil, fun x => by show x ∈ unique k.eq (o.sort k.lt []) ↔ _; rw [hs]; rfl⟩
  | cons y ys =>
    rw [hs] at hperm hsort
    obtain ⟨a, b⟩ := uniqueLoop_spec hk ys y (fun a ha => hn a (hperm.mem_iff.1 ha)) hsort
    show (unique k.eq (o.sort k.lt ps)).Pairwise _ ∧ ∀ x, x ∈ unique k.eq (o.sort k.lt ps) ↔ _
    rw [hs]
    exact ⟨a, fun x => (b x).trans hperm.mem_iff⟩

theorem allPoints_spec {k : NumKind T} : ∀ (cs : List Cond), (∀ c ∈ cs, ∃ ps, k.points c = some ps) →
    ∃ ps, allPoints k cs = some ps ∧ ∀ x, x ∈ ps ↔ ∃ c ∈ cs, ∃ qs, k.points c = some qs ∧ x ∈ qs := by
  intro cs
  induction cs with
  | nil => intro _; exact ⟨[], rfl, by simp⟩
  | cons c cs ih =>
    intro h
    obtain ⟨ps, hp⟩ := h c (by simp)
    obtain ⟨qs, hq, hm⟩ := ih fun c hc => h c (by simp [hc])
    refine ⟨ps ++ qs, by simp [allPoints, hp, hq], fun x => ?_⟩
    simp only [List.mem_append, hm, List.mem_cons, exists_eq_or_imp, hp, Option.some.injEq, exists_eq_left']

/-! ### The piecewise constant evaluator -/

/-- Two values compare in the same way with every split point. -/
def SameGap (k : NumKind T) (points : List T) (u v : T) : Prop :=
  ∀ p ∈ points, k.lt p u = k.lt p v ∧ k.lt u p = k.lt v p

theorem middles_spec {k : NumKind T} {ev : Option T → Option M} {f : Option T → M} (hev : ∀ v, ev v = some (f v)) :
    ∀ (points : List T), (∀ l ∈ points, ∀ r ∈ points, k.lt l r = true → ∃ m, k.mid l r = some m) →
      points.Pairwise (fun a b => k.lt a b = true) →
      ∃ vs, middles k ev points = some vs ∧ vs.length = points.length - 1 ∧
        ∀ (j : Nat) (l r : T), points[j]? = some l → points[j + 1]? = some r →
          ∃ m, k.mid l r = some m ∧ vs[j]? = some (f (some m)) := by
  intro points
  induction points with
  | nil => intro _ _; exact ⟨[], rfl, rfl, by simp⟩
  | cons p ps ih =>
    intro hm hp
    cases ps with
    | nil => exact ⟨[], rfl, rfl, by simp⟩
    | cons q qs =>
      obtain ⟨h1, h2⟩ := List.pairwise_cons.1 hp
      obtain ⟨vs, g1, g2, g3⟩ := ih (fun l hl r hr => hm l (by simp [List.mem_cons.1 hl]) r (by simp [List.mem_cons.1 hr])) h2
      obtain ⟨m, e⟩ := hm p (by simp) q (by simp) (h1 q (by simp))
      refine ⟨f (some m) :: vs, by simp [middles, e, hev, g1], by simp [g2], fun j l r hl hr => ?_⟩
      cases j with
      | zero =>
        simp only [List.getElem?_cons_zero, Option.some.injEq, Nat.zero_add, List.getElem?_cons_succ] at hl hr
        subst hl; subst hr
        exact ⟨m, e, rfl⟩
      | succ j =>
        rw [List.getElem?_cons_succ] at hl hr
        exact g3 j l r hl hr

theorem takeWhile_split (p : T → Bool) (l : List T) :
    (∀ (j : Nat) (x : T), j < (l.takeWhile p).length → l[j]? = some x → p x = true) ∧
    (∀ (x : T), l[(l.takeWhile p).length]? = some x → p x = false) := by
  induction l with
  | nil => simp
  | cons a l ih =>
    rw [List.takeWhile_cons]
    split
    · rename_i h
      refine ⟨fun j x hj hx => ?_, fun x hx => ?_⟩
      · cases j with
        | zero => simp at hx; subst hx; exact h
        | succ j =>
          rw [List.getElem?_cons_succ] at hx
          simp only [List.length_cons] at hj
          exact ih.1 j x (by omega) hx
      · rw [List.length_cons, List.getElem?_cons_succ] at hx
        exact ih.2 x hx
    · rename_i h
      exact ⟨fun j x hj => by simp at hj, fun x hx => by simp at hx; subst hx; simpa using h⟩

theorem pairwise_get {R : T → T → Prop} {l : List T} (h : l.Pairwise R) {i j : Nat} {a b : T} (hij : i < j)
    (ha : l[i]? = some a) (hb : l[j]? = some b) : R a b := by
  obtain ⟨hi, rfl⟩ := List.getElem?_eq_some_iff.1 ha
  obtain ⟨hj, rfl⟩ := List.getElem?_eq_some_iff.1 hb
  exact List.pairwise_iff_getElem.1 h i j hi hj hij

theorem buildPiecewise_ok {k : NumKind T} (hk : k.Laws) {ev : Option T → Option M} {f : Option T → M}
    (hev : ∀ v, ev v = some (f v)) {points : List T} (hsort : points.Pairwise fun a b => k.lt a b = true)
    (hn : ∀ p ∈ points, k.nan p = false)
    (hmid : ∀ l ∈ points, ∀ r ∈ points, k.lt l r = true → ∃ m, k.mid l r = some m)
    (hf : ∀ u v, k.nan u = false → k.nan v = false → SameGap k points u v → f (some u) = f (some v)) :
    ∃ pw, buildPiecewise k ev points = some pw ∧ ∀ v : Option T,
      (∀ x, v = some x → k.nan x = true → f v = f none) →
      (∀ x, v = some x → k.nan x = false →
        (∀ l ∈ points, ∀ r ∈ points, k.lt l x = true → k.lt x r = true →
          ∃ m, k.mid l r = some m ∧ k.nan m = false ∧ k.lt l m = true ∧ k.lt m r = true) ∧
        (∀ p ∈ points, k.lt x p = true → k.lt k.lowest p = true) ∧
        (∀ p ∈ points, k.lt p x = true → k.lt p k.max = true)) →
      pw.eval k v = some (f v) := by
  obtain ⟨vs, g1, g2, g3⟩ := middles_spec hev points hmid hsort
  have hpv : (points.mapM fun p => ev (some p)) = some (points.map fun p => f (some p)) := by
    simp only [hev]
    exact List.mapM_pure (m := Option) (l := points) (f := fun p => f (some p))
  have hmv : middleValues k ev points =
      some (if points.isEmpty then [f (some k.zero)] else f (some k.lowest) :: vs ++ [f (some k.max)]) := by
    unfold middleValues
    split <;> simp [hev, g1]
  refine ⟨_, by rw [buildPiecewise, hpv, hmv, hev none]; rfl, ?_⟩
  intro v hnan hgood
  cases v with
  | none => rfl
  | some x =>
    simp only [Piecewise.eval]
    split
    · rename_i h; rw [hnan x rfl h]
    · rename_i h
      have hx : k.nan x = false := by simpa using h
      obtain ⟨hb, hlow, hmax⟩ := hgood x rfl hx
      obtain ⟨t1, t2⟩ := takeWhile_split (fun p => k.lt p x) points
      generalize (points.takeWhile fun p => k.lt p x).length = id at *
      split
      · rename_i q hq
        have hqm : q ∈ points := List.mem_of_getElem? hq
        split
        · rename_i he
          have : q = x := (hk.eq_iff q x (hn q hqm)).1 he
          subst this
          simp [hq]
        · rename_i he
          have hxq : k.lt x q = true := by
            rcases hk.tri x q hx (hn q hqm) with g | rfl | g
            · exact g
            · exact absurd ((hk.eq_iff x x hx).2 rfl) he
            · have := t2 q hq; rw [g] at this; cases this
          -- the points before `q` are below `x`, the others not below `q`
          have hside : ∀ p ∈ points, (k.lt p x = true ∧ ∃ (j : Nat), j < id ∧ points[j]? = some p) ∨
              (k.lt x p = true ∧ (p = q ∨ k.lt q p = true)) := by
            intro p hp
            obtain ⟨j, hj⟩ := List.mem_iff_getElem?.1 hp
            rcases Nat.lt_trichotomy j id with g | g | g
            · exact .inl ⟨t1 j p g hj, j, g, hj⟩
            · subst g; rw [hj] at hq; cases hq; exact .inr ⟨hxq, .inl rfl⟩
            · have := pairwise_get hsort g hq hj
              exact .inr ⟨hk.trans _ _ _ hxq this, .inr this⟩
          have hne : points.isEmpty = false := by cases points <;> simp at hqm ⊢
          simp only [hne, Bool.false_eq_true, if_false]
          cases hid : id with
          | zero =>
            simp only [List.cons_append, List.getElem?_cons_zero, Option.some.injEq]
            refine hf _ _ hk.lowest hx fun p hp => ?_
            have hlp : k.lt x p = true := by
              rcases hside p hp with ⟨-, j, hj, -⟩ | ⟨g, -⟩
              · omega
              · exact g
            have hl := hlow p hp hlp
            rw [hl, hlp, laws_asymm hk hl, laws_asymm hk hlp]
            exact ⟨rfl, rfl⟩
          | succ j =>
            have hjl : j + 1 < points.length := by
              obtain ⟨h, -⟩ := List.getElem?_eq_some_iff.1 hq; omega
            have hl0 : points[j]? = some points[j] := List.getElem?_eq_getElem (by omega)
            generalize points[j] = l at hl0
            have hlm : l ∈ points := List.mem_of_getElem? hl0
            have hlx : k.lt l x = true := t1 j l (by omega) hl0
            obtain ⟨m, m1, m2, m3, m4⟩ := hb l hlm q hqm hlx hxq
            obtain ⟨m', m1', hv⟩ := g3 j l q hl0 (by rw [← hid]; exact hq)
            rw [m1] at m1'; cases m1'
            simp only [List.cons_append, List.getElem?_cons_succ]
            rw [List.getElem?_append_left (by omega), hv]
            congr 1
            refine hf _ _ m2 hx fun p hp => ?_
            rcases hside p hp with ⟨g, i, hi, hpi⟩ | ⟨g, hpq⟩
            · have hpm : k.lt p m = true := by
                rcases Nat.lt_or_ge i j with c | c
                · exact hk.trans _ _ _ (pairwise_get hsort c hpi hl0) m3
                · have : i = j := by omega
                  subst this; rw [hpi] at hl0; cases hl0; exact m3
              rw [g, hpm, laws_asymm hk g, laws_asymm hk hpm]; exact ⟨rfl, rfl⟩
            · have hpm : k.lt m p = true := by
                rcases hpq with rfl | hpq
                · exact m4
                · exact hk.trans _ _ _ m4 hpq
              rw [g, hpm, laws_asymm hk g, laws_asymm hk hpm]; exact ⟨rfl, rfl⟩
      · rename_i hq
        have hall : ∀ p ∈ points, k.lt p x = true := by
          intro p hp
          obtain ⟨j, hj⟩ := List.mem_iff_getElem?.1 hp
          obtain ⟨hj', -⟩ := List.getElem?_eq_some_iff.1 hj
          exact t1 j p (by rw [List.getElem?_eq_none_iff] at hq; omega) hj
        split
        · rename_i he
          simp only [List.getLast?_singleton, Option.some.injEq]
          refine hf _ _ hk.zero hx fun p hp => ?_
          rw [List.isEmpty_iff] at he; subst he; simp at hp
        · rw [List.getLast?_append]
          simp only [List.getLast?_singleton, Option.some_or, Option.some.injEq]
          refine hf _ _ hk.max hx fun p hp => ?_
          have g := hall p hp
          have g' := hmax p hp g
          rw [g, g', laws_asymm hk g, laws_asymm hk g']; exact ⟨rfl, rfl⟩

end Verif.Forest
