import Mathlib.Data.List.Forall2
import Mathlib.Tactic.Ring
import Mathlib.Tactic.FieldSimp
import Mathlib.Tactic.Linarith
import Verif.Curve.CurveSpec

namespace Verif.Curve

variable {K : Type} [Field K] [LinearOrder K]

/-! ## Coordinates -/

namespace Ext

omit [Field K] in
theorem eq_iff {a b : Ext K} : a.eq b = true ↔ a = b ∧ a ≠ .nan := by
  cases a <;> cases b <;> simp [Ext.eq]

omit [Field K] in
theorem le_iff {a b : Ext K} : a.le b = true ↔ a.lt b = true ∨ (a = b ∧ a ≠ .nan) := by
  rw [Ext.le, Bool.or_eq_true, eq_iff]

omit [Field K] in
theorem lt_trans {a b c : Ext K} (h : a.lt b = true) (h' : b.lt c = true) : a.lt c = true := by
  cases a <;> cases b <;> cases c <;> simp [Ext.lt] at h h' ⊢
  exact _root_.lt_trans h h'

omit [Field K] in
theorem lt_irrefl (a : Ext K) : a.lt a = false := by
  cases a <;> simp [Ext.lt]

omit [Field K] in
theorem lt_asymm {a b : Ext K} (h : a.lt b = true) : b.lt a = false := by
  rw [← Bool.not_eq_true]
  intro h'
  have := lt_trans h h'
  rw [lt_irrefl] at this
  cases this

omit [Field K] in
theorem lt_nan {a b : Ext K} (h : a.lt b = true) : a ≠ .nan ∧ b ≠ .nan := by
  cases a <;> cases b <;> simp [Ext.lt] at h ⊢

omit [Field K] in
theorem tri {a b : Ext K} (ha : a ≠ .nan) (hb : b ≠ .nan) : a.lt b = true ∨ a = b ∨ b.lt a = true := by
  cases a <;> cases b <;> simp [Ext.lt] at ha hb ⊢
  exact lt_trichotomy _ _

omit [Field K] in
theorem le_refl {a : Ext K} (ha : a ≠ .nan) : a.le a = true := le_iff.2 (.inr ⟨rfl, ha⟩)

omit [Field K] in
theorem le_trans {a b c : Ext K} (h : a.le b = true) (h' : b.le c = true) : a.le c = true := by
  rw [le_iff] at h h' ⊢
  rcases h with h | ⟨rfl, h⟩
  · rcases h' with h' | ⟨rfl, _⟩
    · exact .inl (lt_trans h h')
    · exact .inl h
  · exact h'

omit [Field K] in
theorem lt_of_lt_of_le {a b c : Ext K} (h : a.lt b = true) (h' : b.le c = true) : a.lt c = true := by
  rw [le_iff] at h'
  rcases h' with h' | ⟨rfl, _⟩
  · exact lt_trans h h'
  · exact h

omit [Field K] in
theorem lt_of_le_of_lt {a b c : Ext K} (h : a.le b = true) (h' : b.lt c = true) : a.lt c = true := by
  rw [le_iff] at h
  rcases h with h | ⟨rfl, _⟩
  · exact lt_trans h h'
  · exact h'

omit [Field K] in
theorem not_le {a b : Ext K} (h : a.lt b = true) : b.le a = false := by
  rw [← Bool.not_eq_true, le_iff]
  rintro (h' | ⟨rfl, _⟩)
  · rw [lt_asymm h] at h'; cases h'
  · rw [lt_irrefl] at h; cases h

omit [Field K] in
theorem lt_of_not_le {a b : Ext K} (ha : a ≠ .nan) (hb : b ≠ .nan) (h : ¬ a.le b = true) : b.lt a = true := by
  rcases tri ha hb with h' | h' | h'
  · exact absurd (le_iff.2 (.inl h')) h
  · exact absurd (le_iff.2 (.inr ⟨h', ha⟩)) h
  · exact h'

omit [Field K] in
theorem fin_of_between {a b c : Ext K} (h : a.lt b = true) (h' : b.lt c = true) : ∃ k, b = .fin k := by
  cases b with
  | fin k => exact ⟨k, rfl⟩
  | neg => cases a <;> simp [Ext.lt] at h
  | pos => simp [Ext.lt] at h'
  | nan => simp [Ext.lt] at h'

omit [Field K] in
theorem fin_of {a : Ext K} (h : a ≠ .nan) (h' : a.isInf = false) : ∃ k, a = .fin k := by
  cases a with
  | fin k => exact ⟨k, rfl⟩
  | neg => simp [isInf] at h'
  | pos => simp [isInf] at h'
  | nan => exact absurd rfl h

end Ext

/-! ## Segments -/

/-- The value on the segments. -/
def seg : List (K × K) → K → K
  | p :: q :: rest, t => if rest = [] ∨ t ≤ q.1 then line p q t else seg (q :: rest) t
  | _, _ => 0

theorem segments_cons (p q : K × K) (rest : List (K × K)) : segments (p :: q :: rest) =
    ⟨.fin q.1, (q.2 - p.2) / (q.1 - p.1), p.2 - (q.2 - p.2) / (q.1 - p.1) * p.1⟩ :: segments (q :: rest) := rfl

theorem find_seg (t : K) : ∀ (qs : List (K × K)), 2 ≤ qs.length → (findCoef t (segments qs)).map (linear · t) = some (seg qs t)
  | [], h => by simp at h
  | [_], h => by simp at h
  | [p, q], _ => by
    simp only [segments_cons, segments, findCoef, Option.map_some, linear, seg, true_or, if_true, line]
    congr 1
    ring
  | p :: q :: r :: rest, _ => by
    have ih := find_seg t (q :: r :: rest) (by simp)
    have e2 : seg (p :: q :: r :: rest) t = if t ≤ q.1 then line p q t else seg (q :: r :: rest) t := by
      rw [seg]
      simp only [reduceCtorEq, false_or]
    rw [e2]
    by_cases h : t ≤ q.1
    · have e1 : findCoef t (segments (p :: q :: r :: rest)) =
          some ⟨.fin q.1, (q.2 - p.2) / (q.1 - p.1), p.2 - (q.2 - p.2) / (q.1 - p.1) * p.1⟩ := by
        rw [segments_cons p q, segments_cons q r]
        exact if_neg (by simpa [Ext.lt] using h)
      rw [e1, if_pos h]
      simp only [Option.map_some, linear, line]
      congr 1
      ring
    · have e1 : findCoef t (segments (p :: q :: r :: rest)) = findCoef t (segments (q :: r :: rest)) := by
        rw [segments_cons p q, segments_cons q r]
        exact if_pos (by simpa [Ext.lt] using h)
      rw [e1, if_neg h]
      exact ih

/-- The maxima of the coefficients are increasing, as `std::lower_bound` needs. -/
theorem segments_sorted : ∀ (qs : List (K × K)), qs.Pairwise (fun a b => a.1 < b.1) → (segments qs).Pairwise (fun a b => a.max.lt b.max = true)
  | [], _ => by simp [segments]
  | [_], _ => by simp [segments]
  | p :: q :: rest, h => by
    rw [segments_cons, List.pairwise_cons]
    refine ⟨?_, segments_sorted _ (List.pairwise_cons.1 h).2⟩
    have hq := (List.pairwise_cons.1 (List.pairwise_cons.1 h).2)
    have : ∀ (q : K × K) (rest : List (K × K)), ∀ c ∈ segments (q :: rest), ∃ r ∈ rest, c.max = .fin r.1 := by
      intro q rest
      induction rest generalizing q with
      | nil => intro c hc; simp [segments] at hc
      | cons r rest ih =>
        intro c hc
        rw [segments_cons] at hc
        rcases List.mem_cons.1 hc with rfl | hc
        · exact ⟨r, List.mem_cons_self, rfl⟩
        · obtain ⟨s, hs, e⟩ := ih r c hc
          exact ⟨s, List.mem_cons_of_mem _ hs, e⟩
    intro c hc
    obtain ⟨r, hr, e⟩ := this q rest c hc
    rw [e]
    simpa [Ext.lt] using hq.1 r hr

omit [LinearOrder K] in
theorem line_left (a b : K × K) : line a b a.1 = a.2 := by simp [line]

omit [LinearOrder K] in
theorem line_right {a b : K × K} (h : a.1 ≠ b.1) : line a b b.1 = b.2 := by
  unfold line
  have : b.1 - a.1 ≠ 0 := sub_ne_zero.2 (fun e => h e.symm)
  field_simp
  ring

theorem seg_first (a b : K × K) (l : List (K × K)) (t : K) (h : t ≤ b.1) : seg (a :: b :: l) t = line a b t := by
  simp [seg, h]

theorem seg_right : ∀ (l1 : List (K × K)) (a b : K × K) (l2 : List (K × K)) (t : K),
    (l1 ++ a :: b :: l2).Pairwise (fun a b => a.1 < b.1) → a.1 ≤ t → (l2 = [] ∨ t ≤ b.1) → seg (l1 ++ a :: b :: l2) t = line a b t
  | [], a, b, l2, t, _, _, h2 => by simp [seg, h2]
  | [p], a, b, l2, t, hp, h1, h2 => by
    have hpa : p.1 < a.1 := (List.pairwise_cons.1 hp).1 a (by simp)
    show seg (p :: a :: b :: l2) t = _
    simp only [seg, reduceCtorEq, false_or]
    split
    · next h =>
      have e : t = a.1 := le_antisymm h h1
      rw [e, line_left, line_right (ne_of_lt hpa)]
    · simp [h2]
  | p :: q :: l1, a, b, l2, t, hp, h1, h2 => by
    have hp' := (List.pairwise_cons.1 hp).2
    have hqa : q.1 < a.1 := (List.pairwise_cons.1 hp').1 a (by simp)
    have ih := seg_right (q :: l1) a b l2 t hp' h1 h2
    rw [← ih]
    show seg (p :: q :: (l1 ++ a :: b :: l2)) t = seg (q :: (l1 ++ a :: b :: l2)) t
    have : ¬ ((l1 ++ a :: b :: l2) = [] ∨ t ≤ q.1) := by
      rintro (h | h)
      · simp at h
      · exact absurd h (not_le_of_gt (lt_of_lt_of_le hqa h1))
    have e : seg (p :: q :: (l1 ++ a :: b :: l2)) t = if (l1 ++ a :: b :: l2) = [] ∨ t ≤ q.1 then line p q t else seg (q :: (l1 ++ a :: b :: l2)) t := rfl
    rw [e, if_neg this]

variable [IsStrictOrderedRing K]

theorem line_mono {a b : K × K} (hx : a.1 < b.1) (hy : a.2 ≤ b.2) {t t' : K} (h : t ≤ t') : line a b t ≤ line a b t' := by
  unfold line
  have : 0 ≤ (b.2 - a.2) / (b.1 - a.1) := div_nonneg (sub_nonneg.2 hy) (le_of_lt (sub_pos.2 hx))
  have := mul_le_mul_of_nonneg_right (sub_le_sub_right h a.1) this
  linarith

theorem seg_mono : ∀ (qs : List (K × K)), 2 ≤ qs.length → qs.Pairwise (fun a b => a.1 < b.1) → qs.Pairwise (fun a b => a.2 ≤ b.2) →
    ∀ {t t' : K}, t ≤ t' → seg qs t ≤ seg qs t'
  | [], h, _, _, _, _, _ => by simp at h
  | [_], h, _, _, _, _, _ => by simp at h
  | [p, q], _, hx, hy, t, t', h => by
    simp only [seg, true_or, if_true]
    exact line_mono ((List.pairwise_cons.1 hx).1 q (by simp)) ((List.pairwise_cons.1 hy).1 q (by simp)) h
  | p :: q :: r :: rest, _, hx, hy, t, t', h => by
    have hpx : p.1 < q.1 := (List.pairwise_cons.1 hx).1 q (by simp)
    have hpy : p.2 ≤ q.2 := (List.pairwise_cons.1 hy).1 q (by simp)
    have hqr : q.1 < r.1 := (List.pairwise_cons.1 (List.pairwise_cons.1 hx).2).1 r (by simp)
    have ih := fun {t t' : K} => seg_mono (q :: r :: rest) (by simp) (List.pairwise_cons.1 hx).2 (List.pairwise_cons.1 hy).2 (t := t) (t' := t')
    have e : ∀ t, seg (p :: q :: r :: rest) t = if t ≤ q.1 then line p q t else seg (q :: r :: rest) t := by
      intro t
      simp only [seg, reduceCtorEq, false_or]
    rw [e, e]
    by_cases h1 : t' ≤ q.1
    · rw [if_pos h1, if_pos (_root_.le_trans h h1)]
      exact line_mono hpx hpy h
    · rw [if_neg h1]
      by_cases h2 : t ≤ q.1
      · rw [if_pos h2]
        have a1 : line p q t ≤ q.2 := by
          rw [← line_right (ne_of_lt hpx)]
          exact line_mono hpx hpy h2
        have a2 : seg (q :: r :: rest) q.1 = q.2 := by
          rw [seg_first _ _ _ _ (le_of_lt hqr), line_left]
        have a3 := ih (le_of_lt (lt_of_not_ge h1))
        rw [a2] at a3
        exact _root_.le_trans a1 a3
      · rw [if_neg h2]
        exact ih h

/-! ## Trimming -/

omit [Field K] [IsStrictOrderedRing K] in
theorem trimFront_spec : ∀ {l : List (Pt K)}, l ≠ [] → ∃ pre f rest, l = pre ++ f :: rest ∧ trimFront l = f :: rest ∧ (∀ p ∈ pre, p.y = f.y) ∧
    (∀ g rest', rest = g :: rest' → f.y.eq g.y = false)
  | [], h => absurd rfl h
  | [a], _ => ⟨[], a, [], rfl, rfl, by simp, by simp⟩
  | a :: b :: rest, _ => by
    by_cases h : a.y.eq b.y = true
    · obtain ⟨pre, f, r, h1, h2, h3, h4⟩ := trimFront_spec (l := b :: rest) (by simp)
      refine ⟨a :: pre, f, r, by rw [h1]; rfl, by simp [trimFront, h, h2], ?_, h4⟩
      intro p hp
      rcases List.mem_cons.1 hp with rfl | hp
      · rw [(Ext.eq_iff.1 h).1]
        cases pre with
        | nil =>
          simp only [List.nil_append, List.cons.injEq] at h1
          rw [h1.1]
        | cons c pre =>
          simp only [List.cons_append, List.cons.injEq] at h1
          rw [h1.1]
          exact h3 c (by simp)
      · exact h3 p hp
    · refine ⟨[], a, b :: rest, rfl, by simp [trimFront, h], by simp, ?_⟩
      intro g rest' e
      cases e
      simpa using h

omit [Field K] [IsStrictOrderedRing K] in
theorem trimBack_spec {l : List (Pt K)} (hl : l ≠ []) : ∃ init b post, l = init ++ b :: post ∧ trimBack l = init ++ [b] ∧ (∀ p ∈ post, p.y = b.y) ∧
    (∀ init' g, init = init' ++ [g] → b.y.eq g.y = false) := by
  obtain ⟨pre, f, rest, h1, h2, h3, h4⟩ := trimFront_spec (l := l.reverse) (by simpa using hl)
  refine ⟨rest.reverse, f, pre.reverse, ?_, ?_, ?_, ?_⟩
  · have := congrArg List.reverse h1
    simpa using this
  · simp [trimBack, h2]
  · intro p hp
    exact h3 p (by simpa using hp)
  · intro init' g e
    have := congrArg List.reverse e
    simp only [List.reverse_reverse, List.reverse_append, List.reverse_cons, List.reverse_nil, List.nil_append, List.singleton_append] at this
    exact h4 g _ this

omit [Field K] [IsStrictOrderedRing K] in
theorem increasing_spec : ∀ {l : List (Pt K)}, NoNan l → (increasing l = true ↔ l.Pairwise (fun a b => a.x.lt b.x = true))
  | [], _ => by simp [increasing]
  | [a], _ => by simp [increasing]
  | a :: b :: rest, hn => by
    have hn' : NoNan (b :: rest) := fun p hp => hn p (List.mem_cons_of_mem _ hp)
    have ih := increasing_spec hn'
    have ha := hn a (by simp)
    have hb := hn b (by simp)
    simp only [increasing]
    by_cases h : b.x.le a.x = true
    · rw [if_pos h]
      simp only [Bool.false_eq_true, false_iff]
      intro hp
      have := (List.pairwise_cons.1 hp).1 b (by simp)
      rw [Ext.not_le this] at h
      cases h
    · rw [if_neg h, ih, List.pairwise_cons (a := a) (l := b :: rest)]
      have hab := Ext.lt_of_not_le hb.1 ha.1 h
      constructor
      · intro hp
        refine ⟨?_, hp⟩
        intro c hc
        rcases List.mem_cons.1 hc with rfl | hc
        · exact hab
        · exact Ext.lt_trans hab ((List.pairwise_cons.1 hp).1 c hc)
      · exact fun hp => hp.2

/-! ## The shape of a curve -/

/-- What `build` gives if it succeeds on points without NaN. -/
inductive Shape (h : Hook K) (points : List (Pt K)) : Curve K → Prop
  | const (y : Ext K) (hy : ∀ p ∈ points, p.y = y) : Shape h points (.const y)
  | pwl (pre : List (Pt K)) (front : Pt K) (mid : List (Pt K)) (back : Pt K) (post : List (Pt K)) (fk bk : Bool) (qs : List (K × K))
      (points_eq : points = pre ++ (front :: mid ++ back :: post))
      (pre_y : ∀ p ∈ pre, p.y = front.y) (post_y : ∀ p ∈ post, p.y = back.y)
      (sorted : points.Pairwise (fun a b => a.x.lt b.x = true))
      (front_fin : fk = true → (h.inn front.x).isInf = false ∧ front.y.isInf = false)
      (front_inf : fk = false → (h.inn front.x).isInf = true ∧ front.y.isInf = true)
      (back_fin : bk = true → (h.inn back.x).isInf = false ∧ back.y.isInf = false)
      (back_inf : bk = false → (h.inn back.x).isInf = true ∧ back.y.isInf = true)
      (inn_mono : ∀ x y, front.x.le x = true → x.lt y = true → (h.inn x).lt (h.inn y) = true)
      (qs_eq : List.Forall₂ (IsFin h) ((if fk then [front] else []) ++ mid ++ if bk then [back] else []) qs)
      (qs_ne : qs ≠ [])
      (ne_front : ∀ g rest, mid ++ [back] = g :: rest → front.y ≠ g.y) (ne_back : ∀ init g, front :: mid = init ++ [g] → back.y ≠ g.y) :
      Shape h points (.pwl front back (some (coefficientsFor (front.y.lt back.y) qs)))

omit [Field K] [IsStrictOrderedRing K] in
theorem finitePts_spec {h : Hook K} : ∀ {t : List (Pt K)}, (∀ p ∈ t, ∃ q, IsFin h p q) → ∃ qs, finitePts h t = some qs ∧ List.Forall₂ (IsFin h) t qs
  | [], _ => ⟨[], rfl, .nil⟩
  | p :: t, hp => by
    obtain ⟨qs, h1, h2⟩ := finitePts_spec (t := t) fun p' hp' => hp p' (List.mem_cons_of_mem _ hp')
    obtain ⟨q, hq⟩ := hp p (by simp)
    refine ⟨q :: qs, ?_, .cons hq h2⟩
    simp [finitePts, hq.1, hq.2, h1]

omit [Field K] [IsStrictOrderedRing K] in
theorem commonChecks_spec {h : Hook K} {points t : List (Pt K)} (hn : NoNan points) (hc : commonChecks h points = .ok t) :
    ∃ pre f rest init b post, points = pre ++ f :: rest ∧ f :: rest = init ++ b :: post ∧ t = init ++ [b] ∧ (∀ p ∈ pre, p.y = f.y) ∧
      (∀ g rest', rest = g :: rest' → f.y ≠ g.y) ∧ (∀ p ∈ post, p.y = b.y) ∧ (∀ init' g, init = init' ++ [g] → b.y ≠ g.y) ∧
      points.Pairwise (fun a b => a.x.lt b.x = true) ∧ (t.length = 1 ∨ ∃ first, points.head? = some first ∧ h.minOk first.x = true) := by
  unfold commonChecks at hc
  split at hc
  · next first last h1 h2 =>
    have hne : points ≠ [] := by rintro rfl; simp at h1
    obtain ⟨pre, f, rest, e1, e2, e3, e4⟩ := trimFront_spec hne
    obtain ⟨init, b, post, g1, g2, g3, g4⟩ := trimBack_spec (l := f :: rest) (by simp)
    have hfn : ∀ p ∈ f :: rest, p.y ≠ .nan := fun p hp => (hn p (by rw [e1]; exact List.mem_append_right _ hp)).2
    have hmin : increasing points = true ∧ t = trimBack (trimFront points) ∧ (t.length = 1 ∨ ∃ first, points.head? = some first ∧ h.minOk first.x = true) := by
      split at hc
      · cases hc
      · next hi =>
        have hi : increasing points = true := by simpa using hi
        dsimp only at hc
        split at hc
        · next hl => cases hc; exact ⟨hi, rfl, .inl hl⟩
        · split at hc
          · cases hc
          · split at hc
            · cases hc
            · split at hc
              · next hm => cases hc; exact ⟨hi, rfl, .inr ⟨first, h1, hm⟩⟩
              · cases hc
    obtain ⟨i1, i2, i3⟩ := hmin
    rw [e2, g2] at i2
    refine ⟨pre, f, rest, init, b, post, e1, g1, i2, e3, ?_, g3, ?_, (increasing_spec hn).1 i1, i3⟩
    · intro g rest' e he
      have := e4 g rest' e
      rw [← Bool.not_eq_true, Ext.eq_iff] at this
      exact this ⟨he, hfn f (by simp)⟩
    · intro init' g e he
      have := g4 init' g e
      rw [← Bool.not_eq_true, Ext.eq_iff] at this
      exact this ⟨he, hfn b (by rw [g1]; simp)⟩
  · cases hc

omit [IsStrictOrderedRing K] in
/-- A curve that was built has the shape. -/
theorem build_shape {h : Hook K} (hh : h.Increasing) {points : List (Pt K)} (hn : NoNan points) {c : Curve K} (hb : build h points = .ok c) :
    Shape h points c := by
  unfold build at hb
  split at hb
  · cases hb
  next t hc =>
  obtain ⟨pre, f, rest, init, b, post, e1, e2, rfl, e3, e4, e5, e6, hs, hmin⟩ := commonChecks_spec hn hc
  split at hb
  swap
  · cases hb
  next front back h1 h2 =>
  have hback : back = b := by simpa using h2.symm
  subst hback
  cases init with
  | nil =>
    simp only [List.nil_append, List.head?_cons, Option.some.injEq] at h1
    subst h1
    rw [if_pos (by rfl)] at hb
    cases hb
    refine .const _ ?_
    intro p hp
    simp only [List.nil_append, List.cons.injEq] at e2
    obtain ⟨rfl, rfl⟩ := e2
    rw [e1] at hp
    rcases List.mem_append.1 hp with hp | hp
    · exact e3 p hp
    · rcases List.mem_cons.1 hp with rfl | hp
      · rfl
      · exact e5 p hp
  | cons f' mid =>
    simp only [List.cons_append, List.head?_cons, Option.some.injEq, List.cons.injEq] at h1 e2
    subst h1
    obtain ⟨rfl, rfl⟩ := e2
    rw [if_neg (by simp)] at hb
    split at hb
    · cases hb
    split at hb
    · cases hb
    have hpts : points = pre ++ (f :: mid ++ back :: post) := by rw [e1]; simp
    have hmin : ∃ first, points.head? = some first ∧ h.minOk first.x = true := by
      rcases hmin with hm | hm
      · simp at hm
      · exact hm
    obtain ⟨first, hfirst, hmin⟩ := hmin
    have hfl : first.x.le f.x = true := by
      cases pre with
      | nil =>
        rw [hpts] at hfirst
        simp only [List.nil_append, List.cons_append, List.head?_cons, Option.some.injEq] at hfirst
        subst hfirst
        exact Ext.le_refl (hn f (by rw [hpts]; simp)).1
      | cons g pre =>
        rw [hpts] at hfirst hs
        simp only [List.cons_append, List.head?_cons, Option.some.injEq] at hfirst
        subst hfirst
        exact Ext.le_iff.2 (.inl ((List.pairwise_cons.1 hs).1 f (by simp)))
    have hmono : ∀ x y, f.x.le x = true → x.lt y = true → (h.inn x).lt (h.inn y) = true := fun x y hx hxy =>
      hh first.x x y hmin (Ext.le_trans hfl hx) hxy
    have hst : (f :: mid ++ back :: post).Pairwise (fun a b => a.x.lt b.x = true) := by
      rw [hpts] at hs
      exact (List.pairwise_append.1 hs).2.1
    have hfx : f.x ≠ .nan := (hn f (by rw [hpts]; simp)).1
    have hfy : f.y ≠ .nan := (hn f (by rw [hpts]; simp)).2
    have hby : back.y ≠ .nan := (hn back (by rw [hpts]; simp)).2
    have hfb : f.x.lt back.x = true := (List.pairwise_cons.1 hst).1 back (by simp)
    have hmid : ∀ p ∈ mid, f.x.lt p.x = true ∧ p.x.lt back.x = true := by
      intro p hp
      refine ⟨(List.pairwise_cons.1 hst).1 p (by simp [hp]), ?_⟩
      have := (List.pairwise_append.1 (List.pairwise_cons.1 hst).2).2.2 p hp back (by simp)
      exact this
    have hif := hmono f.x back.x (Ext.le_refl hfx) hfb
    have hmidfin : ∀ p ∈ mid, ∃ k, h.inn p.x = .fin k := by
      intro p hp
      obtain ⟨a1, a2⟩ := hmid p hp
      exact Ext.fin_of_between (hmono _ _ (Ext.le_refl hfx) a1) (hmono _ _ (Ext.le_iff.2 (.inl a1)) a2)
    -- the front
    have hF : ∃ fk : Bool, adjustFront h f (f :: mid ++ [back]) = .ok ((if fk then [f] else []) ++ mid ++ [back]) ∧
        (fk = true → (h.inn f.x).isInf = false ∧ f.y.isInf = false) ∧ (fk = false → (h.inn f.x).isInf = true ∧ f.y.isInf = true) := by
      cases hi : (h.inn f.x).isInf <;> cases hj : f.y.isInf
      · exact ⟨true, by simp [adjustFront, hi, hj], fun _ => ⟨rfl, rfl⟩, fun e => by cases e⟩
      · simp [adjustFront, hi, hj] at hb
      · simp [adjustFront, hi, hj] at hb
      · exact ⟨false, by simp [adjustFront, hi, hj], fun e => (by cases e), fun _ => ⟨rfl, rfl⟩⟩
    obtain ⟨fk, hF1, hF2, hF3⟩ := hF
    have hF1' : adjustFront h f (f :: (mid ++ [back])) = .ok ((if fk then [f] else []) ++ mid ++ [back]) := hF1
    simp only [List.cons_append, hF1'] at hb
    have hB : ∃ bk : Bool, adjustBack h back ((if fk then [f] else []) ++ mid ++ [back]) =
          .ok ((if fk then [f] else []) ++ mid ++ if bk then [back] else []) ∧
        ((if fk then [f] else []) ++ mid ++ if bk then [back] else []) ≠ [] ∧
        (bk = true → (h.inn back.x).isInf = false ∧ back.y.isInf = false) ∧ (bk = false → (h.inn back.x).isInf = true ∧ back.y.isInf = true) := by
      cases hi : (h.inn back.x).isInf <;> cases hj : back.y.isInf
      · exact ⟨true, by simp [adjustBack, hi, hj], by simp, fun _ => ⟨rfl, rfl⟩, fun e => by cases e⟩
      · simp [adjustBack, hi, hj] at hb
      · simp [adjustBack, hi, hj] at hb
      · by_cases he : ((if fk then [f] else []) ++ mid) = []
        · have : adjustBack h back ((if fk then [f] else []) ++ mid ++ [back]) = .error .notEnoughFinitePoints := by
            unfold adjustBack
            rw [List.dropLast_concat, he]
            simp [hi, hj]
          rw [this] at hb
          cases hb
        · refine ⟨false, ?_, by simpa using he, fun e => (by cases e), fun _ => ⟨rfl, rfl⟩⟩
          unfold adjustBack
          rw [List.dropLast_concat]
          have : ((if fk then [f] else []) ++ mid).isEmpty = false := by
            rw [← Bool.not_eq_true, List.isEmpty_iff]; exact he
          simp [hi, hj, this]
    obtain ⟨bk, hB1, hB2, hB3, hB4⟩ := hB
    rw [hB1] at hb
    dsimp only at hb
    by_cases hinf : (((if fk then [f] else []) ++ mid ++ if bk then [back] else []).any (·.y.isInf)) = true
    · rw [if_pos hinf] at hb
      cases hb
    rw [if_neg hinf] at hb
    have hinf : ∀ p ∈ ((if fk then [f] else []) ++ mid ++ if bk then [back] else []), p.y.isInf = false := by
      intro p hp
      rw [← Bool.not_eq_true]
      intro h'
      exact hinf (List.any_eq_true.2 ⟨p, hp, h'⟩)
    have hfin : ∀ p ∈ ((if fk then [f] else []) ++ mid ++ if bk then [back] else []), ∃ q, IsFin h p q := by
      intro p hp
      have hpy : p.y.isInf = false := hinf p hp
      have hpn : p ∈ points := by
        rw [hpts]
        cases fk <;> cases bk <;> simp at hp ⊢ <;> grind
      obtain ⟨y, hy⟩ := Ext.fin_of (hn p hpn).2 hpy
      have : ∃ k, h.inn p.x = .fin k := by
        rcases List.mem_append.1 hp with hp | hp
        · rcases List.mem_append.1 hp with hp | hp
          · cases fk with
            | false => simp at hp
            | true =>
              simp only [if_true, List.mem_singleton] at hp
              subst hp
              exact Ext.fin_of (Ext.lt_nan hif).1 (hF2 rfl).1
          · exact hmidfin p hp
        · cases bk with
          | false => simp at hp
          | true =>
            simp only [if_true, List.mem_singleton] at hp
            subst hp
            exact Ext.fin_of (Ext.lt_nan hif).2 (hB3 rfl).1
      obtain ⟨k, hk⟩ := this
      exact ⟨(k, y), hk, hy⟩
    obtain ⟨qs, hq1, hq2⟩ := finitePts_spec hfin
    rw [hq1] at hb
    cases hb
    refine .pwl pre f mid back post fk bk qs hpts e3 e5 hs hF2 hF3 hB3 hB4 hmono hq2 ?_ ?_ ?_
    · rintro rfl
      cases hfo : ((if fk then [f] else []) ++ mid ++ if bk then [back] else []) with
      | nil => exact hB2 hfo
      | cons a l => rw [hfo] at hq2; cases hq2
    · intro g r hg
      refine e4 g (r ++ post) ?_
      rw [← List.cons_append, ← hg]
      simp
    · intro init g hg
      exact e6 init g hg

end Verif.Curve
