import Mathlib.Analysis.SpecialFunctions.Log.Basic
import Verif.Curve.CurveLemmas

/-!
# C95: piecewise linear curves

The theorems `_partial` are about exact arithmetic: what rounding of `double` and `float` does to the values is missing.
-/

namespace Verif.Curve

variable {K : Type} [Field K] [LinearOrder K] [IsStrictOrderedRing K]

/-- The value between the ends, as a function of the transformed input. -/
theorem eval_inner {h : Hook K} {front back : Pt K} {net : Bool} {qs : List (K × K)} {x : Ext K} {t : K} (h1 : front.x.lt x = true)
    (h2 : x.lt back.x = true) (ht : h.inn x = .fin t) : (Curve.pwl front back (some (coefficientsFor net qs))).eval h x =
      (findCoef t (coefficientsFor net qs)).map fun c => .fin (linear c t) := by
  simp only [Curve.eval, Ext.not_le h1, Ext.not_le h2, Bool.false_eq_true, if_false, ht]

theorem eval_seg {h : Hook K} {front back : Pt K} {net : Bool} {qs : List (K × K)} {x : Ext K} {t : K} (h1 : front.x.lt x = true)
    (h2 : x.lt back.x = true) (ht : h.inn x = .fin t) (hl : 2 ≤ qs.length) :
    (Curve.pwl front back (some (coefficientsFor net qs))).eval h x = some (.fin (seg qs t)) := by
  rw [eval_inner h1 h2 ht]
  have e : coefficientsFor net qs = segments qs := by
    match qs, hl with
    | _ :: _ :: _, _ => rfl
  rw [e]
  have := find_seg t qs hl
  rw [Option.map_eq_some_iff] at this
  obtain ⟨c, hc, hc'⟩ := this
  rw [hc, Option.map_some, hc']

/-- The value if there is one finite point. -/
theorem eval_one {h : Hook K} {front back : Pt K} {net : Bool} {q : K × K} {x : Ext K} {t : K} (h1 : front.x.lt x = true)
    (h2 : x.lt back.x = true) (ht : h.inn x = .fin t) :
    (Curve.pwl front back (some (coefficientsFor net [q]))).eval h x = some (.fin (q.2 + (t - q.1) * if net then 1 else -1)) := by
  rw [eval_inner h1 h2 ht]
  simp only [coefficientsFor, findCoef, Option.map_some, linear]
  congr 2
  ring

theorem eval_front {h : Hook K} {front back : Pt K} {cs : Option (List (Coef K))} {x : Ext K} (h1 : x.le front.x = true) :
    (Curve.pwl front back cs).eval h x = some front.y := by
  simp [Curve.eval, h1]

theorem eval_back {h : Hook K} {front back : Pt K} {cs : Option (List (Coef K))} {x : Ext K} (h0 : front.x.lt back.x = true) (h1 : back.x.le x = true) :
    (Curve.pwl front back cs).eval h x = some back.y := by
  simp [Curve.eval, h1, Ext.not_le (Ext.lt_of_lt_of_le h0 h1)]

/-- The transformed finite points are sorted. -/
theorem qs_sorted {h : Hook K} {t : List (Pt K)} {qs : List (K × K)} (hf : List.Forall₂ (IsFin h) t qs)
    (hs : t.Pairwise (fun a b => (h.inn a.x).lt (h.inn b.x) = true)) : qs.Pairwise (fun a b => a.1 < b.1) := by
  induction hf with
  | nil => exact .nil
  | @cons p q ps qs hpq hf ih =>
    rw [List.pairwise_cons] at hs ⊢
    refine ⟨?_, ih hs.2⟩
    intro b hb
    obtain ⟨i, hi, e⟩ := List.mem_iff_getElem.1 hb
    have hl := hf.length_eq
    have hib := (List.forall₂_iff_get.1 hf).2 i (by omega) hi
    simp only [List.get_eq_getElem] at hib
    have := hs.1 ps[i] (List.getElem_mem _)
    rw [hpq.1, hib.1, e] at this
    simpa [Ext.lt] using this

/-- Two neighbours among the points are neighbours among the transformed ones. -/
theorem forall₂_split {h : Hook K} {l1 l2 : List (Pt K)} {qs : List (K × K)} (hf : List.Forall₂ (IsFin h) (l1 ++ l2) qs) :
    ∃ q1 q2, qs = q1 ++ q2 ∧ List.Forall₂ (IsFin h) l1 q1 ∧ List.Forall₂ (IsFin h) l2 q2 := by
  induction l1 generalizing qs with
  | nil => exact ⟨[], qs, rfl, .nil, hf⟩
  | cons p l1 ih =>
    cases hf with
    | @cons _ q _ qs hpq hf =>
      obtain ⟨q1, q2, rfl, a, b⟩ := ih hf
      exact ⟨q :: q1, q2, rfl, .cons hpq a, b⟩

omit [Field K] [IsStrictOrderedRing K] in
theorem isFin_unique {h : Hook K} {p : Pt K} {q q' : K × K} (h1 : IsFin h p q) (h2 : IsFin h p q') : q = q' := by
  obtain ⟨a, b⟩ := h1
  obtain ⟨c, d⟩ := h2
  rw [a] at c
  rw [b] at d
  injection c with c
  injection d with d
  exact Prod.ext c d

/-- The value between the ends. -/
def val (net : Bool) : List (K × K) → K → K
  | [q], t => q.2 + (t - q.1) * if net then 1 else -1
  | qs, t => seg qs t

theorem val_seg {net : Bool} {qs : List (K × K)} (hl : 2 ≤ qs.length) (t : K) : val net qs t = seg qs t := by
  match qs, hl with
  | _ :: _ :: _, _ => rfl

theorem eval_val {h : Hook K} {front back : Pt K} {net : Bool} {qs : List (K × K)} {x : Ext K} {t : K} (h1 : front.x.lt x = true)
    (h2 : x.lt back.x = true) (ht : h.inn x = .fin t) (hq : qs ≠ []) :
    (Curve.pwl front back (some (coefficientsFor net qs))).eval h x = some (.fin (val net qs t)) := by
  match qs, hq with
  | [q], _ => exact eval_one h1 h2 ht
  | p :: q :: rest, _ => exact eval_seg h1 h2 ht (by simp)

theorem val_at {net : Bool} {qs : List (K × K)} (hs : qs.Pairwise (fun a b => a.1 < b.1)) {a : K × K} (ha : a ∈ qs) : val net qs a.1 = a.2 := by
  obtain ⟨q1, q2, rfl⟩ := List.append_of_mem ha
  match q1, q2 with
  | [], [] => simp [val]
  | q1, r :: q2 =>
    rw [val_seg (by simp; omega), seg_right q1 a r q2 _ hs (le_refl _) (.inr (le_of_lt ?_)), line_left]
    exact (List.pairwise_cons.1 (List.pairwise_append.1 hs).2.1).1 r (by simp)
  | p :: q1, [] =>
    obtain ⟨init, l, e⟩ : ∃ init l, p :: q1 = init ++ [l] := ⟨_, _, (List.dropLast_append_getLast (l := p :: q1) (by simp)).symm⟩
    rw [e] at hs ⊢
    have hl : l.1 < a.1 := (List.pairwise_append.1 hs).2.2 l (by simp) a (by simp)
    have e' : init ++ [l] ++ [a] = init ++ l :: a :: [] := by simp
    rw [e'] at hs ⊢
    rw [val_seg (by simp), seg_right init l a [] _ hs (le_of_lt hl) (.inl rfl), line_right (ne_of_lt hl)]

theorem val_mono {qs : List (K × K)} (hq : qs ≠ []) (hs : qs.Pairwise (fun a b => a.1 < b.1)) (hy : qs.Pairwise (fun a b => a.2 ≤ b.2)) {t t' : K}
    (h : t ≤ t') : val true qs t ≤ val true qs t' := by
  match qs, hq with
  | [q], _ => simpa [val] using h
  | p :: q :: rest, _ => exact seg_mono _ (by simp) hs hy h

/-- What is known about the inner points. -/
theorem inner_facts {h : Hook K} {points pre mid post : List (Pt K)} {front back : Pt K} {fk bk : Bool} {qs : List (K × K)} (hn : NoNan points)
    (he : points = pre ++ (front :: mid ++ back :: post)) (hs : points.Pairwise (fun a b => a.x.lt b.x = true))
    (hm : ∀ x y, front.x.le x = true → x.lt y = true → (h.inn x).lt (h.inn y) = true)
    (hf : List.Forall₂ (IsFin h) ((if fk then [front] else []) ++ mid ++ if bk then [back] else []) qs) :
    front.x.lt back.x = true ∧ (∀ p ∈ pre, p.x.lt front.x = true) ∧ (∀ p ∈ post, back.x.lt p.x = true) ∧
    (∀ p ∈ mid, front.x.lt p.x = true ∧ p.x.lt back.x = true) ∧ qs.Pairwise (fun a b => a.1 < b.1) ∧
    front.x ≠ .nan ∧ back.x ≠ .nan := by
  have hfx : front.x ≠ .nan := (hn front (by rw [he]; simp)).1
  have hbx : back.x ≠ .nan := (hn back (by rw [he]; simp)).1
  have hs' := hs
  rw [he] at hs'
  obtain ⟨a1, a2, a3⟩ := List.pairwise_append.1 hs'
  rw [List.cons_append, List.pairwise_cons] at a2
  obtain ⟨b1, b2⟩ := a2
  obtain ⟨c1, c2, c3⟩ := List.pairwise_append.1 b2
  obtain ⟨d1, d2⟩ := List.pairwise_cons.1 c2
  refine ⟨b1 back (by simp), fun p hp => a3 p hp front (by simp), d1, fun p hp => ⟨b1 p (by simp [hp]), c3 p hp back (by simp)⟩, ?_, hfx, hbx⟩
  refine qs_sorted hf ?_
  have hall : (front :: mid ++ [back]).Pairwise (fun a b => (h.inn a.x).lt (h.inn b.x) = true) := by
    have h1 : (front :: mid ++ [back]).Pairwise (fun a b => a.x.lt b.x = true) := by
      rw [he] at hs
      refine hs.sublist ?_
      refine List.Sublist.trans ?_ (List.sublist_append_right pre _)
      exact List.Sublist.append_left (List.Sublist.cons_cons _ (List.nil_sublist _)) _
    refine List.Pairwise.imp_of_mem ?_ h1
    intro a b ha _ hab
    refine hm a.x b.x ?_ hab
    rcases List.mem_append.1 ha with ha | ha
    · rcases List.mem_cons.1 ha with rfl | ha
      · exact Ext.le_refl hfx
      · exact Ext.le_iff.2 (.inl (b1 a (by simp [ha])))
    · rw [List.mem_singleton] at ha
      exact Ext.le_iff.2 (.inl (b1 a (by simp [ha])))
  refine hall.sublist ?_
  have e : front :: mid ++ [back] = [front] ++ mid ++ [back] := rfl
  rw [e]
  refine List.Sublist.append (List.Sublist.append ?_ (List.Sublist.refl _)) ?_
  · cases fk
    · exact List.nil_sublist _
    · exact List.Sublist.refl _
  · cases bk
    · exact List.nil_sublist _
    · exact List.Sublist.refl _

omit [Field K] [IsStrictOrderedRing K] in
theorem forall₂_mem {h : Hook K} {t : List (Pt K)} {qs : List (K × K)} (hf : List.Forall₂ (IsFin h) t qs) :
    (∀ p ∈ t, ∃ q ∈ qs, IsFin h p q) ∧ (∀ q ∈ qs, ∃ p ∈ t, IsFin h p q) := by
  induction hf with
  | nil => exact ⟨by simp, by simp⟩
  | cons hpq _ ih =>
    constructor
    · intro p hp
      rcases List.mem_cons.1 hp with rfl | hp
      · exact ⟨_, by simp, hpq⟩
      · obtain ⟨q, hq, e⟩ := ih.1 p hp
        exact ⟨q, List.mem_cons_of_mem _ hq, e⟩
    · intro q hq
      rcases List.mem_cons.1 hq with rfl | hq
      · exact ⟨_, by simp, hpq⟩
      · obtain ⟨p, hp, e⟩ := ih.2 q hq
        exact ⟨p, List.mem_cons_of_mem _ hp, e⟩

/-- **Every curve passes through all its control points**, those with infinite coordinates included. -/
theorem eval_control_partial {h : Hook K} (hh : h.Increasing) {points : List (Pt K)} (hn : NoNan points) {c : Curve K} (hb : build h points = .ok c) :
    ∀ p ∈ points, c.eval h p.x = some p.y := by
  intro p hp
  cases build_shape hh hn hb with
  | const y hy => rw [hy p hp]; rfl
  | pwl pre front mid back post fk bk qs he h1 h2 hs h3 h4 h5 h6 hm hf hq h8 h9 =>
    obtain ⟨k1, k2, k3, k4, k5, k6, k7⟩ := inner_facts hn he hs hm hf
    rw [he] at hp
    rcases List.mem_append.1 hp with hp | hp
    · rw [h1 p hp]
      exact eval_front (Ext.le_iff.2 (.inl (k2 p hp)))
    rcases List.mem_append.1 hp with hp | hp
    · rcases List.mem_cons.1 hp with rfl | hp
      · exact eval_front (Ext.le_refl k6)
      · have hmem : p ∈ (if fk then [front] else []) ++ mid ++ if bk then [back] else [] := by simp [hp]
        obtain ⟨q, hqq, hpq⟩ := (forall₂_mem hf).1 p hmem
        rw [eval_val (k4 p hp).1 (k4 p hp).2 hpq.1 hq, val_at k5 hqq, hpq.2]
    · rcases List.mem_cons.1 hp with rfl | hp
      · exact eval_back k1 (Ext.le_refl k7)
      · rw [h2 p hp]
        exact eval_back k1 (Ext.le_iff.2 (.inl (k3 p hp)))

/-- **A curve has a value everywhere, and it is computed with finite numbers only.** -/
theorem eval_total_partial {h : Hook K} (hh : h.Increasing) {points : List (Pt K)} (hn : NoNan points) {c : Curve K} (hb : build h points = .ok c)
    {x : Ext K} (hx : x ≠ .nan) : ∃ y, c.eval h x = some y ∧ y ≠ .nan := by
  cases hsh : build_shape hh hn hb with
  | const y hy =>
    have hne : points ≠ [] := by
      rintro rfl
      simp [build, commonChecks] at hb
    obtain ⟨p, rest, rfl⟩ := List.exists_cons_of_ne_nil hne
    exact ⟨y, rfl, by rw [← hy p (by simp)]; exact (hn p (by simp)).2⟩
  | pwl pre front mid back post fk bk qs he h1 h2 hs h3 h4 h5 h6 hm hf hq h8 h9 =>
    obtain ⟨k1, k2, k3, k4, k5, k6, k7⟩ := inner_facts hn he hs hm hf
    by_cases hf' : x.le front.x = true
    · exact ⟨_, eval_front hf', (hn front (by rw [he]; simp)).2⟩
    by_cases hb' : back.x.le x = true
    · exact ⟨_, eval_back k1 hb', (hn back (by rw [he]; simp)).2⟩
    have l1 := Ext.lt_of_not_le hx k6 hf'
    have l2 := Ext.lt_of_not_le k7 hx hb'
    obtain ⟨t, ht⟩ := Ext.fin_of_between (hm _ _ (Ext.le_refl k6) l1) (hm _ _ (Ext.le_iff.2 (.inl l1)) l2)
    exact ⟨_, eval_val l1 l2 ht hq, by simp⟩

omit [Field K] [IsStrictOrderedRing K] in
theorem neighbours {points l1 l2 : List (Pt K)} {p q : Pt K} (hs : points.Pairwise (fun a b => a.x.lt b.x = true))
    (hp : points = l1 ++ p :: q :: l2) : p.x.lt q.x = true ∧ ∀ r ∈ points, r.x.lt p.x = true ∨ r = p ∨ r = q ∨ q.x.lt r.x = true := by
  rw [hp] at hs
  obtain ⟨a1, a2, a3⟩ := List.pairwise_append.1 hs
  obtain ⟨b1, b2⟩ := List.pairwise_cons.1 a2
  obtain ⟨c1, c2⟩ := List.pairwise_cons.1 b2
  refine ⟨b1 q (by simp), ?_⟩
  intro r hr
  rw [hp] at hr
  rcases List.mem_append.1 hr with hr | hr
  · exact .inl (a3 r hr p (by simp))
  · rcases List.mem_cons.1 hr with rfl | hr
    · exact .inr (.inl rfl)
    · rcases List.mem_cons.1 hr with rfl | hr
      · exact .inr (.inr (.inl rfl))
      · exact .inr (.inr (.inr (c1 r hr)))

omit [LinearOrder K] [IsStrictOrderedRing K] in
theorem line_flat {a b : K × K} (h : a.2 = b.2) (t : K) : line a b t = a.2 := by
  simp [line, h]

omit [Field K] [IsStrictOrderedRing K] in
theorem same_pt {points : List (Pt K)} (hs : points.Pairwise (fun a b => a.x.lt b.x = true)) {p q : Pt K} (hp : p ∈ points) (hq : q ∈ points)
    (he : p.x = q.x) : p = q := by
  induction points with
  | nil => cases hp
  | cons r rest ih =>
    obtain ⟨b1, b2⟩ := List.pairwise_cons.1 hs
    rcases List.mem_cons.1 hp with e1 | hp'
    · rcases List.mem_cons.1 hq with e2 | hq'
      · rw [e1, e2]
      · have := b1 q hq'
        rw [← e1, he, Ext.lt_irrefl] at this
        cases this
    · rcases List.mem_cons.1 hq with e2 | hq'
      · have := b1 p hp'
        rw [← e2, he, Ext.lt_irrefl] at this
        cases this
      · exact ih b2 hp' hq'

/-- **Between two neighbouring finite control points the curve is the line through them** (in the transformed coordinate). -/
theorem eval_between_partial {h : Hook K} (hh : h.Increasing) {points : List (Pt K)} (hn : NoNan points) {c : Curve K} (hb : build h points = .ok c)
    {l1 l2 : List (Pt K)} {p q : Pt K} (hp : points = l1 ++ p :: q :: l2) {a b : K × K} (ha : IsFin h p a) (hqb : IsFin h q b)
    {x : Ext K} (hx1 : p.x.le x = true) (hx2 : x.le q.x = true) {t : K} (ht : h.inn x = .fin t) : c.eval h x = some (.fin (line a b t)) := by
  have hpm : p ∈ points := by rw [hp]; simp
  have hqm : q ∈ points := by rw [hp]; simp
  cases build_shape hh hn hb with
  | const y hy =>
    have e1 := hy p hpm
    have e2 := hy q hqm
    rw [ha.2] at e1
    rw [hqb.2, ← e1] at e2
    injection e2 with e2
    rw [line_flat e2.symm, e1]
    rfl
  | pwl pre front mid back post fk bk qs he h1 h2 hs h3 h4 h5 h6 hm hf hq h8 h9 =>
    obtain ⟨k1, k2, k3, k4, k5, k6, k7⟩ := inner_facts hn he hs hm hf
    obtain ⟨n1, n2⟩ := neighbours hs hp
    have hpn := (hn p hpm).1
    have hqn := (hn q hqm).1
    have hfm : front ∈ points := by rw [he]; simp
    have hbm : back ∈ points := by rw [he]; simp
    have hleft : ∀ r ∈ points, r.x.le front.x = true → r.y = front.y := by
      intro r hr hle
      rw [Ext.le_iff] at hle
      rcases hle with hle | ⟨hle, _⟩
      · rw [he] at hr
        rcases List.mem_append.1 hr with hr | hr
        · exact h1 r hr
        · exfalso
          have : front.x.le r.x = true := by
            rcases List.mem_append.1 hr with hr | hr
            · rcases List.mem_cons.1 hr with rfl | hr
              · exact Ext.le_refl k6
              · exact Ext.le_iff.2 (.inl (k4 r hr).1)
            · rcases List.mem_cons.1 hr with rfl | hr
              · exact Ext.le_iff.2 (.inl k1)
              · exact Ext.le_iff.2 (.inl (Ext.lt_trans k1 (k3 r hr)))
          rw [Ext.not_le hle] at this
          cases this
      · rw [same_pt hs hr hfm hle]
    have hright : ∀ r ∈ points, back.x.le r.x = true → r.y = back.y := by
      intro r hr hle
      rw [Ext.le_iff] at hle
      rcases hle with hle | ⟨hle, _⟩
      · rw [he] at hr
        have hno : ¬ r.x.le back.x = true := by rw [Ext.not_le hle]; simp
        rcases List.mem_append.1 hr with hr | hr
        · exact absurd (Ext.le_iff.2 (.inl (Ext.lt_trans (k2 r hr) k1))) hno
        · rcases List.mem_append.1 hr with hr | hr
          · rcases List.mem_cons.1 hr with rfl | hr
            · exact absurd (Ext.le_iff.2 (.inl k1)) hno
            · exact absurd (Ext.le_iff.2 (.inl (k4 r hr).2)) hno
          · rcases List.mem_cons.1 hr with rfl | hr
            · rfl
            · exact h2 r hr
      · rw [same_pt hs hr hbm hle.symm]
    by_cases c1 : q.x.le front.x = true
    · have e1 := hleft q hqm c1
      have e2 := hleft p hpm (Ext.le_trans (Ext.le_iff.2 (.inl n1)) c1)
      rw [eval_front (Ext.le_trans hx2 c1)]
      rw [hqb.2] at e1
      rw [ha.2, ← e1] at e2
      injection e2 with e2
      rw [line_flat e2, ← e1, e2]
    by_cases c2 : back.x.le p.x = true
    · have e1 := hright p hpm c2
      have e2 := hright q hqm (Ext.le_trans c2 (Ext.le_iff.2 (.inl n1)))
      rw [eval_back k1 (Ext.le_trans c2 hx1)]
      rw [ha.2] at e1
      rw [hqb.2, ← e1] at e2
      injection e2 with e2
      rw [line_flat e2.symm, ← e1]
    have c1 := Ext.lt_of_not_le hqn k6 c1
    have c2 := Ext.lt_of_not_le k7 hpn c2
    have hfp : front.x.le p.x = true := by
      rcases n2 front hfm with n | n | n | n
      · exact Ext.le_iff.2 (.inl n)
      · rw [n]; exact Ext.le_refl hpn
      · rw [n, Ext.lt_irrefl] at c1; cases c1
      · rw [Ext.lt_asymm c1] at n; cases n
    have hqbk : q.x.le back.x = true := by
      rcases n2 back hbm with n | n | n | n
      · rw [Ext.lt_asymm c2] at n; cases n
      · rw [n, Ext.lt_irrefl] at c2; cases c2
      · rw [n]; exact Ext.le_refl hqn
      · exact Ext.le_iff.2 (.inl n)
    have hfq : front.x.le q.x = true := Ext.le_iff.2 (.inl c1)
    by_cases d1 : x.le front.x = true
    · have e : p.x = front.x := by
        have := Ext.le_trans hx1 d1
        rw [Ext.le_iff] at this
        rcases this with g | ⟨g, _⟩
        · rw [Ext.not_le g] at hfp; cases hfp
        · exact g
      have ep := same_pt hs hpm hfm e
      subst ep
      have ex : x = p.x := by
        rw [Ext.le_iff] at d1
        rcases d1 with g | ⟨g, _⟩
        · rw [Ext.not_le g] at hx1; cases hx1
        · exact g
      rw [ex, ha.1] at ht
      injection ht with ht
      rw [eval_front d1, ← ht, line_left, ha.2]
    by_cases d2 : back.x.le x = true
    · have e : q.x = back.x := by
        have := Ext.le_trans d2 hx2
        rw [Ext.le_iff] at this
        rcases this with g | ⟨g, _⟩
        · rw [Ext.not_le g] at hqbk; cases hqbk
        · exact g.symm
      have eq := same_pt hs hqm hbm e
      subst eq
      have ex : x = q.x := by
        rw [Ext.le_iff] at d2
        rcases d2 with g | ⟨g, _⟩
        · rw [Ext.not_le g] at hx2; cases hx2
        · exact g.symm
      have hlt := hm p.x q.x hfp n1
      rw [ha.1, hqb.1] at hlt
      rw [ex, hqb.1] at ht
      injection ht with ht
      rw [eval_back k1 d2, ← ht, line_right (ne_of_lt (by simpa [Ext.lt] using hlt)), hqb.2]
    have hxn : x ≠ .nan := by
      rintro rfl
      simp [Ext.le_iff, Ext.lt] at hx2
    have l1' := Ext.lt_of_not_le hxn k6 d1
    have l2' := Ext.lt_of_not_le k7 hxn d2
    -- the finite points
    have hmemT : ∀ r, r ∈ points → front.x.le r.x = true → r.x.le back.x = true → ∀ s, IsFin h r s →
        r ∈ (if fk then [front] else []) ++ mid ++ if bk then [back] else [] := by
      intro r hr hr1 hr2 s hrs
      rw [he] at hr
      rcases List.mem_append.1 hr with hr | hr
      · rw [Ext.not_le (k2 r hr)] at hr1; cases hr1
      rcases List.mem_append.1 hr with hr | hr
      · rcases List.mem_cons.1 hr with rfl | hr
        · cases fk with
          | true => simp
          | false => have := (h4 rfl).1; rw [hrs.1] at this; simp [Ext.isInf] at this
        · simp [hr]
      · rcases List.mem_cons.1 hr with rfl | hr
        · cases bk with
          | true => simp
          | false => have := (h6 rfl).1; rw [hrs.1] at this; simp [Ext.isInf] at this
        · rw [Ext.not_le (k3 r hr)] at hr2; cases hr2
    have hTp : ∀ r ∈ (if fk then [front] else []) ++ mid ++ (if bk then [back] else []), r ∈ points ∧ front.x.le r.x = true := by
      intro r hr
      rcases List.mem_append.1 hr with hr | hr
      · rcases List.mem_append.1 hr with hr | hr
        · cases fk with
          | false => simp at hr
          | true => simp at hr; subst hr; exact ⟨hfm, Ext.le_refl k6⟩
        · exact ⟨by rw [he]; simp [hr], Ext.le_iff.2 (.inl (k4 r hr).1)⟩
      · cases bk with
        | false => simp at hr
        | true => simp at hr; subst hr; exact ⟨hbm, Ext.le_iff.2 (.inl k1)⟩
    obtain ⟨a', ha', hpa⟩ := (forall₂_mem hf).1 p (hmemT p hpm hfp (Ext.le_trans (Ext.le_iff.2 (.inl n1)) hqbk) a ha)
    obtain rfl := isFin_unique hpa ha
    obtain ⟨b', hb', hqb'⟩ := (forall₂_mem hf).1 q (hmemT q hqm hfq hqbk b hqb)
    obtain rfl := isFin_unique hqb' hqb
    have hlt := hm p.x q.x hfp n1
    rw [ha.1, hqb.1] at hlt
    have hab : a'.1 < b'.1 := by simpa [Ext.lt] using hlt
    obtain ⟨q1, q2, hq12⟩ := List.append_of_mem ha'
    have hbq2 : b' ∈ q2 := by
      rw [hq12] at hb' k5
      obtain ⟨a1, a2, a3⟩ := List.pairwise_append.1 k5
      rcases List.mem_append.1 hb' with g | g
      · exact absurd (a3 b' g a' (by simp)) (not_lt_of_gt hab)
      · rcases List.mem_cons.1 g with g | g
        · rw [g] at hab; exact absurd hab (lt_irrefl _)
        · exact g
    have hr : ∃ q3, q2 = b' :: q3 := by
      cases q2 with
      | nil => cases hbq2
      | cons r q3 =>
        refine ⟨q3, ?_⟩
        rcases List.mem_cons.1 hbq2 with g | g
        · rw [g]
        · exfalso
          rw [hq12] at k5
          obtain ⟨a1, a2, a3⟩ := List.pairwise_append.1 k5
          obtain ⟨b1, b2⟩ := List.pairwise_cons.1 a2
          have m1 : a'.1 < r.1 := b1 r (by simp)
          have m2 : r.1 < b'.1 := (List.pairwise_cons.1 b2).1 b' g
          obtain ⟨s, hs1, hs2⟩ := (forall₂_mem hf).2 r (by rw [hq12]; simp)
          obtain ⟨hsm, hsf⟩ := hTp s hs1
          rcases n2 s hsm with n | n | n | n
          · have := hm s.x p.x hsf n
            rw [hs2.1, ha.1] at this
            exact absurd (by simpa [Ext.lt] using this) (not_lt_of_gt m1)
          · subst n
            rw [isFin_unique hs2 ha] at m1
            exact lt_irrefl _ m1
          · subst n
            rw [isFin_unique hs2 hqb] at m2
            exact lt_irrefl _ m2
          · have := hm q.x s.x hfq n
            rw [hs2.1, hqb.1] at this
            exact absurd (by simpa [Ext.lt] using this) (not_lt_of_gt m2)
    obtain ⟨q3, rfl⟩ := hr
    have t1 : a'.1 ≤ t := by
      rw [Ext.le_iff] at hx1
      rcases hx1 with g | ⟨g, _⟩
      · have := hm p.x x hfp g
        rw [ha.1, ht] at this
        exact le_of_lt (by simpa [Ext.lt] using this)
      · rw [← g, ha.1] at ht
        injection ht with ht
        exact le_of_eq ht
    have t2 : t ≤ b'.1 := by
      rw [Ext.le_iff] at hx2
      rcases hx2 with g | ⟨g, _⟩
      · have := hm x q.x (Ext.le_iff.2 (.inl l1')) g
        rw [hqb.1, ht] at this
        exact le_of_lt (by simpa [Ext.lt] using this)
      · rw [g, hqb.1] at ht
        injection ht with ht
        exact le_of_eq ht.symm
    rw [hq12] at k5 ⊢
    rw [eval_seg l1' l2' ht (by simp; omega), seg_right q1 a' b' q3 t k5 t1 (.inr t2)]

/-- **To the left of the first control point and to the right of the last one the curve is constant.** -/
theorem eval_outside {h : Hook K} (hh : h.Increasing) {points : List (Pt K)} (hn : NoNan points) {c : Curve K} (hb : build h points = .ok c)
    {x : Ext K} : (∀ p, points.head? = some p → x.le p.x = true → c.eval h x = some p.y) ∧
      (∀ p, points.getLast? = some p → p.x.le x = true → c.eval h x = some p.y) := by
  cases build_shape hh hn hb with
  | const y hy =>
    exact ⟨fun p hp _ => by rw [hy p (List.mem_of_mem_head? hp)]; rfl, fun p hp _ => by rw [hy p (List.mem_of_mem_getLast? hp)]; rfl⟩
  | pwl pre front mid back post fk bk qs he h1 h2 hs h3 h4 h5 h6 hm hf hq h8 h9 =>
    obtain ⟨k1, k2, k3, k4, k5, k6, k7⟩ := inner_facts hn he hs hm hf
    constructor
    · intro p hp hx
      rw [he] at hp
      cases pre with
      | nil =>
        simp only [List.nil_append, List.cons_append, List.head?_cons, Option.some.injEq] at hp
        subst hp
        exact eval_front hx
      | cons r pre =>
        simp only [List.cons_append, List.head?_cons, Option.some.injEq] at hp
        subst hp
        rw [h1 r (by simp)]
        exact eval_front (Ext.le_trans hx (Ext.le_iff.2 (.inl (k2 r (by simp)))))
    · intro p hp hx
      rw [he] at hp
      have hp' : p ∈ back :: post := by
        have : (back :: post).getLast? = some p := by
          rw [← hp, ← List.append_assoc, List.getLast?_append_cons]
        exact List.mem_of_mem_getLast? this
      rcases List.mem_cons.1 hp' with rfl | hp'
      · exact eval_back k1 hx
      · rw [h2 p hp']
        exact eval_back k1 (Ext.le_trans (Ext.le_iff.2 (.inl (k3 p hp'))) hx)

/-- **A curve whose control points do not fall does not fall.** -/
theorem eval_monotone_partial {h : Hook K} (hh : h.Increasing) {points : List (Pt K)} (hn : NoNan points) {c : Curve K} (hb : build h points = .ok c)
    (hy : points.Pairwise (fun a b => a.y.le b.y = true)) {x x' y y' : Ext K} (hx : x.le x' = true) (h1 : c.eval h x = some y)
    (h2 : c.eval h x' = some y') : y.le y' = true := by
  obtain ⟨w, hw⟩ := eval_total_partial hh hn hb (x := x) (by rintro rfl; simp [Ext.le, Ext.lt, Ext.eq] at hx)
  have hyn : y ≠ .nan := by rw [h1] at hw; cases hw.1; exact hw.2
  cases build_shape hh hn hb with
  | const z hz =>
    cases h1; cases h2
    exact Ext.le_refl hyn
  | pwl pre front mid back post fk bk qs he g1 g2 hs g3 g4 g5 g6 hm hf hq g8 g9 =>
    obtain ⟨k1, k2, k3, k4, k5, k6, k7⟩ := inner_facts hn he hs hm hf
    have hyT : (front :: mid ++ [back]).Pairwise (fun a b => a.y.le b.y = true) := by
      rw [he] at hy
      refine hy.sublist (List.Sublist.trans ?_ (List.sublist_append_right pre _))
      exact List.Sublist.append_left (List.Sublist.cons_cons _ (List.nil_sublist _)) _
    have hTsub : ((if fk then [front] else []) ++ mid ++ if bk then [back] else []).Sublist (front :: mid ++ [back]) := by
      have e : front :: mid ++ [back] = [front] ++ mid ++ [back] := rfl
      rw [e]
      refine List.Sublist.append (List.Sublist.append ?_ (List.Sublist.refl _)) ?_
      · cases fk
        · exact List.nil_sublist _
        · exact List.Sublist.refl _
      · cases bk
        · exact List.nil_sublist _
        · exact List.Sublist.refl _
    have hqy : qs.Pairwise (fun a b => a.2 ≤ b.2) := by
      have := hyT.sublist hTsub
      clear hTsub
      generalize ((if fk then [front] else []) ++ mid ++ if bk then [back] else []) = T at hf this
      clear hq g3 g4 g5 g6 k5 h1 h2 hb hw
      induction hf with
      | nil => exact .nil
      | @cons p q ps qs hpq hf ih =>
        rw [List.pairwise_cons] at this ⊢
        refine ⟨?_, ih this.2⟩
        intro b hb
        obtain ⟨r, hr, hrb⟩ := (forall₂_mem hf).2 b hb
        have := this.1 r hr
        rw [hpq.2, hrb.2] at this
        simp only [Ext.le, Ext.lt, Ext.eq, Bool.or_eq_true, decide_eq_true_eq] at this
        exact this.elim le_of_lt le_of_eq
    have hfb : front.y.le back.y = true := (List.pairwise_cons.1 hyT).1 back (by simp)
    have hnet : front.y.lt back.y = true := by
      cases hmid : mid with
      | nil =>
        have := g8 back [] (by rw [hmid]; rfl)
        exact (Ext.le_iff.1 hfb).resolve_right fun e => this e.1
      | cons g rest =>
        have hne := g8 g (rest ++ [back]) (by rw [hmid]; rfl)
        rw [hmid] at hyT
        have := (List.pairwise_cons.1 hyT).1 g (by simp)
        have hgb : g.y.le back.y = true := (List.pairwise_cons.1 (List.pairwise_cons.1 hyT).2).1 back (by simp)
        exact Ext.lt_of_lt_of_le ((Ext.le_iff.1 this).resolve_right fun e => hne e.1) hgb
    have hfn : front.y ≠ .nan := (hn front (by rw [he]; simp)).2
    have hbn : back.y ≠ .nan := (hn back (by rw [he]; simp)).2
    have hvf : ∀ t z, front.x.lt z = true → z.lt back.x = true → h.inn z = .fin t → front.y.le (.fin (val true qs t)) = true := by
      intro t z hz _ ht
      cases hk : fk with
      | false =>
        have := (g4 hk).2
        cases hfy : front.y with
        | neg => rfl
        | pos => rw [hfy] at hnet; simp [Ext.lt] at hnet
        | fin k => rw [hfy] at this; simp [Ext.isInf] at this
        | nan => exact absurd hfy hfn
      | true =>
        obtain ⟨a, haq, ha⟩ := (forall₂_mem hf).1 front (by simp [hk])
        have hlt := hm front.x z (Ext.le_refl k6) hz
        rw [ha.1, ht] at hlt
        have := val_mono hq k5 hqy (t := a.1) (t' := t) (le_of_lt (by simpa [Ext.lt] using hlt))
        rw [val_at k5 haq] at this
        rw [ha.2]
        simp only [Ext.le, Ext.lt, Ext.eq, Bool.or_eq_true, decide_eq_true_eq]
        exact lt_or_eq_of_le this
    have hvb : ∀ t z, front.x.lt z = true → z.lt back.x = true → h.inn z = .fin t → Ext.le (.fin (val true qs t)) back.y = true := by
      intro t z hzf hz ht
      cases hk : bk with
      | false =>
        have := (g6 hk).2
        cases hfy : back.y with
        | pos => rfl
        | neg =>
          rw [hfy] at hnet
          cases hc : front.y <;> rw [hc] at hnet <;> simp [Ext.lt] at hnet
        | fin k => rw [hfy] at this; simp [Ext.isInf] at this
        | nan => exact absurd hfy hbn
      | true =>
        obtain ⟨a, haq, ha⟩ := (forall₂_mem hf).1 back (by simp [hk])
        have hlt := hm z back.x (Ext.le_iff.2 (.inl hzf)) hz
        rw [ha.1, ht] at hlt
        have := val_mono hq k5 hqy (t := t) (t' := a.1) (le_of_lt (by simpa [Ext.lt] using hlt))
        rw [val_at k5 haq] at this
        rw [ha.2]
        simp only [Ext.le, Ext.lt, Ext.eq, Bool.or_eq_true, decide_eq_true_eq]
        exact lt_or_eq_of_le this
    rw [hnet] at h1 h2
    have hxn : x ≠ .nan := by rintro rfl; simp [Ext.le, Ext.lt, Ext.eq] at hx
    have hxn' : x' ≠ .nan := by
      rintro rfl
      cases x <;> simp [Ext.le, Ext.lt, Ext.eq] at hx
    by_cases d1 : x.le front.x = true
    · rw [eval_front d1] at h1
      cases h1
      by_cases d2 : x'.le front.x = true
      · rw [eval_front d2] at h2
        cases h2
        exact Ext.le_refl hfn
      by_cases d3 : back.x.le x' = true
      · rw [eval_back k1 d3] at h2
        cases h2
        exact hfb
      have m1 := Ext.lt_of_not_le hxn' k6 d2
      have m2 := Ext.lt_of_not_le k7 hxn' d3
      obtain ⟨t, ht⟩ := Ext.fin_of_between (hm _ _ (Ext.le_refl k6) m1) (hm _ _ (Ext.le_iff.2 (.inl m1)) m2)
      rw [eval_val m1 m2 ht hq] at h2
      cases h2
      exact hvf t x' m1 m2 ht
    have e1 := Ext.lt_of_not_le hxn k6 d1
    have e1' := Ext.lt_of_lt_of_le e1 hx
    by_cases d3 : back.x.le x' = true
    · rw [eval_back k1 d3] at h2
      cases h2
      by_cases d4 : back.x.le x = true
      · rw [eval_back k1 d4] at h1
        cases h1
        exact Ext.le_refl hbn
      have m2 := Ext.lt_of_not_le k7 hxn d4
      obtain ⟨t, ht⟩ := Ext.fin_of_between (hm _ _ (Ext.le_refl k6) e1) (hm _ _ (Ext.le_iff.2 (.inl e1)) m2)
      rw [eval_val e1 m2 ht hq] at h1
      cases h1
      exact hvb t x e1 m2 ht
    have m2' := Ext.lt_of_not_le k7 hxn' d3
    have m2 := Ext.lt_of_le_of_lt hx m2'
    obtain ⟨t, ht⟩ := Ext.fin_of_between (hm _ _ (Ext.le_refl k6) e1) (hm _ _ (Ext.le_iff.2 (.inl e1)) m2)
    obtain ⟨t', ht'⟩ := Ext.fin_of_between (hm _ _ (Ext.le_refl k6) e1') (hm _ _ (Ext.le_iff.2 (.inl e1')) m2')
    rw [eval_val e1 m2 ht hq] at h1
    rw [eval_val e1' m2' ht' hq] at h2
    cases h1; cases h2
    have htt : t ≤ t' := by
      rw [Ext.le_iff] at hx
      rcases hx with g | ⟨g, _⟩
      · have := hm x x' (Ext.le_iff.2 (.inl e1)) g
        rw [ht, ht'] at this
        exact le_of_lt (by simpa [Ext.lt] using this)
      · rw [g, ht'] at ht
        injection ht with ht
        exact le_of_eq ht.symm
    have := val_mono hq k5 hqy htt
    simp only [Ext.le, Ext.lt, Ext.eq, Bool.or_eq_true, decide_eq_true_eq]
    exact lt_or_eq_of_le this

/-- **From an infinite first control point the curve follows the line of the first two finite ones.** -/
theorem eval_extension_partial {h : Hook K} (hh : h.Increasing) {p0 p1 p2 : Pt K} {rest : List (Pt K)} (hn : NoNan (p0 :: p1 :: p2 :: rest)) {c : Curve K}
    (hb : build h (p0 :: p1 :: p2 :: rest) = .ok c) (hinf : p0.y.isInf = true) {a b : K × K} (ha : IsFin h p1 a) (hab : IsFin h p2 b)
    (hne : a.2 ≠ b.2) {x : Ext K} (hx1 : p0.x.lt x = true) (hx2 : x.le p1.x = true) {t : K} (ht : h.inn x = .fin t) :
    c.eval h x = some (.fin (line a b t)) := by
  cases build_shape hh hn hb with
  | const y hy =>
    exfalso
    have e1 := hy p1 (by simp)
    have e2 := hy p2 (by simp)
    rw [ha.2] at e1
    rw [hab.2, ← e1] at e2
    injection e2 with e2
    exact hne e2.symm
  | pwl pre front mid back post fk bk qs he h1 h2 hs h3 h4 h5 h6 hm hf hq h8 h9 =>
    obtain ⟨k1, k2, k3, k4, k5, k6, k7⟩ := inner_facts hn he hs hm hf
    -- nothing is trimmed before the first point, as its `y` is not that of the second
    have hpre : pre = [] := by
      cases pre with
      | nil => rfl
      | cons r pre =>
        exfalso
        simp only [List.cons_append, List.cons.injEq] at he
        have e0 := h1 p0 (by rw [he.1]; simp)
        cases pre with
        | nil =>
          simp only [List.nil_append, List.cons.injEq] at he
          rw [← he.2.1, ha.2] at e0
          rw [e0] at hinf
          simp [Ext.isInf] at hinf
        | cons s pre =>
          simp only [List.cons_append, List.cons.injEq] at he
          have e1 := h1 p1 (by rw [he.2.1]; simp)
          rw [← e1, ha.2] at e0
          rw [e0] at hinf
          simp [Ext.isInf] at hinf
    subst hpre
    simp only [List.nil_append, List.cons_append, List.cons.injEq] at he
    obtain ⟨rfl, he⟩ := he
    have hfk : fk = false := by
      cases fk with
      | false => rfl
      | true => have := (h3 rfl).2; rw [hinf] at this; cases this
    subst hfk
    cases mid with
    | nil =>
      exfalso
      simp only [List.nil_append, List.cons.injEq] at he
      obtain ⟨rfl, he⟩ := he
      have := h2 p2 (by rw [← he]; simp)
      rw [ha.2, hab.2] at this
      injection this with this
      exact hne this.symm
    | cons m1 mid =>
      simp only [List.cons_append, List.cons.injEq] at he
      obtain ⟨rfl, he⟩ := he
      have hqs : ∃ q3, qs = a :: b :: q3 := by
        cases mid with
        | nil =>
          simp only [List.nil_append, List.cons.injEq] at he
          obtain ⟨rfl, he⟩ := he
          have hbk : bk = true := by
            cases bk with
            | true => rfl
            | false => have := (h6 rfl).1; rw [hab.1] at this; simp [Ext.isInf] at this
          subst hbk
          simp only [Bool.false_eq_true, if_false, if_true, List.nil_append, List.cons_append] at hf
          cases hf with
          | cons f1 hf =>
            cases hf with
            | cons f2 hf =>
              rw [isFin_unique f1 ha, isFin_unique f2 hab]
              exact ⟨_, rfl⟩
        | cons m2 mid =>
          simp only [List.cons_append, List.cons.injEq] at he
          obtain ⟨rfl, he⟩ := he
          simp only [Bool.false_eq_true, if_false, List.nil_append, List.cons_append] at hf
          cases hf with
          | cons f1 hf =>
            cases hf with
            | cons f2 hf =>
              rw [isFin_unique f1 ha, isFin_unique f2 hab]
              exact ⟨_, rfl⟩
      obtain ⟨q3, rfl⟩ := hqs
      have hx3 : x.lt back.x = true := Ext.lt_of_le_of_lt hx2 (k4 p1 (by simp)).2
      have t1 : t ≤ a.1 := by
        rw [Ext.le_iff] at hx2
        rcases hx2 with g | ⟨g, _⟩
        · have := hm x p1.x (Ext.le_iff.2 (.inl hx1)) g
          rw [ht, ha.1] at this
          exact le_of_lt (by simpa [Ext.lt] using this)
        · rw [g, ha.1] at ht
          injection ht with ht
          exact le_of_eq ht.symm
      have t2 : a.1 < b.1 := (List.pairwise_cons.1 k5).1 b (by simp)
      rw [eval_seg hx1 hx3 ht (by simp), seg_first _ _ _ _ (_root_.le_trans t1 (le_of_lt t2))]

theorem build_checked {h : Hook K} {points : List (Pt K)} {c : Curve K} (hb : build h points = .ok c) :
    ∃ t front back, commonChecks h points = .ok t ∧ t.head? = some front ∧ t.getLast? = some back ∧
      (t.length = 1 ∨ wrongSignAt front.y t = false ∧ wrongSignAt back.y t.reverse = false) := by
  unfold build at hb
  split at hb
  · cases hb
  next t hc =>
  split at hb
  · next front back h1 h2 =>
    refine ⟨t, front, back, hc, h1, h2, ?_⟩
    by_cases hl : t.length = 1
    · exact .inl hl
    · rw [if_neg hl] at hb
      cases hw : wrongSignAt front.y t with
      | true => rw [hw] at hb; simp at hb
      | false =>
        cases hv : wrongSignAt back.y t.reverse with
        | true => rw [hw, hv] at hb; simp at hb
        | false => exact .inr ⟨rfl, rfl⟩
  · cases hb

theorem monotonic_inf {y : Ext K} {a b : K} (hy : y.isInf = true) (h : strictlyMonotonic y (.fin a) (.fin b) = true) :
    (y = .neg ∧ a < b) ∨ (y = .pos ∧ b < a) := by
  cases y <;> simp_all [Ext.isInf, strictlyMonotonic, Ext.lt]

/-- **An infinite control point at an end is one that the line of its two neighbours tends to.** -/
theorem build_front_sign {h : Hook K} {p0 p1 p2 : Pt K} {rest : List (Pt K)} (hn : NoNan (p0 :: p1 :: p2 :: rest)) {c : Curve K}
    (hb : build h (p0 :: p1 :: p2 :: rest) = .ok c) (hinf : p0.y.isInf = true) {a b : K} (ha : p1.y = .fin a) (hab : p2.y = .fin b)
    (hne : a ≠ b) : (p0.y = .neg ∧ a < b) ∨ (p0.y = .pos ∧ b < a) := by
  obtain ⟨t, front, back, hc, h1, h2, h3⟩ := build_checked hb
  obtain ⟨pre, f, r, init, bk, post, e1, e2, rfl, e3, e4, e5, e6, -, -⟩ := commonChecks_spec hn hc
  have h01 : p0.y ≠ p1.y := by
    intro e
    rw [e, ha] at hinf
    simp [Ext.isInf] at hinf
  have h12 : p1.y ≠ p2.y := by
    rw [ha, hab]
    intro e
    injection e with e
    exact hne e
  have hpre : pre = [] := by
    cases pre with
    | nil => rfl
    | cons x pre =>
      exfalso
      simp only [List.cons_append, List.cons.injEq] at e1
      obtain ⟨rfl, e1⟩ := e1
      have g0 := e3 p0 (by simp)
      cases pre with
      | nil =>
        simp only [List.nil_append, List.cons.injEq] at e1
        exact h01 (g0.trans (congrArg Pt.y e1.1).symm)
      | cons x pre =>
        simp only [List.cons_append, List.cons.injEq] at e1
        exact h01 (g0.trans (e3 p1 (by simp [e1.1])).symm)
  subst hpre
  simp only [List.nil_append] at e1
  rw [← e1] at e2
  cases init with
  | nil =>
    exfalso
    simp only [List.nil_append, List.cons.injEq] at e2
    exact h01 ((congrArg Pt.y e2.1).trans (e5 p1 (by simp [← e2.2])).symm)
  | cons i0 init =>
    simp only [List.cons_append, List.cons.injEq] at e2
    obtain ⟨rfl, e2⟩ := e2
    cases init with
    | nil =>
      exfalso
      simp only [List.nil_append, List.cons.injEq] at e2
      exact h12 ((congrArg Pt.y e2.1).trans (e5 p2 (by simp [← e2.2])).symm)
    | cons i1 init =>
      simp only [List.cons_append, List.cons.injEq] at e2
      obtain ⟨rfl, e2⟩ := e2
      have ht : ∃ tl, p0 :: p1 :: init ++ [bk] = p0 :: p1 :: p2 :: tl := by
        cases init with
        | nil =>
          simp only [List.nil_append, List.cons.injEq] at e2
          exact ⟨[], by simp [e2.1]⟩
        | cons i2 init =>
          simp only [List.cons_append, List.cons.injEq] at e2
          exact ⟨init ++ [bk], by simp [e2.1]⟩
      obtain ⟨tl, ht⟩ := ht
      rw [ht] at h1 h3
      simp only [List.head?_cons, Option.some.injEq] at h1
      subst h1
      rcases h3 with h3 | ⟨h3, -⟩
      · simp at h3
      · simp only [wrongSignAt, hinf, ha, hab, Bool.true_and, Bool.not_eq_false'] at h3
        exact monotonic_inf hinf h3

/-- The same at the other end. -/
theorem build_back_sign {h : Hook K} {p0 p1 p2 : Pt K} {rest : List (Pt K)} (hn : NoNan (rest ++ [p2, p1, p0])) {c : Curve K}
    (hb : build h (rest ++ [p2, p1, p0]) = .ok c) (hinf : p0.y.isInf = true) {a b : K} (ha : p1.y = .fin a) (hab : p2.y = .fin b)
    (hne : a ≠ b) : (p0.y = .neg ∧ a < b) ∨ (p0.y = .pos ∧ b < a) := by
  obtain ⟨t, front, back, hc, h1, h2, h3⟩ := build_checked hb
  obtain ⟨pre, f, r, init, bk, post, e1, e2, rfl, e3, e4, e5, e6, -, -⟩ := commonChecks_spec hn hc
  have h01 : p0.y ≠ p1.y := by
    intro e
    rw [e, ha] at hinf
    simp [Ext.isInf] at hinf
  have h12 : p1.y ≠ p2.y := by
    rw [ha, hab]
    intro e
    injection e with e
    exact hne e
  have E := congrArg List.reverse (e1.trans (congrArg (pre ++ ·) e2))
  simp only [List.reverse_append, List.reverse_cons, List.reverse_nil, List.nil_append, List.cons_append, List.append_assoc] at E
  have hpost : post = [] := by
    rcases List.eq_nil_or_concat post with h0 | ⟨post', x, rfl⟩
    · exact h0
    · exfalso
      simp only [List.concat_eq_append, List.reverse_append, List.reverse_cons, List.reverse_nil, List.nil_append, List.cons_append, List.cons.injEq] at E
      have g0 := e5 p0 (by simp [E.1])
      obtain ⟨-, E⟩ := E
      rcases List.eq_nil_or_concat post' with rfl | ⟨post'', y, rfl⟩
      · simp only [List.reverse_nil, List.nil_append, List.cons.injEq] at E
        exact h01 (g0.trans (congrArg Pt.y E.1).symm)
      · simp only [List.concat_eq_append, List.reverse_append, List.reverse_cons, List.reverse_nil, List.nil_append, List.cons_append, List.cons.injEq] at E
        exact h01 (g0.trans (e5 p1 (by simp [E.1])).symm)
  subst hpost
  simp only [List.reverse_nil, List.nil_append, List.cons.injEq] at E
  obtain ⟨rfl, E⟩ := E
  have hfirst : (init ++ [p0]).head? = some f := by
    rw [show init ++ [p0] = f :: r from e2.symm]
    rfl
  have hb0 : back = p0 := by simpa using h2.symm
  subst hb0
  rcases List.eq_nil_or_concat init with rfl | ⟨init', x, rfl⟩
  · exfalso
    simp only [List.reverse_nil, List.nil_append] at E
    simp only [List.nil_append, List.head?_cons, Option.some.injEq] at hfirst
    have : p1 ∈ pre := by
      rw [← List.mem_reverse, ← E]
      simp
    exact h01 (hfirst ▸ (e3 p1 this).symm)
  · simp only [List.concat_eq_append, List.reverse_append, List.reverse_cons, List.reverse_nil, List.nil_append, List.cons_append, List.cons.injEq] at E
    obtain ⟨rfl, E⟩ := E
    rcases List.eq_nil_or_concat init' with rfl | ⟨init'', y, rfl⟩
    · exfalso
      simp only [List.reverse_nil, List.nil_append] at E
      simp only [List.concat_eq_append, List.nil_append, List.cons_append, List.head?_cons, Option.some.injEq] at hfirst
      have : p2 ∈ pre := by
        rw [← List.mem_reverse, ← E]
        simp
      exact h12 (hfirst ▸ (e3 p2 this).symm)
    · simp only [List.concat_eq_append, List.reverse_append, List.reverse_cons, List.reverse_nil, List.nil_append, List.cons_append, List.cons.injEq] at E
      obtain ⟨rfl, E⟩ := E
      rcases h3 with h3 | ⟨-, h3⟩
      · simp at h3
      · simp only [List.concat_eq_append, List.reverse_append, List.reverse_cons, List.reverse_nil, List.nil_append, List.cons_append] at h3
        simp only [wrongSignAt, hinf, ha, hab, Bool.true_and, Bool.not_eq_false'] at h3
        exact monotonic_inf hinf h3

/-- **Finite control points with increasing `x` give a curve.** -/
theorem build_finite {h : Hook K} (hh : h.Increasing) {points : List (Pt K)} (hne : points ≠ []) (hfin : ∀ p ∈ points, ∃ x y a, p.x = .fin x ∧ p.y = .fin y ∧ h.inn (.fin x) = .fin a)
    (hs : points.Pairwise (fun a b => a.x.lt b.x = true)) (hmin : ∀ p, points.head? = some p → h.minOk p.x = true) : ∃ c, build h points = .ok c := by
  have hn : NoNan points := by
    intro p hp
    obtain ⟨x, y, a, hx, hy, _⟩ := hfin p hp
    rw [hx, hy]
    exact ⟨by simp, by simp⟩
  obtain ⟨pre, f, r, e1, e2, _, _⟩ := trimFront_spec hne
  obtain ⟨init, b, post, g1, g2, _, _⟩ := trimBack_spec (l := f :: r) (by simp)
  have hsub : ∀ p ∈ init ++ [b], p ∈ points := by
    intro p hp
    rw [e1, g1]
    rcases List.mem_append.1 hp with hp | hp
    · simp [hp]
    · rw [List.mem_singleton] at hp; simp [hp]
  have hxi : ∀ p ∈ points, p.x.isInf = false ∧ p.y.isInf = false ∧ (h.inn p.x).isInf = false := by
    intro p hp
    obtain ⟨x, y, a, hx, hy, ha⟩ := hfin p hp
    rw [hx, hy, ha]
    exact ⟨rfl, rfl, rfl⟩
  have hbad : ∀ p ∈ points, ∀ l, badAsymptote p l = false := by
    intro p hp l
    unfold badAsymptote
    split
    · simp [hxi p hp]
    · rfl
  have hwrong : ∀ p ∈ points, ∀ l, wrongSignAt p.y l = false := by
    intro p hp l
    unfold wrongSignAt
    split
    · simp [hxi p hp]
    · rfl
  obtain ⟨first, rest, rfl⟩ := List.exists_cons_of_ne_nil hne
  obtain ⟨last, hlast⟩ : ∃ last, (first :: rest).getLast? = some last := ⟨_, List.getLast?_eq_some_getLast (by simp)⟩
  have hlm := List.mem_of_mem_getLast? hlast
  have hc : commonChecks h (first :: rest) = .ok (init ++ [b]) := by
    have hinc := (increasing_spec hn).2 hs
    have hm := hmin first rfl
    unfold commonChecks
    rw [List.head?_cons, hlast]
    simp only [hinc, e2, g2, hbad first (by simp), hbad last hlm, hm, Bool.not_true, Bool.false_eq_true, if_false, if_true, ite_self]
  unfold build
  rw [hc]
  obtain ⟨fr, hfr⟩ : ∃ fr, (init ++ [b]).head? = some fr := by
    cases init with
    | nil => exact ⟨b, rfl⟩
    | cons i init => exact ⟨i, rfl⟩
  have hfm := hsub fr (List.mem_of_mem_head? hfr)
  have hbm := hsub b (by simp)
  have hgl : (init ++ [b]).getLast? = some b := by simp
  have hany : (init ++ [b]).any (·.y.isInf) = false := by
    rw [← Bool.not_eq_true, List.any_eq_true]
    rintro ⟨p, hp, hi⟩
    rw [(hxi p (hsub p hp)).2.1] at hi
    cases hi
  have ha1 : adjustFront h fr (init ++ [b]) = .ok (init ++ [b]) := by simp [adjustFront, hxi fr hfm]
  have ha2 : adjustBack h b (init ++ [b]) = .ok (init ++ [b]) := by simp [adjustBack, hxi b hbm]
  simp only [hfr, hgl, hwrong fr hfm, hwrong b hbm, ha1, ha2, hany, Bool.false_eq_true, if_false]
  split
  · exact ⟨_, rfl⟩
  · exact ⟨_, rfl⟩

/-- **A curve is only built from control points with strictly increasing `x`.** -/
theorem build_increasing {h : Hook K} {points : List (Pt K)} (hn : NoNan points) {c : Curve K} (hb : build h points = .ok c) :
    points ≠ [] ∧ points.Pairwise (fun a b => a.x.lt b.x = true) := by
  unfold build at hb
  split at hb
  · cases hb
  · next t hc =>
    obtain ⟨pre, f, rest, init, b, post, e1, _, _, _, _, _, _, hs, _⟩ := commonChecks_spec hn hc
    exact ⟨by rw [e1]; simp, hs⟩

/-! ## The variants -/

omit [IsStrictOrderedRing K] in
theorem identity_increasing : (identityHook : Hook K).Increasing := fun _ _ _ _ _ h => h

/-- `LogHook` with the real logarithm — curves.cc:526-540. -/
noncomputable def logHook : Hook ℝ where
  inn
    | .fin x => if x < 0 then .nan else if x = 0 then .neg else .fin (Real.log x)
    | .pos => .pos
    | _ => .nan
  minOk x := !x.lt (.fin 0)

/-- `Log1pHook` — curves.cc:500-511. -/
noncomputable def log1pHook : Hook ℝ where
  inn
    | .fin x => if x < -1 then .nan else if x = -1 then .neg else .fin (Real.log (1 + x))
    | .pos => .pos
    | _ => .nan
  minOk x := !x.lt (.fin (-1))

/-- `Symlog1pHook` — curves.cc:515-523. -/
noncomputable def symlog1pHook : Hook ℝ where
  inn
    | .fin x => .fin (if 0 ≤ x then Real.log (1 + x) else -Real.log (1 - x))
    | x => x
  minOk _ := true

/-- The accepted first points of a hook that refuses those below `m`. -/
theorem min_le {m : ℝ} {a x : Ext ℝ} (h : (!a.lt (.fin m)) = true) (hx : a.le x = true) : x = .pos ∨ ∃ r, x = .fin r ∧ m ≤ r := by
  cases a <;> cases x <;> simp [Ext.le, Ext.lt, Ext.eq] at h hx ⊢
  rcases hx with hx | hx
  · exact _root_.le_trans h (le_of_lt hx)
  · exact hx ▸ h

theorem log_increasing : logHook.Increasing := by
  intro a x y ha hx hxy
  rcases min_le ha hx with rfl | ⟨r, rfl, hr⟩
  · simp [Ext.lt] at hxy
  · have h1 : ¬ r < 0 := not_lt.2 hr
    cases y with
    | neg => simp [Ext.lt] at hxy
    | nan => simp [Ext.lt] at hxy
    | pos =>
      simp only [logHook, h1, if_false]
      split <;> rfl
    | fin s =>
      have hrs : r < s := by simpa [Ext.lt] using hxy
      have hs0 : 0 < s := lt_of_le_of_lt hr hrs
      simp only [logHook, h1, if_false, not_lt.2 (le_of_lt hs0), ne_of_gt hs0]
      split
      · rfl
      · next hr0 =>
        have : 0 < r := lt_of_le_of_ne hr (fun e => hr0 e.symm)
        simpa [Ext.lt] using Real.log_lt_log this hrs

theorem log1p_increasing : log1pHook.Increasing := by
  intro a x y ha hx hxy
  rcases min_le ha hx with rfl | ⟨r, rfl, hr⟩
  · simp [Ext.lt] at hxy
  · have h1 : ¬ r < -1 := not_lt.2 hr
    cases y with
    | neg => simp [Ext.lt] at hxy
    | nan => simp [Ext.lt] at hxy
    | pos =>
      simp only [log1pHook, h1, if_false]
      split <;> rfl
    | fin s =>
      have hrs : r < s := by simpa [Ext.lt] using hxy
      have hs0 : -1 < s := lt_of_le_of_lt hr hrs
      simp only [log1pHook, h1, if_false, not_lt.2 (le_of_lt hs0), ne_of_gt hs0]
      split
      · rfl
      · next hr0 =>
        have : -1 < r := lt_of_le_of_ne hr (fun e => hr0 e.symm)
        have := Real.log_lt_log (x := 1 + r) (y := 1 + s) (by linarith) (by linarith)
        simpa [Ext.lt] using this

theorem symlog1p_increasing : symlog1pHook.Increasing := by
  intro a x y ha hx hxy
  clear ha hx
  cases x <;> cases y <;> simp [Ext.lt, symlog1pHook] at hxy ⊢
  next r s =>
  by_cases hr : 0 ≤ r
  · have hs : 0 ≤ s := _root_.le_trans hr (le_of_lt hxy)
    simp only [hr, hs, if_true]
    exact Real.log_lt_log (by linarith) (by linarith)
  · have hr' : r < 0 := not_le.1 hr
    by_cases hs : 0 ≤ s
    · simp only [hr, hs, if_true, if_false]
      have h1 : 0 < Real.log (1 - r) := Real.log_pos (by linarith)
      have h2 : 0 ≤ Real.log (1 + s) := Real.log_nonneg (by linarith)
      linarith
    · simp only [hr, hs, if_false]
      have := Real.log_lt_log (x := 1 - s) (y := 1 - r) (by linarith [not_le.1 hs]) (by linarith)
      linarith

/-! ## Cases -/

/-- A point. -/
def pt (x y : ℚ) : Pt ℚ := ⟨.fin x, .fin y⟩

/-- Points with duplicate `y` at the ends, and an asymptote. -/
def cpts : List (Pt ℚ) := [pt 0 1, pt 1 1, pt 2 3, pt 4 4, pt 5 4]

def apts : List (Pt ℚ) := [⟨.neg, .neg⟩, pt 1 2, pt 3 6, pt 4 7]

deriving instance DecidableEq for Ext

/-- The hypotheses can be met and the values are those of the lines. -/
example : (∃ c, build identityHook cpts = .ok c ∧ c.eval identityHook (.fin (3/2)) = some (.fin 2) ∧ c.eval identityHook (.fin 3) = some (.fin (7/2)) ∧
    c.eval identityHook .neg = some (.fin 1)) ∧ NoNan cpts := by
  refine ⟨⟨_, rfl, by decide +kernel, by decide +kernel, by decide +kernel⟩, ?_⟩
  intro p hp
  simp only [cpts, pt, List.mem_cons, List.not_mem_nil, or_false] at hp
  rcases hp with rfl | rfl | rfl | rfl | rfl <;> simp

example : ∃ c, build identityHook apts = .ok c ∧ c.eval identityHook (.fin (-1)) = some (.fin (-2)) ∧ c.eval identityHook .neg = some .neg := by
  refine ⟨_, rfl, by decide +kernel, by decide +kernel⟩

/-- **A redundant infinite point makes a curve refused**: the check for asymptotes looks at the first point before trimming. -/
theorem redundant_inf_counterexample :
    (∃ c, build identityHook [pt 0 5, pt 1 6, pt 2 6, pt 3 7] = .ok c) ∧
    build identityHook [⟨.neg, .fin 5⟩, pt 0 5, pt 1 6, pt 2 6, pt 3 7] = .error .asymptoteConstant ∧
    (∃ c, build identityHook [pt (-9) 5, pt 0 5, pt 1 6, pt 2 6, pt 3 7] = .ok c) := ⟨⟨_, rfl⟩, rfl, ⟨_, rfl⟩⟩

/-- **Control points with NaN are accepted**, and the curve has no value at their `x`. -/
theorem nan_counterexample : ∃ c, build identityHook [(⟨.nan, .fin 1⟩ : Pt ℚ), pt 2 3] = .ok c ∧ c.eval identityHook (.fin 0) = none :=
  ⟨_, rfl, rfl⟩

end Verif.Curve
