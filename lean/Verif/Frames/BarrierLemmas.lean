import Verif.Frames.BarrierModel
import Mathlib.Tactic.ByContra

/-! Helper lemmas: the invariant of threads synchronised by two alternating barriers. -/

namespace Verif.Frames

variable {A S : Type}

/-- What a thread is doing, seen from the current generation. -/
inductive Kind where
  | leave
  | reset
  | go
  | wait
  deriving DecidableEq

/-- Status: what it is doing, and the actions of the current segment it has still to do. -/
abbrev Stat (A : Type) := Kind × List A

/-- Kind test. -/
def isK (k : Kind) (s : Stat A) : Bool := decide (s.1 = k)

/-- Instructions of the thread after its actions of segment `g`. -/
def aft (segs : Nat → List A) (N g : Nat) : List (Instr A) :=
  if g < N then .sync (decide (g % 2 = 1)) :: progFrom segs (g + 1) (N - (g + 1)) else []

theorem progFrom_aft (segs : Nat → List A) {N g : Nat} (h : g ≤ N) :
    progFrom segs g (N - g) = (segs g).map .act ++ aft segs N g := by
  by_cases hg : g < N
  · rw [show N - g = (N - (g + 1)) + 1 by omega, progFrom, aft, if_pos hg]
  · rw [show N - g = 0 by omega, progFrom, aft, if_neg hg]; simp

/-- The thread with a given status. -/
def real (segs : Nat → List A) (N G : Nat) (s : Stat A) : Th A :=
  match s.1 with
  | .leave => ⟨.sync (decide ((G + 1) % 2 = 1)) :: ((segs G).map .act ++ aft segs N G), .waiting⟩
  | .reset => ⟨.sync (decide ((G + 1) % 2 = 1)) :: ((segs G).map .act ++ aft segs N G), .resetting⟩
  | .go => ⟨s.2.map .act ++ aft segs N G, .run⟩
  | .wait => ⟨aft segs N G, .waiting⟩

/-- The statuses in generation `G`. -/
structure StatsOk (segs : Nat → Nat → List A) (N G : Nat) (ss : List (Stat A)) : Prop where
  pend : ∀ (w : Nat) s, ss[w]? = some s →
    ((s.1 = .leave ∨ s.1 = .reset) → s.2 = segs w G ∧ 0 < G) ∧
    (s.1 = .wait → s.2 = [] ∧ G < N) ∧ (s.1 = .go → s.2 <:+ segs w G)
  le : G ≤ N
  waiting : ss.countP (isK .wait) < ss.length
  resets : ss.countP (isK .reset) ≤ 1
  leaves : 0 < ss.countP (isK .leave) → ss.countP (isK .reset) = 0

/-- The barriers in generation `G`. -/
structure BarsOk (G : Nat) (ss : List (Stat A)) (bars : Bool → Bar) : Prop where
  cur : bars (decide (G % 2 = 1)) = ⟨ss.length - ss.countP (isK .wait), ss.length⟩
  prev : 0 < ss.countP (isK .leave) →
    bars (decide ((G + 1) % 2 = 1)) = ⟨0, ss.countP (isK .leave)⟩
  fresh : ss.countP (isK .leave) = 0 → ss.countP (isK .reset) = 0 →
    bars (decide ((G + 1) % 2 = 1)) = freshBar ss.length

/-- The invariant. -/
structure Inv (exec : A → S → Option S) (segs : Nat → Nat → List A) (N : Nat) (states : Nat → S)
    (m : Mach A S) (G : Nat) (ss : List (Stat A)) : Prop where
  stats : StatsOk segs N G ss
  bars : BarsOk G ss m.bars
  th : m.th = ss.zipIdx.map (fun p => real (segs p.2) N G p.1)
  sh : execAll exec (ss.map (·.2)).flatten m.sh = some (states (G + 1))

theorem decide_ne (G : Nat) : decide (G % 2 = 1) ≠ decide ((G + 1) % 2 = 1) := by
  intro h
  simp only [decide_eq_decide] at h
  omega

theorem decide_two (G : Nat) : decide ((G + 1 + 1) % 2 = 1) = decide (G % 2 = 1) := by
  simp only [decide_eq_decide]
  omega

theorem setBar_same (bars : Bool → Bar) (b : Bool) (x : Bar) : setBar bars b x b = x := by
  simp [setBar]

theorem setBar_ne (bars : Bool → Bar) {b c : Bool} (x : Bar) (h : c ≠ b) :
    setBar bars b x c = bars c := by simp [setBar, h]

theorem th_get {segs : Nat → Nat → List A} {N G : Nat} {ss : List (Stat A)} (w : Nat) :
    (ss.zipIdx.map (fun p => real (segs p.2) N G p.1))[w]? =
      ss[w]?.map (fun s => real (segs w) N G s) := by
  rw [List.getElem?_map, List.getElem?_zipIdx]
  cases ss[w]? <;> simp

theorem th_set {segs : Nat → Nat → List A} {N G : Nat} {ss : List (Stat A)} (w : Nat) (s : Stat A) :
    (ss.zipIdx.map (fun p => real (segs p.2) N G p.1)).set w (real (segs w) N G s) =
      (ss.set w s).zipIdx.map (fun p => real (segs p.2) N G p.1) := by
  apply List.ext_getElem?
  intro v
  rw [th_get, List.getElem?_set, List.getElem?_set, th_get]
  simp only [List.length_map, List.length_zipIdx]
  by_cases h : w = v
  · subst h
    simp only [if_true]
    split <;> simp
  · simp [h]

/-- Counting after replacing one status. -/
theorem count_set {ss : List (Stat A)} {w : Nat} {s s' : Stat A} (h : ss[w]? = some s) (k : Kind) :
    (ss.set w s').countP (isK k) + (if s.1 = k then 1 else 0) =
      ss.countP (isK k) + (if s'.1 = k then 1 else 0) := by
  induction ss generalizing w with
  | nil => simp at h
  | cons x xs ih =>
    cases w with
    | zero =>
      simp only [List.getElem?_cons_zero, Option.some.injEq] at h
      subst h
      simp only [List.set_cons_zero, List.countP_cons, isK, decide_eq_true_eq]
      omega
    | succ w =>
      have := ih (by simpa using h)
      simp only [List.set_cons_succ, List.countP_cons]
      omega

theorem count_pos {ss : List (Stat A)} {w : Nat} {s : Stat A} (h : ss[w]? = some s) :
    0 < ss.countP (isK s.1) := by
  rw [List.countP_pos_iff]
  exact ⟨s, List.mem_of_getElem? h, by simp [isK]⟩

theorem execAll_append (exec : A → S → Option S) : ∀ (as bs : List A) (s : S),
    execAll exec (as ++ bs) s = (execAll exec as s).bind (execAll exec bs) := by
  intro as
  induction as with
  | nil => intro bs s; rfl
  | cons a as ih =>
    intro bs s
    rw [List.cons_append, execAll, execAll]
    cases exec a s with
    | none => rfl
    | some s' => exact ih bs s'

/-- An action which commutes with others can be executed first. -/
theorem execAll_comm {exec : A → S → Option S} {a : A} : ∀ (as bs : List A),
    (∀ b ∈ as, ∀ s, (exec a s).bind (exec b) = (exec b s).bind (exec a)) → ∀ s,
    execAll exec (as ++ a :: bs) s = (exec a s).bind (execAll exec (as ++ bs)) := by
  intro as
  induction as with
  | nil => intro bs _ s; rfl
  | cons b as ih =>
    intro bs h s
    rw [List.cons_append, execAll]
    have hb := h b (by simp) s
    have : ∀ s', execAll exec (as ++ a :: bs) s' = (exec a s').bind (execAll exec (as ++ bs)) :=
      ih bs (fun b' hb' => h b' (by simp [hb']))
    rw [show execAll exec (as ++ a :: bs) = fun s' => (exec a s').bind (execAll exec (as ++ bs)) from
      funext this]
    rw [show (exec b s).bind (fun s' => (exec a s').bind (execAll exec (as ++ bs))) =
      ((exec b s).bind (exec a)).bind (execAll exec (as ++ bs)) from by cases exec b s <;> rfl]
    rw [← hb]
    cases exec a s <;> rfl

theorem pends_set {ss : List (Stat A)} {w : Nat} {k k' : Kind} {p : List A}
    (h : ss[w]? = some (k, p)) : ((ss.set w (k', p)).map (·.2)).flatten = (ss.map (·.2)).flatten := by
  congr 1
  apply List.ext_getElem?
  intro v
  rw [List.getElem?_map, List.getElem?_map, List.getElem?_set]
  by_cases hv : w = v
  · subst hv
    have hlt : w < ss.length := (List.getElem?_eq_some_iff.1 h).1
    have hw := (List.getElem?_eq_some_iff.1 h).2
    simp [hlt, hw]
  · simp [hv]

theorem pends_act {ss : List (Stat A)} {w : Nat} {k k' : Kind} {a : A} {p : List A}
    (h : ss[w]? = some (k, a :: p)) : ∃ l r, (ss.map (·.2)).flatten = l ++ a :: r ∧
      ((ss.set w (k', p)).map (·.2)).flatten = l ++ r ∧
      ∀ b ∈ l, ∃ v s, v ≠ w ∧ ss[v]? = some s ∧ b ∈ s.2 := by
  have hlt : w < ss.length := (List.getElem?_eq_some_iff.1 h).1
  have hw : ss[w] = (k, a :: p) := (List.getElem?_eq_some_iff.1 h).2
  have h1 : ss = ss.take w ++ (k, a :: p) :: ss.drop (w + 1) := by
    rw [← hw, ← List.drop_eq_getElem_cons hlt, List.take_append_drop]
  have h2 : ss.set w (k', p) = ss.take w ++ (k', p) :: ss.drop (w + 1) := by
    rw [List.set_eq_take_append_cons_drop, if_pos hlt]
  refine ⟨((ss.take w).map (·.2)).flatten, p ++ ((ss.drop (w + 1)).map (·.2)).flatten, ?_, ?_, ?_⟩
  · conv_lhs => rw [h1]
    simp
  · rw [h2]; simp
  · intro b hb
    obtain ⟨l, hl, hbl⟩ := List.mem_flatten.1 hb
    obtain ⟨s, hs, rfl⟩ := List.mem_map.1 hl
    obtain ⟨v, hv⟩ := List.getElem?_of_mem hs
    have hvw : v < w := by
      have := (List.getElem?_eq_some_iff.1 hv).1
      rw [List.length_take] at this
      omega
    rw [List.getElem?_take_of_lt hvw] at hv
    exact ⟨v, s, by omega, hv, hbl⟩

/-- Hypotheses about the program: actions of different threads in one segment commute, and executing
all of a segment, thread by thread, goes from one state to the next. -/
structure SegsOk (exec : A → S → Option S) (segs : Nat → Nat → List A) (T N : Nat)
    (states : Nat → S) : Prop where
  comm : ∀ g w v, w < T → v < T → w ≠ v → ∀ a ∈ segs w g, ∀ b ∈ segs v g, ∀ s,
    (exec a s).bind (exec b) = (exec b s).bind (exec a)
  seq : ∀ g, g ≤ N →
    execAll exec ((List.range T).map (fun w => segs w g)).flatten (states g) = some (states (g + 1))

theorem stat_mem {segs : Nat → Nat → List A} {N G : Nat} {ss : List (Stat A)}
    (h : StatsOk segs N G ss) {w : Nat} {s : Stat A} (hs : ss[w]? = some s) {b : A} (hb : b ∈ s.2) :
    b ∈ segs w G := by
  obtain ⟨h1, h2, h3⟩ := h.pend w s hs
  cases hk : s.1 with
  | leave => rw [(h1 (Or.inl hk)).1] at hb; exact hb
  | reset => rw [(h1 (Or.inr hk)).1] at hb; exact hb
  | wait => rw [(h2 hk).1] at hb; simp at hb
  | go => exact (h3 hk).subset hb

theorem start_inv {exec : A → S → Option S} {segs : Nat → Nat → List A} {T N : Nat} {states : Nat → S}
    (hT : 0 < T) (hs : SegsOk exec segs T N states) :
    Inv exec segs N states (start (states 0) ((List.range T).map (fun w => progFrom (segs w) 0 N))) 0
      ((List.range T).map (fun w => (Kind.go, segs w 0))) := by
  have hc : ∀ k, k ≠ Kind.go →
      ((List.range T).map (fun w => (Kind.go, segs w 0))).countP (isK k) = 0 := by
    intro k hk
    rw [List.countP_eq_zero]
    intro s hs
    obtain ⟨w, _, rfl⟩ := List.mem_map.1 hs
    simp [isK]
    exact fun h => hk h.symm
  refine ⟨⟨?_, by omega, ?_, ?_, ?_⟩, ⟨?_, ?_, ?_⟩, ?_, ?_⟩
  · intro w s hw
    have hlt : w < T := by
      have := (List.getElem?_eq_some_iff.1 hw).1
      simpa using this
    rw [List.getElem?_map, List.getElem?_range hlt] at hw
    simp only [Option.map_some, Option.some.injEq] at hw
    subst hw
    simp
  · rw [hc _ (by simp)]; simpa using hT
  · rw [hc _ (by simp)]; simp
  · intro _; rw [hc _ (by simp)]
  · rw [hc _ (by simp)]; simp [start, freshBar]
  · rw [hc _ (by simp)]; simp
  · intro _ _; simp [start, freshBar]
  · apply List.ext_getElem?
    intro w
    rw [th_get]
    simp only [start, List.map_map, List.getElem?_map]
    by_cases hw : w < T
    · rw [List.getElem?_range hw]
      simp only [Option.map_some, Function.comp]
      have := progFrom_aft (segs w) (N := N) (g := 0) (by omega)
      rw [Nat.sub_zero] at this
      rw [this]; rfl
    · rw [List.getElem?_eq_none (by simp; omega)]; rfl
  · have := hs.seq 0 (by omega)
    rw [List.map_map]
    exact this

/-- What a thread can do is determined by its status. -/
theorem step_inv {exec : A → S → Option S} {segs : Nat → Nat → List A} {T N : Nat} {states : Nat → S}
    (hs : SegsOk exec segs T N states) {m : Mach A S} {G : Nat} {ss : List (Stat A)}
    (h : Inv exec segs N states m G ss) (hT : ss.length = T) (w : Nat) :
    stepT exec m w ≠ some none ∧
    ∀ m', stepT exec m w = some (some m') → ∃ G' ss', Inv exec segs N states m' G' ss' ∧ ss'.length = T := by
  obtain ⟨hst, hb, hth, hsh⟩ := h
  have hlen : m.th.length = ss.length := by rw [hth]; simp
  unfold stepT
  cases hss : ss[w]? with
  | none =>
    have : m.th[w]? = none := by rw [hth, th_get, hss]; rfl
    rw [this]
    exact ⟨by simp, by simp⟩
  | some s =>
    have hw : w < ss.length := (List.getElem?_eq_some_iff.1 hss).1
    have hmw : m.th[w]? = some (real (segs w) N G s) := by rw [hth, th_get, hss]; rfl
    rw [hmw]
    dsimp only
    obtain ⟨k, p⟩ := s
    obtain ⟨p1, p2, p3⟩ := hst.pend w _ hss
    have hcnt : ∀ (s' : Stat A) k', (ss.set w s').countP (isK k') + (if k = k' then 1 else 0) =
        ss.countP (isK k') + (if s'.1 = k' then 1 else 0) := fun s' k' => count_set hss k'
    have hpos := count_pos hss
    have hpend : ∀ (s' : Stat A), (∀ q : ((s'.1 = .leave ∨ s'.1 = .reset) → s'.2 = segs w G ∧ 0 < G) ∧
        (s'.1 = .wait → s'.2 = [] ∧ G < N) ∧ (s'.1 = .go → s'.2 <:+ segs w G),
        ∀ (v : Nat) t, (ss.set w s')[v]? = some t →
          ((t.1 = .leave ∨ t.1 = .reset) → t.2 = segs v G ∧ 0 < G) ∧
          (t.1 = .wait → t.2 = [] ∧ G < N) ∧ (t.1 = .go → t.2 <:+ segs v G)) := by
      intro s' q v t ht
      rw [List.getElem?_set] at ht
      split at ht
      · rename_i hv
        subst hv
        cases ht; exact q
      · exact hst.pend v t ht
    cases k with
    | go =>
      cases p with
      | cons a p =>
        -- an action
        have hr : (real (segs w) N G (Kind.go, a :: p)) =
          ⟨.act a :: (p.map .act ++ aft (segs w) N G), .run⟩ := rfl
        rw [hr]
        dsimp only
        obtain ⟨l, r, q1, q2, q3⟩ := pends_act (k' := Kind.go) hss
        have hcomm : execAll exec (l ++ a :: r) m.sh = (exec a m.sh).bind (execAll exec (l ++ r)) := by
          apply execAll_comm
          intro b hbl s
          obtain ⟨v, t, v1, v2, v3⟩ := q3 b hbl
          have hv : v < ss.length := (List.getElem?_eq_some_iff.1 v2).1
          exact hs.comm G w v (by omega) (by omega) (by omega) a
            (stat_mem hst hss (by simp)) b (stat_mem hst v2 v3) s
        rw [q1, hcomm] at hsh
        cases he : exec a m.sh with
        | none => rw [he] at hsh; cases hsh
        | some sh =>
          rw [he, Option.bind_some] at hsh
          refine ⟨by simp, ?_⟩
          intro m' hm'
          simp only [Option.some.injEq] at hm'
          subst hm'
          have hc : ∀ k', (ss.set w (Kind.go, p)).countP (isK k') = ss.countP (isK k') := by
            intro k'
            have := hcnt (Kind.go, p) k'
            dsimp only at this
            omega
          refine ⟨G, ss.set w (Kind.go, p), ⟨⟨?_, hst.le, ?_, ?_, ?_⟩, ⟨?_, ?_, ?_⟩, ?_, ?_⟩, by simp [hT]⟩
          · refine hpend _ ⟨by simp, by simp, fun _ => ?_⟩
            exact (List.suffix_cons a p).trans (p3 rfl)
          · rw [hc, List.length_set]; exact hst.waiting
          · rw [hc]; exact hst.resets
          · rw [hc, hc]; exact hst.leaves
          · rw [hc, List.length_set]; exact hb.cur
          · rw [hc]; exact hb.prev
          · rw [hc, hc, List.length_set]; exact hb.fresh
          · rw [hth]; exact th_set w (Kind.go, p)
          · rw [q2]; exact hsh
      | nil =>
        by_cases hG : G < N
        · -- entering the barrier
          have ha : aft (segs w) N G = .sync (decide (G % 2 = 1)) ::
              progFrom (segs w) (G + 1) (N - (G + 1)) := by rw [aft, if_pos hG]
          have hr : (real (segs w) N G (Kind.go, [])) =
            ⟨.sync (decide (G % 2 = 1)) :: progFrom (segs w) (G + 1) (N - (G + 1)), .run⟩ := by
            rw [← ha]; rfl
          rw [hr]
          dsimp only
          have hwait := hst.waiting
          have htb : (m.bars (decide (G % 2 = 1))).toBlock ≠ 0 := by
            rw [hb.cur]; dsimp only; omega
          rw [if_neg htb]
          refine ⟨by simp, ?_⟩
          intro m' hm'
          simp only [Option.some.injEq] at hm'
          subst hm'
          have c1 := hcnt (Kind.wait, []) Kind.wait
          have c2 := hcnt (Kind.wait, []) Kind.leave
          have c3 := hcnt (Kind.wait, []) Kind.reset
          simp only [reduceCtorEq, if_true, if_false, Nat.add_zero] at c1 c2 c3
          have hset : m.th.set w ⟨.sync (decide (G % 2 = 1)) :: progFrom (segs w) (G + 1) (N - (G + 1)),
              .waiting⟩ = (ss.set w (Kind.wait, [])).zipIdx.map (fun p => real (segs p.2) N G p.1) := by
            rw [hth, ← ha]; exact th_set w (Kind.wait, [])
          have hpe : ((ss.set w (Kind.wait, [])).map (·.2)).flatten = (ss.map (·.2)).flatten :=
            pends_set hss
          by_cases hfull : ss.countP (isK .wait) + 1 < ss.length
          · refine ⟨G, ss.set w (Kind.wait, []), ⟨⟨?_, hst.le, ?_, ?_, ?_⟩, ⟨?_, ?_, ?_⟩, hset, ?_⟩,
              by simp [hT]⟩
            · exact hpend _ ⟨by simp, fun _ => ⟨rfl, hG⟩, by simp⟩
            · rw [c1, List.length_set]; exact hfull
            · rw [c3]; exact hst.resets
            · rw [c2, c3]; exact hst.leaves
            · dsimp only
              rw [setBar_same, c1, List.length_set, hb.cur]
              congr 1
            · rw [c2]; dsimp only; rw [setBar_ne _ _ (decide_ne G).symm]; exact hb.prev
            · rw [c2, c3, List.length_set]; dsimp only; rw [setBar_ne _ _ (decide_ne G).symm]
              exact hb.fresh
            · rw [hpe]; exact hsh
          · -- the last one: next generation
            have hall : ∀ (v : Nat) t, (ss.set w (Kind.wait, []))[v]? = some t → t = (Kind.wait, []) := by
              have h1 : (ss.set w (Kind.wait, [])).countP (isK .wait) =
                  (ss.set w (Kind.wait, [])).length := by rw [c1, List.length_set]; omega
              rw [List.countP_eq_length] at h1
              intro v t ht
              have := h1 t (List.mem_of_getElem? ht)
              simp only [isK, decide_eq_true_eq] at this
              have q := hpend (Kind.wait, []) ⟨by simp, fun _ => ⟨rfl, hG⟩, by simp⟩ v t ht
              have := (q.2.1 this).1
              exact Prod.ext (by assumption) this
            have hrep : ss.set w (Kind.wait, []) = List.replicate T (Kind.wait, []) := by
              rw [List.eq_replicate_iff]
              refine ⟨by simp [hT], ?_⟩
              intro t ht
              obtain ⟨v, hv⟩ := List.getElem?_of_mem ht
              exact hall v t hv
            have hz2 : ss.countP (isK .leave) = 0 := by
              rw [← c2, hrep, List.countP_replicate]; simp [isK]
            have hz3 : ss.countP (isK .reset) = 0 := by
              rw [← c3, hrep, List.countP_replicate]; simp [isK]
            have hTpos : 0 < T := by omega
            have hk : ∀ k', ((List.range T).map (fun v => (Kind.leave, segs v (G + 1)))).countP (isK k') =
                if k' = Kind.leave then T else 0 := by
              intro k'
              by_cases hk' : k' = Kind.leave
              · rw [if_pos hk']
                rw [List.countP_eq_length.2]
                · simp
                · intro s hs'
                  obtain ⟨v, _, rfl⟩ := List.mem_map.1 hs'
                  simp [isK, hk']
              · rw [if_neg hk', List.countP_eq_zero]
                intro s hs'
                obtain ⟨v, _, rfl⟩ := List.mem_map.1 hs'
                simp [isK]
                exact fun h => hk' h.symm
            refine ⟨G + 1, (List.range T).map (fun v => (Kind.leave, segs v (G + 1))),
              ⟨⟨?_, by omega, ?_, ?_, ?_⟩, ⟨?_, ?_, ?_⟩, ?_, ?_⟩, by simp⟩
            · intro v t ht
              have hlt : v < T := by
                have := (List.getElem?_eq_some_iff.1 ht).1
                simpa using this
              rw [List.getElem?_map, List.getElem?_range hlt] at ht
              simp only [Option.map_some, Option.some.injEq] at ht
              subst ht
              simp
            · rw [hk]; simpa using hTpos
            · rw [hk]; simp
            · intro _; rw [hk]; simp
            · dsimp only
              rw [setBar_ne _ _ (decide_ne G).symm, hk, hb.fresh hz2 hz3]
              simp [freshBar, hT]
            · intro _
              dsimp only
              rw [hk, decide_two, setBar_same, hb.cur]
              simp only [if_true, hT]
              congr 1
              omega
            · rw [hk]; simp; omega
            · show m.th.set w _ = _
              rw [hset, hrep]
              apply List.ext_getElem?
              intro v
              rw [th_get, th_get]
              by_cases hv : v < T
              · simp only [List.getElem?_replicate, hv, if_true, List.getElem?_map,
                  List.getElem?_range hv, Option.map_some, real]
                congr 2
                rw [aft, if_pos hG, decide_two, progFrom_aft (segs v) (by omega)]
              · rw [List.getElem?_eq_none (by simp; omega), List.getElem?_eq_none (by simp; omega)]
                rfl
            · rw [← hpe, hrep] at hsh
              have : ((List.replicate T ((Kind.wait, []) : Stat A)).map (·.2)).flatten = [] := by
                simp
              rw [this] at hsh
              simp only [execAll, Option.some.injEq] at hsh
              dsimp only
              rw [hsh, List.map_map]
              exact hs.seq (G + 1) (by omega)
        · -- finished
          have hr : (real (segs w) N G (Kind.go, [])) = ⟨[], .run⟩ := by
            simp [real, aft, hG]
          rw [hr]
          exact ⟨by simp, by simp⟩
    | wait =>
      obtain ⟨_, hG⟩ := p2 rfl
      have ha : aft (segs w) N G = .sync (decide (G % 2 = 1)) ::
          progFrom (segs w) (G + 1) (N - (G + 1)) := by rw [aft, if_pos hG]
      have hr : (real (segs w) N G (Kind.wait, p)) =
        ⟨.sync (decide (G % 2 = 1)) :: progFrom (segs w) (G + 1) (N - (G + 1)), .waiting⟩ := by
        rw [← ha]; rfl
      rw [hr]
      dsimp only
      have hwait := hst.waiting
      have htb : (m.bars (decide (G % 2 = 1))).toBlock ≠ 0 := by
        rw [hb.cur]; dsimp only; omega
      rw [if_pos htb]
      exact ⟨by simp, by simp⟩
    | leave =>
      obtain ⟨hp, hG0⟩ := p1 (Or.inl rfl)
      dsimp only at hp
      subst hp
      have hr : (real (segs w) N G (Kind.leave, segs w G)) =
        ⟨.sync (decide ((G + 1) % 2 = 1)) :: ((segs w G).map .act ++ aft (segs w) N G), .waiting⟩ := rfl
      rw [hr]
      dsimp only at hpos ⊢
      have hprev := hb.prev hpos
      have hres := hst.leaves hpos
      rw [hprev]
      dsimp only
      rw [if_neg (by simp), if_neg (by omega)]
      refine ⟨by simp, ?_⟩
      intro m' hm'
      simp only [Option.some.injEq] at hm'
      subst hm'
      by_cases hlast : ss.countP (isK .leave) - 1 = 0
      · rw [if_pos hlast]
        have c1 := hcnt (Kind.reset, segs w G) Kind.wait
        have c2 := hcnt (Kind.reset, segs w G) Kind.leave
        have c3 := hcnt (Kind.reset, segs w G) Kind.reset
        simp only [reduceCtorEq, if_true, if_false, Nat.add_zero] at c1 c2 c3
        refine ⟨G, ss.set w (Kind.reset, segs w G), ⟨⟨?_, hst.le, ?_, ?_, ?_⟩, ⟨?_, ?_, ?_⟩, ?_, ?_⟩,
          by simp [hT]⟩
        · exact hpend _ ⟨fun _ => ⟨rfl, hG0⟩, by simp, by simp⟩
        · rw [c1, List.length_set]; exact hst.waiting
        · omega
        · omega
        · dsimp only
          rw [setBar_ne _ _ (decide_ne G), c1, List.length_set]; exact hb.cur
        · omega
        · omega
        · rw [hth]; exact th_set w (Kind.reset, segs w G)
        · rw [pends_set hss]; exact hsh
      · rw [if_neg hlast]
        have c1 := hcnt (Kind.go, segs w G) Kind.wait
        have c2 := hcnt (Kind.go, segs w G) Kind.leave
        have c3 := hcnt (Kind.go, segs w G) Kind.reset
        simp only [reduceCtorEq, if_true, if_false, Nat.add_zero] at c1 c2 c3
        refine ⟨G, ss.set w (Kind.go, segs w G), ⟨⟨?_, hst.le, ?_, ?_, ?_⟩, ⟨?_, ?_, ?_⟩, ?_, ?_⟩,
          by simp [hT]⟩
        · exact hpend _ ⟨by simp, by simp, fun _ => List.suffix_refl _⟩
        · rw [c1, List.length_set]; exact hst.waiting
        · omega
        · omega
        · dsimp only
          rw [setBar_ne _ _ (decide_ne G), c1, List.length_set]; exact hb.cur
        · intro _
          dsimp only
          rw [setBar_same]
          congr 1
          omega
        · omega
        · rw [hth]; exact th_set w (Kind.go, segs w G)
        · rw [pends_set hss]; exact hsh
    | reset =>
      obtain ⟨hp, hG0⟩ := p1 (Or.inr rfl)
      dsimp only at hp
      subst hp
      have hr : (real (segs w) N G (Kind.reset, segs w G)) =
        ⟨.sync (decide ((G + 1) % 2 = 1)) :: ((segs w G).map .act ++ aft (segs w) N G), .resetting⟩ := rfl
      rw [hr]
      dsimp only at hpos ⊢
      have hr1 := hst.resets
      have hl0 : ss.countP (isK .leave) = 0 := by
        by_contra hc
        have := hst.leaves (by omega)
        omega
      refine ⟨by simp, ?_⟩
      intro m' hm'
      simp only [Option.some.injEq] at hm'
      subst hm'
      have c1 := hcnt (Kind.go, segs w G) Kind.wait
      have c2 := hcnt (Kind.go, segs w G) Kind.leave
      have c3 := hcnt (Kind.go, segs w G) Kind.reset
      simp only [reduceCtorEq, if_true, if_false, Nat.add_zero] at c1 c2 c3
      refine ⟨G, ss.set w (Kind.go, segs w G), ⟨⟨?_, hst.le, ?_, ?_, ?_⟩, ⟨?_, ?_, ?_⟩, ?_, ?_⟩,
        by simp [hT]⟩
      · exact hpend _ ⟨by simp, by simp, fun _ => List.suffix_refl _⟩
      · rw [c1, List.length_set]; exact hst.waiting
      · omega
      · omega
      · dsimp only
        rw [setBar_ne _ _ (decide_ne G), c1, List.length_set]; exact hb.cur
      · omega
      · intro _ _
        dsimp only
        rw [setBar_same, hlen, List.length_set]
      · rw [hth]; exact th_set w (Kind.go, segs w G)
      · rw [pends_set hss]; exact hsh

theorem reach_inv {exec : A → S → Option S} {segs : Nat → Nat → List A} {T N : Nat} {states : Nat → S}
    (hT : 0 < T) (hs : SegsOk exec segs T N states) {m : Mach A S}
    (h : Reach exec (start (states 0) ((List.range T).map (fun w => progFrom (segs w) 0 N))) m) :
    ∃ G ss, Inv exec segs N states m G ss ∧ ss.length = T := by
  induction h with
  | refl => exact ⟨0, _, start_inv hT hs, by simp⟩
  | step w _ hstep ih =>
    obtain ⟨G, ss, hi, hl⟩ := ih
    exact (step_inv hs hi hl w).2 _ hstep

/-! ## Progress -/

theorem can_step {exec : A → S → Option S} {segs : Nat → Nat → List A} {T N : Nat} {states : Nat → S}
    (hs : SegsOk exec segs T N states) {m : Mach A S} {G : Nat} {ss : List (Stat A)}
    (h : Inv exec segs N states m G ss) (hT : ss.length = T) (hT0 : 0 < T) :
    (m.Finished ∧ m.sh = states (N + 1)) ∨ ∃ w m', w < T ∧ stepT exec m w = some (some m') := by
  have nc : ∀ w, stepT exec m w ≠ some none := fun w => (step_inv hs h hT w).1
  have fin : ∀ w, w < T → stepT exec m w ≠ none → ∃ w m', w < T ∧ stepT exec m w = some (some m') := by
    intro w hw hne
    cases hst : stepT exec m w with
    | none => exact absurd hst hne
    | some r =>
      cases r with
      | none => exact absurd hst (nc w)
      | some m' => exact ⟨w, m', hw, hst⟩
  obtain ⟨hst, hb, hth, hsh⟩ := h
  have hmw : ∀ (w : Nat) s, ss[w]? = some s → m.th[w]? = some (real (segs w) N G s) := by
    intro w s hss
    rw [hth, th_get, hss]; rfl
  by_cases hex : ∃ w, w < T ∧ stepT exec m w ≠ none
  · obtain ⟨w, hw, hne⟩ := hex
    exact Or.inr (fin w hw hne)
  · left
    have hno : ∀ w, w < T → stepT exec m w = none := by
      intro w hw
      by_contra hc
      exact hex ⟨w, hw, hc⟩
    -- every thread is at the end of its program, or waits for the current barrier
    have hkind : ∀ (w : Nat) s, ss[w]? = some s → s.1 = Kind.wait ∨ (s = (Kind.go, []) ∧ G = N) := by
      intro w s hss
      have hw : w < T := by
        have := (List.getElem?_eq_some_iff.1 hss).1; omega
      have hn := hno w hw
      unfold stepT at hn
      rw [hmw w s hss] at hn
      dsimp only at hn
      obtain ⟨k, p⟩ := s
      have hpos := count_pos hss
      cases k with
      | wait => exact Or.inl rfl
      | go =>
        right
        cases p with
        | cons a p =>
          have hr : (real (segs w) N G (Kind.go, a :: p)) =
            ⟨.act a :: (p.map .act ++ aft (segs w) N G), .run⟩ := rfl
          rw [hr] at hn
          dsimp only at hn
          split at hn <;> cases hn
        | nil =>
          refine ⟨rfl, ?_⟩
          by_contra hne
          have hG : G < N := by have := hst.le; omega
          have hr : (real (segs w) N G (Kind.go, [])) =
            ⟨.sync (decide (G % 2 = 1)) :: progFrom (segs w) (G + 1) (N - (G + 1)), .run⟩ := by
            simp [real, aft, hG]
          rw [hr] at hn
          dsimp only at hn
          split at hn <;> cases hn
      | leave =>
        exfalso
        have hr : (real (segs w) N G (Kind.leave, p)) =
          ⟨.sync (decide ((G + 1) % 2 = 1)) :: ((segs w G).map .act ++ aft (segs w) N G), .waiting⟩ := rfl
        rw [hr] at hn
        dsimp only at hn hpos
        rw [hb.prev hpos] at hn
        dsimp only at hn
        rw [if_neg (by simp), if_neg (by omega)] at hn
        cases hn
      | reset =>
        exfalso
        have hr : (real (segs w) N G (Kind.reset, p)) =
          ⟨.sync (decide ((G + 1) % 2 = 1)) :: ((segs w G).map .act ++ aft (segs w) N G), .resetting⟩ := rfl
        rw [hr] at hn
        cases hn
    -- not all of them wait
    have hGN : G = N := by
      by_contra hne
      have : ss.countP (isK .wait) = ss.length := by
        rw [List.countP_eq_length]
        intro s hs'
        obtain ⟨w, hw⟩ := List.getElem?_of_mem hs'
        rcases hkind w s hw with h1 | h1
        · simp [isK, h1]
        · exact absurd h1.2 hne
      have := hst.waiting
      omega
    have hall : ∀ (w : Nat) s, ss[w]? = some s → s = (Kind.go, []) := by
      intro w s hss
      rcases hkind w s hss with h1 | h1
      · have := ((hst.pend w s hss).2.1 h1).2
        omega
      · exact h1.1
    refine ⟨?_, ?_⟩
    · intro t ht
      obtain ⟨w, hw⟩ := List.getElem?_of_mem ht
      have hlt : w < ss.length := by
        have := (List.getElem?_eq_some_iff.1 hw).1
        rw [hth] at this
        simpa using this
      have hss : ss[w]? = some ss[w] := List.getElem?_eq_getElem hlt
      rw [hmw w _ hss] at hw
      rw [hall w _ hss] at hw
      cases hw
      simp [real, aft, hGN]
    · have hnil : (ss.map (·.2)).flatten = [] := by
        rw [List.flatten_eq_nil_iff]
        intro l hl
        obtain ⟨s, hs', rfl⟩ := List.mem_map.1 hl
        obtain ⟨w, hw⟩ := List.getElem?_of_mem hs'
        rw [hall w s hw]
      rw [hnil] at hsh
      simp only [execAll, Option.some.injEq] at hsh
      rw [hsh, hGN]

/-- Steps an instruction list can still make. -/
def Th.steps (t : Th A) : Nat :=
  3 * t.rest.length - (match t.mic with | .run => 0 | .waiting => 1 | .resetting => 2)

/-- Steps the machine can still make. -/
def Mach.steps (m : Mach A S) : Nat := (m.th.map Th.steps).sum

theorem sum_set : ∀ (l : List (Th A)) (w : Nat) (t t' : Th A), l[w]? = some t → t'.steps < t.steps →
    ((l.set w t').map Th.steps).sum < (l.map Th.steps).sum := by
  intro l
  induction l with
  | nil => intro w t t' h; simp at h
  | cons x xs ih =>
    intro w t t' h hlt
    cases w with
    | zero =>
      simp only [List.getElem?_cons_zero, Option.some.injEq] at h
      subst h
      simp; omega
    | succ w =>
      have := ih w t t' (by simpa using h) hlt
      simp only [List.set_cons_succ, List.map_cons, List.sum_cons]
      omega

theorem steps_decrease {exec : A → S → Option S} {m m' : Mach A S} {w : Nat}
    (h : stepT exec m w = some (some m')) : m'.steps < m.steps := by
  unfold stepT at h
  split at h
  · cases h
  · rename_i t ht
    split at h
    · cases h
    · rename_i a rest hr
      split at h
      · cases h
      · simp only [Option.some.injEq] at h
        subst h
        refine sum_set _ _ _ _ ht ?_
        unfold Th.steps
        rw [hr]
        simp only [List.length_cons]
        cases t.mic <;> simp <;> omega
    · rename_i b rest hr
      dsimp only at h
      split at h
      · rename_i hm
        split at h
        · cases h
        · simp only [Option.some.injEq] at h
          subst h
          refine sum_set _ _ _ _ ht ?_
          unfold Th.steps
          rw [hr, hm]
          simp; omega
      · rename_i hm
        split at h
        · cases h
        · split at h
          · cases h
          · simp only [Option.some.injEq] at h
            subst h
            refine sum_set _ _ _ _ ht ?_
            unfold Th.steps
            rw [hr, hm]
            split <;> simp <;> omega
      · rename_i hm
        simp only [Option.some.injEq] at h
        subst h
        refine sum_set _ _ _ _ ht ?_
        unfold Th.steps
        rw [hr, hm]
        simp; omega

/-- Threads in the same segment. -/
theorem no_race {exec : A → S → Option S} {segs : Nat → Nat → List A} {T N : Nat} {states : Nat → S}
    {conf : A → A → Prop} {m : Mach A S} {G : Nat} {ss : List (Stat A)}
    (hc : ∀ g w v, w < T → v < T → w ≠ v → ∀ a ∈ segs w g, ∀ b ∈ segs v g, ¬ conf a b)
    (h : Inv exec segs N states m G ss) (hT : ss.length = T) (w v : Nat) : ¬ m.Race conf w v := by
  rintro ⟨t, u, hwv, ht, hu, hrace⟩
  obtain ⟨hst, hb, hth, hsh⟩ := h
  have get : ∀ (w : Nat) t, m.th[w]? = some t → ∃ s, ss[w]? = some s ∧ t = real (segs w) N G s := by
    intro w t ht
    rw [hth, th_get] at ht
    cases hs : ss[w]? with
    | none => rw [hs] at ht; cases ht
    | some s => rw [hs] at ht; cases ht; exact ⟨s, rfl, rfl⟩
  obtain ⟨s, hs, rfl⟩ := get w t ht
  obtain ⟨s', hs', rfl⟩ := get v u hu
  have hw : w < T := by have := (List.getElem?_eq_some_iff.1 hs).1; omega
  have hv : v < T := by have := (List.getElem?_eq_some_iff.1 hs').1; omega
  have act : ∀ (w : Nat) s a r, ss[w]? = some s → (real (segs w) N G s).rest = .act a :: r →
      a ∈ segs w G := by
    intro w s a r hss he
    obtain ⟨k, p⟩ := s
    have haft : ∀ a r, aft (segs w) N G ≠ .act a :: r := by
      intro a r h
      unfold aft at h
      split at h <;> cases h
    cases k with
    | leave => simp [real] at he
    | reset => simp [real] at he
    | wait => exact absurd he (haft a r)
    | go =>
      cases p with
      | nil => exact absurd he (haft a r)
      | cons b p =>
        simp only [real, List.map_cons, List.cons_append, List.cons.injEq, Instr.act.injEq] at he
        rw [← he.1]
        exact stat_mem hst hss (by simp)
  rcases hrace with ⟨a, b, r, r', h1, h2, h3⟩ | ⟨b, r, r', h1, h2, h3⟩
  · exact hc G w v hw hv hwv a (act w s a r hs h1) b (act v s' b r' hs' h2) h3
  · obtain ⟨k, p⟩ := s
    have hk : k = Kind.reset := by
      cases k <;> simp [real] at h2 ⊢
    subst hk
    have hpos := count_pos hs
    dsimp only at hpos
    have hb' : b = decide ((G + 1) % 2 = 1) := by
      simp only [real, List.cons.injEq, Instr.sync.injEq] at h1
      exact h1.1.symm
    have haft : ∀ b r, aft (segs v) N G = .sync b :: r → b = decide (G % 2 = 1) := by
      intro b r h
      unfold aft at h
      split at h
      · simp only [List.cons.injEq, Instr.sync.injEq] at h; exact h.1.symm
      · cases h
    obtain ⟨k', p'⟩ := s'
    have hpos' := count_pos hs'
    dsimp only at hpos'
    have hr1 := hst.resets
    cases k' with
    | leave =>
      have := hst.leaves hpos'
      omega
    | reset =>
      -- two resets
      have h1 := count_set (s' := ((Kind.go, p) : Stat A)) hs Kind.reset
      simp only [reduceCtorEq, if_true, if_false, Nat.add_zero] at h1
      have h2 : (ss.set w (Kind.go, p))[v]? = some (Kind.reset, p') := by
        rw [List.getElem?_set_ne hwv]; exact hs'
      have h3 := count_pos h2
      dsimp only at h3
      omega
    | wait =>
      have := haft b r' h3
      exact decide_ne G (by rw [← this, ← hb'])
    | go =>
      cases p' with
      | cons a p' => simp [real] at h3
      | nil =>
        have := haft b r' h3
        exact decide_ne G (by rw [← this, ← hb'])

end Verif.Frames
