import Verif.Forest.CoreEvalLemmas
import Verif.Forest.SingleLemmas

/-!
# Lemmas: the single input evaluators of a forest
-/

namespace Verif.Forest

variable {M T : Type}

/-! ### The two kinds of inputs -/

/-- What is needed of a kind of input: `PS` are the split points, `VS` the input values which are covered. -/
structure KindOk (k : NumKind T) (q : QT) (PS VS : T → Prop) : Prop where
  laws : k.Laws
  points : ∀ (osig : Nat → List (Nat × QT)) (c : Cond) (id : Nat), c.Basic osig → c.sig osig = [(id, q)] → c.Safe →
    ∃ ps, k.points c = some ps ∧ (∀ p ∈ ps, PS p ∧ k.nan p = false) ∧
      ∀ u v, k.nan u = false → k.nan v = false → SameGap k ps u v →
        c.eval (k.frame (some u)) = c.eval (k.frame (some v))
  env : ∀ (osig : Nat → List (Nat × QT)) (c : Cond) (id : Nat), c.Basic osig → c.sig osig = [(id, q)] → ∀ e : Env,
    c.eval e = c.eval (k.frame (k.read e id))
  nan : ∀ (osig : Nat → List (Nat × QT)) (c : Cond) (id : Nat), c.Basic osig → c.sig osig = [(id, q)] → ∀ e : Env, ∀ x,
    k.read e id = some x → k.nan x = true → (∀ vs, c = .setF32 id vs true → e.f id ≠ some .nan) →
      c.eval (k.frame (some x)) = c.eval (k.frame none)
  mid : ∀ l r, PS l → PS r → ∃ m, k.mid l r = some m
  between : ∀ l r x, PS l → PS r → VS x → k.lt l x = true → k.lt x r = true →
    ∃ m, k.mid l r = some m ∧ k.nan m = false ∧ k.lt l m = true ∧ k.lt m r = true
  low : ∀ p, PS p → k.lt k.lowest p = true
  high : ∀ p, PS p → k.lt p k.max = true

theorem i64_ok : KindOk i64Kind .i64 (fun v => -2 ^ 62 ≤ v ∧ v < 2 ^ 62) (fun _ => True) where
  laws := i64Kind_laws
  points osig c id hb hs hsafe := by
    cases c with
    | interval i l r => simp [Cond.sig] at hs
    | setF32 i vs d => simp [Cond.sig] at hs
    | other k => exact absurd hs (hb id).2
    | setI64 i vs d =>
      refine ⟨vs, rfl, fun p hp => ⟨hsafe p hp, rfl⟩, fun u v _ _ hg => ?_⟩
      simp only [Cond.eval, i64Kind]
      have key : ∀ x y : Int, SameGap i64Kind vs x y → x ∈ vs → y ∈ vs := by
        intro x y hxy hx
        have := hxy x hx
        simp only [i64Kind, decide_eq_decide] at this
        have : x = y := by omega
        exact this ▸ hx
      rw [Bool.eq_iff_iff]
      simp only [List.contains_iff_mem]
      exact ⟨key u v hg, key v u fun p hp => ⟨(hg p hp).1.symm, (hg p hp).2.symm⟩⟩
  env osig c id hb hs e := by
    cases c with
    | interval i l r => simp [Cond.sig] at hs
    | setF32 i vs d => simp [Cond.sig] at hs
    | other k => exact absurd hs (hb id).2
    | setI64 i vs d =>
      simp only [Cond.sig, List.cons.injEq, Prod.mk.injEq, and_true] at hs
      subst hs
      simp [Cond.eval, i64Kind]
  nan osig c id hb hs e x _ hx := by simp [i64Kind] at hx
  mid l r hl hr := by
    simp only [i64Kind, i64]
    rw [if_pos (by omega)]
    exact ⟨_, rfl⟩
  between l r x hl hr _ h1 h2 := by
    simp only [i64Kind, decide_eq_true_eq] at h1 h2 ⊢
    simp only [i64]
    rw [if_pos (by omega)]
    have e1 := Int.mul_tdiv_add_tmod (l + r) 2
    have e2 := Int.tmod_lt_of_pos (l + r) (show (0 : Int) < 2 by omega)
    have e3 := Int.lt_tmod_of_pos (l + r) (show (0 : Int) < 2 by omega)
    refine ⟨_, rfl, trivial, ?_, ?_⟩ <;> beta_reduce <;> omega
  low p hp := by simp only [i64Kind, decide_eq_true_eq]; omega
  high p hp := by simp only [i64Kind, decide_eq_true_eq]; omega

theorem safe_not_nan {v : Fl} (h : v.Safe) : v ≠ .nan := by rintro rfl; exact h

theorem f32_ok : KindOk f32Kind .f32 Fl.Safe Fl.Ok where
  laws := f32Kind_laws
  points osig c id hb hs hsafe := by
    have fn : ∀ v : Fl, v ≠ .nan → f32Kind.nan v = false := fun v hv => by simp [f32Kind, hv]
    cases c with
    | setI64 i vs d => simp [Cond.sig] at hs
    | other k => exact absurd hs (hb id).1
    | setF32 i vs d =>
      refine ⟨vs, rfl, fun p hp => ⟨hsafe p hp, fn p (safe_not_nan (hsafe p hp))⟩, fun u v hu hv hg => ?_⟩
      simp only [Cond.eval, f32Kind]
      have key : ∀ x y : Fl, f32Kind.nan y = false → SameGap f32Kind vs x y → vs.any (Fl.eq x) = true →
          vs.any (Fl.eq y) = true := by
        intro x y hy hxy hx
        obtain ⟨p, hp, he⟩ := List.any_eq_true.1 hx
        have hxp : x = p := by
          cases x <;> cases p <;> simp [Fl.eq, Fl.le] at he ⊢ <;> omega
        subst hxp
        have := hxy x hp
        rcases f32Kind_laws.tri x y (fn x (safe_not_nan (hsafe x hp))) hy with g | rfl | g
        · rw [← this.1] at g; rw [f32Kind_laws.irrefl] at g; cases g
        · exact hx
        · rw [← this.2] at g; rw [f32Kind_laws.irrefl] at g; cases g
      rw [Bool.eq_iff_iff]
      exact ⟨key u v hv hg, key v u hu fun p hp => ⟨(hg p hp).1.symm, (hg p hp).2.symm⟩⟩
    | interval i l r =>
      obtain ⟨hl, hr⟩ := hsafe
      have hln : l ≠ .nan := by rcases hl with rfl | hl; · simp
                                · exact safe_not_nan hl
      have hrn : r ≠ .nan := by rcases hr with rfl | hr; · simp
                                · exact safe_not_nan hr
      refine ⟨intervalPoints l r, rfl, fun p hp => ?_, fun u v hu hv hg => ?_⟩
      · simp only [intervalPoints, List.mem_append] at hp
        rcases hp with hp | hp
        · split at hp
          · rename_i h
            simp only [List.mem_singleton] at hp
            subst hp
            rcases hl with rfl | hl
            · simp [Fl.eq, Fl.le] at h
            · exact ⟨hl, fn _ hln⟩
          · simp at hp
        · split at hp
          · rename_i h
            simp only [List.mem_singleton] at hp
            subst hp
            rcases hr with rfl | hr
            · simp [Fl.eq, Fl.le] at h
            · exact ⟨hr, fn _ hrn⟩
          · simp at hp
      · have hu' : u ≠ .nan := by simpa [f32Kind] using hu
        have hv' : v ≠ .nan := by simpa [f32Kind] using hv
        have hle : ∀ a b : Fl, a ≠ .nan → b ≠ .nan → Fl.le a b = !Fl.lt b a := by
          intro a b; cases a <;> cases b <;> simp [Fl.lt, Fl.le] <;> omega
        have h1 : Fl.le l u = Fl.le l v := by
          by_cases hi : l = .ninf
          · subst hi; rw [Fl.ninf_le hu', Fl.ninf_le hv']
          · have hm : l ∈ intervalPoints l r := by
              simp only [intervalPoints, List.mem_append]
              left
              rw [if_pos]
              · simp
              · cases l <;> simp_all [Fl.eq, Fl.le]
            rw [hle l u hln hu', hle l v hln hv']
            exact congrArg _ (hg l hm).2
        have h2 : Fl.le u r = Fl.le v r := by
          by_cases hi : r = .pinf
          · subst hi; rw [Fl.le_pinf hu', Fl.le_pinf hv']
          · have hm : r ∈ intervalPoints l r := by
              simp only [intervalPoints, List.mem_append]
              by_cases he : r = l
              · subst he
                left
                rw [if_pos]
                · simp
                · rcases hr with rfl | hr
                  · exact absurd rfl hi
                  · cases r <;> simp_all [Fl.eq, Fl.le, Fl.Safe]
              · right
                rw [if_pos]
                · simp
                · have e1 : Fl.eq r .pinf = false := by cases r <;> simp_all [Fl.eq, Fl.le]
                  have e2 : Fl.eq r l = false := by
                    cases r <;> cases l <;> simp_all [Fl.eq, Fl.le] <;> omega
                  simp [e1, e2]
            rw [hle u r hu' hrn, hle v r hv' hrn]
            exact congrArg _ (hg r hm).1
        simp only [Cond.eval, f32Kind, h1, h2]
  env osig c id hb hs e := by
    cases c with
    | setI64 i vs d => simp [Cond.sig] at hs
    | other k => exact absurd hs (hb id).1
    | interval i l r =>
      simp only [Cond.sig, List.cons.injEq, Prod.mk.injEq, and_true] at hs
      subst hs
      simp [Cond.eval, f32Kind]
    | setF32 i vs d =>
      simp only [Cond.sig, List.cons.injEq, Prod.mk.injEq, and_true] at hs
      subst hs
      simp [Cond.eval, f32Kind]
  nan osig c id hb hs e x hx hn hset := by
    have hxn : x = .nan := by simpa [f32Kind] using hn
    subst hxn
    cases c with
    | setI64 i vs d => simp [Cond.sig] at hs
    | other k => exact absurd hs (hb id).1
    | interval i l r => simp [Cond.eval, f32Kind, Fl.le]
    | setF32 i vs d =>
      simp only [Cond.sig, List.cons.injEq, Prod.mk.injEq, and_true] at hs
      subst hs
      cases d with
      | true => exact absurd hx (hset vs rfl)
      | false => simp [Cond.eval, f32Kind, Fl.eq, Fl.le]
  mid l r _ _ := ⟨_, rfl⟩
  between l r x hl hr hx h1 h2 := by
    cases l with
    | nan => exact hl.elim
    | ninf => exact hl.elim
    | pinf => exact hl.elim
    | num l =>
      cases r with
      | nan => exact hr.elim
      | ninf => exact hr.elim
      | pinf => exact hr.elim
      | num r =>
        cases x with
        | nan => simp [f32Kind, Fl.lt, Fl.le] at h1
        | ninf => simp [f32Kind, Fl.lt, Fl.le] at h1
        | pinf => simp [f32Kind, Fl.lt, Fl.le] at h2
        | num x =>
          have hlx : l < x := by
            simp only [f32Kind, Fl.lt, Fl.le, Bool.and_eq_true, decide_eq_true_eq, Bool.not_eq_true', decide_eq_false_iff_not] at h1
            omega
          have hxr : x < r := by
            simp only [f32Kind, Fl.lt, Fl.le, Bool.and_eq_true, decide_eq_true_eq, Bool.not_eq_true', decide_eq_false_iff_not] at h2
            omega
          obtain ⟨m, e, m1, m2⟩ := mid_between (l := l) (r := r) (x := x) hx.1 hlx hxr
            (by have := hl.2; have := hr.2; omega)
          refine ⟨.num m, by simp only [f32Kind]; rw [e], by simp [f32Kind], ?_, ?_⟩
          · simp only [f32Kind, Fl.lt, Fl.le, Bool.and_eq_true, decide_eq_true_eq, Bool.not_eq_true', decide_eq_false_iff_not]; omega
          · simp only [f32Kind, Fl.lt, Fl.le, Bool.and_eq_true, decide_eq_true_eq, Bool.not_eq_true', decide_eq_false_iff_not]; omega
  low p hp := by
    have hpos : 0 < maxF := by decide
    cases p with
    | num n =>
      have := hp.2
      simp only [f32Kind, Fl.lt, Fl.le, Bool.and_eq_true, decide_eq_true_eq, Bool.not_eq_true', decide_eq_false_iff_not]; omega
    | nan => exact hp.elim
    | ninf => exact hp.elim
    | pinf => exact hp.elim
  high p hp := by
    have hpos : 0 < maxF := by decide
    cases p with
    | num n =>
      have := hp.2
      simp only [f32Kind, Fl.lt, Fl.le, Bool.and_eq_true, decide_eq_true_eq, Bool.not_eq_true', decide_eq_false_iff_not]; omega
    | nan => exact hp.elim
    | ninf => exact hp.elim
    | pinf => exact hp.elim

end Verif.Forest
