import Verif.CoreMap.CoreMapSpec
import Verif.Slots.SlotProps

/-! # Lemmas about `core.map` -/

namespace Verif.CoreMap

open Verif.Slots

variable {V E F P : Type}

/-- Indices of the arrays and of the other arguments, from `i` on. -/
def arrIdx : Nat → List Ty → List Nat
  | _, [] => []
  | i, q :: tys => if q.isArray then i :: arrIdx (i + 1) tys else arrIdx (i + 1) tys

def scaIdx : Nat → List Ty → List Nat
  | _, [] => []
  | i, q :: tys => if q.isArray then scaIdx (i + 1) tys else i :: scaIdx (i + 1) tys

theorem compileLoop_spec (tys : List Ty) (i : Nat) (s : Slots) (h : s.layout.length = i) :
    compileLoop (tys.map elementTy) tys i s = some ⟨s.layout ++ tys.map elementTy, s.optionalScalar ++ arrIdx i tys,
      s.mapper ++ List.range' i tys.length, s.broadcast ++ scaIdx i tys⟩ := by
  induction tys generalizing i s with
  | nil => simp [compileLoop, arrIdx, scaIdx]
  | cons q tys ih =>
    simp only [List.map_cons, compileLoop]
    by_cases hq : q.isArray = true
    · have h1 : elementTy q ≠ q := by cases q <;> simp_all [Ty.isArray, elementTy]
      have h2 : (elementTy q).isOptional = true := by cases q <;> simp_all [Ty.isArray, elementTy, Ty.isOptional]
      rw [if_neg h1, if_pos h2, ih]
      · simp [arrIdx, scaIdx, hq, h, List.range'_succ]
      · simp [h]
    · have h1 : elementTy q = q := by cases q <;> simp_all [Ty.isArray, elementTy]
      rw [if_pos h1, ih]
      · simp [arrIdx, scaIdx, hq, h, List.range'_succ]
      · simp [h]

theorem arrIdx_ge {i j : Nat} {tys : List Ty} (h : j ∈ arrIdx i tys) : i ≤ j ∧ j < i + tys.length := by
  induction tys generalizing i with
  | nil => simp [arrIdx] at h
  | cons q tys ih =>
    simp only [arrIdx] at h
    simp only [List.length_cons]
    split at h
    · rcases List.mem_cons.1 h with h | h
      · omega
      · have := ih h; omega
    · have := ih h; omega

theorem scaIdx_ge {i j : Nat} {tys : List Ty} (h : j ∈ scaIdx i tys) : i ≤ j ∧ j < i + tys.length := by
  induction tys generalizing i with
  | nil => simp [scaIdx] at h
  | cons q tys ih =>
    simp only [scaIdx] at h
    simp only [List.length_cons]
    split at h
    · have := ih h; omega
    · rcases List.mem_cons.1 h with h | h
      · omega
      · have := ih h; omega

/-- The rows of the arrays. -/
def arrRows : List (Arg V) → List (List V)
  | [] => []
  | .array r :: rest => r :: arrRows rest
  | .scalar _ :: rest => arrRows rest

theorem typed_length {tys : List Ty} {args : List (Arg V)} (h : Typed tys args) : args.length = tys.length := by
  induction h with
  | nil => rfl
  | array _ _ ih => simp [ih]
  | scalar _ _ ih => simp [ih]

theorem inputArrays_skip (args : List (Arg V)) (i : Nat) (bs : List Nat) (h : ∀ b ∈ bs, i < b) (a : Arg V) :
    inputArrays (a :: args) i bs = a :: inputArrays args (i + 1) bs := by
  cases bs with
  | nil => rfl
  | cons b bs =>
    have := h b (by simp)
    simp only [inputArrays]
    rw [if_neg (by omega)]

theorem inputArrays_spec {tys : List Ty} {args : List (Arg V)} (h : Typed tys args) (i : Nat) :
    rowsOf (inputArrays args i (scaIdx i tys)) = some (arrRows args) := by
  induction h generalizing i with
  | nil => rfl
  | array hq _ ih =>
    rename_i q rows tys args
    simp only [scaIdx, hq, if_true]
    rw [inputArrays_skip _ _ _ (fun b hb => (by have := (scaIdx_ge hb).1; omega))]
    simp only [rowsOf, ih, arrRows, Option.map_some]
  | scalar hq _ ih =>
    rename_i q v tys args
    simp only [scaIdx, hq, Bool.false_eq_true, if_false, inputArrays, if_true, arrRows]
    exact ih _

/-- Loading a row writes the slots of the arrays and nothing else. -/
theorem loadRow_spec {tys : List Ty} {args : List (Arg V)} (h : Typed tys args) (i row : Nat) (f : Frame V)
    (hr : ∀ rows, Arg.array rows ∈ args → row < rows.length) :
    ∃ f', loadRow row (arrRows args) (arrIdx i tys) f = some f' ∧
      (∀ k rows, args[k]? = some (.array rows) → rows[row]? = some (f' (i + k))) ∧ ∀ b, b ∉ arrIdx i tys → f' b = f b := by
  induction h generalizing i f with
  | nil => exact ⟨f, rfl, by simp, fun _ _ => rfl⟩
  | array hq ht ih =>
    rename_i q rows tys args
    have hlt := hr rows (by simp)
    obtain ⟨f', h1, h2, h3⟩ := ih (i + 1) (setAt f i rows[row]) (fun r hm => hr r (by simp [hm]))
    refine ⟨f', ?_, ?_, ?_⟩
    · simp only [arrRows, arrIdx, hq, if_true, loadRow, List.getElem?_eq_getElem hlt]
      exact h1
    · intro k rows' hk
      cases k with
      | zero =>
        simp only [List.getElem?_cons_zero, Option.some.injEq, Arg.array.injEq] at hk
        subst hk
        have : i ∉ arrIdx (i + 1) tys := fun hm => by have := (arrIdx_ge hm).1; omega
        rw [Nat.add_zero, h3 i this, List.getElem?_eq_getElem hlt]
        simp [setAt]
      | succ k =>
        simp only [List.getElem?_cons_succ] at hk
        have := h2 k rows' hk
        rw [show i + (k + 1) = i + 1 + k by omega]; exact this
    · intro b hb
      simp only [arrIdx, hq, if_true, List.mem_cons, not_or] at hb
      rw [h3 b hb.2]
      simp [setAt, hb.1]
  | scalar hq ht ih =>
    rename_i q v tys args
    obtain ⟨f', h1, h2, h3⟩ := ih (i + 1) f (fun r hm => hr r (by simp [hm]))
    refine ⟨f', ?_, ?_, ?_⟩
    · simp only [arrRows, arrIdx, hq, Bool.false_eq_true, if_false]
      exact h1
    · intro k rows' hk
      cases k with
      | zero => simp at hk
      | succ k =>
        simp only [List.getElem?_cons_succ] at hk
        have := h2 k rows' hk
        rw [show i + (k + 1) = i + 1 + k by omega]; exact this
    · intro b hb
      simp only [arrIdx, hq, Bool.false_eq_true, if_false] at hb
      exact h3 b hb

theorem sca_get {tys : List Ty} {args : List (Arg V)} (h : Typed tys args) (i b : Nat) (hb : b ∈ scaIdx i tys) :
    i ≤ b ∧ ∃ v, args[b - i]? = some (.scalar v) := by
  induction h generalizing i with
  | nil => simp [scaIdx] at hb
  | array hq ht ih =>
    simp only [scaIdx, hq, if_true] at hb
    obtain ⟨h1, v, h2⟩ := ih (i + 1) hb
    refine ⟨by omega, v, ?_⟩
    rw [show b - i = (b - (i + 1)) + 1 by omega]; simpa using h2
  | scalar hq ht ih =>
    rename_i q v tys args
    simp only [scaIdx, hq, Bool.false_eq_true, if_false] at hb
    rcases List.mem_cons.1 hb with rfl | hb
    · exact ⟨by omega, v, by simp⟩
    · obtain ⟨h1, v, h2⟩ := ih (i + 1) hb
      refine ⟨by omega, v, ?_⟩
      rw [show b - i = (b - (i + 1)) + 1 by omega]; simpa using h2

theorem get_sca {tys : List Ty} {args : List (Arg V)} (h : Typed tys args) (i k : Nat) (v : V) (hk : args[k]? = some (.scalar v)) :
    i + k ∈ scaIdx i tys := by
  induction h generalizing i k with
  | nil => simp at hk
  | array hq ht ih =>
    cases k with
    | zero => simp at hk
    | succ k =>
      simp only [List.getElem?_cons_succ] at hk
      simp only [scaIdx, hq, if_true]
      have := ih (i + 1) k hk
      rwa [show i + 1 + k = i + (k + 1) by omega] at this
  | scalar hq ht ih =>
    cases k with
    | zero => simp [scaIdx, hq]
    | succ k =>
      simp only [List.getElem?_cons_succ] at hk
      simp only [scaIdx, hq, Bool.false_eq_true, if_false]
      have := ih (i + 1) k hk
      rw [show i + 1 + k = i + (k + 1) by omega] at this
      exact List.mem_cons_of_mem _ this

theorem arr_not_sca {tys : List Ty} {i b : Nat} (h : b ∈ arrIdx i tys) : b ∉ scaIdx i tys := by
  induction tys generalizing i with
  | nil => simp [arrIdx] at h
  | cons q tys ih =>
    simp only [arrIdx, scaIdx] at h ⊢
    by_cases hq : q.isArray = true
    · simp only [hq, if_true] at h ⊢
      rcases List.mem_cons.1 h with rfl | h
      · intro hm; have := (scaIdx_ge hm).1; omega
      · exact ih h
    · simp only [hq, Bool.false_eq_true, if_false] at h ⊢
      intro hm
      rcases List.mem_cons.1 hm with rfl | hm
      · have := (arrIdx_ge h).1; omega
      · exact ih h hm

/-- Copying the scalars. -/
theorem copyScalars_spec {args : List (Arg V)} (mapper : List Nat) (n : Nat) (hm : mapper = List.range' 0 n) (hn : args.length = n) (ids : List Nat)
    (hids : ∀ b ∈ ids, ∃ v, args[b]? = some (.scalar v)) (f : Frame V) :
    ∃ f', copyScalars args mapper ids f = some f' ∧ (∀ b ∈ ids, ∀ v, args[b]? = some (.scalar v) → f' b = v) ∧ ∀ b, b ∉ ids → f' b = f b := by
  induction ids generalizing f with
  | nil => exact ⟨f, rfl, by simp, fun _ _ => rfl⟩
  | cons b ids ih =>
    obtain ⟨v, hv⟩ := hids b (by simp)
    have hlt : b < n := by
      rw [← hn]; exact (List.getElem?_eq_some_iff.1 hv).1
    have hmb : mapper[b]? = some b := by rw [hm]; simp [hlt]
    obtain ⟨f', h1, h2, h3⟩ := ih (fun b hb => hids b (by simp [hb])) (setAt f b v)
    refine ⟨f', by simp only [copyScalars, hv, hmb]; exact h1, ?_, ?_⟩
    · intro b' hb' w hw
      by_cases hmem : b' ∈ ids
      · exact h2 b' hmem w hw
      · rcases List.mem_cons.1 hb' with rfl | hb'
        · rw [h3 b' hmem]
          rw [hv] at hw
          simp only [Option.some.injEq, Arg.scalar.injEq] at hw
          simp [setAt, hw]
        · exact absurd hb' hmem
    · intro b' hb'
      simp only [List.mem_cons, not_or] at hb'
      rw [h3 b' hb'.2]
      simp [setAt, hb'.1]

/-! ## The loop -/

/-- Values of `count` rows from `row` on, or the first error. -/
def evalAll (rv : Nat → Except E V) : Nat → Nat → Except E (List V)
  | _, 0 => .ok []
  | row, n + 1 =>
    match rv row with
    | .error e => .error e
    | .ok v =>
      match evalAll rv (row + 1) n with
      | .error e => .error e
      | .ok vs => .ok (v :: vs)

theorem evalAll_add (rv : Nat → Except E V) (row a b : Nat) :
    evalAll rv row (a + b) = match evalAll rv row a with
      | .error e => .error e
      | .ok vs => match evalAll rv (row + a) b with
        | .error e => .error e
        | .ok ws => .ok (vs ++ ws) := by
  induction a generalizing row with
  | zero =>
    simp only [Nat.zero_add, evalAll, Nat.add_zero]
    cases evalAll rv row b <;> simp
  | succ a ih =>
    rw [show a + 1 + b = (a + b) + 1 by omega]
    simp only [evalAll]
    cases rv row with
    | error e => rfl
    | ok v =>
      simp only [ih]
      rw [show row + 1 + a = row + (a + 1) by omega]
      cases evalAll rv (row + 1) a with
      | error e => rfl
      | ok vs => cases evalAll rv (row + (a + 1)) b <;> rfl

theorem evalAll_spec (rv : Nat → Except E V) (row n : Nat) :
    match evalAll rv row n with
    | .ok vs => vs.length = n ∧ ∀ i v, vs[i]? = some v → rv (row + i) = .ok v
    | .error e => ∃ i, i < n ∧ rv (row + i) = .error e ∧ ∀ j, j < i → ∃ v, rv (row + j) = .ok v := by
  induction n generalizing row with
  | zero => simp [evalAll]
  | succ n ih =>
    simp only [evalAll]
    cases hr : rv row with
    | error e => exact ⟨0, by omega, by simpa using hr, by omega⟩
    | ok v =>
      have := ih (row + 1)
      cases he : evalAll rv (row + 1) n with
      | error e =>
        rw [he] at this
        obtain ⟨i, h1, h2, h3⟩ := this
        refine ⟨i + 1, by omega, by rw [← h2]; congr 1; omega, ?_⟩
        intro j hj
        cases j with
        | zero => exact ⟨v, by simpa using hr⟩
        | succ j =>
          obtain ⟨w, hw⟩ := h3 j (by omega)
          exact ⟨w, by rw [← hw]; congr 1; omega⟩
      | ok vs =>
        rw [he] at this
        refine ⟨by simp [this.1], ?_⟩
        intro i w hi
        cases i with
        | zero => simp at hi; subst hi; simpa using hr
        | succ i =>
          simp at hi
          rw [← this.2 i w hi]; congr 1; omega

variable {exec : Frame V → Except E (Frame V)} {arrays : List (List V)} {slots : List Nat} {out : Nat}
  {Good : Frame V → Prop} {Loaded : Nat → Frame V → Prop} {rv : Nat → Except E V} {keep : Prop}

/-- What is known about the loading of a row and about the mapper. -/
structure Sound (exec : Frame V → Except E (Frame V)) (arrays : List (List V)) (slots : List Nat) (out n : Nat) (Good : Frame V → Prop)
    (Loaded : Nat → Frame V → Prop) (rv : Nat → Except E V) (keep : Prop) : Prop where
  any : ∀ row f, row < n → ∃ f', loadRow row arrays slots f = some f'
  load : ∀ row f, row < n → Good f → ∃ f', loadRow row arrays slots f = some f' ∧ Loaded row f'
  run : ∀ row f, row < n → Loaded row f → match rv row with
    | .error e => exec f = .error e
    | .ok v => ∃ f', exec f = .ok f' ∧ f' out = v ∧ (keep → Good f')

theorem loadFrames_any {n : Nat} (h : Sound exec arrays slots out n Good Loaded rv keep) (fs : List (Frame V)) (row : Nat) (hr : row + fs.length ≤ n) :
    ∃ fs', loadFrames arrays slots row fs = some fs' ∧ fs'.length = fs.length := by
  induction fs generalizing row with
  | nil => exact ⟨[], rfl, rfl⟩
  | cons f fs ih =>
    simp only [List.length_cons] at hr
    obtain ⟨f', h1⟩ := h.any row f (by omega)
    obtain ⟨fs', h2, h3⟩ := ih (row + 1) (by omega)
    exact ⟨f' :: fs', by simp only [loadFrames, h1, h2], by simp [h3]⟩

/-- Every frame is loaded with its row. -/
def AllLoaded (Loaded : Nat → Frame V → Prop) : Nat → List (Frame V) → Prop
  | _, [] => True
  | row, f :: fs => Loaded row f ∧ AllLoaded Loaded (row + 1) fs

theorem loadFrames_good {n : Nat} (h : Sound exec arrays slots out n Good Loaded rv keep) (fs : List (Frame V)) (row : Nat) (hr : row + fs.length ≤ n)
    (hg : ∀ f ∈ fs, Good f) :
    ∃ fs', loadFrames arrays slots row fs = some fs' ∧ fs'.length = fs.length ∧ AllLoaded Loaded row fs' := by
  induction fs generalizing row with
  | nil => exact ⟨[], rfl, rfl, trivial⟩
  | cons f fs ih =>
    simp only [List.length_cons] at hr
    obtain ⟨f', h1, h2⟩ := h.load row f (by omega) (hg f (by simp))
    obtain ⟨fs', h3, h4, h5⟩ := ih (row + 1) (by omega) (fun g hm => hg g (by simp [hm]))
    exact ⟨f' :: fs', by simp only [loadFrames, h1, h3], by simp [h4], h2, h5⟩

theorem execFrames_failed (e : E) (fs : List (Frame V)) : execFrames exec (some e) fs = (fs, some e) := by
  induction fs with
  | nil => rfl
  | cons f fs ih => simp only [execFrames, ih]

theorem execFrames_length (st : Option E) (fs : List (Frame V)) : (execFrames exec st fs).1.length = fs.length := by
  induction fs generalizing st with
  | nil => cases st <;> rfl
  | cons f fs ih =>
    cases st with
    | some e => simp only [execFrames, List.length_cons, ih]
    | none =>
      simp only [execFrames]
      cases exec f <;> simp only [List.length_cons, ih]

theorem execFrames_spec {n : Nat} (h : Sound exec arrays slots out n Good Loaded rv keep) (fs : List (Frame V)) (row : Nat) (hr : row + fs.length ≤ n)
    (hl : AllLoaded Loaded row fs) :
    match evalAll rv row fs.length with
    | .ok vs => (execFrames exec none fs).2 = none ∧ (execFrames exec none fs).1.map (· out) = vs ∧
        (keep → ∀ f ∈ (execFrames exec none fs).1, Good f)
    | .error e => (execFrames exec none fs).2 = some e := by
  induction fs generalizing row with
  | nil => exact ⟨rfl, rfl, by simp [execFrames]⟩
  | cons f fs ih =>
    simp only [List.length_cons] at hr
    have hrun := h.run row f (by omega) hl.1
    simp only [List.length_cons, evalAll]
    cases hv : rv row with
    | error e =>
      rw [hv] at hrun
      dsimp only at hrun ⊢
      simp only [execFrames, hrun, execFrames_failed]
    | ok v =>
      rw [hv] at hrun
      obtain ⟨f', h1, h2, h3⟩ := hrun
      have := ih (row + 1) (by omega) hl.2
      dsimp only
      cases he : evalAll rv (row + 1) fs.length with
      | error e =>
        rw [he] at this
        dsimp only at this ⊢
        simp only [execFrames, h1, this]
      | ok vs =>
        rw [he] at this
        obtain ⟨g1, g2, g3⟩ := this
        dsimp only
        refine ⟨by simp only [execFrames, h1, g1], by simp only [execFrames, h1, List.map_cons, g2, h2], ?_⟩
        intro hk g hg
        simp only [execFrames, h1] at hg
        rcases List.mem_cons.1 hg with rfl | hg
        · exact h3 hk
        · exact g3 hk g hg

theorem forEach_failed {n : Nat} (h : Sound exec arrays slots out n Good Loaded rv keep) (e : E) (fuel offset : Nat) (frames : List (Frame V))
    (acc : List V) (hf : 0 < frames.length) (hfuel : n ≤ offset + fuel) :
    ∃ outs, forEachFrame exec arrays slots out n fuel offset frames (some e) acc = some (outs, some e) := by
  induction fuel generalizing offset frames acc with
  | zero => exact ⟨acc, by simp only [forEachFrame]; rw [if_neg (by omega)]⟩
  | succ fuel ih =>
    simp only [forEachFrame]
    by_cases hlt : offset < n
    · rw [if_pos hlt]
      have hc : (frames.take (min frames.length (n - offset))).length = min frames.length (n - offset) := by simp
      obtain ⟨fs, h1, h2⟩ := loadFrames_any h (frames.take (min frames.length (n - offset))) offset (by rw [hc]; omega)
      rw [h1]
      simp only [execFrames_failed]
      exact ih _ _ _ (by rw [List.length_append, h2, hc, List.length_drop]; omega) (by omega)
    · rw [if_neg hlt]; exact ⟨acc, rfl⟩

theorem forEach_spec {n : Nat} (h : Sound exec arrays slots out n Good Loaded rv keep) (fuel offset : Nat) (frames : List (Frame V))
    (acc : List V) (hf : 0 < frames.length) (hfuel : n ≤ offset + fuel) (hg : ∀ f ∈ frames, Good f)
    (hk : keep ∨ n ≤ offset + frames.length) :
    match evalAll rv offset (n - offset) with
    | .ok vs => forEachFrame exec arrays slots out n fuel offset frames none acc = some (acc ++ vs, none)
    | .error e => ∃ outs, forEachFrame exec arrays slots out n fuel offset frames none acc = some (outs, some e) := by
  induction fuel generalizing offset frames acc with
  | zero =>
    have hz : n - offset = 0 := by omega
    rw [hz]
    simp only [evalAll, forEachFrame, List.append_nil]
    rw [if_neg (by omega)]
  | succ fuel ih =>
    by_cases hlt : offset < n
    · have hc : (frames.take (min frames.length (n - offset))).length = min frames.length (n - offset) := by simp
      obtain ⟨fs, h1, h2, h3⟩ := loadFrames_good h (frames.take (min frames.length (n - offset))) offset (by rw [hc]; omega)
        (fun f hm => hg f (List.mem_of_mem_take hm))
      have hfs : fs.length = min frames.length (n - offset) := h2.trans hc
      have hb := execFrames_spec h fs offset (by omega) h3
      have hsplit : n - offset = fs.length + (n - offset - fs.length) := by omega
      have hunf : forEachFrame exec arrays slots out n (fuel + 1) offset frames none acc =
          forEachFrame exec arrays slots out n fuel (offset + frames.length)
            ((execFrames exec none fs).1 ++ frames.drop (min frames.length (n - offset))) (execFrames exec none fs).2
            (acc ++ (execFrames exec none fs).1.map (· out)) := by
        conv => lhs; unfold forEachFrame
        rw [if_pos hlt]
        dsimp only
        rw [h1]
      have hlen : ((execFrames exec none fs).1 ++ frames.drop (min frames.length (n - offset))).length = frames.length := by
        rw [List.length_append, execFrames_length, hfs, List.length_drop]; omega
      have hev : evalAll rv offset (n - offset) = _ := (congrArg (evalAll rv offset) hsplit).trans (evalAll_add rv offset _ _)
      rw [hunf, hev]
      generalize hd : frames.drop (min frames.length (n - offset)) = rest at hlen
      cases he : evalAll rv offset fs.length with
      | error e =>
        rw [he] at hb
        dsimp only at hb ⊢
        rw [hb]
        exact forEach_failed h e fuel _ _ _ (by omega) (by omega)
      | ok vs =>
        rw [he] at hb
        obtain ⟨g1, g2, g3⟩ := hb
        dsimp only
        rw [g1, g2]
        by_cases hlast : n ≤ offset + frames.length
        · -- the last batch
          have hz : n - offset - fs.length = 0 := by omega
          rw [hz]
          simp only [evalAll, List.append_nil]
          cases fuel with
          | zero => simp only [forEachFrame]; rw [if_neg (by omega)]
          | succ fuel => simp only [forEachFrame]; rw [if_neg (by omega)]
        · have hkeep : keep := by
            rcases hk with hk | hk
            · exact hk
            · omega
          have hfl : fs.length = frames.length := by omega
          have := ih (offset + frames.length) ((execFrames exec none fs).1 ++ rest) (acc ++ vs)
            (by omega) (by omega) (by
              intro f hm
              rcases List.mem_append.1 hm with hm | hm
              · exact g3 hkeep f hm
              · exact hg f (List.mem_of_mem_drop (hd ▸ hm))) (.inl hkeep)
          rw [hfl, show n - offset - frames.length = n - (offset + frames.length) by omega]
          cases hr : evalAll rv (offset + frames.length) (n - (offset + frames.length)) with
          | error e => rw [hr] at this; exact this
          | ok ws =>
            rw [hr] at this
            dsimp only at this ⊢
            rw [this, List.append_assoc]
    · have hz : n - offset = 0 := by omega
      rw [hz]
      simp only [evalAll, List.append_nil, forEachFrame]
      rw [if_neg hlt]

end Verif.CoreMap
