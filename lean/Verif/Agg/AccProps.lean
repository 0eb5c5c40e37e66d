import Verif.Agg.AccSpec
import Mathlib.Algebra.BigOperators.Group.List.Basic
import Mathlib.Data.List.Induction
import Mathlib.Tactic.ByContra

/-!
# Accumulators without buffers: results, and `AddN`

All statements hold for every state in which the accumulator was left by earlier groups.
-/

namespace Verif.Agg

/-! ## `AddN` adds the value `n` times, for `n ≥ 1` -/

theorem count_addN (n : Nat) (a : Unit) (s : Int) : count.addN n a s = repeatAdd count.add n a s := by
  induction n generalizing s with
  | zero => simp [count, repeatAdd]
  | succ n ih => rw [repeatAdd, ← ih]; simp [count]; omega

theorem repeatAdd_idem {add : A → S → S} {a : A} (h : ∀ s, add a (add a s) = add a s) (n : Nat) (s : S) :
    repeatAdd add (n + 1) a s = add a s := by
  induction n generalizing s with
  | zero => rfl
  | succ n ih => rw [repeatAdd, ih, h]

theorem any_addN (n : Nat) (a : Unit) (s : Bool) : any.addN (n + 1) a s = repeatAdd any.add (n + 1) a s := by
  rw [repeatAdd_idem (by simp [any])]; rfl

theorem all_addN (n : Nat) (a : Bool) (s : Bool) : all.addN (n + 1) a s = repeatAdd all.add (n + 1) a s := by
  rw [repeatAdd_idem (by intro s; cases s <;> cases a <;> rfl)]; rfl

theorem logicalAll_addN (n : Nat) (a : Option Bool) (s : LogicalState) :
    logicalAll.addN (n + 1) a s = repeatAdd logicalAll.add (n + 1) a s := by
  rw [repeatAdd_idem (by rintro ⟨d, m⟩; cases d <;> cases m <;> rcases a with _ | _ | _ <;> rfl)]; rfl

theorem logicalAny_addN (n : Nat) (a : Option Bool) (s : LogicalState) :
    logicalAny.addN (n + 1) a s = repeatAdd logicalAny.add (n + 1) a s := by
  rw [repeatAdd_idem (by rintro ⟨d, m⟩; cases d <;> cases m <;> rcases a with _ | _ | _ <;> rfl)]; rfl

theorem sum_addN (w : Nat) (initial : Option (BitVec w)) (n : Nat) (a : BitVec w) (s : Opt (BitVec w)) :
    (sum w initial).addN (n + 1) a s = repeatAdd (sum w initial).add (n + 1) a s := by
  induction n generalizing s with
  | zero => simp [sum, repeatAdd]
  | succ n ih =>
    rw [repeatAdd, ← ih]
    simp only [sum]
    congr 1
    have h : BitVec.ofNat w (n + 1 + 1) = 1#w + BitVec.ofNat w (n + 1) := by
      apply BitVec.eq_of_toNat_eq
      simp [Nat.add_mod]
      congr 1
      omega
    rw [h, BitVec.mul_add, BitVec.mul_one, BitVec.add_assoc]

theorem functor_addN (f : T → T → T) (ignore : Bool) (initial : Opt T)
    (h : ignore = true → ∀ v, f v v = v ∧ ∀ x, f (f x v) v = f x v) (n : Nat) (a : T) (s : Opt T) :
    (functor f ignore initial).addN (n + 1) a s = repeatAdd (functor f ignore initial).add (n + 1) a s := by
  cases ignore with
  | false => simp [functor]
  | true =>
    rw [repeatAdd_idem]
    · simp [functor]
    · intro s
      obtain ⟨p, x⟩ := s
      have := h rfl a
      cases p <;> simp [functor, this.1, this.2 x]

theorem minOp_idem (c : Cmp T) (h : c.Ok) (v : T) : minOp c v v = v ∧ ∀ x, minOp c (minOp c x v) v = minOp c x v := by
  have := h.irrefl v
  constructor
  · simp [minOp]
  · intro x
    simp only [minOp]
    split <;> rename_i h1
    · rfl
    · simp [this]

theorem maxOp_idem (c : Cmp T) (h : c.Ok) (v : T) : maxOp c v v = v ∧ ∀ x, maxOp c (maxOp c x v) v = maxOp c x v := by
  have := h.irrefl v
  constructor
  · simp [maxOp]
  · intro x
    simp only [maxOp]
    split <;> rename_i h1
    · rfl
    · simp [this]

theorem min_addN (c : Cmp T) (h : c.Ok) (initial : Opt T) (n : Nat) (a : T) (s : Opt T) :
    (functor (minOp c) true initial).addN (n + 1) a s = repeatAdd (functor (minOp c) true initial).add (n + 1) a s :=
  functor_addN _ _ _ (fun _ v => minOp_idem c h v) n a s

theorem max_addN (c : Cmp T) (h : c.Ok) (initial : Opt T) (n : Nat) (a : T) (s : Opt T) :
    (functor (maxOp c) true initial).addN (n + 1) a s = repeatAdd (functor (maxOp c) true initial).add (n + 1) a s :=
  functor_addN _ _ _ (fun _ v => maxOp_idem c h v) n a s

theorem collapse_addN (c : Cmp T) (h : c.Ok) (n : Nat) (a : T) (s : CollapseState T) :
    (collapse c).addN (n + 1) a s = repeatAdd (collapse c).add (n + 1) a s := by
  rw [repeatAdd_idem]
  · rfl
  · rintro ⟨v, p, e, i⟩
    cases p
    · simp only [collapse, collapseAdd]
      cases hn : c.nan a
      · have := (h.eq_iff a a hn hn).2 ⟨h.irrefl a, h.irrefl a⟩
        simp [this]
      · simp
    · simp [collapse, collapseAdd, Bool.and_assoc]

theorem argAdd_index (c : Cmp T) (v : Option T) (s : ArgState T) (k : Int) (hk : k ≥ 0) (h : c.Ok) :
    argAdd c v { argAdd c v s with index := (argAdd c v s).index + k } =
      { argAdd c v s with index := (argAdd c v s).index + k + 1 } := by
  obtain ⟨i, b, a⟩ := s
  cases v with
  | none => simp [argAdd]
  | some v =>
    have hi := h.irrefl v
    simp only [argAdd]
    split <;> rename_i h1
    · cases hn : c.nan v <;> simp [hi, hn]
    · simp only [h1]

theorem argMin_addN (c : Cmp T) (h : c.Ok) (n : Nat) (a : Option T) (s : ArgState T) :
    (argMin c).addN (n + 1) a s = repeatAdd (argMin c).add (n + 1) a s := by
  have main : ∀ n s (k : Int), k ≥ 0 → repeatAdd (argAdd c) n a { argAdd c a s with index := (argAdd c a s).index + k } =
      { argAdd c a s with index := (argAdd c a s).index + k + n } := by
    intro n
    induction n with
    | zero => intro s k hk; simp [repeatAdd]
    | succ n ih =>
      intro s k hk
      rw [repeatAdd, argAdd_index c a s k hk h]
      have := ih s (k + 1) (by omega)
      rw [← Int.add_assoc] at this
      rw [this]
      simp; omega
  have := main n s 0 (by omega)
  simp only [argMin, repeatAdd]
  simp at this
  rw [this]
  simp

theorem argMax_addN (c : Cmp T) (h : c.Ok) (n : Nat) (a : Option T) (s : ArgState T) :
    (argMax c).addN (n + 1) a s = repeatAdd (argMax c).add (n + 1) a s := by
  apply argMin_addN
  exact { irrefl := h.irrefl, trans := fun a b d h1 h2 => h.trans d b a h2 h1,
          total := fun a b d hb hd => (h.total d b a hb hd).symm,
          eq_iff := fun a b ha hb => (h.eq_iff a b ha hb).trans ⟨fun h => ⟨h.2, h.1⟩, fun h => ⟨h.2, h.1⟩⟩
          nan_lt := fun a b h' => h.nan_lt b a h'.symm, nan_eq := h.nan_eq }

/-! ## Results -/

theorem count_result (xs : List Unit) (s : Int) : count.aggregate () xs s = xs.length := by
  have : ∀ (xs : List Unit) (s : Int), xs.foldl (fun s a => count.add a s) s = s + xs.length := by
    intro xs
    induction xs with
    | nil => simp
    | cons a rest ih => intro s; rw [List.foldl_cons, ih]; simp [count]; omega
  rw [Acc.aggregate, Acc.after, this]
  simp [count]

theorem any_result (xs : List Unit) (s : Bool) : any.aggregate () xs s = !xs.isEmpty := by
  have : ∀ (xs : List Unit) (s : Bool), xs.foldl (fun s a => any.add a s) s = (s || !xs.isEmpty) := by
    intro xs
    induction xs with
    | nil => simp
    | cons a rest ih => intro s; rw [List.foldl_cons, ih]; simp [any]
  rw [Acc.aggregate, Acc.after, this]
  simp [any]

theorem all_result (xs : List Bool) (s : Bool) : all.aggregate () xs s = true ↔ ∀ x ∈ xs, x = true := by
  have : ∀ (xs : List Bool) (s : Bool), xs.foldl (fun s a => all.add a s) s = (s && xs.all id) := by
    intro xs
    induction xs with
    | nil => simp
    | cons a rest ih => intro s; rw [List.foldl_cons, ih]; simp [all, Bool.and_assoc]
  rw [Acc.aggregate, Acc.after, this]
  simp [all]

/-- Kleene conjunction of all values. -/
theorem logicalAll_result (xs : List (Option Bool)) (s : LogicalState) :
    logicalAll.aggregate () xs s =
      if some false ∈ xs then some false else if none ∈ xs then none else some true := by
  have : ∀ (xs : List (Option Bool)) (s : LogicalState), xs.foldl (fun s a => logicalAll.add a s) s =
      ⟨s.decided || decide (some false ∈ xs), s.missing || decide (none ∈ xs)⟩ := by
    intro xs
    induction xs with
    | nil => simp
    | cons a rest ih =>
      intro s
      rw [List.foldl_cons, ih]
      rcases a with _ | _ | _ <;> simp [logicalAll]
  rw [Acc.aggregate, Acc.after, this]
  simp only [logicalAll]
  by_cases h1 : some false ∈ xs <;> by_cases h2 : none ∈ xs <;> simp [h1, h2]

/-- Kleene disjunction of all values. -/
theorem logicalAny_result (xs : List (Option Bool)) (s : LogicalState) :
    logicalAny.aggregate () xs s =
      if some true ∈ xs then some true else if none ∈ xs then none else some false := by
  have : ∀ (xs : List (Option Bool)) (s : LogicalState), xs.foldl (fun s a => logicalAny.add a s) s =
      ⟨s.decided || decide (some true ∈ xs), s.missing || decide (none ∈ xs)⟩ := by
    intro xs
    induction xs with
    | nil => simp
    | cons a rest ih =>
      intro s
      rw [List.foldl_cons, ih]
      rcases a with _ | _ | _ <;> simp [logicalAny]
  rw [Acc.aggregate, Acc.after, this]
  simp only [logicalAny]
  by_cases h1 : some true ∈ xs <;> by_cases h2 : none ∈ xs <;> simp [h1, h2]

/-- The sum modulo `2 ^ w`, also of the initial value; missing only if there is nothing to sum. -/
theorem sum_result (w : Nat) (initial : Option (BitVec w)) (xs : List (BitVec w)) (s : Opt (BitVec w)) :
    (sum w initial).aggregate () xs s =
      if initial = none ∧ xs = [] then none
      else some (BitVec.ofInt w ((initial.getD 0).toInt + (xs.map BitVec.toInt).sum)) := by
  have : ∀ (xs : List (BitVec w)) (s : Opt (BitVec w)), xs.foldl (fun s a => (sum w initial).add a s) s =
      ⟨s.present || !xs.isEmpty, BitVec.ofInt w (s.value.toInt + (xs.map BitVec.toInt).sum)⟩ := by
    intro xs
    induction xs with
    | nil => simp
    | cons a rest ih =>
      intro s
      rw [List.foldl_cons, ih]
      simp only [sum, List.isEmpty_cons, Bool.not_false, Bool.or_true, Bool.true_or, List.map_cons, List.sum_cons]
      congr 1
      rw [BitVec.ofInt_add, BitVec.ofInt_add, BitVec.ofInt_add, BitVec.ofInt_toInt, BitVec.ofInt_toInt, BitVec.ofInt_toInt,
        BitVec.add_assoc]
  rw [Acc.aggregate, Acc.after, this]
  simp only [sum, Opt.toOption]
  cases initial <;> cases xs <;> simp

theorem functor_after (f : T → T → T) (ig : Bool) (initial : Opt T) (xs : List T) (x : T) :
    xs.foldl (fun s a => (functor f ig initial).add a s) ⟨true, x⟩ = ⟨true, xs.foldl f x⟩ := by
  induction xs generalizing x with
  | nil => rfl
  | cons a rest ih => rw [List.foldl_cons, List.foldl_cons, ← ih]; simp [functor]

/-- `math.prod`, `math.min`, `math.max`: the fold of the values from the left, from the initial value if there is one. -/
theorem functor_result (f : T → T → T) (ig : Bool) (initial : Opt T) (xs : List T) (s : Opt T) :
    (functor f ig initial).aggregate () xs s =
      match initial.toOption, xs with
      | some i, xs => some (xs.foldl f i)
      | none, x :: xs => some (xs.foldl f x)
      | none, [] => none := by
  obtain ⟨p, v⟩ := initial
  simp only [Acc.aggregate, Acc.after]
  have hr : (functor f ig ⟨p, v⟩).reset () s = ⟨p, v⟩ := rfl
  rw [hr]
  cases p with
  | true => rw [functor_after]; simp [functor, Opt.toOption]
  | false =>
    cases xs with
    | nil => simp [functor, Opt.toOption]
    | cons x xs =>
      have ha : (functor f ig ⟨false, v⟩).add x ⟨false, v⟩ = ⟨true, x⟩ := by simp [functor]
      rw [List.foldl_cons, ha, functor_after]
      simp [functor, Opt.toOption]

/-- Minimum without NaNs: one of the values, and no value is less. -/
theorem min_result (c : Cmp T) (h : c.Ok) (xs : List T) (x : T) (hn : ∀ y ∈ x :: xs, c.nan y = false) :
    xs.foldl (minOp c) x ∈ x :: xs ∧ ∀ y ∈ x :: xs, c.lt y (xs.foldl (minOp c) x) = false := by
  induction xs generalizing x with
  | nil => simp [h.irrefl]
  | cons a rest ih =>
    have hx := hn x (by simp)
    have ha := hn a (by simp)
    rw [List.foldl_cons]
    have hm : minOp c x a = if c.lt a x = true then a else x := by
      cases hl : c.lt a x <;> simp [minOp, hx, ha, hl]
    obtain ⟨h1, h2⟩ := ih (minOp c x a) (by
      intro y hy
      rw [hm] at hy
      split at hy <;> (rcases List.mem_cons.1 hy with rfl | hy <;> first | assumption | exact hn y (by simp [hy])))
    refine ⟨?_, ?_⟩
    · rw [hm] at h1 ⊢
      split at h1 <;> simp_all <;> grind
    · have h0 := h2 (minOp c x a) (by simp)
      intro y hy
      rcases List.mem_cons.1 hy with rfl | hy
      · by_contra hl
        have hl := (Bool.not_eq_false _).mp hl
        have hmn : c.nan (minOp c y a) = false := by rw [hm]; split <;> assumption
        rcases h.total _ _ _ hmn hl with h3 | h3
        · rw [hm] at h3
          split at h3
          · rename_i h4
            have := h.trans _ _ _ h3 h4
            rw [h.irrefl] at this; cases this
          · rw [h.irrefl] at h3; cases h3
        · rw [h0] at h3; cases h3
      · rcases List.mem_cons.1 hy with rfl | hy
        · by_contra hl
          have hl := (Bool.not_eq_false _).mp hl
          have hmn : c.nan (minOp c x y) = false := by rw [hm]; split <;> assumption
          rcases h.total _ _ _ hmn hl with h3 | h3
          · rw [hm] at h3
            split at h3
            · rw [h.irrefl] at h3; cases h3
            · rename_i h4; exact h4 h3
          · rw [h0] at h3; cases h3
        · exact h2 y (by simp [hy])

theorem maxOp_eq (c : Cmp T) : maxOp c = minOp { c with lt := fun a b => c.lt b a } := rfl

theorem Cmp.Ok.flip {c : Cmp T} (h : c.Ok) : Cmp.Ok { c with lt := fun a b => c.lt b a } where
  irrefl := h.irrefl
  trans := fun a b d h1 h2 => h.trans d b a h2 h1
  total := fun a b d hb hd => (h.total d b a hb hd).symm
  eq_iff := fun a b ha hb => (h.eq_iff a b ha hb).trans ⟨fun h => ⟨h.2, h.1⟩, fun h => ⟨h.2, h.1⟩⟩
  nan_lt := fun a b h' => h.nan_lt b a h'.symm
  nan_eq := h.nan_eq

/-- Maximum without NaNs. -/
theorem max_result (c : Cmp T) (h : c.Ok) (xs : List T) (x : T) (hn : ∀ y ∈ x :: xs, c.nan y = false) :
    xs.foldl (maxOp c) x ∈ x :: xs ∧ ∀ y ∈ x :: xs, c.lt (xs.foldl (maxOp c) x) y = false := by
  rw [maxOp_eq]
  exact min_result _ h.flip xs x hn

/-- A NaN among the values makes the minimum NaN. -/
theorem min_nan (c : Cmp T) (xs : List T) (x : T) (hn : ∃ y ∈ x :: xs, c.nan y = true) :
    c.nan (xs.foldl (minOp c) x) = true := by
  induction xs generalizing x with
  | nil => simpa using hn
  | cons a rest ih =>
    rw [List.foldl_cons]
    apply ih
    obtain ⟨y, hy, hny⟩ := hn
    rcases List.mem_cons.1 hy with rfl | hy
    · exact ⟨minOp c y a, by simp, by simp [minOp, hny]⟩
    · rcases List.mem_cons.1 hy with rfl | hy
      · refine ⟨minOp c x y, by simp, ?_⟩
        cases hx : c.nan x <;> simp [minOp, hny, hx]
      · exact ⟨y, by simp [hy], hny⟩

theorem max_nan (c : Cmp T) (xs : List T) (x : T) (hn : ∃ y ∈ x :: xs, c.nan y = true) :
    c.nan (xs.foldl (maxOp c) x) = true := by
  rw [maxOp_eq]
  exact min_nan { c with lt := fun a b => c.lt b a } xs x hn

/-- `core.collapse`: the common value, where all NaNs are equal. -/
theorem collapse_result (c : Cmp T) (xs : List T) (s : CollapseState T) :
    (collapse c).aggregate () xs s =
      match xs with
      | [] => none
      | x :: rest =>
        if ∀ y ∈ rest, (c.nan x = true ∧ c.nan y = true) ∨ (c.nan x = false ∧ c.eq y x = true) then some x else none := by
  have : ∀ (xs : List T) x e, xs.foldl (fun s a => (collapse c).add a s) ⟨x, true, e, c.nan x⟩ =
      ⟨x, true, e && xs.all fun y => (c.nan x && c.nan y) || (!c.nan x && c.eq y x), c.nan x⟩ := by
    intro xs
    induction xs with
    | nil => simp
    | cons a rest ih =>
      intro x e
      have : (collapse c).add a ⟨x, true, e, c.nan x⟩ = ⟨x, true, e && ((c.nan x && c.nan a) || (!c.nan x && c.eq a x)),
        c.nan x⟩ := rfl
      rw [List.foldl_cons, this, ih, List.all_cons, Bool.and_assoc]
  cases xs with
  | nil => simp [Acc.aggregate, Acc.after, collapse]
  | cons x rest =>
    have h1 : (collapse c).add x ((collapse c).reset () s) = ⟨x, true, true, c.nan x⟩ := by simp [collapse, collapseAdd]
    simp only [Acc.aggregate, Acc.after, List.foldl_cons, h1, this, Bool.true_and]
    simp only [collapse, Bool.true_and]
    congr 1
    simp

/-- `strings.agg_join`: the values separated by `sep`; missing without values. -/
theorem stringJoin_result (sep : List UInt8) (xs : List (List UInt8)) (s : JoinState) :
    (stringJoin sep).aggregate () xs s = if xs = [] then none else some (join sep xs) := by
  have : ∀ (xs : List (List UInt8)) t, xs.foldl (fun s a => (stringJoin sep).add a s) ⟨true, t⟩ =
      ⟨true, join sep (t :: xs)⟩ := by
    intro xs
    induction xs with
    | nil => simp [join]
    | cons a rest ih =>
      intro t
      have : (stringJoin sep).add a ⟨true, t⟩ = ⟨true, t ++ sep ++ a⟩ := rfl
      rw [List.foldl_cons, this, ih]
      cases rest <;> simp [join]
  cases xs with
  | nil => simp [Acc.aggregate, Acc.after, stringJoin]
  | cons x rest =>
    have h1 : (stringJoin sep).add x ((stringJoin sep).reset () s) = ⟨true, x⟩ := by simp [stringJoin]
    simp only [Acc.aggregate, Acc.after, List.foldl_cons, h1, this]
    simp [stringJoin]

/-! ## `argmin` and `argmax` -/

/-- NaN is better than all other values, otherwise the smaller value is better. -/
def preferNanMin (c : Cmp T) (a b : T) : Bool := !c.nan b && (c.nan a || c.lt a b)

theorem preferNanMin_step (c : Cmp T) (h : c.Ok) (v b y : T) (hv : preferNanMin c v b = true)
    (hy : preferNanMin c y b = false) : preferNanMin c v y = true ∧ preferNanMin c y v = false := by
  simp only [preferNanMin] at *
  have ht := h.total v y b
  have ht2 := h.trans v y v
  have hi := h.irrefl v
  cases hb : c.nan b <;> cases hnv : c.nan v <;> cases hny : c.nan y <;> simp_all

theorem Acc.after_concat (acc : Acc P A R E S) (p : P) (xs : List A) (a : A) (s : S) :
    acc.after p (xs ++ [a]) s = acc.add a (acc.after p xs s) := by
  simp [Acc.after]

theorem argMin_inv (c : Cmp T) (h : c.Ok) (xs : List (Option T)) (s : ArgState T) :
    ((argMin c).after () xs s).index = xs.length ∧
    (((argMin c).after () xs s).arg = none → ∀ x ∈ xs, x = none) ∧
    ∀ i, ((argMin c).after () xs s).arg = some i → ∃ k : Nat, i = k ∧
      xs[k]? = some (some ((argMin c).after () xs s).best) ∧ FirstBest xs (preferNanMin c) k := by
  induction xs using List.reverseRecOn with
  | nil => simp [Acc.after, argMin]
  | append_singleton xs a ih =>
    rw [Acc.after_concat]
    generalize hS : (argMin c).after () xs s = S at ih
    obtain ⟨i, b, arg⟩ := S
    obtain ⟨ih1, ih2, ih3⟩ := ih
    simp only at ih1 ih2 ih3
    have hadd : (argMin c).add a ⟨i, b, arg⟩ = argAdd c a ⟨i, b, arg⟩ := rfl
    rw [hadd]
    cases a with
    | none =>
      simp only [argAdd]
      refine ⟨by simp [ih1], ?_, ?_⟩
      · intro hn x hx
        rcases List.mem_append.1 hx with hx | hx
        · exact ih2 hn x hx
        · simpa using hx
      · intro i' hi'
        obtain ⟨k, rfl, hk, x, hx, hx2, hx3⟩ := ih3 i' hi'
        have hlt : k < xs.length := (List.getElem?_eq_some_iff.1 hk).1
        refine ⟨k, rfl, by rw [List.getElem?_append_left hlt]; exact hk, x, by rw [List.getElem?_append_left hlt]; exact hx,
          ?_, ?_⟩
        · intro j y hj
          rw [List.getElem?_append] at hj
          split at hj
          · exact hx2 j y hj
          · rw [List.getElem?_singleton] at hj; split at hj <;> simp at hj
        · intro j y hjk hj
          rw [List.getElem?_append_left (by omega)] at hj
          exact hx3 j y hjk hj
    | some v =>
      have hsplit : ∀ j y, (xs ++ [some v])[j]? = some (some y) →
          xs[j]? = some (some y) ∨ (j = xs.length ∧ y = v) := by
        intro j y hj
        rw [List.getElem?_append] at hj
        split at hj
        · exact Or.inl hj
        · rw [List.getElem?_singleton] at hj
          split at hj
          · right; exact ⟨by omega, by simp at hj; exact hj.symm⟩
          · simp at hj
      have hlast : (xs ++ [some v])[xs.length]? = some (some v) := by simp
      have hi : preferNanMin c v v = false := by
        cases hn : c.nan v <;> simp [preferNanMin, hn, h.irrefl]
      cases arg with
      | none =>
        have hnone := ih2 rfl
        simp only [argAdd]
        refine ⟨by simp [ih1], by simp, ?_⟩
        intro i' hi'
        simp at hi'
        subst hi'
        refine ⟨xs.length, ih1, by simp, v, hlast, ?_, ?_⟩
        · intro j y hj
          rcases hsplit j y hj with hj | ⟨rfl, rfl⟩
          · exact absurd (hnone _ (List.mem_of_getElem? hj)) (by simp)
          · exact hi
        · intro j y hjk hj
          rcases hsplit j y hj with hj | ⟨rfl, rfl⟩
          · exact absurd (hnone _ (List.mem_of_getElem? hj)) (by simp)
          · omega
      | some i0 =>
        obtain ⟨k, rfl, hk, x, hx, hx2, hx3⟩ := ih3 i0 rfl
        have hbx : x = b := by rw [hk] at hx; simpa using hx.symm
        subst hbx
        have hlt : k < xs.length := (List.getElem?_eq_some_iff.1 hk).1
        have hcond : (!(some (k : Int)).isSome || (!c.nan x && (c.nan v || c.lt v x))) = preferNanMin c v x := by
          simp [preferNanMin]
        simp only [argAdd]
        rw [hcond]
        cases hp : preferNanMin c v x with
        | true =>
          refine ⟨by simp [ih1], by simp, ?_⟩
          intro i' hi'
          simp at hi'
          subst hi'
          refine ⟨xs.length, ih1, by simp, v, hlast, ?_, ?_⟩
          · intro j y hj
            rcases hsplit j y hj with hj | ⟨rfl, rfl⟩
            · exact (preferNanMin_step c h v x y hp (hx2 j y hj)).2
            · exact hi
          · intro j y hjk hj
            rcases hsplit j y hj with hj | ⟨rfl, rfl⟩
            · exact (preferNanMin_step c h v x y hp (hx2 j y hj)).1
            · omega
        | false =>
          refine ⟨by simp [ih1], by simp, ?_⟩
          intro i' hi'
          simp at hi'
          subst hi'
          refine ⟨k, rfl, by rw [List.getElem?_append_left hlt]; exact hk, x,
            by rw [List.getElem?_append_left hlt]; exact hx, ?_, ?_⟩
          · intro j y hj
            rcases hsplit j y hj with hj | ⟨rfl, rfl⟩
            · exact hx2 j y hj
            · exact hp
          · intro j y hjk hj
            rcases hsplit j y hj with hj | ⟨rfl, rfl⟩
            · exact hx3 j y hjk hj
            · omega

/-- `math.argmin`: the first position of a NaN if there is one, otherwise the first position of the least value; positions
count missing values. -/
theorem argMin_result (c : Cmp T) (h : c.Ok) (xs : List (Option T)) (s : ArgState T) :
    match (argMin c).aggregate () xs s with
    | none => ∀ x ∈ xs, x = none
    | some i => ∃ k : Nat, i = k ∧ FirstBest xs (preferNanMin c) k := by
  obtain ⟨_, h2, h3⟩ := argMin_inv c h xs s
  have : (argMin c).aggregate () xs s = ((argMin c).after () xs s).arg := rfl
  rw [this]
  cases ha : ((argMin c).after () xs s).arg with
  | none => exact h2 ha
  | some i =>
    obtain ⟨k, hk, _, hb⟩ := h3 i ha
    exact ⟨k, hk, hb⟩

/-- NaN is better than all other values, otherwise the greater value is better. -/
def preferNanMax (c : Cmp T) (a b : T) : Bool := !c.nan b && (c.nan a || c.lt b a)

theorem argMax_result (c : Cmp T) (h : c.Ok) (xs : List (Option T)) (s : ArgState T) :
    match (argMax c).aggregate () xs s with
    | none => ∀ x ∈ xs, x = none
    | some i => ∃ k : Nat, i = k ∧ FirstBest xs (preferNanMax c) k :=
  argMin_result _ h.flip xs s

/-! ## Instances -/

example : (argMin nanCmp).aggregate () [none, some (some 5), some (some 2), some (some 2)] ⟨7, none, some 3⟩ = some 2 := rfl
example : (argMin nanCmp).aggregate () [none, some (some 5), some none, some (some 2)] ⟨7, none, some 3⟩ = some 2 := rfl
example : (argMax nanCmp).aggregate () [none, some (some 5), some (some 2)] ⟨7, none, some 3⟩ = some 1 := rfl
example : (sum 8 none).aggregate () [100, 100] ⟨true, 1⟩ = some 200#8 := rfl
example : (sum 8 (some 3)).aggregate () [] ⟨true, 1⟩ = some 3#8 := rfl
example : (functor (minOp intCmp) true ⟨false, 0⟩).aggregate () [5, 3, 4] ⟨true, 1⟩ = some 3 := rfl
example : (collapse nanCmp).aggregate () [none, none] ⟨some 1, true, false, false⟩ = some none := rfl
example : (collapse intCmp).aggregate () [1, 2, 1] ⟨1, true, false, false⟩ = none := rfl
example : logicalAll.aggregate () [some true, none, some false] ⟨true, true⟩ = some false := rfl
example : (stringJoin [44]).aggregate () [[1], [], [2, 3]] ⟨true, [9]⟩ = some [1, 44, 44, 2, 3] := rfl

/-- `AddN` with a count of zero is not a no-op for all accumulators, so that the callers must not pass zero. -/
theorem addN_zero_counterexample : any.addN 0 () false ≠ repeatAdd any.add 0 () false := by decide

end Verif.Agg
