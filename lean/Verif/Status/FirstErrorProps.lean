import Verif.Status.StatusSpec

/-!
# The first error among statuses (C159)
-/

namespace Verif.Status

variable {V R T K : Type}

theorem passes_of_ok {a : Arg V} (h : getStatusOrOk a = none) : ∃ x, a.Passes x ∧ unStatus a = some x := by
  match a, h with
  | .plain v, _ => exact ⟨_, .plain v, rfl⟩
  | .statusOr (.ok v), _ => exact ⟨_, .statusOr v, rfl⟩
  | .status none, _ => exact ⟨_, .status, rfl⟩

theorem error_of_not_ok {a : Arg V} {e : Err} (h : getStatusOrOk a = some e) : a.HasError e := by
  match a, h with
  | .statusOr (.error e'), h => cases h; exact .statusOr _
  | .status (some e'), h => cases h; exact .status _

theorem ok_of_passes {a : Arg V} {x : V ⊕ Status} (h : a.Passes x) : getStatusOrOk a = none ∧ unStatus a = some x := by
  cases h <;> exact ⟨rfl, rfl⟩

theorem not_ok_of_error {a : Arg V} {e : Err} (h : a.HasError e) : getStatusOrOk a = some e := by
  cases h <;> rfl

theorem isOk_eq (a : Arg V) : isOkStatus a = (getStatusOrOk a).isNone := by
  match a with
  | .plain v => rfl
  | .statusOr (.ok v) => rfl
  | .statusOr (.error e) => rfl
  | .status s => rfl

/-- `CheckInputStatus` returns the first error among its arguments, up to source locations, and `OkStatus` if there is none. -/
theorem check_input_status (here : Nat) (args : List (Arg V)) :
    match checkInputStatus here args with
    | none => ∃ xs, AllPass args xs
    | some r => ∃ e, FirstError args e ∧ SameError r e := by
  induction args with
  | nil => exact ⟨[], .nil⟩
  | cons a rest ih =>
    unfold checkInputStatus at ih ⊢
    simp only [List.map_cons]
    cases ha : getStatusOrOk a with
    | some e =>
      simp only [firstErrorStatus, addLocation, Option.map_some]
      exact ⟨e, ⟨[], a, rest, rfl, error_of_not_ok ha, by simp⟩, rfl, rfl, rfl⟩
    | none =>
      obtain ⟨x, hx, -⟩ := passes_of_ok ha
      simp only [firstErrorStatus]
      cases hr : firstErrorStatus here (rest.map getStatusOrOk) with
      | none =>
        rw [hr] at ih
        obtain ⟨xs, h⟩ := ih
        exact ⟨x :: xs, .cons hx h⟩
      | some r =>
        rw [hr] at ih
        obtain ⟨e, ⟨pre, b, post, h1, h2, h3⟩, h4⟩ := ih
        refine ⟨e, ⟨a :: pre, b, post, by rw [h1]; rfl, h2, ?_⟩, h4⟩
        intro c hc
        rcases List.mem_cons.1 hc with rfl | hc
        · exact ⟨x, hx⟩
        · exact h3 c hc

/-- There is at most one first error, and none if all arguments pass. -/
theorem first_error_unique {args : List (Arg V)} {e e' : Err} (h : FirstError args e) (h' : FirstError args e') : e = e' := by
  induction args with
  | nil => obtain ⟨pre, a, post, h1, -⟩ := h; simp at h1
  | cons a rest ih =>
    obtain ⟨pre, b, post, h1, h2, h3⟩ := h
    obtain ⟨pre', b', post', g1, g2, g3⟩ := h'
    cases pre with
    | nil =>
      simp only [List.nil_append, List.cons.injEq] at h1
      cases pre' with
      | nil =>
        simp only [List.nil_append, List.cons.injEq] at g1
        have hb := not_ok_of_error h2
        rw [← h1.1, g1.1, not_ok_of_error g2] at hb
        exact (Option.some.inj hb).symm
      | cons c pre' =>
        simp only [List.cons_append, List.cons.injEq] at g1
        obtain ⟨x, hx⟩ := g3 c (by simp)
        have := (ok_of_passes hx).1
        rw [← g1.1, h1.1, not_ok_of_error h2] at this
        cases this
    | cons c pre =>
      simp only [List.cons_append, List.cons.injEq] at h1
      cases pre' with
      | nil =>
        simp only [List.nil_append, List.cons.injEq] at g1
        obtain ⟨x, hx⟩ := h3 c (by simp)
        have := (ok_of_passes hx).1
        rw [← h1.1, g1.1, not_ok_of_error g2] at this
        cases this
      | cons c' pre' =>
        simp only [List.cons_append, List.cons.injEq] at g1
        exact ih ⟨pre, b, post, h1.2, h2, fun d hd => h3 d (by simp [hd])⟩ ⟨pre', b', post', g1.2, g2, fun d hd => g3 d (by simp [hd])⟩

theorem unStatusAll_of_passes {args : List (Arg V)} {xs : List (V ⊕ Status)} (h : AllPass args xs) :
    unStatusAll args = some xs ∧ ∀ a ∈ args, getStatusOrOk a = none := by
  induction h with
  | nil => exact ⟨rfl, by simp⟩
  | cons h _ ih =>
    have := ok_of_passes h
    exact ⟨by simp only [unStatusAll, this.2, ih.1], by intro a ha; rcases List.mem_cons.1 ha with rfl | ha; exact this.1; exact ih.2 a ha⟩

theorem checkInput_of_first {args : List (Arg V)} {e : Err} (here : Nat) (h : FirstError args e) :
    ∃ r, checkInputStatus here args = some r ∧ SameError r e ∧ args.all isOkStatus = false := by
  obtain ⟨pre, a, post, rfl, h2, h3⟩ := h
  induction pre with
  | nil =>
    have ha := not_ok_of_error h2
    refine ⟨.mk e.code e.message (e.locations ++ [here]) e.payloads, ?_, ⟨rfl, rfl, rfl⟩, ?_⟩
    · simp only [checkInputStatus, List.nil_append, List.map_cons, ha, firstErrorStatus, addLocation, Option.map_some]
    · simp [isOk_eq, ha]
  | cons b pre ih =>
    obtain ⟨x, hx⟩ := h3 b (by simp)
    have hb := (ok_of_passes hx).1
    obtain ⟨r, g1, g2, g3⟩ := ih (fun d hd => h3 d (by simp [hd]))
    refine ⟨r, ?_, g2, ?_⟩
    · simp only [checkInputStatus, List.cons_append, List.map_cons, hb, firstErrorStatus]; exact g1
    · simp only [List.cons_append, List.all_cons, g3, Bool.and_false]

/-- `UnStatusCaller` calls the delegate with the plain values if no argument is an error. -/
theorem caller_calls (l1 l2 : Nat) (fn : List (V ⊕ Status) → StatusOr R) (args : List (Arg V)) (xs : List (V ⊕ Status))
    (h : AllPass args xs) : unStatusCaller l1 l2 fn args = some (fn xs) := by
  obtain ⟨h1, h2⟩ := unStatusAll_of_passes h
  have hall : args.all isOkStatus = true := by
    rw [List.all_eq_true]; intro a ha; rw [isOk_eq, h2 a ha]; rfl
  have hchk : checkInputStatus l1 args = none := by
    unfold checkInputStatus
    clear h h1 hall
    induction args with
    | nil => rfl
    | cons a rest ih =>
      simp only [List.map_cons, h2 a (by simp), firstErrorStatus]
      exact ih (fun b hb => h2 b (by simp [hb]))
  unfold unStatusCaller
  split
  · rw [h1]; simp [hall]
  · rw [hchk, h1]; rfl

/-- Otherwise it returns the first error, up to source locations, without a call of the delegate: the result is the same for every delegate. -/
theorem caller_first_error (l1 l2 : Nat) (args : List (Arg V)) (e : Err) (h : FirstError args e) :
    ∃ r, SameError r e ∧ ∀ fn : List (V ⊕ Status) → StatusOr R, unStatusCaller l1 l2 fn args = some (.error r) := by
  obtain ⟨r, h1, h2, h3⟩ := checkInput_of_first l1 h
  by_cases hl : args.length ≤ 30
  · refine ⟨r, h2, fun fn => ?_⟩
    simp only [unStatusCaller, if_pos hl, h3, h1, statusToStatusOr]; rfl
  · refine ⟨.mk r.code r.message (r.locations ++ [l2]) r.payloads, ⟨h2.1, h2.2.1, h2.2.2⟩, fun fn => ?_⟩
    simp only [unStatusCaller, if_neg hl, h1, addLocation, Option.map_some, statusToStatusOr]

theorem liftLoop_acc (xs : List (StatusOr T)) (acc : List T) :
    (∀ vs, xs = vs.map .ok → liftLoop xs acc = .ok (acc ++ vs)) ∧
    (∀ (pre : List T) e post, xs = pre.map .ok ++ .error e :: post → liftLoop xs acc = .error e) := by
  induction xs generalizing acc with
  | nil =>
    refine ⟨fun vs h => ?_, fun pre e post h => ?_⟩
    · have : vs = [] := by simpa using h.symm
      subst this; simp [liftLoop]
    · simp at h
  | cons x xs ih =>
    refine ⟨fun vs h => ?_, fun pre e post h => ?_⟩
    · cases vs with
      | nil => simp at h
      | cons v vs =>
        simp only [List.map_cons, List.cons.injEq] at h
        rw [h.1]
        simp only [liftLoop]
        rw [(ih _).1 vs h.2, List.append_assoc]; rfl
    · cases pre with
      | nil =>
        simp only [List.map_nil, List.nil_append, List.cons.injEq] at h
        rw [h.1]; rfl
      | cons v pre =>
        simp only [List.map_cons, List.cons_append, List.cons.injEq] at h
        rw [h.1]
        exact (ih _).2 pre e post h.2

theorem values_or_first (xs : List (StatusOr T)) :
    (∃ vs : List T, xs = vs.map .ok) ∨ ∃ (pre : List T) (e : Err) (post : List (StatusOr T)), xs = pre.map .ok ++ .error e :: post := by
  induction xs with
  | nil => exact .inl ⟨[], rfl⟩
  | cons x xs ih =>
    match x with
    | .error e => exact .inr ⟨[], e, xs, rfl⟩
    | .ok v =>
      rcases ih with ⟨vs, h⟩ | ⟨pre, e, post, h⟩
      · exact .inl ⟨v :: vs, by rw [h]; rfl⟩
      · exact .inr ⟨v :: pre, e, post, by rw [h]; rfl⟩

/-- `LiftStatusUp` of a vector yields the values in order exactly if there is no error, and otherwise the first error. -/
theorem lift_vector (xs : List (StatusOr T)) :
    (∀ vs, liftVector xs = .ok vs ↔ xs = vs.map .ok) ∧
    (∀ e, liftVector xs = .error e ↔ ∃ (pre : List T) (post : List (StatusOr T)), xs = pre.map .ok ++ .error e :: post) := by
  have key := liftLoop_acc xs []
  refine ⟨fun vs => ⟨fun h => ?_, fun h => ?_⟩, fun e => ⟨fun h => ?_, fun ⟨pre, post, h⟩ => key.2 pre e post h⟩⟩
  · rcases values_or_first xs with ⟨ws, hw⟩ | ⟨pre, e, post, hw⟩
    · have := key.1 ws hw
      rw [show liftLoop xs [] = liftVector xs from rfl, h] at this
      obtain rfl := Except.ok.inj this
      exact hw
    · have := key.2 pre e post hw
      rw [show liftLoop xs [] = liftVector xs from rfl, h] at this
      cases this
  · simpa [liftVector] using key.1 vs h
  · rcases values_or_first xs with ⟨ws, hw⟩ | ⟨pre, e', post, hw⟩
    · have := key.1 ws hw
      rw [show liftLoop xs [] = liftVector xs from rfl, h] at this
      cases this
    · have := key.2 pre e' post hw
      rw [show liftLoop xs [] = liftVector xs from rfl, h] at this
      obtain rfl := Except.error.inj this
      exact ⟨pre, post, hw⟩

theorem first_of_values {pre : List T} {e : Err} {post : List (StatusOr T)} :
    FirstError ((pre.map Except.ok ++ Except.error e :: post).map (Arg.statusOr (V := T))) e := by
  refine ⟨pre.map (fun v => .statusOr (.ok v)), .statusOr (.error e), post.map .statusOr, by simp, .statusOr e, ?_⟩
  intro b hb
  obtain ⟨v, -, rfl⟩ := List.mem_map.1 hb
  exact ⟨_, .statusOr v⟩

/-- `LiftStatusUp` of a pack agrees with the one of a vector up to source locations, and dereferences no error. -/
theorem lift_tuple (l1 l2 : Nat) (xs : List (StatusOr T)) :
    ∃ r, liftTuple l1 l2 xs = some r ∧
      match liftVector xs, r with
      | .ok vs, .ok ws => vs = ws
      | .error e, .error e' => SameError e' e
      | _, _ => False := by
  rcases values_or_first xs with ⟨vs, rfl⟩ | ⟨pre, e, post, h⟩
  · have h1 : liftVector (vs.map Except.ok) = .ok vs := ((lift_vector _).1 vs).2 rfl
    have h2 : checkInputStatus l1 ((vs.map (Except.ok (ε := Err))).map Arg.statusOr) = none := by
      clear h1
      unfold checkInputStatus
      induction vs with
      | nil => rfl
      | cons v vs ih => simpa [firstErrorStatus, getStatusOrOk] using ih
    have h3 : derefAll (vs.map (Except.ok (ε := Err))) = some vs := by
      clear h1 h2
      induction vs with
      | nil => rfl
      | cons v vs ih => simp only [List.map_cons, derefAll, ih]; rfl
    refine ⟨.ok vs, ?_, by rw [h1]⟩
    simp only [liftTuple, h2, h3, Option.map_some]
  · have h1 : liftVector xs = .error e := ((lift_vector xs).2 e).2 ⟨pre, post, h⟩
    obtain ⟨r, h2, h3, -⟩ := checkInput_of_first (V := T) l1 (first_of_values (pre := pre) (e := e) (post := post))
    refine ⟨.error (.mk r.code r.message (r.locations ++ [l2]) r.payloads), ?_, ?_⟩
    · rw [h]
      simp only [liftTuple, h2, addLocation, Option.map_some, statusToStatusOr]
    · rw [h1]; exact ⟨h3.1, h3.2.1, h3.2.2⟩

/-! ### Maps -/

variable [DecidableEq K]

/-- The value of a key, the first one if there are several. -/
def valueOf {W : Type} (k : K) (m : List (K × W)) : Option W := (m.find? (fun e => decide (e.1 = k))).map Prod.snd

theorem valueOf_cons {W : Type} (k : K) (e : K × W) (m : List (K × W)) :
    valueOf k (e :: m) = if e.1 = k then some e.2 else valueOf k m := by
  unfold valueOf
  by_cases h : e.1 = k <;> simp [h]

theorem valueOf_append {W : Type} (k : K) (m n : List (K × W)) : valueOf k (m ++ n) = (valueOf k m).or (valueOf k n) := by
  induction m with
  | nil => simp [valueOf]
  | cons e m ih =>
    rw [List.cons_append, valueOf_cons, valueOf_cons, ih]
    split <;> rfl

theorem any_iff {W : Type} (k : K) (m : List (K × W)) : m.any (fun e => decide (e.1 = k)) = (valueOf k m).isSome := by
  induction m with
  | nil => rfl
  | cons e m ih =>
    rw [valueOf_cons, List.any_cons, ih]
    by_cases h : e.1 = k <;> simp [h]

theorem valueOf_emplace {W : Type} (m : List (K × W)) (k : K) (v : W) (k' : K) :
    valueOf k' (emplace m k v) = (valueOf k' m).or (if k = k' then some v else none) := by
  unfold emplace
  rw [any_iff]
  by_cases h : (valueOf k m).isSome
  · rw [if_pos h]
    by_cases hk : k = k'
    · subst hk
      obtain ⟨w, hw⟩ := Option.isSome_iff_exists.1 h
      simp [hw]
    · simp [hk]
  · rw [if_neg h, valueOf_append, valueOf_cons]
    simp [valueOf]

/-- The map of an initializer list has the first value of every key. -/
theorem valueOf_mapOfList {W : Type} (xs acc : List (K × W)) (k : K) : valueOf k (mapOfList xs acc) = (valueOf k acc).or (valueOf k xs) := by
  induction xs generalizing acc with
  | nil => simp [mapOfList, valueOf]
  | cons e xs ih =>
    obtain ⟨k', v⟩ := e
    rw [mapOfList, ih, valueOf_emplace, valueOf_cons]
    cases valueOf k acc <;> by_cases h : k' = k <;> simp [h]

theorem nodup_emplace {W : Type} {m : List (K × W)} (h : (m.map Prod.fst).Nodup) (k : K) (v : W) : ((emplace m k v).map Prod.fst).Nodup := by
  unfold emplace
  split
  · exact h
  · rename_i hk
    rw [List.map_append, List.nodup_append]
    refine ⟨h, by simp, ?_⟩
    intro a ha b hb hab
    simp only [List.map_cons, List.map_nil, List.mem_singleton] at hb
    subst hb; subst hab
    obtain ⟨e, he, rfl⟩ := List.mem_map.1 ha
    exact hk (List.any_eq_true.2 ⟨e, he, by simp⟩)

theorem nodup_mapOfList {W : Type} (xs acc : List (K × W)) (h : (acc.map Prod.fst).Nodup) : ((mapOfList xs acc).map Prod.fst).Nodup := by
  induction xs generalizing acc with
  | nil => exact h
  | cons e xs ih => exact ih _ (nodup_emplace h _ _)

theorem valueOf_mem {W : Type} {m : List (K × W)} (h : (m.map Prod.fst).Nodup) (k : K) (w : W) : valueOf k m = some w ↔ (k, w) ∈ m := by
  induction m with
  | nil => simp [valueOf]
  | cons e m ih =>
    obtain ⟨k', w'⟩ := e
    simp only [List.map_cons, List.nodup_cons] at h
    rw [valueOf_cons]
    by_cases hk : k' = k
    · subst hk
      simp only [if_true, Option.some.injEq, List.mem_cons, Prod.mk.injEq, true_and]
      constructor
      · exact fun h' => .inl h'.symm
      · rintro (h' | h')
        · exact h'.symm
        · exact absurd (List.mem_map_of_mem (f := Prod.fst) h') h.1
    · simp only [if_neg hk, ih h.2, List.mem_cons, Prod.mk.injEq]
      constructor
      · exact .inr
      · rintro (h' | h')
        · exact absurd h'.1.symm hk
        · exact h'

theorem liftMapLoop_spec (m : List (K × StatusOr V)) (acc : List (K × V)) :
    (∀ r, liftMapLoop m acc = .ok r →
      (∀ e ∈ m, ∃ v, e.2 = .ok v) ∧ ∀ k, (valueOf k r).map Except.ok = ((valueOf k acc).map (Except.ok (ε := Err))).or (valueOf k m)) ∧
    (∀ e, liftMapLoop m acc = .error e → ∃ k, (k, .error e) ∈ m) := by
  induction m generalizing acc with
  | nil =>
    refine ⟨fun r h => ?_, fun e h => by cases h⟩
    obtain rfl := Except.ok.inj h
    exact ⟨by simp, fun k => by simp [valueOf]⟩
  | cons p m ih =>
    match p with
    | (k, .error e) =>
      refine ⟨fun r h => (by cases h), fun e' h => ?_⟩
      obtain rfl := Except.error.inj h
      exact ⟨k, by simp⟩
    | (k, .ok v) =>
      refine ⟨fun r h => ?_, fun e' h => ?_⟩
      · obtain ⟨h1, h2⟩ := (ih (emplace acc k v)).1 r h
        refine ⟨fun e he => ?_, fun k' => ?_⟩
        · rcases List.mem_cons.1 he with rfl | he
          · exact ⟨v, rfl⟩
          · exact h1 e he
        · rw [h2, valueOf_emplace, valueOf_cons]
          cases valueOf k' acc <;> by_cases hk : k = k' <;> simp [hk]
      · obtain ⟨k', hk'⟩ := (ih _).2 e' h
        exact ⟨k', by simp [hk']⟩

/-- `LiftStatusUp` of an initializer list of keys and `StatusOr`s.  Whatever the order of the hash map: if it succeeds the result has, for every
key, the value of the first entry with the key; if it fails the error is that of the first entry with some key; and it succeeds exactly if the
first entries of all keys have values. -/
theorem lift_map (order : List (K × StatusOr V) → List (K × StatusOr V)) (ho : ∀ m, (order m).Perm m) (xs : List (K × StatusOr V)) :
    (∀ r, liftInit order xs = .ok r → ∀ k, (valueOf k r).map Except.ok = valueOf k xs) ∧
    (∀ e, liftInit order xs = .error e → ∃ k, valueOf k xs = some (.error e)) ∧
    ((∃ r, liftInit order xs = .ok r) ↔ ∀ k e, valueOf k xs ≠ some (.error e)) := by
  have hnd : ((mapOfList xs []).map Prod.fst).Nodup := nodup_mapOfList xs [] (by simp)
  have hnd' : ((order (mapOfList xs [])).map Prod.fst).Nodup := ((ho _).map Prod.fst).nodup_iff.2 hnd
  have hval : ∀ k, valueOf k (order (mapOfList xs [])) = valueOf k xs := by
    intro k
    have h0 : valueOf k (mapOfList xs []) = valueOf k xs := by rw [valueOf_mapOfList]; simp [valueOf]
    rw [← h0]
    apply Option.ext
    intro w
    rw [valueOf_mem hnd', valueOf_mem hnd, (ho _).mem_iff]
  have h := liftMapLoop_spec (order (mapOfList xs [])) []
  have hok : ∀ r, liftInit order xs = .ok r → ∀ k, (valueOf k r).map Except.ok = valueOf k xs := by
    intro r hr k
    have := ((h.1 r hr).2 k)
    rw [hval] at this
    simpa [valueOf] using this
  have herr : ∀ e, liftInit order xs = .error e → ∃ k, valueOf k xs = some (.error e) := by
    intro e he
    obtain ⟨k, hk⟩ := h.2 e he
    exact ⟨k, by rw [← hval]; exact (valueOf_mem hnd' _ _).2 hk⟩
  refine ⟨hok, herr, ⟨fun ⟨r, hr⟩ k e he => ?_, fun hall => ?_⟩⟩
  · have := hok r hr k
    rw [he] at this
    cases hv : valueOf k r <;> rw [hv] at this <;> cases this
  · cases hr : liftInit order xs with
    | ok r => exact ⟨r, rfl⟩
    | error e => obtain ⟨k, hk⟩ := herr e hr; exact absurd hk (hall k e)

/-- The first error of a list of pairs: keys before their values. -/
def flatErrors : List (StatusOr K × StatusOr V) → List (Except Err Unit)
  | [] => []
  | (k, v) :: rest => k.map (fun _ => ()) :: v.map (fun _ => ()) :: flatErrors rest

theorem liftPairsLoop_spec (xs : List (StatusOr K × StatusOr V)) (acc : List (K × V)) :
    (∀ e, liftPairsLoop xs acc = .error e ↔ liftVector (flatErrors xs) = .error e) ∧
    (∀ kvs : List (K × V), xs = kvs.map (fun p => (.ok p.1, .ok p.2)) → liftPairsLoop xs acc = .ok (mapOfList kvs acc)) := by
  have gen : ∀ (xs : List (StatusOr K × StatusOr V)) (acc : List (K × V)) (us : List Unit) (e : Err),
      liftPairsLoop xs acc = .error e ↔ liftLoop (flatErrors xs) us = .error e := by
    intro xs
    induction xs with
    | nil => intro acc us e; simp [liftPairsLoop, flatErrors, liftLoop]
    | cons p xs ih =>
      intro acc us e
      match p with
      | (.error e', _) => simp [liftPairsLoop, flatErrors, liftLoop, Except.map]
      | (.ok k, .error e') => simp [liftPairsLoop, flatErrors, liftLoop, Except.map]
      | (.ok k, .ok v) => simp only [liftPairsLoop, flatErrors, liftLoop, Except.map]; exact ih _ _ e
  refine ⟨fun e => gen xs acc [] e, ?_⟩
  induction xs generalizing acc with
  | nil => intro kvs h; have : kvs = [] := by simpa using h.symm
           subst this; rfl
  | cons p xs ih =>
    intro kvs h
    cases kvs with
    | nil => simp at h
    | cons q kvs =>
      simp only [List.map_cons, List.cons.injEq] at h
      rw [h.1]
      simp only [liftPairsLoop]
      rw [ih _ kvs h.2]; rfl

/-- `LiftStatusUp` of pairs of `StatusOr`s: the first error in the order key, value, key, value, …; without an error the map has the first
value of every key. -/
theorem lift_pairs (xs : List (StatusOr K × StatusOr V)) :
    (∀ e, liftPairs xs = .error e ↔ ∃ (pre : List Unit) (post : List (Except Err Unit)), flatErrors xs = pre.map .ok ++ .error e :: post) ∧
    (∀ kvs : List (K × V), xs = kvs.map (fun p => (.ok p.1, .ok p.2)) →
      ∃ r, liftPairs xs = .ok r ∧ ∀ k, valueOf k r = valueOf k kvs) := by
  obtain ⟨h1, h2⟩ := liftPairsLoop_spec xs ([] : List (K × V))
  refine ⟨fun e => (h1 e).trans ((lift_vector _).2 e), fun kvs h => ⟨_, h2 kvs h, fun k => ?_⟩⟩
  rw [valueOf_mapOfList]; simp [valueOf]

/-! ### Examples -/

def exA : Err := .mk .internal "a" [] []
def exB : Err := .mk .notFound "b" [] []

example : FirstError [Arg.plain 1, .statusOr (.ok 2), .statusOr (.error exB), .status (some exA)] exB :=
  ⟨[.plain 1, .statusOr (.ok 2)], _, _, rfl, .statusOr _, by
    intro b hb; simp at hb; rcases hb with rfl | rfl
    · exact ⟨_, .plain _⟩
    · exact ⟨_, .statusOr _⟩⟩
example : AllPass [Arg.plain 1, .statusOr (.ok 2), .status none] [.inl 1, .inl 2, .inr none] :=
  .cons (.plain _) (.cons (.statusOr _) (.cons .status .nil))
example : liftVector [.ok 1, .ok 2, .ok 3] = .ok [1, 2, 3] := by rfl
example : liftVector [.ok 1, .error exB, .error exA] = .error exB := by rfl
/-- The error under a repeated key is dropped. -/
example : liftInit id [(1, Except.ok 5), (1, .error exA)] = .ok [(1, 5)] := by rfl
example : liftPairs [(.ok 1, .ok 5), (.ok 1, .error exA), (.error exB, .ok 1)] = (.error exA : StatusOr (List (Nat × Nat))) := by rfl
example : liftTuple 8 9 [.ok 1, .error exB] = some (.error (.mk .notFound "b" [8, 9] [])) := by rfl

end Verif.Status
