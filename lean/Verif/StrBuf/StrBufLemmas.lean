import Verif.StrBuf.StrBufSpec

/-!
# Lemmas about StringsBuffer
-/

namespace Verif.StrBuf

theorem mapM_id_map_some (v : List Nat) : (v.map some).mapM id = some v := by
  induction v with
  | nil => rfl
  | cons a v ih => simp [List.mapM_cons, ih]

theorem map_some_of_ne_none : ∀ (l : List (Option Nat)), (∀ c ∈ l, c ≠ none) → ∃ v : List Nat, l = v.map some
  | [], _ => ⟨[], rfl⟩
  | none :: l, h => absurd rfl (h none (by simp))
  | some a :: l, h => by
    obtain ⟨v, e⟩ := map_some_of_ne_none l (fun c hc => h c (List.mem_cons_of_mem _ hc))
    exact ⟨a :: v, by simp [e]⟩

/-- The values that a builder would give. -/
structure BInv (b : Builder) (l : List (List Nat)) : Prop where
  len : b.offsets.length = l.length
  num : b.numChars ≤ b.chars.length
  init : ∀ c ∈ b.chars.take b.numChars, c ≠ none
  vals : ∀ (i : Nat) (o : Offsets), b.offsets[i]? = some o →
    o.start ≤ o.stop ∧ o.stop ≤ b.numChars ∧
      ∃ v : List Nat, l[i]? = some v ∧ (b.chars.drop o.start).take (o.stop - o.start) = v.map some

theorem binv_new (n k : Nat) : BInv (Builder.new n k) (List.replicate n []) := by
  refine ⟨by simp [Builder.new], by simp [Builder.new], by simp [Builder.new], ?_⟩
  intro i o h
  simp only [Builder.new, List.getElem?_replicate] at h
  split at h
  · rename_i hi
    cases h
    exact ⟨by simp, by simp [Builder.new], [], by simp [List.getElem?_replicate, hi], by simp⟩
  · cases h

theorem doubleLoop_spec (need : Nat) : ∀ (fuel n : Nat), 0 < n → need < fuel + n → 0 < fuel →
    ∃ m, doubleLoop need fuel n = some m ∧ need ≤ m ∧ n ≤ m
  | 0, _, _, _, h => by omega
  | fuel + 1, n, hn, hf, _ => by
    unfold doubleLoop
    by_cases c : need > n
    · rw [if_pos c]
      obtain ⟨m, e, h1, h2⟩ := doubleLoop_spec need fuel (n * 2) (by omega) (by omega) (by omega)
      exact ⟨m, e, h1, by omega⟩
    · rw [if_neg c]; exact ⟨n, rfl, by omega, by omega⟩

theorem estimate_spec (b : Builder) (k : Nat) (h : 0 < b.offsets.length) :
    ∃ n, b.estimate k = some n ∧ k + b.numChars ≤ n ∧ b.chars.length ≤ n := by
  obtain ⟨m, e, h1, h2⟩ := doubleLoop_spec (k + b.numChars) (k + b.numChars + 1)
    (max (b.chars.length * 2) (b.offsets.length * 16)) (by omega) (by omega) (by omega)
  simp only [Builder.estimate, e]
  by_cases c : m < 4 * 1024 * 1024
  · rw [if_pos c]
    refine ⟨_, rfl, ?_, ?_⟩ <;> unfold clamp <;> split <;> (try split) <;> omega
  · rw [if_neg c]
    exact ⟨m, rfl, h1, by omega⟩

theorem binv_resize {b : Builder} {l : List (List Nat)} (h : BInv b l) (n : Nat) (hn : b.numChars ≤ n) : BInv (b.resize n) l := by
  have htake : ∀ k, k ≤ b.numChars →
      (b.chars.take n ++ List.replicate (n - b.chars.length) none).take k = b.chars.take k := by
    intro k hk
    have := h.num
    rw [List.take_append_of_le_length (by rw [List.length_take]; omega), List.take_take]
    congr 1; omega
  refine ⟨h.len, ?_, ?_, ?_⟩
  · have := h.num
    simp only [Builder.resize, List.length_append, List.length_take, List.length_replicate]
    omega
  · intro c hc
    have hc' : c ∈ b.chars.take b.numChars := by
      have := htake b.numChars (Nat.le_refl _)
      simp only [Builder.resize] at hc
      rw [this] at hc
      exact hc
    exact h.init c hc'
  · intro i o ho
    obtain ⟨h1, h2, v, h3, h4⟩ := h.vals i o ho
    refine ⟨h1, h2, v, h3, ?_⟩
    rw [← h4]
    simp only [Builder.resize]
    rw [List.take_drop, List.take_drop, htake (o.start + (o.stop - o.start)) (by omega)]

theorem binv_write {b : Builder} {l : List (List Nat)} (h : BInv b l) {i : Nat} (hi : i < l.length) (v : List Nat)
    (hv : b.numChars + v.length ≤ b.chars.length) : ∃ b', b.write i v = some b' ∧ BInv b' (l.set i v) ∧
      b'.offsets[i]? = some ⟨b.numChars, b.numChars + v.length⟩ := by
  have hi' : i < b.offsets.length := by rw [h.len]; exact hi
  simp only [Builder.write, if_pos hi', writeChars, if_pos hv]
  have hl : (b.chars.take b.numChars).length = b.numChars := by rw [List.length_take]; omega
  refine ⟨_, rfl, ⟨?_, ?_, ?_, ?_⟩, ?_⟩
  · simp [h.len]
  · simp only [List.length_append, List.length_map, List.length_drop, hl]; omega
  · intro c hc
    dsimp only at hc
    rw [List.take_append_of_le_length (by simp only [List.length_append, List.length_map, hl]; omega),
      List.take_of_length_le (by simp only [List.length_append, List.length_map, hl]; omega), List.mem_append] at hc
    rcases hc with hc | hc
    · exact h.init c hc
    · obtain ⟨a, _, e⟩ := List.mem_map.mp hc
      rw [← e]; simp
  · intro j o ho
    dsimp only at ho ⊢
    rw [List.getElem?_set] at ho
    by_cases e : i = j
    · subst e
      simp only [if_true, hi'] at ho
      cases ho
      refine ⟨by simp, by simp, v, by simp [hi], ?_⟩
      dsimp only
      rw [List.append_assoc, List.drop_append_of_le_length (by omega), List.drop_eq_nil_of_le (by omega), List.nil_append,
        List.take_append_of_le_length (by simp), List.take_of_length_le (by simp)]
    · simp only [e, if_false] at ho
      obtain ⟨h1, h2, w, h3, h4⟩ := h.vals j o ho
      refine ⟨h1, by omega, w, by rw [List.getElem?_set_ne e]; exact h3, ?_⟩
      rw [← h4, List.take_drop, List.take_drop, List.append_assoc, List.take_append_of_le_length (by omega), List.take_take]
      congr 2; omega
  · simp [hi']

theorem binv_set' {b : Builder} {l : List (List Nat)} (h : BInv b l) {i : Nat} (hi : i < l.length) (v : List Nat) :
    ∃ b', b.set i v = some b' ∧ BInv b' (l.set i v) := by
  unfold Builder.set
  by_cases c : v.length + b.numChars > b.chars.length
  · rw [if_pos c]
    obtain ⟨n, e, h1, h2⟩ := estimate_spec b v.length (by rw [h.len]; omega)
    simp only [e]
    obtain ⟨b', e', h', _⟩ := binv_write (binv_resize h n (by omega)) hi v (by
      simp only [Builder.resize, List.length_append, List.length_take, List.length_replicate]; omega)
    exact ⟨b', e', h'⟩
  · rw [if_neg c]
    obtain ⟨b', e', h', _⟩ := binv_write h hi v (by omega)
    exact ⟨b', e', h'⟩

theorem overwrite_one (l : List (List Nat)) (i : Nat) (v : List Nat) :
    overwrite l i [v] = if i < l.length then some (l.set i v) else none := by
  unfold overwrite
  by_cases c : i < l.length
  · rw [if_pos c, if_pos (by simp only [List.length_singleton]; omega)]
    congr 1
    rw [List.set_eq_take_append_cons_drop, if_pos c]
    simp
  · rw [if_neg c, if_neg (by simp only [List.length_singleton]; omega)]

theorem take_set_succ {α : Type} (l : List α) (i : Nat) (v : α) (hi : i < l.length) : (l.set i v).take (i + 1) = l.take i ++ [v] := by
  rw [List.take_add_one, List.take_set_of_le (Nat.le_refl i)]
  simp [hi]

theorem overwrite_cons (l : List (List Nat)) (i : Nat) (v : List Nat) (vs : List (List Nat)) (hi : i + (v :: vs).length ≤ l.length) :
    overwrite l i (v :: vs) = overwrite (l.set i v) (i + 1) vs := by
  unfold overwrite
  simp only [List.length_cons] at hi
  rw [if_pos (by simp only [List.length_cons]; omega), if_pos (by rw [List.length_set]; omega), take_set_succ l i v (by omega),
    List.drop_set_of_lt (by omega)]
  have e : i + 1 + vs.length = i + (v :: vs).length := by simp only [List.length_cons]; omega
  rw [e]
  simp

theorem binv_setN : ∀ (vs : List (List Nat)) {b : Builder} {l : List (List Nat)} (_ : BInv b l) (i : Nat) (l' : List (List Nat)),
    overwrite l i vs = some l' → ∃ b', b.setN i vs = some b' ∧ BInv b' l'
  | [], b, l, h, i, l', e => by
    unfold overwrite at e
    split at e
    · cases e
      exact ⟨b, rfl, by simpa using h⟩
    · cases e
  | v :: vs, b, l, h, i, l', e => by
    have hi : i + (v :: vs).length ≤ l.length := by
      unfold overwrite at e
      split at e
      · assumption
      · cases e
    rw [overwrite_cons l i v vs hi] at e
    obtain ⟨b1, e1, h1⟩ := binv_set' h (i := i) (by simp only [List.length_cons] at hi; omega) v
    obtain ⟨b2, e2, h2⟩ := binv_setN vs h1 (i + 1) l' e
    exact ⟨b2, by simp only [Builder.setN, e1, e2], h2⟩

theorem binv_setOffset {b : Builder} {l : List (List Nat)} (h : BInv b l) {src dst : Nat} {o : Offsets} {v : List Nat}
    (ho : b.offsets[src]? = some o) (hv : l[src]? = some v) :
    BInv { b with offsets := b.offsets.set dst o } (l.set dst v) := by
  refine ⟨by simp [h.len], h.num, h.init, ?_⟩
  intro j p hp
  dsimp only at hp ⊢
  rw [List.getElem?_set] at hp
  by_cases e : dst = j
  · subst e
    simp only [if_true] at hp
    split at hp
    · rename_i hd
      cases hp
      obtain ⟨h1, h2, w, h3, h4⟩ := h.vals src o ho
      rw [hv] at h3; cases h3
      exact ⟨h1, h2, v, by simp [← h.len, hd], h4⟩
    · cases hp
  · simp only [e, if_false] at hp
    obtain ⟨h1, h2, w, h3, h4⟩ := h.vals j p hp
    exact ⟨h1, h2, w, by rw [List.getElem?_set_ne e]; exact h3, h4⟩

theorem fill_spec : ∀ (k : Nat) (offs : List Offsets) (i : Nat) (o : Offsets), i + k ≤ offs.length →
    fillOffsets offs i k o = some (offs.take i ++ List.replicate k o ++ offs.drop (i + k))
  | 0, offs, i, o, h => by simp [fillOffsets]
  | k + 1, offs, i, o, h => by
    unfold fillOffsets
    rw [if_pos (by omega), fill_spec k _ (i + 1) o (by rw [List.length_set]; omega)]
    rw [take_set_succ offs i o (by omega), List.drop_set_of_lt (by omega)]
    have e : i + 1 + k = i + (k + 1) := by omega
    rw [e]
    simp [List.replicate_succ]

theorem binv_fill : ∀ (k : Nat) {b : Builder} {l : List (List Nat)} (_ : BInv b l) (src i : Nat) {o : Offsets} {v : List Nat}
    (_ : b.offsets[src]? = some o) (_ : l[src]? = some v) (_ : src < i) (l' : List (List Nat)),
    overwrite l i (List.replicate k v) = some l' →
    ∃ offs, fillOffsets b.offsets i k o = some offs ∧ BInv { b with offsets := offs } l'
  | 0, b, l, h, src, i, o, v, ho, hv, hs, l', e => by
    unfold overwrite at e
    split at e
    · cases e
      exact ⟨b.offsets, rfl, by simpa using h⟩
    · cases e
  | k + 1, b, l, h, src, i, o, v, ho, hv, hs, l', e => by
    rw [List.replicate_succ] at e
    have hi : i + (v :: List.replicate k v).length ≤ l.length := by
      unfold overwrite at e
      split at e
      · assumption
      · cases e
    rw [overwrite_cons l i v _ hi] at e
    have h1 := binv_setOffset h (dst := i) ho hv
    obtain ⟨offs, e1, h2⟩ := binv_fill k h1 src (i + 1) (o := o) (v := v) (by rw [List.getElem?_set_ne (by omega)]; exact ho)
      (by rw [List.getElem?_set_ne (by omega)]; exact hv) (by omega) l' e
    simp only [List.length_cons] at hi
    have hlen := h.len
    exact ⟨offs, by unfold fillOffsets; rw [if_pos (by omega)]; exact e1, h2⟩

theorem binv_setNConst {b : Builder} {l : List (List Nat)} (h : BInv b l) (first count : Nat) (v : List Nat) (l' : List (List Nat))
    (e : overwrite l first (List.replicate count v) = some l') : ∃ b', b.setNConst first count v = some b' ∧ BInv b' l' := by
  cases count with
  | zero =>
    unfold overwrite at e
    split at e
    · cases e
      exact ⟨b, rfl, by simpa using h⟩
    · cases e
  | succ k =>
    rw [List.replicate_succ] at e
    have hi : first + (v :: List.replicate k v).length ≤ l.length := by
      unfold overwrite at e
      split at e
      · assumption
      · cases e
    rw [overwrite_cons l first v _ hi] at e
    simp only [List.length_cons] at hi
    obtain ⟨b1, e1, h1⟩ := binv_set' h (i := first) (by omega) v
    have hlen := h1.len
    rw [List.length_set] at hlen
    have ho : ∃ o, b1.offsets[first]? = some o := ⟨b1.offsets[first]'(by omega), List.getElem?_eq_getElem _⟩
    obtain ⟨o, ho⟩ := ho
    obtain ⟨offs, e2, h2⟩ := binv_fill k h1 first (first + 1) (v := v) ho (by rw [List.getElem?_set_self (by omega)]) (by omega) l' e
    exact ⟨_, by simp only [Builder.setNConst, e1, ho, e2, Option.map_some], h2⟩

theorem binv_call {b : Builder} {l : List (List Nat)} (h : BInv b l) (c : Call) (l' : List (List Nat)) (e : c.effect l = some l') :
    ∃ b', c.run b = some b' ∧ BInv b' l' := by
  cases c with
  | set i v =>
    simp only [Call.effect, overwrite_one] at e
    split at e
    · rename_i hi
      cases e
      exact binv_set' h hi v
    · cases e
  | copy src dst =>
    simp only [Call.effect] at e
    cases hv : l[src]? with
    | none => rw [hv] at e; cases e
    | some v =>
      rw [hv] at e
      simp only [overwrite_one] at e
      split at e
      · rename_i hd
        cases e
        have hs : src < b.offsets.length := by rw [h.len]; exact (List.getElem?_eq_some_iff.mp hv).1
        have ho : b.offsets[src]? = some (b.offsets[src]'hs) := List.getElem?_eq_getElem _
        refine ⟨_, ?_, binv_setOffset h (dst := dst) ho hv⟩
        simp only [Call.run, Builder.copy, ho, h.len, if_pos hd]
      · cases e
  | setN first vs => exact binv_setN vs h first l' e
  | setNConst first count v => exact binv_setNConst h first count v l' e

theorem binv_calls : ∀ (cs : List Call) {b : Builder} {l l' : List (List Nat)} (_ : BInv b l) (_ : effects l cs = some l'),
    ∃ b', runCalls b cs = some b' ∧ BInv b' l'
  | [], b, l, l', h, e => by cases e; exact ⟨b, rfl, h⟩
  | c :: cs, b, l, l', h, e => by
    simp only [effects] at e
    cases hc : c.effect l with
    | none => rw [hc] at e; cases e
    | some l1 =>
      rw [hc] at e
      obtain ⟨b1, e1, h1⟩ := binv_call h c l1 hc
      obtain ⟨b2, e2, h2⟩ := binv_calls cs h1 e
      exact ⟨b2, by simp only [runCalls, e1, e2], h2⟩

theorem view_of_take {b : Buf} {o : Offsets} {v : List Nat} (h1 : b.base ≤ o.start) (h2 : o.start ≤ o.stop)
    (h3 : o.stop ≤ b.base + b.chars.length) (h4 : (b.chars.drop (o.start - b.base)).take (o.stop - o.start) = v.map some) :
    b.view o = some v := by
  unfold Buf.view
  by_cases c : o.start = o.stop
  · rw [if_pos c]
    have : o.stop - o.start = 0 := by omega
    rw [this, List.take_zero] at h4
    cases v with
    | nil => rfl
    | cons a v => simp at h4
  · rw [if_neg c, if_pos ⟨h1, h2, h3⟩, h4, mapM_id_map_some]

theorem build_spec {b : Builder} {l : List (List Nat)} (h : BInv b l) (size : Nat) :
    Holds (b.build size) (l.take size) ∧ Valid (b.build size) := by
  have key : ∀ b' : Builder, BInv b' l → b'.numChars = b'.chars.length →
      Holds ⟨b'.offsets.take size, b'.chars.take b'.numChars, 0⟩ (l.take size) ∧
      Valid ⟨b'.offsets.take size, b'.chars.take b'.numChars, 0⟩ := by
    intro b' h' en
    have et : b'.chars.take b'.numChars = b'.chars := List.take_of_length_le (by omega)
    refine ⟨⟨by simp [h'.len], ?_⟩, ?_, ?_⟩
    · intro i
      simp only [Buf.get]
      cases ho : (b'.offsets.take size)[i]? with
      | none =>
        dsimp only
        rw [List.getElem?_eq_none_iff, List.length_take] at ho
        symm
        rw [List.getElem?_eq_none_iff, List.length_take, ← h'.len]
        exact ho
      | some o =>
        dsimp only
        have hs : i < size ∧ b'.offsets[i]? = some o := by
          rw [List.getElem?_take] at ho
          split at ho
          · exact ⟨by assumption, ho⟩
          · cases ho
        obtain ⟨h1, h2, v, h3, h4⟩ := h'.vals i o hs.2
        rw [List.getElem?_take, if_pos hs.1, h3]
        apply view_of_take
        · exact Nat.zero_le _
        · exact h1
        · simp only [et]; omega
        · simp only [et, Nat.sub_zero]; exact h4
    · intro o ho
      obtain ⟨i, hi⟩ := List.getElem?_of_mem (List.mem_of_mem_take ho)
      obtain ⟨h1, h2, _⟩ := h'.vals i o hi
      refine ⟨Nat.zero_le _, h1, ?_⟩
      simp only [et]; omega
    · intro c hc
      exact h'.init c hc
  unfold Builder.build
  by_cases c : b.numChars ≠ b.chars.length
  · simp only [if_pos c]
    exact key _ (binv_resize h _ (Nat.le_refl _)) (by
      have := h.num
      simp only [Builder.resize, List.length_append, List.length_take, List.length_replicate]; omega)
  · simp only [if_neg c]
    exact key b h (by omega)

theorem get_of_valid {b : Buf} (h : Valid b) {i : Nat} (hi : i < b.offsets.length) : ∃ v, b.get i = some v := by
  simp only [Buf.get, List.getElem?_eq_getElem hi]
  obtain ⟨h1, h2, h3⟩ := h.1 _ (List.getElem_mem hi)
  obtain ⟨v, e⟩ := map_some_of_ne_none (((b.chars.drop ((b.offsets[i]).start - b.base)).take
    ((b.offsets[i]).stop - (b.offsets[i]).start))) (fun c hc => h.2 c (List.mem_of_mem_drop (List.mem_of_mem_take hc)))
  exact ⟨v, view_of_take h1 h2 h3 e⟩

theorem holds_of_valid {b : Buf} (h : Valid b) : ∃ l, Holds b l := by
  refine ⟨(List.range b.offsets.length).map (fun i => (b.get i).getD []), by simp, ?_⟩
  intro i
  by_cases hi : i < b.offsets.length
  · obtain ⟨v, e⟩ := get_of_valid h hi
    rw [e, List.getElem?_map, List.getElem?_range hi]
    simp [e]
  · rw [List.getElem?_eq_none (by simp; omega)]
    simp only [Buf.get, List.getElem?_eq_none (Nat.le_of_not_lt hi)]

theorem holds_unique {b : Buf} {l l' : List (List Nat)} (h : Holds b l) (h' : Holds b l') : l = l' := by
  apply List.ext_getElem?
  intro i
  rw [← h.2 i, ← h'.2 i]

theorem foldl_min_le (os : List Offsets) : ∀ m : Nat, os.foldl (fun m p => min m p.start) m ≤ m ∧
    (∀ o ∈ os, os.foldl (fun m p => min m p.start) m ≤ o.start) ∧
    (∀ k, k ≤ m → (∀ o ∈ os, k ≤ o.start) → k ≤ os.foldl (fun m p => min m p.start) m) := by
  induction os with
  | nil => intro m; simp
  | cons o os ih =>
    intro m
    obtain ⟨h1, h2, h3⟩ := ih (min m o.start)
    refine ⟨by simp only [List.foldl_cons]; omega, ?_, ?_⟩
    · intro p hp
      rcases List.mem_cons.mp hp with rfl | hp
      · simp only [List.foldl_cons]; omega
      · exact h2 p hp
    · intro k hk ho
      refine h3 k ?_ (fun p hp => ho p (List.mem_cons_of_mem _ hp))
      have := ho o (by simp)
      omega

theorem foldl_max_le (os : List Offsets) : ∀ m : Nat, m ≤ os.foldl (fun m p => max m p.stop) m ∧
    (∀ o ∈ os, o.stop ≤ os.foldl (fun m p => max m p.stop) m) ∧
    (∀ k, m ≤ k → (∀ o ∈ os, o.stop ≤ k) → os.foldl (fun m p => max m p.stop) m ≤ k) := by
  induction os with
  | nil => intro m; simp
  | cons o os ih =>
    intro m
    obtain ⟨h1, h2, h3⟩ := ih (max m o.stop)
    refine ⟨by simp only [List.foldl_cons]; omega, ?_, ?_⟩
    · intro p hp
      rcases List.mem_cons.mp hp with rfl | hp
      · simp only [List.foldl_cons]; omega
      · exact h2 p hp
    · intro k hk ho
      refine h3 k ?_ (fun p hp => ho p (List.mem_cons_of_mem _ hp))
      have := ho o (by simp)
      omega

theorem view_sub {b b' : Buf} {o : Offsets} (hc : b'.chars = (b.chars.drop (b'.base - b.base)).take b'.chars.length)
    (hb : b.base ≤ b'.base) (h1 : b'.base ≤ o.start) (h2 : o.start ≤ o.stop) (h3 : o.stop ≤ b'.base + b'.chars.length)
    (h4 : b'.base + b'.chars.length ≤ b.base + b.chars.length) : b'.view o = b.view o := by
  unfold Buf.view
  by_cases c : o.start = o.stop
  · rw [if_pos c, if_pos c]
  · rw [if_neg c, if_neg c, if_pos ⟨h1, h2, h3⟩, if_pos ⟨by omega, h2, by omega⟩]
    congr 1
    rw [hc, List.drop_take, List.take_take, List.drop_drop]
    congr 1
    · omega
    · congr 1; omega

theorem deepCopy_spec {b : Buf} (h : Valid b) : ∃ b', b.deepCopy = some b' ∧ Valid b' ∧
    b'.offsets = b.offsets ∧ ∀ i, b'.get i = b.get i := by
  unfold Buf.deepCopy
  cases e : b.offsets with
  | nil => exact ⟨Buf.empty, rfl, ⟨by simp [Buf.empty], by simp [Buf.empty]⟩, rfl, fun i => by simp [Buf.get, Buf.empty, e]⟩
  | cons o os =>
    obtain ⟨l1, l2, l3⟩ := foldl_min_le os o.start
    obtain ⟨m1, m2, m3⟩ := foldl_max_le os o.stop
    have ho := h.1 o (by rw [e]; simp)
    have hos : ∀ p ∈ os, b.base ≤ p.start ∧ p.start ≤ p.stop ∧ p.stop ≤ b.base + b.chars.length := fun p hp => h.1 p (by rw [e]; simp [hp])
    have hlo := l3 b.base ho.1 (fun p hp => (hos p hp).1)
    have hhi := m3 _ ho.2.2 (fun p hp => (hos p hp).2.2)
    dsimp only
    generalize os.foldl (fun m p => min m p.start) o.start = lo at *
    generalize os.foldl (fun m p => max m p.stop) o.stop = hi at *
    have range : ∀ p ∈ o :: os, lo ≤ p.start ∧ p.start ≤ p.stop ∧ p.stop ≤ hi := by
      intro p hp
      rcases List.mem_cons.mp hp with rfl | hp
      · exact ⟨l1, ho.2.1, m1⟩
      · exact ⟨l2 p hp, (hos p hp).2.1, m2 p hp⟩
    have fin : ∀ b' : Buf, b'.offsets = o :: os → b'.base = lo → b'.chars = (b.chars.drop (lo - b.base)).take (hi - lo) →
        Valid b' ∧ b'.offsets = o :: os ∧ ∀ i, b'.get i = b.get i := by
      intro b' e1 e2 e3
      have hlh : lo ≤ hi := by
        have := range o (by simp)
        omega
      have el : b'.chars.length = hi - lo := by rw [e3, List.length_take, List.length_drop]; omega
      refine ⟨⟨?_, ?_⟩, e1, ?_⟩
      · intro p hp
        rw [e1] at hp
        have := range p hp
        omega
      · intro c hc
        rw [e3] at hc
        exact h.2 c (List.mem_of_mem_drop (List.mem_of_mem_take hc))
      · intro i
        simp only [Buf.get, e, e1]
        cases hp : (o :: os)[i]? with
        | none => rfl
        | some p =>
          dsimp only
          have hr := range p (List.mem_of_getElem? hp)
          apply view_sub
          · rw [e2, el]; exact e3
          · omega
          · omega
          · omega
          · omega
          · omega
    by_cases c : hi ≤ lo
    · rw [if_pos c]
      have r := range o (by simp)
      rw [if_pos (by omega)]
      exact ⟨_, rfl, fin _ rfl rfl (by simp; omega)⟩
    · rw [if_neg c, if_pos hlo]
      unfold sliceList
      rw [if_neg (by omega), if_pos (by omega)]
      exact ⟨_, rfl, fin _ rfl rfl rfl⟩

theorem equalLoop_spec (a b : Buf) : ∀ (os ps : List Offsets) (l l' : List (List Nat)), os.length = l.length → ps.length = l'.length →
    os.length = ps.length →
    (∀ (i : Nat) (o : Offsets), os[i]? = some o → a.view o = l[i]?) → (∀ (i : Nat) (o : Offsets), ps[i]? = some o → b.view o = l'[i]?) →
    equalLoop a b os ps = some (decide (l = l'))
  | [], [], l, l', h1, h2, _, _, _ => by
    have e1 : l = [] := List.length_eq_zero_iff.mp h1.symm
    have e2 : l' = [] := List.length_eq_zero_iff.mp h2.symm
    simp [equalLoop, e1, e2]
  | [], _ :: _, _, _, _, _, h3, _, _ => by simp at h3
  | _ :: _, [], _, _, _, _, h3, _, _ => by simp at h3
  | o :: os, p :: ps, [], _, h1, _, _, _, _ => by simp at h1
  | o :: os, p :: ps, _ :: _, [], _, h2, _, _, _ => by simp at h2
  | o :: os, p :: ps, x :: l, y :: l', h1, h2, h3, h4, h5 => by
    have e1 : a.view o = some x := by simpa using h4 0 o rfl
    have e2 : b.view p = some y := by simpa using h5 0 p rfl
    simp only [equalLoop, e1, e2]
    by_cases c : x = y
    · rw [if_pos c, equalLoop_spec a b os ps l l' (by simpa using h1) (by simpa using h2) (by simpa using h3)
        (fun i o h => by simpa using h4 (i + 1) o (by simpa using h)) (fun i o h => by simpa using h5 (i + 1) o (by simpa using h))]
      simp [c]
    · rw [if_neg c]; simp [c]

theorem equal_spec {a b : Buf} {l l' : List (List Nat)} (h : Holds a l) (h' : Holds b l') : a.equal b = some (decide (l = l')) := by
  unfold Buf.equal
  by_cases c : a.offsets.length ≠ b.offsets.length
  · rw [if_pos c]
    have : l ≠ l' := by
      intro e
      rw [h.1, h'.1, e] at c
      exact c rfl
    simp [this]
  · rw [if_neg c]
    refine equalLoop_spec a b _ _ l l' h.1 h'.1 (by omega) ?_ ?_
    · intro i o hi
      have := h.2 i
      simpa only [Buf.get, hi] using this
    · intro i o hi
      have := h'.2 i
      simpa only [Buf.get, hi] using this

end Verif.StrBuf
