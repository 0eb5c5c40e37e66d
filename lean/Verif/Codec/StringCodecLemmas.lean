import Verif.Codec.DenseCodecLemmas

/-!
# Lemmas on the codec of dense arrays of strings
-/

namespace Verif.Codec
open Verif.Bits Verif.Bitmap Verif.Dense

/-- The offsets of the strings as an array. -/
def SArr.offs (a : SArr) : DArr StrBuf.Offsets := ⟨a.buf.offsets, a.bitmap, a.off⟩

/-- The offsets of the message. -/
def shift (base : Nat) (o : StrBuf.Offsets) : Int × Int := ((o.start : Int) - base, (o.stop : Int) - base)

theorem Ok.valid {a : SArr} (h : a.Ok) : a.offs.Valid := h.1

theorem offsetsLoop_spec {a : SArr} (hv : a.offs.Valid) : ∀ (n i : Nat), i + n = a.size →
    offsetsLoop a i n = some ((((elems a.offs).drop i).filterMap id).map (shift a.buf.base))
  | 0, i, h => by
    rw [List.drop_eq_nil_of_le (by rw [elems_length]; show a.buf.offsets.length ≤ i; unfold SArr.size at h; omega)]
    rfl
  | n + 1, i, h => by
    have hi : i < a.offs.values.length := by show i < a.buf.offsets.length; unfold SArr.size at h; omega
    have hi' : i < a.buf.offsets.length := hi
    unfold offsetsLoop
    have hp : a.present i = some (pres a.offs i) := present_eq (a := a.offs) hv hi
    rw [hp, offsetsLoop_spec hv n (i + 1) (by omega)]
    have hd : (elems a.offs).drop i = elem a.offs i :: (elems a.offs).drop (i + 1) := by
      rw [List.drop_eq_getElem_cons (by rw [elems_length]; exact hi)]
      congr 1
      have : (elems a.offs)[i]? = some (elem a.offs i) := by
        unfold elems
        rw [List.getElem?_map, List.getElem?_range hi]; rfl
      rw [List.getElem?_eq_some_iff] at this
      exact this.2
    rw [hd, elem_eq]
    simp only [Option.bind_eq_bind, Option.bind_some]
    cases pres a.offs i with
    | true =>
      rw [if_pos rfl, if_pos rfl, List.getElem?_eq_getElem hi']
      have : a.offs.values[i]? = some a.buf.offsets[i] := List.getElem?_eq_getElem hi'
      rw [this]
      rfl
    | false => rfl

theorem view_cut {b : StrBuf.Buf} {o : StrBuf.Offsets}
    (h : b.base ≤ o.start ∧ o.start ≤ o.stop ∧ o.stop ≤ b.base + b.chars.length) :
    b.view o = cut b.chars (shift b.base o).1 (shift b.base o).2 := by
  unfold StrBuf.Buf.view cut shift
  dsimp only
  have h1 : ((o.start : Int) - b.base).toNat = o.start - b.base := by omega
  have h2 : ((o.stop : Int) - b.base).toNat = o.stop - b.base := by omega
  rw [h1, h2, show o.stop - b.base - (o.start - b.base) = o.stop - o.start by omega]
  by_cases he : o.start = o.stop
  · rw [if_pos he, he, Nat.sub_self, List.take_zero]; rfl
  · rw [if_neg he, if_pos h]

theorem holds_rows {a : SArr} {rows : List (Option (List Nat))} (h : a.Holds rows) :
    rows = (elems a.offs).map (fun x => x.bind a.buf.view) ∧ ∀ o, some o ∈ elems a.offs → ∃ v, a.buf.view o = some v := by
  have key : ∀ i, i < rows.length → ∃ r, rows[i]? = some r ∧ r = (elem a.offs i).bind a.buf.view ∧
      ∀ o, elem a.offs i = some o → ∃ v, a.buf.view o = some v := by
    intro i hi
    have hi' : i < a.buf.offsets.length := by have := h.1; unfold SArr.size at this; omega
    refine ⟨rows[i], List.getElem?_eq_getElem hi, ?_⟩
    have := h.2 i rows[i] (List.getElem?_eq_getElem hi)
    unfold elem
    by_cases hp : a.bitmap = [] ∨ bitAt a.bitmap (a.off + i) = true
    · rw [if_pos hp] at this
      rw [if_pos (show a.offs.bitmap = [] ∨ bitAt a.offs.bitmap (a.offs.off + i) = true from hp)]
      have hg : a.buf.get i = a.buf.view a.buf.offsets[i] := by
        unfold StrBuf.Buf.get
        rw [List.getElem?_eq_getElem hi']
      have hv : a.offs.values[i]? = some a.buf.offsets[i] := List.getElem?_eq_getElem hi'
      rw [hv]
      refine ⟨by rw [Option.bind_some, ← hg, this.2], ?_⟩
      intro o ho
      rw [Option.some.injEq] at ho
      subst ho
      rw [← hg, this.2]
      exact Option.ne_none_iff_exists'.1 this.1
    · rw [if_neg hp] at this
      rw [if_neg (show ¬ (a.offs.bitmap = [] ∨ bitAt a.offs.bitmap (a.offs.off + i) = true) from hp)]
      exact ⟨this, by simp⟩
  have hlen : a.offs.values.length = rows.length := h.1
  constructor
  · apply List.ext_getElem?
    intro i
    by_cases hi : i < rows.length
    · obtain ⟨r, h1, h2, _⟩ := key i hi
      rw [h1, h2, List.getElem?_map]
      unfold elems
      rw [List.getElem?_map, List.getElem?_range (by omega)]
      rfl
    · rw [List.getElem?_eq_none (by omega), List.getElem?_eq_none (by rw [List.length_map, elems_length]; omega)]
  · intro o ho
    unfold elems at ho
    obtain ⟨i, hi, he⟩ := List.mem_map.1 ho
    obtain ⟨_, _, _, h3⟩ := key i (by rw [List.mem_range] at hi; omega)
    exact h3 o he

theorem mapM_view {b : StrBuf.Buf} : ∀ l : List (Option StrBuf.Offsets), (∀ o, some o ∈ l → ∃ v, b.view o = some v) →
    (l.filterMap id).mapM b.view = some ((l.map (fun x => x.bind b.view)).filterMap id)
  | [], _ => rfl
  | none :: l, h => by
    have := mapM_view l (fun o ho => h o (List.mem_cons_of_mem _ ho))
    simpa using this
  | some o :: l, h => by
    obtain ⟨v, hv⟩ := h o (by simp)
    have := mapM_view l (fun o ho => h o (List.mem_cons_of_mem _ ho))
    simp only [List.filterMap_cons, id, List.map_cons, Option.bind_some, hv, List.mapM_cons]
    rw [this]
    rfl

theorem view_isSome {b : StrBuf.Buf} {l : List (Option StrBuf.Offsets)} (h : ∀ o, some o ∈ l → ∃ v, b.view o = some v) :
    (l.map (fun x => x.bind b.view)).map Option.isSome = l.map Option.isSome := by
  rw [List.map_map]
  apply List.map_congr_left
  intro x hx
  cases x with
  | none => rfl
  | some o =>
    obtain ⟨v, hv⟩ := h o hx
    simp [hv]

theorem zip_fst_snd {β γ : Type} (l : List (β × γ)) : (l.map (·.1)).zip (l.map (·.2)) = l := by
  induction l with
  | nil => rfl
  | cons x xs ih => simp [ih]

theorem present_in_range {a : SArr} (h : a.Ok) {o : StrBuf.Offsets} (ho : some o ∈ elems a.offs) :
    a.buf.base ≤ o.start ∧ o.start ≤ o.stop ∧ o.stop ≤ a.buf.base + a.buf.chars.length := by
  unfold elems at ho
  obtain ⟨i, _, he⟩ := List.mem_map.1 ho
  unfold elem at he
  split at he
  · rename_i hp
    exact h.2 i o he hp
  · simp at he

theorem mapM_cut {a : SArr} : ∀ l : List StrBuf.Offsets,
    (∀ o ∈ l, a.buf.base ≤ o.start ∧ o.start ≤ o.stop ∧ o.stop ≤ a.buf.base + a.buf.chars.length) →
    (l.map (shift a.buf.base)).mapM (fun (s, e) => cut a.buf.chars s e) = l.mapM a.buf.view
  | [], _ => rfl
  | o :: l, h => by
    rw [List.map_cons, List.mapM_cons, List.mapM_cons, mapM_cut l (fun o ho => h o (List.mem_cons_of_mem _ ho)),
      view_cut (h o List.mem_cons_self)]

theorem encodeStrings_spec {a : SArr} {rows : List (Option (List Nat))} (hok : a.Ok) (hr : a.Holds rows)
    (hn : (a.size : Int) + 32 ≤ Edge.maxI64) :
    ∃ m, encodeStrings a = some m ∧ m.Says rows ∧ m.size = some (a.size : Int) ∧ Packs m.bitmap (rows.map Option.isSome) := by
  have hv : a.offs.Valid := hok.1
  obtain ⟨ws, h1, h2⟩ := genBitmap_spec (bm := a.bitmap) (off := a.off) (n := a.size) hv.1 hv.2 hn
  have h3 := offsetsLoop_spec hv a.size 0 (by omega)
  obtain ⟨hrows, hview⟩ := holds_rows hr
  have hps : rows.map Option.isSome = presOf a.bitmap a.off a.size := by
    rw [hrows, view_isSome hview, elems_isSome]; rfl
  rw [List.drop_zero] at h3
  have hpk : Packs ws (rows.map Option.isSome) := hps ▸ h2
  have hmem : ∀ o, o ∈ (elems a.offs).filterMap id → some o ∈ elems a.offs := by
    intro o ho
    obtain ⟨x, hx, he⟩ := List.mem_filterMap.1 ho
    have : x = some o := he
    exact this ▸ hx
  refine ⟨⟨some (a.size : Int), ws, some a.buf.chars,
    (((elems a.offs).filterMap id).map (shift a.buf.base)).map (·.1),
    (((elems a.offs).filterMap id).map (shift a.buf.base)).map (·.2)⟩, ?_, ?_, rfl, hpk⟩
  · unfold encodeStrings
    rw [h1, h3]
    rfl
  · obtain ⟨hb1, hb2⟩ := packs_bits hpk
    rw [List.length_map, ← hr.1] at hb1 hb2
    have hcount : (bitsOf ws a.size).count true = ((elems a.offs).filterMap id).length := by
      rw [hb1, hrows, view_isSome hview, count_rows]
    refine ⟨a.size, a.buf.chars, rows.filterMap id, ⟨⟨rfl, hb2⟩, rfl, ?_, ?_, ?_⟩, ?_, ?_⟩
    · simpa using hcount
    · simp
    · intro j s e hs he
      simp only [List.getElem?_map, Option.map_map] at hs he
      cases hj : ((elems a.offs).filterMap id)[j]? with
      | none => rw [hj] at hs; simp at hs
      | some o =>
        rw [hj] at hs he
        simp [shift] at hs he
        have := present_in_range hok (hmem o (List.mem_of_getElem? hj))
        omega
    · dsimp only
      rw [zip_fst_snd, mapM_cut _ (fun o ho => present_in_range hok (hmem o ho)), mapM_view _ hview, ← hrows]
    · dsimp only
      rw [hb1, scatter_rows]

/-! ## Decoding -/

theorem checkOffsets_ok {size : Int} : ∀ {ss es : List Int},
    (∀ (j : Nat) (s e : Int), ss[j]? = some s → es[j]? = some e → 0 ≤ s ∧ s ≤ e ∧ e ≤ size) → checkOffsets size ss es = .ok ()
  | [], _, _ => by unfold checkOffsets; rfl
  | _ :: _, [], _ => by unfold checkOffsets; rfl
  | s :: ss, e :: es, h => by
    have h0 := h 0 s e rfl rfl
    unfold checkOffsets
    rw [if_neg (by omega), if_neg (by omega), if_neg (by omega)]
    exact checkOffsets_ok (fun j s e hs he => h (j + 1) s e hs he)

theorem checkOffsets_error {size : Int} : ∀ {ss es : List Int},
    (¬ ∀ (j : Nat) (s e : Int), ss[j]? = some s → es[j]? = some e → 0 ≤ s ∧ s ≤ e ∧ e ≤ size) →
    ∃ m, checkOffsets size ss es = .error m
  | [], _, h => absurd (fun j s e hs => by simp at hs) h
  | _ :: _, [], h => absurd (fun j s e _ he => by simp at he) h
  | s :: ss, e :: es, h => by
    unfold checkOffsets
    split
    · exact ⟨_, rfl⟩
    · split
      · exact ⟨_, rfl⟩
      · split
        · exact ⟨_, rfl⟩
        · apply checkOffsets_error
          intro hall
          apply h
          intro j s' e' hs he
          cases j with
          | zero => simp at hs he; omega
          | succ j => exact hall j s' e' hs he

theorem offsetsFill_spec {starts stops : List Int}
    (hall : ∀ (j : Nat) (s e : Int), starts[j]? = some s → stops[j]? = some e → 0 ≤ s ∧ s ≤ e) (hlen : starts.length = stops.length) :
    ∀ (bs : List Bool) (i j : Nat) (data : List StrBuf.Offsets), i + bs.length ≤ data.length → j + bs.count true ≤ starts.length →
    ∃ r, offsetsFill starts stops bs i j data = some r ∧ r.length = data.length ∧ (∀ k, k < i → r[k]? = data[k]?) ∧
      (∀ k, bs[k]? = some true → ∃ s e, starts[j + (bs.take k).count true]? = some s ∧
        stops[j + (bs.take k).count true]? = some e ∧ r[i + k]? = some ⟨s.toNat, e.toNat⟩) ∧
      (∀ k, bs[k]? = some false → r[i + k]? = some ⟨0, 0⟩)
  | [], i, j, data, _, _ => ⟨data, rfl, rfl, fun _ _ => rfl, fun k h => by simp at h, fun k h => by simp at h⟩
  | true :: bs, i, j, data, hi, hj => by
    simp at hi hj
    have hjs : j < starts.length := by omega
    have hje : j < stops.length := by omega
    have hse := hall j _ _ (List.getElem?_eq_getElem hjs) (List.getElem?_eq_getElem hje)
    unfold offsetsFill
    rw [if_pos rfl, List.getElem?_eq_getElem hjs, List.getElem?_eq_getElem hje]
    simp only [Option.bind_eq_bind, Option.bind_some, toOffsets, wrV]
    rw [if_neg (by omega), Option.bind_some, if_pos (by omega), Option.bind_some]
    obtain ⟨r, h1, h2, h3, h4, h5⟩ := offsetsFill_spec hall hlen bs (i + 1) (j + 1)
      (data.set i ⟨starts[j].toNat, stops[j].toNat⟩) (by simp; omega) (by omega)
    refine ⟨r, h1, by simpa using h2, ?_, ?_, ?_⟩
    · intro k hk
      rw [h3 k (by omega), List.getElem?_set_ne (by omega)]
    · intro k hk
      cases k with
      | zero =>
        refine ⟨starts[j], stops[j], by simp [hjs], by simp [hje], ?_⟩
        rw [Nat.add_zero, h3 i (by omega), List.getElem?_set_self (by omega)]
      | succ k =>
        simp at hk
        obtain ⟨s, e, e1, e2, e3⟩ := h4 k hk
        refine ⟨s, e, ?_, ?_, ?_⟩
        · rw [← e1]; simp; congr 1; omega
        · rw [← e2]; simp; congr 1; omega
        · rw [← e3]; congr 1; omega
    · intro k hk
      cases k with
      | zero => simp at hk
      | succ k =>
        simp at hk
        rw [show i + (k + 1) = i + 1 + k by omega, h5 k hk]
  | false :: bs, i, j, data, hi, hj => by
    simp at hi hj
    unfold offsetsFill
    rw [if_neg (by simp)]
    simp only [Option.bind_eq_bind, wrV]
    rw [if_pos (by omega), Option.bind_some]
    obtain ⟨r, h1, h2, h3, h4, h5⟩ := offsetsFill_spec hall hlen bs (i + 1) j (data.set i ⟨0, 0⟩) (by simp; omega) (by omega)
    refine ⟨r, h1, by simpa using h2, ?_, ?_, ?_⟩
    · intro k hk
      rw [h3 k (by omega), List.getElem?_set_ne (by omega)]
    · intro k hk
      cases k with
      | zero => simp at hk
      | succ k =>
        simp at hk
        obtain ⟨s, e, e1, e2, e3⟩ := h4 k hk
        refine ⟨s, e, ?_, ?_, ?_⟩
        · rw [← e1]; simp
        · rw [← e2]; simp
        · rw [← e3]; congr 1; omega
    · intro k hk
      cases k with
      | zero => rw [Nat.add_zero, h3 i (by omega), List.getElem?_set_self (by omega)]
      | succ k =>
        simp at hk
        rw [show i + (k + 1) = i + 1 + k by omega, h5 k hk]

theorem mapM_get {β γ : Type} {f : β → Option γ} : ∀ {l : List β} {r : List γ}, l.mapM f = some r →
    ∀ (i : Nat) (x : β), l[i]? = some x → ∃ y, r[i]? = some y ∧ f x = some y
  | [], r, _, i, x, hx => by simp at hx
  | y :: ys, r, h, i, x, hx => by
    rw [List.mapM_cons] at h
    cases hy : f y with
    | none => rw [hy] at h; simp at h
    | some z =>
      rw [hy] at h
      cases hr : ys.mapM f with
      | none => rw [hr] at h; simp at h
      | some zs =>
        rw [hr] at h
        simp at h
        subst h
        cases i with
        | zero => simp at hx; subst hx; exact ⟨z, rfl, hy⟩
        | succ i => simp at hx; simpa using mapM_get hr i x hx

theorem decodeStrings_ok (mem : Nat → StrBuf.Offsets) {m : SMsg} {rows : List (Option (List Nat))}
    (ho : NoOverflow m.size m.bitmap) (h : m.Says rows) :
    ∃ a, decodeStrings mem m = some (.ok a) ∧ a.Ok ∧ a.Holds rows := by
  obtain ⟨n, chars, strs, ⟨hh, hch, hc, hl, hall⟩, hm, rfl⟩ := h
  have hcov := headOk_cover hh
  unfold decodeStrings
  rw [(header_spec _ _ ho).1 n hh, hch]
  simp only [Option.bind_eq_bind, Option.bind_some]
  rw [countBits_pres hcov, ← bitsOf_eq, Option.bind_some, if_neg (by omega), if_neg (by omega), checkOffsets_ok hall,
    iterate_spec hcov]
  simp only [Option.bind_some]
  have hit : (List.range n).map (fun i => decide (m.bitmap = []) || bitAt m.bitmap (0 + i)) = bitsOf m.bitmap n := by
    simp [bitsOf]
  rw [hit]
  obtain ⟨r, h1, h2, _, h4, h5⟩ := offsetsFill_spec (fun j s e hs he => ⟨(hall j s e hs he).1, (hall j s e hs he).2.1⟩) hl
    (bitsOf m.bitmap n) 0 0 ((List.range n).map mem) (by simp [bitsOf_length]) (by omega)
  rw [h1, Option.bind_some]
  simp at h2
  have hbit : ∀ k, k < n → (bitsOf m.bitmap n)[k]? = some (decide (m.bitmap = []) || bitAt m.bitmap k) := by
    intro k hk
    rw [bitsOf_eq, presOf_get hk, Nat.zero_add]
  have hrow : ∀ k, (bitsOf m.bitmap n)[k]? = some true → ∃ s e, m.starts[((bitsOf m.bitmap n).take k).count true]? = some s ∧
      m.stops[((bitsOf m.bitmap n).take k).count true]? = some e ∧ r[k]? = some ⟨s.toNat, e.toNat⟩ := by
    intro k hk
    obtain ⟨s, e, e1, e2, e3⟩ := h4 k hk
    rw [Nat.zero_add] at e1 e2 e3
    exact ⟨s, e, e1, e2, e3⟩
  refine ⟨_, rfl, ⟨?_, ?_⟩, ?_, ?_⟩
  · exact headOk_valid (values := r) (h2 ▸ hh)
  · intro i o hi hp
    dsimp only at hi hp ⊢
    have hin : i < n := by
      rw [List.getElem?_eq_some_iff] at hi
      obtain ⟨hi, _⟩ := hi
      omega
    have hb : (bitsOf m.bitmap n)[i]? = some true := by
      rw [hbit i hin]
      rcases hp with hp | hp
      · simp [hp]
      · rw [Nat.zero_add] at hp; simp [hp]
    obtain ⟨s, e, e1, e2, e3⟩ := hrow i hb
    rw [hi, Option.some.injEq] at e3
    subst e3
    have := hall _ _ _ e1 e2
    dsimp only
    omega
  · show r.length = _
    rw [scatter_length, bitsOf_length, h2]
  · intro i row hrw
    dsimp only
    rw [Nat.zero_add]
    have hin : i < n := by
      rw [List.getElem?_eq_some_iff] at hrw
      obtain ⟨hi, _⟩ := hrw
      rw [scatter_length, bitsOf_length] at hi
      exact hi
    rw [scatter_get _ _ _ _ (hbit i hin), Option.some.injEq] at hrw
    by_cases hp : m.bitmap = [] ∨ bitAt m.bitmap i = true
    · rw [if_pos hp]
      have hb : (decide (m.bitmap = []) || bitAt m.bitmap i) = true := by
        rcases hp with hp | hp <;> simp [hp]
      rw [hb, if_pos rfl] at hrw
      obtain ⟨s, e, e1, e2, e3⟩ := hrow i (by rw [hbit i hin, hb])
      have hz : (m.starts.zip m.stops)[((bitsOf m.bitmap n).take i).count true]? = some (s, e) := by
        rw [List.getElem?_zip_eq_some]; exact ⟨e1, e2⟩
      obtain ⟨v, hv1, hv2⟩ := mapM_get hm _ _ hz
      rw [hv1] at hrw
      subst hrw
      refine ⟨by simp, ?_⟩
      unfold StrBuf.Buf.get
      dsimp only
      rw [e3]
      have hrange := hall _ _ _ e1 e2
      dsimp only
      rw [view_cut ⟨Nat.zero_le _, by dsimp only; omega, by dsimp only; omega⟩]
      rw [← hv2]
      unfold cut shift
      dsimp only
      congr 3 <;> omega
    · rw [if_neg hp]
      have hb : (decide (m.bitmap = []) || bitAt m.bitmap i) = false := by
        rw [not_or] at hp
        simp [hp.1, hp.2]
      rw [hb] at hrw
      exact hrw.symm

theorem cut_init {chars : List (Option Nat)} (hi : ∀ c ∈ chars, c ≠ none) (s e : Int) : ∃ v, cut chars s e = some v := by
  unfold cut
  have : ∀ l : List (Option Nat), (∀ c ∈ l, c ≠ none) → ∃ v, l.mapM id = some v := by
    intro l
    induction l with
    | nil => intro _; exact ⟨[], rfl⟩
    | cons c cs ih =>
      intro h
      obtain ⟨v, hv⟩ := ih (fun c hc => h c (List.mem_cons_of_mem _ hc))
      obtain ⟨x, hx⟩ := Option.ne_none_iff_exists'.1 (h c List.mem_cons_self)
      refine ⟨x :: v, ?_⟩
      rw [List.mapM_cons, hv, hx]
      rfl
  exact this _ (fun c hc => hi c (List.mem_of_mem_drop (List.mem_of_mem_take hc)))

theorem says_of_ok {m : SMsg} {n : Nat} {chars : List (Option Nat)} (hi : ∀ c ∈ chars, c ≠ none) (h : m.Ok n chars) :
    ∃ rows, m.Says rows := by
  choose g hg using cut_init hi
  exact ⟨_, n, chars, _, h, mapM_some (g := fun x => g x.1 x.2) (fun x _ => hg x.1 x.2), rfl⟩

theorem decodeStrings_error (mem : Nat → StrBuf.Offsets) {m : SMsg} (ho : NoOverflow m.size m.bitmap)
    (h : ¬ ∃ n chars, m.Ok n chars) : ∃ e, decodeStrings mem m = some (.error e) := by
  unfold decodeStrings
  by_cases hh : ∃ n, HeadOk m.size m.bitmap n
  · obtain ⟨n, hh⟩ := hh
    have hcov := headOk_cover hh
    rw [(header_spec _ _ ho).1 n hh]
    simp only [Option.bind_eq_bind, Option.bind_some]
    cases hch : m.characters with
    | none => exact ⟨_, rfl⟩
    | some chars =>
      dsimp only
      rw [countBits_pres hcov, ← bitsOf_eq, Option.bind_some]
      by_cases hc : (bitsOf m.bitmap n).count true = m.starts.length
      · rw [if_neg (by simpa using hc)]
        by_cases hc2 : (bitsOf m.bitmap n).count true = m.stops.length
        · rw [if_neg (by simpa using hc2)]
          by_cases hall : ∀ (j : Nat) (s e : Int), m.starts[j]? = some s → m.stops[j]? = some e →
              0 ≤ s ∧ s ≤ e ∧ e ≤ chars.length
          · exact absurd ⟨n, chars, hh, hch, hc, by omega, hall⟩ h
          · obtain ⟨e, he⟩ := checkOffsets_error hall
            rw [he]
            exact ⟨_, rfl⟩
        · rw [if_pos hc2]; exact ⟨_, rfl⟩
      · rw [if_pos hc]; exact ⟨_, rfl⟩
  · obtain ⟨e, he⟩ := (header_spec _ _ ho).2 hh
    rw [he]
    exact ⟨e, rfl⟩

end Verif.Codec
