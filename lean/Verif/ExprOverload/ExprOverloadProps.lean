import Verif.ExprOverload.ExprOverloadModel

/-! # The first base operator that accepts the inputs -/

namespace Verif.ExprOverload

variable {Q V N : Type}

/-- `op` is the first of the operators that does not reject the inputs. -/
def FirstAccepting (ops : List (BaseOp Q V)) (inputs : List (Attr Q V)) (op : BaseOp Q V) : Prop :=
  ∃ pre post, ops = pre ++ op :: post ∧ (∀ o ∈ pre, o.infer inputs = .error .invalidArgument) ∧ op.infer inputs ≠ .error .invalidArgument

/-- All the outcomes, by the first operator that does not reject the inputs. -/
def Outcome (ops : List (BaseOp Q V)) (inputs : List (Attr Q V)) (r : Except Err (Option Nat × Attr Q V)) : Prop :=
  (r = .error .invalidArgument ∧ ∀ o ∈ ops, o.infer inputs = .error .invalidArgument) ∨
    ∃ op, FirstAccepting ops inputs op ∧
      ((∃ e, op.infer inputs = .error e ∧ r = .error e) ∨
        (∃ a, op.infer inputs = .ok a ∧ a.qtype = none ∧ r = .ok (none, Attr.empty)) ∨
        (∃ a, op.infer inputs = .ok a ∧ a.qtype ≠ none ∧ r = .ok (some op.id, a)))

/-- **The first base operator that does not reject the inputs decides**: its error is the error, its result is the result, and the result is
unknown if its result is. -/
theorem lookup_first (ops : List (BaseOp Q V)) (inputs : List (Attr Q V)) : Outcome ops inputs (lookupImpl ops inputs) := by
  induction ops with
  | nil => left; exact ⟨rfl, by simp⟩
  | cons op rest ih =>
    cases hi : op.infer inputs with
    | error e =>
      cases e with
      | invalidArgument =>
        have heq : lookupImpl (op :: rest) inputs = lookupImpl rest inputs := by rw [lookupImpl, hi]
        rw [heq]
        rcases ih with ⟨h1, h2⟩ | ⟨o, ⟨pre, post, h1, h2, h3⟩, h4⟩
        · left
          refine ⟨h1, ?_⟩
          intro o ho
          rcases List.mem_cons.1 ho with rfl | ho
          · exact hi
          · exact h2 o ho
        · right
          refine ⟨o, ⟨op :: pre, post, by rw [h1]; rfl, ?_, h3⟩, h4⟩
          intro o' ho'
          rcases List.mem_cons.1 ho' with rfl | ho'
          · exact hi
          · exact h2 o' ho'
      | other n =>
        right
        refine ⟨op, ⟨[], rest, rfl, by simp, by simp [hi]⟩, .inl ⟨.other n, hi, ?_⟩⟩
        rw [lookupImpl, hi]
    | ok a =>
      right
      refine ⟨op, ⟨[], rest, rfl, by simp, by simp [hi]⟩, .inr ?_⟩
      cases hq : a.qtype with
      | none => left; exact ⟨a, hi, hq, by rw [lookupImpl, hi]; simp [hq]⟩
      | some q => right; exact ⟨a, hi, by simp [hq], by rw [lookupImpl, hi]; simp [hq]⟩

/-- More is known: a type or a value that was known is the same. -/
def Attr.Le (a b : Attr Q V) : Prop := (a.qtype = none ∨ a.qtype = b.qtype) ∧ (a.qvalue = none ∨ a.qvalue = b.qvalue)

def LeAll : List (Attr Q V) → List (Attr Q V) → Prop
  | [], [] => True
  | a :: as, b :: bs => a.Le b ∧ LeAll as bs
  | _, _ => False

/-- What `InferAttributes` promises: rejected inputs stay rejected and a known result type stays when more is known about the inputs. -/
def Monotone (op : BaseOp Q V) : Prop :=
  ∀ i j, LeAll i j → (op.infer i = .error .invalidArgument → op.infer j = .error .invalidArgument) ∧
    (∀ a, op.infer i = .ok a → a.qtype ≠ none → ∃ b, op.infer j = .ok b ∧ a.Le b)

/-- **An overload once chosen stays chosen when more becomes known about the inputs**, and the overloaded operator keeps the promise of its base
operators. -/
theorem choice_stable (ops : List (BaseOp Q V)) (h : ∀ op ∈ ops, Monotone op) (i j : List (Attr Q V)) (hij : LeAll i j) (n : Nat) (a : Attr Q V)
    (hl : lookupImpl ops i = .ok (some n, a)) : ∃ b, lookupImpl ops j = .ok (some n, b) ∧ a.Le b := by
  induction ops with
  | nil => cases hl
  | cons op rest ih =>
    have hop := h op (by simp) i j hij
    cases hi : op.infer i with
    | error e =>
      cases e with
      | invalidArgument =>
        rw [lookupImpl, hi] at hl
        obtain ⟨b, h1, h2⟩ := ih (fun o ho => h o (List.mem_cons_of_mem _ ho)) hl
        refine ⟨b, ?_, h2⟩
        rw [lookupImpl, hop.1 hi]
        exact h1
      | other n => rw [lookupImpl, hi] at hl; cases hl
    | ok a' =>
      rw [lookupImpl, hi] at hl
      dsimp only at hl
      cases hq : a'.qtype with
      | none => rw [hq] at hl; cases hl
      | some q =>
        rw [hq] at hl
        dsimp only at hl
        simp only [Except.ok.injEq, Prod.mk.injEq, Option.some.injEq] at hl
        obtain ⟨rfl, rfl⟩ := hl
        obtain ⟨b, h1, h2⟩ := hop.2 a' hi (by simp [hq])
        have hb : b.qtype = some q := by
          rcases h2.1 with h | h
          · rw [hq] at h; cases h
          · rw [← h, hq]
        refine ⟨b, ?_, h2⟩
        rw [lookupImpl, h1]
        simp [hb]

/-- The inputs rejected by an overloaded operator stay rejected. -/
theorem rejection_stable (ops : List (BaseOp Q V)) (h : ∀ op ∈ ops, Monotone op) (i j : List (Attr Q V)) (hij : LeAll i j)
    (hno : ∀ op ∈ ops, op.infer i = .error .invalidArgument) : lookupImpl ops j = .error .invalidArgument := by
  induction ops with
  | nil => rfl
  | cons op rest ih =>
    rw [lookupImpl, ((h op (by simp)) i j hij).1 (hno op (by simp))]
    exact ih (fun o ho => h o (List.mem_cons_of_mem _ ho)) (fun o ho => hno o (List.mem_cons_of_mem _ ho))

/-- **Lowering keeps the inputs and what was inferred**: the lowered node applies the overload that inference chose to the same inputs, with the
attributes both the overloaded operator and the overload infer; it leaves the node alone exactly if nothing could be inferred. -/
theorem lowering_agrees (ops : List (BaseOp Q V)) (node : Node Q V N) (hnode : inferAttributes ops (node.deps.map Prod.snd) = .ok node.attr) :
    ∃ low, toLowerLevel ops node = .ok low ∧ low.deps = node.deps ∧ low.attr = node.attr ∧
      ((low = node ∧ node.attr = Attr.empty) ∨
        ∃ op ∈ ops, low.op = some op.id ∧ lookupOp ops (node.deps.map Prod.snd) = .ok (some op.id) ∧
          op.infer (node.deps.map Prod.snd) = .ok low.attr) := by
  unfold inferAttributes at hnode
  unfold toLowerLevel lookupOp
  rcases lookup_first ops (node.deps.map Prod.snd) with ⟨h1, _⟩ | ⟨op, ⟨pre, post, hops, _, _⟩, h⟩
  · rw [h1] at hnode; cases hnode
  · rcases h with ⟨e, _, hr⟩ | ⟨a, _, _, hr⟩ | ⟨a, ha, _, hr⟩
    · rw [hr] at hnode; cases hnode
    · rw [hr] at hnode ⊢
      exact ⟨node, rfl, rfl, rfl, .inl ⟨rfl, (Except.ok.inj hnode).symm⟩⟩
    · rw [hr] at hnode ⊢
      obtain rfl := Except.ok.inj hnode
      exact ⟨_, rfl, rfl, rfl, .inr ⟨op, by rw [hops]; simp, rfl, rfl, ha⟩⟩

/-! ## Concrete cases: types are numbers; operator 1 takes type 1, operator 2 takes types 1 and 2 -/

def only (id : Nat) (types : List Nat) : BaseOp Nat Nat :=
  ⟨id, fun inputs => match inputs with
    | [a] => match a.qtype with
      | none => .ok Attr.empty
      | some q => if q ∈ types then .ok ⟨some (q + 10 * id), none⟩ else .error .invalidArgument
    | _ => .error .invalidArgument⟩

def exOps : List (BaseOp Nat Nat) := [only 1 [1], only 2 [1, 2]]

example : lookupImpl exOps [⟨some 1, none⟩] = .ok (some 1, ⟨some 11, none⟩) := rfl
example : lookupImpl exOps [⟨some 2, none⟩] = .ok (some 2, ⟨some 22, none⟩) := rfl
example : lookupImpl exOps [⟨none, none⟩] = .ok (none, Attr.empty) := rfl
example : lookupImpl exOps [⟨some 3, none⟩] = .error .invalidArgument := rfl
example : toLowerLevel exOps (⟨none, [("x", ⟨some 2, none⟩)], ⟨some 22, none⟩⟩ : Node Nat Nat String) =
    .ok ⟨some 2, [("x", ⟨some 2, none⟩)], ⟨some 22, none⟩⟩ := rfl

/-- The operators of the case keep the promise. -/
example (id : Nat) (types : List Nat) : Monotone (only id types) := by
  intro i j hij
  match i, j with
  | [], [] => simp [only]
  | [], _ :: _ => cases hij
  | _ :: _, [] => cases hij
  | [a], [b] =>
    obtain ⟨⟨h, _⟩, _⟩ := hij
    simp only [only]
    cases ha : a.qtype with
    | none => simp [Attr.empty]
    | some q =>
      have hb : b.qtype = some q := by
        rcases h with h | h
        · rw [ha] at h; cases h
        · rw [← h, ha]
      rw [hb]
      dsimp only
      by_cases hq : q ∈ types
      · simp only [hq, if_true]
        refine ⟨?_, ?_⟩
        · intro h; cases h
        · intro a' ha' _; exact ⟨a', ha', .inr rfl, .inr rfl⟩
      · simp only [hq, if_false]
        refine ⟨?_, ?_⟩
        · intro h; exact h
        · intro a' ha' _; cases ha'
  | [_], _ :: _ :: _ => obtain ⟨_, h⟩ := hij; cases h
  | _ :: _ :: _, [_] => obtain ⟨_, h⟩ := hij; cases h
  | _ :: _ :: _, _ :: _ :: _ => simp [only]

end Verif.ExprOverload
