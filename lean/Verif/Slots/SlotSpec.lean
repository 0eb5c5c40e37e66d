import Verif.Slots.SlotModel

/-!
# What a bound expression has to compute

The values of the nodes, computed node by node in post order without any slots, and the conditions
under which a caller may bind an expression to slots of its own.
-/

namespace Verif.Slots

variable {K V F P T E : Type}

/-- Value of a node given the values of its dependencies; `none` for a malformed node. -/
def nodeValue (apply : F → List V → Except E V) (proj : P → V → V) (env : K → V)
    (n : Node K V F P T) (args : List V) : Option (Except E V) :=
  match n.kind with
  | .leaf k => some (.ok (env k))
  | .literal v => some (.ok v)
  | .op f => some (apply f args)
  | .part p =>
    match args with
    | [v] => some (.ok (proj p v))
    | _ => none
  | .root => args.head?.map .ok

/-- Values of all nodes, or the error of the first node that fails. -/
def values (apply : F → List V → Except E V) (proj : P → V → V) (env : K → V) :
    List (Node K V F P T) → List V → Option (Except E (List V))
  | [], vs => some (.ok vs)
  | n :: ns, vs =>
    match n.deps.mapM (fun d => vs[d]?) with
    | none => none
    | some args =>
      match nodeValue apply proj env n args with
      | none => none
      | some (.error e) => some (.error e)
      | some (.ok v) => values apply proj env ns (vs ++ [v])

/-- `b` is the slot of an input the expression uses. -/
def IsInput (cfg : Config K) (ns : List (Node K V F P T)) (b : Nat) : Prop :=
  ∃ (o : Nat) (n : Node K V F P T) (k : K), ns[o]? = some n ∧ n.kind = .leaf k ∧
    cfg.inputSlot k = some b

/-- The caller's obligations: the given slots exist in the layout and have the types of the leaves,
the output slot is not an input, and, only if inputs may be overwritten, different leaves have
different slots. -/
structure Setup (cfg : Config K) (layout : List T) (ns : List (Node K V F P T)) : Prop where
  out_lt : cfg.out < layout.length
  input_ty : ∀ (o : Nat) (n : Node K V F P T) (k : K) (b : Nat), ns[o]? = some n →
    n.kind = .leaf k → cfg.inputSlot k = some b → layout[b]? = some n.ty
  input_out : ∀ (b : Nat), IsInput cfg ns b → b ≠ cfg.out
  input_inj : cfg.allowOverride = true →
    ∀ (o o' : Nat) (n n' : Node K V F P T) (k k' : K) (b : Nat), ns[o]? = some n →
      ns[o']? = some n' → n.kind = .leaf k → n'.kind = .leaf k' → cfg.inputSlot k = some b →
      cfg.inputSlot k' = some b → o = o'

/-- The frame holds the inputs `env`. -/
def InputsAre (cfg : Config K) (ns : List (Node K V F P T)) (env : K → V) (m : Frame V) : Prop :=
  ∀ (o : Nat) (n : Node K V F P T) (k : K) (b : Nat), ns[o]? = some n → n.kind = .leaf k →
    cfg.inputSlot k = some b → m b = env k

/-- The frame holds the literals. -/
def LiteralsAre (ls : List (Nat × V)) (m : Frame V) : Prop := ∀ p ∈ ls, m p.1 = p.2

/-- Slots of the frame that evaluation must not change: everything allocated before binding except
the output slot and, if inputs may be overwritten, the inputs. -/
def Foreign (cfg : Config K) (layout : List T) (ns : List (Node K V F P T)) (b : Nat) : Prop :=
  b < layout.length ∧ b ≠ cfg.out ∧ (cfg.allowOverride = true → ¬ IsInput cfg ns b)

/-- The operator's output does not overlap any of its inputs. -/
def Instr.NoAlias : Instr F P → Prop
  | .compute _ args out => ∀ s ∈ args, s.base ≠ out
  | .copy src out => src.base ≠ out

end Verif.Slots
