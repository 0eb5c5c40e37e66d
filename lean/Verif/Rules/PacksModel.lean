import Verif.Rules.RulesModel

/-!
# Model of `arolla/expr/optimization/peephole_optimizations/*.cc`

The rules are data: the pattern, the replacement and the conditions on placeholders.  How a rule is matched and applied is the
subject of C76, in which order the rules are tried is the subject of C77.
-/

namespace Verif.Rules
variable {α : Type} [DecidableEq α]

/-- What a condition can see of the node that a placeholder stands for: `qtype()`, `qvalue()`, `is_literal()` and the
registered operator. -/
structure Info (α : Type) where
  ty : Ty
  qvalue : Option (Val α)
  isLiteral : Bool
  op : Option Op

/-! ## Conditions -/

/-- `UnsafeIsPresent`. -/
def isPresent (v : Val α) : Bool := (v.row 0).isSome

/-- `IsPresenceType` — presence.cc:38-41; `GetPresenceQType` of a scalar is `Unit` (shape_qtype.cc:54, 69). -/
def isPresenceType (i : Info α) : Bool := i.ty == ⟨i.ty.w, .unit⟩
/-- `IsAlwaysPresentType` — presence.cc:43-45. -/
def isAlwaysPresentType (i : Info α) : Bool := i.ty.w == .sc
/-- `IsAlwaysPresentOptionalValue` — presence.cc:47-52. -/
def isAlwaysPresentOptionalValue (i : Info α) : Bool :=
  match i.qvalue with
  | some v => v.ty.w == .opt && isPresent v
  | none => false
/-- `IsAlwaysPresent` — presence.cc:54-56. -/
def isAlwaysPresent (i : Info α) : Bool := isAlwaysPresentType i || isAlwaysPresentOptionalValue i
/-- `IsAlwaysAbsentOptionalValue` — presence.cc:58-63. -/
def isAlwaysAbsentOptionalValue (i : Info α) : Bool :=
  match i.qvalue with
  | some v => v.ty.w == .opt && !isPresent v
  | none => false
/-- `IsLiteral` — presence.cc:74. -/
def isLiteral (i : Info α) : Bool := i.isLiteral
/-- `IsOptionalLikeNode` — presence.cc:76-79. -/
def isOptionalLikeNode (i : Info α) : Bool := i.ty.w == .opt || i.ty.w == .arr
/-- `IsBaseQType` — presence.cc:81-83. -/
def isBaseQType (i : Info α) : Bool := i.ty.w == .sc || i.ty.w == .opt
/-- `is_literal_or_presence` — presence.cc:191-193. -/
def isLiteralOrPresence (i : Info α) : Bool := isLiteral i || isPresenceType i
/-- `IsAlwaysPresent(expr) && IsPresenceType(expr)` — presence.cc:164-167 and 437-440. -/
def isPresentMask (i : Info α) : Bool := isAlwaysPresent i && isPresenceType i

/-- `Literal(value)`. -/
def boolLit (v : Bool) : Val α := ⟨⟨.sc, .bool⟩, [some (.b v)]⟩
/-- `Literal(MakeOptionalValue(value))`. -/
def optBoolLit (v : Bool) : Val α := ⟨⟨.opt, .bool⟩, [some (.b v)]⟩
/-- `Literal(kPresent)`. -/
def presentLit : Val α := ⟨⟨.opt, .unit⟩, [some .u]⟩
/-- `Literal(kMissing)`. -/
def missingLit : Val α := ⟨⟨.opt, .unit⟩, [none]⟩

/-- `Matches(BoolLiterals(value))` — bool.cc:42-55; fingerprints identify the literals. -/
def isBoolLit (v : Bool) (i : Info α) : Bool :=
  i.isLiteral && (i.qvalue == some (boolLit v) || i.qvalue == some (optBoolLit v))
/-- `eq_true_will_be_optimized_further` — bool.cc:160-166. -/
def eqTrueWillBeOptimized (i : Info α) : Bool :=
  i.isLiteral || i.op == some .beq || i.op == some .bne || i.op == some .blt || i.op == some .ble
/-- `is_scalar_bool` — bool.cc:202-204. -/
def isScalarBool (i : Info α) : Bool := i.ty == ⟨.sc, .bool⟩
/-- `TypeMatches(Is<OptionalUnit>)` — short_circuit_where.cc:37-42. -/
def isOptionalUnit (i : Info α) : Bool := i.ty == ⟨.opt, .unit⟩

/-- The conditions that the rules use. -/
inductive Cond
  | alwaysPresentType | alwaysPresentOptionalValue | alwaysPresent | alwaysAbsentOptionalValue | literal | optionalLike
  | baseQType | literalOrPresence | presentMask | boolLit (v : Bool) | notBoolLit (v : Bool) | eqTrueWillBeOptimized
  | scalarBool | optionalUnit
  | sameQType (t : Ty)  -- `same_qtype` — arithmetic.cc:35-37

/-- Evaluation of a condition. -/
def Cond.test : Cond → Info α → Bool
  | .alwaysPresentType => isAlwaysPresentType
  | .alwaysPresentOptionalValue => isAlwaysPresentOptionalValue
  | .alwaysPresent => isAlwaysPresent
  | .alwaysAbsentOptionalValue => isAlwaysAbsentOptionalValue
  | .literal => isLiteral
  | .optionalLike => isOptionalLikeNode
  | .baseQType => isBaseQType
  | .literalOrPresence => isLiteralOrPresence
  | .presentMask => isPresentMask
  | .boolLit v => isBoolLit v
  | .notBoolLit v => fun i => !isBoolLit v i
  | .eqTrueWillBeOptimized => Rules.eqTrueWillBeOptimized
  | .scalarBool => isScalarBool
  | .optionalUnit => isOptionalUnit
  | .sameQType t => fun i => i.ty == t

/-- A rule of `CreatePatternBasedOptimization`: `from`, `to` and the conditions on placeholders. -/
structure Rule (α : Type) where
  src : Pat α
  dst : Pat α
  conds : List (Nat × Cond)

/-! ## Placeholders -/

abbrev pa : Pat α := .var 0
abbrev pb : Pat α := .var 1
abbrev pc : Pat α := .var 2
abbrev pd : Pat α := .var 3
abbrev ptrue : Pat α := .var 4
abbrev pfalse : Pat α := .var 5
abbrev pcond : Pat α := .var 6

/-! ## presence.cc -/

/-- `HasRemovalOptimizations` — presence.cc:86-127. -/
def hasRemoval : List (Rule α) :=
  [⟨.c1 .hasOpt pa, .lit presentLit, [(0, .alwaysPresentOptionalValue)]⟩,
   ⟨.c1 .pnotB (.c1 .hasOpt pa), .c1 .pnot pa, []⟩,
   ⟨.c1 .pnotB (.c1 .hasArr pa), .c1 .pnot pa, []⟩,
   ⟨.c1 .hasOpt (.c1 .toOptS pa), .lit presentLit, [(0, .alwaysPresentType)]⟩]

/-- `PresenceAndRemovalOptimizations` — presence.cc:130-170. -/
def presenceAndRemoval : List (Rule α) :=
  [⟨.c2 .pand pa pb, pa, [(1, .alwaysPresentType)]⟩,
   ⟨.c1 .pnotB (.c2 .pand pa pb), .c1 .pnot pb, [(0, .alwaysPresent)]⟩,
   ⟨.c2 .pand pa pb, .c1 .toOpt pa, [(1, .alwaysPresentOptionalValue)]⟩,
   ⟨.c2 .pand pa pb, pb, [(0, .presentMask)]⟩]

/-- `PresenceOrRemovalOptimizations` — presence.cc:173-183. -/
def presenceOrRemoval : List (Rule α) :=
  [⟨.c2 .por pa pb, pa, [(0, .alwaysPresentType)]⟩]

/-- The rules of `HasPropagationOptimizations` for one `op_has` — presence.cc:195-223. -/
def hasPropagationFor (opHas : Op) : List (Rule α) :=
  ([.por, .pand].flatMap (fun o =>
    [⟨.c1 opHas (.c2 o pa pb), .c2 o (.c1 .has pa) (.c1 .has pb), [(0, .literalOrPresence)]⟩,
     ⟨.c1 opHas (.c2 o pa pb), .c2 o (.c1 .has pa) (.c1 .has pb), [(1, .literalOrPresence)]⟩])) ++
  [⟨.c1 opHas (.c3 .pandor pa pc pb), .c3 .pandor (.c1 .has pa) pc (.c1 .has pb), [(0, .literalOrPresence)]⟩,
   ⟨.c1 opHas (.c3 .pandor pa pc pb), .c3 .pandor (.c1 .has pa) pc (.c1 .has pb), [(1, .literalOrPresence)]⟩]

/-- `HasPropagationOptimizations` — presence.cc:186-226. -/
def hasPropagation : List (Rule α) := [.hasOpt, .hasArr].flatMap hasPropagationFor

/-- `ToOptionalPropagationOptimizations` — presence.cc:232-269. -/
def toOptionalPropagation : List (Rule α) :=
  [⟨.c1 .toOptS (.c2 .por pa pb), .c2 .por pa (.c1 .toOpt pb), [(0, .optionalLike), (1, .literal)]⟩,
   ⟨.c1 .toOptS (.c3 .pandor pa pc pb), .c3 .pandor (.c1 .toOpt pa) pc (.c1 .toOpt pb), [(0, .literal)]⟩,
   ⟨.c1 .toOptS (.c3 .pandor pa pc pb), .c3 .pandor (.c1 .toOpt pa) pc (.c1 .toOpt pb), [(1, .literal)]⟩]

/-- `PresenceAndOptionalOptimizations` — presence.cc:271-286. -/
def presenceAndOptional : List (Rule α) :=
  [⟨.c2 .pand (.c1 .toOptS pa) pc, .c2 .pand pa pc, []⟩]

/-- `PresenceAndOrCombinationOptimizations` — presence.cc:288-335. -/
def presenceAndOrCombination : List (Rule α) :=
  [⟨.c2 .por (.c2 .pand pc pa) (.c2 .pand pc pb), .c2 .pand pc (.c2 .por pa pb), []⟩,
   ⟨.c3 .pandor pc pa (.c2 .pand pc pb), .c2 .pand pc (.c2 .por pa pb), []⟩,
   ⟨.c2 .por (.c2 .por pd (.c2 .pand pc pa)) (.c2 .pand pc pb), .c2 .por pd (.c2 .pand pc (.c2 .por pa pb)), []⟩]

/-- presence.cc:358-371. -/
def andOrToWhere : Rule α :=
  ⟨.c3 .pandor pa pc (.c2 .pand pb (.c1 .pnotB pc)), .c3 .whr pc pa pb, []⟩

/-- `WhereOptimizations` — presence.cc:337-396. -/
def whereRules : List (Rule α) :=
  [⟨.c2 .por (.c2 .pand pa pc) (.c2 .pand pb (.c1 .pnotB pc)), .c1 .toOpt (.c3 .whr pc pa pb), [(2, .optionalLike)]⟩,
   andOrToWhere,
   ⟨.c2 .por (.c2 .pand pa pc) pb, .c3 .pandor pa pc pb, [(0, .baseQType), (1, .baseQType), (2, .baseQType)]⟩,
   ⟨.c3 .whr pc pa pb, pa, [(2, .alwaysPresent), (0, .alwaysPresentType), (1, .alwaysPresentType)]⟩]

/-- `WhereToPresenceAndOptimizations` — presence.cc:398-413. -/
def whereToPresenceAnd : List (Rule α) :=
  [⟨.c3 .whr pc pa pb, .c2 .pand pa pc, [(1, .alwaysAbsentOptionalValue)]⟩]

/-- presence.cc:420-428. -/
def andOrToOr : Rule α := ⟨.c3 .pandor pa pb pc, .c2 .por pa pc, [(1, .alwaysPresent)]⟩

/-- `PresenceAndOrOptimizations` — presence.cc:415-443. -/
def presenceAndOr : List (Rule α) :=
  [andOrToOr,
   ⟨.c3 .pandor pa pb pc, .c2 .por pb pc, [(0, .presentMask)]⟩]

/-- `InsideWherePropagationOptimizations` — presence.cc:446-472. -/
def insideWherePropagation : List (Rule α) :=
  [(Op.toOptS, Op.toOpt), (.hasOpt, .has), (.hasArr, .has)].flatMap (fun o =>
    [⟨.c1 o.1 (.c3 .whr pc pa pb), .c3 .whr pc (.c1 o.2 pa) (.c1 o.2 pb), [(0, .literal)]⟩,
     ⟨.c1 o.1 (.c3 .whr pc pa pb), .c3 .whr pc (.c1 o.2 pa) (.c1 o.2 pb), [(1, .literal)]⟩])

/-- `PresenceOptimizations` — presence.cc:476-489. -/
def presencePack : List (Rule α) :=
  hasRemoval ++ presenceAndRemoval ++ presenceOrRemoval ++ hasPropagation ++ toOptionalPropagation ++ presenceAndOptional ++
  presenceAndOrCombination ++ whereRules ++ insideWherePropagation ++ presenceAndOr

/-- `CodegenPresenceOptimizations` — presence.cc:491-495. -/
def codegenPresencePack : List (Rule α) := whereToPresenceAnd

/-! ## bool.cc -/

/-- The rules for `bool.less` and `bool.less_equal` — bool.cc:62-63, 80-87. -/
def notLess : List (Rule α) :=
  [⟨.c1 .bnot (.c2 .blt pa pb), .c2 .bge pa pb, []⟩,
   ⟨.c1 .bnot (.c2 .ble pa pb), .c2 .bgt pa pb, []⟩]

/-- `LogicalNotComparisonOptimizations` — bool.cc:68-89. -/
def logicalNotComparison : List (Rule α) :=
  [⟨.c1 .bnot (.c1 .bnot pa), pa, []⟩,
   ⟨.c1 .bnot (.c2 .beq pa pb), .c2 .bne pa pb, []⟩,
   ⟨.c1 .bnot (.c2 .bne pa pb), .c2 .beq pa pb, []⟩] ++ notLess

/-- `CoreBoolComparisonOptimizations` — bool.cc:110-194. -/
def coreBoolComparison : List (Rule α) :=
  [⟨.c2 .ceq ptrue pa, .c2 .ceq pa ptrue, [(4, .boolLit true), (0, .notBoolLit true)]⟩] ++
  ([(Op.beq, Op.ceq), (.bne, .cne), (.blt, .clt), (.ble, .cle)].flatMap (fun o =>
    [⟨.c2 .ceq (.c2 o.1 pa pb) ptrue, .c2 o.2 pa pb, [(4, .boolLit true)]⟩,
     ⟨.c2 .ceq (.c1 .toOptS (.c2 o.1 pa pb)) ptrue, .c2 o.2 pa pb, [(4, .boolLit true)]⟩])) ++
  ([(Op.band, Op.pand), (.bor, .por)].flatMap (fun o =>
    [⟨.c2 .ceq (.c2 o.1 pa pb) ptrue, .c2 o.2 (.c2 .ceq pa ptrue) (.c2 .ceq pb ptrue),
      [(4, .boolLit true), (0, .eqTrueWillBeOptimized)]⟩,
     ⟨.c2 .ceq (.c2 o.1 pa pb) ptrue, .c2 o.2 (.c2 .ceq pa ptrue) (.c2 .ceq pb ptrue),
      [(4, .boolLit true), (1, .eqTrueWillBeOptimized)]⟩]))

/-- `LogicalIfOptimizations` — bool.cc:197-295. -/
def logicalIf : List (Rule α) :=
  [⟨.c4 .bif (.c1 .toOptS pcond) pa pb pc, .c3 .whr (.c2 .ceq pcond (.lit (boolLit true))) pa pb, [(6, .scalarBool)]⟩,
   ⟨.c4 .bif (.c2 .por pcond pfalse) pa pb pc, .c3 .whr (.c2 .ceq pcond (.lit (boolLit true))) pa pb, [(5, .boolLit false)]⟩,
   ⟨.c4 .bif pcond pa pb pb, .c3 .whr (.c2 .ceq pcond (.lit (boolLit true))) pa pb, []⟩,
   ⟨.c4 .bif (.c2 .por pcond ptrue) pa pb pc, .c3 .whr (.c2 .ceq pcond (.lit (boolLit false))) pb pa, [(4, .boolLit true)]⟩,
   ⟨.c4 .bif pcond ptrue pfalse pa, .c2 .por pcond pa, [(4, .boolLit true), (5, .boolLit false)]⟩]

/-- `BoolOptimizations` — bool.cc:299-305. -/
def boolPack : List (Rule α) := logicalNotComparison ++ coreBoolComparison ++ logicalIf

/-! ## balance.cc, arithmetic.cc, reduce.cc, short_circuit_where.cc -/

/-- The rules of `BinaryBalanceOptimizations` for one operator — balance.cc:40-54. -/
def balanceFor (o : Op) : List (Rule α) :=
  [⟨.c2 o pa (.c2 o pb (.c2 o pc pd)), .c2 o (.c2 o pa pb) (.c2 o pc pd), []⟩,
   ⟨.c2 o (.c2 o (.c2 o pa pb) pc) pd, .c2 o (.c2 o pa pb) (.c2 o pc pd), []⟩]

/-- `BinaryBalanceOptimizations` — balance.cc:31-57. -/
def balancePack : List (Rule α) := [.pand, .por, .bor, .band, .mul].flatMap balanceFor

/-- A numeric literal, scalar or optional. -/
def numLit (w : Wr) (a : α) : Val α := ⟨⟨w, .num⟩, [some (.n a)]⟩

/-- `RemoveAddOptimizations`, `RemoveMulOptimizations` for one numeric type — arithmetic.cc:33-105. -/
def arithmeticPack (zero one : α) : List (Rule α) :=
  [Wr.sc, Wr.opt].flatMap (fun w =>
    [⟨.c2 .add pa (.lit (numLit w zero)), pa, [(0, .sameQType ⟨w, .num⟩)]⟩,
     ⟨.c2 .add (.lit (numLit w zero)) pa, pa, [(0, .sameQType ⟨w, .num⟩)]⟩,
     ⟨.c2 .mul pa (.lit (numLit w one)), pa, [(0, .sameQType ⟨w, .num⟩)]⟩,
     ⟨.c2 .mul (.lit (numLit w one)) pa, pa, [(0, .sameQType ⟨w, .num⟩)]⟩])

/-- `AppendAdd4Optimizations` — reduce.cc:29-53. -/
def reducePack : List (Rule α) :=
  [⟨.c2 .add (.c2 .add pa pb) (.c2 .add pc pd), .c4 .add4 pa pb pc pd, []⟩,
   ⟨.c2 .add (.c2 .add (.c2 .add pa pb) pc) pd, .c4 .add4 pa pb pc pd, []⟩,
   ⟨.c2 .add pa (.c2 .add pb (.c2 .add pc pd)), .c4 .add4 pa pb pc pd, []⟩]

/-- `ShortCircuitWhereOptimizations` without the rule for `core.const_with_shape` — short_circuit_where.cc:50-59, 78-96. -/
def shortCircuitPack : List (Rule α) :=
  [⟨.c3 .whr pcond pa pb, .c3 .scw pcond pa pb, [(6, .optionalUnit)]⟩,
   ⟨.c3 .scw (.lit presentLit) pa pb, pa, []⟩,
   ⟨.c3 .scw (.lit missingLit) pa pb, pb, []⟩]

end Verif.Rules
