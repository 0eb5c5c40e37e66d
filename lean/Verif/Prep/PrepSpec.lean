import Verif.Prep.PrepModel
import Verif.Expr.DeepProps

/-!
# What preparation must preserve and what a prepared expression looks like
-/

namespace Verif.Prep
open Verif.Expr

variable {O V Q E D : Type} [DecidableEq O] [DecidableEq V] [DecidableEq Q]

/-- The meaning of expressions: operators as functions on values, the values of literals, leaves and placeholders, the type of
a value. -/
structure Sem (O V Q D : Type) where
  ops : O → List D → D
  lit : V → D
  leaf : List Nat → D
  placeholder : List Nat → D
  ty : D → Q

/-- The value of an expression. -/
def Sem.val (S : Sem O V Q D) (n : Node O V Q) : D := value S.ops S.lit S.leaf S.placeholder n

/-- The attributes are true of the value. -/
def Sem.Fits (S : Sem O V Q D) (a : Attr Q V) (d : D) : Prop :=
  (∀ q, a.qtype = some q → S.ty d = q) ∧ ∀ v, a.qvalue = some v → d = S.lit v

/-- The operator is `annotation.qtype`, possibly by a registered name. -/
def IsQA (env : Env O V Q E) (o : O) : Prop := ∃ o', env.decay o = .ok o' ∧ env.isQTypeAnno o' = true

/-- `annotation.qtype(d, t)` tells the truth: if `t` is a type, it is the type of `d`. -/
def AnnoTrue (env : Env O V Q E) (S : Sem O V Q D) (args : List D) : Prop :=
  ∀ d v q, args = [d, S.lit v] → env.asQType v = some q → S.ty d = q

/-- A constructed expression whose type annotations are true. -/
def Good (env : Env O V Q E) (S : Sem O V Q D) (n : Node O V Q) : Prop :=
  WF env.lang n ∧ ∀ s o, Sub s n → s.label = .op o → IsQA env o → AnnoTrue env S (s.deps.map S.val)

/-- A transformation of nodes keeps the value of good expressions. -/
def Keeps (env : Env O V Q E) (S : Sem O V Q D) (f : NodeFn O V Q E) : Prop :=
  ∀ n o m, Good env S n → env.decayOf n = .ok o → f n o = .ok m → Good env S m ∧ S.val m = S.val n

/-- `a` says at most what `b` says. -/
def Attr.Le (a b : Attr Q V) : Prop :=
  (∀ q, a.qtype = some q → b.qtype = some q) ∧ ∀ v, a.qvalue = some v → b.qvalue = some v

/-- The operators do what their interfaces promise. -/
structure Faithful (env : Env O V Q E) (S : Sem O V Q D) : Prop where
  litTy : ∀ v, S.ty (S.lit v) = env.typeOf v
  litInj : ∀ v w, S.lit v = S.lit w → v = w
  asQ : ∀ q, env.asQType (env.ofQType q) = some q
  /-- attribute inference is right -/
  inferOk : ∀ o as a ds, env.infer o as = .ok a → as.length = ds.length →
    (∀ (i : Nat) b d, as[i]? = some b → ds[i]? = some d → S.Fits b d) →
    (IsQA env o → AnnoTrue env S ds) → S.Fits a (S.ops o ds)
  decayOps : ∀ o o', env.decay o = .ok o' → S.ops o = S.ops o'
  annoOps : ∀ o d ds, env.isAnno o = true → S.ops o (d :: ds) = d
  qAnno : ∀ o, env.isQTypeAnno o = true → env.isAnno o = true
  mkDecay : env.decay env.qtypeAnno = .ok env.qtypeAnno
  mkQ : env.isQTypeAnno env.qtypeAnno = true
  mkInfer : ∀ q, env.infer env.qtypeAnno [noAttr, env.litAttr (env.ofQType q)] = .ok ⟨some q, none⟩
  /-- evaluation of a constant node -/
  invokeOk : ∀ n o v, Good env S n → env.decayOf n = .ok (some o) → (∀ d ∈ n.deps, d.attr.qvalue ≠ none) →
    env.invoke n = .ok v → S.val n = S.lit v
  lowerOk : ∀ n o m, Good env S n → env.decayOf n = .ok (some o) → env.lower o n = .ok m → Good env S m ∧ S.val m = S.val n
  castingOk : Keeps env S env.casting
  optimizerOk : ∀ f, env.optimizer = some f → Keeps env S (fun n _ => f n)
  extensionOk : Keeps env S env.extension
  whereOk : ∀ n m, Good env S n → env.whereFn n = .ok m → Good env S m ∧ S.val m = S.val n

/-- More knowledge about the inputs gives more knowledge about the output. -/
def Monotone (env : Env O V Q E) : Prop :=
  ∀ o as bs a b, env.infer o as = .ok a → env.infer o bs = .ok b → as.length = bs.length →
    (∀ (i : Nat) x y, as[i]? = some x → bs[i]? = some y → Attr.Le x y) → Attr.Le a b

/-- The functions from elsewhere return constructed nodes. -/
structure Builds (env : Env O V Q E) : Prop where
  mkInfer : ∀ q, env.infer env.qtypeAnno [noAttr, env.litAttr (env.ofQType q)] = .ok ⟨some q, none⟩
  lower : ∀ n o m, WF env.lang n → env.lower o n = .ok m → WF env.lang m
  casting : ∀ n o m, WF env.lang n → env.casting n o = .ok m → WF env.lang m
  optimizer : ∀ f n m, env.optimizer = some f → WF env.lang n → f n = .ok m → WF env.lang m
  extension : ∀ n o m, WF env.lang n → env.extension n o = .ok m → WF env.lang m
  whereFn : ∀ n m, WF env.lang n → env.whereFn n = .ok m → WF env.lang m

/-- What the compiler may rely on in a prepared expression. -/
structure Prepared (env : Env O V Q E) (st : Stages) (inputTypes : List Nat → Option Q) (r : Node O V Q) : Prop where
  /-- a node with a known value is a literal -/
  literals : st.embedLiterals = true → ∀ s, Sub s r → s.attr.qvalue ≠ none → ∃ v, s.label = .literal v
  /-- a leaf is an argument of `annotation.qtype` only -/
  leaves : st.populateQTypes = true → ∀ s o d k, Sub s r → s.label = .op o → d ∈ s.deps → d.label = .leaf k → IsQA env o
  /-- and the annotation agrees with the declared type -/
  types : st.populateQTypes = true → ∀ s o d t k v q q', Sub s r → s.label = .op o → IsQA env o → s.deps = [d, t] →
    d.label = .leaf k → t.attr.qvalue = some v → env.asQType v = some q → inputTypes k = some q' → q = q'
  /-- an operator has an argument that is not a constant -/
  folded : st.literalFolding = true → ∀ s o o', Sub s r → s.label = .op o → env.decay o = .ok o' → o' ≠ env.rootOp →
    ∃ d ∈ s.deps, d.attr.qvalue = none
  /-- operators are lowered completely -/
  lowered : st.toLower = true → ∀ s o o', Sub s r → s.label = .op o → env.decay o = .ok o' → env.lower o' s = .ok s
  /-- the only annotations are types of nodes of unknown type -/
  stripped : st.stripAnnotations = true → ∀ s o o', Sub s r → s.label = .op o → env.decay o = .ok o' → env.isAnno o' = true →
    env.isQTypeAnno o' = true ∧ ∃ d ds, s.deps = d :: ds ∧ d.attr.qtype = none
  /-- the other transformations have nothing to do -/
  cast : st.casting = true → ∀ s o, Sub s r → env.decayOf s = .ok o → env.casting s o = .ok s
  optimized : st.optimization = true → ∀ f s, env.optimizer = some f → Sub s r → f s = .ok s
  extended : st.extensions = true → ∀ s o, Sub s r → env.decayOf s = .ok o → env.extension s o = .ok s
  /-- every operator is registered -/
  known : ∀ s, Sub s r → ∃ o, env.decayOf s = .ok o

end Verif.Prep
