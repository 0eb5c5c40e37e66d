import Verif.Forest.CondModel
import Verif.Forest.ObliviousModel

/-!
# Model of `bitmask_builder.{h,cc}` and `bitmask_eval.{h,cc}` in `arolla/decision_forest/pointwise_evaluation/`

* `w` is the width of the masks, 32 or 64.
* `std::sort` is an oracle (any function which permutes, and sorts if the comparison is a strict weak order), and so is
  the order in which a hash map is iterated (any permutation).
* Parallel vectors (`metas` and `thresholds`) are lists of pairs.  `SortAndDeduplicate` sorts the pairs instead of their
  indices.
* The types of the input slots are those of the conditions (checked by `ValidateInputSlots`), so `ToSlot` does not fail.
* The adjustments (already multiplied by the weight) have the type `M`; `reserve` and the DCHECKs are not modelled.
-/

namespace Verif.Forest

/-- `std::sort` (on any type) and the iteration order of a hash map. -/
structure Oracles where
  sort : {α : Type} → (α → α → Bool) → List α → List α
  order : {α : Type} → List α → List α

/-- A strict weak order, the precondition of `std::sort`. -/
structure StrictWeak {α : Type} (lt : α → α → Bool) (l : List α) : Prop where
  irrefl : ∀ a ∈ l, lt a a = false
  trans : ∀ a ∈ l, ∀ b ∈ l, ∀ c ∈ l, lt a b = true → lt b c = true → lt a c = true
  negTrans : ∀ a ∈ l, ∀ b ∈ l, ∀ c ∈ l, lt a b = false → lt b c = false → lt a c = false

/-- What is known about the oracles. -/
structure Oracles.Ok (o : Oracles) : Prop where
  sort_perm : ∀ {α : Type} (lt : α → α → Bool) (l : List α), (o.sort lt l).Perm l
  sort_sorted : ∀ {α : Type} (lt : α → α → Bool) (l : List α), StrictWeak lt l →
    (o.sort lt l).Pairwise fun a b => lt b a = false
  order_perm : ∀ {α : Type} (l : List α), (o.order l).Perm l

/-- `MaskedSplit` — bitmask_builder.h:57-60. -/
structure MaskedSplit where
  mask : BitVec 64
  cond : Cond

/-- `MaskedTree` — bitmask_builder.h:62-67. -/
structure MaskedTree (M : Type) where
  group : Nat
  tag : Tag
  splits : List MaskedSplit
  adjustments : List M

/-- `ObliviousWithGroupId` — bitmask_builder.h:69-73. -/
structure OblTree (M : Type) where
  group : Nat
  tag : Tag
  tree : Oblivious Cond M

/-- `SplitMeta` — bitmask_eval.h:59-66. -/
structure SMeta (w : Nat) where
  mask : BitVec w
  tree : Nat

/-- `IsSplitNodeSupported` — bitmask_builder.cc:122-128. -/
def Cond.supported : Cond → Bool
  | .interval .. => true
  | .setI64 .. => true
  | _ => false

/-! ### The builder -/

/-- The recursive lambda of `AddSmallTree` — bitmask_builder.cc:142-155; returns the mask of the subtree.  A shift by 64
or more is undefined. -/
def maskDfs {A M : Type} (scale : A → A → M) (t : Tree Cond A) :
    Nat → Ref → List MaskedSplit → List M → Option (BitVec 64 × List MaskedSplit × List M)
  | _, .leaf i, splits, adj => do
    let a ← t.adjustments[i]?
    let adj := adj ++ [scale a t.weight]
    if adj.length - 1 ≥ 64 then none
    else pure (1#64 <<< (adj.length - 1), splits, adj)
  | 0, .split _, _, _ => none
  | fuel + 1, .split k, splits, adj => do
    let n ← t.splits[k]?
    let (maskFalse, splits, adj) ← maskDfs scale t fuel n.ifFalse splits adj
    let (maskTrue, splits, adj) ← maskDfs scale t fuel n.ifTrue splits adj
    pure (maskFalse ||| maskTrue, splits ++ [⟨maskFalse, n.cond⟩], adj)

/-- `BitmaskBuilder`. -/
structure BBuilder (M : Type) where
  masked : List (MaskedTree M) := []
  oblivious : List (OblTree M) := []
  mask64 : Bool := false

/-- `AddSmallTree` — bitmask_builder.cc:130-166. -/
def addSmallTree {A M : Type} (scale : A → A → M) (fuel : Nat) (b : BBuilder M) (t : Tree Cond A) (group : Nat) :
    Option (BBuilder M) := do
  let (_, splits, adj) ← maskDfs scale t fuel t.root [] []
  pure { b with
    masked := b.masked ++ [⟨group, t.tag, splits, adj⟩]
    mask64 := b.mask64 || decide (t.adjustments.length > 32) }

/-- `AddObliviousTree` — bitmask_builder.cc:168-173. -/
def addOblivious {M : Type} (b : BBuilder M) (o : Oblivious Cond M) (tag : Tag) (group : Nat) : BBuilder M :=
  { b with
    oblivious := b.oblivious ++ [⟨group, tag, o⟩]
    mask64 := b.mask64 || decide (o.layers.length > 32) }

/-- `IntervalSplitsGroupedByInput` — bitmask_builder.cc:180-194. -/
structure IvSplits (w : Nat) where
  left : List (Fl × SMeta w) := []
  right : List (Fl × SMeta w) := []
  eq : List (Fl × SMeta w) := []
  range : List (SMeta w × Fl × Fl) := []

/-- `SetOfValuesSplits<int64_t>` — bitmask_eval.h:139-144. -/
structure SetSplits (w : Nat) where
  metas : List (Int × List (SMeta w)) := []
  dflt : List (SMeta w) := []

/-- `SplitsBuildingData` — bitmask_builder.cc:180-201: maps from the input. -/
structure Building (w : Nat) where
  iv : List (Nat × IvSplits w) := []
  sets : List (Nat × SetSplits w) := []

/-- Find the entry of a key, insert it if there is none, and change it. -/
def upsert {K V : Type} [DecidableEq K] (k : K) (new : V) (f : V → V) : List (K × V) → List (K × V)
  | [] => [(k, f new)]
  | (k', v) :: rest => if k' = k then (k', f v) :: rest else (k', v) :: upsert k new f rest

/-- The choice made for an interval — bitmask_builder.cc:243-259. -/
def IvSplits.add {w : Nat} (s : IvSplits w) (m : SMeta w) (l r : Fl) : IvSplits w :=
  if Fl.eq l .ninf then { s with left := s.left ++ [(r, m)] }
  else if Fl.eq r .pinf then { s with right := s.right ++ [(l, m)] }
  else if Fl.eq l r then { s with eq := s.eq ++ [(l, m)] }
  else { s with range := s.range ++ [(m, l, r)] }

/-- The insertion of a set of values — bitmask_builder.cc:269-274. -/
def SetSplits.add {w : Nat} (s : SetSplits w) (m : SMeta w) (values : List Int) (ifMissed : Bool) : SetSplits w :=
  { metas := values.foldl (fun ms v => upsert v [] (· ++ [m]) ms) s.metas
    dflt := if ifMissed then s.dflt ++ [m] else s.dflt }

/-- `AddSplit` — bitmask_builder.cc:228-280 (with the lookups of 203-226); `none` is the error "not supported". -/
def Building.addSplit {w : Nat} (b : Building w) (s : MaskedSplit) (tree : Nat) : Option (Building w) :=
  let m : SMeta w := ⟨s.mask.setWidth w, tree⟩
  match s.cond with
  | .interval input l r => some { b with iv := upsert input {} (fun x => x.add m l r) b.iv }
  | .setI64 input values d => some { b with sets := upsert input {} (fun x => x.add m values d) b.sets }
  | _ => none

/-- The state while building — bitmask_builder.cc:331-335. -/
structure BState (w : Nat) (M : Type) where
  building : Building w := {}
  trees : List Nat := []
  adjustments : List M := []

/-- The loop over the splits of a tree. -/
def addSplits' {w : Nat} (tree : Nat) : List MaskedSplit → Building w → Option (Building w)
  | [], b => some b
  | s :: rest, b => do
    let b ← b.addSplit s tree
    addSplits' tree rest b

/-- Registration of the adjustments of a tree — bitmask_builder.cc:291-294. -/
def BState.place {w : Nat} {M : Type} (s : BState w M) (b : Building w) (adj : List M) : BState w M :=
  ⟨b, s.trees ++ [s.adjustments.length], s.adjustments ++ adj⟩

/-- `Build_MaskedTree` — bitmask_builder.cc:283-296. -/
def buildMasked {w : Nat} {M : Type} (s : BState w M) (t : MaskedTree M) : Option (BState w M) := do
  let b ← addSplits' s.trees.length t.splits s.building
  pure (s.place b t.adjustments)

/-- The loop over the layers — bitmask_builder.cc:304-308; the first argument is `mask`. -/
def layerSplits {w : Nat} : BitVec w → List Cond → List MaskedSplit
  | _, [] => []
  | mask, c :: rest => ⟨(mask >>> 1).setWidth 64, c⟩ :: layerSplits (mask >>> 1) rest

/-- `Build_ObliviousTree` — bitmask_builder.cc:298-315. -/
def buildOblivious {w : Nat} {M : Type} (s : BState w M) (t : OblTree M) : Option (BState w M) := do
  let b ← addSplits' s.trees.length (layerSplits (BitVec.ofNat w t.tree.adjustments.length) t.tree.layers) s.building
  pure (s.place b t.tree.adjustments)

/-- The comparison of `SortTreesByGroupAndSubmodel` — bitmask_builder.cc:317-327. -/
def groupLt {α : Type} (key : α → Nat × Int) (a b : α) : Bool :=
  if (key a).1 = (key b).1 then (key a).2 < (key b).2 else (key a).1 < (key b).1

/-- One of the `while` loops of `BuildImpl` — bitmask_builder.cc:344-347, 350-354: the iterator is the remaining list. -/
def whileGroup {α S : Type} (key : α → Nat × Int) (build : S → α → Option S) (g : Nat) : List α → S → Option (List α × S)
  | [], s => some ([], s)
  | x :: rest, s =>
    if (key x).1 = g then do
      let s ← build s x
      whileGroup key build g rest s
    else some (x :: rest, s)

/-- `GroupMetadata` — bitmask_eval.h:161-165. -/
structure Group where
  reg : Nat × Nat
  obl : Nat × Nat

def maskedKey {M : Type} (t : MaskedTree M) : Nat × Int := (t.group, t.tag.submodel)
def oblKey {M : Type} (t : OblTree M) : Nat × Int := (t.group, t.tag.submodel)

/-- The loop over the groups — bitmask_builder.cc:338-357: `g` is the current group, the first argument the number of
groups left. -/
def buildGroups {w : Nat} {M : Type} :
    Nat → Nat → List (MaskedTree M) → List (OblTree M) → BState w M → Option (BState w M × List Group)
  | 0, _, _, _, s => some (s, [])
  | left + 1, g, masked, obl, s0 => do
    let (masked, s1) ← whileGroup maskedKey buildMasked g masked s0
    let (obl, s2) ← whileGroup oblKey buildOblivious g obl s1
    let (s, groups) ← buildGroups left (g + 1) masked obl s2
    pure (s, ⟨(s0.trees.length, s1.trees.length), (s1.trees.length, s2.trees.length)⟩ :: groups)

/-- `key(i) < key(j)` — bitmask_builder.cc:64-72. -/
def keyLt {w : Nat} (increasing : Bool) (a b : Fl × SMeta w) : Bool :=
  let x := if increasing then a.1 else a.1.neg
  let y := if increasing then b.1 else b.1.neg
  Fl.lt x y || (!Fl.lt y x && decide (a.2.tree < b.2.tree))

/-- `key(i) == key(j)`. -/
def keyEq {w : Nat} (increasing : Bool) (a b : Fl × SMeta w) : Bool :=
  let x := if increasing then a.1 else a.1.neg
  let y := if increasing then b.1 else b.1.neg
  Fl.eq x y && a.2.tree == b.2.tree

/-- The loop which merges equal splits of one tree — bitmask_builder.cc:74-82; the first argument is the element at
`out_pos`. -/
def dedup {w : Nat} (increasing : Bool) (cur : Fl × SMeta w) : List (Fl × SMeta w) → List (Fl × SMeta w)
  | [] => [cur]
  | x :: rest =>
    if keyEq increasing cur x then dedup increasing (cur.1, ⟨cur.2.mask ||| x.2.mask, cur.2.tree⟩) rest
    else cur :: dedup increasing x rest

/-- `SortAndDeduplicate` — bitmask_builder.cc:55-86. -/
def sortDedup {w : Nat} (o : Oracles) (increasing : Bool) (l : List (Fl × SMeta w)) : List (Fl × SMeta w) :=
  if l.length < 2 then l
  else
    match o.sort (keyLt increasing) l with
    | [] => []
    | x :: rest => dedup increasing x rest

/-- `value2range[v] = range`. -/
def setRange (v : Fl) (r : Nat × Nat) : List (Fl × (Nat × Nat)) → List (Fl × (Nat × Nat))
  | [] => [(v, r)]
  | (v', r') :: rest => if Fl.eq v' v then (v', r) :: rest else (v', r') :: setRange v r rest

/-- The loop of `FillValue2Range` — bitmask_builder.cc:91-99: values left, `i`, `last_pos`, the map. -/
def fillRanges (values : List Fl) : List Fl → Nat → Nat → List (Fl × (Nat × Nat)) → Option (List (Fl × (Nat × Nat)))
  | [], i, last, m => do
    let v ← values[last]?
    pure (setRange v (last, i) m)
  | x :: rest, i, last, m => do
    let v ← values[last]?
    if !Fl.eq x v then fillRanges values rest (i + 1) i (setRange v (last, i) m)
    else fillRanges values rest (i + 1) last m

/-- `FillValue2Range` — bitmask_builder.cc:88-101. -/
def value2range (values : List Fl) : Option (List (Fl × (Nat × Nat))) :=
  if values.isEmpty then some [] else fillRanges values values 0 0 []

/-- `EqSplits` — bitmask_eval.h:112-124. -/
structure EqSplits (w : Nat) where
  input : Nat
  metas : List (SMeta w)
  ranges : List (Fl × (Nat × Nat))

/-- `SplitsData` — bitmask_eval.h:146-153. -/
structure SplitsData (w : Nat) where
  left : List (Nat × List (Fl × SMeta w)) := []
  right : List (Nat × List (Fl × SMeta w)) := []
  eq : List (EqSplits w) := []
  range : List (Nat × List (SMeta w × Fl × Fl)) := []
  sets : List (Nat × SetSplits w) := []

/-- The loop over the inputs with interval splits — bitmask_builder.cc:359-377 and `SortSplits` 103-118. -/
def finishIv {w : Nat} (o : Oracles) : List (Nat × IvSplits w) → SplitsData w → Option (SplitsData w)
  | [], d => some d
  | (input, s) :: rest, d => do
    let left := sortDedup o false s.left
    let right := sortDedup o true s.right
    let eq := sortDedup o true s.eq
    let ranges ← value2range (eq.map Prod.fst)
    let range := o.sort (fun a b => Fl.lt a.2.1 b.2.1) s.range
    finishIv o rest { d with
      left := if left.isEmpty then d.left else d.left ++ [(input, left)]
      right := if right.isEmpty then d.right else d.right ++ [(input, right)]
      eq := if ranges.isEmpty then d.eq else d.eq ++ [⟨input, eq.map Prod.snd, ranges⟩]
      range := if range.isEmpty then d.range else d.range ++ [(input, range)] }

/-- `BitmaskEvalImpl<TreeMask>`. -/
structure BitmaskEval (w : Nat) (M : Type) where
  trees : List Nat
  groups : List Group
  adjustments : List M
  splits : SplitsData w

/-- `BuildImpl` — bitmask_builder.cc:329-385.  `none`: an unsupported condition. -/
def buildImpl {M : Type} (w : Nat) (o : Oracles) (groups : Nat) (b : BBuilder M) : Option (BitmaskEval w M) := do
  let (s, gs) ← buildGroups groups 0 (o.sort (groupLt maskedKey) b.masked) (o.sort (groupLt oblKey) b.oblivious) {}
  let d ← finishIv o (o.order s.building.iv) {}
  pure ⟨s.trees, gs, s.adjustments, { d with sets := o.order s.building.sets }⟩

/-- The evaluator, with its mask type. -/
inductive BEval (M : Type) where
  | none
  | mask32 (e : BitmaskEval 32 M)
  | mask64 (e : BitmaskEval 64 M)

/-- `Build` — bitmask_builder.cc:387-395. -/
def BBuilder.build {M : Type} (o : Oracles) (groups : Nat) (b : BBuilder M) : Option (BEval M) :=
  if b.masked.isEmpty && b.oblivious.isEmpty then some .none
  else if !b.mask64 then (buildImpl 32 o groups b).map .mask32
  else (buildImpl 64 o groups b).map .mask64

/-! ### The evaluator -/

/-- `tree_masks[tree_id] |= mask`, checked. -/
def applyMeta {w : Nat} (masks : List (BitVec w)) (m : SMeta w) : Option (List (BitVec w)) :=
  if m.tree < masks.length then some (masks.modify m.tree (· ||| m.mask)) else none

/-- `ApplyMaskForRange` — bitmask_eval.cc:36-49. -/
def applyAll {w : Nat} : List (SMeta w) → List (BitVec w) → Option (List (BitVec w))
  | [], masks => some masks
  | m :: rest, masks => do
    let masks ← applyMeta masks m
    applyAll rest masks

/-- `v.present && !std::isnan(v.value)`. -/
def presentNumber (env : Env) (input : Nat) : Option Fl :=
  match env.f input with
  | some .nan => none
  | v => v

/-- `std::upper_bound`: the number of elements before the first one with `comp(v, x)`. -/
def upperBound {α : Type} (comp : α → Bool) (l : List α) : Nat := (l.takeWhile fun x => !comp x).length

/-- `ProcessLeftSplits` (`comp` is `std::greater`) and `ProcessRightSplits` (`comp` is `std::less`) —
bitmask_eval.cc:53-79. -/
def processSide {w : Nat} (comp : Fl → Fl → Bool) (env : Env) (s : Nat × List (Fl × SMeta w)) (masks : List (BitVec w)) :
    Option (List (BitVec w)) :=
  match presentNumber env s.1 with
  | none => some masks
  | some v => applyAll ((s.2.map Prod.snd).take (upperBound (comp v) (s.2.map Prod.fst))) masks

/-- `ProcessEqSplits` — bitmask_eval.cc:81-93. -/
def processEq {w : Nat} (env : Env) (s : EqSplits w) (masks : List (BitVec w)) : Option (List (BitVec w)) :=
  match presentNumber env s.input with
  | none => some masks
  | some v =>
    match s.ranges.find? fun p => Fl.eq p.1 v with
    | none => some masks
    | some (_, (a, b)) => if b ≤ s.metas.length then applyAll ((s.metas.take b).drop a) masks else none

/-- The loop of `ProcessRangeSplits` — bitmask_eval.cc:101-106. -/
def rangeLoop {w : Nat} (v : Fl) : List (SMeta w × Fl × Fl) → List (BitVec w) → Option (List (BitVec w))
  | [], masks => some masks
  | (m, l, r) :: rest, masks =>
    if Fl.lt v l then some masks
    else if Fl.le v r then do
      let masks ← applyMeta masks m
      rangeLoop v rest masks
    else rangeLoop v rest masks

/-- `ProcessRangeSplits` — bitmask_eval.cc:95-107. -/
def processRange {w : Nat} (env : Env) (s : Nat × List (SMeta w × Fl × Fl)) (masks : List (BitVec w)) :
    Option (List (BitVec w)) :=
  match presentNumber env s.1 with
  | none => some masks
  | some v => rangeLoop v s.2 masks

/-- `ProcessSetOfValuesSplits<int64_t>` for one input — bitmask_eval.cc:115-127. -/
def processSet {w : Nat} (env : Env) (s : Nat × SetSplits w) (masks : List (BitVec w)) : Option (List (BitVec w)) :=
  match env.i s.1 with
  | some v =>
    match s.2.metas.find? fun p => p.1 == v with
    | none => some masks
    | some (_, ms) => applyAll ms masks
  | none => applyAll s.2.dflt masks

/-- A loop over the inputs. -/
def forAll {α S : Type} (f : α → S → Option S) : List α → S → Option S
  | [], s => some s
  | a :: rest, s => do
    let s ← f a s
    forAll f rest s

/-- `FindTreeMasks` — bitmask_eval.cc:131-150. -/
def findMasks {w : Nat} (env : Env) (d : SplitsData w) (n : Nat) : Option (List (BitVec w)) := do
  let masks := List.replicate n 0#w
  let masks ← forAll (processSide (fun v x => Fl.lt x v) env) d.left masks
  let masks ← forAll (processSide (fun v x => Fl.lt v x) env) d.right masks
  let masks ← forAll (processEq env) d.eq masks
  let masks ← forAll (processRange env) d.range masks
  forAll (processSet env) d.sets masks

/-- `FindLSBSetNonZero`; zero is undefined. -/
def lsb {w : Nat} (m : BitVec w) : Option Nat := (List.range w).find? fun i => m.getLsbD i

/-- The leaf of a regular tree — bitmask_eval.cc:161-164. -/
def regularLeaf {w : Nat} (mask : BitVec w) : Option Nat := lsb (~~~mask)

/-- The leaf of an oblivious tree — bitmask_eval.cc:166. -/
def obliviousLeaf {w : Nat} (mask : BitVec w) : Option Nat := some mask.toNat

/-- `LoopIter` — bitmask_eval.cc:175-179. -/
def loopIter {w : Nat} {M : Type} (add : M → M → M) (e : BitmaskEval w M) (masks : List (BitVec w))
    (leaf : BitVec w → Option Nat) (tree : Nat) (acc : M) : Option M := do
  let off ← e.trees[tree]?
  let mask ← masks[tree]?
  let l ← leaf mask
  let v ← e.adjustments[off + l]?
  pure (add acc v)

/-- The unrolled loop — bitmask_eval.cc:196-199. -/
def pairLoop {w : Nat} {M : Type} (add : M → M → M) (e : BitmaskEval w M) (masks : List (BitVec w))
    (leaf : BitVec w → Option Nat) : Nat → Nat → Nat → M → M → Option M
  | 0, id, last, a, b => if id = last then some (add a b) else none
  | fuel + 1, id, last, a, b =>
    if id = last then some (add a b)
    else do
      let a ← loopIter add e masks leaf id a
      let b ← loopIter add e masks leaf (id + 1) b
      pairLoop add e masks leaf fuel (id + 2) last a b

/-- `process_fn` — bitmask_eval.cc:173-201. -/
def processRangeOfTrees {w : Nat} {M : Type} (zero : M) (add : M → M → M) (e : BitmaskEval w M) (masks : List (BitVec w))
    (leaf : BitVec w → Option Nat) (range : Nat × Nat) : Option M :=
  if (range.2 - range.1) % 2 = 1 then do
    let b ← loopIter add e masks leaf range.1 zero
    pairLoop add e masks leaf range.2 (range.1 + 1) range.2 zero b
  else pairLoop add e masks leaf range.2 range.1 range.2 zero zero

/-- The loop over the groups in `InternalEval` — bitmask_eval.cc:158-167; outputs of the groups in order. -/
def evalGroups {w : Nat} {M : Type} (zero : M) (add : M → M → M) (e : BitmaskEval w M) (masks : List (BitVec w)) :
    List Group → List M → Option (List M)
  | [], outs => some outs
  | g :: gs, out :: outs => do
    let a ← processRangeOfTrees zero add e masks regularLeaf g.reg
    let b ← processRangeOfTrees zero add e masks obliviousLeaf g.obl
    let rest ← evalGroups zero add e masks gs outs
    pure (add out (add a b) :: rest)
  | _ :: _, [] => none

/-- `IncrementalEval` — bitmask_eval.cc:170-203. -/
def BitmaskEval.eval {w : Nat} {M : Type} (zero : M) (add : M → M → M) (env : Env) (e : BitmaskEval w M) (outs : List M) :
    Option (List M) := do
  let masks ← findMasks env e.splits e.trees.length
  evalGroups zero add e masks e.groups outs

/-- `IncrementalEval` of the built evaluator; a null evaluator changes nothing (forest_evaluator.cc:263-265). -/
def BEval.eval {M : Type} (zero : M) (add : M → M → M) (env : Env) (outs : List M) : BEval M → Option (List M)
  | .none => some outs
  | .mask32 e => e.eval zero add env outs
  | .mask64 e => e.eval zero add env outs

end Verif.Forest
