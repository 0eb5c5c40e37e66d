# Formal model of google/arolla in Lean 4

Source under study: `/repo` (google/arolla, C++), read as text.  Nothing of it is
built or run.  The Lean project is `/verif/lean` (`lake build`).

## Trusted base

* Lean 4.33.0 kernel.
* Axioms: only Lean's standard `propext`, `Classical.choice`, `Quot.sound`.
  No axiom is declared in this project, there is no `sorry`, `admit`,
  `native_decide`, `bv_decide`, `implemented_by` or `unsafe`.
* The reading of the C++ code into the definitions below.  Every model definition
  carries a comment citing file and lines of `/repo`, and says where it simplifies.
* Fingerprints (128-bit hashes) are modelled as collision free: two nodes or values
  have the same fingerprint exactly when the data fed to the hasher are equal.

## Conventions

* C++ buffers/spans are `List`s.  A read outside the buffer is modelled by `none`
  (`xs[i]?` in the `Option` monad), so `f … = some r` includes the claim that no
  out-of-range access happens.
* Machine words of bitmaps are `BitVec 32`; `int32_t`/`int64_t` arithmetic where overflow matters is
  `BitVec n` or `Int` with an explicit range check.  Elsewhere sizes are `Nat`
  (no array of more than 2^63 elements).
* `absl::StatusOr<T>` is `Except Err T` or `Option T`; error texts are not modelled.
* Loops are structural or well-founded recursions with the loop variables as arguments.
* Concurrent code is an interleaving transition system: any schedule of atomic steps.
* `std::sort`, hash map iteration order and pointer equality are oracles with exactly the guarantees of the standard.
* One directory per area.  `*Model.lean` holds the model, `*Lemmas.lean` helper lemmas,
  `*Props.lean` the small independent specification, the property theorems and the
  non-vacuity `example`s beside them.
* Suffix `_partial`: a theorem proving only a part of its property.  Suffix
  `_counterexample`: the negation of a property with a concrete witness.


## Properties: what is modelled and how it is proved

Directories are under `lean/Verif/`, sources under `/repo/arolla/`.  The theorems of each property are listed in
`MANIFEST.json`; the exact lines are cited at each definition.

| id | status | directory | modelled code | method | limits |
|----|--------|-----------|---------------|--------|--------|
| C01 LRU cache refines an ideal weighted LRU | proved | Util | `util/lru_cache.h`: LruCache (list of entries, index, used capacity) | refinement to an ideal LRU, invariant over all operation sequences | — |
| C02 Branch-free lower/upper bound equals the partition point | proved | Util | `util/binary_search.{h,cc}`: SmallLinearSearch, FastBinarySearchT, BinarySearchT, Lower/UpperBoundImpl | equality with the partition point; induction over the loops | — |
| C03 Galloping lower bound equals std::lower_bound | proved | Util | `util/binary_search.h`: GallopingLowerBound | loop invariants with checked reads | — |
| C04 exp_lower_bound equals std::lower_bound | partial | Util | `util/algorithms.h`: exp_lower_bound | loop invariants with checked reads; counterexample for iterator arithmetic past the end | The returned position and all dereferences are proved correct; std::advance may leave [first,last] (counterexample), which is undefined behaviour for standard iterators. |
| C05 Bit-range primitives act exactly on the given range | proved | Util | `util/bits.h`: SetBitsInRange, GetOnesCountInRange, FindNextSetBitInVector, FindLSBSetNonZero | per-bit characterisation | — |
| C06 CopyBits copies exactly the requested bits | proved | Util | `util/algorithms.h`/`bits.h`: CopyBits | per-bit characterisation, unchanged bits | — |
| C07 Bitmap AND with bit offsets is pointwise AND | partial | Util | `util/algorithms.h`: LogicalAnd, InPlaceLogicalAnd, InplaceLogicalAndWithOffsets | per-bit characterisation; counterexample for the size-0 read | Proved for all sizes and skips except size 0 with rhs_skip = 0 < lhs_skip, where the code reads rhs[0] (counterexample). |
| C08 Bitmap counting and uniformity agree with per-bit access | proved | Dense | `dense_array/bitmap.{h,cc}`: CountBits, AreAllBitsSet, AreAllBitsUnset, GetBit | equality with count/all over the bits | — |
| C09 Bitmap intersection is intersection of presence | proved | Dense | `dense_array/bitmap.{h,cc}`: Intersect | per-bit characterisation | — |
| C10 Bitmap builders reproduce the presence sequence | proved | Dense | `dense_array/bitmap.h`: AlmostFullBuilder, Builder | refinement to a presence list | — |
| C11 DenseArray slicing is a view of the element sequence | proved | Dense | `dense_array/dense_array.h`: Slice, PresentCount, ForceNoBitmapBitOffset, … | denotation to `List (Option α)`, homomorphism | — |
| C12 DenseArrayBuilder has last-writer-wins semantics | proved | Dense | `dense_array/dense_array.h`: DenseArrayBuilder | refinement to function update | — |
| C13 Dense array equivalence and fingerprint see only the elements | proved | Dense | `dense_array/dense_array.h`: ArraysAreEquivalent, fingerprint stream | iff with equality of denotations | — |
| C14 Edge validation accepts exactly well-formed edges | proved | Edge | `dense_array/edge.{h,cc}`: factories of DenseArrayEdge | iff with a well-formedness predicate | from_uniform_groups_accepts needs parent_size < 2^63-1; from_uniform_groups_overflow shows the signed overflow at 2^63-1. |
| C15 Edge representation conversions preserve the child-to-parent relation | proved | Edge | `dense_array/edge.cc`: ToMappingEdge, ToSplitPointsEdge, IsEquivalentTo | denotation to child → parent functions | — |
| C16 ComposeEdges is composition of child-to-parent functions | proved | Edge | `dense_array/edge.cc`: ComposeEdges | fold over Kleisli composition | — |
| C17 IdFilter offset lookup is the inverse of id enumeration | proved | Arr | `array/id_filter.h`: IdFilter, IdToOffset | position in a sorted list | — |
| C18 Array form conversions preserve elements | proved | Arr | `array/array.h`: ToDenseForm, ToSparseForm, WithIds | denotation to `List (Option α)` | operator== of the value type is equality; float values with -0.0 and NaN are not covered. |
| C19 Array slicing is a view of the element sequence | proved | Arr | `array/array.h`: Slice, PresentCount | denotation | — |
| C20 Array equivalence is elementwise equality | partial | Arr | `array/array.h`: ArraysAreEquivalent | counterexample for size 0, theorem for all other pairs | False for two empty arrays with different missing_id_value (counterexample); proved for all other pairs. array_equivalence_exact states exactly what is computed. |
| C21 Array fingerprint separates different arrays | partial | Arr | `array/array.h`, `array/id_filter.cc`: fingerprint stream | counterexample, theorem for equal ids offsets | The id filter fingerprint ignores ids_offset: two different slices of one array have the same fingerprint (counterexample). Proved for arrays with equal ids_offset. |
| C22 Filter merge and intersect are upper bounds | proved | Arr | `array/id_filter.{h,cc}`: UpperBoundMerge, UpperBoundIntersect, ForEachCommonId | set inclusion, exact common ids | — |
| C23 SparseArrayBuilder and CreateArray produce the given elements | proved | Arr | `array/array.h`: CreateArray, SparseArrayBuilder | denotation | — |
| C24 JaggedShape construction and dimension operations keep the shape well formed | proved | Jagged | `jagged_shape/jagged_shape.h`: FromEdges, AddDims, RemoveDims, FlattenDims | well-formedness invariant | — |
| C25 Flattening preserves the leaf-to-row mapping | proved | Jagged | `jagged_shape/jagged_shape.h`: FlattenDims | leaf-to-row function; counterexample for the overflow | A new unit dimension needs fewer than 2^63-1 rows; flatten_dims_unit_overflow_counterexample shows the signed overflow otherwise. |
| C26 Broadcasting relation and broadcast edge | proved | Jagged | `jagged_shape/jagged_shape.h`: IsBroadcastableTo, GetBroadcastEdge | prefix relation, composition | Pointer equality of the shared implementations is an oracle: equal pointers mean equal edges. |
| C27 Concatenation of jagged arrays along a dimension | partial | Jagged | `jagged_shape/util/concat.h`: ConcatJaggedShapesAlongDimension, ConcatJaggedArraysAlongDimension | denotation as nested lists; counterexamples | A single array whose size does not match its shape is accepted (counterexample), all other bad inputs are errors; accumulated sizes must fit 64 bits (counterexample shows the overflow). Success is proved in full. Shapes of Array use the DenseArrayEdge model. |
| C28 Dominator tree gives immediate dominators | proved | Cfg | `algorithm/control_flow_graph.cc`: DominatorTree | paths as an inductive relation, strong induction on node ids | — |
| C29 AcyclicCFG::Create accepts exactly well-formed graphs | proved | Cfg | `algorithm/control_flow_graph.cc`: AcyclicCFG::Create | iff with a well-formedness predicate | — |
| C30 Empty dominance frontier detection | proved | Cfg | `algorithm/control_flow_graph.cc`: FindVerticesWithEmptyDominanceFrontier | path characterisation | — |
| C31 Externalizing nodes does not change dominance | proved | Cfg | `algorithm/control_flow_graph.cc`: ExternalizeNodes | path characterisation | — |
| C32 Cancellation callbacks run at most once and always when cancelled | proved | Conc | `util/cancellation.{h,cc}`: CancellationContext, Subscription | interleaving transition system, inductive invariant | Sections under the mutex are atomic; reads of the flag outside of the mutex may be stale; a callback is one event. |
| C33 Concurrent operator registration keeps names unique | partial | Reg | `expr/registered_expr_operator.cc`: Register | interleaving system; counterexample and theorem for non-overlapping calls | False for overlapping calls on one name: Register checks and stores without holding a lock (counterexample). Proved for all interleavings in which calls on one name do not overlap. |
| C34 Registry revision ids change along the namespace path | proved | Reg | `expr/registered_expr_operator.cc`: revision ids of records and their parents | invariant over histories | Revision ids are unbounded integers in the model. |
| C35 Pooled executors are never shared between concurrent evaluations | proved | Conc | `expr/eval/thread_safe_model_executor.h`: pool and busy-flag executors | interleaving transition system, inductive invariant | An evaluation writes its input into the frame and later reads the frame; atomics are sequentially consistent. |
| C36 Decision tree node ids are a lossless encoding | partial | Forest | `decision_forest/decision_forest.h`: DecisionTreeNodeId | arithmetic; counterexample at INT64_MAX | False for the adjustment index INT64_MAX: adjustment_index overflows (counterexample); proved for all smaller indices. |
| C37 Naive forest evaluation follows the split conditions to a leaf | partial | Forest | `decision_forest/decision_forest.cc`: Initialize, naive evaluation; split conditions | path relation; counterexample for cyclic trees | FromTrees accepts trees with cycles, for which naive evaluation may not end (counterexample). Soundness is proved for all accepted forests, termination for those without cycles. |
| C38 Argument binding follows the signature | proved | Sig | `expr/expr_operator_signature.cc`: BindArguments and validation | refinement to a declarative assignment | Default values and arguments have an arbitrary type; the text of error messages is not modelled. |
| C39 Signature specification strings round-trip | proved | Sig | `expr/expr_operator_signature.cc`: Make (parser), GetExprOperatorSignatureSpec | round-trip both ways | For aux policies whose name and options carry no outer whitespace, as MakeExprOperatorSignature produces them. |
| C40 PostOrder lists each distinct node once after its dependencies | proved | Expr | `expr/expr_visitor.{h,cc}`: PostOrder, VisitorOrder, PreAndPostVisitorOrder, leaf keys | refinement of the iterative algorithm to the recursive order | Expressions are trees in which equal subtrees are one node (fingerprints do not collide). |
| C41 Bottom-up transformation equals its recursive definition | proved | Expr | `expr/expr_visitor.h`: PostOrderTraverse, Transform, TransformOnPostOrder; `expr.cc`: WithNewDependencies | equality with recursion on the expression | Operators have arbitrary inference functions; transform_fn is a function of its argument. |
| C42 DeepTransform reaches a fixed point or fails | proved | Expr | `expr/expr_visitor.cc`: DeepTransform | inductive relation as specification; soundness, completeness, errors, termination | transform_fn is a function of its argument; log_fn is not modelled. |
| C43 Compiled evaluation with slot reuse computes the expression's value | proved | Slots | `expr/eval/slot_allocator.cc`, `dynamic_compiled_expr.cc`: EvalVisitor, BindToExecutableBuilder | simulation: ownership invariant of slots + frame invariant | Nodes are classified by what the visitor does for them; backend, where, while and extension operators are opaque functions of their inputs. The caller must give existing slots, an output slot that is not an input and, with overwriting allowed, different slots for different leaves; the two counterexamples show that these are needed. |
| C44 Short-circuit where evaluates exactly the selected branch | proved | Eval | `expr/eval/compile_where_operator.cc`: CompileWhereOperator; `qexpr/bound_operators.cc` | program-counter simulation | The branches are arbitrary programs; their extraction from the expression is C103 and C104. |
| C45 While loop alternation equals plain iteration | proved | Eval | `expr/eval/compile_while_operator.cc`: WhileLoopBoundOperator | equality with the plain loop | — |
| C46 Serialization round-trips values and expressions | proved | Serial | `serialization_base/encoder.cc`, `container_proto.cc`: ContainerProtoBuilder, `serialization/encode.cc` | simulation: a store invariant along the recursion of the encoder; rank argument for termination and single emission | For decoders that infer attributes (the default). Value codecs are arbitrary encoder/decoder pairs that are inverse for one level of a value (Lawful); the codecs of the library are not modelled. Fingerprints do not collide. |
| C47 The decoder never reads an unset step result | proved | Serial | `serialization_base/decoder.cc`, `container_proto.cc`: ProcessContainerProto, `serialization/decode.cc` | refinement to a write-once interpreter; hinted runs simulate unhinted runs | — |
| C48 Integer arithmetic operators are total and exact modulo 2^n | proved | Ops | `qexpr/operators/math/arithmetic.h`, integer cases | BitVec against Int | — |
| C49 Aggregation accumulators equal their mathematical definition | proved | Agg | `qexpr/operators/aggregation/group_op_accumulators.h` | fold against definition | Sums and products of integers; float sums, mean, weighted average and weighted cdf are not modelled. AddN with count 0 differs from no Add for some accumulators (counterexample); the callers pass at least 1. |
| C50 Common qtype is order independent | proved | QType | `qtype/standard_type_properties/common_qtype.cc`, `properties.cc` | case analysis on the lattice, list induction | Assumes that the registry has the scalar, optional and array types of every number type (Registry.Ok), as the library registers them. |
| C51 Frame layout slots never overlap | proved | Mem | `memory/frame.{h,cc}`: FrameLayout::Builder | invariant over calls | Sizes are unbounded (no overflow of size_t). |
| C52 Bitmap iteration visits every bit once in order | proved | Dense | `dense_array/bitmap.h`: IterateByGroups, IterateWord, Iterate | list of visited bits | — |
| C53 DenseArray ForEach visits every element once in order | proved | Dense | `dense_array/dense_array.h`: ForEach, ForEachPresent | list of calls | — |
| C54 Pointwise operations on dense arrays act row by row | proved | Dense | `dense_array/ops/dense_ops.h`, `universal_dense_op.h`, `util.h` | row by row equality | — |
| C55 Presence operators on dense arrays act element by element | partial | Dense | `qexpr/operators/dense_array/logic_ops.h` | row by row equality; counterexamples | presence_and writes out of bounds when the intersected bitmap needs an extra word because of bit offsets (counterexample); presence_or is only right for bitmaps starting at bit 0 (counterexample). Proved in all other cases. |
| C56 Array ForEach visits every element exactly once in order | proved | Arr | `array/array.h`: ForEach, ForEachPresent | list of calls | — |
| C57 Cancellation scopes nest | proved | Conc | `util/cancellation.{h,cc}`: ScopeGuard | stack discipline | — |
| C58 Operator names and truncation | proved | Util | `util/string.{h,cc}`: IsIdentifier, IsQualifiedIdentifier, Truncate | language equality | — |
| C59 IsWithinOneTypo is one edit | proved | Util | `util/string.cc`: IsWithinOneTypo | iff with one edit | — |
| C60 Thread local executors isolate evaluations | partial | Conc | `expr/eval/thread_safe_model_executor.h`: thread local executor | interleaving system; counterexample for nesting | False for an evaluation started inside another one in the same thread (counterexample); proved without such nesting. |
| C61 Regular forest predictors agree with the paths | proved | Forest | `decision_forest/pointwise_evaluation/pointwise.h`: compiler and predictors | simulation of paths | Node ids of the compact tree are unbounded; values have an arbitrary type, the accumulation an arbitrary operation. |
| C62 ToObliviousTree is exact | proved | Forest | `decision_forest/pointwise_evaluation/oblivious.cc` | iff with obliviousness | — |
| C63 Bitmask forest evaluation agrees with the paths | proved | Forest | `decision_forest/pointwise_evaluation/bitmask_builder.cc`, `bitmask_eval.cc` | mask semantics; counterexamples | Proved for proper trees and conditions without NaN bounds, as the property states; the two counterexamples show that both assumptions are needed although FromTrees and IntervalSplit accept such forests. Sum in an arbitrary commutative monoid (rounding of float addition is not modelled). |
| C68 Rank, median and group-by accumulators equal their definition | partial | Agg | `group_op_accumulators.h`: rank, median, group-by, ordinal rank accumulators | fold against definition; counterexample | array.ordinal_rank ignores the tie breaker among NaNs, unlike documented (counterexample); everything else is proved. The rank of inverse_cdf is computed in floating point, an arbitrary function here. |
| C67 Row iteration over several arrays reports every row once | proved | Group | `dense_array/ops/util.h`, `array/ops_util.h` | list of calls | All arguments share one value type. Callbacks are modelled by the list of their calls. |
| C71 Substitution is simultaneous | partial | Expr | `expr/expr_visitor.h`/`expr.cc`: SubstituteByFingerprint, SubstituteLeaves, SubstitutePlaceholders, … | recursion on the expression; counterexample | SubstituteByFingerprint and SubstituteByName also substitute below replaced nodes and fail if that cannot be built (counterexample). When they succeed the result is the simultaneous substitution; for leaves and placeholders the outcome is exactly that, errors included. |
| C69 Group operations process every group as if alone | proved | Group | `dense_array/ops/dense_group_ops.h`, `array/group_op.h`, all loops | each loop simulates the per-group specification; a relation between accumulator states covers the shared accumulator and AddN | The contract is shown for all modelled accumulators except GroupByAccumulator, whose ids depend on the other groups by design. An aggregator without child arguments gets AddN(0) for an empty group, so it must not treat that as a row (hypothesis ZeroOk, counterexample; no accumulator of the library has no child argument). The text of the error may be that of any failing group. With an edge without parents the status of the initial accumulator is assumed to be OK. |
| C64 Piecewise constant evaluators of one input agree with the trees | partial | Forest | `decision_forest/pointwise_evaluation/single_input_eval.{h,cc}` | sorted split points and midpoints; `float` arithmetic with rounding for the midpoints; counterexamples | False if the sum of two split points overflows (float: infinity; int64: undefined behaviour), for -inf below the split point -FLT_MAX, for sets that contain an infinity, and for NaN with a set that is true for missing values (counterexamples). Proved for split points up to half of the range and all inputs except that NaN case. Sums of values are exact (semiring). |
| C65 ForestEvaluator computes the sum of the selected trees whatever evaluators it chooses | partial | Forest | `decision_forest/pointwise_evaluation/forest_evaluator.{h,cc}` | invariant over the builders, sum of the parts by C61-C64 | Proved for proper trees (C63 shows that shared nodes break the bitmask evaluator) and, with single input evaluators, under the restrictions of C64; a custom condition with a single float or int64 input makes compilation fail (counterexample). Sums are exact (semiring), rounding is not modelled. |
| C72 FrameIterator applies a function to every row exactly once | proved | Frames | `qtype/array_like/frame_iter.{h,cc}`, `dense_array/qtype/copier.h`, `array/qtype/copier.h` | loop invariant: rows so far, contents of the output builders; copying loops by pointwise effect on the frames | Different inputs have different slots; constant slots are not inputs. With frame_buffer_count = 0 and rows the loop never ends (counterexample). Buffers of one value per entry (not the builder of string buffers); negative row counts are not modelled. |
| C73 Multi-threaded ForEachFrame equals the single-threaded one under every schedule | proved | Frames | `frame_iter.h`: ForEachFrame with threads, `absl::Barrier` | inductive invariant over barrier generations; commuting actions between barriers | absl::Barrier is modelled from its documented implementation. Sequentially consistent interleaving of steps; an application of fn to one frame, a preload and a save are one step each, justified by the proved absence of races. |
| C66 BatchedForestEvaluator sums the selected trees in every row | partial | Batched | `decision_forest/batched_evaluation/batched_forest_evaluator.{h,cc}` | composition of C65 (evaluator of each part) and C72 (rows); induction over the evaluators | Restrictions of C65 (proper trees, safe split points, sums in a semiring). With several evaluators an output slot which is also an input slot gives wrong sums (counterexample). optimal_splits_per_evaluator = 0 or near the largest int64_t is undefined behaviour (counterexample). |
| C70 Pointwise operations on arrays are elementwise in every representation | proved | Arr | `array/pointwise_op.h`, `memory/optional_value.h`: OptionalFn | composition of C18 (WithIds), C22 (filters) and C54 (dense operations); offsets of the result filter against rows | The functor is also evaluated for the missing_id_values, so a failing functor can make the operation fail although it fails for no row, e.g. math.floordiv (counterexample); the statement says so. One value type for all arguments; buffers of one value per entry. |
| C74 core.presence_or on arrays is elementwise in every representation | proved | Arr | `qexpr/operators/array/logic_ops.h` | case analysis of the forms; C70 for the general case | — |
| C75 Initializers run once, in dependency order | proved | Startup | `util/init_arolla_internal.cc` | invariant of the built digraph (names, anonymous nodes, phony nodes); invariant of the recursive execution with fuel bounded by pending nodes; translation of paths in the digraph to the order of initializers; simulation for two registration orders | previously_completed_ is assumed to hold neither the empty nor a phony name, which is proved to be preserved. Initializer functions do not register further initializers during the run; std::stable_sort is insertion sort; the list of static registrations (init_arolla.cc) and the fatal exit on an error are not modelled. |
| C76 A pattern optimization rewrites exactly the instances of its pattern | proved | Opt | `expr/optimization/pattern_based_optimization.cc` | invariant of the compilation loop (layout of the memory, first positions); induction over the unfold actions in both directions; simulation of SubstituteNodes by a fold over the post order; induction over expressions for values | Both sides are assumed to be made by the node factories (WF). Operators mean what their display name says, as the optimizer assumes. Fingerprints are collision-free. The check of operator tags in debug builds is left out. |
| C77 The peephole optimizer runs all applicable rules and keeps values | proved | Opt | `expr/optimization/peephole_optimizer.cc`, `optimizer.cc` | buckets as filters; induction over rules, iterations and expressions | Without a decreasing measure the result can still be rewritten by single rules: two rules of a bucket that undo each other count as no change and no error is reported (counterexample). One application also depends on hash collisions (counterexample). The concrete rule packs are not modelled. |
| C78 Preparing an expression keeps its value and reaches a normal form | proved | Prep | `expr/eval/prepare_expression.cc` | each transformation keeps values and well-formedness; C71 (DeepTransform) lifts this to the expression and gives the fixpoint | The lowering of operators, Invoke, casting, the optimizer and the compiler extensions are arbitrary functions that keep values (hypothesis Faithful). Normal form and attributes are stated without the stage for core.where, which rewrites the result of the others. The concrete language of PrepExamples meets all hypotheses. |
| C79 The compiled expression has the types, inputs and value of the prepared one | proved | Prep | `expr/eval/prepare_expression.cc`, `expr/eval/eval.cc`:83-103 | invariant of the loop over the post order; induction over expressions for the stripped expression; C78 for the leaves | If the type argument of an inner annotation is not known the leaf below it is not compared with the declared type, so the compiled expression may take an input with another type than declared (counterexample). Side outputs and the binding of slots are not part of this model. |
| C80 Searching in strings works on bytes for Bytes and on code points for Text | proved | Text | `qexpr/operators/strings/find.cc` | self-synchronization of UTF-8 (no match of an encoded text starts inside of a character); offsets of code points are strictly increasing, so `lower_bound` inverts the index; slices as intervals | ICU and string_view are modelled after their documentation. strings.count overflows an int at 2^31 occurrences (counterexample; the statement excludes it). |
| C81 Stripping removes exactly the longest prefix and suffix of the given characters | partial | Text | `qexpr/operators/strings/strings.h`:115-237 | induction over the string, from the end for rstrip; bits of the character set | Proved for Text, for Bytes without characters, and for ASCII Bytes with ASCII characters where the byte 8 is stripped only if given. False otherwise: std::bitset<256> char_set(256) contains the byte 8, and a byte from 0x80 on throws std::out_of_range (counterexamples). White space of Unicode is an oracle; lengths are below 2^31. |
| C82 Replacing replaces the leftmost non-overlapping occurrences up to the limit | proved | Text | `qexpr/operators/strings/strings.cc`:88-125, 179-195 | induction over the loop with counter and limit; the relation on encoded texts is carried over to code points by self-synchronization | Strings are shorter than 2^63 - 1 bytes. |
| C83 Decoding accepts exactly well-formed UTF-8 and repairs everything else | proved | Text | `qexpr/operators/strings/strings.cc`:54-86, 162-177 | one step of U8_NEXT reads a scalar value or skips a maximal subpart (case analysis with linear arithmetic); induction over the loop | utf8_range and U8_NEXT are modelled after their documentation. |
| C84 Integer parsing accepts exactly the decimal integers in range and inverts as_text | proved | Text | `qexpr/operators/strings/strings.h`:415-428, `strings.cc`:259-262 | induction over the digits from the right | std::from_chars and %d are modelled after the C++ standard. |
| C85 Splitting and joining are inverse, and the edge groups the parts by string | proved | Text | `qexpr/operators/strings/split.h`, `join.{h,cc}` | induction over the iteration of StrSplit and over the rows | absl::StrSplit and StrJoin are modelled after the library. An empty separator splits a Text into single bytes (ill-formed, counterexample). A string whose string_view has a null pointer (possible for empty strings of a deep-copied or uninitialized buffer) has no parts instead of one (counterexample); the statements about a separator exclude it. |
| C86 strings.format renders its specification | proved | Text | `qexpr/operators/strings/format.cc`:252-481 | both stages and Process as one function; induction over the parser in one direction, over the relation in the other | The formatting of a single value is an oracle. Missing optional arguments (WhereAllBoundOperator) are not part of this model. |
| C87 IsWithinOneTypo decides whether strings differ by at most one edit | proved | Text | `util/string.cc`:35-52 | decomposition into longest common prefix, middles and longest common suffix of the rests | — |
| C88 A string buffer is a list of strings, however it was made | proved | StrBuf | `memory/strings_buffer.{h,cc}` | refinement to a list of strings; invariant of the builder: offsets point to initialized characters with the value | Memory is a value; ownership and allocation are not modelled. Sizes do not overflow. |
| C89 Reshuffling string buffers keeps strings and fills in the default | partial | StrBuf | `memory/strings_buffer.{h,cc}`: ReshuffleBuilder | offsets as a map of the list of sources; induction over the calls; evaluation of the counterexamples | Proved for buffers without base offset, and if all values are set; the values (not the validity) also for a missing or empty default. False for a buffer with a base offset (a deep copy of a slice): the offsets of the default do not contain it (counterexamples). |
| C90 Equal string buffers have equal hashes and fingerprints | partial | StrBuf | `memory/strings_buffer.{h,cc}`: hashes | the values are determined by offsets, characters and base; evaluation of the counterexample | Proved for buffers made by Create (with the converse). False in general: offsets and characters are hashed, not the values (counterexample). |
| C91 Overload resolution of QExpr operators finds the most specific signature | proved | Overload | `qexpr/casting.cc`:37-124 | invariant of the frontier: the minimal applicable signatures so far, in any order | castOrder_qtype discharges the hypothesis on casts for the model of C50. |
| C92 The QExpr operator registry keeps the operators in effect | proved | Overload | `qexpr/operators.cc`:50-202 | refinement of records and supported signatures to the list of calls | A failed registration with a priority out of range and new input types leaves a record with a null operator, which a lookup with these types follows (counterexample; the statement excludes it). Mutexes are not modelled (calls are atomic). Names are numbers. |
| C93 Snapshots of generic operators are fresh | partial | Generic | `expr/operator_loader/generic_operator.cc`:160-215 on top of the registry of C33 | invariant over all interleavings; counterexample trace for the race | Fresh for names without a registration in progress, in runs where no snapshot is built between the two steps of a registration; snapshot_race_counterexample shows the race without that condition. Missing: aliases (names registered for another registered operator) are not followed, registrations of one name do not overlap. |
| C94 Which overload generic and dispatch operators select | proved | Generic | `expr/operator_loader/generic_operator.cc`:96-111, 190-276; `dispatch_operator.cc`:71-105, 163-178, 225-260; `helper.cc`:73-225; `qexpr/operators/bootstrap/qtype_operator.cc`:235-292 | refinement of the pattern parser to a binding relation; the loops to counts | Conditions are functions of the types of their placeholders that can always be evaluated. generic_misfit_counterexample: an overload that does not accept the number of inputs keeps the operator undecided. generic_leaf_counterexample: conditions that read the leaf input_qtype_sequence are not monotone. |
| C95 Piecewise linear curves interpolate their control points | partial | Curve | `pwlcurve/curves.cc`:242-716 | shape of the points kept by the builder; interpolation lemmas on sorted segments | Exact arithmetic over an ordered field; missing: rounding and overflow of double and float. Logarithms are those of the real numbers. eval_extension_partial is for an infinite first point, not for the mirrored last one. |
| C96 The text form of curves | proved | Curve | `pwlcurve/curves.cc`:56-233, 802-821 | parser to grammar in both directions; number format as parameter | absl::SimpleAtod and DoubleToStringConverter are parameters; parse_toString assumes of the coordinates at hand that their texts are read back. |
| C97 Buffers of a buffer factory are independent | proved | Mem | `memory/raw_buffer_factory.cc`:45-72, 90-155 | refinement to independent arrays; invariant: live bytes and the free part of the page are disjoint parts of the held memory | Addresses are natural numbers: sizes for which an address plus a size exceeds 64 bits are not modelled. |
| C98 Input loaders load the values that they promise | proved | Io | `io/input_loader.h`:79-145, 166-213, 295-329, 366-495; `input_loader.cc`:39-122; `accessors_input_loader.h`:145-242; `delegating_input_loader.h`:50-233; `wildcard_input_loader.h`:151-174, 359-460; `qtype/typed_slot.cc`:157-235 | contract `Implements` of `BindImpl`, kept by every combinator; partition of the slots | The order of hash maps and std::sort are arbitrary permutations. What a frame holds after an error is not stated; a callback is called exactly once. |
| C99 Names of a wildcard loader and keys correspond | partial | Io | `io/wildcard_input_loader.cc`:30-54 | the first occurrence of the marker; counterexamples for formats with width and precision | Holds for formats with a plain %s in which the marker text does not occur before it; false for a format with a width or a precision. |
| C100 A bound slot listener hears exactly the values under the names it was bound for | partial | Io | `io/slot_listener.h`:41-123, 127-177; `slot_listener.cc`:31-64; `chain_slot_listener.h`:38-114; `accessors_slot_listener.h`:70-165; `delegating_slot_listener.h`:46-115 | contract `Reports`, kept by the combinators; counterexample for listeners that disagree about types | A chain keeps the contract when its listeners agree about the types of the names they share; otherwise it promises a type it cannot be bound with. |
| C101 Loaders of elements and structs copy exactly what is named | partial | Io | `io/typed_refs_input_loader.cc`:43-82; `span_input_loader.h`:65-122; `tuple_input_loader.h`:68-96; `struct_io.h`:41-57; `struct_io.cc`:51-141 | elements zipped with names; the grouped copies are a permutation of one copy per slot, with disjoint destinations | Assumes different names; with a repeated name of different types a tuple loader writes to a slot of another type. Struct fields are bytes: a value of a type that is not copied by size is its representation (reference counts are not modelled). |
| C102 Circular registered operators are detected, and only those | partial | Circular | `expr/registered_expr_operator.cc`:53-118, 132-164, 197-268 | chain of implementations followed without bound; recursion on a tree of calls, the visited tokens are calls that do not end at the present depth | GetSignature and GetDoc share their tokens: below depth 24, GetDoc that asks for the signature of the same operator is reported as circular. The registry is assumed not to change during a call. |
| C103 Short-circuiting branches does not change values | proved | Where | `expr/eval/expr_utils.cc`:38-115; `expr/eval/compile_where_operator.cc`:237-393; `expr/annotation_utils.cc`:41-57 | loop invariant over the stack of tasks; induction over the post order | Compilation of the branches is a parameter; that a packed operator chooses between the compiled branches is C44. Expressions without placeholders. |
| C104 A short-circuited branch contains exactly what only it needs | partial | Where | `expr/eval/compile_where_operator.cc`:67-146, 237-393 | along an edge from a dominated node the depth decides dominance; every edge of the transformed expression comes from an edge that starts below; counterexample for nodes that become equal | Assumes that different nodes stay different. If a where node with leaves as branches becomes equal to another core.where node, that node is computed outside and again in a branch. |
| C105 Presence optimizations do not change results | partial | Rules | `expr/optimization/peephole_optimizations/presence.cc`:38-495; `qexpr/operators/core/logic_operators.h`:39-309; type inference and overloads as cited in `RulesModel.lean` | rules are data; types are enumerated per rule by the kernel, values are compared row by row for all rows | Values: all rules. Types: three rules can change the type (reported by the optimizer as an internal error). One scalar type stands for all types but Unit and bool; casts between scalar types are not modelled. |
| C106 Boolean optimizations do not change results | partial | Rules | `expr/optimization/peephole_optimizations/bool.cc`:42-305; `qexpr/operators/bool/logic.h`:31-102; `qexpr/operators/bool/comparison.h`:21-55 | as C105; equivalence with totality of the order, NaN as counterexample | The rules for negated less and less_equal keep values iff any two values are comparable: false with NaN. |
| C107 Balancing, arithmetic, add4 and short-circuit rules keep results under exactly stated laws | proved | Rules | `expr/optimization/peephole_optimizations/balance.cc`:31-57; `arithmetic.cc`:33-105; `reduce.cc`:29-53; `short_circuit_where.cc`:37-59, 78-96 | as C105; each condition on the arithmetic is proved necessary on scalars | The laws are equivalences; floating point itself is not modelled. The rule of short_circuit_where.cc for core.const_with_shape is in C167. |
| C108 Optimizing an expression does not change its value | proved | Rules | `expr/optimization/optimizer.cc`:32-66; the packs of C105-C107 | values are of the inferred type; substitution lemma; induction over the rewriting steps | If the original expression fails, nothing is said. Rules of const_with_shape.cc are in C167. |
| C109 Serializing a dense array and reading it back gives the same array | proved | Codec | `serialization_codecs/dense_array/encoders/dense_array_encoder.cc`:65-163; `serialization_codecs/dense_array/decoders/dense_array_decoder.cc`:76-203 | the encoder writes the only packed bitmap of the presence of the rows; what a message says is specified by scattering the values over the bits | The wire format of protobuf is not modelled. The encoder overflows for sizes over 2^63-33, which no array in memory has. |
| C110 A dense array message is accepted iff it is well-formed | partial | Codec | `serialization_codecs/dense_array/decoders/dense_array_decoder.cc`:76-203 | each check is compared with the specification of a message; undefined behaviour is `none`; counterexample for overflow | Missing: a size over 2^63-33 together with a non-empty bitmap, where the decoder overflows (undefined behaviour). |
| C111 Serializing an array and reading it back gives the same array | partial | Codec | `serialization_codecs/array/encoders/array_encoder.cc`:58-86; `serialization_codecs/array/decoders/array_decoder.cc`:57-169 | inductive specification of what a message with its inputs says; counterexamples for fingerprints | The fingerprint of a slice with an id offset, and of an empty array with a value for missing ids, is not kept. |
| C112 Serialized edges relate the same rows and only well-formed edges are accepted | proved | Codec | `serialization_codecs/dense_array/encoders/dense_array_encoder.cc`:192-241; `serialization_codecs/dense_array/decoders/dense_array_decoder.cc`:211-290; `serialization_codecs/array/encoders/array_encoder.cc`:139-186; `serialization_codecs/array/decoders/array_decoder.cc`:171-253; `array/edge.cc`:35-102 | reduction to the acceptance of dense edges (C21 ff.) and to C109, C111 | Values as in C109 and C111. |
| C113 Operations on array edges do not depend on how the edge values are stored | partial | ArrEdge | `array/edge.h`:103-122; `array/edge.cc`:89-149 | reduction to edges of dense arrays (C14-C16) through the dense form (C18); exact condition and counterexample for IsEquivalentTo | IsEquivalentTo is false for two mappings without children whose arrays have different missing_id_value. |
| C114 A forest model computes the mean of its expression over the bags | partial | FModel | `decision_forest/expr_operator/forest_model.cc`:66-303, 422-616, 653-670; `visitors/substitution.cc`:78-97 | substitution lemma; tracking of the indices of filters through the loops over bags; grouping of the summands of a plain sum; counterexamples | Exact arithmetic in place of floats; every submodel has to occur in the lowered expression; for plain sums lowering must keep the number of occurrences and submodel ids must be distinct (counterexamples); truncation step below 2^31 (counterexample). |
| C115 Partial evaluators of a forest model compute the requested step ranges | partial | FModel | `decision_forest/expr_operator/forest_model.cc`:305-322, 618-670 | the combined filter accepts every tree accepted by one of the filters; pointwise addition of ranges; counterexample | A range without upper bound is accepted although the model is truncated (counterexample). Exact arithmetic in place of floats. |
| C116 Decision forests survive serialization and no message makes an evaluation leave its bounds | partial | FCodec | `decision_forest/s11n/codec.cc`:59-110, 186-237; `decision_forest/decision_forest.cc`:117-122, 137-186 on raw node ids; `decision_forest/split_condition.h`:111-113 | round trip of the loops; reduction of Initialize on raw ids to C37; relation between messages and trees; counterexamples | Exact acceptance fails for absent or negative node ids (accepted with another meaning, also as a cycle) and for a step or submodel id INT_MAX (overflow): counterexamples. The wire format of protobuf is not modelled. |
| C117 Forest models survive serialization | proved | FCodec | `decision_forest/s11n/codec.cc`:120-158, 239-295 | inductions over groups and inputs against a declarative description of the message | Up to the call of ForestModel::Create (C114); nested values and expressions are encoded by other codecs. |
| C118 edge.from_sizes and edge.sizes are inverse to each other | proved | EdgeOps | `qexpr/operators/dense_array/edge_ops.h`:98-119, 324-346; `util/overflow.h`:41-54 | prefix sums; counting children with a duplicate-free list; two-sided acceptance | Child spaces of at most 2^63-1 rows. |
| C119 edge.pair_left and edge.pair_right enumerate the pairs in each group | partial | EdgeOps | `qexpr/operators/dense_array/edge_ops.h`:132-216 | loops against the lexicographic list of pairs, which is characterised by membership and order; counterexamples | Negative sizes make pair_left write outside of its buffer and pair_right return uninitialised memory; the plain sum of the sizes can overflow (counterexamples). |
| C120 array.expand gives every child the value of its parent | proved | EdgeOps | `qexpr/operators/dense_array/edge_ops.h`:242-304 | one induction per loop on values and bitmap words | — |
| C121 edge.resize_groups_child_side moves every row to its new offset | partial | EdgeOps | `qexpr/operators/dense_array/edge_ops.h`:366-496 | invariant over the calls done so far; the position of the group only moves forward; counterexamples | A negative size beside larger ones makes the operator write outside of its buffer; the total size can overflow (counterexamples). |
| C122 edge.resize_groups_parent_side has the new group sizes | partial | EdgeOps | `qexpr/operators/dense_array/edge_ops.h`:503-554 | reduction to prefix sums; counterexample | With one size for all groups the split points can overflow (counterexample). |
| C123 array.at, array.slice and array.concat act on the sequence of optional values | proved | DOps | `qexpr/operators/dense_array/array_ops.h`:45-144; `array_ops.cc`:26-32 | the specification of CopyBits and of the universal operation; positions of bits in a suffix of the bitmap | Value buffers of simple types; the list of indices has no bit offset, as the operator requires. |
| C124 array.from_indices_and_values inverts present indices and present values | proved | DOps | `qexpr/operators/dense_array/array_ops.h`:147-209; `array_ops.cc`:34-76 | inserting one by one; builder invariant with a relational description of the contents | — |
| C125 array.unique and array.select keep the right elements in order | proved | DOps | `qexpr/operators/dense_array/array_ops.h`:212-257; `dense_array/ops/dense_ops.h`:452-471 | induction with the set of values seen; the row iteration of Group | The hash set is modelled by its comparison. |
| C126 Pointwise operations of any arity, and dense arrays made from values | proved | DOps | `dense_array/ops/dense_ops.h`:95-105, 181-248; `qexpr/operators/dense_array/factory_ops.h`; `factory_ops.cc`:46-77 | invariant of the intersected bitmap over the arguments done so far | The functor is total on the values stored for missing rows, as dense_ops.h requires. |
| C127 A forest model is created exactly for the documented arguments | proved | FModel | `decision_forest/expr_operator/forest_model.cc`:66-230, 422-520 | every check as an equivalence; progress of the loops over bags | Submodels removed by lowering are not covered: their number of bags is not checked (C114, ignored_submodel_counterexample). |
| C128 Protopath ids and paths correspond | proved | Naming | `naming/protopath_id.cc`:36-94; `naming/table.h`:66-102 | loop over segments with an exact description of the rest; unique decomposition of texts | — |
| C129 Operations on table and column paths | proved | Naming | `naming/table.cc`:36-158; `naming/table.h`:131-154 | induction on the reversed path | — |
| C130 Naming policies keep different fields apart | proved | Naming | `naming/policy.cc`:54-238 | scanners that invert joining | Extension fields are not covered for double_underscore, whose mangling is not injective by design. |
| C131 Which lambda operators can be made | proved | Lambda | `expr/lambda_expr_operator.cc`:59-187 | invariants of the index loops | Of the signature only the names and the variadic parameter are modelled here; see C38 for the rest. |
| C132 A lambda has the attributes of its body with the arguments substituted | proved | Lambda | `expr/lambda_expr_operator.cc`:268-308, `expr/expr_operator_signature.cc`:205-220 | the loop over the post order is the recursive fold; induction on the body with refinement of attributes | The assumptions about operators are the structure Laws. |
| C133 Lowering a lambda is substitution without capture and keeps the value | proved | Lambda | `expr/lambda_expr_operator.cc`:203-266, `expr/expr.cc`:47-65, 135-159 | same; evaluation by structural induction | The debug-mode check is not modelled. |
| C134 A while loop computes its variables iteration by iteration | partial | While | `expr/operators/while_loop/while_loop.cc`:72-267, `expr/operators/while_loop/while_loop_impl.cc`:39-105 (not: the attribute inference and the evaluation of `WhileLoopOperator`) | invariant of the traversal (new expression has no leaves and the old value if the new names have the values they stand for); induction on the number of iterations | Proved if no name in the initial state and no placeholder begins with `_while_loop_immutable`; false without: a variable of that name in the initial state replaces an extracted expression. |
| C135 A while loop is made exactly when all its variables are initialized | partial | While | same | case analysis of the steps; keys of the rewritten expressions are the old ones and the new names | Same restriction; a placeholder with a reserved name is accepted without an initial value. |
| C136 The moving average is the mean of the trailing window of the group | partial | Series | MovingAverageAccumulator, AggMovingAverageOp on top of the group operations of C69 | the deque is a prefix of the run of present values, newest first; lifted to groups by C69 | Proved for windows of 1 to 2^31-1 values, over rationals (rounding is not modelled); a window of 0 values is undefined behaviour and one of 2^32+1 is taken for 1. |
| C137 Exponentially weighted averages are weighted means of the past | proved | Series | AdjustedEWMA, UnadjustedEWMA, the operator | invariant over the rows visited: numerator and denominator are the weighted sums at the last present row; induction over gaps | Over rationals; rounding, infinities and NaN are not modelled. |
| C138 seq.range gives Python's range | partial | Seq | MakeRange, SequenceRangeOp, MutableSequence::Make | uint64 arithmetic reduced by omega; ceiling division; invariant of the filling loop | Proved if stop + step fits in int64; fails otherwise (counterexamples). |
| C139 Sequences can be sliced, indexed and built without leaving their storage | proved | Seq | Sequence, MutableSequence, seq.at/slice/make/repeat/zip | refinement of (block, offset, size) to lists; loop invariants for the writes | — |
| C140 seq.map and seq.reduce are map and left fold with the first error | partial | Seq | evaluation of seq.map and seq.reduce, seq.all/any/all_equal | induction over the positions left | seq.all_equal of a single missing element returns present (counterexample); for scalars and optionals over types with decidable equality, so not NaN. |
| C141 Dicts map each key to the value at its position | proved | Dict | MakeKeyToRowDictOp, DictGetRowOp, DictContainsOp, DictKeysOp, dict.make/get/keys, fingerprint | invariant of the construction loop; permutations and counting for dict.keys; sorted permutations are equal | For single optional keys; arrays of keys are looked up element by element (C123). |
| C142 The optimisations of dict lookups keep the result | partial | Dict | BoolDictOptimization, AddDictContainsOptimizations | case analysis on top of C141 | For dicts with at least as many values as keys; the rule fails otherwise. For a single optional key. |
| C143 Casts to integer types return the exact or truncated number or an error | proved | Cast | CastOp to integer types, with the computation of its bounds in floating point | evaluation of the bounds; representable numbers near a power of two lie on a grid | Casts to floating point types are not modelled. |
| C144 A reference-counted object is deleted exactly once, after its last reference | proved | Refs | Refcount, copy and release of RefcountPtr | invariant over all interleavings: the count is the number of references held | Atomic operations are sequentially consistent in the model; fewer than 2^31 references; a reference is not copied and released at the same time. |
| C145 A permanent event is notified once, however often it is set | partial | Refs | PermanentEvent::Notify | invariant over all interleavings | A call of Notify may return before the event is set (counterexample). absl::Notification is one atomic operation. |
| C146 An attribute of an object is that of the nearest object of its prototype chain that has it | proved | Objects | Object, GetAttrOrNull, objects.make_object | induction over the chain; invariant of the insertion loop | — |
| C147 The fingerprint of an object identifies its attributes and those of its prototypes | proved | Objects | ArollaFingerprint, GetSortedAttributes | unique decoding of the tokens; sorted permutations are equal | About the tokens that are combined: that a fingerprint and a string with its length cannot be confused as bytes, and that the hash has no collisions, is assumed. |
| C148 What is inferred for the attribute operators of objects agrees with what they compute | proved | Objects | objects.get_object_attr, objects.get_object_attr_qtype with InferAttributes | case analysis | — |
| C149 core.get_nth, core.concat_tuples, core.slice_tuple and core.zip are lowered to what they say | proved | Tuple | GetNthOperator, MakeTupleOperator, core.get_nth, core.zip, core.concat_tuples, core.slice_tuple | nodes of the fields; collected lists; induction over the arguments | — |
| C150 core.apply_varargs, core.reduce_tuple and core.map_tuple apply the operator to the fields in order | proved | Tuple | core.apply_varargs, core.reduce_tuple, core.map_tuple | induction over the fields; monotone inference for literal tuples | — |
| C151 The operators on named tuples respect the names | proved | Tuple | MakeNamedTupleQType, namedtuple._make, namedtuple.get_field, namedtuple.union | invariant of the map from names to positions; fold over the fields | — |
| C152 CastingRegistry::GetCast casts exactly what CanCastImplicitly allows and keeps presence | proved | Casts | CastingRegistry::GetCast over the types of C50 | closed form of each step; case analysis over the shapes; C50 for CanCastImplicitly | The operators core.to_*, core.const_with_shape and core.to_optional are modelled by what they compute; which elements they accept is a parameter. |
| C153 The casting transformation keeps the type of a node and casts its arguments to a signature of the operator | proved | Casts | GetShapeForBroadcasting, BuildNodeDepsWithCasts, IsDerivedFrom, CastingTransformation | induction over the arguments; C91 for the lookup | Rests on C50 and C91. |
| C154 A proto reader of optional values reads the value at the end of the path | proved | Proto | ProtoTypeReader::CreateOptionalReader, OptionalReader, GetSubMessage, GetLastSubMessage, ByIndexReader, FieldReader, SwitchByProtoType, CheckAccessInfo, VerifyFieldsAndAccessInfos; protobuf reflection as trees | induction over the path; case analysis over the field types | The reflection interface of protobuf is modelled as a tree of values; its usage errors are the outcome crash. |
| C155 A proto reader of arrays, sizes or shapes visits all submessages of the path in order | partial | Proto | TraverseSubmessages, the pushback functions, the readers of arrays, sizes and shapes, CreateDenseArrayReader, CreateDenseArrayShapeReader | execution of the loop for short paths; counterexamples for longer paths and missing submessages | False for two or more intermediate fields (the traversal reads them from the outermost message) and for missing submessages (a null pointer is dereferenced); proved for at most one intermediate field without missing submessages. |
| C156 Protopaths are resolved to the fields that they name | proved | Proto | ParseProtopathElement, ParseProtopathToReader, CreateReaderWithStringType | decision logic; round trip of writing and parsing by induction over the path | absl::SimpleAtoi is a parameter that parses at least decimal digits. |
| C157 core.cast and core.cast_values are lowered whenever they are accepted | proved | Casts | CastOp, CastValuesOp (inference from known literals, lowering), WithScalarQType, ToOptionalLikeQType | decision logic; C152 for the lowering | Assumes that the conversion operators accept all numbers, booleans and unsigned numbers. Rests on C152. |
| C158 A structured error keeps what it is not asked to change | proved | Status | structured errors of util/status.cc on a model of absl::Status (code, message, locations, payloads) | frame conditions per function, induction over notes; visiting order is an arbitrary permutation | absl::Status is modelled from its interface; the token inside the cord is abstracted. |
| C159 The first error is returned and the delegate is called only without errors | proved | Status | CheckInputStatus, UnStatusCaller, all overloads of LiftStatusUp, FirstErrorStatus | induction over the arguments; hash map order is an arbitrary permutation | Up to the source locations that RETURN_IF_ERROR adds. Values of a pack have one type in the model. |
| C160 core.map accepts arrays of one shape and embedding literals does not change the arguments | proved | CoreMap | MapOperator::InferAttributes, MoveNonArrayLiteralArgumentsIntoOp | induction over the arguments against a shape spec and an evaluation of the wrapped arguments | Types are scalars, optionals and arrays of numbered elements and others; the inference of the mapper is a parameter. |
| C161 core.map applies the mapper to every row | partial | CoreMap | CompilePackedCoreMapOperator, MapBoundOperator::Run, FrameIterator::ForEachFrame on top of the binding of C43 | invariant of the frames (literals and scalars) through load and execute, induction over the batches; counterexample by kernel evaluation | Missing: mappers compiled with the permission to overwrite their inputs, with scalar arguments and more than 64 rows; the claim is false there (counterexample). Mappers with arguments that are not optional are not modelled. |
| C162 A verified derived type has the representation of its base, and casts between them are inverse | partial | Derived | VerifyDerivedQType, DecayDerivedQType, BasicDerivedQType, the cast operators and HandleDerivedQTypeCast | case analysis and induction over the fields against an independent compatibility; counterexample for the fields | The compatibility of fields is computed and not tested (derived_qtype.cc:117), so the claim about fields is false in general (counterexample) and holds for types built by BasicDerivedQType. |
| C163 Labelled types are unique by base and label | proved | Derived | GetLabeledQType, GetQTypeLabel and both registries of labeled_qtype.cc | invariant of the registry over all sequences of steps | The locks make the methods atomic; a program is any sequence of calls. |
| C164 ClassInfo decides the declared inheritance | proved | ClassInfo | RegisterClass, RegisterRootClass, RegisterSubclass, is_subclass_of and name of class_info | invariant over all runs: the array of a class is the path of ids from its root; prefixes of paths are ancestors | The lock makes RegisterClass atomic; parents are registered before their subclasses, as GetClassInfo does. |
| C165 Stack traces of expressions end and name the origin of a node | proved | Trace | AddTrace, InitNode, RegisterIp, Finalize and the annotation loop of expr_stack_trace.cc | the entries of the traceback are ordered by age and a step goes to an older entry | Fingerprints are collision-free; the texts of source locations are opaque. |
| C166 OverloadedOperator chooses the first base operator that accepts | proved | ExprOverload | LookupImpl, LookupOp, InferAttributes, ToLowerLevel of overloaded_expr_operator.cc | induction on the base operators | Base operators are arbitrary functions; their stability is a hypothesis of the stability of the choice. |
| C167 Rules for core.const_with_shape keep results | partial | ConstShape | all rules of const_with_shape.cc and the rule for core.const_with_shape of short_circuit_where.cc | tables by computation, rows of constants by induction; a failing operator over an empty shape is the counterexample | Proved when the shape is not empty or no operator fails; for an empty shape and a failing operator the property is false (math.floordiv by 0). Pointwise operators are arbitrary functions of rows that may fail. |
| C168 Group operations with several edges process every group on its own | proved | MultiEdge | ApplyParentArgs, ApplyChildArgs and ProduceResult of both multi_edge_util.h | both loops are a list of events; the events of a group are its valid rows; induction on the events from the end | Iteration over the valid rows of a range is C67; SparseArrayBuilder and DenseArrayBuilder are the writes of one row. |
| C169 array._interleave_to_dense_array alternates the rows of its arguments | partial | Interleave | the loop of interleave.cc with its int counter | induction on rows and slots | Proved for results with fewer than 2^31 elements; for all larger ones the int counter overflows. Iteration over the rows is C72. |
| C170 Type inference of backend operators and restricted lambda operators | proved | BackendOp | qtype_inference.cc, ExtractParameterQTypes, backend_operator.cc and InferAttributes of restricted_lambda_operator.cc | on top of the parsing of inputs of C94; induction on the constraints; uniqueness of the outcome gives monotonicity | Predicates and the inference expression are functions of the types of their placeholders that can be evaluated for all types. |
| C171 Placeholders in error messages of type constraints | proved | ParamFormat | FormatParameterQTypes of parameter_qtypes.cc with positions | decomposition of the message into pieces, which is unique; induction on the position | — |
| C172 The text of an expression has one reading | proved | InfixRepr | operator_repr_functions.cc and the precedences of repr.h | a deterministic reader for the grammar of Python as an inductive relation; induction on the expression with what follows as continuation | Calls, leaves and placeholders are atoms. Negative literals, slices and source locations are not modelled; neither is the division of the text into tokens. |
| C173 Statements in the text of an expression have different names | partial | StmtNames | GenStatementNames of expr_debug_string.cc | forms of names; invariant of the loop | Proved if no name annotation is another one with a number; otherwise names can be equal. |
| C174 Type inference of operators that take operators | partial | HigherOrder | InferAttributes of seq.map, seq.reduce, while loops and core.apply | exact conditions for each outcome by cases; an order of what is known about inputs; induction on the elements and on the iterations | The conditions for a crash are exact and can occur. The state of a loop is proved to keep its type if the body infers one. |
| C175 Equal while loops bind arguments alike | partial | LoopSig | Make and the fingerprint of WhileLoopOperator | from the round trip of texts of signatures of C39: two parses of one text differ in default values only | Proved without default values; up to default values in general. |
| C176 The text of an expression is not as large as its tree | proved | DebugText | SelectStatementNodes and the loop of ToDebugString of expr_debug_string.cc | invariants of the loops; counting the uses of each node twice: large nodes that are written out have one use | The size is the number of operators, leaves and names of statements, not of characters; operators written in a custom way by registered functions are taken to write each input once. |
| C177 core._to_weak_float accepts exactly what it can be lowered for | partial | Casts (Weak) | CoreToWeakFloatOp, with core.to_float64 and DerivedQTypeDowncastOperator | case analysis on the shape; counterexample for sequences | Proved for scalars, optionals and arrays. False for sequences: a sequence of numbers is accepted with the type WEAK_FLOAT and cannot be lowered (counterexample). |
| C178 ExecuteTasksInParallel executes each task exactly once, whatever the schedule | partial | Tasks | ExecuteTasksInParallel as a transition system of the calling thread and the workers | invariant over all interleavings (numbers handed out, tasks started, tasks ended); a measure that decreases with each step | Proved for a positive max_parallelism and less than 2^31 tasks. With max_parallelism 0 the call returns without executing any task, with a negative one it throws (counterexamples). Tasks that throw or do not end, the failure to create a thread and memory orders are not modelled. |
| C179 Side outputs have the values that were annotated, and the expression keeps its value | proved | SideOut | ExtractSideOutputs with the loop of TransformOnPostOrder, on the post order | invariant of the loop: values of the results and of the side outputs | That an operator could reject its inputs without the annotations (MakeOpNode) is not modelled; PrepareSideOutputsForListener is not modelled. |

## Where the code does not have the property

Each of these is a theorem with a concrete witness (suffix `_counterexample` or `_overflow`), stated beside the theorem
that covers the remaining cases.

* C04: `exp_lower_bound` calls `std::advance` past the end of the range (undefined for standard iterators; nothing is dereferenced there).
* C07: `InplaceLogicalAndWithOffsets` reads `rhs[0]` for size 0 when `rhs_skip = 0 < lhs_skip`.
* C14, C25: `FromUniformGroups` and the unit dimension of `FlattenDims` overflow `int64_t` for 2^63-1 rows.
* C20: `ArraysAreEquivalent` is false for two empty `Array`s with different `missing_id_value`.
* C21: the fingerprint of an `IdFilter` ignores `ids_offset`, so different slices of one array share a fingerprint.
* C27: concatenating a single array skips the check of its size; accumulated sizes may overflow.
* C33: `Register` checks and stores without holding a lock: two overlapping calls may both succeed.
* C36: `AdjustmentId(INT64_MAX)` overflows.
* C37: `DecisionForest::FromTrees` does not reject cyclic trees, on which naive evaluation does not terminate.
* C43: with overwriting of inputs allowed, two leaves bound to one slot, or an output slot that is an input, give wrong results (the caller's obligation, not checked by the code).
* C49: `AddN(0, …)` is not a no-op for several accumulators (callers pass at least 1).
* C55: `DenseArrayPresenceAndOp` writes out of bounds, and `DenseArrayPresenceOrOp` ignores `bitmap_bit_offset`, when bitmaps start inside a word.
* C60: an evaluation nested in another one on the same thread shares its frame.
* C63: an interval with a NaN bound is true in the bitmask evaluator and false in naive evaluation; trees with shared nodes pass `FromTrees` and break the bitmask builder.
* C64: the midpoint of two split points overflows for bounds beyond FLT_MAX/2 (wrong value) and for `int64_t` values beyond 2^62 (undefined behaviour); inputs and set values that are infinite, and NaN with a set whose default is true, are evaluated differently from naive evaluation.
* C65: a custom split condition with a single optional float or int64 input cannot be compiled.
* C72: `FrameIterator` with `frame_buffer_count = 0` and at least one row loops forever.
* C66: `BatchedForestEvaluator::EvalBatch` with several evaluators overwrites an input that is also an output after the first evaluator, so the sums are wrong; `optimal_splits_per_evaluator = 0` divides by zero, the largest `int64_t` overflows.
* C70: `ArrayPointwiseOp` evaluates the functor for the missing_id_values even if no row consists of them: `[1, missing] // [3, 0]` fails with "division by zero" although no row divides by zero.
* C77: `MakeOptimizer` stops when `ApplyToNode` returns its argument. Two rules of one bucket that undo each other are therefore
  silently accepted and leave an expression that single rules would rewrite; with only one of them the optimizer reports too many
  iterations (`optimize_normal_counterexample`). With colliding `PatternKey` hashes one application runs rules that it would not
  run otherwise (`collision_counterexample`); values are kept in any case.
* C79: an annotation whose type argument is itself not known (`annotation.qtype(annotation.qtype(L.x, L.t), INT32)`) hides the leaf `x` from the comparison with the declared input types: the expression compiles with another input type for `x` than declared. `compile_inputs_counterexample`.
* C80: `strings.count` counts in an `int`, which overflows (undefined behaviour) at 2^31 occurrences. `count_counterexample`.
* C81: `LStripOp`/`RStripOp` on Bytes construct `std::bitset<256> char_set(256)`, which sets bit 8, so backspace characters are always stripped; and index it by a `char`, which is negative for bytes from 0x80 on, so such bytes in either argument throw `std::out_of_range`. `bytes_strip_backspace_counterexample`, `bytes_strip_throws_counterexample`.
* C85: `strings.split` of a Text with an empty separator gives single bytes, which are not texts (`split_text_counterexample`). The empty string has one part, but none if its `string_view` has a null pointer, which is the case in buffers made by `CreateUninitialized` and by `DeepCopy` of a buffer without characters: equal arrays give different results (`split_null_counterexample`).
* C89: `StringsBuffer::ReshuffleBuilder` ignores the base offset of the buffer (non-zero after `DeepCopy` of a slice) when it sets the offsets of the default: values that are not set are wrong or out of range for a non-empty default; for an empty one the buffer violates the requirements of its constructor (a failing DCHECK), and `DeepCopy` of it reads out of range. `reshuffle_default_counterexample`, `reshuffle_missing_counterexample`.
* C90: equal `StringsBuffer`s can have different hashes and fingerprints, `hash_counterexample`. (`DenseArray` combines the values instead.)
* C92: `CombinedOperatorFamily::Insert` creates the record before it checks the priority, so that a failed registration with a priority from 2 on for new input types leaves a record with a null operator; a later lookup with these input types follows the null pointer (`get_operator_counterexample`).
* C93: `ExprOperatorRegistry::Register` increments the revision ids before it lists the name; a `GenericOperator::BuildSnapshot` between the two stores a snapshot with the new revision id but without the overload, which stays in use after the registration has returned (until the next change in the namespace) (`snapshot_race_counterexample`).
* C94: an overload whose signature does not accept the number of inputs is never ready, so that the generic operator stays undecided although all types are known and another overload matches (`generic_misfit_counterexample`); conditions that read the leaf `input_qtype_sequence` can revise a decision when a type becomes known (`generic_leaf_counterexample`).
* C95: `CommonChecks` looks at the first and last point before trimming when it rejects asymptotes, so that a redundant infinite point (`{-inf;5}` before `{0;5};{1;6};{2;6};{3;7}`) makes a valid curve refused (`redundant_inf_counterexample`).
* C95: NaN coordinates are accepted, since `>=` between neighbours is false for NaN (`nan_counterexample`).
* C99: `MakeNameToKeyFn` finds the prefix by formatting a marker; with a width (`x%5s`) the key of the name `x    a` of the key `a` is
  `    a` (`width_counterexample`), with a precision (`x%.3s`) the marker is not found and only a `DCHECK` says so
  (`precision_counterexample`).
* C100: a `ChainSlotListener` whose listeners have a name with different types reports the type of the first one, but `Bind` with this type
  fails because the other listener refuses it (`chain_listener_counterexample`).
* C101: `TupleInputLoader` accepts a repeated name.  When its types differ, `Bind` succeeds and loading writes through `UnsafeToSlot` of another
  type (`tuple_duplicate_counterexample`); the typed references loader binds as well and then fails for every input
  (`typed_refs_duplicate_counterexample`).
* C102: `RegisteredOperator::GetSignature` and `GetDoc` put the same token into the visited set; a `GetDoc` that asks for the signature of its
  own registered operator is reported as circular if it happens below 24 other calls (`guard_counterexample`).  No operator in the repository
  does this.
* C104: `ExprDominatorTree::AddNodeAlias` keeps the first id of a node.  If a `core._short_circuit_where` node has nothing to
  short circuit and becomes equal to a `core.where` node of the original expression, the id of the latter is used for both;
  the node may then be taken into a branch although it is also needed outside, and is computed twice
  (`merge_counterexample`).  Values do not change (C103).
* C105: three rules of `presence.cc` (358-371, 372-384, 420-428) can change the type of the node, which the optimizer reports as an internal error; the second one only if its inner `a & c` has not been simplified before. Not established here: that such arguments reach the rule in a compiled expression.
* C106: `not (a < b) → a >= b` and `not (a <= b) → a > b` (`bool.cc`:62-63, 80-87) change the value for NaN.
* C107: `x + 0 → x`, balancing of products and `_add4` need laws that floating point does not have (`-0.0 + 0.0`, re-association).
* C110: `DECODE_DENSE_ARRAY_HEADER` calls `bm::BitmapSize(size)` on a size from the message; for sizes over 2^63-33 with a non-empty bitmap `bit_count + kWordBitCount` overflows (undefined behaviour, dense_array_decoder.cc:76-92, bitmap.h:47-49). Proved: `header_overflow_counterexample`.
* C111: serialization does not keep the fingerprint of an `Array` that is a slice with an id offset (the encoder writes ids without the offset) nor of an empty array with a `missing_id_value` (dropped): `array_fingerprint_counterexample`, `empty_array_fingerprint_counterexample`.
* C112: `DecodeArrayEdgeValue` ignores a `parent_size` given with split points; `DecodeDenseArrayEdgeValue` reports an error for it.
* C113: `ArrayEdge::IsEquivalentTo` is false for two mappings of no children whose empty arrays have different `missing_id_value` (consequence of C20): `is_equivalent_counterexample`.
* C114: in a plain sum of submodels `HandlePlainSumExpression` counts a submodel id only once if it belongs to two placeholders (`P.x + P.y` with the same id gives `P.x`); occurrences are counted in the expression before lowering, so an operator lowered to `x + x` is evaluated to `x`; if lowering removes all submodels, the empty filter selects the whole forest and its output is added. A truncation step from `2^31` to `2^32 - 2` becomes a negative `int` and removes all trees.
* C115: `CreatePartialEvaluator` accepts a range without upper bound on a truncated model and uses the trees behind the truncation.
* C116: `NodeIdFromProto` (codec.cc:186-192) reads an absent child as split node 0 (the root): the tree gets a cycle, `FromTrees` accepts it and evaluation does not end; a negative `adjustment_id` is read as a split node and a negative `split_node_id` as an adjustment (`absent_child_counterexample`, `negative_id_counterexample`). A `step` or `submodel_id` of `INT_MAX` overflows in `Initialize` (decision_forest.cc:152-153; `max_step_counterexample`). Ids are 32-bit in the message and 64-bit in memory (`large_tree_counterexample`).
* C119: `edge.pair_left` with a negative size (`[-1, 3]`) inserts more split points than the buffer holds (`child_count` counts the negative size, edge_ops.h:144-162; the inserter only checks in debug builds); `edge.pair_right` (`[2, -1, 1]`) returns an edge holding uninitialised memory. The sum of the sizes (145, 192) is a plain addition that overflows before the overflow flag is tested. The operators check only types, not signs.
* C121: `edge.resize_groups_child_side` with a negative size beside larger ones (`[-1, 3]`, `[3, -1]`) passes the test of the total and writes outside of its buffers (edge_ops.h:396-403); `new_size * parent_size` (465) and `total_size +=` (488) can overflow.
* C122: `edge.resize_groups_parent_side` with one large size overflows in `split_points[i - 1] + new_size` (edge_ops.h:523).
* C130: the `double_underscore` policy gives `a_`/`b` and `a`/`_b` one name (`double_underscore_counterexample`); `policy.h` warns about collisions for other policies only.
* C134, C135: `MoveImmutablesIntoInitialState` (while_loop.cc:142-148) checks only the names of the body for the reserved prefix.
  A variable `_while_loop_immutable_0` in the initial state is kept by `merge` and replaces the extracted expression, so the loop
  computes a wrong value (`reserved_initial_counterexample`); a placeholder of that name in the condition is accepted without an
  initial value (`reserved_variable_counterexample`).  A constant variable named `loop_state` gives a duplicate parameter and an error.
* C136: `experimental.agg_moving_average` with window size 0 and a missing value calls `back()` on an empty deque, and the int64 window size is
  truncated to `int`, so that 2^32 + 1 means 1 (`moving_average_zero_counterexample`, `moving_average_window_counterexample`).
* C137: `experimental.ewma` is said to follow pandas, but rows after the last present row stay missing while gaps before it are filled (pandas
  repeats the last average there too); stated as it is in the property.
* C138: `seq.range(-2^63, 2^63-1, 2^62)` is empty instead of having four elements (the size wraps in `uint64_t`), and
  `seq.range(2^63-2, 2^63-1, 2)` overflows a signed integer after its only element: `seq_range_wrap_counterexample`,
  `seq_range_overflow_counterexample` (seq/sequence_operators.h:53-77).
* C140: `seq.all_equal` of a sequence of one missing element returns present, although it is documented to return whether all elements
  are present and equal: `seq_all_equal_counterexample` (seq.py:156-165).
* C141: `dict.make` does not compare the sizes of keys and values, so `dict.get` of a later key is an out-of-range error of `array.at`
  (`dict_sizes_counterexample`); it accepts missing keys, after which `dict.keys` is an internal error if a missing key precedes a present
  one (`dict_missing_key_counterexample`; dict_operators.h:57-60 has a TODO).
* C142: for such a dict, `BoolDictOptimization` makes a lookup fail that succeeded before: `bool_dict_counterexample`.
* C143: the comment on `min_float_to_int_safe_value` gives a bound for `double` to `int32_t` that no `double` has; the code gets the right one
  only because 2^53 + 1 is rounded to 2^53 (cast_operator.h:78-100).  `core.to_uint64` rejects numbers between -1 and 0 while
  `core.to_int64` truncates them to 0: `cast_unsigned_counterexample`.
* C145: `PermanentEvent::Notify` may return before the event is set, if another call is between `test_and_set` and the notification:
  `event_return_counterexample` (permanent_event.h:54-58).
* C149: `core.get_nth` and `core.zip` reject an empty named tuple as a "non-tuple object with no fields" although `core.slice_tuple` accepts
  it (tuple_expr_operator.cc:105-124, tuple_bootstrap_operators.cc:217-224).
* C150: `InferAttributes` of `core.apply_varargs`, `core.reduce_tuple` and `core.map_tuple` looks only at the types of the fields, but the
  lowering of a literal tuple shows the values to the operator, which may then fail; the theorems say this.
* C153: the lookup of a signature always assumes broadcasting (qexpr/casting.cc:43-46), but `BuildNodeDepsWithCasts` broadcasts only if one of
  the arguments is an array; a call with scalars of an operator that has array signatures only fails with "implicit casting … is not allowed"
  instead of "not found" (an example in `CastsProps` shows it). Arrays of two kinds also fail only in the cast.
* C155: `Traverser::TraverseSubmessages` (reader.cc:281-287) reads every intermediate field from the message `m` that it was called with
  instead of `*current_message`. With two or more intermediate fields it is a usage error of the reflection interface if the message
  types differ (`nested_crash_counterexample`), and for recursive message types the values of other messages are returned silently
  (`nested_wrong_counterexample`: `[1, -, 1, -]` instead of `[3]`). It also pushes null pointers for missing submessages, which are
  dereferenced at reader.cc:293 (`missing_crash_counterexample`; for instance `/next/cs/@size` if `next` is not set,
  `missing_shape_counterexample`). The tests have at most one intermediate repeated field.
* C161: a mapper of `core.map` inherits `allow_overriding_input_slots` (prepare_core_map_operator.cc:173-178), which `ModelExecutor` sets (model_executor.h:172). Scalar arguments are copied to the 64 frames once (compile_core_map_operator.cc:100-108), so a mapper whose program takes the slot of a scalar argument for an intermediate result computes wrong values from the 65th row on; `reused_scalar_counterexample`. `where` and `while` reset the option (dynamic_compiled_expr.cc:232-241).
* C162: `VerifyDerivedQType` computes `type_fields_ok` and then tests `type_layout_ok` a second time (derived_qtype.cc:117), so derived types with incompatible fields are accepted; `incompatible_fields_counterexample`.
* C167: the rules of const_with_shape.cc move operators that can fail (`math.floordiv`, `math.mod`, `core.to_int32`, …) from the rows of an array to a
  scalar.  For an empty shape the original expression is an empty array and the optimized one fails, e.g. with "division by zero".
* C169: `array._interleave_to_dense_array` counts the elements of the result with an `int` (interleave.cc:119-122); for 2^31 elements or more the
  counter overflows.
* C173: names of statements in `ToDebugString` are not unique: with two nodes annotated `x` and one annotated `x._1`, which is a safe name, two
  statements are called `x._1` (expr_debug_string.cc:126-132) and the text is ambiguous.
* C174: `SeqMapOperator::InferAttributes` passes the type of the output to `GetSequenceQType` without a check (seq_map_expr_operator.cc:102-103); if the
  operator infers no type this reads the name of a null type. `core.map` has the check (map_operator.cc:132-134).
* C174: `WhileLoopOperator::Make` accepts the signature `*args`; `InferAttributes` of no arguments then reads `inputs[0]` (while_loop.cc:319-321; a `DCHECK`
  is all that is in the way).
* C174: inference of a while loop shows the literals among the immutable inputs to the condition and the body (while_loop.cc:329); the compiler has only their
  types, so that a body that needs a literal is accepted first and rejected when it is compiled.
* C175: default values of a while loop are not part of its fingerprint (while_loop.cc:311) and not compared with those of the condition and the body.
* C177: `CoreToWeakFloatOp::GetOutputQType` looks at the value type of the argument and takes whatever is neither optional nor array for a scalar
  (weak_qtype_operators.cc:61-74): `SEQUENCE[INT32]` is accepted with the type `WEAK_FLOAT`, and fails when it is lowered to `core.to_float64`.
* C178: `ExecuteTasksInParallel` with `max_parallelism` 0 returns without executing the tasks (threading.cc:47-55); with a negative one `reserve` throws
  `std::length_error`.
* C68: `OrdinalRank` ignores the tie breaker among NaNs.
* C71: `SubstituteByFingerprint` and `SubstituteByName` substitute below replaced nodes too and may fail because of a node that does not occur in the result.

## Not modelled

* Floating point arithmetic (rounding); floats occur only where comparisons matter (split conditions, ranks).
* The text of error messages and notes (except where an error value carries data that decides the outcome).
* Memory management: reference counts and moves; buffers are values.  (Slots of a frame: C43, C51; buffer factories: C97.)
* Hash collisions of 128-bit fingerprints.
* Everything else in `/repo` that is not named in the table: the Python and codegen layers, most operators of
  `qexpr/operators`, the parsers of the serialization codecs, the compilation of optimizers, the protocol buffer accessors of the code generators in `io`.
* The C++ memory model beyond sequential consistency and stale relaxed reads (C32).

## Axioms of each theorem

From `#print axioms` (generated).

**no axioms** (13 theorems): `Edge.from_uniform_groups_overflow`, `Forest.adjustment_id_counterexample`, `Agg.all_addN`, `Agg.logicalAll_addN`, `Agg.logicalAny_addN`, `Agg.addN_zero_counterexample`, `Text.split_null_counterexample`, `FCodec.large_tree_counterexample`, `Naming.get_policy`, `Dict.dict_missing_key_counterexample`, `ConstShape.unary_names`, `ConstShape.binary_names`, `HigherOrder.whileLoop_empty_counterexample`

**propext** (51 theorems): `Search.exp_lower_bound_iterator_counterexample`, `Arr.id_to_offset_full_empty`, `Arr.array_fingerprint_counterexample`, `Jagged.broadcastable_trans`, `Conc.Exec.evaluation_progress`, `Forest.sums_unique`, `Forest.naive_cycle_counterexample`, `Expr.with_new_deps`, `Expr.with_new_deps_wf`, `Eval.While.plain_loop_unique`, `Dense.unary_elements`, `Dense.has_elements`, `Conc.Exec.thread_local_nested_counterexample`, `Agg.groupBy_nan`, `Opt.optimize_normal_counterexample`, `Opt.collision_counterexample`, `Prep.Ex.compile_inputs_counterexample`, `Text.bytes_strip_throws_counterexample`, `Io.chain_listener_counterexample`, `Io.tuple_duplicate_counterexample`, `Circular.guard_counterexample`, `Where.merge_counterexample`, `FCodec.absent_child_counterexample`, `Naming.double_underscore_counterexample`, `Seq.seq_range_zero_step`, `Seq.seq_range_bounds`, `Dict.dict_sizes_counterexample`, `Dict.bool_dict_counterexample`, `Refs.refcount_progress`, `Refs.event_return_counterexample`, `Objects.infer_get_object_attr_literal`, `Objects.infer_get_object_attr_qtype`, `Tuple.zip_empty`, `Tuple.reduce_tuple_empty`, `Casts.get_cast_type`, `Casts.cast_values_infer`, `Status.ok_stays_ok`, `Status.first_error_unique`, `Status.caller_first_error`, `Status.lift_vector`, `CoreMap.reused_scalar_counterexample`, `Derived.basic_fields_compatible`, `Derived.cast_round_trip`, `Derived.cast_outputs_known`, `ExprOverload.choice_stable`, `ExprOverload.rejection_stable`, `InfixRepr.reads_unique`, `HigherOrder.seqMap_null_counterexample`, `HigherOrder.whileLoop_literal_counterexample`, `LoopSig.makeLoop_iff`, `LoopSig.lambda_signature`

**Quot.sound, propext** (261 theorems): `Lru.Spec.Kept.unique`, `Bits.get_bit`, `Bits.inplace_logical_and_with_offsets_empty_counterexample`, `Bitmap.are_all_bits_unset`, `Dense.element_access`, `Dense.slice_elements`, `Edge.compose_edges_empty`, `Arr.array_equivalence_counterexample`, `Arr.array_fingerprint_defined`, `Jagged.flatten_dims_unit_overflow_counterexample`, `Jagged.concat_single_size_counterexample`, `Jagged.concat_overflow_counterexample`, `Forest.split_node_id`, `Forest.node_ids_distinct`, `Forest.filter_iff`, `Expr.deep_unique`, `Slots.shared_input_counterexample`, `Slots.output_is_input_counterexample`, `Eval.run_cancel`, `Eval.While.while_terminates`, `Eval.While.while_result`, `Eval.While.while_fuel`, `Serial.decode_meaning`, `Serial.decode_no_ub`, `Ops.add_op`, `Ops.subtract_op`, `Ops.multiply_op`, `Ops.neg_op`, `Ops.sign_op`, `Ops.max_op`, `Ops.min_op`, `Ops.FloorDivMod.unique`, `Ops.unsigned_floordiv_mod`, `Ops.wraps_unique`, `Ops.wraps_exact`, `Agg.count_addN`, `Agg.any_addN`, `Agg.sum_addN`, `Agg.functor_addN`, `Agg.min_addN`, `Agg.max_addN`, `Agg.collapse_addN`, `Agg.count_result`, `Agg.any_result`, `Agg.all_result`, `Agg.logicalAll_result`, `Agg.logicalAny_result`, `Agg.functor_result`, `Agg.min_nan`, `Agg.max_nan`, `Agg.collapse_result`, `Agg.stringJoin_result`, `QType.common_idem`, `QType.common_null`, `QType.canCast_null`, `QType.broadcast_spec`, `QType.sampleRegistry_ok`, `Mem.frame_slots`, `Mem.frame_alignment`, `Mem.frame_objects`, `Mem.addSubFrame_total`, `Mem.frame_array`, `Dense.presence_and_size_mismatch`, `Dense.presence_and_offset_counterexample`, `Dense.presence_or_offset_counterexample`, `Conc.Scope.scope_guard_stack`, `Str.truncate_spec`, `Forest.addOp_value`, `Forest.bitmask_nan_bound_counterexample`, `Forest.bitmask_shared_counterexample`, `Agg.ordinalRank_nan_counterexample`, `Agg.isNth_unique`, `Agg.argMin_result`, `Agg.argMax_result`, `Agg.argMin_addN`, `Agg.argMax_addN`, `Expr.substitute_counterexample`, `Group.dense_group_op_size`, `Group.array_group_op_size`, `Group.count_lawful`, `Group.any_lawful`, `Group.all_lawful`, `Group.logicalAll_lawful`, `Group.logicalAny_lawful`, `Group.sum_lawful`, `Group.min_lawful`, `Group.max_lawful`, `Group.functor_lawful`, `Group.stringJoin_lawful`, `Group.median_lawful`, `Group.inverseCdf_lawful`, `Group.collapse_lawful`, `Group.argMin_lawful`, `Group.argMax_lawful`, `Group.inverseMapping_lawful`, `Group.takeOver_lawful`, `Group.group_op_no_children_counterexample`, `Forest.single_float_overflow_counterexample`, `Forest.single_float_infinite_counterexample`, `Forest.single_float_set_counterexample`, `Forest.single_float_nan_counterexample`, `Forest.single_int64_overflow_counterexample`, `Forest.single_custom_condition_counterexample`, `Frames.create_iff`, `Frames.frame_iterator_no_buffers_counterexample`, `Batched.batched_in_place_counterexample`, `Arr.array_pointwise_size_mismatch`, `Arr.unary_op_ok`, `Arr.array_pointwise_error_counterexample`, `Arr.array_presence_or_size_mismatch`, `Opt.apply_node`, `Prep.extract_value`, `Prep.extract_plain`, `Text.bytes_strip_spaces`, `Text.bytes_strip_chars`, `Text.bytes_strip_chars_partial`, `Text.bytes_strip_backspace_counterexample`, `Text.replaced_unique`, `Text.decoded_isText`, `Text.join_spec`, `StrBuf.uninitialized_refines`, `StrBuf.valid_holds`, `StrBuf.slice_refines`, `StrBuf.slice_from_refines`, `StrBuf.reshuffle_default_counterexample`, `StrBuf.reshuffle_missing_counterexample`, `Overload.find_matching`, `Overload.find_matching_perm`, `Overload.insert_status`, `Overload.get_operator`, `Overload.get_operator_counterexample`, `Overload.registry_names`, `Overload.registry_lookup`, `Generic.snapshot_race_counterexample`, `Generic.overload_eval`, `Generic.generic_misfit_counterexample`, `Generic.generic_leaf_counterexample`, `Curve.build_back_sign`, `Curve.build_finite`, `Curve.build_increasing`, `Curve.segments_sorted`, `Curve.identity_increasing`, `Curve.findSeparatorUsed_iff`, `Io.wildcard_spec`, `Io.callback_spec`, `Circular.guard_restores`, `Circular.guard_terminates`, `Circular.guard_sound_partial`, `Where.only_in_where`, `Rules.and_or_type_counterexample`, `Codec.header_overflow_counterexample`, `Codec.array_fingerprint_counterexample`, `Codec.empty_array_fingerprint_counterexample`, `Codec.count_exact`, `ArrEdge.compose_no_edges`, `ArrEdge.is_equivalent_counterexample`, `FCodec.negative_id_counterexample`, `FCodec.max_step_counterexample`, `FCodec.model_encoding_exact`, `FCodec.same_model_unique`, `EdgeOps.pair_left_counterexample`, `EdgeOps.pair_sum_counterexample`, `EdgeOps.pair_right_counterexample`, `EdgeOps.expand_scalar_values`, `EdgeOps.resize_child_side_negative`, `EdgeOps.resize_child_side_counterexample`, `EdgeOps.resize_child_side_overflow_counterexample`, `EdgeOps.resize_parent_side_errors`, `EdgeOps.resize_parent_side_counterexample`, `DOps.resize_shape`, `Naming.ids_distinct`, `Naming.column_parent`, `Naming.default_names`, `Naming.single_underscore_names`, `Naming.double_underscore_names`, `Naming.protopath_id_names`, `Lambda.subst_eval`, `Seq.seq_at`, `Seq.seq_zip`, `Seq.seq_zip_sizes`, `Seq.seq_fingerprint`, `Seq.seq_map`, `Seq.seq_map_sizes`, `Seq.seq_reduce`, `Seq.seq_all_any`, `Seq.seq_all_equal_counterexample`, `Dict.dict_make`, `Dict.dict_rows`, `Dict.dict_contains_opt`, `Cast.roundNat_ties_even`, `Objects.get_attr_none`, `Objects.make_object`, `Tuple.get_nth`, `Tuple.zip`, `Tuple.apply_varargs`, `Tuple.reduce_tuple`, `Tuple.map_tuple`, `Casts.shape_for_broadcasting`, `Proto.created_for_paths`, `Proto.optional_created`, `Proto.optional_reads`, `Proto.switch_keeps`, `Proto.array_created`, `Proto.array_reads_partial`, `Proto.sizes_read_partial`, `Proto.shape_created`, `Proto.shape_reads_partial`, `Proto.nested_crash_counterexample`, `Proto.missing_crash_counterexample`, `Proto.nested_wrong_counterexample`, `Proto.missing_shape_counterexample`, `Proto.resolve_path`, `Proto.loader_path`, `Proto.size_forms`, `Status.with_payload_and_cause`, `Status.with_cause`, `Status.with_payload`, `Status.with_updated_message`, `Status.with_note`, `Status.check_input_status`, `Status.caller_calls`, `Status.lift_tuple`, `Status.lift_map`, `Status.lift_pairs`, `CoreMap.map_infer_unknown`, `Derived.verify_iff_partial`, `Derived.incompatible_fields_counterexample`, `Derived.fields_flag_iff`, `Derived.basic_verified_iff`, `Derived.decay_idempotent`, `Derived.cast_operator`, `Derived.label_of_labeled`, `Derived.label_stable`, `Derived.label_injective`, `Derived.repr_set`, `ExprOverload.lookup_first`, `ExprOverload.lowering_agrees`, `ConstShape.empty_shape_counterexample`, `MultiEdge.parent_args`, `Interleave.interleave_error`, `Interleave.large_result_counterexample`, `BackendOp.infer_spec`, `BackendOp.infers_unique`, `BackendOp.restricted_spec`, `ParamFormat.pieces_unique`, `StmtNames.unique_name_kept`, `StmtNames.names_counterexample`, `HigherOrder.seqMap_known`, `HigherOrder.seqMap_crash`, `HigherOrder.whileLoop_known`, `HigherOrder.map_sound`, `HigherOrder.loop_sound_partial`, `Casts.weak_sequence_counterexample`, `Tasks.tasks_once`, `Tasks.tasks_progress`, `Tasks.tasks_terminate`, `Tasks.threads_partial`, `Tasks.no_threads_counterexample`, `Tasks.negative_counterexample`, `SideOut.extract_values`, `SideOut.extract_fails`

**Classical.choice, Quot.sound, propext** (561 theorems): `Lru.lru_refines_ideal`, `Lru.lru_keys_unique`, `Lru.lru_put_bound`, `Lru.lru_lookup_latest`, `Lru.lru_no_premature_eviction`, `Search.lower_bound_int`, `Search.upper_bound_int`, `Search.lower_bound_flt`, `Search.upper_bound_flt`, `Search.bounds_nan`, `Search.galloping_lower_bound`, `Search.galloping_eq_lower_bound`, `Search.exp_lower_bound_partial`, `Search.exp_lower_bound_sorted`, `Bits.set_bit`, `Bits.set_bits_in_range`, `Bits.get_ones_count_in_range`, `Bits.find_next_set_bit`, `Bits.copy_bits`, `Bits.logical_and`, `Bits.in_place_logical_and`, `Bits.inplace_logical_and_with_offsets_partial`, `Bitmap.count_bits`, `Bitmap.are_all_bits_set`, `Bitmap.intersect_bits`, `Bitmap.intersect_elements`, `Bitmap.builder_bits`, `Bitmap.almost_full_builder`, `Bitmap.almost_full_builder_prefix`, `Dense.slice_slice`, `Dense.force_no_offset_elements`, `Dense.present_count`, `Dense.presence_queries`, `Dense.builder_elements`, `Dense.builder_prefix`, `Dense.create_elements`, `Dense.equivalent_iff`, `Dense.equivalent_iff_eq`, `Dense.fingerprint_iff`, `Edge.from_split_points_accepts`, `Edge.from_mapping_accepts`, `Edge.from_uniform_groups_accepts`, `Edge.edge_is_partial_function`, `Edge.to_mapping_same_relation`, `Edge.to_split_points_same_relation`, `Edge.is_equivalent_iff_same_relation`, `Edge.is_equivalent_symm`, `Edge.compose_edges_composes`, `Arr.id_to_offset`, `Arr.id_to_offset_missing`, `Arr.make_filter`, `Arr.array_get`, `Arr.with_ids`, `Arr.to_dense_form`, `Arr.to_sparse_form`, `Arr.array_slice`, `Arr.array_present_count`, `Arr.array_equivalence_partial`, `Arr.array_equivalence_exact`, `Arr.array_fingerprint_partial`, `Arr.filter_merge`, `Arr.filter_intersect`, `Arr.for_each_common_id`, `Arr.create_array`, `Arr.create_array_ids`, `Arr.sparse_array_builder`, `Jagged.from_edges_correct`, `Jagged.add_dims_correct`, `Jagged.remove_dims_correct`, `Jagged.flatten_dims_correct`, `Jagged.flatten_dims_correct`, `Jagged.flatten_dims_size`, `Jagged.shapes_equivalent_iff`, `Jagged.fast_equivalence_sound`, `Jagged.broadcastable_iff`, `Jagged.broadcast_edge_correct`, `Jagged.concat_dense_correct`, `Jagged.concat_array_correct`, `Jagged.concat_shapes_correct`, `Jagged.concat_dense_error_partial`, `Jagged.concat_array_error_partial`, `Cfg.dominator_tree_correct`, `Cfg.create_accepts`, `Cfg.empty_frontier_correct`, `Cfg.empty_frontier_is_empty`, `Cfg.externalize_correct`, `Conc.cancel_safe`, `Conc.cancel_no_leak`, `Conc.cancel_status_once`, `Conc.cancel_effective`, `Conc.callback_at_most_once`, `Conc.unsubscribed_never_runs`, `Conc.subscribed_runs_once`, `Conc.late_subscribe_runs`, `Conc.operations_complete`, `Reg.registry_safe`, `Reg.lookup_latest`, `Reg.register_sequential`, `Reg.unregister_sequential`, `Reg.register_race_counterexample`, `Reg.register_unique_partial`, `Reg.changes_alternate`, `Reg.listing_exact`, `Reg.registry_safe`, `Reg.revision_counts`, `Reg.revision_unchanged`, `Reg.revision_owed`, `Reg.register_sequential`, `Reg.unregister_sequential`, `Conc.Exec.pool_exclusive`, `Conc.Exec.busy_exclusive`, `Forest.adjustment_id_partial`, `Forest.from_trees_accepts`, `Forest.validate_input_slots_iff`, `Forest.naive_sound`, `Forest.naive_complete_partial`, `Sig.validate_iff`, `Sig.bind_ok_iff`, `Sig.bind_error`, `Sig.bind_order`, `Sig.bind_deps_count`, `Sig.make_show`, `Sig.make_valid`, `Sig.make_show_make`, `Sig.show_injective`, `Expr.post_order`, `Expr.visitor_order`, `Expr.pre_and_post`, `Expr.leaf_keys`, `Expr.traverse_eq`, `Expr.transform_eq`, `Expr.deep_terminates`, `Expr.deep_sound`, `Expr.deep_error`, `Expr.deep_complete`, `Expr.deep_fixed_point`, `Expr.deep_value`, `Slots.execute_correct`, `Slots.bind_evaluates`, `Slots.bind_no_alias`, `Slots.bind_slot_types`, `Slots.bind_succeeds`, `Slots.compiled_expr_value`, `Eval.where_compiles`, `Eval.where_run`, `Eval.where_run_error`, `Serial.round_trip`, `Serial.encode_decode`, `Serial.encode_succeeds`, `Serial.written_once`, `Serial.decode_hints_sound`, `Serial.decode_hints_complete`, `Serial.decode_hints_exact`, `Serial.decode_write_once`, `Serial.decode_container`, `Ops.abs_op`, `Ops.floordiv_mod`, `Ops.fdiv_spec`, `Agg.sum_result`, `Agg.min_result`, `Agg.max_result`, `Agg.inverseMapping_result`, `Agg.inverseMapping_error`, `QType.common_comm`, `QType.common_assoc`, `QType.common_exists`, `QType.common_span_perm`, `QType.common_span_repeat`, `QType.canCast_iff`, `QType.canCast_partial_order`, `QType.common_least`, `Mem.frame_blocks`, `Mem.registerSlot_iff`, `Bitmap.iterate_by_groups`, `Bitmap.iterate_all`, `Dense.for_each_visits`, `Dense.for_each_present_visits`, `Dense.binary_elements`, `Dense.universal_elements`, `Dense.presence_not_elements`, `Dense.presence_and_elements_partial`, `Dense.presence_or_elements_partial`, `Dense.presence_or_const_elements_partial`, `Arr.array_for_each`, `Arr.array_for_each_present`, `Str.is_identifier_iff`, `Str.is_qualified_iff`, `Str.within_one_typo_iff`, `Conc.Exec.thread_local_exclusive_partial`, `Forest.regular_compile_iff`, `Forest.regular_predict`, `Forest.boosted_predict`, `Forest.boosted_predict_sum`, `Forest.to_oblivious_ends`, `Forest.to_oblivious_sound`, `Forest.to_oblivious_iff`, `Forest.bitmask_eval`, `Forest.sortDedup_distinct`, `Agg.ordinalRank_result_partial`, `Agg.denseRank_result`, `Agg.median_result`, `Agg.inverseCdf_result`, `Agg.groupBy_result`, `Agg.takeOver_result`, `Group.dense_iterate`, `Group.dense_iterate_from_zero`, `Group.array_iterate`, `Group.array_iterate_dense`, `Group.array_iterate_simple`, `Group.array_estimate`, `Expr.substitute_ok`, `Expr.substitute_terminals`, `Expr.substitute_succeeds`, `Expr.substitute_placeholders`, `Expr.substitute_leaves_value`, `Group.dense_group_op`, `Group.array_group_op`, `Group.dense_group_scalar`, `Group.array_group_scalar`, `Group.group_op_representation`, `Group.ordinalRank_lawful`, `Group.denseRank_lawful`, `Forest.single_float_partial`, `Forest.single_int64_partial`, `Forest.forest_evaluator_partial`, `Forest.forest_evaluator_agree_partial`, `Forest.forest_evaluator_rejects`, `Frames.frame_iterator`, `Frames.barrier_threads`, `Frames.barrier_threads_terminate`, `Frames.frame_iterator_parallel`, `Batched.batched_forest_partial`, `Batched.batched_accepts`, `Batched.batched_optimal_counterexample`, `Arr.array_pointwise`, `Arr.array_pointwise_total`, `Arr.array_pointwise_lifted`, `Arr.binary_op_ok`, `Arr.array_presence_or`, `Arr.array_presence_or_const`, `Startup.run_order`, `Startup.run_ok`, `Startup.run_error`, `Startup.run_succeeds_iff`, `Startup.run_registration_order`, `Opt.create_rule`, `Opt.apply_rule`, `Opt.rule_sound`, `Opt.pattern_rule_inert`, `Opt.optimize_ok`, `Opt.optimize_gives_up`, `Opt.optimize_value`, `Opt.optimize_normal`, `Prep.prepare_terminates`, `Prep.prepare_value`, `Prep.prepare_attr`, `Prep.prepare_normal`, `Prep.extract_types`, `Prep.extract_conflict`, `Prep.compile_inputs`, `Prep.compile_value`, `Text.bytes_find`, `Text.bytes_rfind`, `Text.text_find`, `Text.text_rfind`, `Text.bytes_substr`, `Text.text_substr`, `Text.text_ops_safe`, `Text.contains_bytes`, `Text.contains_text`, `Text.text_length`, `Text.bytes_count`, `Text.text_count`, `Text.count_many`, `Text.count_counterexample`, `Text.text_strip`, `Text.bytes_replace`, `Text.text_replace`, `Text.decode_strict`, `Text.decode_lenient`, `Text.decoded_text`, `Text.decode_encode`, `Text.parse_int`, `Text.parse_int_ops`, `Text.parse_as_text`, `Text.decimalInt_unique`, `Text.split_separator`, `Text.split_empty_separator`, `Text.split_words`, `Text.split_edge`, `Text.split_text`, `Text.join_split`, `Text.split_join`, `Text.split_text_counterexample`, `Text.format_renders`, `Text.arg_names`, `Text.format_escape`, `Text.within_one_typo`, `StrBuf.builder_refines`, `StrBuf.create_refines`, `StrBuf.deepCopy_refines`, `StrBuf.equal_refines`, `StrBuf.reshuffle_partial`, `StrBuf.create_hash_partial`, `StrBuf.hash_counterexample`, `Overload.castOrder_qtype`, `Generic.snapshot_fresh_partial`, `Generic.snapshot_runs`, `Generic.generic_choice`, `Generic.generic_monotone`, `Generic.generic_decides`, `Generic.generic_perm`, `Generic.dispatch_choice`, `Generic.dispatch_monotone`, `Curve.eval_control_partial`, `Curve.eval_total_partial`, `Curve.eval_between_partial`, `Curve.eval_outside`, `Curve.eval_monotone_partial`, `Curve.eval_extension_partial`, `Curve.build_front_sign`, `Curve.log_increasing`, `Curve.log1p_increasing`, `Curve.symlog1p_increasing`, `Curve.redundant_inf_counterexample`, `Curve.nan_counterexample`, `Curve.parse_iff`, `Curve.parse_toString`, `Arena.arena_buffers`, `Arena.arena_disjoint`, `Arena.arena_reset_reuses`, `Arena.heap_buffers`, `Io.bind_iff`, `Io.chain_spec`, `Io.filter_spec`, `Io.accessors_spec`, `Io.delegating_spec`, `Io.dynamic_spec`, `Io.name_to_key_partial`, `Io.width_counterexample`, `Io.precision_counterexample`, `Io.listener_bind_iff`, `Io.chain_listener_iff`, `Io.chain_listener_partial`, `Io.accessors_listener_spec`, `Io.delegating_listener_spec`, `Io.typed_refs_spec`, `Io.span_spec`, `Io.tuple_spec`, `Io.struct_load`, `Io.struct_listen`, `Io.typed_refs_duplicate_counterexample`, `Circular.decay_spec`, `Where.extract_spec`, `Where.extract_value`, `Where.extract_body`, `Where.global_value`, `Where.branch_takes_exactly_partial`, `Rules.presence_keeps`, `Rules.presence_types_partial`, `Rules.and_to_and_or_typed`, `Rules.bool_keeps`, `Rules.not_less_keeps_iff`, `Rules.not_less_counterexample`, `Rules.bool_typed`, `Rules.balance_keeps`, `Rules.balance_mul_keeps_iff`, `Rules.reduce_keeps_iff`, `Rules.arithmetic_keeps_iff`, `Rules.short_circuit_keeps`, `Rules.other_typed`, `Rules.optimize_keeps`, `Rules.optimize_keeps_int`, `Rules.int_laws`, `Rules.all_rules_complete`, `Codec.dense_round_trip`, `Codec.dense_message_iff`, `Codec.unit_round_trip`, `Codec.strings_round_trip`, `Codec.decode_dense_exact_partial`, `Codec.decode_unit_exact_partial`, `Codec.decode_strings_exact_partial`, `Codec.array_round_trip`, `Codec.decode_array_exact`, `Codec.array_fingerprint_kept_partial`, `Codec.dense_edge_round_trip`, `Codec.array_edge_round_trip`, `Codec.decode_dense_edge_exact`, `Codec.decode_array_edge_exact`, `Codec.array_edge_accepts`, `ArrEdge.dense_edge_and_back`, `ArrEdge.to_mapping_same`, `ArrEdge.to_split_points_same`, `ArrEdge.compose_edges_composes`, `ArrEdge.is_equivalent_iff_partial`, `ArrEdge.split_size_counts`, `ArrEdge.from_uniform_groups_accepts`, `FModel.model_value_partial`, `FModel.no_submodels_value`, `FModel.bag_counts`, `FModel.shared_ids_counterexample`, `FModel.count_before_lowering_counterexample`, `FModel.ignored_submodel_counterexample`, `FModel.truncation_overflow_counterexample`, `FModel.partial_eval_value`, `FModel.partial_ranges_add`, `FModel.partial_all_steps`, `FModel.partial_unbounded_counterexample`, `FCodec.forest_round_trip`, `FCodec.forest_encoding_injective`, `FCodec.forest_encoding_fails_iff`, `FCodec.decoded_forest_safe`, `FCodec.decoding_defined_partial`, `FCodec.decoding_exact_partial`, `FCodec.model_round_trip`, `FCodec.model_decoding_exact`, `EdgeOps.from_sizes_builds`, `EdgeOps.sizes_counts`, `EdgeOps.sizes_of_from_sizes`, `EdgeOps.from_sizes_of_sizes`, `EdgeOps.pairs_are_pairs`, `EdgeOps.pair_edges_partial`, `EdgeOps.pair_missing_size`, `EdgeOps.expand_values`, `EdgeOps.resize_child_side_partial`, `EdgeOps.resize_child_side_sizes_partial`, `EdgeOps.resize_child_side_errors`, `EdgeOps.resize_child_side_scalar`, `EdgeOps.resize_parent_side_partial`, `EdgeOps.resize_parent_side_sizes`, `DOps.at_element`, `DOps.at_list`, `DOps.at_list_error`, `DOps.slice_operator`, `DOps.concat_operator`, `DOps.concat_slices`, `DOps.slices_of_concat`, `DOps.present_indices_values`, `DOps.from_indices_accepts`, `DOps.from_indices_elements`, `DOps.from_indices_round_trip`, `DOps.unique_general`, `DOps.unique_values`, `DOps.select_operator`, `DOps.select_present`, `DOps.simple_op_elements`, `DOps.factories`, `FModel.create_accepts`, `Naming.parse_accepts`, `Naming.parse_total`, `Naming.parse_exact`, `Naming.round_trip`, `Naming.remove_prefix`, `Naming.child_column_size`, `Naming.table_parent`, `Naming.googlesql_names`, `Naming.leaf_only`, `Lambda.make_accepts`, `Lambda.infer_subst`, `Lambda.wrong_count`, `Lambda.lower_subst`, `Lambda.lower_node`, `Lambda.lower_value`, `While.while_value_partial`, `While.reserved_initial_counterexample`, `While.while_accepts_partial`, `While.reserved_variable_counterexample`, `Series.moving_average_partial`, `Series.moving_average_negative`, `Series.moving_average_window_counterexample`, `Series.moving_average_zero_counterexample`, `Series.ewma_rejects`, `Series.ewma_adjusted`, `Series.ewma_unadjusted`, `Series.ewma_recursion`, `Series.ewma_bounds`, `Seq.seq_range_partial`, `Seq.seq_range_alloc`, `Seq.seq_range_wrap_counterexample`, `Seq.seq_range_overflow_counterexample`, `Seq.seq_slice`, `Seq.seq_make`, `Seq.seq_repeat`, `Seq.seq_all_equal_partial`, `Dict.dict_keys_rows`, `Dict.dict_keys`, `Dict.dict_get`, `Dict.dict_fingerprint`, `Dict.bool_dict_partial`, `Cast.cast_int`, `Cast.cast_float`, `Cast.cast_not_finite`, `Cast.cast_unsigned_counterexample`, `Cast.roundNat_nearest`, `Refs.refcount`, `Refs.event_partial`, `Objects.get_attr`, `Objects.fingerprint_iff`, `Objects.fingerprint_get_attr`, `Objects.get_object_attr`, `Objects.get_object_attr_qtype`, `Objects.infer_get_object_attr`, `Tuple.concat_tuples`, `Tuple.slice_tuple`, `Tuple.named_make`, `Tuple.named_get_field`, `Tuple.named_union`, `Casts.get_cast_explicit`, `Casts.get_cast_implicit`, `Casts.build_deps_with_casts`, `Casts.casting_transformation`, `Casts.found_signature`, `Casts.found_signature_casts`, `Proto.parse_element`, `Proto.render_parse`, `Casts.cast_infer`, `Casts.cast_lower`, `Casts.cast_values_lower`, `Status.notes_chain`, `Status.with_source_location`, `CoreMap.map_infer_iff`, `CoreMap.moved_same_arguments`, `CoreMap.moved_remaining`, `CoreMap.map_rows_partial`, `CoreMap.map_sizes`, `ClassInfo.is_subclass_iff`, `ClassInfo.name_of_info`, `ClassInfo.register_returns`, `ClassInfo.conflict_fatal`, `Trace.annotation_stops`, `Trace.fresh_recorded`, `Trace.traceback_stable`, `Trace.names_stable`, `Trace.name_inherited`, `Trace.error_annotation`, `ConstShape.rules_keep_partial`, `MultiEdge.groups_independent`, `Interleave.interleave_partial`, `BackendOp.infer_monotone`, `BackendOp.infer_decides`, `BackendOp.make_iff`, `ParamFormat.format_pieces`, `ParamFormat.format_unknown`, `ParamFormat.spec_value`, `InfixRepr.repr_reads`, `InfixRepr.repr_injective`, `StmtNames.names_unique_partial`, `HigherOrder.inferred_stays`, `HigherOrder.seqReduce_known`, `HigherOrder.whileLoop_crash`, `HigherOrder.reduce_sound`, `LoopSig.loop_parameters`, `LoopSig.fingerprint_shape`, `LoopSig.same_fingerprint_partial`, `LoopSig.fingerprint_counterexample`, `DebugText.text_bounded`, `DebugText.select_spec`, `Casts.weak_infer_partial`, `Casts.weak_lower_partial`, `Tasks.execute_partial`, `Tasks.tasks_complete`
