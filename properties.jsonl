{"id": "C01", "title": "LRU cache refines an ideal weighted LRU", "statement": "For every sequence of Put(key,value,weight), LookupOrNull(key) and Clear on an LruCache with capacity >= 1: every key occurs at most once; LookupOrNull returns exactly the value of the most recent Put of that key unless the key has been evicted or cleared since; entries stay ordered by last use; Put evicts least-recently-used entries first and only as many as are needed; after each Put the total weight is at most the capacity, or exactly one entry (the one just put) remains.", "quantifier": "all finite operation sequences, all keys/values/weights, all capacities >= 1", "why_tests_cant": "The state space of histories is unbounded; a test fixes a handful of operation orders and weights, while eviction order and weight accounting depend on the entire history.", "anchors": ["arolla/util/lru_cache.h: LruCache::LookupOrNull, LruCache::Put, LruCache::Clear"]}
{"id": "C02", "title": "Branch-free lower/upper bound equals the partition point", "statement": "For every sorted span and every key, LowerBound returns the number of elements less than the key and UpperBound the number of elements not greater than the key (for floats without NaN in the array; a NaN key gives 0 for LowerBound and the array size for UpperBound), and no element outside the span is read.", "quantifier": "all sorted arrays of any length, all keys (including NaN keys)", "why_tests_cant": "Off-by-one errors in the power-of-two decomposition only show for particular lengths and key ranks; lengths are unbounded.", "anchors": ["arolla/util/binary_search.h: LowerBound, UpperBound, SmallLinearSearch", "arolla/util/binary_search.cc: FastBinarySearchT, BinarySearchT, LowerBoundImpl, UpperBoundImpl"]}
{"id": "C03", "title": "Galloping lower bound equals std::lower_bound", "statement": "For every sorted range and key, GallopingLowerBound(begin,end,value) returns the first position whose element is not less than value, and only dereferences positions inside the range.", "quantifier": "all sorted ranges, all keys", "why_tests_cant": "The doubling/halving probe sequence depends on the rank of the key in an unbounded range.", "anchors": ["arolla/util/binary_search.h: GallopingLowerBound"]}
{"id": "C04", "title": "exp_lower_bound equals std::lower_bound", "statement": "For every range partitioned with respect to comp(.,value), exp_lower_bound returns the partition point (the position std::lower_bound returns) and never dereferences at or past the end.", "quantifier": "all partitioned ranges, all comparators consistent with the partition", "why_tests_cant": "The exponentially growing step and the conservative remaining count interact with every possible partition point and length.", "anchors": ["arolla/util/algorithms.h: exp_lower_bound"]}
{"id": "C05", "title": "Bit-range primitives act exactly on the given range", "statement": "SetBitsInRange(bitmap,begin,end) sets exactly the bits in [begin,end) and leaves the rest; GetOnesCountInRange counts exactly the set bits with index in [begin,end); FindNextSetBitInVector returns the least set bit index >= start that is below the limit, or the not-found value.", "quantifier": "all bitmaps (any number of words), all ranges within the bitmap", "why_tests_cant": "Ranges crossing zero, one or many word boundaries at every bit offset are too many to enumerate.", "anchors": ["arolla/util/bits.h: SetBitsInRange, GetOnesCountInRange, FindNextSetBitInVector, SetBit, GetBit"]}
{"id": "C06", "title": "CopyBits copies exactly the requested bits", "statement": "CopyBits(bit_count, src, src_begin, dst, dst_begin) makes destination bit dst_begin+i equal to source bit src_begin+i for each i < bit_count, changes no other destination bit, and touches no word outside the two bit ranges.", "quantifier": "all word arrays, all bit offsets and bit counts, equal or different alignments", "why_tests_cant": "Six interacting cases of head/body/tail alignment times arbitrary lengths.", "anchors": ["arolla/util/algorithms.h: CopyBits"]}
{"id": "C07", "title": "Bitmap AND with bit offsets is pointwise AND", "statement": "InplaceLogicalAndWithOffsets(size, rhs, rhs_skip, lhs, lhs_skip) makes lhs bit lhs_skip+i the AND of the original lhs bit lhs_skip+i and rhs bit rhs_skip+i for each i < size, for all relations between the two skips; LogicalAnd and InPlaceLogicalAnd are pointwise word ANDs for every length. No word outside the given bitmaps is read.", "quantifier": "all bitmaps, all sizes, all pairs of skips below the word size", "why_tests_cant": "The shifting loop, the unrolled main loop and the tail depend on size modulo 4 words and the skip difference.", "anchors": ["arolla/util/algorithms.h: LogicalAnd, InPlaceLogicalAnd, InplaceLogicalAndWithOffsets"]}
{"id": "C08", "title": "Bitmap counting and uniformity agree with per-bit access", "statement": "CountBits(bitmap, offset, size) equals the number of i < size for which GetBit(bitmap, offset+i) holds, with an absent bitmap (and the part past its end) counting as present; AreAllBitsSet / AreAllBitsUnset hold exactly when all of the first n bits are set / unset.", "quantifier": "all bitmaps, bit offsets and sizes", "why_tests_cant": "Head/tail masks are only exercised at particular offsets modulo 32; size is unbounded.", "anchors": ["arolla/dense_array/bitmap.cc: CountBits, AreAllBitsSet", "arolla/dense_array/bitmap.h: GetBit, GetWordWithOffset, AreAllBitsUnset"]}
{"id": "C09", "title": "Bitmap intersection is intersection of presence", "statement": "For bitmaps a and b with bit offsets that both cover n elements, Intersect fills a result covering n elements at the smaller of the two offsets whose element i is present exactly when it is present in a and in b; it reads and writes only inside the three buffers.", "quantifier": "all bitmaps, all offsets below 32, all sizes", "why_tests_cant": "Two independent bit offsets and a variable number of words.", "anchors": ["arolla/dense_array/bitmap.h: Intersect", "arolla/util/algorithms.h: InplaceLogicalAndWithOffsets, LogicalAnd"]}
{"id": "C10", "title": "Bitmap builders reproduce the presence sequence", "statement": "After adding any sequence of groups through bitmap::Builder::AddByGroups / AddForEach, or any set of missing ids to AlmostFullBuilder, the built bitmap (possibly the empty 'all present' bitmap) has bit i set exactly when element i was present; the empty bitmap is returned exactly when every element is present.", "quantifier": "all presence sequences, all splits into Add calls", "why_tests_cant": "Unaligned continuation between Add calls carries partial words; the number of calls and lengths is unbounded.", "anchors": ["arolla/dense_array/bitmap.h: AlmostFullBuilder, Builder"]}
{"id": "C11", "title": "DenseArray slicing is a view of the element sequence", "statement": "For a valid DenseArray a and start+n <= a.size(), Slice(start,n) is valid, has size n and its i-th optional element equals the (start+i)-th of a; slices of slices compose; ForceNoBitmapBitOffset and MakeOwned-style normalisation do not change any element; PresentCount equals the number of present elements and IsFull holds exactly when no element is missing (given IsAllMissing/IsFull definitions in the API).", "quantifier": "all valid dense arrays (any bitmap offset), all slice bounds, any nesting depth of slices", "why_tests_cant": "Bitmap words plus bit offset arithmetic must be right for each offset and for each depth of re-slicing.", "anchors": ["arolla/dense_array/dense_array.h: DenseArray::Slice, PresentCount, IsFull, ForceNoBitmapBitOffset, operator[]"]}
{"id": "C12", "title": "DenseArrayBuilder has last-writer-wins semantics", "statement": "After any sequence of Set(id, optional) / SetNConst / Add calls with ids in range, Build(n) gives an array of size n whose i-th element is the last present value written to i, or missing when no present value was written (Set with a missing value changes nothing); the resulting array is valid.", "quantifier": "all sequences of writes in any order, all final sizes not above the builder capacity", "why_tests_cant": "Writes may come in any order and overlap.", "anchors": ["arolla/dense_array/dense_array.h: DenseArrayBuilder::Set, SetNConst, Build"]}
{"id": "C13", "title": "Dense array equivalence and fingerprint see only the elements", "statement": "ArraysAreEquivalent(a,b) holds exactly when a and b have the same optional element sequence, regardless of bitmap representation or bit offset and of the values stored under missing positions; arrays with the same element sequence feed the same data to the fingerprint hasher, and arrays with different element sequences feed different data.", "quantifier": "all pairs of valid dense arrays", "why_tests_cant": "There are infinitely many representations of the same element sequence.", "anchors": ["arolla/dense_array/dense_array.h: ArraysAreEquivalent, FingerprintHasherTraits<DenseArray>"]}
{"id": "C14", "title": "Edge validation accepts exactly well-formed edges", "statement": "FromSplitPoints succeeds exactly when the split points are full, non-empty, start with 0 and are non-decreasing; FromMapping succeeds exactly when the parent size is non-negative and each present mapping value lies in [0,parent_size); FromUniformGroups succeeds exactly when both arguments are non-negative and the child size does not overflow, and then each parent has exactly group_size consecutive children.", "quantifier": "all int64 arrays and all sizes (parent_size below 2^63-1 for FromUniformGroups, where parent_size+1 is representable)", "why_tests_cant": "Acceptance must be decided for every array; overflow boundaries are specific.", "anchors": ["arolla/dense_array/edge.cc: FromSplitPoints, FromMapping, FromUniformGroups"]}
{"id": "C15", "title": "Edge representation conversions preserve the child-to-parent relation", "statement": "ToMappingEdge gives an edge with the same child->parent partial function; ToSplitPointsEdge succeeds exactly when that function is total and non-decreasing and then represents the same function with the same parent size; converting back and forth is the identity on the relation; IsEquivalentTo holds exactly when the two edges have the same parent size, child size and child->parent function.", "quantifier": "all valid edges of both representations, including empty groups and empty parents", "why_tests_cant": "Edges are unbounded; gaps (empty groups) at start, middle and end all matter.", "anchors": ["arolla/dense_array/edge.cc: DenseArrayEdge::ToMappingEdge, ToSplitPointsEdge, IsEquivalentTo"]}
{"id": "C16", "title": "ComposeEdges is composition of child-to-parent functions", "statement": "For every non-empty list of valid edges where each edge's parent size equals the previous edge's child size, ComposeEdges succeeds and the result maps each child of the last edge to the composition of all child->parent functions (missing if any step is missing), whatever mix of split-point and mapping edges; otherwise it reports an error.", "quantifier": "all lists of edges of mixed representation", "why_tests_cant": "The number of edges, their sizes and the mix of representations (which decides the grouping) are unbounded.", "anchors": ["arolla/dense_array/edge.cc: ComposeEdges, ComposeMappingEdge, ComposeSplitPointsEdge"]}
{"id": "C17", "title": "IdFilter offset lookup is the inverse of id enumeration", "statement": "For a valid IdFilter (ids strictly increasing), IdToOffset(id) returns the position of id among the filter's ids, or missing when absent; full and empty filters behave as identity and constant-missing.", "quantifier": "all valid filters with any ids offset, all ids", "why_tests_cant": "Ids are arbitrary increasing sequences with arbitrary offsets.", "anchors": ["arolla/array/id_filter.h: IdFilter ctor, IdToOffset, IdsOffsetToId"]}
{"id": "C18", "title": "Array form conversions preserve elements", "statement": "For every valid Array: ToDenseForm, ToSparseForm (any missing_id_value) and MakeUnowned-like normalisations give an Array with the same size and the same optional element at each index; WithIds(ids, missing) keeps the element at each id in ids and puts `missing` elsewhere.", "quantifier": "all valid arrays in dense, sparse, const and empty form; all id filters; all missing values", "why_tests_cant": "Cross product of two filters' forms and merge orders over unbounded id lists.", "anchors": ["arolla/array/array.h: Array::ToDenseForm, ToSparseForm, WithIds, WithIdsFromSparse, WithIdsDenseToSparse, operator[]"]}
{"id": "C19", "title": "Array slicing is a view of the element sequence", "statement": "For every valid Array a and start+n <= a.size(), Slice(start,n) is valid, has size n and its i-th element equals the (start+i)-th of a; PresentCount equals the number of present elements.", "quantifier": "all valid arrays in each form, all slice bounds, nested slices", "why_tests_cant": "Sparse slicing searches ids and shifts the id offset; nesting accumulates offsets.", "anchors": ["arolla/array/array.h: Array::Slice, Array::PresentCount"]}
{"id": "C20", "title": "Array equivalence is elementwise equality", "statement": "ArraysAreEquivalent(a,b) is true if and only if a and b have the same size and the same optional element at each index.", "quantifier": "all pairs of valid arrays in any form", "why_tests_cant": "Infinite number of representations; representation changes when the id filters are merged.", "anchors": ["arolla/array/array.h: ArraysAreEquivalent", "arolla/array/id_filter.h: IdFilter::UpperBoundMerge"]}
{"id": "C21", "title": "Array fingerprint separates different arrays", "statement": "Two valid Arrays which differ in size or in some element feed different data to the fingerprint hasher (so equal fingerprints imply equal elements up to hash collisions).", "quantifier": "all pairs of valid arrays, including arrays obtained by slicing", "why_tests_cant": "Needs all pairs of representations.", "anchors": ["arolla/array/array.h: FingerprintHasherTraits<Array>", "arolla/array/id_filter.cc: FingerprintHasherTraits<IdFilter>"]}
{"id": "C22", "title": "Filter merge and intersect are upper bounds", "statement": "UpperBoundMerge(size, filters...) contains every id contained in any of the filters and UpperBoundIntersect(filters...) contains every id contained in all of the filters; both results are valid filters for the size; ForEachCommonId visits exactly the ids common to both filters in increasing order with the right offsets.", "quantifier": "all sizes and lists of valid filters", "why_tests_cant": "Unbounded id lists, any overlap pattern, dense/sparse threshold.", "anchors": ["arolla/array/id_filter.h: UpperBoundMerge, UpperBoundIntersect, ForEachCommonId", "arolla/array/id_filter.cc: UpperBoundMergeImpl"]}
{"id": "C23", "title": "SparseArrayBuilder and CreateArray produce the given elements", "statement": "CreateArray(optionals) has exactly the given optional elements whatever form (sparse or dense) is chosen; SparseArrayBuilder with strictly increasing ids gives an array with exactly these elements set and the missing_id_value elsewhere.", "quantifier": "all optional sequences; all increasing id sequences", "why_tests_cant": "The dense/sparse decision depends on the number of present elements.", "anchors": ["arolla/array/array.h: CreateArray, SparseArrayBuilder"]}
{"id": "C24", "title": "JaggedShape construction and dimension operations keep the shape well formed", "statement": "FromEdges succeeds exactly when every edge assigns all its rows monotonically (a split-point edge, or a mapping edge convertible to one), the first has parent size 1 and consecutive sizes match; AddDims, RemoveDims(k) and FlattenDims keep this invariant; rank, size and the row structure are as specified: RemoveDims(k) keeps the first k dimensions, AddDims appends, FlattenDims(from,to) replaces the dimensions from..to by one whose groups are the composition.", "quantifier": "all edge lists, all ranks and positions", "why_tests_cant": "Ranks and sizes unbounded.", "anchors": ["arolla/jagged_shape/jagged_shape.h: FromEdges, AddDims, RemoveDims, FlattenDims"]}
{"id": "C25", "title": "Flattening preserves the leaf-to-row mapping", "statement": "FlattenDims(from,to) does not change which row of dimension from-1 each element of dimension to-1 belongs to, nor any other dimension, and leaves size() unchanged.", "quantifier": "all shapes, all from<=to", "why_tests_cant": "Composition of unboundedly many split-point edges.", "anchors": ["arolla/jagged_shape/jagged_shape.h: FlattenDims", "arolla/dense_array/edge.cc: ComposeEdges"]}
{"id": "C26", "title": "Broadcasting relation and broadcast edge", "statement": "IsBroadcastableTo(a,b) holds exactly when the dimensions of a form a prefix of those of b; then GetBroadcastEdge maps each leaf of b to the leaf row of a that contains it. The fast equivalence check never claims equivalence or broadcastability that does not hold.", "quantifier": "all pairs of shapes", "why_tests_cant": "Pairs of unbounded rank; prefix-of relation.", "anchors": ["arolla/jagged_shape/jagged_shape.h: IsBroadcastableTo, GetBroadcastEdge, IsEquivalentTo, FastEquivalenceCheck"]}
{"id": "C27", "title": "Concatenation of jagged arrays along a dimension", "statement": "ConcatJaggedArraysAlongDimension(arrays, shapes, dim) yields the shape and array in which, for each row at dimension dim, the sub-rows are those of the first input, then the second, and so on; it fails when ranks or the first dim dimensions disagree or an array does not match its shape.", "quantifier": "all non-empty lists of shapes/arrays, all dims", "why_tests_cant": "Unbounded number of inputs, ranks and sizes; offsets accumulate.", "anchors": ["arolla/jagged_shape/util/concat.h: ConcatJaggedShapesAlongDimension, ConcatJaggedArraysAlongDimension, BuildSuffixEdge"]}
{"id": "C28", "title": "Dominator tree gives immediate dominators", "statement": "For every acyclic control-flow graph accepted by AcyclicCFG::Create, node a is an ancestor of node b in DominatorTree exactly when every path from the entry 0 to b passes through a; parent(b) is the immediate (closest strict) dominator, parent(0)=0 and depth counts strict dominators.", "quantifier": "all accepted graphs", "why_tests_cant": "Graphs are unbounded and the claim quantifies over all paths.", "anchors": ["arolla/algorithm/control_flow_graph.cc: AcyclicCFG::Create, DominatorTree::DominatorTree, DominatorTree::Lca"]}
{"id": "C29", "title": "AcyclicCFG::Create accepts exactly well-formed graphs", "statement": "Create succeeds exactly when the graph is non-empty, each dependency of node i is a known node greater than i, and each node other than 0 is a dependency of some node; then each node is reachable from the entry and reverse_deps is the exact reverse relation.", "quantifier": "all dependency lists", "why_tests_cant": "Validity over unbounded graphs; reachability is an inductive consequence.", "anchors": ["arolla/algorithm/control_flow_graph.cc: AcyclicCFG::Create"]}
{"id": "C30", "title": "Empty dominance frontier detection", "statement": "FindVerticesWithEmptyDominanceFrontier returns exactly the nodes v such that each node reachable from v is strictly dominated by v or is v itself (no edge leaves the region dominated by v).", "quantifier": "all accepted graphs", "why_tests_cant": "Quantifies over all paths of unbounded graphs; the code uses a depth comparison instead of the definition.", "anchors": ["arolla/algorithm/control_flow_graph.cc: FindVerticesWithEmptyDominanceFrontier"]}
{"id": "C31", "title": "Externalizing nodes does not change dominance", "statement": "ExternalizeNodes(graph, tree, ids) always succeeds and yields a valid graph in which each listed non-root node is a dependency of exactly its immediate dominator, all other dependencies are unchanged, and the dominator relation (hence the dominator tree) is unchanged.", "quantifier": "all accepted graphs, all node subsets", "why_tests_cant": "Adding edges could change dominators; claim is over all paths.", "anchors": ["arolla/algorithm/control_flow_graph.cc: ExternalizeNodes"]}
{"id": "C32", "title": "Cancellation callbacks run at most once and always when cancelled", "statement": "In every interleaving of Cancel, Subscribe and Subscription destruction/detach: the first effective Cancel determines the status for ever; every callback is run at most once; a callback whose subscription is still alive (or detached) when the context becomes cancelled has run once all Cancel calls returned; a callback whose Subscribe returns after the cancellation has run when Subscribe returns; a callback whose subscription was destroyed before the cancellation never runs; no callback runs unless the context is cancelled; Cancel with an OK status never cancels; no node is used after it is freed, freed twice or leaked; no operation gets stuck.", "quantifier": "all interleavings of any number of threads and operations", "why_tests_cant": "Thread schedules cannot be enumerated by tests.", "anchors": ["arolla/util/cancellation.cc: CancellationContext::Cancel, Subscribe, Subscription::~Subscription, Detach"]}
{"id": "C33", "title": "Concurrent operator registration keeps names unique", "statement": "For any concurrent history of Register(name, op) calls (without unregister), at most one call per name returns success, and later lookups return the operator of that successful call.", "quantifier": "all interleavings of Register calls", "why_tests_cant": "The violation window between check and store is a scheduling matter.", "anchors": ["arolla/expr/registered_expr_operator.cc: ExprOperatorRegistry::Register"]}
{"id": "C34", "title": "Registry revision ids change along the namespace path", "statement": "After any sequential history of Register/UnsafeUnregister, a successful call on name a.b.c strictly increases the revision id of exactly a.b.c, a.b, a and the root, and leaves the revision id of all other names unchanged; a cached operator looked up under an unchanged revision id is still the current one.", "quantifier": "all histories of registry operations", "why_tests_cant": "Record creation is lazy and linked through parents; correctness depends on the full history.", "anchors": ["arolla/expr/registered_expr_operator.cc: LookupOrCreateRecordSingleton, UpdateRevisionIds, AcquireRevisionIdFn"]}
{"id": "C35", "title": "Pooled executors are never shared between concurrent evaluations", "statement": "In every interleaving of evaluations of ThreadSafePoolModelExecutor and ThreadSafeCloneWhenBusyModelExecutor, two evaluations in progress at the same time never use the same executor instance (same frame), the pool never exceeds its maximum size, each executor in the pool is idle and unique.", "quantifier": "all interleavings, any number of threads and evaluations, any pool size (including 0)", "why_tests_cant": "Schedules.", "anchors": ["arolla/expr/eval/thread_safe_model_executor.h: ThreadSafePoolModelExecutor::Execute, ThreadSafeCloneWhenBusyModelExecutor::Execute"]}
{"id": "C36", "title": "Decision tree node ids are a lossless encoding", "statement": "SplitNodeId(i) and AdjustmentId(i) for all non-negative i are distinct, is_leaf distinguishes them, and split_node_index / adjustment_index recover i.", "quantifier": "all indices", "why_tests_cant": "Arithmetic identity on all integers.", "anchors": ["arolla/decision_forest/decision_forest.h: DecisionTreeNodeId"]}
{"id": "C37", "title": "Naive forest evaluation follows the split conditions to a leaf", "statement": "For a forest accepted by FromTrees, evaluation of a tree on an input ends at an adjustment reached by taking at each split the branch given by the split condition, and the forest result is the sum over the trees accepted by the filter of the adjustment times the tree weight; no out-of-range node or adjustment is accessed.", "quantifier": "all accepted forests, all inputs", "why_tests_cant": "Trees are unbounded; termination depends on the shape of child references.", "anchors": ["arolla/decision_forest/decision_forest.cc: GetIntervalSplit, DecisionForestNaiveEvaluation, DecisionForest::Initialize", "arolla/decision_forest/split_conditions/interval_split_condition.h", "arolla/decision_forest/split_conditions/set_of_values_split_condition.h"]}
{"id": "C38", "title": "Argument binding follows the signature", "statement": "BindArguments succeeds exactly when each argument can be assigned to a parameter (positional first, then keyword; defaults fill the rest; a variadic takes the remaining positional arguments) without duplicates, unknown keywords or missing arguments, and the produced list has parameter i's argument at position i followed by the variadic arguments.", "quantifier": "all valid signatures, all positional and keyword argument lists", "why_tests_cant": "Cross product of unbounded signature and call shapes.", "anchors": ["arolla/expr/expr_operator_signature.cc: BindArguments"]}
{"id": "C39", "title": "Signature specification strings round-trip", "statement": "For every valid signature whose names and policy are expressible, Make(GetExprOperatorSignatureSpec(sig), default_values(sig)) gives back the same signature; Make accepts only specs giving a valid signature.", "quantifier": "all valid signatures", "why_tests_cant": "Strings and parameter lists unbounded.", "anchors": ["arolla/expr/expr_operator_signature.cc: ExprOperatorSignature::Make, GetExprOperatorSignatureSpec, ValidateSignature"]}
{"id": "C40", "title": "PostOrder lists each distinct node once after its dependencies", "statement": "For every expression, PostOrder lists each distinct node (by fingerprint) exactly once, dependencies before the node, the root last, and dep_indices(i) are the positions of the dependencies of node i in order.", "quantifier": "all expression DAGs with arbitrary sharing", "why_tests_cant": "DAGs unbounded; iterative traversal with explicit stack.", "anchors": ["arolla/expr/expr_visitor.cc: PostOrder::PostOrder"]}
{"id": "C41", "title": "Bottom-up transformation equals its recursive definition", "statement": "Transform(root, fn) with a node-local fn gives the same expression as the recursive definition (transform the dependencies, rebuild the node, apply fn), each distinct node being transformed exactly once; WithNewDependencies gives the node that MakeOpNode would give.", "quantifier": "all expressions, all transformation functions that fail or succeed", "why_tests_cant": "Arbitrary DAGs and functions.", "anchors": ["arolla/expr/expr_visitor.h: TransformOnPostOrder, PostOrderTraverse", "arolla/expr/expr_visitor.cc: Transform"]}
{"id": "C42", "title": "DeepTransform reaches a fixed point or fails", "statement": "If DeepTransform(root, fn) succeeds, then the result is a fixed point of one deep application: no sub-expression of the result is changed by fn (for deterministic fn), and equals the recursive specification; if the transformation is cyclic it stops with an error rather than looping when detected.", "quantifier": "all expressions, all deterministic transformation functions", "why_tests_cant": "Rewriting can introduce new nodes unboundedly.", "anchors": ["arolla/expr/expr_visitor.cc: DeepTransform"]}
{"id": "C43", "title": "Compiled evaluation with slot reuse computes the expression's value", "statement": "For each expression in post order, the program produced by the dynamic evaluation engine (with its slot allocator reusing slots whose last use has passed, inherited slots, permanent literal slots and a forced output slot) leaves in the output slot exactly the value of the expression under the input values, and each named output holds its sub-expression's value; inputs are not overwritten unless allowed.", "quantifier": "all expression DAGs over arbitrary operators, all inputs, both settings of input overriding", "why_tests_cant": "Slot lifetime bugs depend on the complete DAG shape (sharing, aliasing through inherited slots).", "anchors": ["arolla/expr/eval/slot_allocator.cc: SlotAllocator", "arolla/expr/eval/dynamic_compiled_expr.cc: EvalVisitor, DynamicCompiledExpr::BindToExecutableBuilder"]}
{"id": "C44", "title": "Short-circuit where evaluates exactly the selected branch", "statement": "The operator sequence emitted for packed_where, when run from any frame, executes the true branch's operators and none of the false branch's when the condition is present, and conversely; it then continues right after; nested where operators compose; jumps never leave the program.", "quantifier": "all branch programs (non-empty), all frames, any nesting", "why_tests_cant": "Nesting depth and branch lengths unbounded.", "anchors": ["arolla/expr/eval/compile_where_operator.cc: CompileWhereOperator", "arolla/qexpr/bound_operators.cc: RunBoundOperators, JumpBoundOperator, JumpIfNotBoundOperator"]}
{"id": "C45", "title": "While loop alternation equals plain iteration", "statement": "The two-buffer while loop operator computes the same final state as repeatedly applying the body to the initial state while the condition holds, stops at the first error with that error, and terminates exactly when the plain loop does.", "quantifier": "all conditions and bodies (including failing ones), all iteration counts", "why_tests_cant": "The number of iterations is unbounded and parity decides which buffer holds the state.", "anchors": ["arolla/expr/eval/compile_while_operator.cc: WhileLoopBoundOperator::Run"]}
{"id": "C46", "title": "Serialization round-trips values and expressions", "statement": "Encoding any sequence of values and expressions with one Encoder and decoding the produced steps with one Decoder returns the same values and the same expressions in the same order, with shared sub-expressions emitted once.", "quantifier": "all expression DAGs and encode histories", "why_tests_cant": "Arbitrary sharing, history of known values across calls.", "anchors": ["arolla/serialization_base/encoder.cc: Encoder", "arolla/serialization_base/decoder.cc: Decoder"]}
{"id": "C47", "title": "The decoder never reads an unset step result", "statement": "For every sequence of decoding steps (including malformed ones), the decoder either reports an error or each reference it follows points to an earlier stored result of the requested kind; a result slot is never overwritten; with usage-count hints the output is the same as without hints or an error.", "quantifier": "all step sequences", "why_tests_cant": "Adversarial inputs.", "anchors": ["arolla/serialization_base/decoder.cc: OnDecodingStep, StoreDecodedValueOrExpr, LoadDecodedValueOrExpr, CheckUsageCount"]}
{"id": "C48", "title": "Integer arithmetic operators are total and exact modulo 2^n", "statement": "For int32/int64 and all arguments: add, subtract, multiply, neg are the mathematical result wrapped to the type; floor division and mod fail exactly on zero divisor and otherwise satisfy x = floordiv(x,y)*y + mod(x,y) with mod having the sign of y and |mod|<|y| (wrapping only for MIN/-1); abs is |x| except for MIN; no operation has undefined behaviour.", "quantifier": "all pairs of n-bit integers", "why_tests_cant": "2^128 argument pairs.", "anchors": ["arolla/qexpr/operators/math/arithmetic.h: AddOp, SubtractOp, MultiplyOp, FloorDivOp, ModOp, NegOp, AbsOp"]}
{"id": "C49", "title": "Aggregation accumulators equal their mathematical definition", "statement": "For every sequence of added elements: count, sum (mod 2^n), min, max, collapse, logical_all, logical_any, any, all, string join, inverse_mapping give the specified result, and AddN(n,v) is the same as n >= 1 consecutive Add(v) (n >= 0 where documented).", "quantifier": "all sequences of elements and group splits", "why_tests_cant": "Unbounded sequences.", "anchors": ["arolla/qexpr/operators/aggregation/group_op_accumulators.h"]}
{"id": "C50", "title": "Common qtype is order independent", "statement": "CommonQType is commutative, associative and idempotent on non-null types, the span version does not depend on the order of its arguments, and CanCastImplicitly is a partial order.", "quantifier": "all qtypes in the standard scalar x shape lattice and lists of them", "why_tests_cant": "Lists of arbitrary length and order.", "anchors": ["arolla/qtype/standard_type_properties/common_qtype.cc: CommonQType, CanCastImplicitly"]}
{"id": "C51", "title": "Frame layout slots never overlap", "statement": "For every sequence of AddSlot and AddSubFrame calls, all slots are aligned, lie inside the allocation and are pairwise disjoint, and fields registered in a subframe keep these properties when shifted.", "quantifier": "all sequences of slot sizes/alignments (powers of two up to 16), nested subframes", "why_tests_cant": "Layout sequences unbounded.", "anchors": ["arolla/memory/frame.h: FrameLayout::Builder::AddSlot", "arolla/memory/frame.cc: AddSubFrame, FieldInitializers::AddDerived"]}
{"id": "C52", "title": "Bitmap iteration visits every bit once in order", "statement": "IterateByGroups over bits [start, start+count) of a bitmap calls the callback for exactly these bits, each once, in increasing order, with the right index and value, and reads nothing outside the bitmap; Iterate also works for the empty bitmap, where each bit reads as set.", "quantifier": "all bitmaps, starts, counts", "why_tests_cant": "The loop handles a partial first word, full words and a partial last word; their number is unbounded.", "anchors": ["arolla/dense_array/bitmap.h: IterateByGroups, Iterate, IterateWord"]}
{"id": "C53", "title": "DenseArray ForEach visits every element once in order", "statement": "ForEach calls its callback once per element in order with the id, the presence and (if present) the value of the element; ForEachPresent calls it for exactly the present elements in order.", "quantifier": "all valid dense arrays with any bitmap offset", "why_tests_cant": "Unbounded size and offset.", "anchors": ["arolla/dense_array/dense_array.h: DenseArray::ForEach, ForEachPresent"]}
{"id": "C54", "title": "Pointwise operations on dense arrays act row by row", "statement": "For an operation created from a functor with required and optional arguments, applied to arrays of equal size: row i of the result is the functor applied to row i of the arguments if all required arguments are present there, and missing otherwise; if the functor fails on some row the first failing row's error is returned; the result does not depend on uninitialised memory and nothing is accessed outside of the buffers.", "quantifier": "all functors, all numbers of arguments, all valid arrays with any bitmap offsets (zero ones for operations created with kNoBitmapOffset)", "why_tests_cant": "Word-at-a-time evaluation with masks; unbounded sizes and all bitmap/offset combinations.", "anchors": ["arolla/dense_array/ops/dense_ops.h: UnaryOpImpl, BinaryOpImpl", "arolla/dense_array/ops/universal_dense_op.h: UniversalDenseOp", "arolla/dense_array/ops/util.h: GetMask, Getter, IntersectMasks"]}
{"id": "C55", "title": "Presence operators on dense arrays act element by element", "statement": "core.has, core.presence_not, core.presence_and, core.presence_or on valid dense arrays of equal size return, for every row, the result of the same operator on the optional elements of the row, and an error when sizes differ.", "quantifier": "all valid dense arrays", "why_tests_cant": "Special-cased bitmap representations (empty, all unset, offsets) of unbounded size.", "anchors": ["arolla/qexpr/operators/dense_array/logic_ops.h: DenseArrayHasOp, DenseArrayPresenceAndOp, DenseArrayPresenceNotOp, DenseArrayPresenceOrOp"]}
{"id": "C56", "title": "Array ForEach visits every element exactly once in order", "statement": "ForEach and ForEachPresent of Array, whichever form it is stored in, call the callbacks (single and repeated) so that together they cover every row (every present row) exactly once, in increasing order, with the element of that row.", "quantifier": "all valid arrays in each form", "why_tests_cant": "Unbounded sizes, id offsets and gaps; interplay of the repeated callback with missing_id_value.", "anchors": ["arolla/array/array.h: Array::ForEach, Array::ForEachPresent"]}
{"id": "C57", "title": "Cancellation scopes nest", "statement": "For every sequence of constructions and destructions of scope guards in one thread, the current cancellation context and the result of Cancelled() are those of the innermost live guard (none if that guard has no context); destroying a guard other than the innermost crashes instead of corrupting the state.", "quantifier": "all sequences of guard constructions and destructions", "why_tests_cant": "Nesting depth and order are unbounded.", "anchors": ["arolla/util/cancellation.cc: CancellationContext::ScopeGuard, UpdateThreadLocalData", "arolla/util/cancellation.h: Cancelled"]}
{"id": "C58", "title": "Operator names and truncation", "statement": "IsIdentifier accepts exactly the non-empty strings of letters, digits and underscores which do not start with a digit; IsQualifiedIdentifier (and so IsOperatorName) accepts exactly the non-empty dot-separated sequences of such identifiers; Truncate(s, n) with n > 3 returns s if it is at most n long and otherwise a string of length n made of a prefix of s and three dots.", "quantifier": "all byte strings, all lengths", "why_tests_cant": "The scanner is a single pass with two flags; the accepted language is infinite.", "anchors": ["arolla/util/string.h: IsIdentifier, IsQualifiedIdentifier", "arolla/util/operator_name.h: IsOperatorName", "arolla/util/string.cc: Truncate"]}
{"id": "C59", "title": "IsWithinOneTypo is one edit", "statement": "IsWithinOneTypo(a, b) holds exactly if a equals b, or b results from a by inserting, deleting or replacing one character or by swapping two adjacent characters.", "quantifier": "all pairs of byte strings", "why_tests_cant": "The function compares only a common prefix and suffix; that this decides edit distance needs an argument about all strings.", "anchors": ["arolla/util/string.cc: IsWithinOneTypo"]}
{"id": "C60", "title": "Thread local executors isolate evaluations", "statement": "In every interleaving of evaluations of ThreadSafeModelExecutor in any number of threads, including evaluations started while another evaluation of the same thread is in progress, every evaluation returns what it would return alone and no two evaluations in progress use the same executor.", "quantifier": "all interleavings, any number of threads and (possibly nested) evaluations", "why_tests_cant": "Schedules and nesting are unbounded.", "anchors": ["arolla/expr/eval/thread_safe_model_executor.h: ThreadSafeModelExecutor::Execute"]}
{"id": "C61", "title": "Regular forest predictors agree with the paths", "statement": "For every tree accepted by DecisionForest::FromTrees, compilation for regular evaluation succeeds exactly if every node has at most one parent and the root none, and otherwise reports an error; the compiled predictor returns the adjustment at the end of the path given by the conditions times the weight. BoostedPredictor::Predict accumulates exactly the values of the trees selected by the filter, each once.", "quantifier": "all trees, conditions, filters and numbers of trees", "why_tests_cant": "Trees are unbounded; the boosted predictor walks 16 trees in rounds and compacts the list of unfinished ones.", "anchors": ["arolla/decision_forest/pointwise_evaluation/pointwise.h: SingleTreeCompilationImpl, SinglePredictor, BoostedPredictor", "arolla/decision_forest/pointwise_evaluation/forest_evaluator.cc: RegularPredictorsBuilder"]}
{"id": "C62", "title": "ToObliviousTree is exact", "statement": "For every accepted tree with less than 2^32 adjustments (even one with cycles) ToObliviousTree ends; it returns a tree exactly if all leaves have the same depth d, there are 2^d adjustments and all conditions of a layer are equal; the returned tree selects, by the number whose binary digits are the values of the layers, the same adjustment times weight as the path in the original tree.", "quantifier": "all trees and all evaluations of the conditions", "why_tests_cant": "Trees are unbounded, the layout of adjustments in the result depends on the traversal order.", "anchors": ["arolla/decision_forest/pointwise_evaluation/oblivious.cc: ToObliviousTree, TraverseTree"]}
{"id": "C63", "title": "Bitmask forest evaluation agrees with the paths", "statement": "For every sequence of AddSmallTree / AddObliviousTree calls on a BitmaskBuilder whose trees are proper trees with at most 64 adjustments (or oblivious trees) and supported conditions without NaN bounds, Build succeeds, and for every input BitmaskEval::IncrementalEval adds to output g exactly the sum over the trees of group g of (adjustment at the end of the path) * weight; no mask shift is out of range and no buffer is accessed out of bounds.", "quantifier": "all sequences of trees, all groups, all inputs, all outcomes of std::sort and of the hash map iteration order allowed by their specification", "why_tests_cant": "The evaluator merges the conditions of all trees into sorted per-input tables of bit masks; the masks of one input interact across trees, and the number of trees and thresholds is unbounded.", "anchors": ["arolla/decision_forest/pointwise_evaluation/bitmask_builder.cc", "arolla/decision_forest/pointwise_evaluation/bitmask_eval.cc"]}
{"id": "C68", "title": "Rank, median and group-by accumulators equal their definition", "statement": "For every group: array.ordinal_rank gives each element its position in the order (value, tie breaker, position), descending in the value only if asked, NaNs last; array.dense_rank gives equal values equal ranks, consecutive from 0, NaNs last and distinct; math.median and math.inverse_cdf return the element of the documented rank whatever std::nth_element leaves, NaN if there is one; math.argmin/argmax return the first best position, NaN being best, counting missing values; edge.group_by gives two children the same number iff group and key are the same, numbers being consecutive; array.take over an edge returns the value at the offset within the group and reports offsets out of range. The result never depends on what an earlier group left in the accumulator.", "quantifier": "all groups, all values including NaN, all interleavings of groups, all outcomes of std::sort / std::partition / std::nth_element allowed by the standard", "why_tests_cant": "Groups are unbounded, and the library algorithms are only specified up to permutations.", "anchors": ["arolla/qexpr/operators/aggregation/group_op_accumulators.h", "py/arolla/operators/standard/array.py: ordinal_rank, dense_rank"]}
{"id": "C67", "title": "Row iteration over several arrays reports every row once", "statement": "Group and pointwise operators iterate over the rows of several arrays with DenseOpsUtil and ArrayOpsUtil. For arrays of the same size, in any mixture of forms (dense, sparse, constant, with or without a value for missing ids, required or optional arguments), Iterate(from, to) reports exactly the rows of [from, to), in increasing order, each once; a row is reported as valid exactly if all required arguments are present, and then with the elements of the arrays; rows reported in bulk have a positive count. IterateSimple (ArraysIterate) reports exactly the valid rows. PresentCountUpperEstimate is between the number of valid rows and the size. No access is outside of a buffer.", "quantifier": "all sizes, argument lists, id filters, bitmaps with any bit offset, sub-ranges and contents of uninitialised memory", "why_tests_cant": "The result depends on the relative position of word boundaries, sub-ranges, bitmap offsets and several id filters; tests use a few small arrays.", "anchors": ["arolla/dense_array/ops/util.h:97-175", "arolla/array/ops_util.h:59-307"]}
{"id": "C71", "title": "Substitution is simultaneous", "statement": "SubstituteLeaves, SubstitutePlaceholders, SubstituteByName and SubstituteByFingerprint return the simultaneous substitution of the given nodes (a replaced node is not looked into, substitutes are not substituted again), so that evaluating the result equals evaluating the original with the substituted leaves bound to the values of their substitutes; they fail only if the substituted expression cannot be built.", "quantifier": "all expressions, all substitutions, all operators with arbitrary type rules", "why_tests_cant": "Overlapping and nested substitutions, shared nodes.", "anchors": ["arolla/expr/visitors/substitution.cc: Substitute, SubstitutePlaceholders, SubstituteLeaves, SubstituteByName, SubstituteByFingerprint", "arolla/expr/expr.cc: WithNewDependencies"]}
{"id": "C69", "title": "Group operations process every group as if alone", "statement": "Applying an accumulator over an edge gives, for every parent whose parent arguments are present, exactly what a fresh accumulator produces from the valid child rows of that group in ascending order (one result per group for aggregators, one per valid row for partial and full accumulators, missing elsewhere); the outcome is an error of the accumulator iff some such group alone has an error, and a size error iff an argument has the wrong size. The outcome does not depend on whether the edge is given as split points or as a mapping, whether arrays are dense, sparse or carry a value for missing ids, nor on the order of hash maps or uninitialised memory. With a scalar edge all rows are one group.", "quantifier": "all accumulators that obey the documented contract (Reset forgets the group but not the status, AddN(n) for n>0 is n times Add), all edges, arrays, argument lists, iteration orders and memory contents", "why_tests_cant": "Six loops (dense/sparse x split/mapping plus two very-sparse variants) and density heuristics choose the algorithm; tests reach a few combinations.", "anchors": ["arolla/dense_array/ops/dense_group_ops.h: DenseGroupOpsImpl", "arolla/array/group_op.h: ArrayGroupOpImpl", "arolla/qexpr/aggregation_ops_interface.h: Accumulator", "arolla/qexpr/operators/aggregation/group_op_accumulators.h"]}
{"id": "C64", "title": "Piecewise constant evaluators of one input agree with the trees", "statement": "For trees whose conditions all test one input, the single input evaluator returns, for every value of the input (a split point, a value between, below or above the split points, infinite, NaN, missing), the sum over the trees of the adjustment selected by the conditions times the weight.", "quantifier": "all sets of proper trees of intervals and sets over one float or int64 input, all input values", "why_tests_cant": "The evaluator precomputes values at split points and midpoints; whether a midpoint lies strictly between its neighbours depends on rounding and overflow at extreme bounds that tests do not use.", "anchors": ["arolla/decision_forest/pointwise_evaluation/single_input_eval.cc: GetSplitPoints, PiecewiseConstantCompiler::Build, PiecewiseConstantEvaluator::Eval"]}
{"id": "C65", "title": "ForestEvaluator computes the sum of the selected trees whatever evaluators it chooses", "statement": "ForestEvaluator::Compile fails iff there is no output or two outputs select a common tree (or, with regular evaluators disabled, no evaluator fits); otherwise Eval stores for every output the sum over the trees selected by its filter of the selected adjustment times the weight, as naive evaluation does. The result does not depend on which evaluators (regular, bitmask, single input) are enabled.", "quantifier": "all valid forests, compilation parameters, output filters and inputs", "why_tests_cant": "Every tree is routed to one of five builders by its shape and by the parameters; tests compare a few random forests.", "anchors": ["arolla/decision_forest/pointwise_evaluation/forest_evaluator.cc: SplitTreesByGroups, ForestEvaluator::Compile, Eval", "arolla/decision_forest/pointwise_evaluation/single_input_eval.cc: SingleInputBuilder"]}
{"id": "C72", "title": "FrameIterator applies a function to every row exactly once", "statement": "FrameIterator::Create succeeds iff the numbers of arrays and slots agree, slot types fit the arrays, all input arrays have the same size, and the row count given by the inputs or the options is unambiguous. ForEachFrame then calls the function once per row in ascending order with exactly the elements of that row in the input slots and the constants set by CustomFrameInitialization, and StoreOutput gives arrays whose row i is what the function left in the output slots for row i. The result depends neither on the number of frame buffers (at least one), nor on the representation of the arrays (bitmap offsets, sparse ids, default values), nor on stale contents of the frames.", "quantifier": "all input arrays (dense, sparse, const), slots, functions of the row, frame_buffer_count >= 1, hash map orders and initial memory", "why_tests_cant": "Rows are processed in blocks with three copying loops per representation; errors appear only at block boundaries combined with bit offsets and sparse ids.", "anchors": ["arolla/qtype/array_like/frame_iter.cc: FrameIterator::Create, PreloadFrames, SaveOutputsOfProcessedFrames, StoreOutput", "arolla/qtype/array_like/frame_iter.h: ForEachFrame", "arolla/dense_array/qtype/copier.h", "arolla/array/qtype/copier.h"]}
{"id": "C73", "title": "Multi-threaded ForEachFrame equals the single-threaded one under every schedule", "statement": "ForEachFrame(fn, threading, thread_count) has no data race on the frames, never uses a destroyed or exhausted barrier, never deadlocks and terminates; when all workers have returned the outputs are those of the single-threaded ForEachFrame.", "quantifier": "all thread counts >= 1, all schedules of the workers, all inputs and functions for which the single-threaded run is defined", "why_tests_cant": "Two barriers are reused and replaced while other threads may still be inside of them; a wrong interleaving is practically never hit by a test.", "anchors": ["arolla/qtype/array_like/frame_iter.h: ForEachFrame(fn, threading, thread_count)"]}
{"id": "C66", "title": "BatchedForestEvaluator sums the selected trees in every row", "statement": "BatchedForestEvaluator::Compile and EvalBatch store in every output array, for every row, the sum over the trees selected by the group's filter, evaluated on the inputs of that row; other slots are unchanged. The result does not depend on optimal_splits_per_evaluator (how the forest is cut into pointwise evaluators), on the representation of the input arrays, on dense or sparse outputs, or on hash map orders. EvalBatch succeeds only if all required inputs are given with the right types and one size, equal to the row count if that is given.", "quantifier": "all forests of proper trees, groups, batches, optimal_splits_per_evaluator > 0", "why_tests_cant": "Cutting the forest, mapping of inputs and adding partial results through the output slots interact; tests use few forests and never an output in place of an input.", "anchors": ["arolla/decision_forest/batched_evaluation/batched_forest_evaluator.cc", "arolla/decision_forest/batched_evaluation/batched_forest_evaluator.h"]}
{"id": "C70", "title": "Pointwise operations on arrays are elementwise in every representation", "statement": "An operation made by CreateArrayOp (or by the array lifters from an elementwise dense operation) on arrays of one size returns, if it succeeds, the array whose element i is the functor applied to the elements i of the arguments, missing if a required argument is missing there. It does not succeed if the functor fails for some row; it fails only if the functor fails for some row or for the missing_id_values; sizes that differ are an error. The result does not depend on how the arguments are represented (const, sparse with any ids and offset, dense, missing_id_value).", "quantifier": "all arrays, any number of required and optional arguments, all functors", "why_tests_cant": "The filter of the result is an upper bound of an intersection or of a union chosen by the forms of the arguments; a wrong choice loses or invents elements only for particular mixtures of forms.", "anchors": ["arolla/array/pointwise_op.h: ArrayPointwiseOp, CreateArrayOp", "arolla/memory/optional_value.h: WrapFnToAcceptOptionalArgs", "arolla/qexpr/operators/array/lifter.h"]}
{"id": "C74", "title": "core.presence_or on arrays is elementwise in every representation", "statement": "core.presence_or of two arrays of one size, and of an array and a value, gives at every row the first argument if present there and otherwise the second; different sizes are an error. All shortcuts (all missing, const, full, const second argument) agree with this.", "quantifier": "all pairs of arrays in all representations", "why_tests_cant": "Six code paths are chosen by the forms of both arguments.", "anchors": ["arolla/qexpr/operators/array/logic_ops.h: ArrayPresenceOrOp"]}
{"id": "C75", "title": "Initializers run once, in dependency order", "statement": "Coordinator::Run (behind InitArolla) always finishes. Whatever its outcome, every initializer function is called at most once, only after all initializers that it depends on (by deps, by reverse_deps of others, through common phony names, transitively; or completed by an earlier run), and nothing is called after a failure. It succeeds iff all called functions succeed and the initializers are acceptable: unique new names that are not phony, no reverse dependency on a completed initializer, every dependency defined, completed or phony, no cycle; then every initializer was called once. For named initializers the order does not depend on the order of registration.", "quantifier": "all lists of initializers (named and anonymous), all previously completed names, all outcomes of the functions", "why_tests_cant": "The initializers of a process depend on what is linked and in which order; tests cover a handful of small digraphs.", "anchors": ["arolla/util/init_arolla_internal.cc: InitNode, ExecuteNode, Coordinator::Run", "arolla/util/init_arolla.h"]}
{"id": "C76", "title": "A pattern optimization rewrites exactly the instances of its pattern", "statement": "CreatePatternBasedOptimization(from, to, matchers) finishes, and succeeds exactly if `from` is not a placeholder, neither side has leaves, the placeholders of `to` and the matcher keys occur in `from`, and the operator references in `to` resolve. ApplyToRoot(root) then never touches memory out of range or not set. It rewrites root iff root is an instance of `from`: literals stand for themselves, operators for operators of the same display name and arity, equal subexpressions of `from` for equal subexpressions of root, and the matchers accept what the placeholders stand for; the result is `to` with these subexpressions for the placeholders, otherwise root itself. If both sides have the same value for all accepted substitutions, the value of every expression is kept.", "quantifier": "all patterns, replacements and matchers, all expressions, all semantics of operators by display name", "why_tests_cant": "The set of expressions a rule is applied to is unbounded; sharing of subexpressions and repeated placeholders give many memory layouts.", "anchors": ["arolla/expr/optimization/pattern_based_optimization.cc: CompilePattern, VerifyPattern, MatchPattern, SubstituteNodes, ApplyToRoot", "arolla/expr/optimization/peephole_optimizer.cc: ResolveReferenceToRegisteredOperators"]}
{"id": "C77", "title": "The peephole optimizer runs all applicable rules and keeps values", "statement": "For rules that keep the contract of GetKey (proved for pattern rules under every hash function), ApplyToNode runs in the order of registration the rules whose key is that of the node, each on the result of the previous one, then the rules without key. The function of MakeOptimizer returns r exactly if r is a fixpoint of ApplyToNode that is reached by less than 100 changing applications none of which changes the output type, and reports too many iterations exactly if 100 applications all change the expression. If all rules keep values, so do it and Apply. If all rules that change something make the expression smaller in some measure, no rule changes the result.", "quantifier": "all lists of rules, hash functions, expressions", "why_tests_cant": "The interplay of rules depends on the whole rule set and on the expression; tests run single rules on small expressions.", "anchors": ["arolla/expr/optimization/peephole_optimizer.cc: PatternKey, Create, ApplyToNode, Apply", "arolla/expr/optimization/optimizer.cc: MakeOptimizer"]}
{"id": "C78", "title": "Preparing an expression keeps its value and reaches a normal form", "statement": "PrepareExpression always finishes. For an expression built by the factories whose types and values are true, declared input types that are true, and transformations that keep values, the prepared expression has the same value and all types and values recorded in it are true. The attributes of the result extend those of the expression. In the result of a non-leaf expression every enabled stage has nothing left to do: no node with a known value is unfolded, every leaf sits under a type annotation, annotations agree with the declared types of leaves, no operator can be lowered, optimized, cast or extended, and only type annotations remain.", "quantifier": "all expressions, operators, input types, stages, lowering, casting, optimizer and extension functions", "why_tests_cant": "Eight transformations are interleaved on every node until nothing changes; tests run a few expressions through them.", "anchors": ["arolla/expr/eval/prepare_expression.cc: PrepareExpression, ApplyNodeTransformations, PopulateQTypesTransformation, LiteralFoldingTransformation, ToLowerTransformation, StripAnnotationsTransformation, EmbedLiteralsTransformation"]}
{"id": "C79", "title": "The compiled expression has the types, inputs and value of the prepared one", "statement": "ExtractQTypesForCompilation returns the expression without its annotations and maps exactly every remaining node to the type some annotated version of it has in the prepared expression; in release builds it fails exactly if two such types (or one given before) differ. The compiled expression has the value of the original one, no annotations and no placeholders; every recorded type is the type of the node's value. Every leaf of it is among the reported inputs, with the declared type if one was declared, provided that the type argument of every remaining annotation is known.", "quantifier": "all expressions, annotations, input types, stages", "why_tests_cant": "Removing annotations can make distinct nodes equal, so consistency of the types is a property of the whole expression.", "anchors": ["arolla/expr/eval/prepare_expression.cc: ExtractQTypesForCompilation, CheckForTypeMismatchAndSetType, LookupLeafQTypes", "arolla/expr/eval/eval.cc: CompileForDynamicEvaluation"]}
{"id": "C80", "title": "Searching in strings works on bytes for Bytes and on code points for Text", "statement": "strings.find and rfind return the first and last position (in bytes for Bytes, in code points for Text) at which the substring occurs within the slice [start, end) as defined for Python sequences (negative indices from the end, missing bounds open), and are missing if it does not occur there. strings.substr returns exactly that slice. strings.contains is present iff the substring occurs; strings.count is the number of its (possibly overlapping) occurrences (for less than 2^31 of them); strings.length of a Text is the number of its code points. No operation reads out of range, also for ill-formed Texts.", "quantifier": "all strings, substrings and bounds", "why_tests_cant": "Positions in bytes and in code points differ for all non-ASCII texts; that no match starts inside of a character is a property of the whole encoding.", "anchors": ["arolla/qexpr/operators/strings/find.cc", "arolla/qexpr/operators/strings/strings.h: TextLengthOp"]}
{"id": "C81", "title": "Stripping removes exactly the longest prefix and suffix of the given characters", "statement": "strings.lstrip, rstrip and strip return the string without its longest prefix, suffix, or both, of the characters given (of white space if none are given); characters are bytes for Bytes and code points for Text.", "quantifier": "all strings and sets of characters", "why_tests_cant": "The set of strings is unbounded, and so is that of the character sets.", "anchors": ["arolla/qexpr/operators/strings/strings.h: LStripOp, RStripOp, StripOp"]}
{"id": "C82", "title": "Replacing replaces the leftmost non-overlapping occurrences up to the limit", "statement": "strings.replace(s, old, new, max_subs) replaces, from the left, the non-overlapping occurrences of a non-empty old, at most max_subs of them if that is present and not negative; with an empty old it inserts new before, between and after the characters with the same limit. For Text occurrences and characters are those of code points and the result is a Text.", "quantifier": "all strings, old and new substrings and limits", "why_tests_cant": "Overlaps, limits and empty patterns interact; for Text the claim depends on the encoding of all characters.", "anchors": ["arolla/qexpr/operators/strings/strings.cc: ReplaceImpl, BytesReplaceOp, TextReplaceOp"]}
{"id": "C83", "title": "Decoding accepts exactly well-formed UTF-8 and repairs everything else", "statement": "strings.decode with errors='strict' succeeds iff the bytes are the UTF-8 encoding of a text, returns them unchanged, and otherwise reports the position of the first ill-formed sequence. With 'ignore' and 'replace' it always succeeds; the result is well-formed, and is the input in which every maximal ill-formed subpart (as defined by Unicode) is removed or replaced by one U+FFFD. decode(encode(t)) = t for every Text in all modes.", "quantifier": "all byte strings", "why_tests_cant": "There are 2^32 byte sequences of length four alone, and positions depend on context.", "anchors": ["arolla/qexpr/operators/strings/strings.cc: ValidateUtf8, ParseUtf8, DecodeOp", "arolla/qexpr/operators/strings/strings.h: EncodeOp"]}
{"id": "C84", "title": "Integer parsing accepts exactly the decimal integers in range and inverts as_text", "statement": "strings.parse_int32 and parse_int64 succeed iff the string is an optional sign (one of + and -) followed by at least one decimal digit and nothing else, with a value in the range of the type, and return this value. parse(as_text(x)) = x for every x.", "quantifier": "all strings and all integers of the types", "why_tests_cant": "Inputs of any length with any leading zeros; the limits of 64 bit values.", "anchors": ["arolla/qexpr/operators/strings/strings.h: ParseIntT", "arolla/qexpr/operators/strings/strings.cc: SignedIntegerToText"]}
{"id": "C85", "title": "Splitting and joining are inverse, and the edge groups the parts by string", "statement": "strings.split with a non-empty separator gives the parts between the leftmost non-overlapping occurrences of the separator (of code points for Text); without a separator the maximal runs of characters that are not white space. The edge of the result has the running numbers of parts as split points, so that the group of row i are the parts of the i-th string, none for a missing one. strings.join is the concatenation with separators, missing if a part is missing; join(sep, split(s, sep)) = s, and split(join(c, parts), c) = parts if the character c does not stand in the parts.", "quantifier": "all arrays of strings, all separators", "why_tests_cant": "Overlapping separators, empty parts and missing rows combine without bound.", "anchors": ["arolla/qexpr/operators/strings/split.h: SplitOp", "arolla/qexpr/operators/strings/join.cc: JoinBoundOperator"]}
{"id": "C86", "title": "strings.format renders its specification", "statement": "strings.format(spec, names, values...) succeeds iff the comma separated names are distinct, there are as many as values, and the specification can be read as a sequence of bytes other than braces, doubled braces, {name} and {name:format} with an identifier as name that is among the names and a format without } which is valid for the value. The result is the sequence of these bytes, single braces, and formatted values. Doubling all braces of a string gives a specification of this string.", "quantifier": "all specifications, names, values, and formatting functions for single values", "why_tests_cant": "Specifications are an unbounded language; adjacent braces can be read in several ways.", "anchors": ["arolla/qexpr/operators/strings/format.cc: PyFormatParser, FormatBoundOperator"]}
{"id": "C87", "title": "IsWithinOneTypo decides whether strings differ by at most one edit", "statement": "IsWithinOneTypo(a, b) is true iff a = b or b results from a by one insertion, deletion or substitution of a character or by one transposition of two adjacent characters, and reads no character out of range.", "quantifier": "all pairs of strings", "why_tests_cant": "The function compares only the longest common prefix and suffix; that this suffices for all strings with repeated characters is not obvious from examples.", "anchors": ["arolla/util/string.cc: IsWithinOneTypo"]}
{"id": "C88", "title": "A string buffer is a list of strings, however it was made", "statement": "A StringsBuffer built with any sequence of in-range calls of Set, Copy, SetN and SetNConst, with any initial size of the character buffer, has exactly the values these calls have set (empty strings elsewhere); Create has the given values; Slice has the values of the slice, DeepCopy and ShallowCopy the same values. All their results satisfy the requirements of the constructor, every value can be read without leaving the character buffer, and operator== holds iff the values are the same.", "quantifier": "all sequences of calls, all strings, all buffers that satisfy the requirements of the constructor", "why_tests_cant": "The representation (offsets into shared characters with a base) is not determined by the values; growing the characters depends on all previous calls.", "anchors": ["arolla/memory/strings_buffer.h: StringsBuffer", "arolla/memory/strings_buffer.cc"]}
{"id": "C89", "title": "Reshuffling string buffers keeps strings and fills in the default", "statement": "A StringsBuffer::ReshuffleBuilder makes a buffer whose values are those of the old buffer at the positions given by CopyValue and CopyValueToRange, and the default value (the empty string if there is none) at all others; the new buffer satisfies the requirements of the constructor.", "quantifier": "all buffers, default values and sequences of calls", "why_tests_cant": "Buffers with the same values have different base offsets and characters, depending on how they were made.", "anchors": ["arolla/memory/strings_buffer.cc: StringsBuffer::ReshuffleBuilder"]}
{"id": "C90", "title": "Equal string buffers have equal hashes and fingerprints", "statement": "If two StringsBuffers are equal by operator== then AbslHashValue and the fingerprint hasher combine the same data for both.", "quantifier": "all pairs of buffers", "why_tests_cant": "Equality does not determine the representation.", "anchors": ["arolla/memory/strings_buffer.h: AbslHashValue", "arolla/memory/strings_buffer.cc: FingerprintHasherTraits<StringsBuffer>"]}
{"id": "C91", "title": "Overload resolution of QExpr operators finds the most specific signature", "statement": "FindMatchingSignature returns the supported signature that has exactly the requested types (after decaying derived types) if there is one; otherwise the signature with the requested output type to which the inputs can be cast implicitly and whose inputs can be cast to those of every other such signature. It reports that there is no signature iff there is none to which the inputs can be cast, and that there is no best one iff there are such signatures but no most specific one. The result does not depend on the order of the supported signatures.", "quantifier": "all lists of signatures, all requested types, every relation of implicit casts that is a partial order (as is that of the code, C50)", "why_tests_cant": "The frontier of candidates is pruned while signatures arrive in any order; correctness needs transitivity across all of them.", "anchors": ["arolla/qexpr/casting.cc: FindMatchingSignature, CanCastImplicitly"]}
{"id": "C92", "title": "The QExpr operator registry keeps the operators in effect", "statement": "After any sequence of RegisterOperator and RegisterOperatorFamily calls: what stands under a name depends only on the calls with this name, the first of which decides whether it is a family of its own or a set of operators. A registration of an operator succeeds iff its priority is in range and no operator with these input types and this priority was registered before. For given input types the operator with the higher priority is in effect whatever the order of registrations. LookupOperator gives the operator in effect for exactly the requested types, else the one selected by overload resolution among the operators in effect; no lookup follows a null pointer if all priorities were in range.", "quantifier": "all sequences of registrations, all lookups", "why_tests_cant": "Registrations happen in initializers of many libraries in an order that depends on linking; records and the list of supported signatures must stay consistent through all overwrites.", "anchors": ["arolla/qexpr/operators.cc: CombinedOperatorFamily, OperatorRegistry"]}
{"id": "C93", "title": "Snapshots of generic operators are fresh", "statement": "While operators are registered concurrently, a call of a GenericOperator uses a snapshot of the overloads in its namespace: for every name under the namespace on which no registration is in progress, the snapshot has exactly the overload that the registry holds at the moment of the check of the revision id; no overload occurs twice; and a cached snapshot is reused only if nothing under the namespace has changed since. The registration publishes the revision id before the name is listed; a snapshot built in between misses the overload and stays in use after the registration has returned.", "quantifier": "all interleavings of any number of registrations and of calls of the operator", "why_tests_cant": "The window is a few instructions wide; a race in which a stale snapshot is cached with a fresh revision id does not show up in sequential tests.", "anchors": ["arolla/expr/operator_loader/generic_operator.cc: GenericOperator::GetSnapshot, BuildSnapshot", "arolla/expr/registered_expr_operator.cc: ExprOperatorRegistry::Register"]}
{"id": "C94", "title": "Which overload generic and dispatch operators select", "statement": "An overload of a generic operator is ready iff the inputs can be bound to its signature and the types its condition uses are known; each placeholder then has the type of its input (for a variadic parameter: the tuple of the types of the rest). The choice is ambiguous iff two overloads match; it is undecided if otherwise one is not ready; else it is the one overload that matches or an error if none does. It does not depend on the order of the overloads, a decision does not change when types of more inputs become known, and there is a decision if all types are known and the inputs fit all signatures. A dispatch operator decides once all types that any of its conditions uses are known, with the default operator if no condition holds.", "quantifier": "all signatures, conditions, sets of overloads and partially known input types", "why_tests_cant": "The space of signatures with partially known inputs is unbounded; monotonicity and independence of the order relate pairs of runs.", "anchors": ["arolla/expr/operator_loader/generic_operator.cc: GenericOperator::GetOverload", "arolla/expr/operator_loader/dispatch_operator.cc: DispatchOperator::GetOverload", "arolla/expr/operator_loader/helper.cc", "arolla/qexpr/operators/bootstrap/qtype_operator.cc: ParseInputQTypeSequence"]}
{"id": "C95", "title": "Piecewise linear curves interpolate their control points", "statement": "A curve that NewCurve builds passes through all its control points, is the line (in the transformed coordinate of its type) between neighbouring finite control points, is constant outside them, follows the line of the nearest two finite points towards an infinite control point, has a value for every input, and does not fall if its control points do not. NewCurve accepts all finite control points with strictly increasing x (within the domain of the type), and no others without NaN that are not increasing. A redundant infinite control point can make NewCurve refuse a curve it accepts without that point, and NaN coordinates are accepted.", "quantifier": "all lists of control points over an ordered field with infinities, all inputs, all four curve types", "why_tests_cant": "The builder trims, drops and transforms points in ways that depend on which coordinates are equal or infinite; evaluation at all inputs and monotonicity over all pairs of inputs are out of reach of examples.", "anchors": ["arolla/pwlcurve/curves.cc: PWLCurveBuilder, PWLCoefficientsFor, FindCoefficients, PWLCurveTmpl::Eval, CommonChecks"]}
{"id": "C96", "title": "The text form of curves", "statement": "The parser accepts a text iff it is the name of a curve type (legacy names included) followed by a non-empty list of points with the given separator, in exactly the documented form without anything after it, and it gives the type and the values of the coordinates. Curve::ToString gives a text that parses to the same type and control points, whenever the texts of the coordinates parse back. The separator used is the only one of the allowed separators in the text, the first allowed one if the text has none, and none if it has several.", "quantifier": "all texts, separators, and all number formats for which coordinates parse back", "why_tests_cant": "The texts are unbounded; that a malformed text is never accepted is a statement about all of them.", "anchors": ["arolla/pwlcurve/curves.cc: Parse, ParsePoint, ParseType, FindSeparatorUsed, Curve::ToString, PointToString"]}
{"id": "C97", "title": "Buffers of a buffer factory are independent", "statement": "Whatever sequence of creations, resizes, writes and resets a client performs on an UnsafeArenaBufferFactory, every live buffer holds exactly the bytes that were written into it (a resize keeps the bytes up to the smaller size), live buffers never overlap, their addresses are multiples of 8 and their bytes lie in memory the arena holds; no copy ever overlaps its source. After Reset the big blocks are released, the pages are kept and the first page is reused without asking the base factory. The heap factory has the same contract.", "quantifier": "all page sizes, all base factories that give fresh aligned memory, all programs of a client", "why_tests_cant": "Whether two buffers overlap depends on the whole history of sizes, resizes of the last buffer, page changes and resets, and on the addresses the base factory happens to give (also adjacent ones).", "anchors": ["arolla/memory/raw_buffer_factory.cc: UnsafeArenaBufferFactory, HeapBufferFactory", "arolla/memory/raw_buffer_factory.h: UnsafeArenaBufferFactory"]}
{"id": "C98", "title": "Input loaders load the values that they promise", "statement": "An input loader can be bound to slots iff it has every requested name with the type of the slot; running the bound loader writes the value of every name into its slot and changes no other slot, and it fails only if one of the requested values is an error. A chain gives every name the value of the first loader that has it, a filter hides names without changing values, accessors give every name the value of its accessor (and are refused iff names repeat), a delegating loader has the names of the other loader after the prefix with the values for that part of the input, a dynamic one gives every name to the loader of its key whatever the order of the hash map, and a wildcard loader has all names with a key, with the value of the accessor for the key (with a callback: of the type of the key).", "quantifier": "all nestings of loaders, all sets of slots, all inputs and frames, all orders of hash maps", "why_tests_cant": "Loaders nest arbitrarily, and whether every name reaches exactly its slot depends on how requested names are partitioned among them.", "anchors": ["arolla/io/input_loader.h: InputLoader::Bind, ChainInputLoader, FilteringInputLoader", "arolla/io/input_loader.cc: ValidateSlotTypes, ExtractSupportedSlots, ValidateDuplicatedNames", "arolla/io/accessors_input_loader.h: AccessorsInputLoader", "arolla/io/delegating_input_loader.h: DelegatingInputLoader, DynamicDelegatingInputLoader", "arolla/io/wildcard_input_loader.h: WildcardInputLoader"]}
{"id": "C99", "title": "Names of a wildcard loader and keys correspond", "statement": "The key that a wildcard loader built from a name format extracts from a name is the text for which the format gives that name, and a name has a key iff the format gives it for some text.", "quantifier": "all name formats, names and keys", "why_tests_cant": "The key is found by formatting a marker text and looking for it in the result; it depends on the format which texts surround it.", "anchors": ["arolla/io/wildcard_input_loader.cc: MakeNameToKeyFn"]}
{"id": "C100", "title": "A bound slot listener hears exactly the values under the names it was bound for", "statement": "A slot listener can be bound to slots iff it accepts the type under every name, and its effect on the output then depends only on the names, types and values of the slots: an accessor hears the value of its name, in the order of the accessors; a delegating listener hears the names after its prefix and writes only to its part of the output; a chain passes to every listener, in turn, the names it knows and stops at the first error.", "quantifier": "all listeners that keep this contract, combined in any way, all slots, frames and outputs", "why_tests_cant": "Listeners are combined at will, and the slots that a compiled expression offers depend on the expression; tests bind a few combinations.", "anchors": ["arolla/io/slot_listener.h: SlotListener", "arolla/io/chain_slot_listener.h: ChainSlotListener", "arolla/io/accessors_slot_listener.h: AccessorsSlotListener", "arolla/io/delegating_slot_listener.h: DelegatingSlotListener"]}
{"id": "C101", "title": "Loaders of elements and structs copy exactly what is named", "statement": "A loader of typed references, of a span or of a tuple with different names writes each element to the slot of its name, fails for a wrong number or type of elements and leaves the rest of the frame unchanged; reading a struct into a frame (or a frame into a struct) copies exactly the bytes of the fields that are bound, to their places, and no other byte changes.", "quantifier": "all argument lists, slots, inputs, layouts of structs and frames, and orders of hash maps and sorting", "why_tests_cant": "The copies are grouped by type and sorted for speed; which slots, sizes and offsets meet depends on the layout, and an overlap or a wrong offset is silent.", "anchors": ["arolla/io/typed_refs_input_loader.cc: CreateTypedRefsInputLoader", "arolla/io/span_input_loader.h: SpanInputLoader", "arolla/io/tuple_input_loader.h: TupleInputLoader", "arolla/io/struct_io.cc: StructIO"]}
{"id": "C102", "title": "Circular registered operators are detected, and only those", "statement": "Decaying a registered operator always ends; it returns the operator at the end of the chain of implementations, reports that an operator is not found iff the chain ends there, and reports a circular dependency iff the chain never ends. Calls of the methods of registered operators through each other always end, leave the state of the thread as it was, and have the same result as without detection whenever they end without it.", "quantifier": "all registries, chains of any length, all patterns of nested calls", "why_tests_cant": "Detection starts only below a depth of 24; tests have one short loop and no chain of that length that is not a loop.", "anchors": ["arolla/expr/registered_expr_operator.cc: CircularDependencyDetector, DecayRegisteredOperator"]}
{"id": "C103", "title": "Short-circuiting branches does not change values", "statement": "Extracting a subexpression into a lambda always ends; the arguments are, without repetition, exactly the reached nodes that stay outside, and calling the lambda on them gives the value of the subexpression. The global transformation of core._short_circuit_where nodes into packed operators or core.where never reads an unregistered node, and the transformed expression has the value of the original one.", "quantifier": "all expressions with any sharing and nesting of where nodes, all predicates, all meanings of the operators", "why_tests_cant": "The subexpressions form a graph with arbitrary sharing; placeholders, arguments and node ids have to fit together for every one of them, and tests contain a few shapes.", "anchors": ["arolla/expr/eval/expr_utils.cc: ExtractLambda", "arolla/expr/eval/compile_where_operator.cc: WhereOperatorTransformationImpl, WhereOperatorGlobalTransformation"]}
{"id": "C104", "title": "A short-circuited branch contains exactly what only it needs", "statement": "When a core._short_circuit_where node is transformed, a branch is short-circuited iff it is an operator whose only use is by this node, and of the operators below it exactly those are taken that are used nowhere outside of the branch: nothing needed elsewhere is skipped with the branch, and nothing needed only by the branch is computed outside of it.", "quantifier": "all expressions with any sharing and nesting of where nodes", "why_tests_cant": "Dominance is decided by comparing two depths in a dominator tree of the original expression while the expression is being changed; whether that is right depends on all paths of the graph.", "anchors": ["arolla/expr/eval/compile_where_operator.cc: ExprDominatorTree, WhereOperatorTransformationImpl, WhereOperatorGlobalTransformation"]}
{"id": "C105", "title": "Presence optimizations do not change results", "statement": "Every rewriting rule for presence operators (has, presence_not, presence_and, presence_or, where and their combinations), whenever its conditions hold and the types of both sides agree, replaces an expression that has a value by one with the same value; and the types of both sides always agree.", "quantifier": "all rules of presence.cc, all types (scalar, optional, array), all values, sizes and missing rows", "why_tests_cant": "A rule acts on arguments of any of the types that its operators accept; tests of a rule fix the types and check the shape of the rewritten expression, rarely its value.", "anchors": ["arolla/expr/optimization/peephole_optimizations/presence.cc: PresenceOptimizations, CodegenPresenceOptimizations", "arolla/expr/optimization/optimizer.cc: MakeOptimizer"]}
{"id": "C106", "title": "Boolean optimizations do not change results", "statement": "Every rewriting rule for boolean operators and comparisons (negated comparisons, comparison with true, logical_if) keeps the type and the value of every expression it applies to.", "quantifier": "all rules of bool.cc, all scalar types, containers, values and missing rows", "why_tests_cant": "Three-valued logic times containers times special values: NaN is one case that tests of the rules do not contain.", "anchors": ["arolla/expr/optimization/peephole_optimizations/bool.cc: BoolOptimizations"]}
{"id": "C107", "title": "Balancing, arithmetic, add4 and short-circuit rules keep results under exactly stated laws", "statement": "Balancing chains of presence_and, presence_or, logical_and and logical_or and replacing where by its short-circuit form never changes a value or a type; balancing products, removing + 0 and * 1 and merging sums into _add4 never change a type, and keep values exactly if the arithmetic satisfies the re-association equalities and neutrality used, as wrapping integers do.", "quantifier": "all containers and values, all arithmetic", "why_tests_cant": "The rules are applied to floating point too; whether a re-association is harmless is a law about all operands.", "anchors": ["arolla/expr/optimization/peephole_optimizations/balance.cc: BalanceOptimizations", "arolla/expr/optimization/peephole_optimizations/arithmetic.cc: ArithmeticOptimizations", "arolla/expr/optimization/peephole_optimizations/reduce.cc: ReduceOptimizations", "arolla/expr/optimization/peephole_optimizations/short_circuit_where.cc: ShortCircuitWhereOptimizations"]}
{"id": "C108", "title": "Optimizing an expression does not change its value", "statement": "Any number of rule applications, in any order and anywhere in an expression, each accepted by the type check of the optimizer, leave the type of the expression unchanged, and for all inputs the optimized expression has the value of the original one: for every scalar type with the rules that need no law of arithmetic or order, for integers with all rules.", "quantifier": "all expressions of the modelled operators, all sequences of rule applications, all inputs", "why_tests_cant": "Which rules fire in which order depends on the whole expression; tests apply single rules to small expressions.", "anchors": ["arolla/expr/optimization/optimizer.cc: MakeOptimizer", "arolla/expr/optimization/peephole_optimizer.cc: PeepholeOptimizer", "arolla/expr/optimization/peephole_optimizations/presence.cc: PresenceOptimizations", "arolla/expr/optimization/peephole_optimizations/bool.cc: BoolOptimizations"]}
{"id": "C109", "title": "Serializing a dense array and reading it back gives the same array", "statement": "Encoding a valid dense array (numbers, booleans, units, texts, bytes) never fails and decoding the message gives an array with the same rows and fingerprint, also for slices whose bitmap starts in the middle of a word and for missing rows with arbitrary content. The message depends on the rows only, and arrays with different rows have different messages.", "quantifier": "all sizes (up to 2^63-33), bitmaps, bit offsets, values, offsets of strings", "why_tests_cant": "The bitmap is copied word by word with a shift and a mask that depend on size and offset; tests serialize a few small arrays.", "anchors": ["arolla/serialization_codecs/dense_array/encoders/dense_array_encoder.cc: GenBitmapProto, EncodeDenseArrayUnitValue, GEN_ENCODE_DENSE_ARRAY_VALUE, GEN_ENCODE_DENSE_ARRAY_STRING_VALUE", "arolla/serialization_codecs/dense_array/decoders/dense_array_decoder.cc: GEN_DECODE_DENSE_ARRAY_VALUE, GEN_DECODE_DENSE_ARRAY_STRINGS_VALUE"]}
{"id": "C110", "title": "A dense array message is accepted iff it is well-formed", "statement": "For any message, however it was produced, the dense array decoder returns the array that the message describes if the message is well-formed, and an error status otherwise; it never reads or writes out of range, and no row of an accepted array of strings reaches outside of its characters.", "quantifier": "all messages: any size, bitmap, number of values, string offsets", "why_tests_cant": "Malformed input is unlimited; tests have one example for each error message.", "anchors": ["arolla/serialization_codecs/dense_array/decoders/dense_array_decoder.cc: DECODE_DENSE_ARRAY_HEADER, DecodeDenseArrayUnitValue, GEN_DECODE_DENSE_ARRAY_VALUE, CheckStringsOffsets, GEN_DECODE_DENSE_ARRAY_STRINGS_VALUE"]}
{"id": "C111", "title": "Serializing an array and reading it back gives the same array", "statement": "Encoding a valid array (dense, sparse, constant, empty, slices) and decoding it gives a valid array with the same rows and the same fingerprint. Any message with any input values is decoded to the array it describes if it is well-formed (ids strictly increasing and in range, sizes that agree), else to an error.", "quantifier": "all arrays, all messages and input values", "why_tests_cant": "Id filters and their offsets give each array many forms; tests contain some of them.", "anchors": ["arolla/serialization_codecs/array/encoders/array_encoder.cc: EncodeArrayValueImpl", "arolla/serialization_codecs/array/decoders/array_decoder.cc: DecodeArraySize, DecodeArrayIds, DecodeArrayValue"]}
{"id": "C112", "title": "Serialized edges relate the same rows and only well-formed edges are accepted", "statement": "Encoding and decoding an edge of dense arrays or of arrays gives an edge of the same type and sizes that relates the same children and parents. A decoded edge is always well-formed: a message is accepted iff its values are non-decreasing split points from 0, or a mapping within the given number of parents; negative sizes of scalar edges and shapes are errors.", "quantifier": "all edges, all messages and input values", "why_tests_cant": "An accepted edge that is not well-formed makes later operators read out of range; tests reject a few.", "anchors": ["arolla/serialization_codecs/dense_array/decoders/dense_array_decoder.cc: DecodeDenseArrayEdgeValue", "arolla/serialization_codecs/array/decoders/array_decoder.cc: DecodeArrayEdgeValue", "arolla/array/edge.cc: FromSplitPoints, FromMapping"]}
{"id": "C113", "title": "Operations on array edges do not depend on how the edge values are stored", "statement": "For well-formed edges of arrays in any form (sparse, constant, dense): conversion to edges of dense arrays and back, to mappings and to split points keeps sizes and the relation between children and parents; conversion to split points succeeds iff every child has a parent and parents are non-decreasing; composition composes the relations and succeeds iff sizes fit; IsEquivalentTo is true iff sizes and relations are the same; split_size(i) is the number of children of parent i.", "quantifier": "all well-formed edges, all forms of their values, all lists of edges", "why_tests_cant": "An Array has many forms for the same rows; tests of edges use few of them.", "anchors": ["arolla/array/edge.h: ToDenseArrayEdge, FromDenseArrayEdge, split_size", "arolla/array/edge.cc: FromUniformGroups, ToMappingEdge, ToSplitPointsEdge, ComposeEdges, IsEquivalentTo"]}
{"id": "C114", "title": "A forest model computes the mean of its expression over the bags", "statement": "ForestModel::Create analyses the postprocessing expression and rewrites it into an expression over one tuple of sums of trees: submodels of a plain sum are merged into one filter with weight multipliers, other expressions are evaluated bag by bag and averaged, out-of-bag filters disable bags, a truncation step restricts all filters. Whatever way is chosen, the lowered expression has the value documented for the model: the mean over the enabled bags of the expression, where P.x in bag b is the output of the trees of submodel_ids[x][b] scaled by the number of bags; missing if no bag is enabled; a model without submodels has the value of the expression. All submodels have the same number of bags.", "quantifier": "all forests, expressions, numbers of bags, filters, truncation steps, inputs and meanings of the other operators", "why_tests_cant": "The value depends on which of three rewritings is chosen and on the bookkeeping of filters and multipliers for arbitrarily many submodels and bags.", "anchors": ["arolla/decision_forest/expr_operator/forest_model.cc: Create, Initialize, AnalyzeExpression, HandlePlainSumExpression, HandleExpressionWithoutBags, HandleExpressionWithBags, UsedBagCountExpr, CreateDecisionForestOperator, ApplyPostprocessing, ToLowerLevel"]}
{"id": "C115", "title": "Partial evaluators of a forest model compute the requested step ranges", "statement": "CreatePartialEvaluator returns for every requested step range and every filter of the model the sum over the trees of the filter with steps in the range; preselecting trees by a combined step filter loses no tree; the results of two adjacent ranges add up to the result of their union; the range of all available steps gives exactly the tuple from which ApplyPostprocessing computes the value of the model; ranges beyond the truncation step are rejected.", "quantifier": "all models, all lists of step ranges", "why_tests_cant": "Preselection combines arbitrarily many filters; tests use few ranges.", "anchors": ["arolla/decision_forest/expr_operator/forest_model.cc: CreatePartialEvaluator, GetMaybeUsedTrees, CreateDecisionForestOperator"]}
{"id": "C116", "title": "Decision forests survive serialization and no message makes an evaluation leave its bounds", "statement": "Encoding a decision forest whose conditions are intervals or sets of int64 and decoding it gives the same trees (node references, conditions, adjustments, weights, tags), counts and required inputs; other conditions are an encoding error, and different forests have different messages. A message is decoded iff it describes a forest: conditions present, children present and inside the tree, one more adjustment than split nodes, non-negative tags, one type for each input. Whatever message is decoded, evaluating the forest never reads outside of its vectors.", "quantifier": "all forests with at most 2^31 adjustments in a tree; all messages", "why_tests_cant": "Messages are unlimited and may come from another writer; tests round-trip a few forests.", "anchors": ["arolla/decision_forest/s11n/codec.cc: NodeIdToProto, SplitConditionToProto, DecisionForestToProto, NodeIdFromProto, SplitConditionFromProto, DecisionForestFromProto", "arolla/decision_forest/decision_forest.cc: FromTrees, Initialize"]}
{"id": "C117", "title": "Forest models survive serialization", "statement": "A forest model without out-of-bag filters and truncation is encoded, any other is an error; decoding the message creates a model from the same forest, submodel ids, inputs with their preprocessing expressions and postprocessing expression. Any message with any input values and expressions is decoded without reading outside of the input expressions; it is accepted iff it has one forest, one expression more than inputs with preprocessing, all names and no repeated submodel name, and the expressions go to the inputs in order.", "quantifier": "all models, all messages with all input values and expressions", "why_tests_cant": "Which expression belongs to which input depends on all inputs before it; tests have one or two inputs.", "anchors": ["arolla/decision_forest/s11n/codec.cc: EncodeForestModel, DecodeForestModel"]}
{"id": "C118", "title": "edge.from_sizes and edge.sizes are inverse to each other", "statement": "edge.from_sizes accepts exactly full arrays of non-negative sizes whose sum is an int64 and builds the edge in which the children of the groups follow each other; everything else is an error and nothing is undefined. edge.sizes returns for every parent the number of its children, for mappings and split points. The sizes of an edge made by from_sizes are the given ones, and from_sizes of the sizes of a split point edge gives the same split points.", "quantifier": "all arrays of sizes, all well-formed edges, all contents of uninitialised memory", "why_tests_cant": "The int64 limits and the exact set of accepted arrays cannot be enumerated.", "anchors": ["arolla/qexpr/operators/dense_array/edge_ops.h: DenseArrayEdgeFromSizesOp, DenseArrayEdgeSizesOp", "arolla/util/overflow.h: safe_add"]}
{"id": "C119", "title": "edge.pair_left and edge.pair_right enumerate the pairs in each group", "statement": "For sizes of groups, pair number q of edge.pair_left and of edge.pair_right has as parents the first and the second member of the q-th pair of children of the same group, in lexicographic order: every pair occurs exactly once, and nothing else. Too many pairs for an int64 and missing sizes are errors. No input makes the operators leave their buffers.", "quantifier": "all arrays of sizes", "why_tests_cant": "The number of pairs is quadratic; wrong sizes need not be visible in a result.", "anchors": ["arolla/qexpr/operators/dense_array/edge_ops.h: DenseArrayEdgePairLeftOp, DenseArrayEdgePairRightOp"]}
{"id": "C120", "title": "array.expand gives every child the value of its parent", "statement": "For arrays of any element type: the result has the number of children as its size; a child has the value of its parent, missing if the parent is missing or if there is none. A size mismatch is an error. Expanding a scalar repeats it.", "quantifier": "all element types, arrays (with any bitmap and offset), well-formed edges, uninitialised memory", "why_tests_cant": "Separate loops for split points with and without a bitmap and for mappings work on words of bitmaps.", "anchors": ["arolla/qexpr/operators/dense_array/edge_ops.h: DenseArrayExpandOp"]}
{"id": "C121", "title": "edge.resize_groups_child_side moves every row to its new offset", "statement": "The result maps position o of a resized group to the old row of that group with offset o; rows with offsets beyond the new size are dropped. Negative offsets and equal offsets in a group are errors, as are negative sizes, mapping edges and arguments of wrong sizes. No input makes the operator leave its buffers.", "quantifier": "all well-formed edges, sizes and offsets", "why_tests_cant": "One pass over the present offsets with a moving group; wrong sizes corrupt memory silently.", "anchors": ["arolla/qexpr/operators/dense_array/edge_ops.h: DenseArrayEdgeResizeGroupsChildSide"]}
{"id": "C122", "title": "edge.resize_groups_parent_side has the new group sizes", "statement": "The result is the split point edge with the same parents whose groups have the new size(s); mapping edges, negative or missing sizes, a wrong number of sizes and overflow are errors.", "quantifier": "all well-formed edges and sizes", "why_tests_cant": "The int64 limits cannot be enumerated.", "anchors": ["arolla/qexpr/operators/dense_array/edge_ops.h: DenseArrayEdgeResizeGroupsParentSide"]}
{"id": "C123", "title": "array.at, array.slice and array.concat act on the sequence of optional values", "statement": "at(a, i) is element i for 0 <= i < size and an error naming the index otherwise; with a list of indices it is done for every present index and the error names the first bad one. slice(a, offset, size) succeeds exactly for 0 <= offset <= n and -1 <= size <= n - offset and gives that part. concat(a, b) is the concatenation; cutting and concatenating are inverse to each other. Results have no bit offset.", "quantifier": "all valid dense arrays, indices, offsets and sizes, any contents of uninitialised memory", "why_tests_cant": "Bitmaps with bit offsets are copied in words at unaligned positions; tests cover few alignments.", "anchors": ["arolla/qexpr/operators/dense_array/array_ops.h: DenseArrayAtOp, DenseArraySliceOp, DenseArrayConcatOp"]}
{"id": "C124", "title": "array.from_indices_and_values inverts present indices and present values", "statement": "_present_indices gives the positions of present elements in increasing order and present_values the values there. from_indices_and_values accepts exactly equally many indices and values, a size that is not negative and present, strictly increasing indices in [0, size); element j of the result is v exactly if index j came with value v. Applied to the present indices and values of an array it gives the array back.", "quantifier": "all valid dense arrays and sizes", "why_tests_cant": "Exact acceptance and the round trip range over all arrays.", "anchors": ["arolla/qexpr/operators/dense_array/array_ops.h: DenseArrayPresentIndicesOp, DenseArrayPresentValuesOp, DenseArrayFromIndicesAndValues", "arolla/qexpr/operators/dense_array/array_ops.cc: ValidateInputs"]}
{"id": "C125", "title": "array.unique and array.select keep the right elements in order", "statement": "unique gives every present value once, in order of first occurrence; for a comparison that is not equality (floats with NaN) no value kept equals an earlier one and every present value is kept or equals a kept one. select keeps the elements, also the missing ones, where the mask is present, and rejects different sizes; selecting by the presence of the array gives present_values.", "quantifier": "all valid dense arrays, masks and comparisons", "why_tests_cant": "Holds for every array, mask and alignment of bitmaps.", "anchors": ["arolla/qexpr/operators/dense_array/array_ops.h: DenseArrayUniqueOp, DenseArraySelectOp", "arolla/dense_array/ops/dense_ops.h: DenseArraysForEachPresent"]}
{"id": "C126", "title": "Pointwise operations of any arity, and dense arrays made from values", "statement": "A pointwise operation with any number of arguments gives fn of the values of a row when all are present and missing otherwise; different sizes are an error. make_dense_array gives its arguments, _iota the numbers 0..n-1, const_with_shape n copies of an optional value; resizing a shape fails exactly for negative sizes.", "quantifier": "all functions, arities, valid arrays without bit offsets and sizes, any contents of uninitialised memory", "why_tests_cant": "The intersection of bitmaps starts from uninitialised memory and depends on which arguments have a bitmap.", "anchors": ["arolla/dense_array/ops/dense_ops.h: SimpleOpImpl, OpWithSizeValidation", "arolla/qexpr/operators/dense_array/factory_ops.h", "arolla/qexpr/operators/dense_array/factory_ops.cc: MakeDenseArrayOperator"]}
{"id": "C127", "title": "A forest model is created exactly for the documented arguments", "statement": "ForestModel::Create succeeds if and only if the input names are distinct and none names a submodel, the forest requires only inputs that exist, the expression has no leaves and only placeholders naming inputs or submodels, every submodel occurs in it, out-of-bag filters have no leaves and only placeholders naming inputs, and, when there are submodels, all of them and the list of filters have the same positive number of bags.", "quantifier": "all arguments whose submodels survive lowering", "why_tests_cant": "Acceptance is a conjunction of checks in several functions; tests try one violation at a time.", "anchors": ["arolla/decision_forest/expr_operator/forest_model.cc: Create, ValidateInputs, ValidateExpression, ValidateOOBFilters, AnalyzeExpression"]}
{"id": "C128", "title": "Protopath ids and paths correspond", "statement": "TablePathToProtopathId / ColumnPathToProtopathId followed by the parser gives the path back exactly if no name has a slash, no plain segment's name ends with the index marker, and the last segment is not an empty one; different paths with such names have different ids. The parser accepts exactly the empty string and strings beginning with a slash, always ends, and a string is parsed as p exactly if it is the text of p, or the text of p with one more slash.", "quantifier": "all strings, all paths", "why_tests_cant": "Round trips and exact acceptance range over all strings.", "anchors": ["arolla/naming/protopath_id.cc: FormatAsProtopathId, ParsePathSegment, ParseProtopathId"]}
{"id": "C129", "title": "Operations on table and column paths", "statement": "RemovePrefix succeeds exactly if the path begins with the prefix and gives the rest; Child, Column and Size append; ParentIndexPath is the longest proper beginning (for a column: the longest beginning) that is the root or ends with an index, and only the root table has none.", "quantifier": "all paths", "why_tests_cant": "Statements about the longest prefix quantify over all prefixes of all paths.", "anchors": ["arolla/naming/table.cc", "arolla/naming/table.h: Child"]}
{"id": "C130", "title": "Naming policies keep different fields apart", "statement": "Under the default, double_underscore, single_underscore, googlesql and protopath_id policies two paths get the same name only if their field names are the same (for protopath_id: if they are the same path), provided the names avoid what the policy uses as a separator: slashes; two adjacent or a final underscore; underscores; dots and parentheses. leaf_only gives the last name, except for size columns. GetPolicy finds exactly the six policies under their names. Names with a final underscore do collide under double_underscore (counterexample).", "quantifier": "all pairs of paths", "why_tests_cant": "Injectivity is about all pairs of paths.", "anchors": ["arolla/naming/policy.cc"]}
{"id": "C131", "title": "Which lambda operators can be made", "statement": "LambdaOperator::Make succeeds if and only if the parameter names are different, a declared variadic parameter exists, the body contains no leaf, and every placeholder occurring in the body is a parameter; otherwise it returns an error status (it never throws or reads out of range).", "quantifier": "all signatures and bodies", "why_tests_cant": "Acceptance depends on every node of a body of any size and on the order of parameters.", "anchors": ["arolla/expr/lambda_expr_operator.cc: ValidateLambdaBody, LambdaOperator::Make"]}
{"id": "C132", "title": "A lambda has the attributes of its body with the arguments substituted", "statement": "InferAttributes of a lambda operator returns the attributes (type and literal value) of the body with the arguments put in place of the parameters, a variadic parameter standing for the tuple of the remaining arguments, and it returns the error of the first operator that rejects its arguments there. A wrong number of arguments is an error for InferAttributes and ToLowerLevel.", "quantifier": "all lambdas, all arguments, all operators whose inference is monotone", "why_tests_cant": "The two functions walk over the body with separate code for parameters, literals and the last node; agreement is for every body.", "anchors": ["arolla/expr/lambda_expr_operator.cc: LambdaOperator::InferAttributes", "arolla/expr/expr_operator_signature.cc: ValidateDepsCount"]}
{"id": "C133", "title": "Lowering a lambda is substitution without capture and keeps the value", "statement": "Lowering a node made with a lambda operator always succeeds and gives the body with all arguments substituted simultaneously; placeholders inside arguments are not captured by parameters of the same name; the lowered node has the attributes of the original one, so ToLowerNode's check never fails; and the value of the lowered expression is the value of the body for the values of the arguments.", "quantifier": "all lambdas, arguments, and meanings of operators, leaves and placeholders", "why_tests_cant": "The claim is about all expressions; the shortcut which gives the last node the attributes of the lambda node is right only because inference agrees with lowering.", "anchors": ["arolla/expr/lambda_expr_operator.cc: LambdaOperator::ToLowerLevel", "arolla/expr/expr.cc: ToLowerNode, WithNewDependencies"]}
{"id": "C134", "title": "A while loop computes its variables iteration by iteration", "statement": "If MakeWhileLoop succeeds, then after any number k of iterations of the operator that it builds the state is the tuple of the loop variables, in the order of their names, each with the value it has after k simultaneous assignments of the body (starting from the initial value cast to the type after one iteration); the condition operator gives the value of the condition on these variables. Moving constant subexpressions out of the loop, naming them, packing the variables into a tuple and binding the rest as parameters does not change any value.", "quantifier": "all initial states, conditions, bodies, numbers of iterations, meanings of operators (with get_nth taking fields of tuples), leaves and placeholders", "why_tests_cant": "Tests run a few loops; the rewriting extracts shared subexpressions, renames and substitutes, and must be right for every expression and every iteration.", "anchors": ["arolla/expr/operators/while_loop/while_loop.cc: MakeWhileLoop, MoveImmutablesIntoInitialState, AddImplicitCastsToInitialState, WrapAsTuple, MakeNamedAccessors", "arolla/expr/operators/while_loop/while_loop_impl.cc: ExtractImmutables"]}
{"id": "C135", "title": "A while loop is made exactly when all its variables are initialized", "statement": "MakeWhileLoop never dereferences a missing entry, and succeeds only if every variable assigned or used in the body or the condition has an initial value and no variable of the body has a reserved name; if no operator rejects its arguments, it succeeds in all these cases except when a constant variable is named loop_state.", "quantifier": "all initial states, conditions and bodies", "why_tests_cant": "Acceptance is a claim about all arguments; the checks are made after the rewriting, on other expressions than those given by the user.", "anchors": ["arolla/expr/operators/while_loop/while_loop.cc: MakeWhileLoop, CheckAllStateFieldsAreInitialized", "arolla/expr/lambda_expr_operator.cc: LambdaOperator::Make"]}
{"id": "C136", "title": "The moving average is the mean of the trailing window of the group", "statement": "For each child row, experimental.agg_moving_average returns the mean of the last window_size values of its group up to and including that row, and a missing value if the group has had fewer values or one of them is missing; values of other groups never enter, and the running sum kept between rows gives the same as a sum over the window. (The window size is an int64 which the accumulator keeps as an int, and it must be positive: see the counterexamples.)", "quantifier": "all series, edges (mappings and split points) and window sizes", "why_tests_cant": "The accumulator updates a deque and a sum incrementally; equality with the window's mean is a claim over all histories.", "anchors": ["arolla/qexpr/operators/experimental/dense_array/timeseries.h: MovingAverageAccumulator, AggMovingAverageOp"]}
{"id": "C137", "title": "Exponentially weighted averages are weighted means of the past", "statement": "experimental.ewma returns an error exactly if alpha is not in (0, 1]. With adjust, every present row gets the mean of the present rows up to it, weighted by 1 - alpha to the power of their age (counted in rows, or in present rows with ignore_missing). Without adjust, the first present row keeps its value and each later one gets the mean of its value (weight alpha) and the previous average (weight 1 - alpha to the power of the rows since). Missing rows between present ones repeat the last average, rows before the first and after the last present row are missing, and every average lies between the smallest and the largest value.", "quantifier": "all series, all alpha, both flags", "why_tests_cant": "The implementation keeps a numerator and a denominator across gaps; closed form and bounds are claims over all series.", "anchors": ["arolla/qexpr/operators/experimental/dense_array/timeseries.h: AdjustedEWMA, UnadjustedEWMA, ExponentialWeightedMovingAverageOp"]}
{"id": "C138", "title": "seq.range gives Python's range", "statement": "seq.range(start, stop, step) returns start, start + step, … up to but not including stop, for positive and negative steps, and the empty sequence if there are none; with one bound it starts from 0; a zero step is an error. This holds whenever stop + step fits in int64. (Otherwise it fails: the size computed in uint64 may wrap, giving an empty sequence, and the addition after the last element may overflow a signed integer, which is undefined.)", "quantifier": "all int64 start, stop and step; all outcomes of allocation", "why_tests_cant": "The element count is computed with wrapping unsigned arithmetic; its correctness is a claim over all triples of 64-bit numbers.", "anchors": ["arolla/qexpr/operators/seq/sequence_operators.h: MakeRange, SequenceRangeOp"]}
{"id": "C139", "title": "Sequences can be sliced, indexed and built without leaving their storage", "statement": "seq.slice returns the elements of Python's slice for any (negative, too large, reversed) bounds and never reads outside of the sequence, also if that is itself a part of a shared block; seq.at returns the element or an out-of-range error; seq.make, seq.repeat and seq.zip return exactly the given values, copies (none for a negative count) and rows; seq.zip fails exactly if the sizes differ (or memory is short). Two sequences have the same fingerprint iff they have the same value type and elements, however they are stored.", "quantifier": "all sequences, bounds, indices, counts; all outcomes of allocation", "why_tests_cant": "Clamping and sharing of storage interact; tests cover a few bounds.", "anchors": ["arolla/sequence/sequence.h: GetRef, subsequence", "arolla/sequence/mutable_sequence.cc: Make", "arolla/qexpr/operators/bootstrap/sequence_operators.cc: SequenceSliceOp, SequenceZipOp", "arolla/qexpr/operators/seq/sequence_operators.h: SequenceRepeatOp, SequenceMakeOp"]}
{"id": "C140", "title": "seq.map and seq.reduce are map and left fold with the first error", "statement": "seq.map applies the operator to the elements at each position in order and returns all results, or the error of the first position that fails; sequences of different sizes are an error. seq.reduce folds from the left starting with the initial value and stops at the first error. seq.all and seq.any tell whether all or some elements are present, and seq.all_equal whether all elements are present and equal, except that it returns present for a single missing element.", "quantifier": "all operators (as functions that may fail), sequences and initial values", "why_tests_cant": "The claims quantify over arbitrary operators and over where errors occur.", "anchors": ["arolla/expr/eval/extensions/seq_map_operator.cc", "arolla/expr/eval/extensions/seq_reduce_operator.cc", "py/arolla/operators/standard/seq.py: all, any, all_equal"]}
{"id": "C141", "title": "Dicts map each key to the value at its position", "statement": "dict.make succeeds exactly if no present key occurs twice. Then dict.get of a key returns the value at the position of the key in the array of keys, and a missing value for a missing or unknown key; dict._contains tells whether the key is in the array; dict.keys returns the keys in their original order whatever the iteration order of the hash map, provided missing keys are at the end only, and is otherwise an error, never a write outside of the result; the fingerprint of the key map depends only on the mapping, not on insertion or iteration order, and separates different mappings. (dict.make accepts fewer values than keys and missing keys: dict.get and dict.keys fail later, see the counterexamples.)", "quantifier": "all arrays of keys and values, all lookups, all iteration orders of the hash map", "why_tests_cant": "Hash map iteration order and the position of missing keys cannot be enumerated by tests.", "anchors": ["arolla/qexpr/operators/dict/dict_operators.h", "arolla/qtype/dict/dict_types.h: FingerprintHasherTraits", "py/arolla/operators/standard/dict.py: make, get, keys"]}
{"id": "C142", "title": "The optimisations of dict lookups keep the result", "statement": "Replacing a lookup by a boolean key in a literal dict with bool.logical_if over the values of true and false gives the same result, provided there are at least as many values as keys (otherwise it may fail where the lookup did not). Dropping core.has(x) from core.presence_and with dict._contains(d, x) changes nothing.", "quantifier": "all boolean dicts, value arrays and optional keys", "why_tests_cant": "An optimiser rule must hold for all inputs.", "anchors": ["arolla/expr/optimization/peephole_optimizations/dict.cc: BoolDictOptimization, AddDictContainsOptimizations"]}
{"id": "C143", "title": "Casts to integer types return the exact or truncated number or an error", "statement": "core.to_int32, to_int64 and to_uint64 of an integer or boolean return the same number if the target type can represent it, and an error otherwise. Of a finite float32 or float64 they return the number truncated towards zero, and an error exactly if that is not representable or, for to_uint64, the number is negative (also between -1 and 0). Infinities and NaN are errors. No value makes the conversion undefined.", "quantifier": "all values of all source types", "why_tests_cant": "The bounds are computed in floating point, and for float64 to int32 only the rounding of an intermediate sum makes the lower bound the right one; all values next to the bounds matter.", "anchors": ["arolla/qexpr/operators/core/cast_operator.h: CastOp"]}
{"id": "C144", "title": "A reference-counted object is deleted exactly once, after its last reference", "statement": "With any number of threads that copy and release references (with decrement or skewed_decrement) in any interleaving, the object is deleted at most once; as long as a reference is held nobody deletes it, so no operation sees a deleted object; and when all references are released it has been deleted.", "quantifier": "all interleavings of all threads and references", "why_tests_cant": "Races between the load and the subtraction of skewed_decrement and other threads cannot be provoked reliably.", "anchors": ["arolla/util/refcount.h: Refcount", "arolla/util/refcount_ptr.h: RefcountPtr"]}
{"id": "C145", "title": "A permanent event is notified once, however often it is set", "statement": "With any number of concurrent calls of PermanentEvent::Notify, the underlying notification (which must not be notified twice) is notified at most once, and when no call is still running and there was one, the event is set. (A call may return before the event is set, while another call is still running: see the counterexample.)", "quantifier": "all numbers of calls and interleavings", "why_tests_cant": "The window between test_and_set and the notification is a race.", "anchors": ["arolla/util/permanent_event.h: PermanentEvent::Notify"]}
{"id": "C146", "title": "An attribute of an object is that of the nearest object of its prototype chain that has it", "statement": "Object::GetAttrOrNull returns the value of the first object of the chain (the object, its prototype, the prototype of that, ...) with an attribute of the name, and nothing exactly if none has it. objects.make_object makes an object whose own attributes are the fields of the named tuple and that finds all other attributes as its prototype does.", "quantifier": "all objects with chains of any length, names and named tuples", "why_tests_cant": "Chains are of any length and attributes shadow each other in any pattern.", "anchors": ["arolla/objects/object_qtype.cc: Object::GetAttrOrNull", "arolla/objects/operators/qexpr_operators.cc: MakeObjectOperator"]}
{"id": "C147", "title": "The fingerprint of an object identifies its attributes and those of its prototypes", "statement": "Two objects combine the same data into their fingerprints exactly if the objects of their chains have the same attributes, whatever the order of iteration of the hash maps: neither a prototype can be mistaken for an attribute (even if the name of an attribute is the tag of objects) nor an attribute of one object for that of another. Objects with the same fingerprint return the same value for every attribute.", "quantifier": "all pairs of objects, iteration orders and sorting algorithms", "why_tests_cant": "The data has no lengths or delimiters, so ambiguity depends on all possible names.", "anchors": ["arolla/objects/object_qtype.cc: Object::ArollaFingerprint, Object::GetSortedAttributes"]}
{"id": "C148", "title": "What is inferred for the attribute operators of objects agrees with what they compute", "statement": "objects.get_object_attr returns the attribute if it exists and has the requested type and an error otherwise; with the type that objects.get_object_attr_qtype returns it finds every attribute that exists. If InferAttributes returns a type, every result that the operator computes for inputs of that kind has this type; if it returns a value, the operator computes exactly this value.", "quantifier": "all objects, names, types and combinations of known and unknown inputs", "why_tests_cant": "The cases combine what is known about three inputs with the contents of the objects.", "anchors": ["arolla/objects/operators/qexpr_operators.cc: GetObjectAttrOperator, GetObjectAttrQTypeOp", "arolla/objects/operators/expr_operators.cc: ObjectGetObjectAttrOperator::InferAttributes, ObjectGetObjectAttrQTypeOperator::InferAttributes"]}
{"id": "C149", "title": "core.get_nth, core.concat_tuples, core.slice_tuple and core.zip are lowered to what they say", "statement": "core.concat_tuples accepts exactly tuples, core.slice_tuple exactly slices within a tuple or named tuple (a size of -1 takes the remaining fields), core.get_nth exactly indices of fields, and core.zip exactly tuples of one common size. If accepted, ToLowerLevel returns an expression of exactly the inferred type, whose value is the concatenation, the slice, the field, or the transposition of the values of the arguments.", "quantifier": "all expressions of known types whose values have these types, all literal offsets, sizes and indices", "why_tests_cant": "Every combination of tuple types is another lowering; the tests look at a few of them and at the type or at the value, not at their agreement.", "anchors": ["arolla/expr/operators/tuple_bootstrap_operators.cc: CoreGetNthOp, CoreZipOp, CoreConcatTuplesOperator, CoreSliceTupleOperator", "arolla/expr/tuple_expr_operator.cc: GetNthOperator, MakeTupleOperator"]}
{"id": "C150", "title": "core.apply_varargs, core.reduce_tuple and core.map_tuple apply the operator to the fields in order", "statement": "If a type is inferred, the node is lowered without an error unless the tuple is a literal; the lowered expression has the inferred attributes, and for a literal tuple at least the inferred type if the operator infers no less from more knowledge. core.apply_varargs evaluates the operator on the arguments followed by the fields of the tuple, core.reduce_tuple folds the fields from the left, core.map_tuple gives the tuple of the results for every field with the further arguments; the evaluation fails exactly if one of these applications fails. core.reduce_tuple rejects types without fields.", "quantifier": "all operators, tuples and further arguments", "why_tests_cant": "The operator is arbitrary: an inference that disagrees with the lowering shows only for operators that depend on it.", "anchors": ["arolla/expr/operators/tuple_bootstrap_operators.cc: CoreApplyVarargsOperator, CoreReduceTupleOperator, CoreMapTupleOperator"]}
{"id": "C151", "title": "The operators on named tuples respect the names", "statement": "namedtuple._make accepts exactly a tuple and as many different names as it has fields, and gives the named tuple of the same fields. namedtuple.get_field gives the field of this name with its type and rejects other names. namedtuple.union has the fields of the first named tuple in their order followed by those of the second that are not in the first; a field that is in both has the type and the value of the second; the lowered expression has exactly the inferred type.", "quantifier": "all named tuples and names", "why_tests_cant": "Overlapping names in different orders exchange the origin and the position of every field independently.", "anchors": ["arolla/expr/operators/tuple_bootstrap_operators.cc: MakeNamedTupleOperator, GetNamedTupleFieldOperator, GetUnionNamedTupleFields, UnionNamedTupleOperator", "arolla/qtype/tuple_qtype.cc: MakeNamedTupleQType", "arolla/expr/derived_qtype_cast_operator.cc: DerivedQTypeDowncastOperator"]}
{"id": "C152", "title": "CastingRegistry::GetCast casts exactly what CanCastImplicitly allows and keeps presence", "statement": "GetCast returns an expression of exactly the requested type or an error. With implicit_only it succeeds exactly if CanCastImplicitly allows the cast (with broadcasting exactly if a shape is given) and an array target is of the kind of that shape. Without it, it succeeds exactly if there is an operator for the elements and the shape can be reached: an optional never becomes a scalar, an array never anything else. The value has converted elements, missing elements stay missing, a single value is repeated to the size of the shape, and a weak float is converted as the double that it is.", "quantifier": "all types made of element types and shapes (scalar, optional, any kinds of arrays), all values, with or without a shape", "why_tests_cant": "The three steps of the cast interact; the completeness with respect to CanCastImplicitly is a statement about all pairs of types.", "anchors": ["arolla/expr/operators/casting_registry.cc: CastingRegistry::GetCast", "arolla/qtype/standard_type_properties/common_qtype.cc: CanCastImplicitly"]}
{"id": "C153", "title": "The casting transformation keeps the type of a node and casts its arguments to a signature of the operator", "statement": "CastingTransformation returns a node of the same type: with the same arguments, or with the arguments cast to exactly the input types of a signature of the operator whose output is the type of the node up to derivation. BuildNodeDepsWithCasts succeeds exactly if every argument can be cast implicitly, with broadcasting only if one of them is an array; arguments of the required type are kept, the others have the required types and the converted values, single values with the size of the first array. For the signature that the lookup finds the casts succeed if one of the arguments is an array and the arrays are of its kind.", "quantifier": "all lists of signatures, operators and arguments", "why_tests_cant": "It depends on the overloads that are registered, and connects the lookup, the casts and the inference.", "anchors": ["arolla/expr/eval/casting.cc: GetShapeForBroadcasting, BuildNodeDepsWithCasts, CastingTransformation", "arolla/qexpr/qexpr_operator_signature.cc: IsDerivedFrom", "arolla/qexpr/casting.cc: FindMatchingSignature"]}
{"id": "C154", "title": "A proto reader of optional values reads the value at the end of the path", "statement": "ProtoTypeReader::CreateOptionalReader returns a reader exactly if the path is not empty, singular fields are accessed regularly, repeated fields by index, and the last field is not a message; its type is the optional type of the field. On every message of the schema the bound function stores the value at the end of the path with its numeric value unchanged (unsigned 32-bit numbers become int64); it is missing exactly if a submessage, the field or the element does not exist. No reflection usage error occurs.", "quantifier": "all schemas, paths of any length, messages and field types", "why_tests_cant": "Messages are unbounded trees, and the getter must fit every one of the 18 field types.", "anchors": ["arolla/io/proto/reflection/reader.cc: ProtoTypeReader::CreateOptionalReader, OptionalReader, Traverser::GetLastSubMessage, ByIndexReader, FieldReader, SwitchByProtoType, VerifyFieldsAndAccessInfos"]}
{"id": "C155", "title": "A proto reader of arrays, sizes or shapes visits all submessages of the path in order", "statement": "CreateDenseArrayReader returns a reader exactly for paths whose accesses fit the fields. On every message the array has the values at the ends of the path in the order of the submessages, with a missing value where a submessage, a singular field or an element is missing (one element if no repeated field is read completely); with @size it has the sizes of the last field, and the shape reader has the size of the last field.", "quantifier": "all schemas, paths of any length and messages", "why_tests_cant": "A traversal error shows only for nested submessages; the tests have one level of them.", "anchors": ["arolla/io/proto/reflection/reader.cc: Traverser::TraverseSubmessages, DenseArrayReader, ArraySizeReader, ShapeSizeReader, ManyPushBackFn, SinglePushBackFn, SizePushBackFn, SizeToShapeFn"]}
{"id": "C156", "title": "Protopaths are resolved to the fields that they name", "statement": "An element of a protopath is accepted exactly if it is a name, a name with an index in canonical decimal notation below 2^64, or a name with @size. Every accepted path leads from the message type of the loader through messages to its last field, and the type of the reader is optional, a shape or an array according to the accesses. Every path of fields whose names have no special characters can be written so that exactly these fields and accesses are resolved. `/@size` and `@size` after a path mean the same.", "quantifier": "all strings, schemas and paths", "why_tests_cant": "The set of strings is infinite; parsing bugs are at unusual combinations of brackets, zeros, slashes and suffixes.", "anchors": ["arolla/io/proto/proto_input_loader.cc: ParseProtopathElement, ParseProtopathToReader, CreateReaderWithStringType"]}
{"id": "C157", "title": "core.cast and core.cast_values are lowered whenever they are accepted", "statement": "core.cast accepts exactly: the same type; with implicit_only the implicit casts without broadcasting; otherwise casts between numbers, booleans and unsigned numbers (or the same elements) to the same shape or from a scalar to an optional. core.cast_values accepts exactly scalar types that the elements can be cast to, and keeps the shape. Whenever a type is inferred, ToLowerLevel succeeds and the lowered expression has exactly the inferred type and the converted elements, with missing elements missing.", "quantifier": "all types made of element types and shapes, and all values", "why_tests_cant": "The conditions of the inference and those of GetCast are written in different terms; their agreement is a statement about all pairs of types.", "anchors": ["arolla/expr/operators/bootstrap_operators.cc: CastOp, CastValuesOp", "arolla/expr/operators/casting_registry.cc: CastingRegistry::GetCast", "arolla/qtype/standard_type_properties/properties.cc: WithScalarQType, ToOptionalLikeQType"]}
{"id": "C158", "title": "A structured error keeps what it is not asked to change", "statement": "For every error: WithPayload replaces the payload and keeps the cause, WithCause replaces the cause and keeps the payload, WithPayloadAndCause replaces both, and WithUpdatedMessage replaces only the message; in each case the code, the source locations, the payloads of other urls and (except in the last) the message stay, whatever the order in which absl visits the payloads. WithNote and WithSourceLocation keep the code, extend the message by the note, or by file:line:column, in function and the line of the source as far as they are known, and have the complete original status as the cause; after any number of notes every earlier status is found by following the causes. OkStatus stays OkStatus under all of them.", "quantifier": "all errors with any payloads and any chain of causes, all notes and source locations, all orders of the payloads", "why_tests_cant": "Chains of causes are of any length and the payloads are visited in an order that absl varies; tests look at single chains.", "anchors": ["arolla/util/status.cc: WithPayloadAndCause, WithCause, WithPayload, GetPayload, GetCause, WithUpdatedMessage, WithNote, WithSourceLocation"]}
{"id": "C159", "title": "The first error is returned and the delegate is called only without errors", "statement": "CheckInputStatus, FirstErrorStatus, UnStatusCaller (for at most 30 and for more arguments) and LiftStatusUp of packs and vectors return the first error, up to source locations, and otherwise the values in order; UnStatusCaller calls its delegate only if no argument is an error, and no StatusOr without a value is dereferenced. LiftStatusUp of an initializer list with keys succeeds exactly if the first entry of every key has a value, in whatever order the hash map is traversed, and otherwise returns the error of the first entry of some key; with keys that may be errors, the first error in the order key, value, key, value is returned.", "quantifier": "all lists of plain values, statuses and StatusOrs, all orders of the hash map", "why_tests_cant": "The number of arguments selects one of two implementations and the order of a hash map varies; the claim is about all lists and orders.", "anchors": ["arolla/util/status.h: CheckInputStatus, UnStatusCaller, LiftStatusUp, FirstErrorStatus, UnStatus"]}
{"id": "C160", "title": "core.map accepts arrays of one shape and embedding literals does not change the arguments", "statement": "core.map has a type exactly if its first argument is an operator known at compile time, there is an array among the others, all arrays have the same shape, and the operator accepts the optional elements of the arrays (without values) together with the other arguments; the result is the array of that shape of the operator's results. While a type is unknown the result's type is unknown. Moving the literal scalars into the mapper leaves exactly the non-literals and the arrays as arguments, in order, and the wrapped mapper calls the mapper with all arguments in their original order.", "quantifier": "all lists of types and values, any type inference of the mapper", "why_tests_cant": "The split into embedded and remaining arguments depends on every argument; tests use a few lists.", "anchors": ["arolla/expr/operators/map_operator.cc: MapOperator::InferAttributes, DeduceResultingArrayShape", "arolla/expr/eval/extensions/prepare_core_map_operator.cc: MoveNonArrayLiteralArgumentsIntoOp, MapOperatorTransformation"]}
{"id": "C161", "title": "core.map applies the mapper to every row", "statement": "The result of core.map has one element per row: the value of the mapper on the elements of the arrays in that row and on the scalar arguments; if the mapper fails, the error is that of the first row that fails. Arrays of different sizes are an error. This holds for every mapper, any number of rows and any previous contents of the frames.", "quantifier": "all compiled mappers, all arrays of any length, all scalars", "why_tests_cant": "Rows are evaluated in a pool of 64 frames that are reused, with slots of the mapper chosen by the slot allocator; the claim is about all programs and numbers of rows.", "anchors": ["arolla/expr/eval/extensions/compile_core_map_operator.cc: MapBoundOperator::Run, CompilePackedCoreMapOperator", "arolla/qtype/array_like/frame_iter.h: FrameIterator::ForEachFrame", "arolla/expr/eval/extensions/prepare_core_map_operator.cc: MapOperatorTransformation"]}
{"id": "C162", "title": "A verified derived type has the representation of its base, and casts between them are inverse", "statement": "VerifyDerivedQType accepts exactly the types that have a base that is not derived itself, with the same C++ type, size and alignment, fields at the same offsets with the same types up to derivation, and the same element type up to derivation. Hence decaying a type once yields a type that is not derived. derived_qtype.downcast accepts exactly values of the base type and derived_qtype.upcast exactly values of the derived type; one undoes the other, the memory is not changed, and the lowered operator has the type that was inferred.", "quantifier": "all universes of types, all types and values, all attributes", "why_tests_cant": "The verification quantifies over all fields of all pairs of types; the tests do not try types with incompatible fields.", "anchors": ["arolla/qtype/derived_qtype.cc: VerifyDerivedQType, DecayDerivedQType, BasicDerivedQType", "arolla/expr/derived_qtype_cast_operator.cc: DerivedQTypeUpcastOperator, DerivedQTypeDowncastOperator", "arolla/expr/operators/derived_qtype_operators.cc: DerivedQTypeUpcastOp, DerivedQTypeDowncastOp"]}
{"id": "C163", "title": "Labelled types are unique by base and label", "statement": "In any program that creates types and requests labels in any order: GetLabeledQType returns a type with the requested label whose base is that of the given type, also if that was labelled already; the empty label returns the base. The same base and label always give the same type, different bases or labels give different types. Registering a representation for a label fails exactly if there is one and overriding is not requested, and then changes nothing; otherwise it is used for that label and only for that.", "quantifier": "all sequences of operations, all types and labels", "why_tests_cant": "Uniqueness is a statement about all pairs of calls in all histories of the registry.", "anchors": ["arolla/derived_qtype/labeled_qtype.cc: GetLabeledQType, GetQTypeLabel, LabeledQTypesRegistry::Get, LabeledQTypeReprRegistry::Set, LabeledQType::UnsafeReprToken"]}
{"id": "C164", "title": "ClassInfo decides the declared inheritance", "statement": "In any program that registers classes as roots or as subclasses of registered classes, is_subclass_of(a, b) is true exactly if b is a or was declared, directly or through other classes, as an ancestor of a; the check never reads outside of the arrays. The info of a class stays the same for good, registering it again returns the same info, its name is that of the class, and a registration that contradicts an earlier one is fatal.", "quantifier": "all sequences of registrations and all pairs of registered classes", "why_tests_cant": "Correctness depends on how ids and lineages were assigned over the whole history of the registry.", "anchors": ["arolla/util/class_info.h: ClassInfo::is_subclass_of", "arolla/util/class_info.cc: ClassRegistry::RegisterClass, ClassInfo::RegisterRootClass, ClassInfo::RegisterSubclass, ClassInfo::name"]}
{"id": "C165", "title": "Stack traces of expressions end and name the origin of a node", "statement": "Whatever transformations were recorded (also ones that go in circles), annotating an error stops; it adds the source locations of the failed node and of the nodes it came from in this order, no node twice, and reports the name recorded for the node. A transformation into a node not seen before is recorded for good, a name once recorded stays, a new node inherits the name of the node it came from, and an instruction never registered is reported with an empty name and no locations.", "quantifier": "all sequences of AddTrace, InitNode and RegisterIp calls, all instructions", "why_tests_cant": "Termination for all sequences of transformations cannot be tested; a cycle would hang error reporting.", "anchors": ["arolla/expr/eval/expr_stack_trace.cc: LightweightExprStackTrace::AddTrace, InitNode, LightweightBoundExprStackTrace, AnnotateWithNodeSourceLocationsImpl, DetailedExprStackTrace::AddTrace, InitNode, DetailedBoundExprStackTrace"]}
{"id": "C166", "title": "OverloadedOperator chooses the first base operator that accepts", "statement": "The first base operator that does not reject the inputs with InvalidArgument decides: its other errors are returned, the result is inconclusive if its result has no type, and otherwise it is chosen. If the base operators keep their answers when more is known about the inputs, a choice and a rejection stay too. Lowering applies the chosen operator to the same inputs with the attributes that both operators infer, and leaves the node alone exactly when nothing could be inferred.", "quantifier": "all lists of base operators, all attributes of the inputs", "why_tests_cant": "Base operators are arbitrary functions; the stability of the choice concerns all pairs of attribute lists.", "anchors": ["arolla/expr/overloaded_expr_operator.cc: OverloadedOperator::LookupImpl, LookupOp, InferAttributes, ToLowerLevel"]}
{"id": "C167", "title": "Rules for core.const_with_shape keep results", "statement": "Applying a pointwise operator of the tables to constants expanded to a shape (or to one such constant and a scalar) has the same value as expanding the result of the operator on the scalars, the shape of an expanded constant is the shape, and choosing by an expanded condition is choosing by the condition. (False for an empty shape and an operator that fails: math.floordiv of an expanded constant by an expanded 0 is an empty array, after the rule the evaluation fails.)", "quantifier": "all operators of the tables, all scalars, shapes, branches and semantics of the operators", "why_tests_cant": "The rules are generated for 51 operators and apply to all types and values; failures on empty shapes need a combination no test of a single operator has.", "anchors": ["arolla/expr/optimization/peephole_optimizations/const_with_shape.cc: ConstWithShapeOptimizations, kUnaryPointwiseOps, kBinaryPointwiseOps", "arolla/expr/optimization/peephole_optimizations/short_circuit_where.cc: AddCoreWhereOptimizations", "arolla/qexpr/operators/math/arithmetic.h: FloorDivOp"]}
{"id": "C168", "title": "Group operations with several edges process every group on its own", "statement": "ProduceResult and ApplyChildArgs give every group the state that its valid rows, in increasing order, produce from its initial state, independently of the other groups; the result has in the row of every processed child the value computed there and is missing in all other rows. It is the same for a split points edge and for the mapping edge with the same parents, for dense arrays and arrays. Sizes that do not fit are errors, and no state outside of the span is touched. ApplyParentArgs changes exactly the states whose arguments are present.", "quantifier": "all functions, states, valid edges of both kinds, arguments", "why_tests_cant": "The function and the states are arbitrary C++ types; equality of both kinds of edges is a statement about all edges.", "anchors": ["arolla/dense_array/ops/multi_edge_util.h: DenseArrayMultiEdgeUtil::ApplyParentArgs, ApplyChildArgs, ProduceResult", "arolla/array/multi_edge_util.h: ArrayMultiEdgeUtil::ApplyParentArgs, ApplyChildArgs, ProduceResult"]}
{"id": "C169", "title": "array._interleave_to_dense_array alternates the rows of its arguments", "statement": "The result for k arrays of n rows has n * k rows and row r of argument j is at r * k + j; arrays of different sizes are an error. (False for results with 2^31 or more elements: the counter of the loop is an int and overflows.)", "quantifier": "all numbers and sizes of arguments, all values", "why_tests_cant": "Sizes beyond 2^31 are never tested and positions must be right for all numbers of arguments.", "anchors": ["arolla/qexpr/operators/dense_array/interleave.cc: InterleaveOperator::DoBindImpl, InterleaveToDenseArrayOperatorFamily::DoGetOperator"]}
{"id": "C170", "title": "Type inference of backend operators and restricted lambda operators", "statement": "With type constraints and an inference expression over the types of the parameters: the first constraint that fails for types that are known is an error, naming exactly the parameters whose types are known; if none fails and something that is used is not known there is no type yet; otherwise the type is the value of the inference expression and NOTHING is an error. A wrong number of inputs and inputs of the type NOTHING are errors. An inferred type does not change, and an error stays an error, when more types become known; if all are known there is a type or an error. A restricted lambda operator infers what the lambda does iff its constraints hold. Make succeeds iff all placeholders are parameters.", "quantifier": "all signatures, constraints, inference expressions, inputs known in part", "why_tests_cant": "Which inputs are known and which of many constraints fails combine without bound; monotonicity relates pairs of inputs.", "anchors": ["arolla/expr/operator_loader/qtype_inference.cc: MakeQTypeInferenceFn", "arolla/expr/operator_loader/parameter_qtypes.cc: ExtractParameterQTypes", "arolla/expr/operator_loader/backend_operator.cc: BackendOperator::Make, InferAttributes", "arolla/expr/operator_loader/restricted_lambda_operator.cc: RestrictedLambdaOperator::InferAttributes"]}
{"id": "C171", "title": "Placeholders in error messages of type constraints", "statement": "FormatParameterQTypes always ends and replaces every innermost {spec} of the message, keeping everything else: {x} by the name of the type, {*x} by the types of the fields of a tuple, {**x} and {**x!T} by the names and types of the fields of a named tuple without those of type T. What does not name a known parameter of the right kind is kept, so that without known types the message is unchanged.", "quantifier": "all messages, all types of parameters", "why_tests_cant": "Brackets nest and are unbalanced in arbitrary ways; tests have a few messages.", "anchors": ["arolla/expr/operator_loader/parameter_qtypes.cc: FormatParameterQTypes, FormatKwargsTo, FormatArgsTo, FormatArgTo"]}
{"id": "C172", "title": "The text of an expression has one reading", "statement": "The text of an expression with unary and binary infix operators, attributes and subscriptions is read by the precedence rules of Python as this expression and in no other way; different expressions have different texts.", "quantifier": "all expressions of any depth", "why_tests_cant": "Brackets depend on the precedences of pairs of operators at any depth; tests have a few expressions.", "anchors": ["arolla/expr/operator_repr_functions.cc: UnaryReprFn, BinaryReprFn, GetAttrReprFn, GetItemReprFn, kUnaryInfixOps, kBinaryInfixOps", "arolla/util/repr.h: ReprToken::Precedence"]}
{"id": "C173", "title": "Statements in the text of an expression have different names", "statement": "ToDebugString gives every statement its own name, and a statement whose name annotation is unique is called by it. (False in general: two statements annotated x and one annotated x._1 give two statements called x._1.)", "quantifier": "all lists of name annotations", "why_tests_cant": "Clashes need particular combinations of names.", "anchors": ["arolla/expr/expr_debug_string.cc: GenStatementNames, IsSafeStatementName"]}
{"id": "C174", "title": "Type inference of operators that take operators", "statement": "The type inferred for seq.map, seq.reduce and a while loop is neither withdrawn nor changed when more becomes known about the inputs, whatever operators they are given, and for core.apply if this holds for the operator. A type is inferred iff the operator is a literal that accepts the types of the elements (as far as they are known) and gives the type of the accumulator or of the state. The values computed have this type for sequences of any length and any number of iterations. Inference does not crash. (False: seq.map of an operator that infers no type follows a null pointer; a loop with the signature *args reads the first of no arguments.)", "quantifier": "all operators, all inputs known in part, all values", "why_tests_cant": "Operators are arbitrary functions; monotonicity relates pairs of inputs and soundness all numbers of iterations.", "anchors": ["arolla/expr/seq_map_expr_operator.cc: SeqMapOperator::InferAttributes", "arolla/expr/seq_reduce_expr_operator.cc: SeqReduceOperator::InferAttributes", "arolla/expr/operators/while_loop/while_loop.cc: WhileLoopOperator::InferAttributes", "arolla/expr/operators/meta_operators.cc: CoreApplyOp::InferAttributes"]}
{"id": "C175", "title": "Equal while loops bind arguments alike", "statement": "A while loop has the same parameters as its condition and its body, and two loops with the same fingerprint have the same name, condition, body and parameters, so that a call gives them the same arguments. (False for default values: they are neither compared nor part of the fingerprint.)", "quantifier": "all signatures, conditions, bodies and calls", "why_tests_cant": "Signatures are compared by their text; that it tells everything but the default values is a statement about all pairs of signatures.", "anchors": ["arolla/expr/operators/while_loop/while_loop.cc: WhileLoopOperator::Make, WhileLoopOperator::WhileLoopOperator", "arolla/expr/expr_operator_signature.cc: GetExprOperatorSignatureSpec, FingerprintHasherTraits<ExprOperatorSignature>"]}
{"id": "C176", "title": "The text of an expression is not as large as its tree", "statement": "However often subexpressions are shared, the text that ToDebugString gives for an expression has at most 1 + the sum over the nodes of 2 + the sum over the inputs of 1 + the number of their inputs parts (operators, leaves, names of statements). Every node with a name annotation is a statement, and a node that is no statement and is used more than once has no input that is written out and has inputs.", "quantifier": "all expressions (directed acyclic graphs) with any sharing", "why_tests_cant": "Sharing doubles the tree with each level; a bound for all graphs cannot be tested.", "anchors": ["arolla/expr/expr_debug_string.cc: SelectStatementNodes, ToDebugString"]}
{"id": "C177", "title": "core._to_weak_float accepts exactly what it can be lowered for", "statement": "An argument of core._to_weak_float is accepted exactly if it is a scalar, an optional or an array of numbers, booleans or uint64. The inferred type has weak floats in the shape of the argument, the lowering succeeds and has the inferred type, elements are converted as by core.to_float64, and missing elements stay missing.", "quantifier": "all types made of element types and shapes, all other types with a value type, all values", "why_tests_cant": "Inference and lowering are separate code that looks at types in different ways; that they agree is a statement about all types.", "anchors": ["arolla/expr/operators/weak_qtype_operators.cc: CoreToWeakFloatOp::GetOutputQType, CoreToWeakFloatOp::ToLowerLevel", "arolla/expr/derived_qtype_cast_operator.cc: DerivedQTypeDowncastOperator::GetOutputQType"]}
{"id": "C178", "title": "ExecuteTasksInParallel executes each task exactly once, whatever the schedule", "statement": "Whatever the order in which the threads do their steps: no task is started twice, at most max_parallelism tasks are being executed at any time, there is no deadlock, the call ends after a number of steps that is bounded by the numbers of tasks and threads, and when it returns every task has been executed.", "quantifier": "all numbers of tasks, all values of max_parallelism, all interleavings of the threads", "why_tests_cant": "Tests run a few of the schedules; the number of schedules grows exponentially.", "anchors": ["arolla/util/threading.cc: ExecuteTasksInParallel"]}
{"id": "C179", "title": "Side outputs have the values that were annotated, and the expression keeps its value", "statement": "ExtractSideOutputs removes all export annotations, also nested ones, from the expression and from the side outputs. The expression keeps its value, there is exactly one side output for each annotation, with its tag and the value of the annotated or given expression, and it fails exactly if two annotations have the same tag.", "quantifier": "all expressions (directed acyclic graphs) with annotations at any places, all meanings of the operators for which annotations are transparent", "why_tests_cant": "Annotations may be nested in each other and in exported values and shared between them; the claim is about all such graphs.", "anchors": ["arolla/expr/eval/side_output.cc: ExtractSideOutputs", "arolla/expr/annotation_utils.cc: IsExportAnnotation, ReadExportAnnotationTag, ReadExportAnnotationValue"]}
