{
 "claims": [
  {
   "property": "C01",
   "status": "proved",
   "theorems": [
    "Verif.Lru.lru_refines_ideal",
    "Verif.Lru.Spec.Kept.unique",
    "Verif.Lru.lru_keys_unique",
    "Verif.Lru.lru_put_bound",
    "Verif.Lru.lru_lookup_latest",
    "Verif.Lru.lru_no_premature_eviction"
   ],
   "note": ""
  },
  {
   "property": "C02",
   "status": "proved",
   "theorems": [
    "Verif.Search.lower_bound_int",
    "Verif.Search.upper_bound_int",
    "Verif.Search.lower_bound_flt",
    "Verif.Search.upper_bound_flt",
    "Verif.Search.bounds_nan"
   ],
   "note": ""
  },
  {
   "property": "C03",
   "status": "proved",
   "theorems": [
    "Verif.Search.galloping_lower_bound",
    "Verif.Search.galloping_eq_lower_bound"
   ],
   "note": ""
  },
  {
   "property": "C04",
   "status": "partial",
   "theorems": [
    "Verif.Search.exp_lower_bound_partial",
    "Verif.Search.exp_lower_bound_sorted",
    "Verif.Search.exp_lower_bound_iterator_counterexample"
   ],
   "note": "The returned position and all dereferences are proved correct; std::advance may leave [first,last] (counterexample), which is undefined behaviour for standard iterators."
  },
  {
   "property": "C05",
   "status": "proved",
   "theorems": [
    "Verif.Bits.get_bit",
    "Verif.Bits.set_bit",
    "Verif.Bits.set_bits_in_range",
    "Verif.Bits.get_ones_count_in_range",
    "Verif.Bits.find_next_set_bit"
   ],
   "note": ""
  },
  {
   "property": "C06",
   "status": "proved",
   "theorems": [
    "Verif.Bits.copy_bits"
   ],
   "note": ""
  },
  {
   "property": "C07",
   "status": "partial",
   "theorems": [
    "Verif.Bits.logical_and",
    "Verif.Bits.in_place_logical_and",
    "Verif.Bits.inplace_logical_and_with_offsets_partial",
    "Verif.Bits.inplace_logical_and_with_offsets_empty_counterexample"
   ],
   "note": "Proved for all sizes and skips except size 0 with rhs_skip = 0 < lhs_skip, where the code reads rhs[0] (counterexample)."
  },
  {
   "property": "C08",
   "status": "proved",
   "theorems": [
    "Verif.Bitmap.count_bits",
    "Verif.Bitmap.are_all_bits_set",
    "Verif.Bitmap.are_all_bits_unset"
   ],
   "note": ""
  },
  {
   "property": "C09",
   "status": "proved",
   "theorems": [
    "Verif.Bitmap.intersect_bits",
    "Verif.Bitmap.intersect_elements"
   ],
   "note": ""
  },
  {
   "property": "C10",
   "status": "proved",
   "theorems": [
    "Verif.Bitmap.builder_bits",
    "Verif.Bitmap.almost_full_builder",
    "Verif.Bitmap.almost_full_builder_prefix"
   ],
   "note": ""
  },
  {
   "property": "C11",
   "status": "proved",
   "theorems": [
    "Verif.Dense.element_access",
    "Verif.Dense.slice_elements",
    "Verif.Dense.slice_slice",
    "Verif.Dense.force_no_offset_elements",
    "Verif.Dense.present_count",
    "Verif.Dense.presence_queries"
   ],
   "note": ""
  },
  {
   "property": "C12",
   "status": "proved",
   "theorems": [
    "Verif.Dense.builder_elements",
    "Verif.Dense.builder_prefix",
    "Verif.Dense.create_elements"
   ],
   "note": ""
  },
  {
   "property": "C13",
   "status": "proved",
   "theorems": [
    "Verif.Dense.equivalent_iff",
    "Verif.Dense.equivalent_iff_eq",
    "Verif.Dense.fingerprint_iff"
   ],
   "note": ""
  },
  {
   "property": "C14",
   "status": "proved",
   "theorems": [
    "Verif.Edge.from_split_points_accepts",
    "Verif.Edge.from_mapping_accepts",
    "Verif.Edge.from_uniform_groups_accepts",
    "Verif.Edge.from_uniform_groups_overflow",
    "Verif.Edge.edge_is_partial_function"
   ],
   "note": "from_uniform_groups_accepts needs parent_size < 2^63-1; from_uniform_groups_overflow shows the signed overflow at 2^63-1."
  },
  {
   "property": "C15",
   "status": "proved",
   "theorems": [
    "Verif.Edge.to_mapping_same_relation",
    "Verif.Edge.to_split_points_same_relation",
    "Verif.Edge.is_equivalent_iff_same_relation",
    "Verif.Edge.is_equivalent_symm"
   ],
   "note": ""
  },
  {
   "property": "C16",
   "status": "proved",
   "theorems": [
    "Verif.Edge.compose_edges_composes",
    "Verif.Edge.compose_edges_empty"
   ],
   "note": ""
  },
  {
   "property": "C17",
   "status": "proved",
   "theorems": [
    "Verif.Arr.id_to_offset",
    "Verif.Arr.id_to_offset_missing",
    "Verif.Arr.id_to_offset_full_empty",
    "Verif.Arr.make_filter",
    "Verif.Arr.array_get"
   ],
   "note": ""
  },
  {
   "property": "C18",
   "status": "proved",
   "theorems": [
    "Verif.Arr.with_ids",
    "Verif.Arr.to_dense_form",
    "Verif.Arr.to_sparse_form"
   ],
   "note": "operator== of the value type is equality; float values with -0.0 and NaN are not covered."
  },
  {
   "property": "C19",
   "status": "proved",
   "theorems": [
    "Verif.Arr.array_slice",
    "Verif.Arr.array_present_count"
   ],
   "note": ""
  },
  {
   "property": "C20",
   "status": "partial",
   "theorems": [
    "Verif.Arr.array_equivalence_partial",
    "Verif.Arr.array_equivalence_exact",
    "Verif.Arr.array_equivalence_counterexample"
   ],
   "note": "False for two empty arrays with different missing_id_value (counterexample); proved for all other pairs. array_equivalence_exact states exactly what is computed."
  },
  {
   "property": "C21",
   "status": "partial",
   "theorems": [
    "Verif.Arr.array_fingerprint_partial",
    "Verif.Arr.array_fingerprint_defined",
    "Verif.Arr.array_fingerprint_counterexample"
   ],
   "note": "The id filter fingerprint ignores ids_offset: two different slices of one array have the same fingerprint (counterexample). Proved for arrays with equal ids_offset."
  },
  {
   "property": "C22",
   "status": "proved",
   "theorems": [
    "Verif.Arr.filter_merge",
    "Verif.Arr.filter_intersect",
    "Verif.Arr.for_each_common_id"
   ],
   "note": ""
  },
  {
   "property": "C23",
   "status": "proved",
   "theorems": [
    "Verif.Arr.create_array",
    "Verif.Arr.create_array_ids",
    "Verif.Arr.sparse_array_builder"
   ],
   "note": ""
  },
  {
   "property": "C24",
   "status": "proved",
   "theorems": [
    "Verif.Jagged.from_edges_correct",
    "Verif.Jagged.add_dims_correct",
    "Verif.Jagged.remove_dims_correct",
    "Verif.Jagged.flatten_dims_correct"
   ],
   "note": ""
  },
  {
   "property": "C25",
   "status": "proved",
   "theorems": [
    "Verif.Jagged.flatten_dims_correct",
    "Verif.Jagged.flatten_dims_size",
    "Verif.Jagged.flatten_dims_unit_overflow_counterexample"
   ],
   "note": "A new unit dimension needs fewer than 2^63-1 rows; flatten_dims_unit_overflow_counterexample shows the signed overflow otherwise."
  },
  {
   "property": "C26",
   "status": "proved",
   "theorems": [
    "Verif.Jagged.shapes_equivalent_iff",
    "Verif.Jagged.fast_equivalence_sound",
    "Verif.Jagged.broadcastable_iff",
    "Verif.Jagged.broadcast_edge_correct",
    "Verif.Jagged.broadcastable_trans"
   ],
   "note": "Pointer equality of the shared implementations is an oracle: equal pointers mean equal edges."
  },
  {
   "property": "C27",
   "status": "partial",
   "theorems": [
    "Verif.Jagged.concat_dense_correct",
    "Verif.Jagged.concat_array_correct",
    "Verif.Jagged.concat_shapes_correct",
    "Verif.Jagged.concat_dense_error_partial",
    "Verif.Jagged.concat_array_error_partial",
    "Verif.Jagged.concat_single_size_counterexample",
    "Verif.Jagged.concat_overflow_counterexample"
   ],
   "note": "A single array whose size does not match its shape is accepted (counterexample), all other bad inputs are errors; accumulated sizes must fit 64 bits (counterexample shows the overflow). Success is proved in full. Shapes of Array use the DenseArrayEdge model."
  },
  {
   "property": "C28",
   "status": "proved",
   "theorems": [
    "Verif.Cfg.dominator_tree_correct"
   ],
   "note": ""
  },
  {
   "property": "C29",
   "status": "proved",
   "theorems": [
    "Verif.Cfg.create_accepts"
   ],
   "note": ""
  },
  {
   "property": "C30",
   "status": "proved",
   "theorems": [
    "Verif.Cfg.empty_frontier_correct",
    "Verif.Cfg.empty_frontier_is_empty"
   ],
   "note": ""
  },
  {
   "property": "C31",
   "status": "proved",
   "theorems": [
    "Verif.Cfg.externalize_correct"
   ],
   "note": ""
  },
  {
   "property": "C32",
   "status": "proved",
   "theorems": [
    "Verif.Conc.cancel_safe",
    "Verif.Conc.cancel_no_leak",
    "Verif.Conc.cancel_status_once",
    "Verif.Conc.cancel_effective",
    "Verif.Conc.callback_at_most_once",
    "Verif.Conc.unsubscribed_never_runs",
    "Verif.Conc.subscribed_runs_once",
    "Verif.Conc.late_subscribe_runs",
    "Verif.Conc.operations_complete"
   ],
   "note": "Sections under the mutex are atomic; reads of the flag outside of the mutex may be stale; a callback is one event."
  },
  {
   "property": "C33",
   "status": "partial",
   "theorems": [
    "Verif.Reg.registry_safe",
    "Verif.Reg.lookup_latest",
    "Verif.Reg.register_sequential",
    "Verif.Reg.unregister_sequential",
    "Verif.Reg.register_race_counterexample",
    "Verif.Reg.register_unique_partial",
    "Verif.Reg.changes_alternate",
    "Verif.Reg.listing_exact"
   ],
   "note": "False for overlapping calls on one name: Register checks and stores without holding a lock (counterexample). Proved for all interleavings in which calls on one name do not overlap."
  },
  {
   "property": "C34",
   "status": "proved",
   "theorems": [
    "Verif.Reg.registry_safe",
    "Verif.Reg.revision_counts",
    "Verif.Reg.revision_unchanged",
    "Verif.Reg.revision_owed",
    "Verif.Reg.register_sequential",
    "Verif.Reg.unregister_sequential"
   ],
   "note": "Revision ids are unbounded integers in the model."
  },
  {
   "property": "C35",
   "status": "proved",
   "theorems": [
    "Verif.Conc.Exec.pool_exclusive",
    "Verif.Conc.Exec.busy_exclusive",
    "Verif.Conc.Exec.evaluation_progress"
   ],
   "note": "An evaluation writes its input into the frame and later reads the frame; atomics are sequentially consistent."
  },
  {
   "property": "C36",
   "status": "partial",
   "theorems": [
    "Verif.Forest.split_node_id",
    "Verif.Forest.adjustment_id_partial",
    "Verif.Forest.node_ids_distinct",
    "Verif.Forest.adjustment_id_counterexample"
   ],
   "note": "False for the adjustment index INT64_MAX: adjustment_index overflows (counterexample); proved for all smaller indices."
  },
  {
   "property": "C37",
   "status": "partial",
   "theorems": [
    "Verif.Forest.filter_iff",
    "Verif.Forest.from_trees_accepts",
    "Verif.Forest.validate_input_slots_iff",
    "Verif.Forest.naive_sound",
    "Verif.Forest.sums_unique",
    "Verif.Forest.naive_complete_partial",
    "Verif.Forest.naive_cycle_counterexample"
   ],
   "note": "FromTrees accepts trees with cycles, for which naive evaluation may not end (counterexample). Soundness is proved for all accepted forests, termination for those without cycles."
  },
  {
   "property": "C38",
   "status": "proved",
   "theorems": [
    "Verif.Sig.validate_iff",
    "Verif.Sig.bind_ok_iff",
    "Verif.Sig.bind_error",
    "Verif.Sig.bind_order",
    "Verif.Sig.bind_deps_count"
   ],
   "note": "Default values and arguments have an arbitrary type; the text of error messages is not modelled."
  },
  {
   "property": "C39",
   "status": "proved",
   "theorems": [
    "Verif.Sig.make_show",
    "Verif.Sig.make_valid",
    "Verif.Sig.make_show_make",
    "Verif.Sig.show_injective"
   ],
   "note": "For aux policies whose name and options carry no outer whitespace, as MakeExprOperatorSignature produces them."
  },
  {
   "property": "C40",
   "status": "proved",
   "theorems": [
    "Verif.Expr.post_order",
    "Verif.Expr.visitor_order",
    "Verif.Expr.pre_and_post",
    "Verif.Expr.leaf_keys"
   ],
   "note": "Expressions are trees in which equal subtrees are one node (fingerprints do not collide)."
  },
  {
   "property": "C41",
   "status": "proved",
   "theorems": [
    "Verif.Expr.traverse_eq",
    "Verif.Expr.transform_eq",
    "Verif.Expr.with_new_deps",
    "Verif.Expr.with_new_deps_wf"
   ],
   "note": "Operators have arbitrary inference functions; transform_fn is a function of its argument."
  },
  {
   "property": "C42",
   "status": "proved",
   "theorems": [
    "Verif.Expr.deep_terminates",
    "Verif.Expr.deep_sound",
    "Verif.Expr.deep_unique",
    "Verif.Expr.deep_error",
    "Verif.Expr.deep_complete",
    "Verif.Expr.deep_fixed_point",
    "Verif.Expr.deep_value"
   ],
   "note": "transform_fn is a function of its argument; log_fn is not modelled."
  },
  {
   "property": "C43",
   "status": "proved",
   "theorems": [
    "Verif.Slots.execute_correct",
    "Verif.Slots.bind_evaluates",
    "Verif.Slots.bind_no_alias",
    "Verif.Slots.bind_slot_types",
    "Verif.Slots.bind_succeeds",
    "Verif.Slots.compiled_expr_value",
    "Verif.Slots.shared_input_counterexample",
    "Verif.Slots.output_is_input_counterexample"
   ],
   "note": "Nodes are classified by what the visitor does for them; backend, where, while and extension operators are opaque functions of their inputs. The caller must give existing slots, an output slot that is not an input and, with overwriting allowed, different slots for different leaves; the two counterexamples show that these are needed."
  },
  {
   "property": "C44",
   "status": "proved",
   "theorems": [
    "Verif.Eval.where_compiles",
    "Verif.Eval.where_run",
    "Verif.Eval.where_run_error",
    "Verif.Eval.run_cancel"
   ],
   "note": "The branches are arbitrary programs; their extraction from the expression is C103 and C104."
  },
  {
   "property": "C45",
   "status": "proved",
   "theorems": [
    "Verif.Eval.While.while_terminates",
    "Verif.Eval.While.while_result",
    "Verif.Eval.While.plain_loop_unique",
    "Verif.Eval.While.while_fuel"
   ],
   "note": ""
  },
  {
   "property": "C46",
   "status": "proved",
   "theorems": [
    "Verif.Serial.round_trip",
    "Verif.Serial.encode_decode",
    "Verif.Serial.encode_succeeds",
    "Verif.Serial.written_once"
   ],
   "note": "For decoders that infer attributes (the default). Value codecs are arbitrary encoder/decoder pairs that are inverse for one level of a value (Lawful); the codecs of the library are not modelled. Fingerprints do not collide."
  },
  {
   "property": "C47",
   "status": "proved",
   "theorems": [
    "Verif.Serial.decode_meaning",
    "Verif.Serial.decode_hints_sound",
    "Verif.Serial.decode_hints_complete",
    "Verif.Serial.decode_hints_exact",
    "Verif.Serial.decode_write_once",
    "Verif.Serial.decode_no_ub",
    "Verif.Serial.decode_container"
   ],
   "note": ""
  },
  {
   "property": "C48",
   "status": "proved",
   "theorems": [
    "Verif.Ops.add_op",
    "Verif.Ops.subtract_op",
    "Verif.Ops.multiply_op",
    "Verif.Ops.neg_op",
    "Verif.Ops.abs_op",
    "Verif.Ops.sign_op",
    "Verif.Ops.max_op",
    "Verif.Ops.min_op",
    "Verif.Ops.floordiv_mod",
    "Verif.Ops.FloorDivMod.unique",
    "Verif.Ops.fdiv_spec",
    "Verif.Ops.unsigned_floordiv_mod",
    "Verif.Ops.wraps_unique",
    "Verif.Ops.wraps_exact"
   ],
   "note": ""
  },
  {
   "property": "C49",
   "status": "proved",
   "theorems": [
    "Verif.Agg.count_addN",
    "Verif.Agg.any_addN",
    "Verif.Agg.all_addN",
    "Verif.Agg.logicalAll_addN",
    "Verif.Agg.logicalAny_addN",
    "Verif.Agg.sum_addN",
    "Verif.Agg.functor_addN",
    "Verif.Agg.min_addN",
    "Verif.Agg.max_addN",
    "Verif.Agg.collapse_addN",
    "Verif.Agg.count_result",
    "Verif.Agg.any_result",
    "Verif.Agg.all_result",
    "Verif.Agg.logicalAll_result",
    "Verif.Agg.logicalAny_result",
    "Verif.Agg.sum_result",
    "Verif.Agg.functor_result",
    "Verif.Agg.min_result",
    "Verif.Agg.max_result",
    "Verif.Agg.min_nan",
    "Verif.Agg.max_nan",
    "Verif.Agg.collapse_result",
    "Verif.Agg.stringJoin_result",
    "Verif.Agg.inverseMapping_result",
    "Verif.Agg.inverseMapping_error",
    "Verif.Agg.addN_zero_counterexample"
   ],
   "note": "Sums and products of integers; float sums, mean, weighted average and weighted cdf are not modelled. AddN with count 0 differs from no Add for some accumulators (counterexample); the callers pass at least 1."
  },
  {
   "property": "C50",
   "status": "proved",
   "theorems": [
    "Verif.QType.common_idem",
    "Verif.QType.common_null",
    "Verif.QType.common_comm",
    "Verif.QType.common_assoc",
    "Verif.QType.common_exists",
    "Verif.QType.common_span_perm",
    "Verif.QType.common_span_repeat",
    "Verif.QType.canCast_iff",
    "Verif.QType.canCast_null",
    "Verif.QType.canCast_partial_order",
    "Verif.QType.common_least",
    "Verif.QType.broadcast_spec",
    "Verif.QType.sampleRegistry_ok"
   ],
   "note": "Assumes that the registry has the scalar, optional and array types of every number type (Registry.Ok), as the library registers them."
  },
  {
   "property": "C51",
   "status": "proved",
   "theorems": [
    "Verif.Mem.frame_slots",
    "Verif.Mem.frame_alignment",
    "Verif.Mem.frame_objects",
    "Verif.Mem.addSubFrame_total",
    "Verif.Mem.frame_blocks",
    "Verif.Mem.frame_array",
    "Verif.Mem.registerSlot_iff"
   ],
   "note": "Sizes are unbounded (no overflow of size_t)."
  },
  {
   "property": "C52",
   "status": "proved",
   "theorems": [
    "Verif.Bitmap.iterate_by_groups",
    "Verif.Bitmap.iterate_all"
   ],
   "note": ""
  },
  {
   "property": "C53",
   "status": "proved",
   "theorems": [
    "Verif.Dense.for_each_visits",
    "Verif.Dense.for_each_present_visits"
   ],
   "note": ""
  },
  {
   "property": "C54",
   "status": "proved",
   "theorems": [
    "Verif.Dense.unary_elements",
    "Verif.Dense.binary_elements",
    "Verif.Dense.universal_elements"
   ],
   "note": ""
  },
  {
   "property": "C55",
   "status": "partial",
   "theorems": [
    "Verif.Dense.has_elements",
    "Verif.Dense.presence_not_elements",
    "Verif.Dense.presence_and_size_mismatch",
    "Verif.Dense.presence_and_elements_partial",
    "Verif.Dense.presence_and_offset_counterexample",
    "Verif.Dense.presence_or_elements_partial",
    "Verif.Dense.presence_or_const_elements_partial",
    "Verif.Dense.presence_or_offset_counterexample"
   ],
   "note": "presence_and writes out of bounds when the intersected bitmap needs an extra word because of bit offsets (counterexample); presence_or is only right for bitmaps starting at bit 0 (counterexample). Proved in all other cases."
  },
  {
   "property": "C56",
   "status": "proved",
   "theorems": [
    "Verif.Arr.array_for_each",
    "Verif.Arr.array_for_each_present"
   ],
   "note": ""
  },
  {
   "property": "C57",
   "status": "proved",
   "theorems": [
    "Verif.Conc.Scope.scope_guard_stack"
   ],
   "note": ""
  },
  {
   "property": "C58",
   "status": "proved",
   "theorems": [
    "Verif.Str.is_identifier_iff",
    "Verif.Str.is_qualified_iff",
    "Verif.Str.truncate_spec"
   ],
   "note": ""
  },
  {
   "property": "C59",
   "status": "proved",
   "theorems": [
    "Verif.Str.within_one_typo_iff"
   ],
   "note": ""
  },
  {
   "property": "C60",
   "status": "partial",
   "theorems": [
    "Verif.Conc.Exec.thread_local_exclusive_partial",
    "Verif.Conc.Exec.thread_local_nested_counterexample"
   ],
   "note": "False for an evaluation started inside another one in the same thread (counterexample); proved without such nesting."
  },
  {
   "property": "C61",
   "status": "proved",
   "theorems": [
    "Verif.Forest.regular_compile_iff",
    "Verif.Forest.regular_predict",
    "Verif.Forest.boosted_predict",
    "Verif.Forest.boosted_predict_sum"
   ],
   "note": "Node ids of the compact tree are unbounded; values have an arbitrary type, the accumulation an arbitrary operation."
  },
  {
   "property": "C62",
   "status": "proved",
   "theorems": [
    "Verif.Forest.to_oblivious_ends",
    "Verif.Forest.to_oblivious_sound",
    "Verif.Forest.to_oblivious_iff"
   ],
   "note": ""
  },
  {
   "property": "C63",
   "status": "proved",
   "theorems": [
    "Verif.Forest.bitmask_eval",
    "Verif.Forest.addOp_value",
    "Verif.Forest.bitmask_nan_bound_counterexample",
    "Verif.Forest.bitmask_shared_counterexample",
    "Verif.Forest.sortDedup_distinct"
   ],
   "note": "Proved for proper trees and conditions without NaN bounds, as the property states; the two counterexamples show that both assumptions are needed although FromTrees and IntervalSplit accept such forests. Sum in an arbitrary commutative monoid (rounding of float addition is not modelled)."
  },
  {
   "property": "C68",
   "status": "partial",
   "theorems": [
    "Verif.Agg.ordinalRank_result_partial",
    "Verif.Agg.ordinalRank_nan_counterexample",
    "Verif.Agg.denseRank_result",
    "Verif.Agg.median_result",
    "Verif.Agg.inverseCdf_result",
    "Verif.Agg.isNth_unique",
    "Verif.Agg.argMin_result",
    "Verif.Agg.argMax_result",
    "Verif.Agg.argMin_addN",
    "Verif.Agg.argMax_addN",
    "Verif.Agg.groupBy_result",
    "Verif.Agg.groupBy_nan",
    "Verif.Agg.takeOver_result"
   ],
   "note": "array.ordinal_rank ignores the tie breaker among NaNs, unlike documented (counterexample); everything else is proved. The rank of inverse_cdf is computed in floating point, an arbitrary function here."
  },
  {
   "property": "C67",
   "status": "proved",
   "theorems": [
    "Verif.Group.dense_iterate",
    "Verif.Group.dense_iterate_from_zero",
    "Verif.Group.array_iterate",
    "Verif.Group.array_iterate_dense",
    "Verif.Group.array_iterate_simple",
    "Verif.Group.array_estimate"
   ],
   "note": "All arguments share one value type. Callbacks are modelled by the list of their calls."
  },
  {
   "property": "C71",
   "status": "partial",
   "theorems": [
    "Verif.Expr.substitute_ok",
    "Verif.Expr.substitute_terminals",
    "Verif.Expr.substitute_succeeds",
    "Verif.Expr.substitute_placeholders",
    "Verif.Expr.substitute_leaves_value",
    "Verif.Expr.substitute_counterexample"
   ],
   "note": "SubstituteByFingerprint and SubstituteByName also substitute below replaced nodes and fail if that cannot be built (counterexample). When they succeed the result is the simultaneous substitution; for leaves and placeholders the outcome is exactly that, errors included."
  },
  {
   "property": "C69",
   "status": "proved",
   "theorems": [
    "Verif.Group.dense_group_op",
    "Verif.Group.dense_group_op_size",
    "Verif.Group.array_group_op",
    "Verif.Group.array_group_op_size",
    "Verif.Group.dense_group_scalar",
    "Verif.Group.array_group_scalar",
    "Verif.Group.group_op_representation",
    "Verif.Group.count_lawful",
    "Verif.Group.any_lawful",
    "Verif.Group.all_lawful",
    "Verif.Group.logicalAll_lawful",
    "Verif.Group.logicalAny_lawful",
    "Verif.Group.sum_lawful",
    "Verif.Group.min_lawful",
    "Verif.Group.max_lawful",
    "Verif.Group.functor_lawful",
    "Verif.Group.stringJoin_lawful",
    "Verif.Group.median_lawful",
    "Verif.Group.inverseCdf_lawful",
    "Verif.Group.collapse_lawful",
    "Verif.Group.argMin_lawful",
    "Verif.Group.argMax_lawful",
    "Verif.Group.inverseMapping_lawful",
    "Verif.Group.takeOver_lawful",
    "Verif.Group.ordinalRank_lawful",
    "Verif.Group.denseRank_lawful",
    "Verif.Group.group_op_no_children_counterexample"
   ],
   "note": "The contract is shown for all modelled accumulators except GroupByAccumulator, whose ids depend on the other groups by design. An aggregator without child arguments gets AddN(0) for an empty group, so it must not treat that as a row (hypothesis ZeroOk, counterexample; no accumulator of the library has no child argument). The text of the error may be that of any failing group. With an edge without parents the status of the initial accumulator is assumed to be OK."
  },
  {
   "property": "C64",
   "status": "partial",
   "theorems": [
    "Verif.Forest.single_float_partial",
    "Verif.Forest.single_int64_partial",
    "Verif.Forest.single_float_overflow_counterexample",
    "Verif.Forest.single_float_infinite_counterexample",
    "Verif.Forest.single_float_set_counterexample",
    "Verif.Forest.single_float_nan_counterexample",
    "Verif.Forest.single_int64_overflow_counterexample"
   ],
   "note": "False if the sum of two split points overflows (float: infinity; int64: undefined behaviour), for -inf below the split point -FLT_MAX, for sets that contain an infinity, and for NaN with a set that is true for missing values (counterexamples). Proved for split points up to half of the range and all inputs except that NaN case. Sums of values are exact (semiring)."
  },
  {
   "property": "C65",
   "status": "partial",
   "theorems": [
    "Verif.Forest.forest_evaluator_partial",
    "Verif.Forest.forest_evaluator_agree_partial",
    "Verif.Forest.forest_evaluator_rejects",
    "Verif.Forest.single_custom_condition_counterexample"
   ],
   "note": "Proved for proper trees (C63 shows that shared nodes break the bitmask evaluator) and, with single input evaluators, under the restrictions of C64; a custom condition with a single float or int64 input makes compilation fail (counterexample). Sums are exact (semiring), rounding is not modelled."
  },
  {
   "property": "C72",
   "status": "proved",
   "theorems": [
    "Verif.Frames.create_iff",
    "Verif.Frames.frame_iterator",
    "Verif.Frames.frame_iterator_no_buffers_counterexample"
   ],
   "note": "Different inputs have different slots; constant slots are not inputs. With frame_buffer_count = 0 and rows the loop never ends (counterexample). Buffers of one value per entry (not the builder of string buffers); negative row counts are not modelled."
  },
  {
   "property": "C73",
   "status": "proved",
   "theorems": [
    "Verif.Frames.barrier_threads",
    "Verif.Frames.barrier_threads_terminate",
    "Verif.Frames.frame_iterator_parallel"
   ],
   "note": "absl::Barrier is modelled from its documented implementation. Sequentially consistent interleaving of steps; an application of fn to one frame, a preload and a save are one step each, justified by the proved absence of races."
  },
  {
   "property": "C66",
   "status": "partial",
   "theorems": [
    "Verif.Batched.batched_forest_partial",
    "Verif.Batched.batched_accepts",
    "Verif.Batched.batched_in_place_counterexample",
    "Verif.Batched.batched_optimal_counterexample"
   ],
   "note": "Restrictions of C65 (proper trees, safe split points, sums in a semiring). With several evaluators an output slot which is also an input slot gives wrong sums (counterexample). optimal_splits_per_evaluator = 0 or near the largest int64_t is undefined behaviour (counterexample)."
  },
  {
   "property": "C70",
   "status": "proved",
   "theorems": [
    "Verif.Arr.array_pointwise",
    "Verif.Arr.array_pointwise_total",
    "Verif.Arr.array_pointwise_size_mismatch",
    "Verif.Arr.array_pointwise_lifted",
    "Verif.Arr.unary_op_ok",
    "Verif.Arr.binary_op_ok",
    "Verif.Arr.array_pointwise_error_counterexample"
   ],
   "note": "The functor is also evaluated for the missing_id_values, so a failing functor can make the operation fail although it fails for no row, e.g. math.floordiv (counterexample); the statement says so. One value type for all arguments; buffers of one value per entry."
  },
  {
   "property": "C74",
   "status": "proved",
   "theorems": [
    "Verif.Arr.array_presence_or",
    "Verif.Arr.array_presence_or_const",
    "Verif.Arr.array_presence_or_size_mismatch"
   ],
   "note": ""
  },
  {
   "property": "C75",
   "status": "proved",
   "theorems": [
    "Verif.Startup.run_order",
    "Verif.Startup.run_ok",
    "Verif.Startup.run_error",
    "Verif.Startup.run_succeeds_iff",
    "Verif.Startup.run_registration_order"
   ],
   "note": "previously_completed_ is assumed to hold neither the empty nor a phony name, which is proved to be preserved. Initializer functions do not register further initializers during the run; std::stable_sort is insertion sort; the list of static registrations (init_arolla.cc) and the fatal exit on an error are not modelled."
  },
  {
   "property": "C76",
   "status": "proved",
   "theorems": [
    "Verif.Opt.create_rule",
    "Verif.Opt.apply_rule",
    "Verif.Opt.rule_sound"
   ],
   "note": "Both sides are assumed to be made by the node factories (WF). Operators mean what their display name says, as the optimizer assumes. Fingerprints are collision-free. The check of operator tags in debug builds is left out."
  },
  {
   "property": "C77",
   "status": "proved",
   "theorems": [
    "Verif.Opt.apply_node",
    "Verif.Opt.pattern_rule_inert",
    "Verif.Opt.optimize_ok",
    "Verif.Opt.optimize_gives_up",
    "Verif.Opt.optimize_value",
    "Verif.Opt.optimize_normal",
    "Verif.Opt.optimize_normal_counterexample",
    "Verif.Opt.collision_counterexample"
   ],
   "note": "Without a decreasing measure the result can still be rewritten by single rules: two rules of a bucket that undo each other count as no change and no error is reported (counterexample). One application also depends on hash collisions (counterexample). The concrete rule packs are not modelled."
  },
  {
   "property": "C78",
   "status": "proved",
   "theorems": [
    "Verif.Prep.prepare_terminates",
    "Verif.Prep.prepare_value",
    "Verif.Prep.prepare_attr",
    "Verif.Prep.prepare_normal"
   ],
   "note": "The lowering of operators, Invoke, casting, the optimizer and the compiler extensions are arbitrary functions that keep values (hypothesis Faithful). Normal form and attributes are stated without the stage for core.where, which rewrites the result of the others. The concrete language of PrepExamples meets all hypotheses."
  },
  {
   "property": "C79",
   "status": "proved",
   "theorems": [
    "Verif.Prep.extract_types",
    "Verif.Prep.extract_conflict",
    "Verif.Prep.extract_value",
    "Verif.Prep.extract_plain",
    "Verif.Prep.compile_inputs",
    "Verif.Prep.compile_value",
    "Verif.Prep.Ex.compile_inputs_counterexample"
   ],
   "note": "If the type argument of an inner annotation is not known the leaf below it is not compared with the declared type, so the compiled expression may take an input with another type than declared (counterexample). Side outputs and the binding of slots are not part of this model."
  },
  {
   "property": "C80",
   "status": "proved",
   "theorems": [
    "Verif.Text.bytes_find",
    "Verif.Text.bytes_rfind",
    "Verif.Text.text_find",
    "Verif.Text.text_rfind",
    "Verif.Text.bytes_substr",
    "Verif.Text.text_substr",
    "Verif.Text.text_ops_safe",
    "Verif.Text.contains_bytes",
    "Verif.Text.contains_text",
    "Verif.Text.text_length",
    "Verif.Text.bytes_count",
    "Verif.Text.text_count",
    "Verif.Text.count_many",
    "Verif.Text.count_counterexample"
   ],
   "note": "ICU and string_view are modelled after their documentation. strings.count overflows an int at 2^31 occurrences (counterexample; the statement excludes it)."
  },
  {
   "property": "C81",
   "status": "partial",
   "theorems": [
    "Verif.Text.bytes_strip_spaces",
    "Verif.Text.bytes_strip_chars",
    "Verif.Text.bytes_strip_chars_partial",
    "Verif.Text.bytes_strip_backspace_counterexample",
    "Verif.Text.bytes_strip_throws_counterexample",
    "Verif.Text.text_strip"
   ],
   "note": "Proved for Text, for Bytes without characters, and for ASCII Bytes with ASCII characters where the byte 8 is stripped only if given. False otherwise: std::bitset<256> char_set(256) contains the byte 8, and a byte from 0x80 on throws std::out_of_range (counterexamples). White space of Unicode is an oracle; lengths are below 2^31."
  },
  {
   "property": "C82",
   "status": "proved",
   "theorems": [
    "Verif.Text.bytes_replace",
    "Verif.Text.text_replace",
    "Verif.Text.replaced_unique"
   ],
   "note": "Strings are shorter than 2^63 - 1 bytes."
  },
  {
   "property": "C83",
   "status": "proved",
   "theorems": [
    "Verif.Text.decode_strict",
    "Verif.Text.decode_lenient",
    "Verif.Text.decoded_isText",
    "Verif.Text.decoded_text",
    "Verif.Text.decode_encode"
   ],
   "note": "utf8_range and U8_NEXT are modelled after their documentation."
  },
  {
   "property": "C84",
   "status": "proved",
   "theorems": [
    "Verif.Text.parse_int",
    "Verif.Text.parse_int_ops",
    "Verif.Text.parse_as_text",
    "Verif.Text.decimalInt_unique"
   ],
   "note": "std::from_chars and %d are modelled after the C++ standard."
  },
  {
   "property": "C85",
   "status": "proved",
   "theorems": [
    "Verif.Text.split_separator",
    "Verif.Text.split_empty_separator",
    "Verif.Text.split_words",
    "Verif.Text.split_edge",
    "Verif.Text.split_text",
    "Verif.Text.join_spec",
    "Verif.Text.join_split",
    "Verif.Text.split_join",
    "Verif.Text.split_text_counterexample",
    "Verif.Text.split_null_counterexample"
   ],
   "note": "absl::StrSplit and StrJoin are modelled after the library. An empty separator splits a Text into single bytes (ill-formed, counterexample). A string whose string_view has a null pointer (possible for empty strings of a deep-copied or uninitialized buffer) has no parts instead of one (counterexample); the statements about a separator exclude it."
  },
  {
   "property": "C86",
   "status": "proved",
   "theorems": [
    "Verif.Text.format_renders",
    "Verif.Text.arg_names",
    "Verif.Text.format_escape"
   ],
   "note": "The formatting of a single value is an oracle. Missing optional arguments (WhereAllBoundOperator) are not part of this model."
  },
  {
   "property": "C87",
   "status": "proved",
   "theorems": [
    "Verif.Text.within_one_typo"
   ],
   "note": ""
  },
  {
   "property": "C88",
   "status": "proved",
   "theorems": [
    "Verif.StrBuf.builder_refines",
    "Verif.StrBuf.create_refines",
    "Verif.StrBuf.uninitialized_refines",
    "Verif.StrBuf.valid_holds",
    "Verif.StrBuf.slice_refines",
    "Verif.StrBuf.slice_from_refines",
    "Verif.StrBuf.deepCopy_refines",
    "Verif.StrBuf.equal_refines"
   ],
   "note": "Memory is a value; ownership and allocation are not modelled. Sizes do not overflow."
  },
  {
   "property": "C89",
   "status": "partial",
   "theorems": [
    "Verif.StrBuf.reshuffle_partial",
    "Verif.StrBuf.reshuffle_default_counterexample",
    "Verif.StrBuf.reshuffle_missing_counterexample"
   ],
   "note": "Proved for buffers without base offset, and if all values are set; the values (not the validity) also for a missing or empty default. False for a buffer with a base offset (a deep copy of a slice): the offsets of the default do not contain it (counterexamples)."
  },
  {
   "property": "C90",
   "status": "partial",
   "theorems": [
    "Verif.StrBuf.create_hash_partial",
    "Verif.StrBuf.hash_counterexample"
   ],
   "note": "Proved for buffers made by Create (with the converse). False in general: offsets and characters are hashed, not the values (counterexample)."
  },
  {
   "property": "C91",
   "status": "proved",
   "theorems": [
    "Verif.Overload.find_matching",
    "Verif.Overload.find_matching_perm",
    "Verif.Overload.castOrder_qtype"
   ],
   "note": "castOrder_qtype discharges the hypothesis on casts for the model of C50."
  },
  {
   "property": "C92",
   "status": "proved",
   "theorems": [
    "Verif.Overload.insert_status",
    "Verif.Overload.get_operator",
    "Verif.Overload.get_operator_counterexample",
    "Verif.Overload.registry_names",
    "Verif.Overload.registry_lookup"
   ],
   "note": "A failed registration with a priority out of range and new input types leaves a record with a null operator, which a lookup with these types follows (counterexample; the statement excludes it). Mutexes are not modelled (calls are atomic). Names are numbers."
  },
  {
   "property": "C93",
   "status": "partial",
   "theorems": [
    "Verif.Generic.snapshot_fresh_partial",
    "Verif.Generic.snapshot_runs",
    "Verif.Generic.snapshot_race_counterexample"
   ],
   "note": "Fresh for names without a registration in progress, in runs where no snapshot is built between the two steps of a registration; snapshot_race_counterexample shows the race without that condition. Missing: aliases (names registered for another registered operator) are not followed, registrations of one name do not overlap."
  },
  {
   "property": "C94",
   "status": "proved",
   "theorems": [
    "Verif.Generic.overload_eval",
    "Verif.Generic.generic_choice",
    "Verif.Generic.generic_monotone",
    "Verif.Generic.generic_decides",
    "Verif.Generic.generic_perm",
    "Verif.Generic.dispatch_choice",
    "Verif.Generic.dispatch_monotone",
    "Verif.Generic.generic_misfit_counterexample",
    "Verif.Generic.generic_leaf_counterexample"
   ],
   "note": "Conditions are functions of the types of their placeholders that can always be evaluated. generic_misfit_counterexample: an overload that does not accept the number of inputs keeps the operator undecided. generic_leaf_counterexample: conditions that read the leaf input_qtype_sequence are not monotone."
  },
  {
   "property": "C95",
   "status": "partial",
   "theorems": [
    "Verif.Curve.eval_control_partial",
    "Verif.Curve.eval_total_partial",
    "Verif.Curve.eval_between_partial",
    "Verif.Curve.eval_outside",
    "Verif.Curve.eval_monotone_partial",
    "Verif.Curve.eval_extension_partial",
    "Verif.Curve.build_front_sign",
    "Verif.Curve.build_back_sign",
    "Verif.Curve.build_finite",
    "Verif.Curve.build_increasing",
    "Verif.Curve.segments_sorted",
    "Verif.Curve.identity_increasing",
    "Verif.Curve.log_increasing",
    "Verif.Curve.log1p_increasing",
    "Verif.Curve.symlog1p_increasing",
    "Verif.Curve.redundant_inf_counterexample",
    "Verif.Curve.nan_counterexample"
   ],
   "note": "Exact arithmetic over an ordered field; missing: rounding and overflow of double and float. Logarithms are those of the real numbers. eval_extension_partial is for an infinite first point, not for the mirrored last one."
  },
  {
   "property": "C96",
   "status": "proved",
   "theorems": [
    "Verif.Curve.parse_iff",
    "Verif.Curve.parse_toString",
    "Verif.Curve.findSeparatorUsed_iff"
   ],
   "note": "absl::SimpleAtod and DoubleToStringConverter are parameters; parse_toString assumes of the coordinates at hand that their texts are read back."
  },
  {
   "property": "C97",
   "status": "proved",
   "theorems": [
    "Verif.Arena.arena_buffers",
    "Verif.Arena.arena_disjoint",
    "Verif.Arena.arena_reset_reuses",
    "Verif.Arena.heap_buffers"
   ],
   "note": "Addresses are natural numbers: sizes for which an address plus a size exceeds 64 bits are not modelled."
  },
  {
   "property": "C98",
   "status": "proved",
   "theorems": [
    "Verif.Io.bind_iff",
    "Verif.Io.chain_spec",
    "Verif.Io.filter_spec",
    "Verif.Io.accessors_spec",
    "Verif.Io.delegating_spec",
    "Verif.Io.dynamic_spec",
    "Verif.Io.wildcard_spec",
    "Verif.Io.callback_spec"
   ],
   "note": "The order of hash maps and std::sort are arbitrary permutations. What a frame holds after an error is not stated; a callback is called exactly once."
  },
  {
   "property": "C99",
   "status": "partial",
   "theorems": [
    "Verif.Io.name_to_key_partial",
    "Verif.Io.width_counterexample",
    "Verif.Io.precision_counterexample"
   ],
   "note": "Holds for formats with a plain %s in which the marker text does not occur before it; false for a format with a width or a precision."
  },
  {
   "property": "C100",
   "status": "partial",
   "theorems": [
    "Verif.Io.listener_bind_iff",
    "Verif.Io.chain_listener_iff",
    "Verif.Io.chain_listener_partial",
    "Verif.Io.accessors_listener_spec",
    "Verif.Io.delegating_listener_spec",
    "Verif.Io.chain_listener_counterexample"
   ],
   "note": "A chain keeps the contract when its listeners agree about the types of the names they share; otherwise it promises a type it cannot be bound with."
  },
  {
   "property": "C101",
   "status": "partial",
   "theorems": [
    "Verif.Io.typed_refs_spec",
    "Verif.Io.span_spec",
    "Verif.Io.tuple_spec",
    "Verif.Io.struct_load",
    "Verif.Io.struct_listen",
    "Verif.Io.tuple_duplicate_counterexample",
    "Verif.Io.typed_refs_duplicate_counterexample"
   ],
   "note": "Assumes different names; with a repeated name of different types a tuple loader writes to a slot of another type. Struct fields are bytes: a value of a type that is not copied by size is its representation (reference counts are not modelled)."
  },
  {
   "property": "C102",
   "status": "partial",
   "theorems": [
    "Verif.Circular.decay_spec",
    "Verif.Circular.guard_restores",
    "Verif.Circular.guard_terminates",
    "Verif.Circular.guard_sound_partial",
    "Verif.Circular.guard_counterexample"
   ],
   "note": "GetSignature and GetDoc share their tokens: below depth 24, GetDoc that asks for the signature of the same operator is reported as circular. The registry is assumed not to change during a call."
  },
  {
   "property": "C103",
   "status": "proved",
   "theorems": [
    "Verif.Where.extract_spec",
    "Verif.Where.extract_value",
    "Verif.Where.extract_body",
    "Verif.Where.global_value"
   ],
   "note": "Compilation of the branches is a parameter; that a packed operator chooses between the compiled branches is C44. Expressions without placeholders."
  },
  {
   "property": "C104",
   "status": "partial",
   "theorems": [
    "Verif.Where.branch_takes_exactly_partial",
    "Verif.Where.only_in_where",
    "Verif.Where.merge_counterexample"
   ],
   "note": "Assumes that different nodes stay different. If a where node with leaves as branches becomes equal to another core.where node, that node is computed outside and again in a branch."
  },
  {
   "property": "C105",
   "status": "partial",
   "theorems": [
    "Verif.Rules.presence_keeps",
    "Verif.Rules.presence_types_partial",
    "Verif.Rules.and_or_type_counterexample",
    "Verif.Rules.and_to_and_or_typed"
   ],
   "note": "Values: all rules. Types: three rules can change the type (reported by the optimizer as an internal error). One scalar type stands for all types but Unit and bool; casts between scalar types are not modelled."
  },
  {
   "property": "C106",
   "status": "partial",
   "theorems": [
    "Verif.Rules.bool_keeps",
    "Verif.Rules.not_less_keeps_iff",
    "Verif.Rules.not_less_counterexample",
    "Verif.Rules.bool_typed"
   ],
   "note": "The rules for negated less and less_equal keep values iff any two values are comparable: false with NaN."
  },
  {
   "property": "C107",
   "status": "proved",
   "theorems": [
    "Verif.Rules.balance_keeps",
    "Verif.Rules.balance_mul_keeps_iff",
    "Verif.Rules.reduce_keeps_iff",
    "Verif.Rules.arithmetic_keeps_iff",
    "Verif.Rules.short_circuit_keeps",
    "Verif.Rules.other_typed"
   ],
   "note": "The laws are equivalences; floating point itself is not modelled. The rule of short_circuit_where.cc for core.const_with_shape is in C167."
  },
  {
   "property": "C108",
   "status": "proved",
   "theorems": [
    "Verif.Rules.optimize_keeps",
    "Verif.Rules.optimize_keeps_int",
    "Verif.Rules.int_laws",
    "Verif.Rules.all_rules_complete"
   ],
   "note": "If the original expression fails, nothing is said. Rules of const_with_shape.cc are in C167."
  },
  {
   "property": "C109",
   "status": "proved",
   "theorems": [
    "Verif.Codec.dense_round_trip",
    "Verif.Codec.dense_message_iff",
    "Verif.Codec.unit_round_trip",
    "Verif.Codec.strings_round_trip"
   ],
   "note": "The wire format of protobuf is not modelled. The encoder overflows for sizes over 2^63-33, which no array in memory has."
  },
  {
   "property": "C110",
   "status": "partial",
   "theorems": [
    "Verif.Codec.decode_dense_exact_partial",
    "Verif.Codec.decode_unit_exact_partial",
    "Verif.Codec.decode_strings_exact_partial",
    "Verif.Codec.header_overflow_counterexample"
   ],
   "note": "Missing: a size over 2^63-33 together with a non-empty bitmap, where the decoder overflows (undefined behaviour)."
  },
  {
   "property": "C111",
   "status": "partial",
   "theorems": [
    "Verif.Codec.array_round_trip",
    "Verif.Codec.decode_array_exact",
    "Verif.Codec.array_fingerprint_kept_partial",
    "Verif.Codec.array_fingerprint_counterexample",
    "Verif.Codec.empty_array_fingerprint_counterexample"
   ],
   "note": "The fingerprint of a slice with an id offset, and of an empty array with a value for missing ids, is not kept."
  },
  {
   "property": "C112",
   "status": "proved",
   "theorems": [
    "Verif.Codec.dense_edge_round_trip",
    "Verif.Codec.array_edge_round_trip",
    "Verif.Codec.decode_dense_edge_exact",
    "Verif.Codec.decode_array_edge_exact",
    "Verif.Codec.array_edge_accepts",
    "Verif.Codec.count_exact"
   ],
   "note": "Values as in C109 and C111."
  },
  {
   "property": "C113",
   "status": "partial",
   "theorems": [
    "Verif.ArrEdge.dense_edge_and_back",
    "Verif.ArrEdge.to_mapping_same",
    "Verif.ArrEdge.to_split_points_same",
    "Verif.ArrEdge.compose_edges_composes",
    "Verif.ArrEdge.compose_no_edges",
    "Verif.ArrEdge.is_equivalent_iff_partial",
    "Verif.ArrEdge.is_equivalent_counterexample",
    "Verif.ArrEdge.split_size_counts",
    "Verif.ArrEdge.from_uniform_groups_accepts"
   ],
   "note": "IsEquivalentTo is false for two mappings without children whose arrays have different missing_id_value."
  },
  {
   "property": "C114",
   "status": "partial",
   "theorems": [
    "Verif.FModel.model_value_partial",
    "Verif.FModel.no_submodels_value",
    "Verif.FModel.bag_counts",
    "Verif.FModel.shared_ids_counterexample",
    "Verif.FModel.count_before_lowering_counterexample",
    "Verif.FModel.ignored_submodel_counterexample",
    "Verif.FModel.truncation_overflow_counterexample"
   ],
   "note": "Exact arithmetic in place of floats; every submodel has to occur in the lowered expression; for plain sums lowering must keep the number of occurrences and submodel ids must be distinct (counterexamples); truncation step below 2^31 (counterexample)."
  },
  {
   "property": "C115",
   "status": "partial",
   "theorems": [
    "Verif.FModel.partial_eval_value",
    "Verif.FModel.partial_ranges_add",
    "Verif.FModel.partial_all_steps",
    "Verif.FModel.partial_unbounded_counterexample"
   ],
   "note": "A range without upper bound is accepted although the model is truncated (counterexample). Exact arithmetic in place of floats."
  },
  {
   "property": "C116",
   "status": "partial",
   "theorems": [
    "Verif.FCodec.forest_round_trip",
    "Verif.FCodec.forest_encoding_injective",
    "Verif.FCodec.forest_encoding_fails_iff",
    "Verif.FCodec.decoded_forest_safe",
    "Verif.FCodec.decoding_defined_partial",
    "Verif.FCodec.decoding_exact_partial",
    "Verif.FCodec.absent_child_counterexample",
    "Verif.FCodec.negative_id_counterexample",
    "Verif.FCodec.max_step_counterexample",
    "Verif.FCodec.large_tree_counterexample"
   ],
   "note": "Exact acceptance fails for absent or negative node ids (accepted with another meaning, also as a cycle) and for a step or submodel id INT_MAX (overflow): counterexamples. The wire format of protobuf is not modelled."
  },
  {
   "property": "C117",
   "status": "proved",
   "theorems": [
    "Verif.FCodec.model_round_trip",
    "Verif.FCodec.model_encoding_exact",
    "Verif.FCodec.model_decoding_exact",
    "Verif.FCodec.same_model_unique"
   ],
   "note": "Up to the call of ForestModel::Create (C114); nested values and expressions are encoded by other codecs."
  },
  {
   "property": "C118",
   "status": "proved",
   "theorems": [
    "Verif.EdgeOps.from_sizes_builds",
    "Verif.EdgeOps.sizes_counts",
    "Verif.EdgeOps.sizes_of_from_sizes",
    "Verif.EdgeOps.from_sizes_of_sizes"
   ],
   "note": "Child spaces of at most 2^63-1 rows."
  },
  {
   "property": "C119",
   "status": "partial",
   "theorems": [
    "Verif.EdgeOps.pairs_are_pairs",
    "Verif.EdgeOps.pair_edges_partial",
    "Verif.EdgeOps.pair_missing_size",
    "Verif.EdgeOps.pair_left_counterexample",
    "Verif.EdgeOps.pair_sum_counterexample",
    "Verif.EdgeOps.pair_right_counterexample"
   ],
   "note": "Negative sizes make pair_left write outside of its buffer and pair_right return uninitialised memory; the plain sum of the sizes can overflow (counterexamples)."
  },
  {
   "property": "C120",
   "status": "proved",
   "theorems": [
    "Verif.EdgeOps.expand_values",
    "Verif.EdgeOps.expand_scalar_values"
   ],
   "note": ""
  },
  {
   "property": "C121",
   "status": "partial",
   "theorems": [
    "Verif.EdgeOps.resize_child_side_partial",
    "Verif.EdgeOps.resize_child_side_negative",
    "Verif.EdgeOps.resize_child_side_sizes_partial",
    "Verif.EdgeOps.resize_child_side_errors",
    "Verif.EdgeOps.resize_child_side_scalar",
    "Verif.EdgeOps.resize_child_side_counterexample",
    "Verif.EdgeOps.resize_child_side_overflow_counterexample"
   ],
   "note": "A negative size beside larger ones makes the operator write outside of its buffer; the total size can overflow (counterexamples)."
  },
  {
   "property": "C122",
   "status": "partial",
   "theorems": [
    "Verif.EdgeOps.resize_parent_side_partial",
    "Verif.EdgeOps.resize_parent_side_errors",
    "Verif.EdgeOps.resize_parent_side_counterexample",
    "Verif.EdgeOps.resize_parent_side_sizes"
   ],
   "note": "With one size for all groups the split points can overflow (counterexample)."
  },
  {
   "property": "C123",
   "status": "proved",
   "theorems": [
    "Verif.DOps.at_element",
    "Verif.DOps.at_list",
    "Verif.DOps.at_list_error",
    "Verif.DOps.slice_operator",
    "Verif.DOps.concat_operator",
    "Verif.DOps.concat_slices",
    "Verif.DOps.slices_of_concat"
   ],
   "note": "Value buffers of simple types; the list of indices has no bit offset, as the operator requires."
  },
  {
   "property": "C124",
   "status": "proved",
   "theorems": [
    "Verif.DOps.present_indices_values",
    "Verif.DOps.from_indices_accepts",
    "Verif.DOps.from_indices_elements",
    "Verif.DOps.from_indices_round_trip"
   ],
   "note": ""
  },
  {
   "property": "C125",
   "status": "proved",
   "theorems": [
    "Verif.DOps.unique_general",
    "Verif.DOps.unique_values",
    "Verif.DOps.select_operator",
    "Verif.DOps.select_present"
   ],
   "note": "The hash set is modelled by its comparison."
  },
  {
   "property": "C126",
   "status": "proved",
   "theorems": [
    "Verif.DOps.simple_op_elements",
    "Verif.DOps.factories",
    "Verif.DOps.resize_shape"
   ],
   "note": "The functor is total on the values stored for missing rows, as dense_ops.h requires."
  },
  {
   "property": "C127",
   "status": "proved",
   "theorems": [
    "Verif.FModel.create_accepts"
   ],
   "note": "Submodels removed by lowering are not covered: their number of bags is not checked (C114, ignored_submodel_counterexample)."
  },
  {
   "property": "C128",
   "status": "proved",
   "theorems": [
    "Verif.Naming.parse_accepts",
    "Verif.Naming.parse_total",
    "Verif.Naming.parse_exact",
    "Verif.Naming.round_trip",
    "Verif.Naming.ids_distinct"
   ],
   "note": ""
  },
  {
   "property": "C129",
   "status": "proved",
   "theorems": [
    "Verif.Naming.remove_prefix",
    "Verif.Naming.child_column_size",
    "Verif.Naming.column_parent",
    "Verif.Naming.table_parent"
   ],
   "note": ""
  },
  {
   "property": "C130",
   "status": "proved",
   "theorems": [
    "Verif.Naming.get_policy",
    "Verif.Naming.default_names",
    "Verif.Naming.single_underscore_names",
    "Verif.Naming.double_underscore_names",
    "Verif.Naming.double_underscore_counterexample",
    "Verif.Naming.googlesql_names",
    "Verif.Naming.leaf_only",
    "Verif.Naming.protopath_id_names"
   ],
   "note": "Extension fields are not covered for double_underscore, whose mangling is not injective by design."
  },
  {
   "property": "C131",
   "status": "proved",
   "theorems": [
    "Verif.Lambda.make_accepts"
   ],
   "note": "Of the signature only the names and the variadic parameter are modelled here; see C38 for the rest."
  },
  {
   "property": "C132",
   "status": "proved",
   "theorems": [
    "Verif.Lambda.infer_subst",
    "Verif.Lambda.wrong_count"
   ],
   "note": "The assumptions about operators are the structure Laws."
  },
  {
   "property": "C133",
   "status": "proved",
   "theorems": [
    "Verif.Lambda.lower_subst",
    "Verif.Lambda.lower_node",
    "Verif.Lambda.lower_value",
    "Verif.Lambda.subst_eval"
   ],
   "note": "The debug-mode check is not modelled."
  },
  {
   "property": "C134",
   "status": "partial",
   "theorems": [
    "Verif.While.while_value_partial",
    "Verif.While.reserved_initial_counterexample"
   ],
   "note": "Proved if no name in the initial state and no placeholder begins with `_while_loop_immutable`; false without: a variable of that name in the initial state replaces an extracted expression."
  },
  {
   "property": "C135",
   "status": "partial",
   "theorems": [
    "Verif.While.while_accepts_partial",
    "Verif.While.reserved_variable_counterexample"
   ],
   "note": "Same restriction; a placeholder with a reserved name is accepted without an initial value."
  },
  {
   "property": "C136",
   "status": "partial",
   "theorems": [
    "Verif.Series.moving_average_partial",
    "Verif.Series.moving_average_negative",
    "Verif.Series.moving_average_window_counterexample",
    "Verif.Series.moving_average_zero_counterexample"
   ],
   "note": "Proved for windows of 1 to 2^31-1 values, over rationals (rounding is not modelled); a window of 0 values is undefined behaviour and one of 2^32+1 is taken for 1."
  },
  {
   "property": "C137",
   "status": "proved",
   "theorems": [
    "Verif.Series.ewma_rejects",
    "Verif.Series.ewma_adjusted",
    "Verif.Series.ewma_unadjusted",
    "Verif.Series.ewma_recursion",
    "Verif.Series.ewma_bounds"
   ],
   "note": "Over rationals; rounding, infinities and NaN are not modelled."
  },
  {
   "property": "C138",
   "status": "partial",
   "theorems": [
    "Verif.Seq.seq_range_partial",
    "Verif.Seq.seq_range_zero_step",
    "Verif.Seq.seq_range_alloc",
    "Verif.Seq.seq_range_bounds",
    "Verif.Seq.seq_range_wrap_counterexample",
    "Verif.Seq.seq_range_overflow_counterexample"
   ],
   "note": "Proved if stop + step fits in int64; fails otherwise (counterexamples)."
  },
  {
   "property": "C139",
   "status": "proved",
   "theorems": [
    "Verif.Seq.seq_at",
    "Verif.Seq.seq_slice",
    "Verif.Seq.seq_make",
    "Verif.Seq.seq_repeat",
    "Verif.Seq.seq_zip",
    "Verif.Seq.seq_zip_sizes",
    "Verif.Seq.seq_fingerprint"
   ],
   "note": ""
  },
  {
   "property": "C140",
   "status": "partial",
   "theorems": [
    "Verif.Seq.seq_map",
    "Verif.Seq.seq_map_sizes",
    "Verif.Seq.seq_reduce",
    "Verif.Seq.seq_all_any",
    "Verif.Seq.seq_all_equal_partial",
    "Verif.Seq.seq_all_equal_counterexample"
   ],
   "note": "seq.all_equal of a single missing element returns present (counterexample); for scalars and optionals over types with decidable equality, so not NaN."
  },
  {
   "property": "C141",
   "status": "proved",
   "theorems": [
    "Verif.Dict.dict_make",
    "Verif.Dict.dict_rows",
    "Verif.Dict.dict_keys_rows",
    "Verif.Dict.dict_keys",
    "Verif.Dict.dict_get",
    "Verif.Dict.dict_fingerprint",
    "Verif.Dict.dict_sizes_counterexample",
    "Verif.Dict.dict_missing_key_counterexample"
   ],
   "note": "For single optional keys; arrays of keys are looked up element by element (C123)."
  },
  {
   "property": "C142",
   "status": "partial",
   "theorems": [
    "Verif.Dict.bool_dict_partial",
    "Verif.Dict.bool_dict_counterexample",
    "Verif.Dict.dict_contains_opt"
   ],
   "note": "For dicts with at least as many values as keys; the rule fails otherwise. For a single optional key."
  },
  {
   "property": "C143",
   "status": "proved",
   "theorems": [
    "Verif.Cast.cast_int",
    "Verif.Cast.cast_float",
    "Verif.Cast.cast_not_finite",
    "Verif.Cast.cast_unsigned_counterexample",
    "Verif.Cast.roundNat_nearest",
    "Verif.Cast.roundNat_ties_even"
   ],
   "note": "Casts to floating point types are not modelled."
  },
  {
   "property": "C144",
   "status": "proved",
   "theorems": [
    "Verif.Refs.refcount",
    "Verif.Refs.refcount_progress"
   ],
   "note": "Atomic operations are sequentially consistent in the model; fewer than 2^31 references; a reference is not copied and released at the same time."
  },
  {
   "property": "C145",
   "status": "partial",
   "theorems": [
    "Verif.Refs.event_partial",
    "Verif.Refs.event_return_counterexample"
   ],
   "note": "A call of Notify may return before the event is set (counterexample). absl::Notification is one atomic operation."
  },
  {
   "property": "C146",
   "status": "proved",
   "theorems": [
    "Verif.Objects.get_attr",
    "Verif.Objects.get_attr_none",
    "Verif.Objects.make_object"
   ],
   "note": ""
  },
  {
   "property": "C147",
   "status": "proved",
   "theorems": [
    "Verif.Objects.fingerprint_iff",
    "Verif.Objects.fingerprint_get_attr"
   ],
   "note": "About the tokens that are combined: that a fingerprint and a string with its length cannot be confused as bytes, and that the hash has no collisions, is assumed."
  },
  {
   "property": "C148",
   "status": "proved",
   "theorems": [
    "Verif.Objects.get_object_attr",
    "Verif.Objects.get_object_attr_qtype",
    "Verif.Objects.infer_get_object_attr",
    "Verif.Objects.infer_get_object_attr_literal",
    "Verif.Objects.infer_get_object_attr_qtype"
   ],
   "note": ""
  },
  {
   "property": "C149",
   "status": "proved",
   "theorems": [
    "Verif.Tuple.concat_tuples",
    "Verif.Tuple.slice_tuple",
    "Verif.Tuple.get_nth",
    "Verif.Tuple.zip",
    "Verif.Tuple.zip_empty"
   ],
   "note": ""
  },
  {
   "property": "C150",
   "status": "proved",
   "theorems": [
    "Verif.Tuple.apply_varargs",
    "Verif.Tuple.reduce_tuple",
    "Verif.Tuple.reduce_tuple_empty",
    "Verif.Tuple.map_tuple"
   ],
   "note": ""
  },
  {
   "property": "C151",
   "status": "proved",
   "theorems": [
    "Verif.Tuple.named_make",
    "Verif.Tuple.named_get_field",
    "Verif.Tuple.named_union"
   ],
   "note": ""
  },
  {
   "property": "C152",
   "status": "proved",
   "theorems": [
    "Verif.Casts.get_cast_type",
    "Verif.Casts.get_cast_explicit",
    "Verif.Casts.get_cast_implicit"
   ],
   "note": "The operators core.to_*, core.const_with_shape and core.to_optional are modelled by what they compute; which elements they accept is a parameter."
  },
  {
   "property": "C153",
   "status": "proved",
   "theorems": [
    "Verif.Casts.shape_for_broadcasting",
    "Verif.Casts.build_deps_with_casts",
    "Verif.Casts.casting_transformation",
    "Verif.Casts.found_signature",
    "Verif.Casts.found_signature_casts"
   ],
   "note": "Rests on C50 and C91."
  },
  {
   "property": "C154",
   "status": "proved",
   "theorems": [
    "Verif.Proto.created_for_paths",
    "Verif.Proto.optional_created",
    "Verif.Proto.optional_reads",
    "Verif.Proto.switch_keeps"
   ],
   "note": "The reflection interface of protobuf is modelled as a tree of values; its usage errors are the outcome crash."
  },
  {
   "property": "C155",
   "status": "partial",
   "theorems": [
    "Verif.Proto.array_created",
    "Verif.Proto.array_reads_partial",
    "Verif.Proto.sizes_read_partial",
    "Verif.Proto.shape_created",
    "Verif.Proto.shape_reads_partial",
    "Verif.Proto.nested_crash_counterexample",
    "Verif.Proto.missing_crash_counterexample",
    "Verif.Proto.nested_wrong_counterexample",
    "Verif.Proto.missing_shape_counterexample"
   ],
   "note": "False for two or more intermediate fields (the traversal reads them from the outermost message) and for missing submessages (a null pointer is dereferenced); proved for at most one intermediate field without missing submessages."
  },
  {
   "property": "C156",
   "status": "proved",
   "theorems": [
    "Verif.Proto.parse_element",
    "Verif.Proto.resolve_path",
    "Verif.Proto.loader_path",
    "Verif.Proto.render_parse",
    "Verif.Proto.size_forms"
   ],
   "note": "absl::SimpleAtoi is a parameter that parses at least decimal digits."
  },
  {
   "property": "C157",
   "status": "proved",
   "theorems": [
    "Verif.Casts.cast_infer",
    "Verif.Casts.cast_lower",
    "Verif.Casts.cast_values_infer",
    "Verif.Casts.cast_values_lower"
   ],
   "note": "Assumes that the conversion operators accept all numbers, booleans and unsigned numbers. Rests on C152."
  },
  {
   "property": "C158",
   "status": "proved",
   "theorems": [
    "Verif.Status.with_payload_and_cause",
    "Verif.Status.with_cause",
    "Verif.Status.with_payload",
    "Verif.Status.ok_stays_ok",
    "Verif.Status.with_updated_message",
    "Verif.Status.with_note",
    "Verif.Status.notes_chain",
    "Verif.Status.with_source_location"
   ],
   "note": "absl::Status is modelled from its interface; the token inside the cord is abstracted."
  },
  {
   "property": "C159",
   "status": "proved",
   "theorems": [
    "Verif.Status.check_input_status",
    "Verif.Status.first_error_unique",
    "Verif.Status.caller_calls",
    "Verif.Status.caller_first_error",
    "Verif.Status.lift_vector",
    "Verif.Status.lift_tuple",
    "Verif.Status.lift_map",
    "Verif.Status.lift_pairs"
   ],
   "note": "Up to the source locations that RETURN_IF_ERROR adds. Values of a pack have one type in the model."
  },
  {
   "property": "C160",
   "status": "proved",
   "theorems": [
    "Verif.CoreMap.map_infer_iff",
    "Verif.CoreMap.map_infer_unknown",
    "Verif.CoreMap.moved_same_arguments",
    "Verif.CoreMap.moved_remaining"
   ],
   "note": "Types are scalars, optionals and arrays of numbered elements and others; the inference of the mapper is a parameter."
  },
  {
   "property": "C161",
   "status": "partial",
   "theorems": [
    "Verif.CoreMap.map_rows_partial",
    "Verif.CoreMap.map_sizes",
    "Verif.CoreMap.reused_scalar_counterexample"
   ],
   "note": "Missing: mappers compiled with the permission to overwrite their inputs, with scalar arguments and more than 64 rows; the claim is false there (counterexample). Mappers with arguments that are not optional are not modelled."
  },
  {
   "property": "C162",
   "status": "partial",
   "theorems": [
    "Verif.Derived.verify_iff_partial",
    "Verif.Derived.incompatible_fields_counterexample",
    "Verif.Derived.fields_flag_iff",
    "Verif.Derived.basic_fields_compatible",
    "Verif.Derived.basic_verified_iff",
    "Verif.Derived.decay_idempotent",
    "Verif.Derived.cast_round_trip",
    "Verif.Derived.cast_operator",
    "Verif.Derived.cast_outputs_known"
   ],
   "note": "The compatibility of fields is computed and not tested (derived_qtype.cc:117), so the claim about fields is false in general (counterexample) and holds for types built by BasicDerivedQType."
  },
  {
   "property": "C163",
   "status": "proved",
   "theorems": [
    "Verif.Derived.label_of_labeled",
    "Verif.Derived.label_stable",
    "Verif.Derived.label_injective",
    "Verif.Derived.repr_set"
   ],
   "note": "The locks make the methods atomic; a program is any sequence of calls."
  },
  {
   "property": "C164",
   "status": "proved",
   "theorems": [
    "Verif.ClassInfo.is_subclass_iff",
    "Verif.ClassInfo.name_of_info",
    "Verif.ClassInfo.register_returns",
    "Verif.ClassInfo.conflict_fatal"
   ],
   "note": "The lock makes RegisterClass atomic; parents are registered before their subclasses, as GetClassInfo does."
  },
  {
   "property": "C165",
   "status": "proved",
   "theorems": [
    "Verif.Trace.annotation_stops",
    "Verif.Trace.fresh_recorded",
    "Verif.Trace.traceback_stable",
    "Verif.Trace.names_stable",
    "Verif.Trace.name_inherited",
    "Verif.Trace.error_annotation"
   ],
   "note": "Fingerprints are collision-free; the texts of source locations are opaque."
  },
  {
   "property": "C166",
   "status": "proved",
   "theorems": [
    "Verif.ExprOverload.lookup_first",
    "Verif.ExprOverload.choice_stable",
    "Verif.ExprOverload.rejection_stable",
    "Verif.ExprOverload.lowering_agrees"
   ],
   "note": "Base operators are arbitrary functions; their stability is a hypothesis of the stability of the choice."
  },
  {
   "property": "C167",
   "status": "partial",
   "theorems": [
    "Verif.ConstShape.rules_keep_partial",
    "Verif.ConstShape.unary_names",
    "Verif.ConstShape.binary_names",
    "Verif.ConstShape.empty_shape_counterexample"
   ],
   "note": "Proved when the shape is not empty or no operator fails; for an empty shape and a failing operator the property is false (math.floordiv by 0). Pointwise operators are arbitrary functions of rows that may fail."
  },
  {
   "property": "C168",
   "status": "proved",
   "theorems": [
    "Verif.MultiEdge.groups_independent",
    "Verif.MultiEdge.parent_args"
   ],
   "note": "Iteration over the valid rows of a range is C67; SparseArrayBuilder and DenseArrayBuilder are the writes of one row."
  },
  {
   "property": "C169",
   "status": "partial",
   "theorems": [
    "Verif.Interleave.interleave_partial",
    "Verif.Interleave.interleave_error",
    "Verif.Interleave.large_result_counterexample"
   ],
   "note": "Proved for results with fewer than 2^31 elements; for all larger ones the int counter overflows. Iteration over the rows is C72."
  },
  {
   "property": "C170",
   "status": "proved",
   "theorems": [
    "Verif.BackendOp.infer_spec",
    "Verif.BackendOp.infers_unique",
    "Verif.BackendOp.infer_monotone",
    "Verif.BackendOp.infer_decides",
    "Verif.BackendOp.restricted_spec",
    "Verif.BackendOp.make_iff"
   ],
   "note": "Predicates and the inference expression are functions of the types of their placeholders that can be evaluated for all types."
  },
  {
   "property": "C171",
   "status": "proved",
   "theorems": [
    "Verif.ParamFormat.format_pieces",
    "Verif.ParamFormat.pieces_unique",
    "Verif.ParamFormat.format_unknown",
    "Verif.ParamFormat.spec_value"
   ],
   "note": ""
  },
  {
   "property": "C172",
   "status": "proved",
   "theorems": [
    "Verif.InfixRepr.repr_reads",
    "Verif.InfixRepr.repr_injective",
    "Verif.InfixRepr.reads_unique"
   ],
   "note": "Calls, leaves and placeholders are atoms. Negative literals, slices and source locations are not modelled; neither is the division of the text into tokens."
  },
  {
   "property": "C173",
   "status": "partial",
   "theorems": [
    "Verif.StmtNames.names_unique_partial",
    "Verif.StmtNames.unique_name_kept",
    "Verif.StmtNames.names_counterexample"
   ],
   "note": "Proved if no name annotation is another one with a number; otherwise names can be equal."
  },
  {
   "property": "C174",
   "status": "partial",
   "theorems": [
    "Verif.HigherOrder.inferred_stays",
    "Verif.HigherOrder.seqMap_known",
    "Verif.HigherOrder.seqMap_crash",
    "Verif.HigherOrder.seqReduce_known",
    "Verif.HigherOrder.whileLoop_known",
    "Verif.HigherOrder.whileLoop_crash",
    "Verif.HigherOrder.reduce_sound",
    "Verif.HigherOrder.map_sound",
    "Verif.HigherOrder.loop_sound_partial",
    "Verif.HigherOrder.seqMap_null_counterexample",
    "Verif.HigherOrder.whileLoop_empty_counterexample",
    "Verif.HigherOrder.whileLoop_literal_counterexample"
   ],
   "note": "The conditions for a crash are exact and can occur. The state of a loop is proved to keep its type if the body infers one."
  },
  {
   "property": "C175",
   "status": "partial",
   "theorems": [
    "Verif.LoopSig.makeLoop_iff",
    "Verif.LoopSig.loop_parameters",
    "Verif.LoopSig.fingerprint_shape",
    "Verif.LoopSig.same_fingerprint_partial",
    "Verif.LoopSig.lambda_signature",
    "Verif.LoopSig.fingerprint_counterexample"
   ],
   "note": "Proved without default values; up to default values in general."
  },
  {
   "property": "C176",
   "status": "proved",
   "theorems": [
    "Verif.DebugText.text_bounded",
    "Verif.DebugText.select_spec"
   ],
   "note": "The size is the number of operators, leaves and names of statements, not of characters; operators written in a custom way by registered functions are taken to write each input once."
  },
  {
   "property": "C177",
   "status": "partial",
   "theorems": [
    "Verif.Casts.weak_infer_partial",
    "Verif.Casts.weak_lower_partial",
    "Verif.Casts.weak_sequence_counterexample"
   ],
   "note": "Proved for scalars, optionals and arrays. False for sequences: a sequence of numbers is accepted with the type WEAK_FLOAT and cannot be lowered (counterexample)."
  },
  {
   "property": "C178",
   "status": "partial",
   "theorems": [
    "Verif.Tasks.execute_partial",
    "Verif.Tasks.tasks_once",
    "Verif.Tasks.tasks_complete",
    "Verif.Tasks.tasks_progress",
    "Verif.Tasks.tasks_terminate",
    "Verif.Tasks.threads_partial",
    "Verif.Tasks.no_threads_counterexample",
    "Verif.Tasks.negative_counterexample"
   ],
   "note": "Proved for a positive max_parallelism and less than 2^31 tasks. With max_parallelism 0 the call returns without executing any task, with a negative one it throws (counterexamples). Tasks that throw or do not end, the failure to create a thread and memory orders are not modelled."
  },
  {
   "property": "C179",
   "status": "proved",
   "theorems": [
    "Verif.SideOut.extract_values",
    "Verif.SideOut.extract_fails"
   ],
   "note": "That an operator could reject its inputs without the annotations (MakeOpNode) is not modelled; PrepareSideOutputsForListener is not modelled."
  }
 ]
}