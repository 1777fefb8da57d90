{
 "claims": [
  {
   "property": "C01",
   "status": "partial",
   "theorems": [
    "Verif.Pack.tensor_pack_iterate",
    "Verif.Pack.pack_walk",
    "Verif.Assembly.pack_kernel_iterate_partial",
    "Verif.Assembly.pack_kernel_fill_fails"
   ],
   "note": "proved in full for taco::pack; for the kernel TensorBase::pack generates it holds for the fill value zero and is false for others (pack_kernel_fill_fails)"
  },
  {
   "property": "C02",
   "status": "proved",
   "theorems": [
    "Verif.Pack.pack_well_formed",
    "Verif.Pack.pack_values_fit"
   ],
   "note": ""
  },
  {
   "property": "C03",
   "status": "proved",
   "theorems": [
    "Verif.Pack.tensor_pack_order",
    "Verif.Assembly.pack_kernel_order"
   ],
   "note": "taco::pack and the generated kernel, the latter also with duplicates"
  },
  {
   "property": "C04",
   "status": "proved",
   "theorems": [
    "Verif.Assembly.pack_kernel_sums",
    "Verif.Assembly.pack_scalar_sums",
    "Verif.Pack.pack_duplicates_fails"
   ],
   "note": "proved for the kernel TensorBase::pack runs; the separate taco::pack keeps the first duplicate (pack_duplicates_fails)"
  },
  {
   "property": "C05",
   "status": "proved",
   "theorems": [
    "Verif.Pack.getSize_counts"
   ],
   "note": "dense and compressed levels; getSize rejects singleton levels"
  },
  {
   "property": "C06",
   "status": "partial",
   "theorems": [
    "Verif.Iter.iterator_delivers",
    "Verif.Iter.iterator_counter",
    "Verif.Iter.advance_at",
    "Verif.Iter.post_increment_partial",
    "Verif.Iter.post_increment_fails"
   ],
   "note": "range-for and pre-increment are proved for all lengths and capacities; the coordinates of *it++ at a batch boundary are wrong in the code (post_increment_fails)"
  },
  {
   "property": "C07",
   "status": "proved",
   "theorems": [
    "Verif.Search.gallop_lowerBound",
    "Verif.Search.gallop_empty_segment",
    "Verif.Search.gallop_empty_segment_fails"
   ],
   "note": "non-empty segments with end < 2^30; the empty segment at the end of the array is a proved out-of-bounds read of the code"
  },
  {
   "property": "C08",
   "status": "proved",
   "theorems": [
    "Verif.Search.binarySearchAfter_lowerBound",
    "Verif.Search.binarySearchAfter_sorted",
    "Verif.Search.binarySearchAfter_duplicates_fails",
    "Verif.Search.binarySearchAfter_empty_segment_fails",
    "Verif.Search.binarySearchAfter_overflow_fails"
   ],
   "note": ""
  },
  {
   "property": "C09",
   "status": "proved",
   "theorems": [
    "Verif.Search.binarySearchBefore_owner",
    "Verif.Search.binarySearchBefore_greatest",
    "Verif.Search.binarySearchBefore_not_owner_fails"
   ],
   "note": ""
  },
  {
   "property": "C10",
   "status": "partial",
   "theorems": [
    "Verif.Merge.kernel_elementwise_partial",
    "Verif.Merge.kernel_reduction_partial",
    "Verif.Merge.merge_loops_events_partial",
    "Verif.Merge.kernel_elementwise_fails"
   ],
   "note": "dense and compressed levels, any loop nest; repeated accesses must be consistent: when both operands of an operator are present, an access in both is left in both or in neither (true when none is repeated, and when an access used on both sides is a factor of both, as in a*b + a*c); false for c + a*b + a, shown with a witness"
  },
  {
   "property": "C11",
   "status": "partial",
   "theorems": [
    "Verif.Merge.merge_loops_ordered_partial",
    "Verif.Merge.kernel_visits_once_partial",
    "Verif.Merge.merge_loops_order_fails",
    "Verif.Merge.merge_loops_terminate_fails"
   ],
   "note": "repeated accesses must be consistent: when both operands of an operator are present, an access in both is left in both or in neither (true when none is repeated, and when an access used on both sides is a factor of both, as in a*b + a*c); false for c + a*b + a, shown with a witness: wrong order and non-termination"
  },
  {
   "property": "C12",
   "status": "partial",
   "theorems": [
    "Verif.Merge.lattice_covers_partial",
    "Verif.Merge.lattice_covers_fails"
   ],
   "note": "repeated accesses must be consistent: when both operands of an operator are present, an access in both is left in both or in neither (true when none is repeated, and when an access used on both sides is a factor of both, as in a*b + a*c); false for c + a*b + a, shown with a witness"
  },
  {
   "property": "C13",
   "status": "proved",
   "theorems": [
    "Verif.Provenance.split_covers",
    "Verif.Provenance.split_nonzero_lower_fails"
   ],
   "note": "coordinate loops start at 0 in taco"
  },
  {
   "property": "C14",
   "status": "proved",
   "theorems": [
    "Verif.Provenance.divide_covers"
   ],
   "note": ""
  },
  {
   "property": "C15",
   "status": "proved",
   "theorems": [
    "Verif.Provenance.fuse_covers"
   ],
   "note": ""
  },
  {
   "property": "C16",
   "status": "proved",
   "theorems": [
    "Verif.Provenance.bound_visits",
    "Verif.Provenance.bound_exact_iff",
    "Verif.Provenance.bound_split_covers",
    "Verif.Provenance.bound_split_split_out_of_range_fails"
   ],
   "note": "guard elision after nested splits of a bounded loop is a proved defect"
  },
  {
   "property": "C17",
   "status": "partial",
   "theorems": [
    "Verif.Provenance.schedule_covers_partial",
    "Verif.Provenance.schedule_double_visit_fails",
    "Verif.Provenance.derive_lo_zero"
   ],
   "note": "false in general: re-splitting the inner loop of a split by a non-dividing factor runs iterations twice"
  },
  {
   "property": "C18",
   "status": "partial",
   "theorems": [
    "Verif.Provenance.posSplit_covers",
    "Verif.Fused.fused_split_partial"
   ],
   "note": "position split of one loop, and chunks of a position loop over fused levels; loops over fused positions themselves are C54"
  },
  {
   "property": "C19",
   "status": "partial",
   "theorems": [
    "Verif.Concrete.reorder_structure",
    "Verif.Concrete.forAllReplace_structure",
    "Verif.Concrete.reorder_accepts",
    "Verif.Concrete.reorder2_swaps",
    "Verif.Concrete.reorder_preserves_partial",
    "Verif.Concrete.reorder2_preserves_partial",
    "Verif.Concrete.reorder_broken_fails"
   ],
   "note": "for every statement of loops, assignments and where statements; a statement with an undefined part can be returned without an error (reorder_broken_fails); numbers are from a commutative ring, derived variables are left out"
  },
  {
   "property": "C20",
   "status": "partial",
   "theorems": [
    "Verif.Concrete.precompute_partial",
    "Verif.Concrete.precompute_changes_result_only",
    "Verif.Concrete.precompute_outer_fails",
    "Verif.Concrete.precompute_nonlinear_fails",
    "Verif.Concrete.precompute_unbound_fails",
    "Verif.Concrete.precompute_disjoint_fails",
    "Verif.Concrete.precompute_dropped_fails"
   ],
   "note": "for every nest of loops around one assignment under conditions that are each shown to be needed; statements that already have where statements are not modelled"
  },
  {
   "property": "C21",
   "status": "partial",
   "theorems": [
    "Verif.Concrete.einsum_becomes_reduction",
    "Verif.Concrete.einsum_reduction_partial",
    "Verif.Concrete.two_terms",
    "Verif.Concrete.concrete_computes",
    "Verif.Concrete.concrete_no_reductions",
    "Verif.Concrete.einsum_computes_partial",
    "Verif.Concrete.three_terms_fails",
    "Verif.Concrete.shadowed_fails"
   ],
   "note": "proved for one term and for sums and differences of two terms over any commutative ring; with three terms the variables of the first two are summed together, which is shown to be wrong; the meaning of the concrete statement is proved for every expression in reduction notation without shadowed variables"
  },
  {
   "property": "C22",
   "status": "proved",
   "theorems": [
    "Verif.Merge.zero_rewriter_sound",
    "Verif.Merge.zero_rewriter_drops_iff",
    "Verif.Merge.zero_rewriter_division_fails"
   ],
   "note": "x/0 is treated as zero by the rewriter; that law is an explicit hypothesis"
  },
  {
   "property": "C23",
   "status": "partial",
   "theorems": [
    "Verif.LoopOrder.loop_order_sound",
    "Verif.LoopOrder.loop_order_complete_partial",
    "Verif.LoopOrder.loop_order_storage",
    "Verif.LoopOrder.loop_order_attributes_partial",
    "Verif.LoopOrder.loop_order_repeated_fails",
    "Verif.LoopOrder.loop_order_attributes_fails"
   ],
   "note": "soundness for all inputs; exactness when no tensor level is iterated over by two loops (several accesses to one tensor can be rejected wrongly); also: the order follows the storage of all tensors whenever one order does"
  },
  {
   "property": "C24",
   "status": "partial",
   "theorems": [
    "Verif.Parallel.no_races_partial",
    "Verif.Parallel.no_races_rejects",
    "Verif.Parallel.no_races_accepts",
    "Verif.Parallel.atomics_partial",
    "Verif.Parallel.atomics_outermost",
    "Verif.Parallel.temporary_partial",
    "Verif.Parallel.ignore_races_exclusive",
    "Verif.Parallel.no_races_unused_fails",
    "Verif.Parallel.no_races_reads_result_fails",
    "Verif.Parallel.atomics_inner_loop_fails",
    "Verif.Parallel.temporary_inner_variable_fails",
    "Verif.Parallel.temporary_where_fails"
   ],
   "note": "every interleaving of loads, stores and atomic updates of the iterations; false for a loop variable no access uses, for statements that read their result, for atomics on a reduction inside other loops (the promoted scalar is not updated atomically) and for two uses of temporaries; each loop in parallel is one iteration per thread, levels are dense"
  },
  {
   "property": "C25",
   "status": "partial",
   "theorems": [
    "Verif.IR.simplify_value_partial",
    "Verif.IR.simplify_succeeds_partial",
    "Verif.IR.simplify_mixed_fold_fails",
    "Verif.IR.simplify_mixed_type_fails",
    "Verif.IR.simplify_nan_fails",
    "Verif.IR.simplify_dead_division_fails"
   ],
   "note": "proved for expressions whose operands have the same type and exact floating-point laws; mixed types, NaN and literal division by zero in dead code are shown to break it"
  },
  {
   "property": "C26",
   "status": "partial",
   "theorems": [
    "Verif.IR.simplifyStmt_sound_partial",
    "Verif.IR.simplifyStmt_stale_copy_fails",
    "Verif.IR.simplifyStmt_step_fails",
    "Verif.IR.simplifyStmt_reset_fails",
    "Verif.IR.simplifyStmt_bound_assigned_fails",
    "Verif.IR.simplifyStmt_redeclared_fails",
    "Verif.IR.simplifyStmt_narrowing_copy_fails"
   ],
   "note": "copy propagation, removal of declarations and replacement of loops are proved for well-typed programs in which loops do not change the source of a copy they read, declarations of a variable are equally deep, and removed loops assign each variable once with step one; each condition is shown to be needed by a program that simplification changes"
  },
  {
   "property": "C27",
   "status": "partial",
   "theorems": [
    "Verif.CPrint.printed_expression_partial",
    "Verif.CPrint.printed_loop_condition_partial",
    "Verif.CPrint.printed_assignment_partial",
    "Verif.CPrint.reads_unique",
    "Verif.CPrint.printed_negation_fails",
    "Verif.CPrint.printed_complex_fails"
   ],
   "note": "character-level round trip through a C lexer and parser for every expression without complex literals and without -(-x); both exclusions are shown to be read differently"
  },
  {
   "property": "C28",
   "status": "partial",
   "theorems": [
    "Verif.IndexText.printed_expression_partial",
    "Verif.IndexText.printed_left_nested",
    "Verif.IndexText.printed_assignment_partial",
    "Verif.IndexText.printed_difference_fails",
    "Verif.IndexText.printed_difference_of_sum_fails",
    "Verif.IndexText.printed_quotient_fails",
    "Verif.IndexText.printed_integer_division_fails",
    "Verif.IndexText.printed_exponent_fails",
    "Verif.IndexText.printed_underscore_fails",
    "Verif.IndexText.trailing_text_fails"
   ],
   "note": "character-level round trip; false when a right operand of - or / has the same precedence, for floating-point literals with exponents and for names with underscores"
  },
  {
   "property": "C29",
   "status": "partial",
   "theorems": [
    "Verif.IndexText.lexer_consumes_partial",
    "Verif.IndexText.lexer_complex_fails",
    "Verif.IndexText.lexer_complex_text_fails"
   ],
   "note": "proved for every text without the word complex; with it the lexer can loop forever or swallow text"
  },
  {
   "property": "C30",
   "status": "partial",
   "theorems": [
    "Verif.LoopOrder.dimension_check_partial",
    "Verif.LoopOrder.dimension_check_sized_fails"
   ],
   "note": "proved unless a mode is declared to have the size of the variable that indexes it"
  },
  {
   "property": "C31",
   "status": "proved",
   "theorems": [
    "Verif.LoopOrder.transposition_check"
   ],
   "note": ""
  },
  {
   "property": "C32",
   "status": "partial",
   "theorems": [
    "Verif.Types.promotion_defined",
    "Verif.Types.promotion_idempotent",
    "Verif.Types.promotion_comm",
    "Verif.Types.promotion_assoc",
    "Verif.Types.promotion_least",
    "Verif.Types.promotion_wide_partial",
    "Verif.Types.promotion_wide_fails",
    "Verif.Types.promotion_range_fails",
    "Verif.Types.global_128_swapped_fails",
    "Verif.Types.type_classes",
    "Verif.Types.type_of_bits",
    "Verif.Types.promotion_integers"
   ],
   "note": "order, grouping, idempotence and least upper bound are proved over the whole table; 'at least as wide' is false for a 64-bit integer with a 32-bit float"
  },
  {
   "property": "C33",
   "status": "partial",
   "theorems": [
    "Verif.Names.names_distinct_partial",
    "Verif.Names.names_extend_request",
    "Verif.Names.names_fails",
    "Verif.Names.function_names_partial",
    "Verif.Names.function_names_fails"
   ],
   "note": "false in general ('a','a','a0'); proved for requested names that do not end in a digit"
  },
  {
   "property": "C34",
   "status": "partial",
   "theorems": [
    "Verif.Scoped.scoped_lookup",
    "Verif.Scoped.scoped_contains",
    "Verif.Scoped.scoped_restore",
    "Verif.Scoped.scoped_restore_remove_partial",
    "Verif.Scoped.scoped_restore_remove_fails"
   ],
   "note": "proved for scope/unscope/insert/lookup histories; a remove that reaches an outer scope is not undone by unscope"
  },
  {
   "property": "C35",
   "status": "partial",
   "theorems": [
    "Verif.Refs.handles_partial",
    "Verif.Refs.handles_count_partial",
    "Verif.Refs.handles_self_assign_fails",
    "Verif.Refs.handles_child_assign_fails"
   ],
   "note": "proved for histories without the two unsafe assignments, which are shown to use freed memory"
  },
  {
   "property": "C36",
   "status": "partial",
   "theorems": [
    "Verif.FileIO.tns_round_trip_partial",
    "Verif.FileIO.tns_dimensions_fails",
    "Verif.FileIO.tns_empty_fails",
    "Verif.FileIO.tns_blank_line_fails"
   ],
   "note": "character-level round trip for every non-empty component list whose values are printed exactly; the dimensions are not in the file and an empty tensor is lost"
  },
  {
   "property": "C37",
   "status": "partial",
   "theorems": [
    "Verif.FileIO.mtx_round_trip_partial",
    "Verif.FileIO.mtx_symmetric",
    "Verif.FileIO.mtx_empty_fails"
   ],
   "note": "character-level round trip for every order and non-empty component list; an empty tensor is read as a vector with components"
  },
  {
   "property": "C38",
   "status": "partial",
   "theorems": [
    "Verif.FileIO.dense_read",
    "Verif.FileIO.dense_coord_rank",
    "Verif.FileIO.dense_coord_onto",
    "Verif.FileIO.dense_vector_round_trip",
    "Verif.FileIO.dense_round_trip_fails",
    "Verif.FileIO.dense_symmetric_fails",
    "Verif.FileIO.dense_symmetric_twice_fails"
   ],
   "note": "proved for general array files; symmetric array files are misread, and the writer does not use the reader's order"
  },
  {
   "property": "C39",
   "status": "partial",
   "theorems": [
    "Verif.Lazy.lazy_reads_partial",
    "Verif.Lazy.lazy_reads_states_partial",
    "Verif.Lazy.read_twice_partial",
    "Verif.Lazy.insert_pending_fails",
    "Verif.Lazy.insert_computed_fails",
    "Verif.Lazy.insert_stale_fails",
    "Verif.Lazy.self_assignment_fails",
    "Verif.Lazy.destroyed_pending_fails",
    "Verif.Lazy.destroyed_computed_fails",
    "Verif.Lazy.destroyed_scalar_fails",
    "Verif.Lazy.set_storage_fails",
    "Verif.Lazy.compute_unassembled_fails"
   ],
   "note": "every history of inserts, assignments, explicit stages and reads equals immediate evaluation, except where shown false: inserting into pending or computed tensors, self-reference, destroyed dependents, setStorage, compute without assemble"
  },
  {
   "property": "C40",
   "status": "partial",
   "theorems": [
    "Verif.Kernel.cache_partial",
    "Verif.Kernel.cache_flag_partial",
    "Verif.Kernel.cache_flag_fails",
    "Verif.Kernel.cache_index_fails"
   ],
   "note": "every history of requests; false where isomorphic is unsound, and assembleWhileCompute is not part of the key"
  },
  {
   "property": "C41",
   "status": "partial",
   "theorems": [
    "Verif.Window.window_thread_loop_exact",
    "Verif.Window.window_serial_loop_partial",
    "Verif.Window.window_serial_loop_rounds_down",
    "Verif.Window.window_dense_loop_partial",
    "Verif.Window.window_merge_events_partial",
    "Verif.Window.window_stride_fails",
    "Verif.Window.window_thread_dimension_fails",
    "Verif.Window.window_empty_segment_fails",
    "Verif.Window.window_dense_stride_fails"
   ],
   "note": "single loops, dense levels and merge loops of any expression; serial loops are exact when the stride divides the length of the window and the segment is not empty at the end of the array; otherwise shown to be wrong"
  },
  {
   "property": "C42",
   "status": "proved",
   "theorems": [
    "Verif.Assembly.append_assembly"
   ],
   "note": "dense and compressed levels in any combination, one-pass assembly"
  },
  {
   "property": "C43",
   "status": "proved",
   "theorems": [
    "Verif.Assembly.insert_assembly",
    "Verif.Assembly.insert_assembly_order",
    "Verif.Assembly.insert_assembly_needs_distinct"
   ],
   "note": "dense levels above one compressed level, the shapes SetAssembleStrategy admits without singleton levels below"
  },
  {
   "property": "C44",
   "status": "proved",
   "theorems": [
    "Verif.Assembly.append_growth",
    "Verif.Assembly.store_growth",
    "Verif.Assembly.append_growth_fails",
    "Verif.Assembly.append_growth_jump_fails"
   ],
   "note": ""
  },
  {
   "property": "C45",
   "status": "proved",
   "theorems": [
    "Verif.Algebra.demorgan_preserves",
    "Verif.Algebra.demorgan_normal",
    "Verif.Algebra.demorgan_fixes"
   ],
   "note": ""
  },
  {
   "property": "C46",
   "status": "partial",
   "theorems": [
    "Verif.Intrinsic.zero_preserving_partial",
    "Verif.Intrinsic.intrinsic_skipped_zero_partial",
    "Verif.Intrinsic.intrinsic_vanishes_zero_partial",
    "Verif.Intrinsic.lower_sound_partial",
    "Verif.Intrinsic.zero_preserving_mod_fails",
    "Verif.Intrinsic.zero_preserving_pow_fails",
    "Verif.Intrinsic.zero_preserving_mixed_fails",
    "Verif.Intrinsic.lower_pow_fails"
   ],
   "note": "over the real numbers, with domain errors as a separate outcome; false for remainders by zero, powers with exponents that are not positive and comparisons of mixed types"
  },
  {
   "property": "C47",
   "status": "partial",
   "theorems": [
    "Verif.Algebra.annihilator_sound",
    "Verif.Algebra.annihilator_complete",
    "Verif.Algebra.identity_sound",
    "Verif.Algebra.zero_call_sound_partial",
    "Verif.Algebra.inferred_space_partial",
    "Verif.Algebra.early_exit_partial",
    "Verif.Algebra.identity_repeated_position_fails",
    "Verif.Algebra.zero_call_fill_fails",
    "Verif.Algebra.inferred_space_positional_fails",
    "Verif.Algebra.early_exit_no_reduction_fails",
    "Verif.Algebra.early_exit_position_fails",
    "Verif.Algebra.inferred_fill",
    "Verif.Algebra.inferred_fill_outside_partial",
    "Verif.Algebra.inferred_fill_product_fails",
    "Verif.Algebra.inferred_fill_quotient_fails",
    "Verif.Algebra.inferred_fill_crash_fails"
   ],
   "note": "early exit needs a reduction loop and an annihilator in the first position; the inferred iteration space needs identities without positions; exhausted operands need fill value zero; the fill values of arguments that are expressions are inferred soundly at the tensors' fill values, and outside of the computed region when all factors of products have fill value zero"
  },
  {
   "property": "C48",
   "status": "partial",
   "theorems": [
    "Verif.Kernel.isomorphic_computes_partial",
    "Verif.Kernel.isomorphic_renamed",
    "Verif.Kernel.isomorphic_index_fails",
    "Verif.Kernel.isomorphic_fill_fails"
   ],
   "note": "for every meaning of literals and operators; false for index variables used as values (compared without the renaming) and for tensors with different fill values (not compared); yield, assemble and suchthat statements and user-defined operators are not modelled"
  },
  {
   "property": "C49",
   "status": "proved",
   "theorems": [
    "Verif.Workspace.workspace_round",
    "Verif.Workspace.workspace_round_unsorted",
    "Verif.Workspace.workspace_rounds"
   ],
   "note": "one thread"
  },
  {
   "property": "C50",
   "status": "partial",
   "theorems": [
    "Verif.Schedule.schedule_parsed_partial",
    "Verif.Schedule.var_list_parsed_partial",
    "Verif.Schedule.serialize_injective",
    "Verif.Schedule.schedule_unsigned_fails",
    "Verif.Schedule.schedule_illegal_fails",
    "Verif.Schedule.schedule_complex_fails",
    "Verif.Schedule.schedule_unclosed_brace_fails",
    "Verif.Schedule.schedule_empty_arguments_fails",
    "Verif.Schedule.var_list_accepted_partial"
   ],
   "note": "proved for every list of directives with balanced, non-empty arguments and any white space, over letters, digits and token characters; floating-point numbers are not covered, unsigned numbers, illegal characters and the word complex are shown to be changed"
  },
  {
   "property": "C51",
   "status": "partial",
   "theorems": [
    "Verif.Tensor.transpose_values_partial",
    "Verif.Tensor.transpose_inverse_partial",
    "Verif.Tensor.transpose_fill_fails",
    "Verif.Tensor.transpose_repeated_fails"
   ],
   "note": "every format, ordering and permutation, for fill value zero; other fill values are lost and lists of modes that are not permutations are accepted, as is shown"
  },
  {
   "property": "C52",
   "status": "partial",
   "theorems": [
    "Verif.Tensor.equals_values_partial",
    "Verif.Tensor.equals_finite_partial",
    "Verif.Tensor.equals_exact_partial",
    "Verif.Tensor.equals_ordering_fails",
    "Verif.Tensor.equals_large_fails",
    "Verif.Tensor.equals_symmetric_fails",
    "Verif.Tensor.equals_nan_fails",
    "Verif.Tensor.equals_fill_fails"
   ],
   "note": "tensors with the same mode ordering in any formats with fill value zero; exact for integers below 100000; false for different mode orderings (CSR and CSC), larger integers, values that are not numbers, infinities and other fill values; floating-point division is exact in the model"
  },
  {
   "property": "C53",
   "status": "proved",
   "theorems": [
    "Verif.FileIO.rb_round_trip",
    "Verif.FileIO.rb_block"
   ],
   "note": "whole file: header, index arrays and values"
  },
  {
   "property": "C54",
   "status": "partial",
   "theorems": [
    "Verif.Fused.fused_serial_csr",
    "Verif.Fused.fused_serial_partial",
    "Verif.Fused.fused_chunk_partial",
    "Verif.Fused.fused_split_partial",
    "Verif.Fused.pack_no_empty",
    "Verif.Fused.fused_packed_split",
    "Verif.Fused.fused_first_coordinate_fails",
    "Verif.Fused.fused_first_row_fails",
    "Verif.Fused.fused_chunk_empty_row_fails",
    "Verif.Fused.fused_divide_fails",
    "Verif.Fused.fused_inner_fails"
   ],
   "note": "any number of fused levels, a dense or compressed first one; serial loops over a dense and a compressed level and chunked loops over packed compressed levels are right for every tensor; otherwise false when the first stored coordinate is not zero, when a row of a dense first level is empty above two compressed ones, for chunks after the last position and when an outer level is not fused"
  },
  {
   "property": "C55",
   "status": "partial",
   "theorems": [
    "Verif.Format.format_eq_iff_partial",
    "Verif.Format.format_eq_refl",
    "Verif.Format.format_eq_symm",
    "Verif.Format.format_eq_trans",
    "Verif.Format.format_eq_layout_partial",
    "Verif.Format.format_eq_padding",
    "Verif.Format.format_eq_padded_fails",
    "Verif.Format.format_eq_types_fails",
    "Verif.Format.undefined_mode_refl_fails",
    "Verif.Format.ordering_not_permutation_fails"
   ],
   "note": "an equivalence on every constructible format; equal formats can differ in the padding of singleton levels and in the types of index arrays, as is shown"
  },
  {
   "property": "C56",
   "status": "proved",
   "theorems": [
    "Verif.Assembly.insert_pack_history"
   ],
   "note": "order at least one"
  },
  {
   "property": "C57",
   "status": "partial",
   "theorems": [
    "Verif.Assembly.buffer_safe",
    "Verif.Assembly.buffer_safe_fails"
   ],
   "note": "false for scalars: the byte count is not reset by pack"
  },
  {
   "property": "C58",
   "status": "partial",
   "theorems": [
    "Verif.Workspace.accelerate_level_partial",
    "Verif.Workspace.accelerate_level_fails"
   ],
   "note": "false for mode orderings that are not their own inverse, e.g. (1,2,0)"
  },
  {
   "property": "C59",
   "status": "partial",
   "theorems": [
    "Verif.Concrete.call_correct",
    "Verif.Concrete.arguments_nodup",
    "Verif.Concrete.reorder_params",
    "Verif.Concrete.precompute_params_partial",
    "Verif.Concrete.precompute_params_fails"
   ],
   "note": "proved for reordering and for precomputing the expression that is read first; precomputing a later operand swaps the arguments (precompute_params_fails)"
  },
  {
   "property": "C60",
   "status": "proved",
   "theorems": [
    "Verif.Concrete.scalar_promotion_preserves",
    "Verif.Concrete.scalar_promotion_inside",
    "Verif.Concrete.scalar_promotion_complete",
    "Verif.Concrete.scalar_promotion_old_contents"
   ],
   "note": "over any commutative ring; results start out as zero, as compiled code makes them; derived variables and GPU loops are not modelled"
  },
  {
   "property": "C61",
   "status": "partial",
   "theorems": [
    "Verif.Format.variant_properties_partial",
    "Verif.Format.variant_ignored",
    "Verif.Format.variant_variant",
    "Verif.Format.coo_shape",
    "Verif.Format.isDense_iff",
    "Verif.Format.init_types",
    "Verif.Format.variant_ignored_fails",
    "Verif.Format.variant_alloc_fails"
   ],
   "note": "proved for the properties that a kind of mode format can have configured; others are ignored without an error, and the allocation size is reset, as is shown"
  },
  {
   "property": "C62",
   "status": "partial",
   "theorems": [
    "Verif.Tensor.read_value_partial",
    "Verif.Tensor.remove_zeros_partial",
    "Verif.Tensor.read_fill_fails",
    "Verif.Tensor.remove_fill_fails"
   ],
   "note": "for fill value zero, in every format; false for other fill values"
  },
  {
   "property": "C63",
   "status": "partial",
   "theorems": [
    "Verif.EndToEnd.compute_meaning_partial",
    "Verif.EndToEnd.formats_do_not_matter_partial",
    "Verif.EndToEnd.compute_dense_partial",
    "Verif.EndToEnd.compute_repeated_fails"
   ],
   "note": "composition of the models of packing, loops, assembly and iteration, for all formats of dense and compressed levels and mode orderings that agree with a loop order; summation variables are innermost unless the result is dense; an access used on both sides of an operator must be a factor of both (otherwise false, as is shown); without repeated variables in an access, other level formats and schedules"
  },
  {
   "property": "C64",
   "status": "partial",
   "theorems": [
    "Verif.Gallop.twoFinger_intersection_partial",
    "Verif.Gallop.gallop_intersection_partial",
    "Verif.Gallop.mergeby_preserves_partial",
    "Verif.Gallop.twoFinger_value_partial",
    "Verif.Gallop.gallop_value_partial",
    "Verif.Gallop.gallop_past_end_fails",
    "Verif.Gallop.gallop_window_fails",
    "Verif.Gallop.gallop_duplicates_fails",
    "Verif.Gallop.gallop_duplicates_unique_fails",
    "Verif.Gallop.gallop_duplicates_leaf_fails",
    "Verif.Gallop.window_duplicates_fails",
    "Verif.Gallop.window_chained_fails"
   ],
   "note": "for levels without duplicates and windows whose coordinate array goes on after the segment; the loop reads past the end of the array when the last coordinate is common, misses coordinates or does not terminate for levels with duplicates and windows, all of which mergeby accepts; loops over derived variables and index sets are not modelled"
  },
  {
   "property": "C65",
   "status": "partial",
   "theorems": [
    "Verif.IndexSet.packed_set",
    "Verif.IndexSet.packed_increasing",
    "Verif.IndexSet.dense_partial",
    "Verif.IndexSet.product_sorted",
    "Verif.IndexSet.product_partial",
    "Verif.IndexSet.dense_order_fails",
    "Verif.IndexSet.dense_repeated_fails",
    "Verif.IndexSet.dense_outside_fails",
    "Verif.IndexSet.sparse_order_fails"
   ],
   "note": "increasing lists of indices, for dense modes and for products of compressed modes; other lists are read in sorted order, repeated indices make a dense loop read past the packed set and shift the components of compressed modes, indices outside of a dense mode are not rejected; unions, windows and duplicates with index sets are not modelled"
  },
  {
   "property": "C66",
   "status": "partial",
   "theorems": [
    "Verif.Coo.duplicates_loop_partial",
    "Verif.Coo.duplicates_elementwise_partial",
    "Verif.Coo.duplicates_reduction_partial",
    "Verif.Coo.duplicates_visited_once_partial",
    "Verif.Coo.coordinate_format_elementwise_partial",
    "Verif.Coo.coordinate_format_reduction_partial",
    "Verif.Coo.dense_below_duplicates_fails",
    "Verif.Coo.full_merger_duplicates_fails"
   ],
   "note": "any loop nest over dense, compressed and singleton levels, unique or not, with ordered coordinates; repeated accesses as in C10; false for a dense level below one that is not unique, and next to a full level that is iterated by position; unordered levels, windows and galloping (C64) with duplicates are not covered"
  },
  {
   "property": "C67",
   "status": "partial",
   "theorems": [
    "Verif.Omit.operator_loop_partial",
    "Verif.Omit.union_of_all",
    "Verif.Omit.uncovered_complement_fails",
    "Verif.Omit.uncovered_union_fails",
    "Verif.Omit.uncovered_skip_fails",
    "Verif.Omit.region_not_in_space_fails",
    "Verif.Omit.empty_space_fails",
    "Verif.Omit.explicit_zero_fails",
    "Verif.Omit.special_everywhere_fails",
    "Verif.Omit.special_three_fails"
   ],
   "note": "sparse vectors in one compressed level, any number of operands and any description of the supported class (both sides of every union are reached by each of their operands alone, and an operand that reaches the space alone is in it); outside that class the generated code computes wrong values, skips coordinates or is rejected by an assertion, each shown by a theorem; explicit zeros with complements, special definitions with three operands or evaluated everywhere are false as well; operands of several levels and dense operands are not covered"
  },
  {
   "property": "C68",
   "status": "partial",
   "theorems": [
    "Verif.Init.memory_does_not_matter_partial",
    "Verif.Init.summation_above_dense_level_fails",
    "Verif.Init.order_of_dense_loops_fails",
    "Verif.Init.accumulate_fails"
   ],
   "note": "both ways of assembling, scalar, dense and compressed results, sums promoted to scalars, any formats and loop orders in which the loops down to the last compressed level of the result come first and in storage order and, when assembling while computing, the loop of the dense level below comes next; otherwise values are lost or memory shows through (two _fails theorems). The last part of the statement is false: += does not add to the old values (accumulate_fails)"
  },
  {
   "property": "C69",
   "status": "partial",
   "theorems": [
    "Verif.Reduce.reductions_preserved_partial",
    "Verif.Reduce.no_reduction",
    "Verif.Reduce.other_operators_partial",
    "Verif.Reduce.mixed_operators_fails",
    "Verif.Reduce.innermost_reduction_fails",
    "Verif.Reduce.default_fill_fails",
    "Verif.Reduce.scalar_reduction_fails"
   ],
   "note": "true for one operator if the innermost loop is not a reduction loop, the last level of the result is dense and its fill value is the identity of the operator; otherwise the code starts from the number zero or from the fill value (three _fails theorems), and only the innermost of several operators is kept (mixed_operators_fails)"
  },
  {
   "property": "C70",
   "status": "partial",
   "theorems": [
    "Verif.Query.counted_sizes_partial",
    "Verif.Query.negation_fails",
    "Verif.Query.subtraction_fails",
    "Verif.Query.literal_factor_fails",
    "Verif.Query.factor_in_sum_fails",
    "Verif.Query.negated_operand_fails"
   ],
   "note": "matrices with a dense and a compressed level in either mode ordering, expressions of accesses, sums, products, quotients and square roots; with negations, differences or literals the counts are wrong, each shown by a theorem; builds without assertions"
  },
  {
   "property": "C71",
   "status": "partial",
   "theorems": [
    "Verif.Spmm.insert_temporaries_partial",
    "Verif.Spmm.compute_temporary_partial",
    "Verif.Spmm.spmm_product",
    "Verif.Spmm.windows_are_dropped_fails",
    "Verif.Spmm.index_sets_are_dropped_fails",
    "Verif.Spmm.reductions_become_sums_fails"
   ],
   "note": "the rewriting is shown correct for all statements on whole tensors with sums; it drops windows, strides, index sets and other reduction operators (three _fails theorems). Programs with a temporary: dense and compressed levels, one temporary vector for the last level, one thread, without the case of an accelerated temporary copied to a dense level"
  },
  {
   "property": "C72",
   "status": "partial",
   "theorems": [
    "Verif.Order.index_variables_partial",
    "Verif.Order.index_variables_fails",
    "Verif.Order.index_variable_order",
    "Verif.Order.access_equal",
    "Verif.Order.access_order_partial",
    "Verif.Order.access_order_windows",
    "Verif.Order.access_order_fails",
    "Verif.Order.lookup_partial",
    "Verif.Order.lookup_fails",
    "Verif.Order.iterators_partial",
    "Verif.Order.iterators_fails"
   ],
   "note": "proved for all accesses without index sets, and with index sets under conditions on their order; false in general (three _fails theorems): operator< of index sets and accesses is not an order, generated and given names collide"
  },
  {
   "property": "C73",
   "status": "partial",
   "theorems": [
    "Verif.Strip.split_one_partial",
    "Verif.Strip.split_intersection_partial",
    "Verif.Strip.split_union_partial",
    "Verif.Strip.chained_partial",
    "Verif.Strip.split_union_fails",
    "Verif.Strip.split_union_empty_fails",
    "Verif.Strip.split_overread_fails",
    "Verif.Strip.nested_fails",
    "Verif.Strip.chained_fails",
    "Verif.Strip.reordered_fails"
   ],
   "note": "one and two compressed operands, one split or two with dividing factors, provided there is an entry behind every segment and, for sums, it is not smaller than a coordinate of the other operand; false otherwise: sums visit components twice, the last segment is over-read, factors that do not divide, coordinate matrices and exchanged loops visit components several times or not at all (six _fails theorems); windows, duplicates in the split level and more than two operands are not covered"
  },
  {
   "property": "C74",
   "status": "partial",
   "theorems": [
    "Verif.Einsum.einsum_partial",
    "Verif.Einsum.accepted_partial",
    "Verif.Einsum.scalar_fails",
    "Verif.Einsum.empty_output_fails",
    "Verif.Einsum.letters_fails",
    "Verif.Einsum.missing_input_fails",
    "Verif.Einsum.reversed_arrow_fails",
    "Verif.Einsum.comma_output_fails",
    "Verif.Einsum.dimension_check_fails",
    "Verif.Einsum.repeated_letter_fails"
   ],
   "note": "all well-formed strings give the contraction (einsum_partial) and all accepted strings are well formed (accepted_partial); false for a single scalar operand, an output that consists of an empty ellipsis, more broadcast dimensions than letters, and for strings that begin or end with a dash (the _fails theorems); that the built assignment computes the contraction is C21 and C63, its dimension check C30"
  },
  {
   "property": "C75",
   "status": "partial",
   "theorems": [
    "Verif.Width.positions_iff",
    "Verif.Width.positions_sound",
    "Verif.Width.size_partial",
    "Verif.Width.append_partial",
    "Verif.Width.schedule_partial",
    "Verif.Width.split_iff",
    "Verif.Width.fuse_iff",
    "Verif.Width.size_empty_fails",
    "Verif.Width.size_limit_fails",
    "Verif.Width.append_fails",
    "Verif.Width.fuse_fails",
    "Verif.Width.padding_fails",
    "Verif.Width.split_fails"
   ],
   "note": "exact conditions for dense positions, dense sizes, appended components, single splits and fuses; a sufficient condition for every schedule, under which the 32-bit kernel runs exactly the original iterations; false for sizes of empty tensors, more than 2^30 appended components, and padded iterations of repeated splits (the _fails theorems)"
  },
  {
   "property": "C76",
   "status": "partial",
   "theorems": [
    "Verif.CStmt.printed_statement_partial",
    "Verif.CStmt.text_determines_partial",
    "Verif.CStmt.printed_sequence_partial",
    "Verif.CStmt.reads_unique",
    "Verif.CStmt.dangling_else_fails",
    "Verif.CStmt.empty_branch_fails",
    "Verif.CStmt.atomic_branch_fails",
    "Verif.CStmt.pragma_determined"
   ],
   "note": "for every well-formed statement whose conditionals have a block or one non-atomic statement as first branch, which before an else does not end in a conditional without else; the printer is wrong for the others (the _fails theorems)"
  },
  {
   "property": "C77",
   "status": "partial",
   "theorems": [
    "Verif.Memory.memory_safe_partial",
    "Verif.Memory.arrays_alive_partial",
    "Verif.Memory.user_memory_partial",
    "Verif.Memory.computed_partial",
    "Verif.Memory.handed_on",
    "Verif.Memory.no_leak_partial",
    "Verif.Memory.index_arrays_fails",
    "Verif.Memory.double_free_fails",
    "Verif.Memory.unassembled_fails",
    "Verif.Memory.lost_result_fails",
    "Verif.Memory.assemble_twice_fails",
    "Verif.Memory.given_twice_fails"
   ],
   "note": "for every history in which tensors are computed after they were assembled, with kernels compiled for their assembleWhileCompute, and user memory is given away once; index arrays of results and fill values are never freed (index_arrays_fails)"
  },
  {
   "property": "C78",
   "status": "partial",
   "theorems": [
    "Verif.Typed.sums_and_products_partial",
    "Verif.Typed.int_operand_partial",
    "Verif.Typed.differences_partial",
    "Verif.Typed.unsigned_wraps_partial",
    "Verif.Typed.constants_partial",
    "Verif.Typed.as_index_partial",
    "Verif.Typed.increments_partial",
    "Verif.Typed.comparisons_partial",
    "Verif.Typed.int_comparisons_partial",
    "Verif.Typed.vectors",
    "Verif.Typed.stored_integers",
    "Verif.Typed.vector_equality",
    "Verif.Typed.vector_order",
    "Verif.Typed.vector_order_total",
    "Verif.Typed.reads_inside_partial",
    "Verif.Typed.push_constant_partial",
    "Verif.Typed.push_own_partial",
    "Verif.Typed.difference_fails",
    "Verif.Typed.negation_fails",
    "Verif.Typed.product_fails",
    "Verif.Typed.wide_fails",
    "Verif.Typed.as_index_fails",
    "Verif.Typed.increments_fails",
    "Verif.Typed.int_comparisons_fails",
    "Verif.Typed.nan_fails",
    "Verif.Typed.nan_order_fails",
    "Verif.Typed.reads_inside_fails",
    "Verif.Typed.push_fraction_fails",
    "Verif.Typed.push_large_fails",
    "Verif.Typed.push_own_fails",
    "Verif.Typed.undefined_size_fails"
   ],
   "note": "vectors of every type hold what was put into them; arithmetic and comparisons are exact for integers of at most 64 bits inside the stated ranges; every read of the last element of a vector of a small type reads behind it (reads_inside_fails)"
  },
  {
   "property": "C79",
   "status": "partial",
   "theorems": [
    "Verif.Abi.level_fields",
    "Verif.Abi.new_struct",
    "Verif.Abi.level_arrays",
    "Verif.Abi.prologue_partial",
    "Verif.Abi.epilogue_partial",
    "Verif.Abi.packed_operand",
    "Verif.Abi.unpacked_result",
    "Verif.Abi.call_partial",
    "Verif.Abi.compute_call_partial",
    "Verif.Abi.index_type_fails",
    "Verif.Abi.kernel_singleton_fails",
    "Verif.Abi.same_name_fails",
    "Verif.Abi.tensor_name_fails",
    "Verif.Abi.pointer_name_fails"
   ],
   "note": "every call with 32-bit index arrays and names that can be told apart; other index types are misread (index_type_fails), the kernel API cannot take back results with singleton levels, and tensors or workspaces with equal or derived names collide"
  },
  {
   "property": "C80",
   "status": "partial",
   "theorems": [
    "Verif.Foreign.tns_any_layout_partial",
    "Verif.Foreign.tns_large_rejected",
    "Verif.Foreign.tns_order_rejected",
    "Verif.Foreign.mtx_any_layout_partial",
    "Verif.Foreign.mtx_large_rejected",
    "Verif.Foreign.rb_unpacked_partial",
    "Verif.Foreign.tns_tab_fails",
    "Verif.Foreign.tns_blank_return_fails",
    "Verif.Foreign.tns_empty_line_fails",
    "Verif.Foreign.tns_comment_fails",
    "Verif.Foreign.tns_zero_based_fails",
    "Verif.Foreign.tns_short_line_fails",
    "Verif.Foreign.tns_wrapped_fails",
    "Verif.Foreign.mtx_empty_line_fails",
    "Verif.Foreign.mtx_comment_fails",
    "Verif.Foreign.mtx_outside_fails",
    "Verif.Foreign.mtx_truncated_fails",
    "Verif.Foreign.mtx_surplus_fails",
    "Verif.Foreign.rb_packed_fails",
    "Verif.Foreign.rb_widths_fails"
   ],
   "note": "well-formed .tns and coordinate .mtx files of every layout are read as they say, numbers and orders that do not fit are rejected; tabs in the first line of a .tns file, empty lines and comments inside of files are misread, files that contradict themselves are accepted or read behind arrays, and every .rb file becomes zero once it is packed"
  },
  {
   "property": "C81",
   "status": "partial",
   "theorems": [
    "Verif.Replace.replace_nodes_partial",
    "Verif.Replace.replace_expr_nodes_partial",
    "Verif.Replace.replace_equals_partial",
    "Verif.Replace.replace_nothing",
    "Verif.Replace.rename_indices_partial",
    "Verif.Replace.rename_indices_expr_partial",
    "Verif.Replace.rename_indices_tree_partial",
    "Verif.Replace.replace_tensors_partial",
    "Verif.Replace.replace_tensors_tree_partial",
    "Verif.Replace.replace_cast_fails",
    "Verif.Replace.rename_reduction_fails",
    "Verif.Replace.rename_relation_fails",
    "Verif.Replace.rename_yield_fails",
    "Verif.Replace.rename_structure_fails",
    "Verif.Replace.rename_capture_fails",
    "Verif.Replace.replace_tensor_window_fails",
    "Verif.Replace.replace_result_window_fails",
    "Verif.Replace.replace_assembled_fails"
   ],
   "note": "all expressions and statements, with the places that the code overlooks excluded and each shown by a theorem: casts are not replaced; the variables of reductions, relations and yields are not renamed, and accesses of structure become accesses of values; replaced tensors lose their windows and index sets and are not replaced among assembled results. The iteration algebra of user functions is not modelled"
  },
  {
   "property": "C82",
   "status": "partial",
   "theorems": [
    "Verif.Dims.expression_kept",
    "Verif.Dims.one_size_partial",
    "Verif.Dims.operands_kept",
    "Verif.Dims.conflict_rejected",
    "Verif.Dims.sizes_partial",
    "Verif.Dims.two_tensors_fails",
    "Verif.Dims.variable_size_fails",
    "Verif.Dims.result_size_fails",
    "Verif.Dims.result_ignored_fails",
    "Verif.Dims.accumulate_unchecked_fails",
    "Verif.Dims.order_unchecked_fails"
   ],
   "note": "sizes_partial: all options and assignments in which a tensor without given sizes is indexed with the same variables wherever it occurs and the given sizes agree; conflict_rejected: whatever the options, two sizes for a variable are not accepted. Otherwise the code is wrong: one name can become two tensors, sizes of variables and of the result are overridden without a message, += accepts sizes that differ, and too short sizes are read out of bounds (each shown by a theorem). Windows cannot be written in the notation"
  },
  {
   "property": "C83",
   "status": "partial",
   "theorems": [
    "Verif.Cuda.launch_runs_loop_partial",
    "Verif.Cuda.host_runs_loops_partial",
    "Verif.Cuda.split_guard",
    "Verif.Cuda.rounding_fails",
    "Verif.Cuda.host_filter_fails",
    "Verif.Cuda.kernel_filter_fails",
    "Verif.Cuda.chunks_fails",
    "Verif.Cuda.while_fails",
    "Verif.Cuda.window_end_fails",
    "Verif.Cuda.warp_reduction_fails"
   ],
   "note": "every kernel with one loop for threads, perhaps inside one for warps, with declarations, guards, conditions and loops around it and reductions over threads after it, in which steps divide ranges and skipping an iteration of a loop is skipping to its end. The code is wrong for the others: continue is printed as break or return, which loses components of strided windows, of rows split by position and of merges; breaks of windows leave no loop; reductions over warps are repeated (each shown by a theorem). The order of effects of different threads is not part of the theorem"
  },
  {
   "property": "C84",
   "status": "partial",
   "theorems": [
    "Verif.GpuSearch.gpu_thread_partial",
    "Verif.GpuSearch.gpu_kernel_partial",
    "Verif.GpuSearch.gpu_kernel_csr",
    "Verif.GpuSearch.thread_past_end_fails",
    "Verif.GpuSearch.empty_row_fails",
    "Verif.GpuSearch.last_block_overflow_fails"
   ],
   "note": "matrices in CSR with any rows; other levels if every thread starts at a component, no segment below a compressed level is empty and, with three or more levels, no dense row is. Block ends must fit an int. Outside of these conditions the code is wrong: reads past the coordinates, wrong rows, overflow (each shown by a theorem)"
  },
  {
   "property": "C85",
   "status": "partial",
   "theorems": [
    "Verif.GpuAcc.atomic_add_warp",
    "Verif.GpuAcc.block_adds_partial",
    "Verif.GpuAcc.atomics_any_order",
    "Verif.GpuAcc.launch_adds_partial",
    "Verif.GpuAcc.multiply_partial",
    "Verif.GpuAcc.condition_fails",
    "Verif.GpuAcc.while_fails",
    "Verif.GpuAcc.marked_fails",
    "Verif.GpuAcc.multiply_fails"
   ],
   "note": "additions in kernels whose threads stay together up to the additions shared by a warp (early returns allowed). Additions under conditions that not all threads meet and inside while loops are undefined, and products lose factors (each shown by a theorem). Sums are in a commutative monoid: rounding of floating-point sums is not part of the theorem"
  },
  {
   "property": "C86",
   "status": "partial",
   "theorems": [
    "Verif.Recover.recovery_partial",
    "Verif.Recover.all_variables_partial",
    "Verif.Recover.joined_never_declared",
    "Verif.Recover.joined_fails",
    "Verif.Recover.joined_order_fails"
   ],
   "note": "schedules without precompute relations and without fused position loops that do not fuse pieces of one variable again. For schedules that do, the original variable is never declared: joined_never_declared proves this for every such schedule, joined_fails is an instance"
  },
  {
   "property": "C87",
   "status": "partial",
   "theorems": [
    "Verif.Notation.einsum_iff",
    "Verif.Notation.reduction_iff",
    "Verif.Notation.scheduled_same",
    "Verif.Notation.concrete_unscheduled_partial",
    "Verif.Notation.concrete_scheduled_partial",
    "Verif.Notation.schedule_keeps_partial",
    "Verif.Notation.accepted_declared_partial",
    "Verif.Notation.scheduled_reduction_fails",
    "Verif.Notation.sibling_fails",
    "Verif.Notation.derived_fails",
    "Verif.Notation.yield_fails",
    "Verif.Notation.where_dimensions_fails"
   ],
   "note": "einsum and reduction notation are decided exactly. Concrete notation: exactly for all statements without relations and yield, and for nests of loops with relations (no precompute) over the program's variables. Outside of that the check accepts too much, as the _fails theorems show"
  },
  {
   "property": "C88",
   "status": "partial",
   "theorems": [
    "Verif.Unroll.plain_in_range",
    "Verif.Unroll.unroll_covers",
    "Verif.Unroll.unroll_same_partial",
    "Verif.Unroll.unroll_in_range_partial",
    "Verif.Unroll.unroll_middle_fails",
    "Verif.Unroll.unroll_reordered_fails",
    "Verif.Unroll.unroll_two_variables_fails"
   ],
   "note": "every coordinate is reached by every kernel (unroll_covers); kernels without marks stay inside of the dimensions; kernels with marks are the same as without when at the first marked loop the first open variable has at most one chain of inner pieces and the others are one command deep. Otherwise the copy without checks runs behind the dimension (the _fails theorems). Fused, bounded and position loops are not modelled"
  },
  {
   "property": "C89",
   "status": "partial",
   "theorems": [
    "Verif.Numpy.binary_accepts",
    "Verif.Numpy.binary_spec",
    "Verif.Numpy.unary_spec",
    "Verif.Numpy.sum_accepts",
    "Verif.Numpy.sum_spec",
    "Verif.Numpy.sum_one",
    "Verif.Numpy.sum_all",
    "Verif.Numpy.matmul_accepts",
    "Verif.Numpy.matmul_spec",
    "Verif.Numpy.inner_accepts",
    "Verif.Numpy.inner_spec",
    "Verif.Numpy.inner_number",
    "Verif.Numpy.dot_accepts",
    "Verif.Numpy.dot_spec",
    "Verif.Numpy.dot_vector",
    "Verif.Numpy.outer_accepts",
    "Verif.Numpy.outer_spec",
    "Verif.Numpy.tensordot_accepts",
    "Verif.Numpy.tensordot_partial",
    "Verif.Numpy.tensordot_count",
    "Verif.Numpy.number_partial",
    "Verif.Numpy.broadcast_one_fails",
    "Verif.Numpy.floordiv_fails",
    "Verif.Numpy.sum_tuple_fails",
    "Verif.Numpy.sum_negative_fails",
    "Verif.Numpy.tensordot_repeated_fails",
    "Verif.Numpy.number_fails"
   ],
   "note": "element-wise functions, sums, matmul, inner, dot, outer and tensordot without repeated axes for all shapes; false for modes of size 1, //, tuples of axes and negative axes of sums, repeated axes and large numbers (the _fails theorems); how the index expression is computed is C21 and C63"
  },
  {
   "property": "C90",
   "status": "partial",
   "theorems": [
    "Verif.PyArray.from_array_keeps",
    "Verif.PyArray.to_array_keeps",
    "Verif.PyArray.round_trip",
    "Verif.PyArray.export_partial",
    "Verif.PyArray.export_symmetric_partial",
    "Verif.PyArray.index_accepts",
    "Verif.PyArray.index_partial",
    "Verif.PyArray.array_read",
    "Verif.PyArray.insert_partial",
    "Verif.PyArray.copy_kept",
    "Verif.PyArray.follow_partial",
    "Verif.PyArray.from_csr_partial",
    "Verif.PyArray.export_fails",
    "Verif.PyArray.export_cyclic_fails",
    "Verif.PyArray.negative_index_fails",
    "Verif.PyArray.insert_array_fails",
    "Verif.PyArray.scalar_insert_fails",
    "Verif.PyArray.view_fails",
    "Verif.PyArray.dropped_fails",
    "Verif.PyArray.duplicates_fails"
   ],
   "note": "from_array, to_array and their round trip for all arrays; the buffer for row-major tensors and for orderings that are their own inverse; indices that are not negative; insertions into packed tensors; copies and contiguous arrays that stay alive; SciPy matrices without repeated entries; the _fails theorems show the rest false"
  },
  {
   "property": "C91",
   "status": "partial",
   "theorems": [
    "Verif.Rewrite.kept_is_same",
    "Verif.Rewrite.nothing_to_do",
    "Verif.Rewrite.expr_replaced_partial",
    "Verif.Rewrite.stmt_replaced_partial",
    "Verif.Rewrite.value_kept",
    "Verif.Rewrite.statements_kept",
    "Verif.Rewrite.variable_gone_partial",
    "Verif.Rewrite.workspace_size",
    "Verif.Rewrite.other_size_partial",
    "Verif.Rewrite.workspaces_partial",
    "Verif.Rewrite.operator_fails",
    "Verif.Rewrite.yield_fails",
    "Verif.Rewrite.old_size_fails",
    "Verif.Rewrite.atomic_unit_fails",
    "Verif.Rewrite.minimum_type_fails",
    "Verif.Rewrite.workspace_name_fails"
   ],
   "note": "all trees and passes that keep types; values and statements are kept by all of them, replacements are complete outside of the places that the code overlooks: operands of BinOp (user-defined operators), coordinates of yields, old sizes of reallocations; the parallel unit of atomic updates is lost (the _fails theorems). How the simplifier chooses its replacements is C25 and C26"
  },
  {
   "property": "C92",
   "status": "partial",
   "theorems": [
    "Verif.Directive.directive_decoded",
    "Verif.Directive.precompute_found",
    "Verif.Directive.precompute_decoded",
    "Verif.Directive.decoded_means_partial",
    "Verif.Directive.directives_in_order",
    "Verif.Directive.options_in_order_partial",
    "Verif.Directive.ignored_iff",
    "Verif.Directive.pos_unknown_tensor_fails",
    "Verif.Directive.pos_second_access_fails",
    "Verif.Directive.number_suffix_fails",
    "Verif.Directive.number_sign_fails",
    "Verif.Directive.zero_factor_fails",
    "Verif.Directive.precompute_missing_fails",
    "Verif.Directive.precompute_type_fails"
   ],
   "note": "every directive that means an operation is decoded into it, sequences are applied in order and ask for CUDA code exactly for GPU units; conversely what is decoded was meant, for parameters whose numbers are digits only. False: pos with an unknown tensor has no effect and no message (exactly this case, ignored_iff), a second access of a tensor cannot be named, 4x and -1 count as numbers, factor zero is passed on, precompute of an expression that does not occur passes an undefined expression, workspaces are always double. The transformations themselves are a parameter here (C20-C25 and others)."
  },
  {
   "property": "C93",
   "status": "partial",
   "theorems": [
    "Verif.Options.command_line_partial",
    "Verif.Options.bad_letter_rejected",
    "Verif.Options.bad_type_rejected",
    "Verif.Options.format_accepted",
    "Verif.Options.ordering_fails",
    "Verif.Options.number_fails",
    "Verif.Options.sizes_fails",
    "Verif.Options.missing_fails",
    "Verif.Options.packs_fails",
    "Verif.Options.misspelled_fails",
    "Verif.Options.second_fails",
    "Verif.Options.rest_fails",
    "Verif.Options.schedule_word",
    "Verif.Options.schedule_chunk"
   ],
   "note": "every command line written as the help says, of any length and with any names, is accepted and means what it says; unknown letters and types are reported. Partial because the rest of the statement is false: orderings that are no permutations, sizes with letters, and misspelled options are accepted; numbers that are none and missing parts end the program with an exception or undefined behaviour; a second option for a tensor is ignored"
  },
  {
   "property": "C94",
   "status": "partial",
   "theorems": [
    "Verif.Generate.dense_complete",
    "Verif.Generate.random_complete_partial",
    "Verif.Generate.sparse_matrix",
    "Verif.Generate.sparse3_partial",
    "Verif.Generate.sparse_vector_partial",
    "Verif.Generate.slicing_rows",
    "Verif.Generate.slicing_columns_partial",
    "Verif.Generate.fem_partial",
    "Verif.Generate.generated_inside_partial",
    "Verif.Generate.order_rejected",
    "Verif.Generate.random_fails",
    "Verif.Generate.sparse_vector_fails",
    "Verif.Generate.sparse3_outside_fails",
    "Verif.Generate.sparse3_read_fails",
    "Verif.Generate.slicing_columns_fails",
    "Verif.Generate.fem_columns_fails",
    "Verif.Generate.fem_empty_fails",
    "Verif.Generate.blocked_fails"
   ],
   "note": "dense data for all tensors, sparse matrices and row slices of all sizes, and all kinds for tensors whose dimensions are equal, for every outcome of the shuffles. Partial because the rest is false: random matrices that are not square always have coordinates outside, finite element matrices with fewer columns than rows too, column slices and sparse tensors of order 3 read behind the end of vectors, sparse vectors repeat coordinate 0, and blocked matrices end the program. Values are not modelled"
  },
  {
   "property": "C95",
   "status": "partial",
   "theorems": [
    "Verif.Library.calls_run_compiled_partial",
    "Verif.Library.calls_run_text_partial",
    "Verif.Library.calls_until_compile",
    "Verif.Library.same_name_fails",
    "Verif.Library.text_after_function_fails",
    "Verif.Library.second_text_fails",
    "Verif.Library.unresolved_fails",
    "Verif.Library.compileSource_again_fails",
    "Verif.Library.kernel_text_runs",
    "Verif.Library.kernel_prefix_fails",
    "Verif.Library.same_path_fails",
    "Verif.Library.call_without_code_fails",
    "Verif.Library.rejected_text_stays_fails",
    "Verif.Library.loader_counts"
   ],
   "note": "all histories, for modules with different names: calls run what was compiled, other modules and later additions change nothing, and texts the compiler rejects leave all calls as they were. Partial because the rest is false: a tensor that was compiled or got a text before rejects every further text for ever, a library that cannot be loaded leaves the module without the code it had, texts produced with -prefix can never be loaded, random names are not tested to be new and then run another module's code, and rejected texts stay in getSource. The C compiler and the loader are modelled only by redefinitions, missing functions and use counts"
  },
  {
   "property": "C96",
   "status": "partial",
   "theorems": [
    "Verif.Target.construct_fails",
    "Verif.Target.construct_means_fails",
    "Verif.Target.validate_iff",
    "Verif.Target.means_accepted_partial",
    "Verif.Target.validate_fails",
    "Verif.Target.made_target",
    "Verif.Target.environment_fails",
    "Verif.Target.tokens_meaning",
    "Verif.Target.findChar_first"
   ],
   "note": "proved exactly which texts count as valid, and that all texts of the documented form without x86 behind c99 do. Partial because the rest is false: no text at all constructs a target (with a hyphen the constructor throws out_of_range, without one it is rejected), c99-linux-x86 is not valid and texts that only mention names are, and the environment is never read"
  },
  {
   "property": "C97",
   "status": "partial",
   "theorems": [
    "Verif.Forest.forest_orders_paths_partial",
    "Verif.Forest.unordered_no_forest",
    "Verif.Forest.cycle_behind_root_fails",
    "Verif.Forest.roots_fails",
    "Verif.Forest.unstable_sort_fails",
    "Verif.Forest.diagonal_fails",
    "Verif.Forest.transposed_behind_root_fails"
   ],
   "note": "all sets of accesses that fit some order of loops, for sorts that keep the order of variables of the same level (std::sort need not): the construction ends, levels are the longest walks, every access is along the forest, nothing is above itself. No forest is made of accesses that fit no order. False: such accesses are not reported (an internal assertion fails, or the construction never ends), roots can have parents, and a sort that is free among equal levels gives forests against the accesses"
  },
  {
   "property": "C98",
   "status": "partial",
   "theorems": [
    "Verif.Timing.tenth_removed",
    "Verif.Timing.mean_of_kept",
    "Verif.Timing.order_irrelevant",
    "Verif.Timing.median_partial",
    "Verif.Timing.median_of_fastest_fails",
    "Verif.Timing.median_fails",
    "Verif.Timing.no_measurements_fails",
    "Verif.Timing.repeat_measures_nothing_fails"
   ],
   "note": "mean and standard deviation are those of the kept measurements, for all lists in any order and however the tenth is rounded; the median is right below ten measurements. False: from ten on the median is that of the fastest ones (without the slowest fifth), zero repetitions read outside of a vector, and repeated benchmarks measure the kernel once and then calls that do nothing, so that from ten repetitions on only empty calls are reported. Arithmetic of doubles is exact in the model, times are integers"
  },
  {
   "property": "C99",
   "status": "partial",
   "theorems": [
    "Verif.Paths.path_meant_partial",
    "Verif.Paths.other_user_fails",
    "Verif.Paths.no_home_fails",
    "Verif.Paths.options_disagree_fails",
    "Verif.Paths.tmpdir_where",
    "Verif.Paths.tmpdir_reported",
    "Verif.Paths.tmpdir_empty_fails",
    "Verif.Paths.tmpdir_same",
    "Verif.Paths.files_stay_partial",
    "Verif.Paths.directories_apart_partial",
    "Verif.Paths.exit_removes",
    "Verif.Paths.debug_leaves",
    "Verif.Paths.fork_fails",
    "Verif.Paths.nested_fails",
    "Verif.Paths.output_kept",
    "Verif.Paths.output_names",
    "Verif.Paths.output_default_fails",
    "Verif.Paths.command_words_partial",
    "Verif.Paths.command_blank_fails"
   ],
   "note": "paths that name no other user; all environments with a TMPDIR that is not empty; all histories of processes that do not duplicate themselves and whose temporary directories are not nested; directories without blanks. False: homes of other users, a missing HOME and an empty TMPDIR (undefined), options that write code and times take ~ literally, a duplicate that ends removes the directory of the original, -O without a directory writes to a directory that the program removes, and with blanks in TMPDIR no code can be compiled. Characters that shells treat specially other than blanks are not modelled"
  },
  {
   "property": "C100",
   "status": "partial",
   "theorems": [
    "Verif.Report.goes_on_partial",
    "Verif.Report.first_reported_partial",
    "Verif.Report.release_drops_internal",
    "Verif.Report.internal_goes_on_fails",
    "Verif.Report.warning_fails",
    "Verif.Report.message_throws_fails",
    "Verif.Report.message_evaluated_fails"
   ],
   "note": "all sequences of checks whose conditions and messages can be evaluated; exact for the checks that the build makes. False: builds without assertions (those of README.md) go on behind broken internal checks, warnings throw, a message that throws terminates the process if its check is broken and ends the call if its check holds. What calls do between checks is not modelled"
  },
  {
   "property": "C101",
   "status": "partial",
   "theorems": [
    "Verif.PyHash.equal_same_hash",
    "Verif.PyHash.hash_defined",
    "Verif.PyHash.simple_hash_defined",
    "Verif.PyHash.dictionary_partial",
    "Verif.PyHash.packed_hash_fails"
   ],
   "note": "equal formats have equal hashes without any condition; dictionaries are right for all histories of formats whose hash is defined, which are exactly those with at least as many packs as modes. False: the hash of a format with a pack of several modes reads outside of a vector, since packs are indexed by modes. The dictionary is modelled as a list of entries with hashes; user-defined mode formats are not modelled"
  },
  {
   "property": "C102",
   "status": "partial",
   "theorems": [
    "Verif.PyExport.iteration",
    "Verif.PyExport.to_sp_partial",
    "Verif.PyExport.to_sp_value_partial",
    "Verif.PyExport.to_sp_order",
    "Verif.PyExport.scipy_round_trip_partial",
    "Verif.PyExport.repeated_entries_fails",
    "Verif.PyExport.inserted_iterated",
    "Verif.PyExport.inserted_to_sp"
   ],
   "note": "iteration without any condition; canonical form, entries and values of to_sp_csr and to_sp_csc for all matrices with components at different places, whatever qsort does. False: a SciPy matrix with repeated entries, which SciPy adds, comes back with one of them. The tensor is the list of components that its iterator gives; the new tensor is packed by pack.cpp; components that compare equal to zero are the zero (not so for -0.0 and values of SciPy); the copies of arrays are not modelled. For tensors of dense and compressed levels in any order the statements hold from insertion on"
  }
 ]
}