{"id": "C01", "title": "Pack then iterate returns the inserted components", "statement": "Packing a set of distinct, in-range coordinates with values into any format made of dense and compressed levels, under any mode ordering, and then walking the packed level arrays (the way a tensor's iterator does) yields, for every coordinate, exactly the inserted value, and the fill value for the coordinates that dense levels materialise but the user did not insert.", "quantifier": "every order, every list of dimensions, every dense/compressed level combination, every set of coordinates, every value type", "why_tests_cant": "tests pack a handful of small literal tensors in a few formats; the property ranges over all orders, dimensions, formats and coordinate sets", "anchors": ["src/storage/pack.cpp:packTensor", "src/storage/pack.cpp:pack", "src/tensor.cpp:TensorBase::pack", "include/taco/tensor.h:const_iterator"]}
{"id": "C02", "title": "Packed level arrays are well formed", "statement": "After packing, each compressed level's pos array starts at 0, is non-decreasing, has one entry more than the number of parent positions, ends at the length of crd, and crd is strictly increasing and in range inside every segment; the value array has exactly one slot per last-level position.", "quantifier": "every format of dense and compressed levels, every sorted list of in-range coordinates (duplicates allowed)", "why_tests_cant": "the invariant has to hold for every input tensor; kernels index these arrays without bounds checks, so one violating input is memory corruption", "anchors": ["src/storage/pack.cpp:packTensor", "src/storage/pack.cpp:getUniqueEntries"]}
{"id": "C03", "title": "Insertion order does not matter", "statement": "Two tensors built by inserting the same components in different orders pack to the same level arrays and values.", "quantifier": "every permutation of every list of components with distinct coordinates, every mode ordering", "why_tests_cant": "n! insertion histories", "anchors": ["src/tensor.cpp:TensorBase::pack", "src/tensor.cpp:lexicographicalCmp", "include/taco/tensor.h:insert"]}
{"id": "C04", "title": "Duplicate coordinates are summed on pack", "statement": "When a coordinate is inserted several times, the packed tensor holds one component for it whose value is the sum of the inserted values, and the other components are unaffected.", "quantifier": "every sorted coordinate buffer with arbitrary runs of duplicates", "why_tests_cant": "duplicates may appear anywhere and in any multiplicity", "anchors": ["src/lower/lowerer_impl_imperative.cpp:LowererImplImperative::reduceDuplicateCoordinates", "src/index_notation/index_notation.cpp:generatePackStmt", "src/storage/pack.cpp:packTensor"]}
{"id": "C05", "title": "Storage size equals the number of value slots", "statement": "The component count the index reports (Index::getSize) equals the number of leaf positions that walking the level arrays enumerates, hence the length of the values array.", "quantifier": "every well-formed index over dense and compressed levels (the code rejects others)", "why_tests_cant": "ranges over all index structures", "anchors": ["src/storage/index.cpp:Index::getSize", "src/tensor.cpp:TensorBase::pack"]}
{"id": "C06", "title": "Tensor iterator is independent of its buffering", "statement": "Iterating a tensor delivers every stored component exactly once and in storage order, although the iterator fetches components through a resumable kernel in batches of a fixed buffer size.", "quantifier": "every component list and every buffer capacity >= 1, including lengths that are exact multiples of the capacity", "why_tests_cant": "batch-boundary behaviour depends on the length modulo the capacity; tests use tensors with fewer than 100 components", "anchors": ["include/taco/tensor.h:const_iterator", "src/codegen/codegen.cpp:printYield"]}
{"id": "C07", "title": "Galloping search finds the first element not below the target", "statement": "taco_gallop(array,start,end,target) on a non-empty sorted segment returns the least index in [start,end] whose element is >= target (end when none is), terminates, and reads only indices inside the segment.", "quantifier": "every array, every sorted segment, every start and target", "why_tests_cant": "exponential-then-binary search has off-by-one hazards that depend on length relative to powers of two", "anchors": ["src/codegen/codegen_c.cpp:taco_gallop"]}
{"id": "C08", "title": "Binary search (after) finds a lower bound", "statement": "taco_binarySearchAfter on a non-empty sorted segment returns start when the first element is >= target, otherwise an index whose predecessor is smaller than or equal to the target position as documented: an index r in (start,end] with array[r] = target, or with array[r-1] < target and (r = end or target < array[r]); on strictly increasing segments that is the least index with element >= target.", "quantifier": "every array, every sorted segment, every target", "why_tests_cant": "all lengths and targets", "anchors": ["src/codegen/codegen_c.cpp:taco_binarySearchAfter"]}
{"id": "C09", "title": "Binary search (before) finds the owning segment", "statement": "taco_binarySearchBefore on a pos array returns an index r in [start,end] with array[r] <= target and, unless array[r] = target or r = end, target < array[r+1]; so for a strictly increasing array it is the greatest index with element <= target.", "quantifier": "every array non-decreasing on [start,end] with array[start] <= target", "why_tests_cant": "all lengths and targets", "anchors": ["src/codegen/codegen_c.cpp:taco_binarySearchBefore"]}
{"id": "C10", "title": "Merge loops compute the element-wise expression", "statement": "For an index expression built from additions, subtractions, multiplications and negations of one-dimensional sparse and dense operands, the sequence of while-loops generated from its merge lattice visits coordinates and writes results such that the result at every coordinate of the dimension equals the expression evaluated on the operands' values there (absent = 0).", "quantifier": "every expression tree, every assignment of sparse or full operands, every operand content, every dimension size", "why_tests_cant": "the number of loop/case combinations grows exponentially with the expression; unit tests try a few with small vectors", "anchors": ["src/lower/merge_lattice.cpp:MergeLattice::make", "src/lower/merge_lattice.cpp:intersectLattices", "src/lower/merge_lattice.cpp:unionLattices", "src/lower/lowerer_impl_imperative.cpp:lowerMergeLattice", "src/lower/lowerer_impl_imperative.cpp:lowerMergePoint", "src/lower/lowerer_impl_imperative.cpp:lowerMergeCases"]}
{"id": "C11", "title": "Merge loops visit each coordinate at most once, in order, and terminate", "statement": "The coordinates visited by the generated loops are strictly increasing and the loops terminate after at most as many iterations as there are stored operand coordinates (plus the dimension size when a full iterator takes part).", "quantifier": "every merge lattice over sorted duplicate-free coordinate sequences", "why_tests_cant": "termination and ordering over all inputs", "anchors": ["src/lower/lowerer_impl_imperative.cpp:lowerMergePoint", "src/lower/lowerer_impl_imperative.cpp:codeToIncIteratorVars", "src/lower/lowerer_impl_imperative.cpp:resolveCoordinate"]}
{"id": "C12", "title": "The merge lattice covers every operand combination", "statement": "For each coordinate and set of operands that store it, if the expression can be non-zero there, some lattice point's iterators are all present, and the first such point in the generated case order has the same value on that coordinate as the full expression.", "quantifier": "every expression, every subset of its operands", "why_tests_cant": "2^n operand combinations", "anchors": ["src/lower/merge_lattice.cpp:MergeLattice", "src/lower/merge_lattice.cpp:MergePoint"]}
{"id": "C13", "title": "Split loops cover the original range exactly once", "statement": "Splitting a loop over [0,n) by factor s and recovering the original variable from outer and inner variables, with the generated guard, visits each value of [0,n) exactly once and in increasing order.", "quantifier": "every n >= 0 and s >= 1", "why_tests_cant": "all sizes, including those not divisible by the factor", "anchors": ["src/index_notation/provenance_graph.cpp:SplitRelNode", "src/lower/lowerer_impl_imperative.cpp:lowerForall"]}
{"id": "C14", "title": "Divide loops cover the original range exactly once", "statement": "Dividing a loop over [0,n) into d pieces and recovering the variable, with the generated guards, visits each value of [0,n) exactly once and in increasing order.", "quantifier": "every n >= 0 and d >= 1", "why_tests_cant": "all sizes, including those where pieces are empty", "anchors": ["src/index_notation/provenance_graph.cpp:DivideRelNode", "src/lower/lowerer_impl_imperative.cpp:lowerForall"]}
{"id": "C15", "title": "Fused loops enumerate the product space", "statement": "Fusing two nested loops over [0,m) and [0,n) and recovering both variables from the fused one visits every pair exactly once, in the order of the original nest.", "quantifier": "every m, n >= 0", "why_tests_cant": "all sizes", "anchors": ["src/index_notation/provenance_graph.cpp:FuseRelNode"]}
{"id": "C16", "title": "Bound keeps the loop when the bound is right", "statement": "bound(i, b, MaxExact) leaves the iterated set unchanged exactly when b is the real extent of i; with another b the iterated range is [lo,b).", "quantifier": "every extent and bound", "why_tests_cant": "all integer extents", "anchors": ["src/index_notation/provenance_graph.cpp:BoundRelNode"]}
{"id": "C17", "title": "Chained derivations recover the underived variables", "statement": "Any nesting of split and divide applied to a loop variable still covers the original iteration range exactly once after recovery.", "quantifier": "every finite tree of split/divide derivations with positive factors and every extent", "why_tests_cant": "unbounded schedule trees", "anchors": ["src/index_notation/provenance_graph.cpp:ProvenanceGraph::recoverVariable", "src/index_notation/provenance_graph.cpp:ProvenanceGraph::deriveIterBounds"]}
{"id": "C18", "title": "Position-space split visits each stored component once", "statement": "Looping over positions of a compressed level instead of coordinates visits precisely the stored coordinates; splitting the position loop keeps this.", "quantifier": "every compressed level and factor", "why_tests_cant": "all sparsity patterns", "anchors": ["src/index_notation/provenance_graph.cpp:PosRelNode", "src/lower/lowerer_impl_imperative.cpp:searchForFusedPositionStart"]}
{"id": "C19", "title": "Loop reordering preserves the result", "statement": "Reordering nested foralls of a concrete index statement whose assignment is a plain store to distinct locations or a commutative-associative reduction leaves the computed tensor unchanged.", "quantifier": "every statement in the modelled fragment, every store, every loop extent, every permutation", "why_tests_cant": "all programs and inputs", "anchors": ["src/index_notation/transformations.cpp:Reorder", "src/index_notation/index_notation.cpp:IndexStmt::reorder"]}
{"id": "C20", "title": "Precompute (workspace) preserves the result", "statement": "Hoisting a sub-expression into a temporary computed before its use (where statement) leaves the computed tensor unchanged.", "quantifier": "every expression in the modelled fragment, every chosen subexpression, every input", "why_tests_cant": "all programs and inputs", "anchors": ["src/index_notation/transformations.cpp:Precompute"]}
{"id": "C21", "title": "Einsum expands to the summation a user means", "statement": "An Einstein-notation assignment is rewritten to reduction notation and then to concrete loops that compute, for each free index, the sum over the reduction variables of each top-level term.", "quantifier": "every einsum expression (sums of products), every extent and input", "why_tests_cant": "all expressions", "anchors": ["src/index_notation/index_notation.cpp:makeReductionNotation", "src/index_notation/index_notation.cpp:makeConcreteNotation", "src/index_notation/index_notation.cpp:isEinsumNotation"]}
{"id": "C22", "title": "Removing exhausted operands is sound", "statement": "Rewriting an expression after an operand is known to be exhausted (its values are all zero from here on) yields an expression with the same value, and drops it exactly when it is always zero.", "quantifier": "every expression and every set of exhausted accesses", "why_tests_cant": "all expression trees", "anchors": ["src/index_notation/index_notation.cpp:Zero", "src/lower/lowerer_impl_imperative.cpp:lowerMergeLattice"]}
{"id": "C23", "title": "Automatic loop ordering respects storage orders", "statement": "The automatic loop order is a permutation of the loop variables in which, for each tensor, variables appear in that tensor's level order; the tool rejects the statement exactly when no such order exists.", "quantifier": "every set of variables and level-order constraints", "why_tests_cant": "all constraint graphs", "anchors": ["src/index_notation/transformations.cpp:topologicallySort", "src/index_notation/transformations.cpp:reorderLoopsTopologically", "src/index_notation/transformations.cpp:depsFromVarOrders"]}
{"id": "C24", "title": "Race-free parallel loops are schedule independent", "statement": "A loop accepted for parallelisation without race strategy writes disjoint locations per iteration, so every execution order of iterations produces the serial result; with atomics the reduction result is independent of the interleaving.", "quantifier": "every interleaving of iterations", "why_tests_cant": "schedules cannot be enumerated by tests", "anchors": ["src/index_notation/transformations.cpp:Parallelize", "src/lower/lowerer_impl_imperative.cpp:lowerAssignment"]}
{"id": "C25", "title": "IR expression simplification preserves values", "statement": "Simplifying an IR expression yields an expression that evaluates to the same value in every environment in which the original evaluates.", "quantifier": "every IR expression and environment", "why_tests_cant": "all expression trees", "anchors": ["src/ir/simplify.cpp:ExpressionSimplifier"]}
{"id": "C26", "title": "IR statement simplification preserves effects", "statement": "Copy propagation and redundant-code removal on IR statements leaves the final memory unchanged for every initial memory.", "quantifier": "every statement of the modelled IR fragment and every initial store", "why_tests_cant": "all programs", "anchors": ["src/ir/simplify.cpp:simplify(const Stmt&)"]}
{"id": "C27", "title": "Generated C expressions parse back to the intended tree", "statement": "The text printed for an IR expression, read with the C operator precedence and associativity rules, denotes the same expression tree, so the compiler computes what the IR means.", "quantifier": "every IR expression over the C operators taco prints", "why_tests_cant": "all nesting patterns of operators", "anchors": ["src/ir/ir_printer.cpp:IRPrinter::printBinOp", "src/ir/ir_printer.cpp:IRPrinter::needsParentheses", "include/taco/ir/ir_printer.h:Precedence"]}
{"id": "C28", "title": "Printed index expressions parse back to an equal expression", "statement": "Printing an index expression and parsing the text gives an expression with the same value.", "quantifier": "every index expression built from accesses, literals, negation, + - * /", "why_tests_cant": "all nesting patterns", "anchors": ["src/index_notation/index_notation_printer.cpp:visitBinary", "src/parser/parser.cpp:Parser::parseExpr", "src/parser/parser.cpp:Parser::parseTerm", "src/parser/parser.cpp:Parser::parseFactor"]}
{"id": "C29", "title": "The lexer consumes every input", "statement": "Lexing any string ends after finitely many tokens with the end-of-text token, and the concatenated token texts reproduce the input without its white space.", "quantifier": "every character string", "why_tests_cant": "all strings", "anchors": ["src/parser/lexer.cpp:Lexer::getToken"]}
{"id": "C30", "title": "Dimension checking accepts exactly the consistent expressions", "statement": "An assignment passes the dimension check if and only if every index variable is used with one single dimension across all accesses (after window/index-set adjustment).", "quantifier": "every assignment, any number of accesses and modes", "why_tests_cant": "all expressions", "anchors": ["src/error/error_checks.cpp:dimensionsTypecheck"]}
{"id": "C31", "title": "Transposition check rejects exactly unorderable accesses", "statement": "The transposition check fires if and only if no global loop order is compatible with the level order of every access.", "quantifier": "every assignment", "why_tests_cant": "all constraint graphs", "anchors": ["src/error/error_checks.cpp:containsTranspose", "src/error/error_checks.cpp:hasCycle", "src/error/error_checks.cpp:addEdges"]}
{"id": "C32", "title": "Type promotion is a least upper bound", "statement": "The type taco gives to a binary operation is independent of operand order and grouping, is at least as wide as both operands, and is idempotent.", "quantifier": "every pair and triple of the component types", "why_tests_cant": "requires the full table rather than samples", "anchors": ["src/type.cpp:max_type"]}
{"id": "C33", "title": "Generated names never collide", "statement": "Names handed out by a name generator within one kernel are pairwise distinct and distinct from the reserved words.", "quantifier": "every sequence of requested names", "why_tests_cant": "all request histories", "anchors": ["src/util/name_generator.cpp:NameGenerator::getUniqueName", "src/util/name_generator.cpp:NameGenerator::NameGenerator"]}
{"id": "C34", "title": "Scoped symbol table behaves like lexical scoping", "statement": "A lookup in the scoped map returns the binding of the innermost enclosing scope that binds the key, and closing a scope restores the bindings visible when it was opened.", "quantifier": "every sequence of scope/unscope/insert/lookup operations", "why_tests_cant": "all operation histories", "anchors": ["include/taco/util/scopedmap.h", "include/taco/util/scopedset.h"]}
{"id": "C35", "title": "Shared expression nodes are freed exactly once", "statement": "Under any sequence of handle copies, assignments and destructions, a node is deleted exactly when its last handle goes away, never earlier and never twice.", "quantifier": "every history of handle operations", "why_tests_cant": "all histories, including self-assignment", "anchors": ["include/taco/util/intrusive_ptr.h:IntrusivePtr"]}
{"id": "C36", "title": "TNS files round-trip", "statement": "Writing a tensor in .tns format and reading it back gives the same components.", "quantifier": "every order, every component list", "why_tests_cant": "all tensors", "anchors": ["src/storage/file_io_tns.cpp:readTNS", "src/storage/file_io_tns.cpp:writeTNS"]}
{"id": "C37", "title": "Matrix Market files round-trip", "statement": "Writing a sparse tensor in .mtx coordinate format and reading it back gives the same dimensions and components; reading a symmetric file yields the full symmetric matrix.", "quantifier": "every order, dimensions, component list", "why_tests_cant": "all tensors", "anchors": ["src/storage/file_io_mtx.cpp:readSparse", "src/storage/file_io_mtx.cpp:writeSparse"]}
{"id": "C38", "title": "Dense Matrix Market decoding is a bijection", "statement": "The k-th value of an array-format file is assigned to the coordinate whose column-major rank is k, so every coordinate receives exactly one value.", "quantifier": "every list of positive dimensions", "why_tests_cant": "all dimension lists", "anchors": ["src/storage/file_io_mtx.cpp:readDense", "src/storage/file_io_mtx.cpp:writeDense"]}
{"id": "C39", "title": "Reads observe the latest inserts and assignments", "statement": "For any sequence of inserts, assignments, explicit or implicit compile/assemble/compute/pack calls and reads on a family of tensors, a read returns the value determined by the most recent definition of the tensor and of its operands at the time it was evaluated.", "quantifier": "every history of API calls", "why_tests_cant": "all histories", "anchors": ["src/tensor.cpp:TensorBase::syncValues", "src/tensor.cpp:TensorBase::pack", "src/tensor.cpp:TensorBase::compute", "src/tensor.cpp:TensorBase::operator=", "src/tensor.cpp:TensorBase::addDependentTensor"]}
{"id": "C40", "title": "Kernel cache returns only equivalent kernels", "statement": "When a compile is answered from the kernel cache, the cached kernel computes the requested statement.", "quantifier": "every history of compile requests", "why_tests_cant": "all histories", "anchors": ["src/tensor.cpp:TensorBase::getComputeKernel", "src/tensor.cpp:TensorBase::compile", "src/index_notation/index_notation.cpp:isomorphic"]}
{"id": "C41", "title": "Windowed and strided accesses touch exactly the window", "statement": "Iterating a sparse mode through A(i(lo,hi,stride)) visits exactly the stored coordinates lo, lo+stride, ... below hi and reports them as 0,1,2,...", "quantifier": "every lo <= hi, every stride >= 1, every stored coordinate list", "why_tests_cant": "all window geometry, in particular strides that do not divide the window", "anchors": ["src/lower/lowerer_impl_imperative.cpp:projectWindowedPositionToCanonicalSpace", "src/lower/lowerer_impl_imperative.cpp:strideBoundsGuard", "src/lower/lowerer_impl_imperative.cpp:lowerForallPosition", "src/index_notation/index_notation_nodes.h:AccessWindow"]}
{"id": "C42", "title": "Append assembly builds the right level", "statement": "Driving a compressed level through its append functions (init, append coordinate, append edges, finalize) stores exactly the appended coordinates, in order, under the right parent.", "quantifier": "every sequence of parents with arbitrary coordinate lists, including parents skipped by a sparse parent level", "why_tests_cant": "all histories of appends", "anchors": ["src/lower/mode_format_compressed.cpp:getAppendCoord", "src/lower/mode_format_compressed.cpp:getAppendEdges", "src/lower/mode_format_compressed.cpp:getAppendInitEdges", "src/lower/mode_format_compressed.cpp:getAppendFinalizeLevel"]}
{"id": "C43", "title": "Insert assembly is independent of insertion order", "statement": "Two-phase assembly (count, prefix sum, insert through yield positions, finalize) puts each parent's coordinates into that parent's segment for every order in which the components arrive, and leaves pos as the prefix sum of the counts.", "quantifier": "every arrival order of every component list", "why_tests_cant": "all interleavings of insertions", "anchors": ["src/lower/mode_format_compressed.cpp:getSeqInsertEdge", "src/lower/mode_format_compressed.cpp:getYieldPos", "src/lower/mode_format_compressed.cpp:getInsertCoord", "src/lower/mode_format_compressed.cpp:getFinalizeYieldPos"]}
{"id": "C44", "title": "Array growth never lets a write go out of bounds", "statement": "Guarding each append with the generated capacity check keeps every write inside the allocated array, and never loses previously written elements.", "quantifier": "every append history and every positive initial capacity", "why_tests_cant": "all histories", "anchors": ["src/ir/ir_generators.cpp:doubleSizeIfFull", "src/ir/ir_generators.cpp:atLeastDoubleSizeIfFull"]}
{"id": "C45", "title": "De Morgan normalisation preserves the iteration space", "statement": "Rewriting an iteration-space description so that complements only apply to regions does not change which points belong to it.", "quantifier": "every iteration-algebra expression and every region membership", "why_tests_cant": "all expressions", "anchors": ["src/index_notation/iteration_algebra.cpp:applyDemorgan"]}
{"id": "C46", "title": "Declared zero-preserving arguments are zero-preserving", "statement": "If an intrinsic declares that it maps zeros of some arguments to zero, then it evaluates to zero whenever those arguments are zero, whatever the others are.", "quantifier": "every intrinsic with exact semantics, every argument value", "why_tests_cant": "all values", "anchors": ["src/index_notation/intrinsic.cpp:zeroPreservingArgs"]}
{"id": "C47", "title": "Operator properties justify simplifications", "statement": "Dropping identity operands, short-circuiting on annihilators, and leaving a reduction loop early when the annihilator is reached do not change the result.", "quantifier": "every operand list, every operator for which the declared property holds", "why_tests_cant": "all operand lists", "anchors": ["src/index_notation/properties.cpp:Annihilator::annihilates", "src/index_notation/properties.cpp:Identity::simplify", "src/lower/lowerer_impl_imperative.cpp:emitEarlyExit"]}
{"id": "C48", "title": "Kernel equality up to renaming is sound", "statement": "If two statements are judged isomorphic then, after renaming tensors and index variables, they compute the same results.", "quantifier": "every pair of statements in the modelled fragment", "why_tests_cant": "all pairs of statements", "anchors": ["src/index_notation/index_notation.cpp:Isomorphic"]}
{"id": "C49", "title": "Sparse workspaces track exactly the touched entries", "statement": "Accumulating into a dense temporary with a guard bitmap and an index list, then draining the list, delivers every touched coordinate once with its accumulated value and leaves the guard clear for the next use.", "quantifier": "every sequence of updates", "why_tests_cant": "all access sequences", "anchors": ["src/lower/lowerer_impl_imperative.cpp:lowerForallDenseAcceleration", "src/lower/lowerer_impl_imperative.cpp:lowerAssignment"]}
{"id": "C50", "title": "Schedule strings parse into their items", "statement": "Parsing a scheduling string into nested lists and serialising it back is faithful for items without delimiters.", "quantifier": "every list of schedule items", "why_tests_cant": "all strings", "anchors": ["src/parser/schedule_parser.cpp:ScheduleParser", "src/parser/schedule_parser.cpp:serializeParsedSchedule"]}
{"id": "C51", "title": "Transposing a tensor permutes its coordinates", "statement": "transpose(p) yields a tensor whose component at a permuted coordinate is the original component; transposing by p and its inverse is the identity.", "quantifier": "every permutation and component list", "why_tests_cant": "all orders", "anchors": ["include/taco/tensor.h:Tensor::transpose"]}
{"id": "C52", "title": "Tensor equality", "statement": "equals(a,b) holds exactly when the two tensors have the same dimensions and the same value at every coordinate, independently of their storage formats.", "quantifier": "every pair of tensors", "why_tests_cant": "all pairs", "anchors": ["src/tensor.cpp:equals", "src/tensor.cpp:equalsTyped"]}
{"id": "C53", "title": "Harwell-Boeing index blocks round-trip", "statement": "Index arrays written in lines of 16 entries and read back with the line count stored in the header give the same arrays.", "quantifier": "every index array length", "why_tests_cant": "lengths around multiples of the line width", "anchors": ["src/storage/file_io_rb.cpp:writeIndices", "src/storage/file_io_rb.cpp:readIndices", "src/storage/file_io_rb.cpp:writeFile"]}
{"id": "C54", "title": "Fused position iteration tracks parents", "statement": "When several levels are iterated through positions of the last one, the ancestor positions computed incrementally are the owners of the current position, also across empty parents.", "quantifier": "every pos array", "why_tests_cant": "all sparsity patterns incl. runs of empty rows", "anchors": ["src/lower/lowerer_impl_imperative.cpp:lowerForallFusedPosition", "src/lower/lowerer_impl_imperative.cpp:searchForFusedPositionStart"]}
{"id": "C55", "title": "Format equality is an equivalence that determines layout", "statement": "Two formats comparing equal have the same mode formats and ordering; the relation is reflexive, symmetric and transitive on defined formats.", "quantifier": "every pair of formats", "why_tests_cant": "all pairs", "anchors": ["src/format.cpp:operator==", "src/lower/mode_format_impl.cpp:ModeFormatImpl::equals"]}
{"id": "C56", "title": "Incremental insertion", "statement": "However insertions and packs are interleaved, after a pack the value read at a coordinate is the sum of all values ever inserted there.", "quantifier": "every history of insertions and packs, every format of dense and compressed levels, every mode ordering", "why_tests_cant": "histories are unbounded and packs may fall anywhere", "anchors": ["include/taco/tensor.h:insert", "include/taco/tensor.h:reinsertPackedComponents", "src/tensor.cpp:TensorBase::pack", "include/taco/tensor.h:at"]}
{"id": "C57", "title": "The coordinate buffer is never overrun", "statement": "No history of insertions, reservations and packs writes a component outside the buffer that collects inserted components.", "quantifier": "every history of insertions, reservations and packs, every order and component size", "why_tests_cant": "all histories", "anchors": ["include/taco/tensor.h:insertUnsynced", "src/tensor.cpp:TensorBase::reserve", "src/tensor.cpp:TensorBase::pack"]}
{"id": "C58", "title": "Sparse acceleration looks at the level that stores the workspace's mode", "statement": "Whether a dense workspace is drained through an index list, and whether that list is sorted, is decided from the format of the result level that stores the workspace's mode, so that ordered compressed results are delivered in order.", "quantifier": "every result format and mode ordering", "why_tests_cant": "all mode orderings", "anchors": ["src/lower/lowerer_impl_imperative.cpp:canAccelerateDenseTemp"]}
{"id": "C59", "title": "Kernels get the tensors their parameters stand for", "statement": "A compiled, possibly scheduled kernel is called with every tensor in the place of the parameter that stands for it, so that it computes the assignment of the tensor.", "quantifier": "every assignment and every schedule of it", "why_tests_cant": "all schedules", "anchors": ["src/tensor.cpp:packArguments", "src/index_notation/index_notation.cpp:getArguments", "src/lower/lowerer_impl_imperative.cpp:LowererImplImperative::lower"]}
{"id": "C60", "title": "Accumulating into scalars changes nothing", "statement": "Compiling a statement moves accumulations into one component of a tensor out of the loops that do not change its coordinates, into a scalar. The statement that results computes the same tensors, and no loop is left that writes again and again to one component of a tensor that is not a scalar.", "quantifier": "every concrete statement of loops, assignments and where statements, all dimensions and contents", "why_tests_cant": "all statements, nested where statements and the choice between = and += depend on the whole nest", "anchors": ["src/index_notation/transformations.cpp:scalarPromote", "src/tensor.cpp:compile"]}
{"id": "C61", "title": "Variants of mode formats have the requested properties", "statement": "format(properties) returns a mode format that has the last requested value of every property and is otherwise like the original; asking twice is asking for both lists; COO(n, unique, ordered) is one compressed level above n-1 singleton levels of which exactly the last is unique, when requested.", "quantifier": "every mode format of the library, every list of properties, every order", "why_tests_cant": "all lists of properties and all orders", "anchors": ["src/format.cpp:ModeFormat::operator()", "src/format.cpp:COO", "src/lower/mode_format_singleton.cpp:copy"]}
{"id": "C62", "title": "Reading single components and dropping explicit zeros", "statement": "at(coordinate) returns the component inserted at the coordinate and the fill value where none was inserted, in every format; removeExplicitZeros and removeExplicitFillValues keep the value at every coordinate and leave no component with the removed value in a format of compressed levels.", "quantifier": "every format, mode ordering, component list and coordinate", "why_tests_cant": "a coordinate is found by iterating over storage, which differs per format, ordering and set of components", "anchors": ["include/taco/tensor.h:TensorBase::at", "include/taco/tensor.h:Tensor::removeExplicitZeros", "include/taco/tensor.h:Tensor::removeExplicitFillValues"]}
{"id": "C63", "title": "A program computes the tensor expression it states", "statement": "Insert components into tensors, assign an index expression to a result tensor, compile, assemble and compute, and iterate over the result: no load or store is outside an array, iteration delivers every coordinate at most once in storage order, and the result has at every coordinate the sum over the summation variables of the expression evaluated on the inserted components (duplicates added up), zero where nothing is delivered. The values do not depend on the formats of operands and result.", "quantifier": "every expression, number of operands and order of tensors, every dimension, every list of insertions, every format and mode ordering", "why_tests_cant": "infinitely many expressions, formats and inputs; the parts interact only through memory layouts, so that tests of each part do not settle the composition", "anchors": ["include/taco/tensor.h:insert", "src/tensor.cpp:pack", "src/tensor.cpp:compile", "src/tensor.cpp:assemble", "src/tensor.cpp:compute", "src/lower/lowerer_impl_imperative.cpp:lowerForall"]}
{"id": "C64", "title": "Galloping does not change the result", "statement": "mergeby(i, MergeStrategy::Gallop) on a loop over a product of tensors executes the loop body for the same coordinates, with the same components and in the same order as the default strategy, and terminates without reading outside an array; both visit exactly the coordinates stored by all operands, once each, with all duplicates.", "quantifier": "every product of any number of operands, every coordinate array, with or without duplicates, windows or further segments", "why_tests_cant": "the galloping search skips a data-dependent number of positions; all arrays and all interleavings of coordinates", "anchors": ["src/index_notation/transformations.cpp:SetMergeStrategy::apply", "src/lower/lowerer_impl_imperative.cpp:lowerMergePoint", "src/lower/lowerer_impl_imperative.cpp:codeToIncIteratorVars", "src/lower/lowerer_impl_imperative.cpp:lowerForallBody", "src/codegen/codegen_c.cpp:taco_gallop"]}
{"id": "C65", "title": "An index set reads the chosen components", "statement": "An access A(i({s0, s1, ...})) means the component of A at index sk when the loop variable is k: for a dense mode a(i) = b(i({s0, ...})) yields b(s0), b(s1), ... in the order given; for compressed modes the loop over a product executes its body exactly at those k at which every operand stores its component, in increasing order and with the matching stored values. Indices outside of the mode are rejected.", "quantifier": "all tensors, all lists of indices (any order, repetitions, any integers), products of any number of accesses with and without index sets", "why_tests_cant": "the lists and the sparsity patterns are unbounded, and the loop has one path per interleaving of stored coordinates and indices", "anchors": ["src/tensor.cpp:AccessTensorNode", "src/lower/lowerer_impl_imperative.cpp:lowerMergePoint", "src/lower/lowerer_impl_imperative.cpp:declLocatePosVars", "src/lower/iterator.cpp:createAccessIterators"]}
{"id": "C66", "title": "Operands that list a coordinate several times", "statement": "A statement over operands in coordinate formats (COO), or in other formats with levels that are not unique, computes the tensor expression in which each component of an operand is the sum of all values stored for its coordinates: the statement is executed once per coordinate tuple, in order, no load is outside an array, and the result does not depend on how often components are repeated.", "quantifier": "every expression, number and order of operands, every list of stored components in lexicographic order with any repetitions, every mixture with dense, compressed and singleton levels", "why_tests_cant": "the runs of equal coordinates of different operands interleave in unboundedly many ways, over any number of levels", "anchors": ["src/format.cpp:COO", "src/lower/lowerer_impl_imperative.cpp:reduceDuplicateCoordinates", "src/lower/lowerer_impl_imperative.cpp:lowerMergePoint", "src/lower/lowerer_impl_imperative.cpp:codeToInitializeIteratorVar", "src/lower/mode_format_singleton.cpp:posIterBounds"]}
{"id": "C67", "title": "User-defined operators are evaluated on their iteration space", "statement": "A call of an operator declared with an iteration space (unions, intersections and complements of its operands) is evaluated exactly once, in increasing order, at every coordinate of that space and nowhere else. Its value there is that of the declared function at the values of the operands, zero for an operand that does not store the coordinate, or that of the special definition given for exactly the operands stored there.", "quantifier": "every iteration space description, number of operands, function, special definitions, and all contents of the operands", "why_tests_cant": "descriptions nest without bound and the operands interleave and run out in unboundedly many orders; the generated cases depend on both", "anchors": ["include/taco/index_notation/tensor_operator.h:Func", "src/lower/merge_lattice.cpp:visit(const ComplementNode*)", "src/lower/merge_lattice.cpp:retrieveRegionIteratorsToOmit", "src/lower/lowerer_impl_imperative.cpp:lowerCasesFromMap", "src/lower/lowerer_impl_imperative.cpp:lowerTensorOp", "src/index_notation/index_notation.cpp:Zero::visit(const CallNode*)"]}
{"id": "C68", "title": "Results do not depend on what their memory held before", "statement": "What a program computes is the meaning of its assignment whatever the values array of the result, and every part added to it while it grows, contained before: every value that is added to is set to zero first, exactly once, and every value that is not set is assigned. This holds when the result is assembled while it is computed and when it is assembled before, and a compound assignment adds to the values the result had.", "quantifier": "every assignment of sums and products, formats of operands and result, order of the loops, inserted components, and all contents of memory", "why_tests_cant": "tests run with memory that happens to be zero or holds the result of an earlier run; which initialisation is generated depends on the formats and the order of the loops", "anchors": ["src/lower/lowerer_impl_imperative.cpp:hasSparseInserts", "src/lower/lowerer_impl_imperative.cpp:initResultArrays", "src/lower/lowerer_impl_imperative.cpp:resizeAndInitValues", "src/lower/lowerer_impl_imperative.cpp:initValues", "src/tensor.cpp:TensorBase::evaluate", "include/taco/index_notation/index_notation.h:operator+="]}
{"id": "C69", "title": "Reductions combine all values with their operator, starting from its identity", "statement": "Reduction(op, i, e) is the combination with op of the values of e for all values of i, starting from the identity of op, for every associative and commutative operator; nested reductions keep each its own operator; and the result does not depend on the order of the loops or on the format of the result.", "quantifier": "every operator with its identity, every nesting of reductions, sizes, formats, orders of the loops, inserted components and contents of memory", "why_tests_cant": "the repository tests explicit reductions only with boolean or, whose identity is the number zero", "anchors": ["src/index_notation/index_notation.cpp:makeConcreteNotation", "src/index_notation/transformations.cpp:scalarPromote", "src/lower/lowerer_impl_imperative.cpp:defineScalarVariable", "src/lower/lowerer_impl_imperative.cpp:resizeAndInitValues", "src/lower/lowerer_impl_imperative.cpp:lowerAssignment"]}
{"id": "C70", "title": "The sizes counted before two-phase assembly are those the result needs", "statement": "When a result is assembled by insertion (assemble with AssembleStrategy::Insert), the number of components counted for every row is the number inserted into it: nothing is written outside the arrays, no slot stays unwritten or is written twice, and the result is the value of the expression.", "quantifier": "every expression, operand format, size and contents, every order of the modes of the result, and all summation variables", "why_tests_cant": "the counts come from a second program made by rewriting the first; they must agree for every expression and every sparsity pattern, and the tests use products and sums of accesses", "anchors": ["src/index_notation/transformations.cpp:SetAssembleStrategy", "src/lower/lowerer_impl_imperative.cpp:returnsTrue", "src/lower/lowerer_impl_imperative.cpp:lowerMergeCases", "src/lower/lowerer_impl_imperative.cpp:lowerAssemble", "src/ir/ir_printer.cpp:IRPrinter::visit(const Neg*)"]}
{"id": "C71", "title": "Temporaries that the compiler inserts do not change results", "statement": "Compiling an assignment without a schedule computes the same components whether or not the compiler inserts a temporary into it; in particular the product of two sparse matrices stored by rows has at every coordinate the sum of the products of the inserted components, with every access, window, index set and reduction operator that was written. More generally, a program whose last result level is computed in a temporary, with the summation loops above it, computes its expression.", "quantifier": "every statement, meaning of the operators, format of the operands, loop order of the producer, dimension and inserted components", "why_tests_cant": "the statement is rewritten by a pattern that ignores parts of it; tests of windows and operators use formats for which the pattern does not match; the temporary is reused for an unbounded number of rows", "anchors": ["src/index_notation/transformations.cpp:insertTemporaries", "src/index_notation/transformations.cpp:optimizeSpMM", "src/tensor.cpp:TensorBase::compile", "src/lower/lowerer_impl_imperative.cpp:lowerWhere", "src/lower/lowerer_impl_imperative.cpp:canAccelerateDenseTemp", "src/lower/lowerer_impl_imperative.cpp:lowerForallDenseAcceleration"]}
{"id": "C72", "title": "Index variables and accesses are told apart", "statement": "Index variables made without giving the same name twice are different variables. A statement may access a tensor any number of times, through any windows, strides and index sets: the compiler finds for each access the data it recorded for exactly this access, independently of where objects are placed in memory, and never fails because of the names or the number of accesses.", "quantifier": "every sequence of index variables made by the user, every set of accesses, every order of insertion into the compiler's maps, every placement of objects in memory", "why_tests_cant": "the result depends on heap addresses and on a process-wide counter; tests use one or two accesses of a tensor and names that are not generated", "anchors": ["include/taco/index_notation/index_notation_nodes.h:AccessWindow,IndexSet operator<", "src/index_notation/index_notation.cpp:operator<(Access),IndexVar::IndexVar", "src/lower/mode_access.cpp:operator<", "src/lower/iterator.cpp:operator==,operator<,Iterators::Iterators,createAccessIterators", "src/util/name_generator.cpp:uniqueName"]}
{"id": "C73", "title": "Splitting a loop over compressed operands does not change what it visits", "statement": "After split(i, i0, i1, s), in any order of the two loops and with any further splits, a loop over i visits every coordinate at which the operands store components (one of them for sums, all of them for products) exactly once, with exactly the components stored there, for every format of the operands, and reads only memory that belongs to them.", "quantifier": "every dimension, factor, number of splits, order of the derived loops, operand format and stored components", "why_tests_cant": "the strips interact with the positions of the operands and with whatever lies behind their segments in memory; tests split loops over vectors and products", "anchors": ["src/index_notation/provenance_graph.cpp:SplitRelNode::computeRelativeBound,deriveIterBounds,recoverChild", "src/lower/lowerer_impl_imperative.cpp:lowerMergeLattice,lowerMergePoint,codeToInitializeIteratorVar,codeToIncIteratorVars", "src/lower/merge_lattice.cpp:MergePoint::rangers,mergers"]}
{"id": "C74", "title": "An einsum string computes the contraction it describes, and only well-formed strings are accepted", "statement": "einsum(s, tensors...) accepts exactly the comma separated lists of subscripts, one per operand and with at most one ellipsis each, optionally followed by an arrow and the subscript of the result, whose subscripts fit the orders of the operands. The result has the dimensions of the result labels (without an arrow: the broadcast dimensions and the letters that appear once, in alphabetical order) and is the sum over all other labels of the product of the operands, with the dimensions of ellipses aligned on the right. Everything else is reported as a parse error.", "quantifier": "every string, number of operands, orders, dimensions, placement of spaces and ellipses, and values", "why_tests_cant": "the strings and orders are unbounded, and ellipses are replaced by letters that must not collide with any other; tests contain a few strings", "anchors": ["src/parser/einsum_parser.cpp:EinsumParser,parse,buildResult,exprHasOutput,findUniqueIndices,replaceEllipse,splitSubscriptInput", "src/util/strings.cpp:split", "python_bindings/pytaco/pytensor/taco_tensor.py:einsum"]}
{"id": "C75", "title": "Sizes that fit in 32 bits are computed without overflow", "statement": "Generated kernels number components, coordinates and iterations with 32-bit signed integers. As long as the dimensions, the number of stored components and the number of iterations of a computation are below 2^31, no position, size, capacity, loop bound or recovered index variable of the kernel overflows, whatever schedule is applied, and all have the values they would have with unbounded integers.", "quantifier": "every list of dimensions, coordinate, number of appended components and sequence of splits, divides, fuses and loop exchanges", "why_tests_cant": "overflow needs inputs of billions of components or iterations, which no unit test runs; the sizes and schedules are unbounded", "anchors": ["src/lower/mode_format_dense.cpp:locate,getAssembledSize", "src/ir/ir_generators.cpp:doubleSizeIfFull", "src/lower/mode_format_compressed.cpp:getAppendCoord", "include/taco/lower/mode_format_impl.h:DEFAULT_ALLOC_SIZE", "src/index_notation/provenance_graph.cpp:SplitRelNode,DivideRelNode,FuseRelNode", "src/lower/lowerer_impl_imperative.cpp:lowerForall"]}
{"id": "C76", "title": "Generated C statements mean what the kernel says", "statement": "The C source text that is generated for a kernel is read by C as exactly the statements of the kernel: conditionals and their branches, chains of cases, switches, loops with their bounds and increments, declarations, assignments, stores, allocations and calls nest and follow each other in the text as they do in the kernel, and each OpenMP pragma applies to the loop or update it was generated for.", "quantifier": "every kernel body, however deeply nested, with every expression, indentation and state of the printer", "why_tests_cant": "nesting, chains of cases and combinations of statements are unbounded; a misread brace or else compiles without complaint", "anchors": ["src/ir/ir_printer.cpp:visit(IfThenElse),visit(Case),visit(Switch),visit(Store),visit(Block),visit(Scope),visit(VarDecl),visit(Assign)", "src/codegen/codegen_c.cpp:visit(For),visit(While),visit(Allocate),visit(Assign),visit(Store)"]}
{"id": "C77", "title": "Memory of tensors is used and freed correctly", "statement": "Over any sequence of calls that make, fill, compile, assemble, compute, share and destroy tensors, hold copies of their arrays, and wrap arrays of the user: memory is accessed and freed only while it is allocated; arrays that a tensor or the user holds are not freed; arrays of the user are freed only if they were given away; a computed tensor holds the values the kernel wrote, and the next kernel gets the arrays the last one left; and when all tensors are gone their memory has been freed.", "quantifier": "every history of API calls, any number of tensors of any formats, sharing storages and arrays in any way, with any ownership policy of user arrays", "why_tests_cant": "use after free and leaks depend on the order of calls and on who else holds an array; histories are unbounded", "anchors": ["src/storage/array.cpp:Array::Content,makeArray", "src/storage/storage.cpp:TensorStorage::operator taco_tensor_t*", "src/taco_tensor_t.cpp:init_taco_tensor_t,deinit_taco_tensor_t", "src/tensor.cpp:unpackTensorData,TensorBase::pack,TensorBase::assemble,TensorBase::compute,TensorBase::setStorage,setAssembleWhileCompute", "include/taco/tensor.h:makeCSR"]}
{"id": "C78", "title": "Dynamically typed numbers and vectors behave like numbers of their type", "statement": "Numbers whose type is chosen at run time are added, subtracted, multiplied, incremented, converted and compared like numbers of that type, whatever the other operand is; a vector of such numbers holds, after any sequence of pushes, appends, element assignments, resizes and clears, exactly the numbers put into it, iterators visit them in order, vectors are equal exactly if they hold the same numbers of the same type and are ordered like a dictionary; and no call reads or writes memory outside of the vector.", "quantifier": "all component and index types, all numbers of the types, all sequences of calls on vectors of any length, any memory behind the vector", "why_tests_cant": "the failing numbers are at the ends of the ranges of some types, and reading behind a vector usually goes unnoticed", "anchors": ["src/storage/typed_value.cpp:TypedComponent,TypedComponentVal,TypedComponentRef", "src/storage/typed_index.cpp:TypedIndex,TypedIndexVal,TypedIndexRef", "include/taco/storage/typed_vector.h:TypedVector", "include/taco/type.h:ComponentTypeUnion,IndexTypeUnion"]}
{"id": "C79", "title": "Kernels work on the arrays of the tensors they are called with, and results arrive", "statement": "When a kernel is called, every variable of the generated code that stands for a dimension, an index array or the values of a tensor refers to that dimension or array of the tensor passed for it, read with the right element type; after the call the result tensor consists of exactly the arrays that the kernel left for its levels, with the right lengths, and no other tensor has changed; this holds through the tensor API and the kernel API, whatever the tensors and workspaces are called.", "quantifier": "all orders, formats, mode orderings, index types, tensor names, kernels and contents of memory", "why_tests_cant": "there are unboundedly many formats and names; a wrong field or length often goes unnoticed when levels have the same size", "anchors": ["src/storage/storage.cpp:TensorStorage::Content,operator taco_tensor_t*", "src/taco_tensor_t.cpp:init_taco_tensor_t", "src/codegen/codegen.cpp:unpackTensorProperty,packTensorProperty,printDecls,printPack,printFuncName", "src/codegen/codegen_c.cpp:FindVars,CodeGen_C::visit", "src/tensor.cpp:unpackTensorData,packArguments", "src/index_notation/kernel.cpp:unpackResults", "src/lower/mode_format_dense.cpp:getArrays", "src/lower/mode_format_compressed.cpp:getArrays", "src/lower/mode_format_singleton.cpp:getArrays"]}
{"id": "C80", "title": "A tensor file says the same to taco as to the program that wrote it", "statement": "Reading a .tns, .mtx or .rb file that another program wrote, with any white space, leading zeros, comments and line ends that the file format allows, gives the dimensions and exactly the components that the file lists; a file whose numbers do not fit, whose order is not that of the requested format, or that contradicts its own header is rejected.", "quantifier": "all texts in the three file formats: every number of components, every layout of every line", "why_tests_cant": "the layouts are unboundedly many, and the tests read only a few files that all look alike", "anchors": ["src/storage/file_io_tns.cpp:dispatchReadTNS", "src/storage/file_io_mtx.cpp:dispatchReadMTX,dispatchReadSparse", "src/storage/file_io_rb.cpp:readFile,readHeader,readIndices,readRB", "src/util/strings.cpp:split", "src/tensor.cpp:TensorBase::TensorBase,TensorBase::pack,dispatchRead"]}
{"id": "C81", "title": "Replacing parts of expressions and statements changes exactly these parts", "statement": "replace() with a map of expressions, statements, index variables or tensors returns the expression or statement in which every occurrence of a key is its replacement and everything else (windows, index sets, loop attributes, operators, relations) is kept; replacing by something of equal value keeps the meaning, renaming index variables injectively keeps the meaning, replacing tensors by others that hold the same computes the same; and if nothing is replaced, the very same statement is returned.", "quantifier": "all expressions, statements and substitutions, all meanings of the operators, all tensor contents", "why_tests_cant": "expressions nest without bound and nodes are shared and compared by address; the tests replace parts of a few small expressions", "anchors": ["src/index_notation/index_notation_rewriter.cpp:IndexNotationRewriter,ReplaceRewriter,ReplaceIndexVars,ReplaceTensorVars,replace", "include/taco/index_notation/index_notation_nodes.h:AccessNode", "src/index_notation/transformations.cpp:Precompute::apply,SetAssembleStrategy::apply"]}
{"id": "C82", "title": "The command line tool gives tensors the sizes that the options ask for", "statement": "For an expression with sizes of tensors and index variables given on the command line and tensors read from files, the parsed assignment is the one that was written; every index variable has one size in all modes it indexes; given sizes of operands, of index variables and of the result are honoured, everything else has the default size; a name stands for one tensor, with the given format and type; and the parse succeeds whenever the given sizes agree.", "quantifier": "all expressions, formats, types, sizes and loaded tensors", "why_tests_cant": "sizes flow between tensors through shared variables over expressions of any length and any combination of options; the tests parse a handful of expressions, each tensor used once", "anchors": ["src/parser/parser.cpp:Parser::parseAssign,Parser::parseAccess,Parser::getIndexVar", "src/error/error_checks.cpp:dimensionsTypecheck", "src/index_notation/index_notation.cpp:Access::operator=,Access::operator+=", "tools/taco.cpp:main"]}
{"id": "C83", "title": "A GPU kernel does exactly the work of the loops it was made from", "statement": "For a computation whose loops are given to the blocks, warps and threads of a GPU, the launched threads together have exactly the effects that the loops have when they run one iteration after another, each effect as often: no iteration is lost, repeated or run for a value outside of the loop, skipped iterations are skipped, and reductions over threads are done once; the code that stays on the host has the effects of its loops in their order.", "quantifier": "all statements inside kernels, all bounds and steps of loops, all values of variables", "why_tests_cant": "the number of blocks, warps and threads is unbounded and code inside kernels nests without bound; the tests run a few schedules on GPUs that build machines usually lack", "anchors": ["src/codegen/codegen_cuda.cpp:CodeGen_CUDA::visit(const For*),CodeGen_CUDA::visit(const While*),CodeGen_CUDA::visit(const Continue*),DeviceFunctionCollector,printDeviceFunctions,printThreadIDVariable,printWarpIDVariable,printBlockIDVariable,printThreadBoundCheck,printDeviceFuncCall", "src/lower/lowerer_impl_imperative.cpp:lowerForall,strideBoundsGuard,upperBoundGuardForWindowPosition"]}
{"id": "C84", "title": "Threads of a GPU that share the components of a tensor start in the right rows", "statement": "A kernel that shares out the stored components of fused levels among the blocks and threads of a GPU visits every component exactly once, with the coordinates it has when the levels are iterated one by one: the searches before the kernel, in whatever order their threads run and whatever the memory held, and the search at the start of every thread find the rows that its first component belongs to.", "quantifier": "all tensors, all numbers of blocks, threads and components per thread, all orders in which the threads of the search kernels run", "why_tests_cant": "rows can be empty, long or shorter than a block in every combination, and the order of GPU threads cannot be chosen by a test", "anchors": ["src/codegen/codegen_cuda.cpp:taco_binarySearchBeforeBlock,taco_binarySearchBeforeBlockLaunch,taco_binarySearchIndirectBeforeBlock,taco_binarySearchIndirectBeforeBlockLaunch", "src/lower/lowerer_impl_imperative.cpp:searchForFusedPositionStart,lowerForallFusedPosition"]}
{"id": "C85", "title": "Threads of a GPU that add to the same component lose nothing", "statement": "When the threads of a GPU kernel add to components of the result that they share, every component ends up as its old value plus everything all threads of all blocks add to it, whatever the number of threads, whichever threads return early and however the additions are interleaved; the same holds for products.", "quantifier": "all kernels built from additions, conditions, loops and early returns, all block sizes, all addresses and values, all interleavings", "why_tests_cant": "threads of a warp take every combination of branches and addresses, and interleavings of GPU threads cannot be enumerated or forced by a test", "anchors": ["src/codegen/codegen_cuda.cpp:atomicAddWarp,CodeGen_CUDA::visit(const Store*),CodeGen_CUDA::visit(const Assign*),CodeGen_CUDA::visit(const For*),CodeGen_CUDA::visit(const While*)"]}
{"id": "C86", "title": "Kernels compute every replaced index variable once, before it is used", "statement": "When loops are split, divided, fused, bounded or run over positions, the generated kernel computes each original index variable (and each intermediate one) from the loop variables exactly once, in the innermost loop that completes what it depends on, after everything it is computed from, for every order of the loops.", "quantifier": "all schedules (sequences of commands that replace variables by new ones), all orders of the loops", "why_tests_cant": "the number of schedules and loop orders is unbounded, and a missing declaration only shows when the generated code of that schedule is compiled", "anchors": ["src/index_notation/provenance_graph.cpp:ProvenanceGraph::newlyRecoverableParents,isRecoverable,isRecoverablePrecompute", "src/lower/lowerer_impl_imperative.cpp:LowererImplImperative::lowerForall"]}
{"id": "C87", "title": "The notation checks accept exactly the statements they describe", "statement": "A statement is accepted as einsum notation exactly if it is an assignment with no division, no reduction and no sum inside of a product; as reduction notation exactly if every access variable is a result variable or bound by a reduction around it; as concrete notation exactly if inside of its loops every used variable is known, it has no reductions, and sums outside of workspaces accumulate. Scheduling commands keep statements accepted, and every variable an accepted statement uses is one the generated loops declare.", "quantifier": "all expressions, all statements (loops, where, sequence, multi, assemble), all schedules", "why_tests_cant": "expressions, statements and schedules nest without bound; a statement that is wrongly accepted only fails later, in the generated code", "anchors": ["src/index_notation/index_notation.cpp:isEinsumNotation,isReductionNotation,isReductionNotationScheduled,isConcreteNotation", "include/taco/index_notation/index_notation_visitor.h:Matcher"]}
{"id": "C88", "title": "Unrolled and vectorized loops do what the loops did", "statement": "A kernel whose loops are split or divided, in any order, with some loops marked to be unrolled or vectorized executes its statement at the same coordinates in the same order as without the marks; every coordinate inside of the dimensions is reached, and none outside of them, although the marked loops are generated a second time without bounds checks.", "quantifier": "all numbers of variables, all trees of splits and divisions of them, all orders of the loops, all marks, all dimensions", "why_tests_cant": "schedules nest without bound and whether the copy without checks runs too far depends on how dimensions, factors and loop orders meet", "anchors": ["src/lower/lowerer_impl_imperative.cpp:LowererImplImperative::lowerForallCloned,lowerForall", "src/index_notation/provenance_graph.cpp:SplitRelNode,DivideRelNode,ProvenanceGraph::newlyRecoverableParents"]}
{"id": "C89", "title": "The Python functions compute what NumPy's functions of the same names compute", "statement": "The Python functions and operators on tensors accept shapes that fit and raise an exception otherwise; element-wise functions of tensors of different orders repeat the one of lower order along the leading modes of the other one; sums over axes, matmul, inner, dot, outer and tensordot give results of the documented shape whose components are the sums of exactly the products that NumPy's functions of these names add, each once; Python numbers used as operands keep their values.", "quantifier": "all shapes of all orders, all components, all lists of axes, all numbers, whatever index variables were made before", "why_tests_cant": "shapes have any number of modes of any sizes; tests compare a few shapes with NumPy", "anchors": ["python_bindings/pytaco/pytensor/taco_tensor.py:_compute_bin_elt_wise_op,_compute_unary_elt_eise_op,tensor_sum,matmul,inner,dot,outer,tensordot,tensor_floordiv,as_tensor", "python_bindings/src/pyIndexNotation.cpp:getIndexVars"]}
{"id": "C90", "title": "Conversions between NumPy, SciPy and tensors keep values", "statement": "from_array keeps every element of every array, contiguous or not; to_array gives every component; np.array(t, copy=False) shows every component of a dense tensor at its coordinates; t[i,j] gives the component for indices inside of the dimensions and raises an exception for others; from_sp_csr keeps the values of a SciPy matrix; insert adds to one component and leaves the others alone; a tensor made with copy=True does not change when the array does, and one made with copy=False follows the array, and neither ever reads freed memory.", "quantifier": "all arrays with any shapes and strides, all mode orderings, all coordinates and indices, all SciPy matrices, all histories of writing to and dropping arrays", "why_tests_cant": "strides, orderings and lifetimes combine without bound, and reads of freed or foreign memory often go unnoticed in a test", "anchors": ["python_bindings/src/pyTensor.cpp:checkBounds,fromNpArr,fromNumpyF,fromNumpyC,fromSpMatrix,elementGetter,insert,declareTensor", "python_bindings/pytaco/pytensor/taco_tensor.py:from_array,to_array,as_tensor,_from_matrix,_compute_bin_elt_wise_op", "src/tensor.cpp:TensorBase::setStorage,pack,syncValues"]}
{"id": "C91", "title": "Passes over the generated code replace what they mean to replace and nothing else", "statement": "When a pass over the generated low-level code replaces variables, properties or statements (copy propagation, removal of declarations, sizes of workspaces), the resulting code is the old code with exactly these replaced, everywhere they occur; all other statements stay in their order with their loop kinds, parallel units, unroll factors, vector widths and atomic flags; expressions keep their values; a variable whose declaration is removed is not used any more; a pass with nothing to replace changes nothing.", "quantifier": "all trees of expressions and statements of any depth, all passes (all choices of nodes to replace)", "why_tests_cant": "the rewriter has a case for each of about fifty kinds of nodes and each can be nested in any other; tests meet few combinations", "anchors": ["src/ir/ir_rewriter.cpp:IRRewriter", "src/ir/ir.cpp:Block::make,Scope::make,Store::make,Assign::make", "src/ir/workspace_rewriter.cpp:rewriteTemporaryGP", "src/ir/simplify.cpp:simplify"]}
{"id": "C92", "title": "Scheduling directives of the command line do what the help says", "statement": "Every directive given with -s is carried out as the help describes: it names the variables, factors, bounds, strategies and units that its parameters spell, on the statement that the directives before it have made, in the order of the command line; directives with a wrong number of parameters, unknown variables, tensors, subexpressions or strategies are reported; CUDA code is generated exactly when a directive parallelizes over units of a GPU; a precomputed subexpression keeps its type.", "quantifier": "all statements, all directives with all parameters, all sequences of options -s", "why_tests_cant": "parameters are free text and directives combine without bound; tests try a few well-formed ones", "anchors": ["tools/taco.cpp:setSchedulingCommands,printSchedulingHelp,main", "src/parser/schedule_parser.cpp:ScheduleParser,varListParser"]}
{"id": "C93", "title": "The options of the command line mean what the help says", "statement": "A command line written as the help describes gives every tensor the format, component type, sizes, filling and files that its option spells, switches on exactly the switches that are given, and evaluates exactly the given expression; options may be written with one hyphen or two and in any order; anything else (unknown letters and types, orderings that are no orderings, sizes that are no sizes, misspelled options, a second option for the same tensor) is reported.", "quantifier": "all sequences of options for all tensors, names, formats, orderings, types, sizes and files, and all other texts", "why_tests_cant": "options are free text and combine without bound; there are no tests of the tool's options", "anchors": ["tools/taco.cpp:main,printUsageInfo", "src/util/strings.cpp:split", "src/format.cpp:Format::Format"]}
{"id": "C94", "title": "Generated data belongs to the tensor that is asked for", "statement": "Data generated for a tensor (option -g) consists of coordinates inside its dimensions, each once: every coordinate for dense, uniform and random data, whole rows or columns for slices, the diagonals of a finite element matrix, and the documented part of rows and columns for sparse data; kinds that are not available for the order of the tensor are reported.", "quantifier": "all dimensions of vectors, matrices and tensors of order 3, all kinds of data, and every outcome of the random shuffles", "why_tests_cant": "data is random and dimensions are unbounded; there are no tests of generated data", "anchors": ["include/taco/util/fill.h:fillTensor,fillVector,fillMatrix,fillTensor3,fillFactors", "tools/taco.cpp:main,printUsageInfo"]}
{"id": "C95", "title": "Calls of compiled code run the code that was compiled", "statement": "After a module or tensor is compiled, a call of one of its functions runs the code that was given for it before that compilation, whatever is done with other modules and whatever is added later, until it is compiled again; a compilation that fails says so and leaves every call as it was; code can be given as text, also again, and also text produced by the command line tool.", "quantifier": "all histories of making modules, adding functions, giving texts and compiling, for all modules and function names", "why_tests_cant": "histories are unbounded and involve the state of files, compiler and dynamic loader; tests compile a module once", "anchors": ["src/codegen/module.cpp:compile,compileToSource,writeShims,setSource,callFuncPackedRaw", "src/tensor.cpp:compileSource", "src/codegen/codegen_c.cpp:generateShim", "tools/taco.cpp:main"]}
{"id": "C96", "title": "Targets can be described by texts", "statement": "A target is constructed from every text of the form arch-os-features, with the architecture and system it names; other texts are reported; the test for valid texts accepts exactly those texts; the target taken from the environment is the one the environment describes.", "quantifier": "all texts, all architectures and systems, all environments", "why_tests_cant": "texts are unbounded; there are no tests of targets", "anchors": ["include/taco/target.h:Target,getTargetFromEnvironment", "src/target.cpp:parseTargetString,validateTargetString"]}
{"id": "C97", "title": "The iteration graph of an assignment puts every access along a path of its forest", "statement": "For every assignment whose accesses fit some order of loops, the iteration graph (option -print-iteration-graph) is a forest with each variable that occurs once, in which a variable that comes before another one in the storage order of a tensor is above it, and whose roots are the variables without parent; accesses that fit no order are reported.", "quantifier": "all numbers of tensors, of any order, with any variables and mode orderings", "why_tests_cant": "graphs are unbounded, and the result depends on an order among equal elements that the sort may choose; tests have few tensors", "anchors": ["src/lower/iteration_forest.cpp:IterationForest,getGraph", "src/lower/iteration_graph.cpp:make", "tools/taco.cpp:main"]}
{"id": "C98", "title": "Benchmarks report statistics of the kernel", "statement": "Repeated measurements of a kernel (option -time=n) measure the kernel every time, for every positive number of repetitions; reported are the mean, the standard deviation and the median of the measurements without the fastest and the slowest tenth, whatever the order of the measurements; other numbers of repetitions are reported.", "quantifier": "all numbers of repetitions and all measurements, in any order", "why_tests_cant": "measurements are never the same twice and unbounded in number; there are no tests of timers", "anchors": ["include/taco/util/timers.h:Timer::getResult,TACO_TIME_REPEAT", "tools/taco.cpp:TOOL_BENCHMARK_REPEAT,main", "src/tensor.cpp:compute"]}
{"id": "C99", "title": "Files are where the user says", "statement": "Paths mean what they mean in a shell, for tensors and for generated code alike; the temporary directory is a new one in the directory that TMPDIR names, stays the same and keeps its files while the process runs, whatever other processes do, and is removed with everything in it and nothing else at the end; tensors written by -O are in the directory named, or in the temporary directory by default, after the program has ended; the compiler is given the source and the library, wherever the temporary directory is.", "quantifier": "all paths, environments, names of tensors, compilers and options, and all histories of any number of processes that start, ask for the directory, write, duplicate themselves and end", "why_tests_cant": "tests run as one process in one environment; environments and interleavings of processes are unbounded", "anchors": ["src/util/files.cpp:sanitizePath,openStream", "include/taco/util/env.h:getTmpdir", "src/util/env.cpp:cachedtmpdirCleanup", "src/codegen/module.cpp:compile", "tools/taco.cpp:main (-O)"]}
{"id": "C100", "title": "Mistakes are reported", "statement": "A call goes on behind its checks exactly if all of them hold; otherwise it throws an exception that can be caught, for the first check that does not hold, and says who is to blame (the user, the library, or what is not supported yet), where, and the whole message; warnings do not end calls; checks that hold have no effects; broken assumptions of the library are reported in every build.", "quantifier": "all sequences of checks of all kinds, with all conditions and messages, including ones whose evaluation throws or is undefined, in builds with and without assertions", "why_tests_cant": "there are hundreds of checks in the library, each with its own message; tests reach few of them, and run in one build", "anchors": ["include/taco/error.h:taco_uassert,taco_iassert,taco_uwarning,ErrorReport", "src/error.cpp:ErrorReport::ErrorReport,explodeWithException"]}
{"id": "C101", "title": "Formats are keys of Python's dictionaries", "statement": "In Python, formats that compare equal have the same hash, every format can be hashed, and a dictionary whose keys are formats gives for a format the value that was last stored for an equal format.", "quantifier": "all formats of any order with any packs and orderings, all hash functions of texts, and all histories of assignments", "why_tests_cant": "formats and histories are unbounded; tests use CSR and CSC", "anchors": ["python_bindings/src/pyFormat.cpp:hashModeFormat,hashModeFormatPack,hashFormat,defineFormat", "src/format.cpp:operator=="]}
{"id": "C102", "title": "Python reads tensors back", "statement": "In Python, iterating over a tensor gives its components that are not zero, each once and in order, and then stops; to_sp_csr and to_sp_csc give, for a matrix in any format, a SciPy matrix in canonical form (sorted rows, no repeated entries, no explicit zeros) with the same values; a SciPy matrix that is made a tensor and a SciPy matrix again keeps its values.", "quantifier": "all matrices of any size with any components, in compressed rows and columns, all numbers of calls of __next__, and all behaviours of qsort on equal keys", "why_tests_cant": "matrices are unbounded; the test converts random matrices, which have no repeated entries", "anchors": ["python_bindings/src/pyTensor.cpp:toSpMatrix,PyTensorIter", "python_bindings/pytaco/pytensor/taco_tensor.py:to_sp_csr,to_sp_csc"]}
