# A Lean 4 model of the taco tensor compiler

This directory holds a machine-checked model of parts of tensor-compiler/taco (source in `/repo`, a pinned commit) and proofs of the properties listed in `properties.jsonl`.

## Layout

* `lean/Verif/<Area>/Model.lean`: definitions that follow the C++ function by function. Every definition cites file and lines.
* `lean/Verif/<Area>/Spec.lean` (or a `Spec` section at the top of the theorem file): the small independent specification a property is stated in.
* `lean/Verif/<Area>/Lemmas.lean`: helper lemmas.
* `lean/Verif/<Area>/Theorems.lean`: the property theorems (the names listed in `MANIFEST.json`), each followed by an `example` showing that its hypotheses are met by a concrete non-trivial case.
* `seeded/LOG.jsonl`: mutation log, i.e. edits of the model that a realistic bug would make, and which theorems caught them.

## Modelling conventions

* C `int` arithmetic is modelled with unbounded `Int`/`Nat` unless a property is about overflow; C75 states when the 32-bit arithmetic of positions, sizes, capacities and schedules agrees with it, C07-C09 do so for the search helpers. Elsewhere it is a gap.
* Floating point values are modelled as elements of an arbitrary commutative ring/semiring (or an arbitrary type when no arithmetic happens). Rounding and NaN are not modelled.
* Reads outside an array are not totalised: a model function that indexes an array returns `Option`/an explicit error outcome, `none` meaning undefined behaviour. Theorems state when the outcome is defined.
* Loops are modelled by structural or well-founded recursion with the same guard and update order as the code. Termination is therefore proved.
* Where a property is false of the code, the negation is proved with a concrete witness (name suffix `_fails`), and the part that does hold carries the suffix `_partial`.

## Plan per property

| id | what is modelled | how it is proved |
|----|------------------|------------------|
| C01 | `packTensor`/`pack` over lists of Dense/Sparse levels, level walk | induction on the levels, generalised over the segment and the accumulated index arrays |
| C02 | same | invariant of `packTensor` |
| C03 | buffer sort + permute + `packTensor` | sorted permutations of distinct keys are equal |
| C04 | `reduceDuplicateCoordinates` loop; `packTensor` last level | induction over the run of duplicates; negation for `storage/pack.cpp`, which keeps the first duplicate |
| C05 | `Index::getSize` and the position walk | induction over levels |
| C06 | `const_iterator` fetch loop + resumable yield kernel | invariant over advance/fetch |
| C07-C09 | `taco_gallop`, `taco_binarySearchAfter/Before` with checked reads | loop invariants, well-founded recursion |
| C10-C12 | expression -> merge lattice, lattice simplification, generated merge loops | lattice semantic invariant by induction on the expression; loop invariant on the iterators' suffixes |
| C63 | composition of the models of packing (C04), merge loops (C10), append assembly (C42) and iteration (C01) into a whole program | induction on the levels of the result and the loops; simulation of levels by index variables |
| C64 | the merge loop of a product for both strategies, with duplicates and windows (`lowerMergePoint`, `codeToIncIteratorVars`, `reduceDuplicateCoordinates`, `taco_gallop`) | induction on the remaining positions: every iteration cuts all segments at one coordinate; the intersection is determined by its specification |
| C65 | the packing of an index set, dense modes located through it, and the merge loop of a product of accesses with index sets | invariant of what remains of a level and its set: a mismatch gallops over nothing that is common, a match is the first common index; induction on the remaining entries |
| C66 | merge loops with deduplication loops, segment ends and iterator chaining; loop nests over levels that repeat coordinates; storage of coordinate formats | simulation: the loop over runs of equal coordinates is the loop of C10 over the distinct coordinates; induction on the loops with the run of positions of each operand; runs of lexicographically ordered components agree in all outer coordinates |
| C67 | merge lattices of iteration-space descriptions with complements (omitter points), the two rewrites of the call, the cases with explicit zero checks, the choice of special definitions | lattice invariant by induction on the description: one point for every set of operands that reaches the space, producer exactly if the set is in it; loop invariant as in C10; the first matching case is the set of operands stored at the coordinate |
| C68 | the values array as a memory with arbitrary contents and a capacity, the decision which results are initialised, the initialisation before the loops, in front of a loop and per value, growth while assembling, the loops above and below the last compressed level | the loops below a position deliver the events of C10/C11, so one value is the fold of its events from zero, or from anything if every coordinate is visited; invariant over the positions: earlier blocks are final, later ones clean, the capacity suffices |
| C69 | the loop that strips reductions off a right-hand side and the loops it makes; the programs of C68 over an arbitrary monoid, with the number zero and the fill value of the result as parameters | induction over the reductions; C68 instantiated with an operator whose identity is not the number zero; counterexamples with minimum |
| C70 | the query statement made from the assignment, its expression over truth values with the types and operators of the printed C, the merge loops with the shortcut for true cases; the insertion of C43 with those counts | both programs visit the same coordinates (induction over loops and lattice points); for plain expressions the query value is true at all of them; counterexamples |
| C71 | `insertTemporaries` on the statements of `Kernel` with their meaning; a whole program with a `where` statement: pack, outer loops, producer loops into the workspace of C49, consumer, append assembly, iteration | loops as updates of one component per iteration, row by row; induction over the outer loops with the workspace clean between rows; sums reordered by a permutation of the iterations |
| C72 | `operator==` and `operator<` of index variables, windows, index sets, accesses, mode accesses and iterators; `std::map` as a search tree with any re-balancing; generated names | combinators for lexicographic and alternative orders; a tree with sorted entries finds what was inserted; iterators by their number of creation |
| C73 | the merge loop of a strip for one operand, a sum and a product: start by binary search, recovery of the inner variable, loads after the increment; the strips of a split, of two splits, below a level with duplicates and with exchanged loops | induction over the loop with the set of visited components; strips that tile the dimension are concatenated |
| C74 | the einsum parser character by character, with parse errors, other exceptions and undefined behaviour as separate outcomes; expressions, their text, labels and contractions in the specification | the text of an expression is followed through the parser; conversely an accepted text is taken apart; contractions are invariant under renaming of labels |
| C75 | the same formulas as in the models of dense levels, appending and schedules, with a check of the 32-bit range after every operation; volumes, row-major positions and reachable values in the specification | induction over levels, appends and schedule steps; within the bounds the checked functions equal the unbounded ones |
| C76 | the statement printer of `IRPrinter`/`CodeGen_C` over the expression printer of C27; a reader of C statements, written from the grammar, as specification | induction over statements: the tokens of the text, followed by anything, are read as the statement |
| C77 | arrays, storages, `taco_tensor_t` and the API calls as steps over a trace of allocations, accesses and frees; rules for the user as preconditions | an invariant that gives every piece of live memory exactly one owner, kept by every step; what is owned by nobody (index arrays of kernels) is never freed |
| C78 | integers in C++ (promotion, conversion, overflow as undefined behaviour), members of the unions as little-endian bytes, `TypedVector` as a list of bytes | case analysis over the types with linear arithmetic; an invariant that the bytes of a vector are the padded numbers, kept by every call |
| C79 | structs as lists of pointers, memory as bytes, the first and last lines of a generated function as declarations and assignments run in an environment of names, the body as any function | names are distinct by C33; induction over declarations, assignments and levels; a call is packing, entering, body, leaving, unpacking |
| C80 | the readers on any text, with outcomes: value, rejected, undefined; numbers with the widths of `int` and `long`; the layouts of files as inductive predicates | induction over the layout of a line and over the lines; the flags of a tensor decide what packing does |
| C81 | the rewriter and the three replacing rewriters on trees of nodes with addresses; new nodes have none | induction over mutually defined expressions and arguments and over statements, against substitution and renaming on trees and against a meaning of statements |
| C82 | the look-up of tensors and variables, the visitor that collects sizes, the rewriter that changes tensors, the check of the assignment | invariants over traversals of expressions; the sizes are compared with what the options ask for |
| C83 | how loops, `continue` and reductions are printed in kernels and on the host, the sizes of launches, the ids of threads | a simulation for plain statements, then induction over the contents of a kernel: the effects of all threads are a permutation of those of the loops |
| C84 | the search kernels of the CUDA backend for any order of threads, the search of a thread between the starts of its block and the next | the search between two results of the search finds what a search of all rows may find; then the loop invariant of C54 |
| C85 | `atomicAddWarp` on the lanes of a warp, which additions use it, warps that run programs together, atomic additions and compare-and-swap in any order | the shuffle tree keeps the sum of the first half; induction over programs with the set of running threads; permutations |
| C86 | the provenance graph (`getParents`, `getChildren`, `isRecoverable`, `newlyRecoverableParents`) and the declarations a nest of loops makes | schedules have a rank; recoverable means known; what one loop adds are ancestors; induction over loops with the set of known variables |
| C87 | the four notation checks over expressions and statements, with the scoped and unscoped variable sets | inversion lemmas for parts of expressions and statements, structural induction; recoverable means known (C86) |
| C88 | loops over split and divided variables, with their guards, and the two copies of marked loops | the condition between the copies bounds the values that the loops inside can reach: induction over chains of pieces; coverage by division with remainder along the trees |
| C89 | the Python functions with Python's slices and negative positions, up to the assignment of index notation, and the terms this assignment adds | the terms are the values of the variables (terms_lists); for every function the variables are put at the positions the specification names, new variables being distinct |
| C90 | arrays with strides, dense tensors with mode orderings, the exported strides, the bounds check, the flags of insertions, memory blocks with lifetimes, SciPy's arrays | positions of dense levels are positions in row-major order (induction over modes); sums over permuted modes; invariant over histories |
| C91 | trees of all nodes of the low-level code with types and flags, the rewriter with a flag for "same handle", the constructors it calls, the pass for workspace sizes | the result equals a replacement written without handles, by mutual induction over trees; values and outlines by the same induction |
| C92 | decoding of each directive, `sscanf`, search for variables, accesses and subexpressions; the statement is any type with a view and a function that applies an operation | the help as an inductive relation between directives and operations; decoding is proved to agree with it in both directions; sequences by induction |
| C93 | the loop of `main` over the arguments, with `split`, `stoi`, the chains of comparisons and `map::insert` | the help as inductive relations between options and texts; each option is proved to be read as what it spells, command lines by induction |
| C94 | the functions that generate data, as lists of inserted coordinates; shuffles are any permutations and products of doubles anything close to the product | coordinates inside a tensor as an inductive relation; loops are proved to be lists, and permutations of positions to be injective and onto |
| C95 | modules, their C files as lists of functions, and the loader with use counts; histories of new, add, source, compile | an invariant over histories relates every module to what was added and given, and the loader's libraries to the modules; libraries of a module are unchanged by operations other than its compile |
| C96 | the constructor, the loop over hyphens with a bound on its rounds, the search for names; throwing is an outcome of its own | induction over the rest of the text, for any bound above its length; search is characterised by first occurrences |
| C97 | the construction of the forest, both loops; the number of rounds of the first is bounded by a parameter, the sort is any sort | the queue is annotated with numbers of steps: an invariant shows that last labels are longest walks; a weight of variables bounds the rounds; an invariant over the variables still to be placed shows that handed predecessors end up above |
| C98 | the statistics of timers over lists of integers, without divisions, and the loop of benchmarks with the flag that tells whether values are there | what is kept is specified by pieces that are below each other, which determines it up to order; sorted lists are unique |
| C99 | texts as lists of characters, the environment as optional texts, the file system as the list of paths that exist, processes with their cached directory; histories of events | meaning of paths and words of a command are inductive relations; invariant over histories: directories exist and none is in another |
| C100 | checks with their conditions and operands as results of evaluations (value, exception, undefined); the macros for builds with and without assertions | a report is specified by its beginning, its place and its message; induction over the checks |
| C101 | hashes over the model of formats (Format), with 64-bit arithmetic and any hash of texts; dictionaries as lists of entries | congruence by induction over packs and modes; the last assignment to an equal key is specified on histories |
| C102 | the iterator of Python as a state with calls, toSpMatrix as a filter, a packing (Pack) and the arrays of the second level; SciPy's matrices from PyArray | induction over calls; the walk over packed levels is shown to be the reading of the arrays by SciPy, then C01's and C02's facts on packing |
| C13-C18, C54 | provenance-graph bounds/recovery formulas and loop guards, fused-position loops | division arithmetic; list equality of visited values |
| C19-C21 | denotational semantics of concrete index notation over a commutative semiring; reorder, precompute, reduction insertion | structural induction; finite sum exchange |
| C22 | `Zero` rewriter | structural induction over expressions |
| C23, C31 | `topologicallySort`, `hasCycle`/`addEdges` | invariants of the selection loop / DFS; acyclicity iff linear extension |
| C24 | `Parallelize`, `getReductionVars`, scalar promotion, the choice of atomic updates; iterations as sequences of loads, stores and atomic updates | invariant over all interleavings: each component is its old value plus what the iterations add to it |
| C25-C26 | `ExpressionSimplifier`, statement simplifier | evaluation preservation by induction |
| C27-C29 | IR printer, index-notation printer, lexer, recursive-descent parser | print/parse round trip by induction with precedence invariants |
| C30 | `dimensionsTypecheck` | fold invariant |
| C32 | `max_type` | exhaustive over the whole finite type |
| C33-C35 | name generator, scoped map, intrusive pointer | invariants over operation histories |
| C36-C38, C53 | TNS/MTX/HB writers and readers at token level | round trip by induction |
| C39-C40 | lazy-evaluation state machine, kernel cache | invariants over API histories |
| C41 | searches, guards and projections of position, dense and merge loops over windows | the visited pairs are characterised for one level; merge loops are simulated by merge loops over the selected coordinates |
| C42-C44, C49 | compressed level append/insert protocols, growth guards, workspace acceleration | invariants over histories |
| C45 | `applyDemorgan` | structural induction |
| C46-C47 | intrinsics' zero-preservation, annihilator/identity | algebra over an ordered ring |
| C48 | `Isomorphic` | simulation relation on semantics |
| C50 | schedule parser | round trip induction |
| C58 | level choice of `canAccelerateDenseTemp` | mode orderings; `_fails` witness |
| C59 | `getArguments`, `getTemporaries`, `packArguments` on statements with where | parameter list of the scheduled statement equals the packed list; calling a kernel as rebinding of names |
| C61 | `copy` of the mode formats, `COO`, `isDense`, `initFormat` | induction over the list of properties |
| C60 | `scalarPromote` on statements | induction over the statement; each hoisted loop is equal to accumulating into a fresh scalar |
| C56-C57 | insertion history (`insert`, `reinsertPackedComponents`, `pack`), byte-level coordinate buffer | invariant over histories |
| C51-C52, C62 | transpose, `equals`, `at`, removal of explicit zeros | over packed tensors (Pack); the loops of `equals` by induction on both component lists in a common strict order |
| C55 | format equality | list reasoning |

## Trusted base

* Lean 4.33.0's kernel. Axioms allowed: `propext`, `Classical.choice`, `Quot.sound` (what each theorem depends on is listed at the end of this file).
* The faithfulness of the model to the C++ text, which was transcribed by hand. The C++ was not compiled or run.

## What is modelled

| area | code | not modelled / simplified |
|------|------|---------------------------|
| Search | `taco_gallop`, `taco_binarySearchAfter`, `taco_binarySearchBefore` (C prelude, codegen_c.cpp) | - |
| Provenance | bounds, recovery and guards of split, divide, fuse, bound, pos; schedules of them | GPU loops, unrolling, vectorisation |
| Merge | merge lattice construction and simplification for +, -, *, /, neg; the loops, cases and advances emitted from a lattice | complements/omitters, intrinsics and user operators, galloping and non-unique iterators in merges |
| Pack | `storage/pack.cpp`, `Index::getSize`, level walk, permutation and sorting in `TensorBase::pack` | singleton levels |
| Assembly | append assembly code and level functions of dense/compressed results; the generated pack kernel; insert/pack history; coordinate buffer; insert (two-phase) assembly below dense levels | singleton levels, separate assemble/compute kernels |
| Workspace | accelerated dense workspaces: guard, index list, sort, drain, reuse across iterations | parallel slices of the arrays |
| Iter | `const_iterator`, resumable iterate kernel, batches | - |
| IR | `ExpressionSimplifier` on literals, variables, arithmetic, comparisons, logic, casts, loads; `simplify(Stmt)`: loop dependent variables, copy propagation, redundant declarations, redundant `for`/`while` loops | `Case`, `Switch`, `Function`, allocations, comments; `Sqrt`, bit operations, `Call`, `GetProperty`, `Malloc`; floating point is a parameter |
| CPrint | `IRPrinter`/`CodeGen_C` text of expressions, loop conditions and assignments; a C lexer and expression parser as specification | statements other than assignments, `Sizeof`, digits of numbers |
| Names, Scoped, Types, Refs | `NameGenerator`, `ScopedMap`, `max_type`, `IntrusivePtr` | threads |
| IndexText | index-notation lexer, recursive-descent parser of expressions and assignments, printer of index expressions | tensor lookup and dimensions in the parser, reductions, casts, calls, digits of floating-point literals |
| Schedule | `ScheduleParser`, `varListParser`, `serializeParsedSchedule` on the lexer of IndexText | interpretation of the directives in tools/taco.cpp |
| FileIO | `writeTNS`, `readTNS`, `writeSparse`, `writeDense`, `readMTX` (both formats, symmetric and general), Harwell-Boeing `writeFile`/`readFile`, all at character level | printing and reading of floating-point values (a parameter), `.ttx`, `.bin`, `INT_MAX` checks |
| LoopOrder | `reorderLoopsTopologically` (dependencies, topological sort, rebuilt loops), `containsTranspose` with `hasCycle` and `addEdges`, `dimensionsTypecheck` with window and index-set sizes | the merge lattice that tells which levels a loop iterates over; `std::sort` is any sorting function |
| `Verif/Algebra` | `applyDemorgan`; `Annihilator::annihilates`, `Identity::simplify`; `Zero::visit(CallNode)` for literal and access arguments; `Func::inferAlgFromProperties` with its three constructions; `allForFreeLoopsBeforeAllReductionLoops`, `emitEarlyExit` in a loop nest around one statement | merge lattices of complements, region definitions, `inferFill` (its results are inputs), early exit in parallel loops |
| `Verif/Intrinsic` | `zeroPreservingArgs` and `lower` of all 33 intrinsics, their use in the merge lattice construction and in the zero rewriter; values over the real numbers | widths of types, complex and boolean arguments, rounding, overflow, NaN and signed zero |
| Lazy | tensor.cpp: flags, pack, compile, assemble, compute, evaluate, syncValues, dependents, setAssignment, operator=; tensor.h insert, reads | contents of storage and kernels are abstract functions; assembleWhileCompute; accumulating assignments |
| Concrete | src/index_notation/index_notation.cpp 2131-2173, 2732-2839, 2902-3174 (einsum, reduction and concrete notation, relation of index sets); src/index_notation/transformations.cpp 60-127, 391-682, 684-796 (reorder, precompute, loop replacement); index_notation_rewriter.cpp 370-479 | operators other than + - * and negation, reduction operators other than +, derived index variables, multi, suchthat, sequence and assemble statements, loop attributes (unroll, parallel, merge strategy), precompute into statements that already have where statements, rounding |
| Kernel | src/index_notation/index_notation.cpp 178-623 (isomorphic), src/type.cpp 266-362 (equality of types), src/tensor.cpp 580-674 (kernel cache) | user-defined operators (CallNode: equal only to itself), yield, assemble and suchthat statements, the mutex, CACHE_KERNELS=0 |
| Concrete/Args | src/index_notation/index_notation.cpp 3372-3413, 3472-3522, 3598-3616; src/lower/lowerer_impl_imperative.cpp 244-283 (parameters); src/tensor.cpp 778-806 (packArguments) | index sets, multi and assemble statements |
| Concrete.Promote | src/index_notation/transformations.cpp 854-867 (ReplaceReductionExpr), 1836-1987 (scalarPromote) | derived variables (recovered coordinates), loops for GPU reductions, operators other than += |
| Parallel | src/index_notation/transformations.cpp 868-1093 (Parallelize), src/index_notation/index_notation.cpp 1743-1768 and 3668-3719 (index and reduction variables), src/lower/lowerer_impl_imperative.cpp 450-607, 1190-1232 and 2516-2606 (parallel loops, atomic updates, depth in producers) | preconditions on iterators and formats (956-1007), GPU parallel units and ParallelReduction for them, vectorization, chunks of iterations per thread (each iteration is on its own, which allows more interleavings), weak memory, nested parallel loops, sparse loops and assembly |
| Window | src/lower/lowerer_impl_imperative.cpp 325-350 (dimension of windowed variables), 1311-1413 (position loops), 1583-1808 and 3478-3733 (merge loops), 3388-3393 (dense levels), 4026-4098 (guards, projections, searches); src/index_notation/index_notation.cpp 1072-1076 (window size) | index sets, windows of non-unique levels, windows with the galloping strategy, overflow of int in window arithmetic, GPU loops |
| Format | src/format.cpp (constructors, variants, properties, comparison, COO, isDense, types of index arrays), src/lower/mode_format_impl.cpp 296-311, constructors, copy and equals of the three mode formats, src/tensor.cpp 87-110 | user-defined mode formats, printing, the INT_MAX bound on the order |
| Tensor | include/taco/tensor.h 1032-1047 (at), 1225-1270 (transpose, removeExplicitFillValues), src/tensor.cpp 1022-1149 (equals) | lazy evaluation (Lazy), complex numbers, rounding in the division of `scalarEquals`, tensors of different component types |
| Fused | src/lower/lowerer_impl_imperative.cpp 1007-1188 (searchForFusedPositionStart) and 1418-1581 (lowerForallFusedPosition), src/index_notation/provenance_graph.cpp 458-491 (bounds of position loops) | GPU search helpers, blocks of a GPU, non-unique levels, writing results from temporaries at the end of a row (writeResultCond) |
| EndToEnd | src/tensor.cpp 294-463 (pack), 808-850 (assemble, compute), src/lower/lowerer_impl_imperative.cpp 647-897 and 2070-2145 with assembly of the result, src/tensor.cpp 936-1020 (iteration), composed | schedules, accesses stored against the loop order, sharing of iterators between equal accesses |
| Gallop | `lowerMergePoint`, `resolveCoordinate`, `reduceDuplicateCoordinates`, `codeToIncIteratorVars`, `codeToInitializeIteratorVar`, `codeToLoadCoordinatesFromPosIterators`, the increments of `lowerForallBody` for lattices with one point, both merge strategies, levels with duplicates, windows and chained parents; the values of `sum(i, a(i) * b(i) * ...)` | dimension iterators of derived variables in a merge, index sets, several lattice points (see Merge) |
| IndexSet | `AccessTensorNode` (index sets), the statements for index sets of `lowerMergePoint`, `declLocatePosVars`, `codeToIncIteratorVars`, `checkThatNoneAreExhausted` for products (two-finger strategy) | unions and other lattices with index sets; windows, duplicates and galloping together with index sets; the level below; `int` overflow |
| Coo | `reduceDuplicateCoordinates`, the use of segment ends in `lowerForall`, `lowerMergePoint`, `codeToIncIteratorVars`, `codeToInitializeIteratorVar` and `lowerForallPosition` (chaining), `lowerAccess` (reduced values), `SingletonModeFormat::posIterBounds`, the shape of `COO` storage | windows, index sets, galloping and parallel loops over such levels; results with such levels; coordinates stored as an array of structures (`isAoS`); unordered levels |
| Omit | `visit` of `RegionNode`, `ComplementNode`, `IntersectNode`, `UnionNode`, `CallNode` in the lattice builder, `flipPoints`, `includeDimensionIterator`, `needExplicitZeroChecks`, `retrieveRegionIteratorsToOmit`, `Zero::visit(const CallNode*)`, `lowerMergeCases` with omitters, `lowerMergeCasesWithExplicitZeroChecks`, `lowerCasesFromMap`, `lowerTensorOp`, `lowerForallBody` (cases) | operands of several levels or in other formats, calls nested in other expressions, fill values other than zero, declared properties of the operator (C47), reductions with user-defined operators, parallel loops |
| Init | `hasSparseInserts`, both `initResultArrays`, `resizeAndInitValues`, `initValues`, allocation of values in `finalizeResultArrays`, `doubleSizeIfFull`, `atLeastDoubleSizeIfFull`, `lowerAssignment`, the loops around them | index arrays of the result (Assembly), scheduled loops, workspaces, results with singleton levels |
| Reduce | `makeConcreteNotation` (`RemoveTopLevelReductions`); with Init: where `scalarPromote`, `defineScalarVariable`, `resizeAndInitValues` and `initValues` make reductions start | reductions inside of other expressions (Workspace), early exit (C47) |
| Query | `SetAssembleStrategy`, `LowerAttrQuery`, `returnsTrue`, `lowerMergeCases`, the query part of `lowerAssemble`, operators on truth values as printed | results other than one dense above one compressed level; builds with assertions (they reject differences of truth values) |
| Spmm | `insertTemporaries`, `optimizeSpMM`, `lowerWhere` with a dense vector as temporary, with and without accelerator, the loops around it with the hoisted temporary | several temporaries, parallel loops, an accelerated temporary copied to a dense level |
| Order | comparison operators of index variables, windows, index sets, accesses, mode accesses and iterators; lookup and insertion in `std::map`; generated names of index variables; creation of iterators | colours and rotations of red-black trees (allowed as any re-balancing); the flag of accesses to the structure |
| Strip | split loops over compressed levels: initial positions, bounds of strips, merge loops with the derived variable as ranger, strips of nested splits, of chained levels and of exchanged loops | windows, index sets, more than two operands, lattices with omitted points, `divide` (rejected by the code for compressed operands) |
| Einsum | `EinsumParser` (constructor, `parse`, `buildResult`, all helpers), `util::split` with the delimiter `->` | the type and format of the result, messages of errors, the Python layer around the parser |
| Width | 32-bit arithmetic of `DenseModeFormat::locate`/`getAssembledSize`, `doubleSizeIfFull` with the initial capacity, bounds and recovery of split, divide and fuse, divide guards | products of sizes and element sizes in `malloc`, strides of the search helpers (module Search), `atLeastDoubleSizeIfFull`, positions of COO and RLE levels |
| CStmt | `IRPrinter::visit` and `CodeGen_C::visit` on conditionals, cases, switches, stores, assignments, declarations, `for` and `while` loops with pragmas, blocks, scopes, allocations, `free`, `qsort`, `continue`, `break`, blank lines | function headers, unpacking and packing of tensors, comments, `Print`, `Yield` (coroutines), CUDA; renaming of variables (module Names); precise precedence of C's comma and assignment expressions, which are never printed |
| Memory | `Array`, `makeArray`, `TensorStorage` and its conversion to `taco_tensor_t`, `init_/deinit_taco_tensor_t`, the constructor of `TensorBase`, `pack`, `assemble`, `compute`, `unpackTensorData`, `setStorage`, `setAssembleWhileCompute`, `makeCSR` from pointers; which arrays kernels allocate | contents and sizes of arrays (C15, C42), memory inside kernels (workspaces, C62), CUDA unified memory, `Kernel::operator()` and its `unpackResults`, buffers of components, the order of destructors within one call, address reuse |
| Typed | arithmetic, conversions, comparisons and increments of `TypedComponentVal` and `TypedIndexVal` for booleans and integers; element access, `set`, `resize`, `clear`, all `push_back` variants, `==`, `<` and iterators of `TypedVector`; the layout of `Array` | arithmetic of floating-point and complex numbers (copied as bytes, compared by a parameter), alignment of the unions, `TypedIndexVal::set(TypedComponentVal)`, pointers and references kept across calls other than `push_back(v[i])` |
| Algebra/Fill | `inferFill` on expressions over accesses, literals, arithmetic, casts, calls, reductions and index variables; the regions in which such arguments are computed | intrinsic calls, calls inside of calls, data types of the literals |
| Abi | `init_taco_tensor_t`, `operator taco_tensor_t*`, `getArrays` of the mode formats, `FindVars`, `printDecls`, `printPack`, the parameters of a function, `unpackTensorData`, `unpackResults` | functions with unfolded arguments, coroutines, several results, negative numbers in index arrays, types of the values |
| Foreign | `dispatchReadTNS`, `dispatchReadMTX` and `dispatchReadSparse` on any text with machine widths and outcomes, `readRB` with the flags of the tensor, `TensorBase::pack` as far as it replaces the storage | `array` files (FileIO), reading of component values, memory limits |
| Replace | src/index_notation/index_notation_rewriter.cpp, all of it: the rewriter, `ReplaceRewriter`, `ReplaceIndexVars`, `ReplaceTensorVars`; nodes compared by address | iteration algebras of user functions, undefined expressions, relations other than splits |
| Dims | src/parser/parser.cpp `parseAssign`, `parseAccess`, `getIndexVar`: tensors by name, sizes of modes, defaults, new sizes, the check of `=` and `+=` | negative sizes, the contents of formats and types, which of several errors comes first |
| Cuda | src/codegen/codegen_cuda.cpp: `visit` of loops, `while` and `continue`, `DeviceFunctionCollector`, launch sizes, ids of blocks, warps and threads, the check of the thread id | expressions and types of CUDA code, parameters of kernels, the order of effects of different threads, pragmas, timing code, limits of the hardware |
| GpuSearch | src/codegen/codegen_cuda.cpp 89-141 (search kernels), src/lower/lowerer_impl_imperative.cpp 1032-1129 and 1167-1184 (block starts, search of a thread) | how the number of positions of a block is recovered from the schedule (given), managed memory, writing results at the end of a row |
| GpuAcc | src/codegen/codegen_cuda.cpp 142-158 (`atomicAddWarp`), 1350-1490 (atomic assignments and stores), the loop counter of `visit(const For*)` | independent scheduling of the threads of a warp beyond what the mask rules require, rounding, types that have no atomic addition, values that depend on what others added |
| Recover | src/index_notation/provenance_graph.cpp 912-954, 986-997, 1071-1160, 1261-1271, 1324-1352 (graph, recoverability), the recovery steps of `lowerForall` | values and guards of recovered variables (module Provenance), the order in which `lowerForallCloned` and workspaces recover variables |
| Notation | src/index_notation/index_notation.cpp 2732-3008 (notation checks), 2114-2129 (reduction variables); provenance_graph.cpp 956-984 | texts of reasons; window and index set modes of accesses; `isValid` is an input (its dimension rules are module Dims) |
| Unroll | src/lower/lowerer_impl_imperative.cpp 647-764 (recovery and guards), 899-1005 (copies of unrolled and vectorized loops); provenance_graph.cpp 213-247, 349-395, 1324-1391 | fuse, bound and pos relations; loops over compressed levels; overflow; what the C compiler does with pragmas |
| Numpy | python_bindings/pytaco/pytensor/taco_tensor.py 829-866, 1032-1075, 1461-1475, 2251-2325, 2361-2822; pyIndexNotation.cpp 392-427 | formats and types of results; the code that C++ generates for the assignment (C21, C63); `einsum` (C13); conversion of arrays |
| PyArray | python_bindings/src/pyTensor.cpp 22-149, 228-252, 340-379; taco_tensor.py 390-397, 517-714, 853; src/tensor.cpp 295-304, 465-470, 685-693, 860-881 | how pybind11 chooses among component types; `to_sp_csr` (packing: C01); GPU memory; complex numbers |
| Rewrite | src/ir/ir_rewriter.cpp 16-512; src/ir/ir.cpp 246-890 (constructors); src/ir/workspace_rewriter.cpp 17-62 | assertions in constructors; reference counts; the clauses of `Case` and `Switch` are two lists |
| Directive | tools/taco.cpp 311-649, 1022-1029, 1157-1158; index_notation_nodes.cpp 74-80 (variables are compared by name) | the transformations; which error is reported; the text of a subexpression is part of the model of expressions |
| Options | tools/taco.cpp 713-1040; strings.cpp 10-30; format.cpp 49-55 | options for output, timing and threads are recorded as texts; which error is reported; texts of `-s` (see Schedule, Directive) |
| Generate | util/fill.h 15-315; tools/taco.cpp 1124-1126 | values; blocks (never reached from the command line); sizes whose product is not an int; what insertion does with coordinates outside |
| Library | module.cpp 29-165, 180-192; tensor.cpp 905-930; codegen_c.cpp 591-628; tools/taco.cpp 1184-1202 | headers, runtime functions, compiler flags, CUDA, OpenMP settings around calls, deletion of the temporary directory; functions that forward more than once |
| Target | target.cpp 10-80; target.h 10-42 | names of compilers; architectures beyond those in the map |
| Forest | iteration_forest.cpp 17-167; iteration_graph.cpp 50-106 | paths are given (accesses and mode orderings are not modelled); queries on free and reduction variables; printing |
| Timing | timers.h 17-77, 152-163; tools/taco.cpp 40-48, 1202-1210; tensor.cpp 829-835 | rounding of doubles (except of the tenth), the clock, cold caches, lap timers, printing |
| Paths | files.cpp 14-25; env.h 17-67; env.cpp 9-25; module.cpp 29-31, 111-146 (C); taco.cpp 933, 1410-1442, 1493-1502 | contents of files, links, permissions other than the one asked for, failures of nftw, shell characters other than blanks, CUDA's command |
| Report | error.h 26-115; error.cpp 9-66 | what calls compute between checks, effects of evaluating conditions, order of evaluation before C++17 |
| PyHash | pyFormat.cpp 8-53, 255-265 | Python's probing of dictionaries, hashes of types and variables, user-defined mode formats |
| PyExport | pyTensor.cpp 148-217, 282-312 | the copies of the arrays, evaluation of pending expressions before the conversion (Lazy) |

## Findings: properties that are false of the code

Each is a theorem with suffix `_fails` whose statement is the concrete witness.

| theorem | what happens |
|---------|--------------|
| `Search.gallop_empty_segment_fails`, `Search.binarySearchAfter_empty_segment_fails` | an empty segment at the end of the array reads one element past it |
| `Search.binarySearchAfter_duplicates_fails`, `Search.binarySearchAfter_overflow_fails`, `Search.binarySearchBefore_not_owner_fails` | limits of the search helpers outside their preconditions |
| `Provenance.split_nonzero_lower_fails` | splitting a loop that does not start at 0 recovers wrong values |
| `Provenance.bound_split_split_out_of_range_fails` | bound, split, split elides a needed guard: iterations outside the dimension |
| `Provenance.schedule_double_visit_fails` | splitting the inner loop of a split by a factor that does not divide it runs iterations twice |
| `Merge.kernel_elementwise_fails`, `Merge.lattice_covers_fails`, `Merge.merge_loops_order_fails`, `Merge.merge_loops_terminate_fails` | an operand that occurs several times (`c + a*b + a`): wrong values, wrong order, non-termination |
| `Merge.zero_rewriter_division_fails` | `x/0` is rewritten to zero |
| `Pack.pack_duplicates_fails` | `taco::pack` keeps the first of several duplicates |
| `Assembly.pack_kernel_fill_fails` | `TensorBase::pack` stores zeros, not the fill value, in dense levels |
| `Assembly.buffer_safe_fails` | packing a scalar does not reset the used byte count; the next insertion is out of bounds |
| `Assembly.append_growth_fails` | a capacity of zero is never grown |
| `Workspace.accelerate_level_fails` | `canAccelerateDenseTemp` reads `modeOrdering` as mode-to-level, wrong for cyclic orderings |
| `Iter.post_increment_fails` | `*it++` at a batch boundary has the coordinates of the next component |
| `Names.names_fails`, `Names.function_names_fails` | `a`, `a`, `a0` gives two equal names; a variable may get the name of a parameter |
| `Scoped.scoped_restore_remove_fails` | `remove` reaches an outer scope and `unscope` does not undo it |
| `Types.promotion_wide_fails`, `Types.promotion_range_fails`, `Types.global_128_swapped_fails` | int64 with float32 gives float32; int8 with uint8 gives int8; `Int128`/`UInt128` swapped |
| `Refs.handles_self_assign_fails`, `Refs.handles_child_assign_fails` | self assignment and assigning a child of the only owner use freed memory |
| `IR.simplify_mixed_fold_fails` | folding literals of different types truncates to 32 bits |
| `IR.simplify_mixed_type_fails` | `(x + 0.0) / y` becomes an integer division |
| `IR.simplify_nan_fails` | `0.0 * NaN` becomes zero |
| `IR.simplify_dead_division_fails` | a literal `1/0` in dead code kills the compiler |
| `IR.simplifyStmt_stale_copy_fails` | `b = a; while (..) { x = b; a = a + 1; }`: `b` is replaced by `a`, which has changed |
| `IR.simplifyStmt_step_fails` | a counting `for` with step 2 over 5 iterations counts 5/2 = 2 |
| `IR.simplifyStmt_reset_fails` | a loop body `s = 0; s = s + 1` becomes `s = 0; s = s + count` |
| `IR.simplifyStmt_bound_assigned_fails` | the count of a removed loop is evaluated after its start variable has changed |
| `IR.simplifyStmt_redeclared_fails` | the loop level of the first declaration is used for later declarations of the variable |
| `IR.simplifyStmt_narrowing_copy_fails` | `int8 x = y` is replaced by the wider `y` |
| `CPrint.printed_negation_fails` | `-(-x)` is printed `--x`, a decrement |
| `CPrint.printed_complex_fails` | complex literals are printed without parentheses: `x * (1 + 2i)` becomes `x * 1 + I*2` |
| `IndexText.printed_difference_fails`, `printed_difference_of_sum_fails`, `printed_quotient_fails`, `printed_integer_division_fails` | right operands lose their parentheses when an index expression is printed: `a - (b - c)` is printed `a - b - c` |
| `IndexText.printed_exponent_fails` | a printed `1e-05` is parsed as `1` |
| `IndexText.printed_underscore_fails` | a tensor name with an underscore is parsed as an access |
| `IndexText.trailing_text_fails` | the parser ignores everything after a complete assignment |
| `IndexText.lexer_complex_fails` | the lexer does not return on the word `complex` without a later `)` |
| `IndexText.lexer_complex_text_fails` | an identifier `complex` swallows text up to the next `)` |
| `Schedule.schedule_unsigned_fails`, `schedule_illegal_fails`, `schedule_complex_fails` | `8u` loses its suffix, illegal characters become the word `error`, `complex` swallows text |
| `Schedule.schedule_unclosed_brace_fails` | an unclosed `{` is not reported and merges directives |
| `Schedule.schedule_empty_arguments_fails` | `f()` has no argument at the end of a schedule and an empty one elsewhere |
| `FileIO.tns_dimensions_fails`, `tns_empty_fails` | `.tns` files lose dimensions that no component reaches, and tensors without components |
| `FileIO.tns_blank_line_fails` | a `.tns` file starting with a blank line requests a vector with `SIZE_MAX` elements |
| `FileIO.mtx_empty_fails` | a written matrix without components (`3 4 0`) is read as a vector with 4 components, behind the end of an empty array |
| `FileIO.dense_round_trip_fails` | dense matrices are written row by row and read column by column |
| `FileIO.dense_symmetric_fails`, `dense_symmetric_twice_fails` | symmetric array files: lower triangles are read behind the end, full matrices are inserted twice |
| `LoopOrder.loop_order_repeated_fails` | two accesses to one tensor make the loop order fail although an order exists |
| `LoopOrder.loop_order_attributes_fails` | automatic ordering gives all loops the merge strategy and unroll factor of the outermost |
| `LoopOrder.dimension_check_sized_fails` | a mode sized by its own variable disables the dimension check for that variable, depending on the order of the accesses |
| `Algebra.identity_repeated_position_fails` | an identity that is declared with a repeated position makes a call collapse to the identity although another argument has another value |
| `Algebra.zero_call_fill_fails` | an exhausted operand of a user-defined operator is replaced by zero instead of its fill value |
| `Algebra.inferred_space_positional_fails` | with an identity declared for some positions the fill values are not looked at, and points are skipped where the operator's value is not the identity |
| `Algebra.early_exit_no_reduction_fails` | with no reduction loop the early exit leaves the loop over the result's components, and the remaining components are not computed |
| `Algebra.early_exit_position_fails` | the early exit ignores the positions of the annihilator |
| `Intrinsic.zero_preserving_mod_fails` | `mod` declares its second argument zero-preserving; a remainder by zero is an error |
| `Intrinsic.zero_preserving_pow_fails` | `pow` declares its base zero-preserving; 0 to the power 0 is 1 |
| `Intrinsic.zero_preserving_mixed_fails` | `lt` of a signed and an unsigned argument is declared zero-preserving in the second; -1 < 0 holds |
| `Intrinsic.lower_pow_fails` | a literal zero as base is lowered to 0 whatever the exponent, while the same call with a base that is not a literal gives 1 for exponent 0 |
| C39 | inserting into a tensor whose assignment is pending: the first read shows only the insertion, the second only the assignment (`insert_pending_fails`) |
| C39 | inserting into a computed tensor that was never packed loses the computed components (`insert_computed_fails`); components inserted before an assignment come back later (`insert_stale_fails`) |
| C39 | a tensor defined by itself recurses without end when read (`self_assignment_fails`) |
| C39 | destroying a tensor whose assignment is pending, or that was assigned twice, makes the next insertion into an operand dereference an expired pointer (`destroyed_*_fails`) |
| C39 | `setStorage` does not sync waiting tensors (`set_storage_fails`); `compute` does not check that `assemble` ran (`compute_unassembled_fails`) |
| `a = b(i) + c(j) + d(k)` (three or more terms) in einsum notation sums the first two terms together, so that `b(i)` is also summed over `j` | `Verif.Concrete.three_terms_fails` |
| `a(i) = sum(i, b(i))` is accepted as reduction notation but the concrete statement has two loops over the same variable and computes something else | `Verif.Concrete.shadowed_fails` |
| reorder can return a statement that contains an undefined statement, without an error, when loops of the pattern are in producer and consumer of a where | `Verif.Concrete.reorder_broken_fails` |
| precompute: a loop around the new where that the consumer does not use loses its accumulation (`k,i,j: A(i,j) += D(i,j)*B(i,j,k)`, precompute `B` over `j`) | `Verif.Concrete.precompute_outer_fails` |
| precompute: terms next to the precomputed one are counted once instead of once per iteration of a producer-only loop | `Verif.Concrete.precompute_nonlinear_fails` |
| precompute over a variable that is not innermost makes a statement with an unbound variable, without an error | `Verif.Concrete.precompute_unbound_fails` |
| precompute: a workspace indexed by variables that the expression does not use is overwritten, not accumulated | `Verif.Concrete.precompute_disjoint_fails` |
| precompute drops loops whose variable nothing uses | `Verif.Concrete.precompute_dropped_fails` |
| an index variable used as a value is compared without the renaming, so `A(i,j) = i` and `A(j,i) = i` are isomorphic and the cached kernel of one is used for the other | `Verif.Kernel.isomorphic_index_fails`, `Verif.Kernel.cache_index_fails` |
| fill values are not compared by isomorphic, so a kernel made for one fill value is reused for another | `Verif.Kernel.isomorphic_fill_fails` |
| the kernel cache ignores assembleWhileCompute: a kernel that does not assemble is returned when one that does was asked for, and conversely | `Verif.Kernel.cache_flag_fails` |
| after precomputing an operand that is not read first, the kernel's parameters are in another order than the arguments it is called with: `A(i) = C(i) - B(i)` with `B(i)` precomputed computes `B(i) - C(i)` | `Verif.Concrete.precompute_params_fails` |
| NoRaces accepts a loop over a variable that no access uses; updates are lost (`∀j∀i a(i) += b(i)`, parallel over j) | `no_races_unused_fails` |
| NoRaces accepts a statement that reads the tensor it computes (`A(i,j) = A(j,i)`); the result depends on the order of iterations | `no_races_reads_result_fails` |
| With Atomics on an inner reduction loop (`∀i∀j y(i) += A(i,j)*x(j)`, parallel over j) scalar promotion makes the loop accumulate into a scalar temporary, whose updates are never atomic; updates are lost | `atomics_inner_loop_fails` |
| Temporary on a loop whose result is stored at the variable of a loop inside: the reduction is generated outside of that loop and uses the variable unbound | `temporary_inner_variable_fails` |
| Temporary on a loop around a where statement whose temporary is not stored at the variable: the temporary is taken for the result | `temporary_where_fails` |
| The size of a strided window is rounded down: `A(i(0,5,2))` has size 2 although it selects 0, 2 and 4; serial loops and dense levels drop the last coordinate | `window_stride_fails`, `window_dense_stride_fails` |
| The loop over CPU threads does not round down: it reports coordinate 2 for the same window, outside the dimension of the result, so it writes out of bounds | `window_thread_dimension_fails` |
| An empty segment at the end of the coordinates (empty last row) makes the search for the window read past the array | `window_empty_segment_fails` |
| A padded singleton level compares equal to an unpadded one, although assembly clears only the coordinates of the first; the kernel cache can so return a kernel that leaves padding uninitialized | `format_eq_padded_fails` |
| Formats with different types of index arrays compare equal | `format_eq_types_fails` |
| An undefined mode format is not equal to itself | `undefined_mode_refl_fails` |
| A mode ordering that is not a permutation is accepted | `ordering_not_permutation_fails` |
| `Dense(NOT_FULL)`, `Compressed(PADDED)`: properties that cannot be configured are ignored silently | `variant_ignored_fails` |
| A variant resets the allocation size, so `f()` need not equal `f` | `variant_alloc_fails` |
| A matrix in CSR and the same matrix in CSC compare unequal (components are compared in storage order) | `equals_ordering_fails` |
| Integers that differ by one part in 100000 compare equal, the comparison is not symmetric, NaN and infinity compare equal to every value | `equals_large_fails`, `equals_symmetric_fails`, `equals_nan_fails` |
| With a fill value other than zero `equals` takes explicit zeros for missing components, `at` returns zero for missing components, and `transpose` and `removeExplicitFillValues` lose the fill value | `equals_fill_fails`, `read_fill_fails`, `transpose_fill_fails`, `remove_fill_fails` |
| `transpose` accepts lists of modes that are not permutations | `transpose_repeated_fails` |
| A serial loop over fused positions takes the first stored row of a compressed level to be row 0 | `fused_first_coordinate_fails` |
| With three fused levels and an empty first row of a dense level, a serial loop reports row 0 for all components | `fused_first_row_fails` |
| With three fused levels, a chunk that starts after an empty row of a dense level reports the empty row | `fused_chunk_empty_row_fails` |
| `divide` of a fused position loop makes chunks that start after the last position; the search then loads coordinates after the end of the array | `fused_divide_fails` |
| Fusing inner levels only: every iteration of the outer loop visits the components of all rows | `fused_inner_fails` |
| `mergeby(i, Gallop)`: after a common coordinate at the end of an array the loop reads one element past the end of it (`taco_gallop` loads before it compares) | `Gallop.gallop_past_end_fails` |
| `mergeby(i, Gallop)` with a windowed access searches for the coordinate without the offset of the window and does not terminate | `Gallop.gallop_window_fails` |
| `mergeby(i, Gallop)` over levels with duplicates (COO) misses common coordinates or does not terminate | `Gallop.gallop_duplicates_fails`, `Gallop.gallop_duplicates_unique_fails`, `Gallop.gallop_duplicates_leaf_fails` |
| a window on a level with duplicates: duplicates are compared with the coordinate relative to the window, so that the level is not advanced; the loop may not terminate | `Gallop.window_duplicates_fails` |
| a window on a level below one with duplicates: coordinates before the window are visited with negative coordinates | `Gallop.window_chained_fails` |
| an index set is read in increasing order, whatever the order given: `b(i({4, 1}))` is `b(1), b(4)` | `IndexSet.dense_order_fails`, `IndexSet.sparse_order_fails` |
| an index set with a repeated index: a dense loop reads past the end of the packed set; components of compressed modes are shifted | `IndexSet.dense_repeated_fails`, `IndexSet.sparse_order_fails` |
| indices of an index set are not checked against the dimension: a dense mode is read outside of its array | `IndexSet.dense_outside_fails` |
| the program `y(i) = c(i) + a(i)*b(i) + a(i)` delivers a component twice and loses a sum | `EndToEnd.compute_repeated_fails` |
| a dense level below a level that is not unique, `{Compressed(not unique), Dense}`: only the first of the duplicates is read | `Coo.dense_below_duplicates_fails` |
| a full level iterated by position (`Compressed(FULL)`) merged with a level that is not unique: the deduplication loop skips a position that belongs to a later coordinate, a value is lost | `Coo.full_merger_duplicates_fails` |
| `¬A ∪ (A ∩ B)`: where only `B` is stored it is passed to the operator as zero | `Omit.uncovered_complement_fails` |
| `A ∪ (B ∩ C)`: where `A` and `C` are stored, `C` is passed to the operator as zero | `Omit.uncovered_union_fails` |
| `A ∪ (B ∩ ¬C)`: coordinates stored by `A` and `C` are skipped | `Omit.uncovered_skip_fails` |
| a description such as `¬A ∩ (A ∪ B)` fails an assertion of the lowering although the equal `B ∩ ¬A` is compiled | `Omit.region_not_in_space_fails` |
| `A ∩ ¬A` is evaluated at every coordinate of `A` | `Omit.empty_space_fails` |
| an explicit zero of an operand counts as stored or not depending on whether the other operand is exhausted | `Omit.explicit_zero_fails` |
| the special definition for one operand is used where no operand is stored, and not used where it should be, once another operand is exhausted | `Omit.special_everywhere_fails`, `Omit.special_three_fails` |
| assembling while computing, `A(i,j) = B(i,k)*C(k,j)` with `A` in {compressed, dense} and loops i, k, j: the row is set to zero again for every `k`, and not at all if row `i` of `B` is empty, where old memory shows through | `Init.summation_above_dense_level_fails` |
| assembling while computing into {compressed, dense, dense} with the two dense loops swapped: the block is set to zero again for every iteration of the outer one | `Init.order_of_dense_loops_fails` |
| `a(i) += b(i)` sets `a` to zero before adding, so it is the same as `=` (the repository's test of it is disabled) | `Init.accumulate_fails` |
| `sum(i, Reduction(max, j, e))` is lowered as one maximum over `i` and `j`: only the operator of the innermost reduction survives | `Reduce.mixed_operators_fails` |
| a minimum over an innermost loop starts from 0 instead of infinity, whatever the fill value of the result; with the reduction loop outermost it starts from the fill value, so the result depends on the order of the loops | `Reduce.innermost_reduction_fails`, `Reduce.default_fill_fails` |
| reductions into compressed results and scalars start from 0 whatever the operator | `Reduce.scalar_reduction_fails` |
| two-phase assembly counts no components for `-A(i,j)`: the negated truth value is printed as `!`, so all insertions are out of bounds | `Query.negation_fails` |
| two-phase assembly counts `A - B` as `1 - 1` where both are stored, and as `!1` where only B is | `Query.subtraction_fails` |
| two-phase assembly adds the value of a literal factor to the number of components: two per component for `2*A`, none for `1/2*A`; under a sum over products with factor -1 the flag of a component is reset by every second product | `Query.literal_factor_fails`, `Query.factor_in_sum_fails` |
| `-A + B` by two-phase assembly: too few components are counted in a row, the next row begins too early, a component is overwritten and another delivered twice, without any error | `Query.negated_operand_fails` |
| the temporary inserted into matrix products is built from tensors, not from accesses: windows, strides and index sets of the operands and the result are dropped without an error when the result is in CSR | `Spmm.windows_are_dropped_fails`, `Spmm.index_sets_are_dropped_fails` |
| the temporary inserted into matrix products always adds: `Reduction(op, k, B(i,k)*C(k,j))` with another operator is compiled as a sum when the result is in CSR | `Spmm.reductions_become_sums_fails` |
| `operator<` of index sets and of accesses is not an order: two accesses of a tensor can each be smaller than the other, for index sets depending on heap addresses; `levelIterator` then does not find an access of the statement | `Order.access_order_fails`, `Order.lookup_fails` |
| index variables are compared by name, and `IndexVar()` generates `i<n>` without regard to names given by the user: `IndexVar j, i("i0")` can be one variable | `Order.index_variables_fails` |
| the root iterator of an access has a generated variable `i<n>`; if the access uses a variable with that name, comparing iterators reads through a null pointer | `Order.iterators_fails` |
| a split loop over the sum of two sparse rows can visit a component in several strips: when one operand is exhausted, the first coordinate of its next row is taken for its coordinate, so the strip is not ended; reductions then add the component more than once | `Strip.split_union_fails`, `Strip.split_union_empty_fails` |
| a split loop over the last segment of a compressed level reads one entry behind the coordinate array, always | `Strip.split_overread_fails` |
| two splits of a compressed dimension whose factors do not divide visit components twice | `Strip.nested_fails` |
| a split loop over the columns of a coordinate matrix starts every strip at the beginning of the row, so components are visited again in every later strip | `Strip.chained_fails` |
| exchanging the two loops of a split over a compressed operand recovers the outer variable without dividing by the factor: components are visited several times or never | `Strip.reordered_fails` |
| an einsum string for a single scalar (`->`, `...`) takes the first element of an empty vector: undefined behaviour | `Einsum.scalar_fails` |
| an output that consists of an ellipsis standing for no dimension is rejected, since an empty output is taken for a missing one (`i...,i...->...` on vectors) | `Einsum.empty_output_fails` |
| an ellipsis for more dimensions than there are unused letters moves an iterator in front of its string | `Einsum.letters_fails` |
| `->i` is read as `i->`: the vector is summed instead of reporting an unknown output letter | `Einsum.missing_input_fails` |
| `ij>-` is accepted, with `>` and `-` as indices | `Einsum.reversed_arrow_fails` |
| a comma in the output raises `std::out_of_range` instead of a parse error | `Einsum.comma_output_fails` |
| the dimension check of the einsum parser looks up the position instead of the letter and never finds a mismatch; repeated letters are accepted | `Einsum.dimension_check_fails`, `Einsum.repeated_letter_fails` |
| allocating a result with an empty level can overflow although it has no components (65536 x 65536 x 0) | `Width.size_empty_fails` |
| appending more than 2^30 components overflows the capacity although all positions fit | `Width.append_fails` |
| repeated splits overflow in padded iterations, which are recovered before they are skipped (2^30 iterations split by 2^15, outer loop split by 2^20) | `Width.padding_fails` |
| fusing loops of 65536 iterations each overflows | `Width.fuse_fails` |
| a conditional with an `else` whose first branch is a conditional without one: C attaches the `else` to the inner one (printer; whether lowering makes such statements is not established: it wraps most branches in blocks) | `CStmt.dangling_else_fails` |
| a conditional whose first branch prints nothing swallows the statement after it (printer; not established for lowering) | `CStmt.empty_branch_fails` |
| a guarded atomic assignment prints `if (c) #pragma omp atomic` on one line, which is not C (`lowerAssignment` builds it for a guarded scalar reduction in a parallel loop with atomics) | `CStmt.atomic_branch_fails` |
| positions and coordinates of every compressed or singleton result are never freed (`unpackTensorData` wraps them as `UserOwns`), and no fill value of a structure is: each evaluation of a sparse result leaks | `Memory.index_arrays_fails` |
| after `setAssembleWhileCompute(true)`, a module from the cache that was compiled without it makes `compute` wrap the values a second time: they are freed while in use and freed twice | `Memory.double_free_fails` |
| `compile(stmt, true)` on a tensor without `assembleWhileCompute`: the result of `compute` is dropped and the tensor holds unset values | `Memory.lost_result_fails` |
| `assemble()` with `assembleWhileCompute` set allocates index arrays and values that are dropped | `Memory.assemble_twice_fails` |
| the same values given (`Array::Free`) to two tensors are freed twice; not checked | `Memory.given_twice_fails` |
| reading an element through a typed reference copies the whole union (16 bytes for components, 8 for indices): the last elements of every array of a smaller type are read behind the end of the array | `Typed.reads_inside_fails` |
| `a - b` of signed numbers negates `b` first, which overflows for the smallest number although the difference is representable | `Typed.difference_fails` |
| products of `uint16` numbers overflow `int` | `Typed.product_fails` |
| the 128-bit integer types are stored in and computed with 64 bits | `Typed.wide_fails` |
| `++x` returns the number before and `x++` the number after the increment (values, references and pointers) | `Typed.increments_fails` |
| comparing an unsigned number of at least `2^31` with an `int` casts it to `int`: 3000000000 is not above 5, 4294967301 is equal to 5 | `Typed.int_comparisons_fails` |
| `<` is the negation of `>=`: a NaN is below every number and every number below it, so vectors that hold one are not ordered | `Typed.nan_fails`, `Typed.nan_order_fails` |
| `push_back(2.5)` and `set(i, 2.5)` on a vector of floating-point numbers store 2; large integer constants are truncated to 32 bits | `Typed.push_fraction_fails`, `Typed.push_large_fails` |
| `v.push_back(v[i])` reads freed memory when the vector grows | `Typed.push_own_fails` |
| `size()` of a vector without a type divides by zero | `Typed.undefined_size_fails` |
| the fill value inferred for a product or quotient inside of an operator's argument is wrong outside of the region in which both factors are stored, when one fill value is not zero | `Algebra.inferred_fill_product_fails`, `Algebra.inferred_fill_quotient_fails` |
| inferring the fill value of an argument dereferences a null pointer when a cast, reduction or index variable is an operand of an addition, product or negation in it | `Algebra.inferred_fill_crash_fails` |
| kernels read all index arrays as `int*`, whatever type the format gives them | `Abi.index_type_fails` |
| `Kernel::operator()` and `Kernel::assemble` abort for results with singleton levels (COO), which tensors can take back | `Abi.kernel_singleton_fails` |
| two tensors with the same name, or a tensor named like an array of another (`B` and `B1_pos`): the generated code does not compile | `Abi.same_name_fails`, `Abi.tensor_name_fails` |
| workspaces keep their names in the generated code: two with the same name are one variable | `Abi.pointer_name_fails` |
| `read` of a `.rb` file packs the tensor (by default, or when it is first used): the arrays just read are replaced by the empty insertion buffer, and the matrix is zero | `Foreign.rb_packed_fails` |
| fields of a `.rb` file that touch each other, as its fixed widths allow, are read as one number | `Foreign.rb_widths_fails` |
| a `.tns` file whose first line is separated by tabs is read as a scalar; a blank before its carriage return adds a mode | `Foreign.tns_tab_fails`, `Foreign.tns_blank_return_fails` |
| empty lines, comments, coordinates counted from zero and short lines of `.tns` files become components, with negative coordinates | `Foreign.tns_empty_line_fails`, `Foreign.tns_comment_fails`, `Foreign.tns_zero_based_fails`, `Foreign.tns_short_line_fails`, `Foreign.tns_wrapped_fails` |
| `.mtx` files: an empty line before the dimensions and missing entries are undefined behaviour; comments between entries become entries; entries outside of the dimensions are accepted; surplus entries are dropped | `Foreign.mtx_empty_line_fails`, `Foreign.mtx_truncated_fails`, `Foreign.mtx_comment_fails`, `Foreign.mtx_outside_fails`, `Foreign.mtx_surplus_fails` |
| `replace` with a map of expressions never replaces a cast | `Replace.replace_cast_fails` |
| `replace` with a map of index variables leaves the variables of reductions, relations and yields as they are, so the statement refers to variables that no loop binds | `Replace.rename_reduction_fails`, `Replace.rename_relation_fails`, `Replace.rename_yield_fails` |
| renaming the variables of an access of structure makes it an access of values | `Replace.rename_structure_fails` |
| `replace` with a map of tensors drops windows and index sets on both sides of assignments, and does not replace assembled results | `Replace.replace_tensor_window_fails`, `Replace.replace_result_window_fails`, `Replace.replace_assembled_fails` |
| a tensor that the command line expression indexes with different variables can become two tensors of one name and of different sizes (`a = B(i)*c(i) + B(j)`), or override `-d=j:5` | `Dims.two_tensors_fails`, `Dims.variable_size_fails` |
| `-d` for the result is overridden without a message, and not used for the operands | `Dims.result_size_fails`, `Dims.result_ignored_fails` |
| `A(i) += B(i)` does not check sizes: kernels access arrays out of bounds | `Dims.accumulate_unchecked_fails` |
| `-d` with fewer sizes than modes reads behind a vector | `Dims.order_unchecked_fails` |
| CUDA code prints `continue` as `break`: a strided window loses everything after the first coordinate off the stride, on the host and in kernels | `Cuda.host_filter_fails`, `Cuda.kernel_filter_fails` |
| CUDA code for a row that is split by position and shared by threads loses components: a thread whose first position lies before the row leaves the loop over the chunks | `Cuda.chunks_fails` |
| `continue` inside a `while` loop of a kernel is printed as `return` and ends the thread | `Cuda.while_fails` |
| the end of a window in a loop that is given to threads is a `break` outside of every loop | `Cuda.window_end_fails` |
| the number of threads and warps is rounded down: iterations are lost if the step does not divide the range | `Cuda.rounding_fails` |
| a reduction over warps is done by every thread of the first warp | `Cuda.warp_reduction_fails` |
| a GPU thread that starts after the last component reads the coordinates of a compressed level out of bounds | `GpuSearch.thread_past_end_fails` |
| searching the starts of blocks overflows if the rounded up number of components does not fit an int | `GpuSearch.last_block_overflow_fails` |
| GPU threads over three levels start in the wrong row after empty rows | `GpuSearch.empty_row_fails` |
| an addition of a warp under a condition that only some threads meet is undefined: the mask names threads that do not take part | `GpuAcc.condition_fails` |
| additions in `while` loops of a kernel use the warp although its threads leave the loop at different times | `GpuAcc.while_fails` |
| additions marked for warps inside loops of different lengths are undefined | `GpuAcc.marked_fails` |
| atomic products read once and compare-and-swap once: concurrent factors are lost | `GpuAcc.multiply_fails` |
| splitting a loop and fusing the pieces again: the kernel never declares the original variable | `Recover.joined_fails`, `Recover.joined_never_declared` |
| the same below another split: the kernel computes a variable from one that is declared nowhere | `Recover.joined_order_fails` |
| `isReductionNotationScheduled` never uses the relations: the value it computes from them is overwritten | `Notation.scheduled_same`, `Notation.scheduled_reduction_fails` |
| `isConcreteNotation` counts loops that have ended when it decides what can be recovered: a variable used outside of all loops is accepted | `Notation.sibling_fails` |
| `isConcreteNotation` never asks for a loop over variables that commands introduced | `Notation.derived_fails` |
| `isConcreteNotation` does not look at yielded coordinates, and not at dimensions inside of where statements | `Notation.yield_fails`, `Notation.where_dimensions_fails` |
| `split(i,i0,i1,8).split(i0,i2,i3,4).unroll(i3,..)`: for a dimension of 50 the kernel runs up to coordinate 63: the condition between the copies leaves out the range of `i1` and takes 0 for `i0` | `Unroll.unroll_middle_fails` |
| the same after `reorder(i2,i1,i3)` with the innermost loop unrolled | `Unroll.unroll_reordered_fails` |
| with two open variables, the offset of the first one is added for both: the second one runs behind its dimension | `Unroll.unroll_two_variables_fails` |
| `a // b` raises an exception for all types: the test asks for a type that is signed and unsigned | `Numpy.floordiv_fails` |
| `tensor_sum` with a tuple of axes, as documented, always raises an exception; so do negative axes | `Numpy.sum_tuple_fails`, `Numpy.sum_negative_fails` |
| modes of size 1 are not repeated as in NumPy | `Numpy.broadcast_one_fails` |
| `tensordot` accepts an axis given twice and adds components off the diagonal | `Numpy.tensordot_repeated_fails` |
| a Python number becomes a single precision tensor: `t + 16777217` is not exact for 64-bit integers and doubles | `Numpy.number_fails` |
| `np.array(t, copy=False)` of a column-major 2×3 tensor (as made by `from_array` of a Fortran array) has wrong strides and reads behind the tensor's memory | `PyArray.export_fails`, `PyArray.export_cyclic_fails` |
| `t[-1]` is accepted and reads 0 | `PyArray.negative_index_fails` |
| `insert` into a tensor made by `from_array`, `from_sp_csr` or `from_sp_csc` deletes all its values: `setStorage` leaves `neverPacked` set | `PyArray.insert_array_fails` |
| a scalar after two insertions reads as their sum once and as the last one afterwards | `PyArray.scalar_insert_fails` |
| `from_array(view, copy=False)` of a view that is not contiguous keeps a pointer to a temporary array | `PyArray.view_fails` |
| `t + f(a)`: the new array is borrowed, freed at the end of the statement and read when the result is computed | `PyArray.dropped_fails` |
| `from_sp_csr` keeps repeated entries, of which reads deliver the first | `PyArray.duplicates_fails` |
| operands of `BinOp` (user-defined operators) are not replaced by any pass: copy propagation removes the declaration of a position that the operator still uses, and the kernel does not compile | `Rewrite.operator_fails` |
| coordinates of `Yield` and the old size of a reallocation are not replaced | `Rewrite.yield_fails`, `Rewrite.old_size_fails` |
| every rewritten atomic store or assignment loses its parallel unit (`GPUWarp` becomes `NotParallel`) | `Rewrite.atomic_unit_fails` |
| a rewritten minimum of operands of different types gets the type of the first | `Rewrite.minimum_type_fails` |
| the dimension of a tensor with the name of a workspace is replaced by the workspace's size | `Rewrite.workspace_name_fails` |
| `pos` with a tensor that is not an argument is ignored without a message, even if the variable does not exist | `Directive.pos_unknown_tensor_fails`, `Directive.ignored_iff` |
| no directive reaches the second access of a tensor that occurs twice | `Directive.pos_second_access_fails` |
| factors and bounds: `4x` is read as 4, `-1` as 2^64 - 1, and 0 is passed on | `Directive.number_suffix_fails`, `Directive.number_sign_fails`, `Directive.zero_factor_fails` |
| `precompute` of an expression that does not occur (or is a call or a literal) passes an undefined expression on | `Directive.precompute_missing_fails` |
| `precompute` from the command line always makes a workspace of doubles: 64-bit integers lose their low bits | `Directive.precompute_type_fails` |
| the command line accepts mode orderings that are no permutations (`-f=A:ds:0,0`, `5,-7`) | `Options.ordering_fails` |
| a number that is none in `-f` or `-d` ends the tool with an uncaught exception | `Options.number_fails` |
| `-d=A:10x,-5` is accepted as sizes 10 and -5, and `-d=A:5,,7` as 5 and 7 | `Options.sizes_fails` |
| `-d=A`, an empty argument and `=` read behind the end of a vector | `Options.missing_fails` |
| packs whose last bound is before the last mode read behind the end of a vector | `Options.packs_fails` |
| a misspelled option is taken as the expression | `Options.misspelled_fails` |
| a second `-f`, `-t`, `-d`, `-g`, `-i` or `-o` for the same name is ignored without a message | `Options.second_fails` |
| `-g=B:dog` is read as `-g=B:d`, and `-c=no` as `-c` | `Options.rest_fails` |
| a random matrix (`-g=B:r`) that is not square always has coordinates outside the matrix | `Generate.random_fails` |
| a finite element matrix (`-g=B:f`) with fewer columns than rows has coordinates outside; without rows, (-1, -1) | `Generate.fem_columns_fails`, `Generate.fem_empty_fails` |
| column slices (`-g=B:v`) of matrices with more columns than rows read behind the end of a vector | `Generate.slicing_columns_fails` |
| sparse tensors of order 3 use the first size for all modes: coordinates outside, or reading behind the end of a vector | `Generate.sparse3_outside_fails`, `Generate.sparse3_read_fails` |
| sparse vectors repeat coordinate 0: positions begin with as many zeros as the vector has elements | `Generate.sparse_vector_fails` |
| blocked matrices (`-g=B:b`, in the help) always end the tool with an exception: there is no factor for them | `Generate.blocked_fails` |
| `compileSource` on a tensor that was compiled, or a second time, always fails, for ever: functions that unpack arguments are defined twice | `Library.compileSource_again_fails` |
| a library that cannot be loaded replaces the one before: later calls are of null pointers | `Library.unresolved_fails` |
| the tool with `-prefix` and a benchmark can never load its kernel: shims call functions without the prefix | `Library.kernel_prefix_fails` |
| names of modules are random without a test: equal names run the code of the other module | `Library.same_path_fails` |
| a text that the compiler rejected stays in the module's source, also for other tensors that share it | `Library.rejected_text_stays_fails` |
| no text constructs a `Target`: the position of the hyphen is never computed again, and the constructor throws for every text with a hyphen | `Target.construct_fails`, `Target.construct_means_fails` |
| `validateTargetString` rejects `c99-linux-x86` and accepts texts that only mention names | `Target.validate_fails` |
| `getTargetFromEnvironment` ignores the environment | `Target.environment_fails` |
| the roots of an iteration graph can have parents: of several variables that come first, all but one get below another one | `Forest.roots_fails` |
| the iteration graph depends on how `std::sort` orders variables of the same level: some orders give forests against the accesses | `Forest.unstable_sort_fails` |
| the iteration graph of accesses that fit no order of loops is never reported: an assertion fails, or the construction does not end | `Forest.unordered_no_forest`, `Forest.transposed_behind_root_fails`, `Forest.diagonal_fails` |
| repeated benchmarks (`-time=n`) measure the kernel once: later calls of `compute` return at once; from ten on the reported times are those of empty calls | `Timing.repeat_measures_nothing_fails` |
| the reported median of ten and more measurements is that of the fastest ones: the index into the sorted times leaves out the truncation | `Timing.median_of_fastest_fails`, `Timing.median_fails` |
| `-time=0` reads outside of the vector of times | `Timing.no_measurements_fails` |
| `-O` without a directory (documented as `$TMPDIR`) writes all tensors to a directory that the program removes when it ends | `Paths.output_default_fails` |
| a process that forks loses its temporary directory, with the code in it, when the child exits | `Paths.fork_fails` |
| a blank in `TMPDIR`: the command line is not quoted, so nothing can be compiled | `Paths.command_blank_fails` |
| `TMPDIR=` (empty): `back()` of an empty string; `~` without `HOME`: `replace` with a null pointer | `Paths.tmpdir_empty_fails`, `Paths.no_home_fails` |
| `~user/file` is read as a path next to the own home; `-write-source=~/file` takes `~` literally while `-o` does not | `Paths.other_user_fails`, `Paths.options_disagree_fails` |
| internal assertions and `taco_unreachable` do nothing in release builds: the call goes on with what it took for impossible | `Report.internal_goes_on_fails` |
| `taco_uwarning` throws like an error (no caller yet) | `Report.warning_fails` |
| a message that throws while its check is broken terminates the process (destructor that throws while the stack is unwound); messages are evaluated even if the check holds | `Report.message_throws_fails`, `Report.message_evaluated_fails` |
| Python: `hash(format)` reads behind the vector of packs if a pack has several modes (modes are counted, packs are indexed) | `PyHash.packed_hash_fails` |
| Python: a SciPy matrix with repeated entries, which SciPy adds, comes back from `from_sp_csr` and `to_sp_csr` with only one of them | `PyExport.repeated_entries_fails` |

## Axioms

What `#print axioms` prints for the theorems in MANIFEST.json (names without the prefix `Verif.`).

* no axioms: `Iter.iterator_counter`, `Provenance.split_nonzero_lower_fails`, `Provenance.bound_split_split_out_of_range_fails`, `Types.global_128_swapped_fails`, `Types.type_classes`, `Scoped.scoped_restore_remove_fails`, `Assembly.append_growth_fails`, `Assembly.append_growth_jump_fails`, `Format.ordering_not_permutation_fails`, `Assembly.buffer_safe_fails`, `Reduce.no_reduction`, `Width.size_empty_fails`, `Typed.negation_fails`, `Typed.nan_fails`, `Typed.undefined_size_fails`, `Numpy.floordiv_fails`, `PyArray.array_read`, `PyArray.insert_partial`, `PyArray.copy_kept`, `PyArray.insert_array_fails`, `PyArray.scalar_insert_fails`, `PyArray.view_fails`, `PyArray.dropped_fails`, `Target.made_target`, `Target.environment_fails`

* propext: `Assembly.pack_kernel_fill_fails`, `Pack.pack_duplicates_fails`, `Iter.post_increment_fails`, `Provenance.schedule_double_visit_fails`, `Provenance.derive_lo_zero`, `Concrete.reorder_broken_fails`, `Concrete.precompute_unbound_fails`, `Merge.zero_rewriter_sound`, `Merge.zero_rewriter_division_fails`, `LoopOrder.loop_order_attributes_fails`, `IR.simplify_mixed_fold_fails`, `IR.simplify_mixed_type_fails`, `IR.simplify_nan_fails`, `IR.simplify_dead_division_fails`, `LoopOrder.dimension_check_sized_fails`, `Types.promotion_defined`, `Types.promotion_idempotent`, `Types.promotion_comm`, `Types.promotion_assoc`, `Types.promotion_least`, `Types.promotion_wide_partial`, `Types.promotion_wide_fails`, `Types.promotion_range_fails`, `Types.promotion_integers`, `Scoped.scoped_contains`, `Scoped.scoped_restore`, `Scoped.scoped_restore_remove_partial`, `Refs.handles_self_assign_fails`, `Refs.handles_child_assign_fails`, `Lazy.insert_pending_fails`, `Lazy.insert_computed_fails`, `Lazy.insert_stale_fails`, `Lazy.destroyed_pending_fails`, `Lazy.destroyed_computed_fails`, `Lazy.destroyed_scalar_fails`, `Lazy.set_storage_fails`, `Lazy.compute_unassembled_fails`, `Kernel.cache_flag_fails`, `Assembly.insert_assembly_needs_distinct`, `Algebra.demorgan_normal`, `Algebra.demorgan_fixes`, `Algebra.annihilator_sound`, `Algebra.early_exit_position_fails`, `Schedule.serialize_injective`, `Tensor.transpose_repeated_fails`, `Tensor.equals_symmetric_fails`, `Tensor.equals_nan_fails`, `Fused.fused_first_coordinate_fails`, `Fused.fused_first_row_fails`, `Fused.fused_inner_fails`, `Format.format_eq_padded_fails`, `Format.format_eq_types_fails`, `Format.undefined_mode_refl_fails`, `Workspace.accelerate_level_partial`, `Format.variant_ignored`, `Format.variant_ignored_fails`, `Format.variant_alloc_fails`, `Tensor.remove_fill_fails`, `IndexSet.dense_order_fails`, `Omit.empty_space_fails`, `Reduce.reductions_preserved_partial`, `Reduce.mixed_operators_fails`, `Order.access_equal`, `Order.access_order_fails`, `Width.fuse_fails`, `Memory.double_free_fails`, `Memory.unassembled_fails`, `Memory.lost_result_fails`, `Memory.assemble_twice_fails`, `Memory.given_twice_fails`, `Typed.difference_fails`, `Typed.product_fails`, `Typed.wide_fails`, `Typed.as_index_fails`, `Typed.int_comparisons_fails`, `Typed.push_own_fails`, `Abi.level_fields`, `Abi.level_arrays`, `Abi.index_type_fails`, `Abi.kernel_singleton_fails`, `Replace.replace_cast_fails`, `Replace.rename_reduction_fails`, `Replace.rename_structure_fails`, `Cuda.rounding_fails`, `Cuda.host_filter_fails`, `Cuda.kernel_filter_fails`, `Cuda.chunks_fails`, `Cuda.while_fails`, `Cuda.window_end_fails`, `Cuda.warp_reduction_fails`, `GpuAcc.while_fails`, `GpuAcc.marked_fails`, `GpuAcc.multiply_fails`, `Notation.scheduled_same`, `Notation.scheduled_reduction_fails`, `Notation.where_dimensions_fails`, `Numpy.sum_one`, `Numpy.dot_vector`, `Numpy.broadcast_one_fails`, `Numpy.sum_tuple_fails`, `PyArray.follow_partial`, `PyArray.export_cyclic_fails`, `PyArray.duplicates_fails`, `Rewrite.kept_is_same`, `Rewrite.nothing_to_do`, `Rewrite.expr_replaced_partial`, `Rewrite.value_kept`, `Rewrite.yield_fails`, `Rewrite.old_size_fails`, `Rewrite.atomic_unit_fails`, `Rewrite.minimum_type_fails`, `Rewrite.workspace_name_fails`, `Options.format_accepted`, `Generate.order_rejected`, `Generate.sparse_vector_fails`, `Generate.fem_empty_fails`, `Generate.blocked_fails`, `Target.tokens_meaning`, `Timing.median_fails`, `Timing.no_measurements_fails`, `Paths.path_meant_partial`, `Paths.no_home_fails`, `PyExport.to_sp_order`

* propext, Quot.sound: `Search.gallop_empty_segment`, `Search.gallop_empty_segment_fails`, `Search.binarySearchAfter_duplicates_fails`, `Search.binarySearchAfter_empty_segment_fails`, `Search.binarySearchAfter_overflow_fails`, `Search.binarySearchBefore_not_owner_fails`, `Merge.kernel_elementwise_fails`, `Merge.merge_loops_order_fails`, `Merge.merge_loops_terminate_fails`, `Merge.lattice_covers_fails`, `Provenance.bound_visits`, `Provenance.bound_exact_iff`, `Concrete.forAllReplace_structure`, `Parallel.no_races_rejects`, `Parallel.no_races_accepts`, `IR.simplify_value_partial`, `IR.simplifyStmt_stale_copy_fails`, `IR.simplifyStmt_step_fails`, `IR.simplifyStmt_reset_fails`, `IR.simplifyStmt_bound_assigned_fails`, `IR.simplifyStmt_redeclared_fails`, `IR.simplifyStmt_narrowing_copy_fails`, `IndexText.printed_difference_of_sum_fails`, `IndexText.printed_quotient_fails`, `IndexText.printed_integer_division_fails`, `LoopOrder.dimension_check_partial`, `Types.type_of_bits`, `Names.names_distinct_partial`, `Names.names_extend_request`, `Names.names_fails`, `Names.function_names_partial`, `Names.function_names_fails`, `FileIO.tns_dimensions_fails`, `FileIO.tns_empty_fails`, `FileIO.dense_coord_onto`, `Lazy.self_assignment_fails`, `Kernel.cache_index_fails`, `Window.window_stride_fails`, `Window.window_thread_dimension_fails`, `Window.window_empty_segment_fails`, `Window.window_dense_stride_fails`, `Assembly.append_growth`, `Algebra.annihilator_complete`, `Algebra.early_exit_partial`, `Algebra.identity_repeated_position_fails`, `Algebra.zero_call_fill_fails`, `Algebra.inferred_space_positional_fails`, `Algebra.early_exit_no_reduction_fails`, `Algebra.inferred_fill_crash_fails`, `Kernel.isomorphic_index_fails`, `Kernel.isomorphic_fill_fails`, `FileIO.rb_block`, `Fused.fused_chunk_empty_row_fails`, `Fused.fused_divide_fails`, `Assembly.buffer_safe`, `Concrete.arguments_nodup`, `Concrete.precompute_params_partial`, `Concrete.scalar_promotion_complete`, `Format.variant_properties_partial`, `Gallop.gallop_window_fails`, `Gallop.gallop_duplicates_fails`, `Gallop.gallop_duplicates_unique_fails`, `Gallop.gallop_duplicates_leaf_fails`, `Gallop.window_duplicates_fails`, `Gallop.window_chained_fails`, `IndexSet.packed_set`, `IndexSet.packed_increasing`, `IndexSet.sparse_order_fails`, `Coo.dense_below_duplicates_fails`, `Coo.full_merger_duplicates_fails`, `Omit.explicit_zero_fails`, `Init.summation_above_dense_level_fails`, `Init.order_of_dense_loops_fails`, `Init.accumulate_fails`, `Reduce.innermost_reduction_fails`, `Reduce.default_fill_fails`, `Reduce.scalar_reduction_fails`, `Spmm.windows_are_dropped_fails`, `Spmm.index_sets_are_dropped_fails`, `Spmm.reductions_become_sums_fails`, `Order.index_variables_partial`, `Order.index_variables_fails`, `Order.index_variable_order`, `Order.access_order_partial`, `Order.access_order_windows`, `Order.lookup_fails`, `Order.iterators_partial`, `Order.iterators_fails`, `Strip.split_union_empty_fails`, `Strip.nested_fails`, `Strip.chained_fails`, `Strip.reordered_fails`, `Width.positions_iff`, `Width.positions_sound`, `Width.size_partial`, `Width.append_partial`, `Width.size_limit_fails`, `Width.append_fails`, `Memory.handed_on`, `Typed.as_index_partial`, `Typed.vectors`, `Typed.vector_equality`, `Typed.reads_inside_partial`, `Typed.push_own_partial`, `Typed.nan_order_fails`, `Typed.reads_inside_fails`, `Typed.push_fraction_fails`, `Typed.push_large_fails`, `Abi.new_struct`, `Replace.replace_nodes_partial`, `Replace.replace_expr_nodes_partial`, `Replace.replace_equals_partial`, `Replace.replace_nothing`, `Replace.rename_relation_fails`, `Replace.rename_yield_fails`, `Replace.rename_capture_fails`, `Replace.replace_tensor_window_fails`, `Replace.replace_result_window_fails`, `Replace.replace_assembled_fails`, `Dims.two_tensors_fails`, `Dims.variable_size_fails`, `Dims.result_size_fails`, `Dims.result_ignored_fails`, `Dims.accumulate_unchecked_fails`, `Dims.order_unchecked_fails`, `Cuda.launch_runs_loop_partial`, `Cuda.host_runs_loops_partial`, `Cuda.split_guard`, `GpuSearch.thread_past_end_fails`, `GpuSearch.empty_row_fails`, `GpuAcc.atomic_add_warp`, `GpuAcc.atomics_any_order`, `GpuAcc.multiply_partial`, `Recover.joined_order_fails`, `Notation.einsum_iff`, `Notation.reduction_iff`, `Notation.sibling_fails`, `Notation.derived_fails`, `Notation.yield_fails`, `Unroll.unroll_middle_fails`, `Unroll.unroll_two_variables_fails`, `Numpy.number_partial`, `Numpy.tensordot_repeated_fails`, `Numpy.number_fails`, `PyArray.from_array_keeps`, `PyArray.to_array_keeps`, `PyArray.round_trip`, `PyArray.export_partial`, `PyArray.export_symmetric_partial`, `PyArray.export_fails`, `Rewrite.stmt_replaced_partial`, `Rewrite.statements_kept`, `Rewrite.variable_gone_partial`, `Rewrite.workspaces_partial`, `Rewrite.operator_fails`, `Directive.precompute_found`, `Generate.dense_complete`, `Generate.sparse_vector_partial`, `Generate.sparse3_read_fails`, `Generate.slicing_columns_fails`, `Generate.fem_columns_fails`, `Library.loader_counts`, `Target.validate_iff`, `Target.means_accepted_partial`, `Target.findChar_first`, `Forest.roots_fails`, `Forest.unstable_sort_fails`, `Forest.diagonal_fails`, `Timing.tenth_removed`, `Timing.mean_of_kept`, `Timing.order_irrelevant`, `Timing.median_partial`, `Timing.median_of_fastest_fails`, `Timing.repeat_measures_nothing_fails`, `Paths.options_disagree_fails`, `PyExport.iteration`, `PyExport.repeated_entries_fails`

* propext, Classical.choice, Quot.sound: `Pack.tensor_pack_iterate`, `Pack.pack_walk`, `Assembly.pack_kernel_iterate_partial`, `Pack.pack_well_formed`, `Pack.pack_values_fit`, `Pack.tensor_pack_order`, `Assembly.pack_kernel_order`, `Assembly.pack_kernel_sums`, `Assembly.pack_scalar_sums`, `Pack.getSize_counts`, `Iter.iterator_delivers`, `Iter.advance_at`, `Iter.post_increment_partial`, `Search.gallop_lowerBound`, `Search.binarySearchAfter_lowerBound`, `Search.binarySearchAfter_sorted`, `Search.binarySearchBefore_owner`, `Search.binarySearchBefore_greatest`, `Merge.kernel_elementwise_partial`, `Merge.kernel_reduction_partial`, `Merge.merge_loops_events_partial`, `Merge.merge_loops_ordered_partial`, `Merge.kernel_visits_once_partial`, `Merge.lattice_covers_partial`, `Provenance.split_covers`, `Provenance.divide_covers`, `Provenance.fuse_covers`, `Provenance.bound_split_covers`, `Provenance.schedule_covers_partial`, `Provenance.posSplit_covers`, `Fused.fused_split_partial`, `Concrete.reorder_structure`, `Concrete.reorder_accepts`, `Concrete.reorder2_swaps`, `Concrete.reorder_preserves_partial`, `Concrete.reorder2_preserves_partial`, `Concrete.precompute_partial`, `Concrete.precompute_changes_result_only`, `Concrete.precompute_outer_fails`, `Concrete.precompute_nonlinear_fails`, `Concrete.precompute_disjoint_fails`, `Concrete.precompute_dropped_fails`, `Concrete.einsum_becomes_reduction`, `Concrete.einsum_reduction_partial`, `Concrete.two_terms`, `Concrete.concrete_computes`, `Concrete.concrete_no_reductions`, `Concrete.einsum_computes_partial`, `Concrete.three_terms_fails`, `Concrete.shadowed_fails`, `Merge.zero_rewriter_drops_iff`, `LoopOrder.loop_order_sound`, `LoopOrder.loop_order_complete_partial`, `LoopOrder.loop_order_storage`, `LoopOrder.loop_order_attributes_partial`, `LoopOrder.loop_order_repeated_fails`, `Parallel.no_races_partial`, `Parallel.atomics_partial`, `Parallel.atomics_outermost`, `Parallel.temporary_partial`, `Parallel.ignore_races_exclusive`, `Parallel.no_races_unused_fails`, `Parallel.no_races_reads_result_fails`, `Parallel.atomics_inner_loop_fails`, `Parallel.temporary_inner_variable_fails`, `Parallel.temporary_where_fails`, `IR.simplify_succeeds_partial`, `IR.simplifyStmt_sound_partial`, `CPrint.printed_expression_partial`, `CPrint.printed_loop_condition_partial`, `CPrint.printed_assignment_partial`, `CPrint.reads_unique`, `CPrint.printed_negation_fails`, `CPrint.printed_complex_fails`, `IndexText.printed_expression_partial`, `IndexText.printed_left_nested`, `IndexText.printed_assignment_partial`, `IndexText.printed_difference_fails`, `IndexText.printed_exponent_fails`, `IndexText.printed_underscore_fails`, `IndexText.trailing_text_fails`, `IndexText.lexer_consumes_partial`, `IndexText.lexer_complex_fails`, `IndexText.lexer_complex_text_fails`, `LoopOrder.transposition_check`, `Scoped.scoped_lookup`, `Refs.handles_partial`, `Refs.handles_count_partial`, `FileIO.tns_round_trip_partial`, `FileIO.tns_blank_line_fails`, `FileIO.mtx_round_trip_partial`, `FileIO.mtx_symmetric`, `FileIO.mtx_empty_fails`, `FileIO.dense_read`, `FileIO.dense_coord_rank`, `FileIO.dense_vector_round_trip`, `FileIO.dense_round_trip_fails`, `FileIO.dense_symmetric_fails`, `FileIO.dense_symmetric_twice_fails`, `Lazy.lazy_reads_partial`, `Lazy.lazy_reads_states_partial`, `Lazy.read_twice_partial`, `Kernel.cache_partial`, `Kernel.cache_flag_partial`, `Window.window_thread_loop_exact`, `Window.window_serial_loop_partial`, `Window.window_serial_loop_rounds_down`, `Window.window_dense_loop_partial`, `Window.window_merge_events_partial`, `Assembly.append_assembly`, `Assembly.insert_assembly`, `Assembly.insert_assembly_order`, `Assembly.store_growth`, `Algebra.demorgan_preserves`, `Intrinsic.zero_preserving_partial`, `Intrinsic.intrinsic_skipped_zero_partial`, `Intrinsic.intrinsic_vanishes_zero_partial`, `Intrinsic.lower_sound_partial`, `Intrinsic.zero_preserving_mod_fails`, `Intrinsic.zero_preserving_pow_fails`, `Intrinsic.zero_preserving_mixed_fails`, `Intrinsic.lower_pow_fails`, `Algebra.identity_sound`, `Algebra.zero_call_sound_partial`, `Algebra.inferred_space_partial`, `Algebra.inferred_fill`, `Algebra.inferred_fill_outside_partial`, `Algebra.inferred_fill_product_fails`, `Algebra.inferred_fill_quotient_fails`, `Kernel.isomorphic_computes_partial`, `Kernel.isomorphic_renamed`, `Workspace.workspace_round`, `Workspace.workspace_round_unsorted`, `Workspace.workspace_rounds`, `Schedule.schedule_parsed_partial`, `Schedule.var_list_parsed_partial`, `Schedule.schedule_unsigned_fails`, `Schedule.schedule_illegal_fails`, `Schedule.schedule_complex_fails`, `Schedule.schedule_unclosed_brace_fails`, `Schedule.schedule_empty_arguments_fails`, `Schedule.var_list_accepted_partial`, `Tensor.transpose_values_partial`, `Tensor.transpose_inverse_partial`, `Tensor.transpose_fill_fails`, `Tensor.equals_values_partial`, `Tensor.equals_finite_partial`, `Tensor.equals_exact_partial`, `Tensor.equals_ordering_fails`, `Tensor.equals_large_fails`, `Tensor.equals_fill_fails`, `FileIO.rb_round_trip`, `Fused.fused_serial_csr`, `Fused.fused_serial_partial`, `Fused.fused_chunk_partial`, `Fused.pack_no_empty`, `Fused.fused_packed_split`, `Format.format_eq_iff_partial`, `Format.format_eq_refl`, `Format.format_eq_symm`, `Format.format_eq_trans`, `Format.format_eq_layout_partial`, `Format.format_eq_padding`, `Assembly.insert_pack_history`, `Workspace.accelerate_level_fails`, `Concrete.call_correct`, `Concrete.reorder_params`, `Concrete.precompute_params_fails`, `Concrete.scalar_promotion_preserves`, `Concrete.scalar_promotion_inside`, `Concrete.scalar_promotion_old_contents`, `Format.variant_variant`, `Format.coo_shape`, `Format.isDense_iff`, `Format.init_types`, `Tensor.read_value_partial`, `Tensor.remove_zeros_partial`, `Tensor.read_fill_fails`, `EndToEnd.compute_meaning_partial`, `EndToEnd.formats_do_not_matter_partial`, `EndToEnd.compute_dense_partial`, `EndToEnd.compute_repeated_fails`, `Gallop.twoFinger_intersection_partial`, `Gallop.gallop_intersection_partial`, `Gallop.mergeby_preserves_partial`, `Gallop.twoFinger_value_partial`, `Gallop.gallop_value_partial`, `Gallop.gallop_past_end_fails`, `IndexSet.dense_partial`, `IndexSet.product_sorted`, `IndexSet.product_partial`, `IndexSet.dense_repeated_fails`, `IndexSet.dense_outside_fails`, `Coo.duplicates_loop_partial`, `Coo.duplicates_elementwise_partial`, `Coo.duplicates_reduction_partial`, `Coo.duplicates_visited_once_partial`, `Coo.coordinate_format_elementwise_partial`, `Coo.coordinate_format_reduction_partial`, `Omit.operator_loop_partial`, `Omit.union_of_all`, `Omit.uncovered_complement_fails`, `Omit.uncovered_union_fails`, `Omit.uncovered_skip_fails`, `Omit.region_not_in_space_fails`, `Omit.special_everywhere_fails`, `Omit.special_three_fails`, `Init.memory_does_not_matter_partial`, `Reduce.other_operators_partial`, `Query.counted_sizes_partial`, `Query.negation_fails`, `Query.subtraction_fails`, `Query.literal_factor_fails`, `Query.factor_in_sum_fails`, `Query.negated_operand_fails`, `Spmm.insert_temporaries_partial`, `Spmm.compute_temporary_partial`, `Spmm.spmm_product`, `Order.lookup_partial`, `Strip.split_one_partial`, `Strip.split_intersection_partial`, `Strip.split_union_partial`, `Strip.chained_partial`, `Strip.split_union_fails`, `Strip.split_overread_fails`, `Einsum.einsum_partial`, `Einsum.accepted_partial`, `Einsum.scalar_fails`, `Einsum.empty_output_fails`, `Einsum.letters_fails`, `Einsum.missing_input_fails`, `Einsum.reversed_arrow_fails`, `Einsum.comma_output_fails`, `Einsum.dimension_check_fails`, `Einsum.repeated_letter_fails`, `Width.schedule_partial`, `Width.split_iff`, `Width.fuse_iff`, `Width.padding_fails`, `Width.split_fails`, `CStmt.printed_statement_partial`, `CStmt.text_determines_partial`, `CStmt.printed_sequence_partial`, `CStmt.reads_unique`, `CStmt.dangling_else_fails`, `CStmt.empty_branch_fails`, `CStmt.atomic_branch_fails`, `CStmt.pragma_determined`, `Memory.memory_safe_partial`, `Memory.arrays_alive_partial`, `Memory.user_memory_partial`, `Memory.computed_partial`, `Memory.no_leak_partial`, `Memory.index_arrays_fails`, `Typed.sums_and_products_partial`, `Typed.int_operand_partial`, `Typed.differences_partial`, `Typed.unsigned_wraps_partial`, `Typed.constants_partial`, `Typed.increments_partial`, `Typed.comparisons_partial`, `Typed.int_comparisons_partial`, `Typed.stored_integers`, `Typed.vector_order`, `Typed.vector_order_total`, `Typed.push_constant_partial`, `Typed.increments_fails`, `Abi.prologue_partial`, `Abi.epilogue_partial`, `Abi.packed_operand`, `Abi.unpacked_result`, `Abi.call_partial`, `Abi.compute_call_partial`, `Abi.same_name_fails`, `Abi.tensor_name_fails`, `Abi.pointer_name_fails`, `Foreign.tns_any_layout_partial`, `Foreign.tns_large_rejected`, `Foreign.tns_order_rejected`, `Foreign.mtx_any_layout_partial`, `Foreign.mtx_large_rejected`, `Foreign.rb_unpacked_partial`, `Foreign.tns_tab_fails`, `Foreign.tns_blank_return_fails`, `Foreign.tns_empty_line_fails`, `Foreign.tns_comment_fails`, `Foreign.tns_zero_based_fails`, `Foreign.tns_short_line_fails`, `Foreign.tns_wrapped_fails`, `Foreign.mtx_empty_line_fails`, `Foreign.mtx_comment_fails`, `Foreign.mtx_outside_fails`, `Foreign.mtx_truncated_fails`, `Foreign.mtx_surplus_fails`, `Foreign.rb_packed_fails`, `Foreign.rb_widths_fails`, `Replace.rename_indices_partial`, `Replace.rename_indices_expr_partial`, `Replace.rename_indices_tree_partial`, `Replace.replace_tensors_partial`, `Replace.replace_tensors_tree_partial`, `Dims.expression_kept`, `Dims.one_size_partial`, `Dims.operands_kept`, `Dims.conflict_rejected`, `Dims.sizes_partial`, `GpuSearch.gpu_thread_partial`, `GpuSearch.gpu_kernel_partial`, `GpuSearch.gpu_kernel_csr`, `GpuSearch.last_block_overflow_fails`, `GpuAcc.block_adds_partial`, `GpuAcc.launch_adds_partial`, `GpuAcc.condition_fails`, `Recover.recovery_partial`, `Recover.all_variables_partial`, `Recover.joined_never_declared`, `Recover.joined_fails`, `Notation.concrete_unscheduled_partial`, `Notation.concrete_scheduled_partial`, `Notation.schedule_keeps_partial`, `Notation.accepted_declared_partial`, `Unroll.plain_in_range`, `Unroll.unroll_covers`, `Unroll.unroll_same_partial`, `Unroll.unroll_in_range_partial`, `Unroll.unroll_reordered_fails`, `Numpy.binary_accepts`, `Numpy.binary_spec`, `Numpy.unary_spec`, `Numpy.sum_accepts`, `Numpy.sum_spec`, `Numpy.sum_all`, `Numpy.matmul_accepts`, `Numpy.matmul_spec`, `Numpy.inner_accepts`, `Numpy.inner_spec`, `Numpy.inner_number`, `Numpy.dot_accepts`, `Numpy.dot_spec`, `Numpy.outer_accepts`, `Numpy.outer_spec`, `Numpy.tensordot_accepts`, `Numpy.tensordot_partial`, `Numpy.tensordot_count`, `Numpy.sum_negative_fails`, `PyArray.index_accepts`, `PyArray.index_partial`, `PyArray.from_csr_partial`, `PyArray.negative_index_fails`, `Rewrite.workspace_size`, `Rewrite.other_size_partial`, `Directive.directive_decoded`, `Directive.precompute_decoded`, `Directive.decoded_means_partial`, `Directive.directives_in_order`, `Directive.options_in_order_partial`, `Directive.ignored_iff`, `Directive.pos_unknown_tensor_fails`, `Directive.pos_second_access_fails`, `Directive.number_suffix_fails`, `Directive.number_sign_fails`, `Directive.zero_factor_fails`, `Directive.precompute_missing_fails`, `Directive.precompute_type_fails`, `Options.command_line_partial`, `Options.bad_letter_rejected`, `Options.bad_type_rejected`, `Options.ordering_fails`, `Options.number_fails`, `Options.sizes_fails`, `Options.missing_fails`, `Options.packs_fails`, `Options.misspelled_fails`, `Options.second_fails`, `Options.rest_fails`, `Options.schedule_word`, `Options.schedule_chunk`, `Generate.random_complete_partial`, `Generate.sparse_matrix`, `Generate.sparse3_partial`, `Generate.slicing_rows`, `Generate.slicing_columns_partial`, `Generate.fem_partial`, `Generate.generated_inside_partial`, `Generate.random_fails`, `Generate.sparse3_outside_fails`, `Library.calls_run_compiled_partial`, `Library.calls_run_text_partial`, `Library.calls_until_compile`, `Library.same_name_fails`, `Library.text_after_function_fails`, `Library.second_text_fails`, `Library.unresolved_fails`, `Library.compileSource_again_fails`, `Library.kernel_text_runs`, `Library.kernel_prefix_fails`, `Library.same_path_fails`, `Library.call_without_code_fails`, `Library.rejected_text_stays_fails`, `Target.construct_fails`, `Target.construct_means_fails`, `Target.validate_fails`, `Forest.forest_orders_paths_partial`, `Forest.unordered_no_forest`, `Forest.cycle_behind_root_fails`, `Forest.transposed_behind_root_fails`, `Paths.other_user_fails`, `Paths.tmpdir_where`, `Paths.tmpdir_reported`, `Paths.tmpdir_empty_fails`, `Paths.tmpdir_same`, `Paths.files_stay_partial`, `Paths.directories_apart_partial`, `Paths.exit_removes`, `Paths.debug_leaves`, `Paths.fork_fails`, `Paths.nested_fails`, `Paths.output_kept`, `Paths.output_names`, `Paths.output_default_fails`, `Paths.command_words_partial`, `Paths.command_blank_fails`, `Report.goes_on_partial`, `Report.first_reported_partial`, `Report.release_drops_internal`, `Report.internal_goes_on_fails`, `Report.warning_fails`, `Report.message_throws_fails`, `Report.message_evaluated_fails`, `PyHash.equal_same_hash`, `PyHash.hash_defined`, `PyHash.simple_hash_defined`, `PyHash.dictionary_partial`, `PyHash.packed_hash_fails`, `PyExport.to_sp_partial`, `PyExport.to_sp_value_partial`, `PyExport.scipy_round_trip_partial`, `PyExport.inserted_iterated`, `PyExport.inserted_to_sp`
